{"id": "C01", "title": "Periodic extension lines up with the offset", "statement": "adjust_data_length(tx, rx, method='extend', offset=k), when tx is shorter than rx, returns rx unchanged and a tx of exactly len(rx) elements whose i-th element is tx[(i-k) mod len(tx)], i.e. the transmitted pattern repeated periodically in both directions with its start sitting at index k (mod len(tx)); symmetrically for rx when rx is the shorter one.", "quantifier": "every non-empty pattern, every longer reference, every integer offset (negative ones included) that still leaves room for the leading part", "why_tests_cant": "a test fixes a few lengths and offsets; the modular index arithmetic can be wrong only at particular residues of offset and length", "anchors": ["qampy/core/ber_functions.py:adjust_data_length", "qampy/core/ber_functions.py:_adjust_to"]}
{"id": "C02", "title": "adjust_data_length always returns two sequences of equal length", "statement": "For every method (None, 'truncate', 'extend') and every offset the two returned sequences have the same length, so that an element-wise error count is defined.", "quantifier": "all lengths, all methods, all offsets", "why_tests_cant": "the failure only shows when the offset is a nonzero multiple of the pattern length (method None) or larger than the reference (extend)", "anchors": ["qampy/core/ber_functions.py:adjust_data_length", "qampy/core/ber_functions.py:_adjust_to"]}
{"id": "C03", "title": "sync_and_adjust returns equally long, properly aligned sequences", "statement": "sync_and_adjust(tx, rx, adjust) returns a pair of equal length; the sequence not selected by adjust is returned as it was (possibly cut at the end); the selected one is a cyclic shift / periodic extension of a fixed quarter-turn rotation of the input.", "quantifier": "all non-empty sequences, both adjust modes, any relation between the lengths", "why_tests_cant": "depends on the sign and size of the offset found by the correlation, which a test cannot enumerate", "anchors": ["qampy/core/ber_functions.py:sync_and_adjust", "qampy/core/ber_functions.py:find_sequence_offset_complex", "qampy/core/ber_functions.py:adjust_data_length"]}
{"id": "C04", "title": "Correlation offset finds the embedded sequence", "statement": "find_sequence_offset(x, y): if y occurs as a contiguous block of x and all samples of x have modulus one, then the block of x at the returned offset equals y up to one common unit-modulus factor; when y occurs in x only once up to such a factor, the true position is returned.", "quantifier": "all unit-modulus sequences x and all blocks y of them", "why_tests_cant": "ties and partial overlaps at the edges of the full correlation only matter for specific sequences", "anchors": ["qampy/core/ber_functions.py:find_sequence_offset"]}
{"id": "C05", "title": "Pattern synchronisation aligns the window it matched", "statement": "sync_rx2tx / sync_tx2rx: when an offset is returned, the Lsync-long window of the received data used for the search coincides with the transmitted data after the returned roll; when no window of the received data occurs in the transmitted data DataSyncError is raised.", "quantifier": "all bit sequences, window lengths and iteration limits", "why_tests_cant": "the search runs over a data dependent number of windows; behaviour past the end of the received data is only reached for particular lengths", "anchors": ["qampy/core/ber_functions.py:sync_rx2tx", "qampy/core/ber_functions.py:sync_tx2rx", "qampy/core/utils.py:find_offset"]}
{"id": "C06", "title": "Bit error rate is the normalised Hamming distance", "statement": "cal_ber_syncd returns the number of differing positions, that number divided by the length, and the length; it is zero iff the sequences agree, symmetric, at most one, and it raises exactly when the ratio exceeds the threshold.", "quantifier": "all equally long non-empty bit sequences, all thresholds", "why_tests_cant": "metric laws over all sequences", "anchors": ["qampy/core/ber_functions.py:cal_ber_syncd"]}
{"id": "C07", "title": "PRBS sequences have maximal period", "statement": "For each supported order n in {7,15,23,31} and every nonzero seed below 2^n, the sequence of make_prbs_extXOR is periodic with period 2^n-1 and with no smaller period.", "quantifier": "all four orders, all nonzero n-bit seeds, sequences of any length", "why_tests_cant": "order 31 has 2^31-1 seeds and a period of 2^31-1 bits; a test checks a handful of seeds of order 7 and 15", "anchors": ["qampy/core/prbs.py:make_prbs_extXOR", "qampy/core/pythran_dsp.py:prbs_ext", "qampy/core/utils.py:lfsr_ext"]}
{"id": "C08", "title": "PRBS sequences are balanced and contain every n-bit pattern", "statement": "Within one period of 2^n-1 bits every nonzero n-bit pattern occurs exactly once as a (cyclic) window, and there are exactly 2^(n-1) ones and 2^(n-1)-1 zeros.", "quantifier": "all four orders, all nonzero seeds", "why_tests_cant": "same exhaustive size as C07", "anchors": ["qampy/core/prbs.py:make_prbs_extXOR", "qampy/core/pythran_dsp.py:prbs_ext"]}
{"id": "C09", "title": "PRBS generator: prefix consistency, recurrence, zero seed", "statement": "Asking for N bits gives the first N bits of what asking for more would give; from the first bit on each output bit is the XOR of the two earlier output/seed bits named by the tap table; the zero seed gives only zeros; the generator form (lfsr_ext) yields the same bits as the array form (prbs_ext).", "quantifier": "all orders, all seeds, all lengths", "why_tests_cant": "all lengths and seeds", "anchors": ["qampy/core/prbs.py:make_prbs_extXOR", "qampy/core/pythran_dsp.py:prbs_ext", "qampy/core/utils.py:lfsr_ext"]}
{"id": "C10", "title": "Square QAM constellation is the full odd lattice", "statement": "cal_symbols_square_qam(M) for M=4^N returns exactly the M points a+jb with a,b odd integers of absolute value at most 2^N-1, each once.", "quantifier": "all N >= 1", "why_tests_cant": "orders grow without bound", "anchors": ["qampy/theory.py:cal_symbols_square_qam", "qampy/theory.py:cal_symbols_qam"]}
{"id": "C11", "title": "QAM scaling normalises average power to one", "statement": "For every even-bit order the average of |s|^2 over the unscaled constellation equals cal_scaling_factor_qam(M) = 2(M-1)/3, so that the symbols divided by its square root have mean power one and zero mean; the same for the odd-bit (cross) orders.", "quantifier": "all M = 2^k, k >= 2", "why_tests_cant": "closed formula against a sum over 2^k points for every k", "anchors": ["qampy/theory.py:cal_scaling_factor_qam", "qampy/theory.py:cal_symbols_qam", "qampy/signals.py:SignalQAMGrayCoded"]}
{"id": "C12", "title": "Cross QAM constellation is a valid constellation", "statement": "cal_symbols_cross_qam(M), M = 2^(2N+1), returns M distinct odd-lattice points, closed under negation and complex conjugation (and under quarter turns for N >= 2), all inside the square of half width 3*2^(N-1).", "quantifier": "all N >= 1", "why_tests_cant": "geometric relocation of the outer columns has to be collision free for every size", "anchors": ["qampy/theory.py:cal_symbols_cross_qam"]}
{"id": "C13", "title": "Gray labelling is a bijection", "statement": "For every M = 2^k the label list gray_code_qam(M) contains each of 0..M-1 exactly once; hence coded_symbols is a permutation of the constellation and every bit pattern of log2 M bits labels exactly one symbol.", "quantifier": "all k >= 1", "why_tests_cant": "infinite family of orders", "anchors": ["qampy/theory.py:gray_code_qam", "qampy/core/utils.py:bin2gray", "qampy/signals.py:SignalQAMGrayCoded._generate_mapping"]}
{"id": "C14", "title": "Gray property of square QAM", "statement": "For even-bit orders two constellation points at minimum distance carry labels differing in exactly one bit.", "quantifier": "all N >= 1, all neighbouring pairs", "why_tests_cant": "infinite family of orders", "anchors": ["qampy/theory.py:gray_code_qam", "qampy/theory.py:cal_symbols_square_qam"]}
{"id": "C15", "title": "Modulation/demodulation round trip", "statement": "demodulate(modulate(bits)) returns the input bits with the incomplete last symbol removed; modulate(demodulate(symbols)) is the identity on sequences of constellation points.", "quantifier": "all orders, all bit sequences, any length", "why_tests_cant": "all bit sequences", "anchors": ["qampy/signals.py:SignalQAMGrayCoded._modulate", "qampy/signals.py:SignalQAMGrayCoded._demodulate", "qampy/signals.py:SignalQAMGrayCoded._generate_mapping"]}
{"id": "C16", "title": "Decisions are minimum distance decisions", "statement": "make_decision returns, for every sample, a constellation point at minimal distance (the first one in case of a tie); constellation points are left as they are (idempotence); if every sample is closer than half the minimum distance to the transmitted point, the decision recovers the transmitted sequence exactly.", "quantifier": "all constellations, all signals, all noise realisations bounded by half the minimum distance", "why_tests_cant": "all real inputs", "anchors": ["qampy/core/equalisation/pythran_equalisation.py:make_decision", "qampy/signals.py:SignalQAMGrayCoded.make_decision"]}
{"id": "C17", "title": "Bit-map matrix splits the constellation in halves", "statement": "generate_bitmapping_mtx: for every bit position the two columns hold exactly the symbols whose label has a 0 resp. 1 there; each has M/2 entries and together they are the whole constellation.", "quantifier": "all orders and bit positions", "why_tests_cant": "infinite family", "anchors": ["qampy/core/signal_quality.py:generate_bitmapping_mtx"]}
{"id": "C18", "title": "Max-log soft decisions agree with hard decisions", "statement": "The sign of the max-log L-value of a bit (soft_l_value_demapper_minmax) is the value of this bit in the label of the nearest constellation point, whenever the L-value is nonzero.", "quantifier": "all constellations, samples, positive SNR values", "why_tests_cant": "all real inputs", "anchors": ["qampy/core/pythran_dsp.py:soft_l_value_demapper_minmax"]}
{"id": "C19", "title": "Max-log L-value error bound", "statement": "The exact L-value (soft_l_value_demapper) and the max-log L-value differ by at most log(M/2).", "quantifier": "all constellations, samples, positive SNR", "why_tests_cant": "all real inputs", "anchors": ["qampy/core/pythran_dsp.py:soft_l_value_demapper", "qampy/core/pythran_dsp.py:soft_l_value_demapper_minmax"]}
{"id": "C20", "title": "Pilot layout partitions the frame", "statement": "Every frame position is either payload or pilot, never both; the first pilot_seq_len positions and then every pilot_ins_rat-th position starting right after the sequence are pilots; the number of payload positions is (frame_len-seq)/rat*(rat-1); a ValueError is raised iff the remainder of the frame is not divisible by the insertion ratio.", "quantifier": "all frame lengths, sequence lengths, insertion ratios", "why_tests_cant": "all integers", "anchors": ["qampy/signals.py:SignalWithPilots._cal_pilot_idx"]}
{"id": "C21", "title": "Pilot insertion and removal are inverse", "statement": "Building a pilot signal from a payload and pilots and then calling get_data() / extract_pilots() returns the payload and the pilots of every frame in order, for every number of repeated frames; building the signal from get_data and pilots gives back the frame.", "quantifier": "all frames layouts, payloads, pilots, number of frames and modes", "why_tests_cant": "all layouts", "anchors": ["qampy/signals.py:SignalWithPilots.from_symbol_array", "qampy/signals.py:SignalWithPilots.get_data", "qampy/signals.py:SignalWithPilots.extract_pilots"]}
{"id": "C22", "title": "get_data(frames) returns the payload of the requested frames", "statement": "For every non-empty list of valid frame indices get_data(frames) returns the payload of those frames.", "quantifier": "all multi-frame signals, all frame lists", "why_tests_cant": "only lists with a maximum above zero, or signals with several frames, show the problem", "anchors": ["qampy/signals.py:SignalWithPilots.get_data"]}
{"id": "C23", "title": "Time-domain hybrid QAM partitions the positions", "statement": "The positions of the M1 and M2 symbols partition the frame; in any whole number of sub-frames the number of M1 and M2 positions are exactly frames*f_M1 and frames*f_M2; extracting the two classes gives back the two symbol streams.", "quantifier": "all fractions and numbers of frames", "why_tests_cant": "all integers", "anchors": ["qampy/signals.py:TDHQAMSymbols._cal_symbol_idx", "qampy/signals.py:TDHQAMSymbols._cal_fractions", "qampy/signals.py:TDHQAMSymbols.from_symbol_arrays"]}
{"id": "C24", "title": "Equaliser filter output: formula, length, no out-of-range access", "statement": "apply_filter returns for every mode max(0,(L-Ntaps+1)//os) samples, the i-th being the sum over modes and taps of w*E at i*os+tap; every access is inside the signal; the map is linear in the signal and linear in the taps.", "quantifier": "all signals, taps, oversampling ratios, lengths", "why_tests_cant": "all lengths relative to taps and oversampling", "anchors": ["qampy/core/equalisation/pythran_equalisation.py:apply_filter_to_signal", "qampy/core/equalisation/pythran_equalisation.py:apply_filter"]}
{"id": "C25", "title": "Initial equaliser taps pass the signal through", "statement": "With the taps created by the initialisation, the equaliser output of mode m is the signal of mode m sampled every os samples starting at Ntaps//2.", "quantifier": "all numbers of modes, taps, oversampling, signals", "why_tests_cant": "all sizes", "anchors": ["qampy/core/equalisation/equalisation.py:_init_taps", "qampy/core/equalisation/pythran_equalisation.py:apply_filter_to_signal"]}
{"id": "C26", "title": "Adaptive step size stays positive and never grows", "statement": "Along every training run the adaptive step size is positive, non-increasing, and therefore bounded by its initial value.", "quantifier": "all error sequences of any length, all positive initial step sizes", "why_tests_cant": "histories of arbitrary length", "anchors": ["qampy/core/equalisation/pythran_equalisation.py:adapt_step", "qampy/core/equalisation/pythran_equalisation.py:train_equaliser"]}
{"id": "C27", "title": "Training uses only samples that exist", "statement": "With the default number of training symbols every window the equaliser training touches lies inside the signal; a requested number of training symbols that fits is accepted.", "quantifier": "all signal lengths, tap counts, oversampling ratios", "why_tests_cant": "all integer parameters", "anchors": ["qampy/core/equalisation/equalisation.py:_cal_training_symbol_len", "qampy/core/equalisation/pythran_equalisation.py:train_equaliser", "qampy/core/equalisation/equalisation.py:equalise_signal"]}
{"id": "C28", "title": "Modes are equalised independently", "statement": "With a fixed step size, the taps and errors trained for one output mode do not depend on which other output modes are trained, nor on their order or initial taps.", "quantifier": "all signals, taps, mode lists, error functions", "why_tests_cant": "all mode lists", "anchors": ["qampy/core/equalisation/pythran_equalisation.py:train_equaliser", "qampy/core/equalisation/equalisation.py:equalise_signal"]}
{"id": "C29", "title": "Perfectly equalised signals are fixed points", "statement": "If the current taps reproduce valid symbols (for decision directed and data aided methods) or samples of the reference radius (CMA, MCMA, RDE, MRDE), training leaves the taps unchanged and reports zero error for any number of symbols and iterations.", "quantifier": "all signals of any length, all methods, any number of iterations", "why_tests_cant": "all run lengths", "anchors": ["qampy/core/equalisation/pythran_equalisation.py:cma_error", "qampy/core/equalisation/pythran_equalisation.py:mcma_error", "qampy/core/equalisation/pythran_equalisation.py:rde_error", "qampy/core/equalisation/pythran_equalisation.py:mrde_error", "qampy/core/equalisation/pythran_equalisation.py:sbd_error", "qampy/core/equalisation/pythran_equalisation.py:mddma_error", "qampy/core/equalisation/pythran_equalisation.py:ddlms_error", "qampy/core/equalisation/pythran_equalisation.py:sbd_data_error", "qampy/core/equalisation/pythran_equalisation.py:train_equaliser"]}
{"id": "C30", "title": "Ring partition picks the nearest radius", "statement": "With boundaries midway between increasing code values, partition_value returns a code value nearest to the input.", "quantifier": "all increasing code books of any size and all inputs", "why_tests_cant": "all real inputs", "anchors": ["qampy/core/equalisation/pythran_equalisation.py:partition_value", "qampy/core/equalisation/equalisation.py:generate_partition_codes_radius"]}
{"id": "C31", "title": "Complex/real signal conversion round trip", "statement": "Converting a complex multi-mode signal to its real representation and back is the identity, and so is the other order for an even number of rows.", "quantifier": "all signals of any size", "why_tests_cant": "all sizes", "anchors": ["qampy/core/equalisation/equalisation.py:_convert_sig_to_real", "qampy/core/equalisation/equalisation.py:_convert_sig_to_cmplx"]}
{"id": "C32", "title": "Framing by segment_axis", "statement": "segment_axis(a, length, overlap, end): the k-th segment starts at k*(length-overlap); 'cut' drops only an incomplete tail, 'pad' and 'wrap' cover every sample; the samples are those of the (padded/wrapped) input.", "quantifier": "all lengths, overlaps, end modes", "why_tests_cant": "all integers", "anchors": ["qampy/core/segmentaxis.py:segment_axis"]}
{"id": "C33", "title": "Compiled and reference blind phase search agree", "statement": "The compiled BPS index selection (running sums) returns at each inner position the test angle that minimises the windowed sum of decision distances, i.e. the same as the pure Python reference; the first and last positions are left at index zero.", "quantifier": "all signals, angle counts, window lengths", "why_tests_cant": "all inputs", "anchors": ["qampy/core/pythran_dsp.py:bps", "qampy/core/pythran_dsp.py:select_angle_index", "qampy/core/phaserecovery.py:_bps_idx_py"]}
{"id": "C34", "title": "Blind phase search recovers a noiseless constant rotation", "statement": "If the input is a sequence of constellation points rotated by minus one of the test angles, BPS picks at every inner position an angle with zero distance over the window: the derotated samples there are constellation points.", "quantifier": "all constellations, symbol sequences, test angle grids", "why_tests_cant": "all sequences", "anchors": ["qampy/core/phaserecovery.py:bps", "qampy/core/pythran_dsp.py:bps"]}
{"id": "C35", "title": "Phase recovery changes phases only", "statement": "The output of BPS / Viterbi-Viterbi / frequency offset compensation / pilot phase correction has the same modulus as the input sample by sample.", "quantifier": "all inputs", "why_tests_cant": "all inputs", "anchors": ["qampy/core/phaserecovery.py:bps", "qampy/core/phaserecovery.py:viterbiviterbi", "qampy/core/phaserecovery.py:comp_freq_offset", "qampy/phaserec.py:correct_pilot_const_phase"]}
{"id": "C36", "title": "Carrier offset and its compensation cancel", "statement": "comp_freq_offset(add_carrier_offset(sig, f), f) equals the input up to one constant phase factor for the whole signal; offsets are additive.", "quantifier": "all signals, offsets, sampling rates", "why_tests_cant": "all reals", "anchors": ["qampy/core/impairments.py:add_carrier_offset", "qampy/core/phaserecovery.py:comp_freq_offset"]}
{"id": "C37", "title": "Pilot phase estimation removes a constant phase", "statement": "If the received signal is the transmitted one times a constant phase, the pilot based carrier phase recovery returns the transmitted samples on the recovered stretch, for any pilot spacing and averaging length.", "quantifier": "all layouts, payloads, phases in (-pi,pi)", "why_tests_cant": "all reals and layouts", "anchors": ["qampy/core/pilotbased_receiver.py:pilot_based_cpe_new", "qampy/phaserec.py:pilot_cpe", "qampy/phaserec.py:find_pilot_const_phase"]}
{"id": "C38", "title": "Polarisation rotation is a unitary group action", "statement": "rotate_field preserves the total power of every sample, the angle zero is the identity, consecutive rotations add their angles and the opposite angle undoes the rotation.", "quantifier": "all fields, all angles", "why_tests_cant": "all reals", "anchors": ["qampy/core/impairments.py:rotate_field"]}
{"id": "C39", "title": "PMD emulation is energy preserving and reversible", "statement": "apply_PMD_to_field preserves the total energy over both polarisations, is the identity for zero delay, and applying the negative delay undoes it.", "quantifier": "all two-polarisation fields of any length, angles and delays", "why_tests_cant": "all inputs", "anchors": ["qampy/core/impairments.py:apply_PMD_to_field", "qampy/core/impairments.py:_applyPMD_dot"]}
{"id": "C40", "title": "Modal delay is a reversible cyclic shift", "statement": "add_modal_delay rolls each mode by its own delay; applying the negated delays restores the signal; delays add; samples of a mode are only permuted.", "quantifier": "all signals, integer delays", "why_tests_cant": "all integers", "anchors": ["qampy/core/impairments.py:add_modal_delay"]}
{"id": "C41", "title": "Quantiser levels and error bound", "statement": "The quantised signal takes at most 2^nbits levels per quadrature, quantisation is monotone, and for samples in range the error is at most half a step.", "quantifier": "all signals, bit counts", "why_tests_cant": "all reals", "anchors": ["qampy/core/impairments.py:quantize_signal_New", "qampy/core/impairments.py:quantize_signal"]}
{"id": "C42", "title": "Modulator pre-compensation inverts the modulator", "statement": "For a signal with quadratures in [-1,1], modulator_response(comp_mod_sin(sig)) with matching Vpi and ideal bias equals the signal up to one constant factor.", "quantifier": "all signals in range, all Vpi > 0", "why_tests_cant": "all reals", "anchors": ["qampy/core/digital_pre_compensation.py:comp_mod_sin", "qampy/core/impairments.py:modulator_response"]}
{"id": "C43", "title": "Dispersion keeps every mode and its energy", "statement": "add_dispersion preserves the energy of every mode, acts on each mode separately and keeps the mode order; the opposite dispersion undoes it.", "quantifier": "all multi-mode signals", "why_tests_cant": "the mode order problem only appears with more than one mode", "anchors": ["qampy/core/impairments.py:add_dispersion"]}
{"id": "C44", "title": "normalise_and_center yields zero mean and unit power", "statement": "For every signal that is not constant the result has mean zero and mean power one in each mode; applying it again changes nothing; it is invariant under scaling by positive factors and adding constants to the input.", "quantifier": "all non-constant signals", "why_tests_cant": "all reals", "anchors": ["qampy/helpers.py:normalise_and_center"]}
{"id": "C45", "title": "IQ orthogonalisation", "statement": "orthonormalize_signal and comp_IQ_inbalance return a zero-mean signal with uncorrelated in-phase and quadrature components of equal power.", "quantifier": "all signals with linearly independent centred quadratures", "why_tests_cant": "all reals", "anchors": ["qampy/core/analog_frontend.py:orthonormalize_signal", "qampy/core/analog_frontend.py:comp_IQ_inbalance"]}
{"id": "C46", "title": "Information rates are bounded by the bits per symbol", "statement": "cal_mi_mc and cal_gmi_mc never return more than log2 M, for every noise realisation.", "quantifier": "all constellations, SNR values, noise draws", "why_tests_cant": "random inputs: tests see a few draws", "anchors": ["qampy/core/pythran_dsp.py:cal_mi_mc", "qampy/core/pythran_dsp.py:cal_mi_mc_fast", "qampy/core/pythran_dsp.py:cal_gmi_mc"]}
{"id": "C47", "title": "Symbol error rate counts wrong decisions", "statement": "cal_ser equals the fraction of samples whose nearest constellation point differs from the transmitted symbol; it lies between 0 and 1 and vanishes iff all decisions are right; bit errors are between the symbol errors and log2 M times the symbol errors.", "quantifier": "all signals", "why_tests_cant": "all inputs", "anchors": ["qampy/signals.py:SignalBase.cal_ser", "qampy/signals.py:SignalQAMGrayCoded.cal_ber"]}
{"id": "C48", "title": "Moving average", "statement": "moving_average(sig,N) returns L-N+1 samples, the i-th being the mean of samples i..i+N-1; constants are preserved; it is linear.", "quantifier": "all signals, window lengths", "why_tests_cant": "all inputs", "anchors": ["qampy/core/filter.py:moving_average"]}
{"id": "C49", "title": "Root-raised cosine spectrum", "statement": "rrcos_freq squared is rcos_freq, both are even, non-negative and bounded; the raised cosine satisfies the Nyquist criterion: the spectrum folded at the symbol rate is constant.", "quantifier": "all frequencies, roll-offs in [0,1], symbol periods", "why_tests_cant": "all reals", "anchors": ["qampy/core/special_fcts.py:rrcos_freq", "qampy/core/special_fcts.py:rcos_freq"]}
{"id": "C50", "title": "Decibel conversion", "statement": "dB2lin and lin2dB are inverse of each other on positive numbers, turn products into sums and are strictly increasing.", "quantifier": "all reals / positive reals", "why_tests_cant": "all reals", "anchors": ["qampy/helpers.py:dB2lin", "qampy/helpers.py:lin2dB"]}
{"id": "C51", "title": "Look-up table holds pattern averages", "statement": "cal_lut_avg returns for every pattern that occurs the average error of its occurrences (in-phase and quadrature separately) and zero for patterns that do not occur.", "quantifier": "all error and index sequences, any table size", "why_tests_cant": "all sequences", "anchors": ["qampy/core/pythran_dsp.py:cal_lut_avg", "qampy/core/digital_pre_compensation.py:cal_lut"]}
{"id": "C52", "title": "Pattern indices identify patterns", "statement": "find_sym_patterns: two positions get the same index iff their wrapped windows of decided symbols agree; indices lie below M^N and enumerate the windows in lexicographic order.", "quantifier": "all signals, alphabets, pattern lengths", "why_tests_cant": "all sizes", "anchors": ["qampy/core/digital_pre_compensation.py:find_sym_patterns", "qampy/core/utils.py:rolling_window"]}
{"id": "C53", "title": "Signal objects keep their identity through processing", "statement": "Through any sequence of resampling, filtering, impairments, equalisation and array recreation steps a signal object keeps its symbol rate, order and transmitted symbols; its sampling rate is the one of the last step that set it.", "quantifier": "all histories of operations", "why_tests_cant": "all histories", "anchors": ["qampy/signals.py:SignalBase.recreate_from_np_array", "qampy/signals.py:SignalBase.resample", "qampy/signals.py:SignalBase.__array_finalize__"]}
{"id": "C54", "title": "Each transmitted mode is assigned once", "statement": "When a received multi-mode signal is synchronised to the transmitted modes, different received modes are matched with different transmitted modes, and no received mode is left out as long as there are enough transmitted ones.", "quantifier": "all correlation values, all numbers of modes", "why_tests_cant": "all assignments", "anchors": ["qampy/signals.py:SignalBase._sync_and_adjust"]}
{"id": "C55", "title": "Saving and loading keeps the signal and its metadata", "statement": "Pickling and unpickling (save_signal / load_signal) restores the samples and every declared metadata attribute.", "quantifier": "all attribute lists and values", "why_tests_cant": "all states", "anchors": ["qampy/signals.py:SignalBase.__reduce__", "qampy/signals.py:SignalBase.__setstate__", "qampy/core/io.py:save_signal"]}
{"id": "C56", "title": "One reply per request", "statement": "A processing worker answers every request with exactly one reply, an OK reply with the handler's result or an ERR reply when the handler raised, in the order of the requests, and never stops because of a failing handler.", "quantifier": "all sequences of requests and handler outcomes", "why_tests_cant": "all histories", "anchors": ["qampy/core/processing.py:RepWorker.process"]}
{"id": "C57", "title": "Offset search finds the first occurrence", "statement": "find_offset(sequence, data) returns the smallest index at which the sequence occurs in the data and raises ValueError if it does not occur.", "quantifier": "all sequences of elements of any item size", "why_tests_cant": "false matches need byte patterns straddling two elements", "anchors": ["qampy/core/utils.py:find_offset"]}
{"id": "C58", "title": "Rational resampling factors", "statement": "The up/down factors used for resampling are coprime positive integers whose ratio is the ratio of the sampling rates, and the output length is the input length times that ratio rounded up.", "quantifier": "all rational rate ratios", "why_tests_cant": "all rationals", "anchors": ["qampy/core/resample.py:_resamplingfactors", "qampy/core/resample.py:resample_poly"]}
{"id": "C59", "title": "Frame shift correction is a cyclic shift", "statement": "shift_signal / correct_shifts: each mode is rolled by its own shift factor so that the frame start moves to index zero, in the same direction for any number of modes, and the factors are adjusted modulo the frame length.", "quantifier": "all signals, shift factors, numbers of modes", "why_tests_cant": "direction depends on the number of modes", "anchors": ["qampy/core/pilotbased_receiver.py:shift_signal", "qampy/core/pilotbased_receiver.py:correct_shifts"]}
{"id": "C60", "title": "SNR setting scales noise correctly", "statement": "change_snr adds noise whose variance equals the signal power divided by the linear SNR times the oversampling ratio.", "quantifier": "all signals, SNR values, rates", "why_tests_cant": "all reals", "anchors": ["qampy/core/impairments.py:change_snr", "qampy/core/impairments.py:add_awgn"]}
{"id": "C61", "title": "Probabilistic shaping weights", "statement": "The Maxwell-Boltzmann symbol probabilities are positive, sum to one, depend only on the symbol energy, decrease with the energy for positive shaping parameter, and are uniform for parameter zero.", "quantifier": "all constellations and shaping parameters", "why_tests_cant": "all reals", "anchors": ["qampy/theory.py:cal_ps_probablts"]}
{"id": "C62", "title": "16-QAM partition masks", "statement": "partition_16qam assigns every sample to exactly one of the two classes (inner+outer ring versus middle ring).", "quantifier": "all signals", "why_tests_cant": "all inputs", "anchors": ["qampy/core/phaserecovery.py:partition_16qam"]}
{"id": "C63", "title": "Equalising consecutive frames at once equals equalising them one by one", "statement": "For a synchronised pilot signal, applying the filter to consecutive frames in one go gives the concatenation of the single-frame results, and both read inside the signal whenever the length check passes.", "quantifier": "all signals, taps, frame ranges, shift factors", "why_tests_cant": "all integer parameters", "anchors": ["qampy/equalisation.py:_apply_to_pilotsignal"]}
{"id": "C64", "title": "Transmission simulation with nothing switched on is the identity and its stages are optional", "statement": "simulate_transmission applies exactly the impairments whose parameters are given, in a fixed order; with none given it returns the signal unchanged; it fails when dispersion is given.", "quantifier": "all subsets of impairments", "why_tests_cant": "the dispersion branch is not reached by tests", "anchors": ["qampy/impairments.py:simulate_transmission"]}
{"id": "C65", "title": "Tap orthogonalisation", "statement": "orthogonalizetaps returns for a pair of tap vectors a second vector orthogonal (under the time-reversed conjugate pairing) to the first with the same energy.", "quantifier": "all tap vectors", "why_tests_cant": "all inputs", "anchors": ["qampy/core/equalisation/equalisation.py:orthogonalizetaps"]}
{"id": "C66", "title": "SNR estimation on noiseless and perfect data", "statement": "estimate_snr returns the exact sample power ratio: for every partition of the samples by transmitted symbol, signal power of the class means over the within-class variance.", "quantifier": "all symbol sequences and signals in which every symbol occurs", "why_tests_cant": "all inputs", "anchors": ["qampy/core/pythran_dsp.py:estimate_snr"]}
{"id": "C67", "title": "Clipping", "statement": "clipper limits both quadratures to the clipping level, leaves samples inside the range untouched, is idempotent and monotone.", "quantifier": "all signals, positive clipping levels", "why_tests_cant": "all reals", "anchors": ["qampy/core/digital_pre_compensation.py:clipper"]}
{"id": "C68", "title": "Pilot equaliser trains on the requested frame", "statement": "pilot_equaliser(signal, ..., frame=k) trains on the pilot sequence of frame k: the stretch of samples used starts k*os*frame_len samples after the one used for frame 0.", "quantifier": "all frame numbers, tap numbers and sync tap numbers", "why_tests_cant": "only differs when the tap number equals the number of sync taps and the frame is not the first", "anchors": ["qampy/equalisation.py:pilot_equaliser"]}
{"id": "C69", "title": "Frames removed by dump_edges", "statement": "dump_edges(E,N) removes exactly N samples at both ends.", "quantifier": "all signals and N", "why_tests_cant": "N=0 is the corner case", "anchors": ["qampy/helpers.py:dump_edges"]}
{"id": "C70", "title": "Pilot mask of an oversampled signal", "statement": "find_pilot_idx marks exactly the oversampled positions of pilots: the oversampled mask restricted to each symbol equals the symbol-rate pilot layout.", "quantifier": "all oversampling ratios and layouts", "why_tests_cant": "tests only use oversampling 2", "anchors": ["qampy/helpers.py:find_pilot_idx"]}
{"id": "C71", "title": "Requested PRBS orders and seeds are honoured", "statement": "PRBSBits uses the given order and seed for every mode for which both are given, and random ones only for the remaining modes.", "quantifier": "all numbers of modes and lists of orders/seeds", "why_tests_cant": "depends on relation of list lengths", "anchors": ["qampy/signals.py:PRBSBits"]}
{"id": "C72", "title": "Galois shift register has maximal period", "statement": "The generator lfsr_int with the masks used by the package (orders 7, 15, 23, 31), started from a nonzero n-bit state, yields output bits and states with period exactly 2^n-1; every state is a nonzero n-bit number and every nonzero n-bit number occurs as a state within one period.", "quantifier": "all four masks, all nonzero n-bit seeds, all positions of the infinite generator", "why_tests_cant": "the period of order 31 has more than two billion steps and there are as many seeds; a test sees a tiny prefix", "anchors": ["qampy/core/utils.py:lfsr_int", "qampy/core/prbs.py:make_prbs_intXOR"]}
{"id": "C73", "title": "Bits of a signal built from symbols", "statement": "SignalQAMGrayCoded.from_symbol_array(symbs, M) stores in .bits the demodulated bits of all modes of the given symbol array.", "quantifier": "all orders, all numbers of modes, all symbol arrays", "why_tests_cant": "ranges over all arrays and mode counts; single-mode tests cannot see a lost mode", "anchors": ["qampy/signals.py:SignalQAMGrayCoded.from_symbol_array"]}
{"id": "C74", "title": "PSK Gray mapping", "statement": "SignalPSKGrayCoded maps the M bit patterns one-to-one onto M unit-modulus symbols, and symbols that are neighbours on the circle, including the last and the first, carry labels that differ in exactly one bit.", "quantifier": "all M = 2^k, k >= 1, all neighbouring pairs", "why_tests_cant": "infinite family of orders", "anchors": ["qampy/signals.py:SignalPSKGrayCoded._generate_mapping", "qampy/theory.py:cal_symbols_psk", "qampy/core/utils.py:bin2gray"]}
{"id": "C75", "title": "Bits of a signal built from bits", "statement": "SignalQAMGrayCoded.from_bit_array(bits, M) transmits len(bits)//log2(M) symbols, and the .bits it stores are exactly the bits carried by these symbols.", "quantifier": "all orders and all bit arrays of any length", "why_tests_cant": "ranges over all lengths and contents", "anchors": ["qampy/signals.py:SignalQAMGrayCoded.from_bit_array"]}
{"id": "C76", "title": "Blind EVM never exceeds the data-aided EVM", "statement": "cal_evm(blind=True) is at most the EVM against any symbol sequence of the alphabet, in particular against the transmitted one, and it is zero iff every sample is a constellation point.", "quantifier": "all signals and alphabets", "why_tests_cant": "all complex inputs", "anchors": ["qampy/signals.py:SignalBase.cal_evm"]}
{"id": "C77", "title": "SNR estimate is invariant under gain and phase", "statement": "Multiplying the received signal by any nonzero complex constant does not change the SNR returned by estimate_snr.", "quantifier": "all signals, alphabets and nonzero complex gains", "why_tests_cant": "all complex inputs", "anchors": ["qampy/core/pythran_dsp.py:estimate_snr", "qampy/signals.py:SignalBase.est_snr"]}
{"id": "C78", "title": "TDHQAM from arrays truncates to whole frames", "statement": "TDHQAMSymbols.from_symbol_arrays accepts any two symbol arrays and truncates the surplus of the longer one, as its warning says.", "quantifier": "all fractions and array lengths", "why_tests_cant": "tests use matching lengths", "anchors": ["qampy/signals.py:TDHQAMSymbols.from_symbol_arrays"]}
{"id": "C79", "title": "Pilots at user-given positions", "statement": "SignalWithPilots.from_symbol_array(pilot_idx=...) puts the pilots at the given positions, the payload in order at all other positions, and get_data recovers the payload.", "quantifier": "all frame lengths, pilot positions, payloads", "why_tests_cant": "all position sets; the error depends on whether position 0 is a pilot", "anchors": ["qampy/signals.py:SignalWithPilots.from_symbol_array", "qampy/signals.py:SignalWithPilots.get_data"]}
{"id": "C80", "title": "Every option combination of the pilot signal constructor works", "statement": "SignalWithPilots(..., nframes, repeat_data, repeat_pilots) returns a signal whose get_data() is its symbols attribute and whose extract_pilots() is its pilots attribute, for every combination of the repeat options.", "quantifier": "all layouts, numbers of frames, options and random draws", "why_tests_cant": "all layouts; tests do not use repeat_pilots=False", "anchors": ["qampy/signals.py:SignalWithPilots.__new__"]}
{"id": "C81", "title": "Python and compiled equaliser filter agree", "statement": "apply_filter with method 'py' and with method 'pyt' return the same output.", "quantifier": "all signals, taps, oversampling ratios", "why_tests_cant": "agreement depends on the divisibility of the length; tests use one length", "anchors": ["qampy/core/equalisation/equalisation.py:apply_filter_py", "qampy/core/equalisation/pythran_equalisation.py:apply_filter_to_signal"]}
{"id": "C82", "title": "Mode independence with adaptive step size", "statement": "With an adaptive step size too, the taps trained for one output mode do not depend on the other trained modes or their order.", "quantifier": "all signals, mode lists", "why_tests_cant": "needs all mode lists and error histories", "anchors": ["qampy/core/equalisation/pythran_equalisation.py:train_equaliser"]}
{"id": "C83", "title": "MRDE partition codes are valid for the constellation", "statement": "For every QAM order the codes and partitions generated for MRDE give zero error on every constellation point.", "quantifier": "all QAM orders", "why_tests_cant": "unbounded family of orders", "anchors": ["qampy/core/equalisation/equalisation.py:generate_partition_codes_complex", "qampy/core/equalisation/pythran_equalisation.py:mrde_error"]}
{"id": "C84", "title": "The method name selects its error function", "statement": "Training with method 'sgncma' uses the signed CMA error.", "quantifier": "all samples and constants", "why_tests_cant": "converging runs look alike for both error functions", "anchors": ["qampy/core/equalisation/pythran_equalisation.py:train_equaliser", "qampy/core/equalisation/pythran_equalisation.py:sgncma_error"]}
{"id": "C85", "title": "Two-stage BPS recovers a noiseless signal", "statement": "If a noiseless signal is rotated by the negative of one of the first stage test angles, bps_twostage returns constellation points away from the edges.", "quantifier": "all signals, constellations closed under a quarter turn, angle counts, window lengths", "why_tests_cant": "a test with tolerance on BER does not see the small remaining rotation; all angle counts", "anchors": ["qampy/core/phaserecovery.py:bps_twostage"]}
{"id": "C86", "title": "Viterbi-Viterbi recovers the library's PSK constellations", "statement": "For a noiseless M-PSK signal built from the constellation of the package with any constant phase, viterbiviterbi(M) returns constellation points inside the averaging window.", "quantifier": "all M = 2^k, signals, window lengths, phases", "why_tests_cant": "all M and phases; the unit test only has QPSK", "anchors": ["qampy/core/phaserecovery.py:viterbiviterbi", "qampy/theory.py:cal_symbols_psk"]}
{"id": "C87", "title": "Frequency offset estimation is exact on its grid", "statement": "For a noiseless signal whose fourth power is constant, an offset that lies on the FFT grid (a quarter of the resolution) within the unambiguous range is found exactly, for one or several modes and with or without averaging, and compensating with it restores the signal up to one constant phase.", "quantifier": "all signals, FFT sizes, grid offsets, oversampling factors", "why_tests_cant": "all lengths and offsets", "anchors": ["qampy/core/phaserecovery.py:find_freq_offset", "qampy/core/phaserecovery.py:comp_freq_offset", "qampy/core/impairments.py:add_carrier_offset"]}
{"id": "C88", "title": "One frequency offset applies to all modes", "statement": "comp_freq_offset with a one element offset array applies this offset to all modes, as its doc string says.", "quantifier": "all signals with any number of modes", "why_tests_cant": "the tests only pass one offset per mode", "anchors": ["qampy/core/phaserecovery.py:comp_freq_offset"]}
{"id": "C89", "title": "Partition phase recovery output matches its phase", "statement": "phase_partition_16qam returns the input field with the returned phase removed (E*exp(-1j*phase)), for every mode with its own phase, and does not change amplitudes.", "quantifier": "all signals, block lengths, numbers of modes", "why_tests_cant": "all inputs; BER tests only look at one of the two outputs", "anchors": ["qampy/core/phaserecovery.py:phase_partition_16qam"]}
{"id": "C90", "title": "Moment based power and SNR estimates", "statement": "If second and fourth moment of the samples are those of a signal of power S in circular Gaussian noise of power N, cal_s0 returns S and cal_snr_qam returns S/N; the kurtosis used for square M-QAM is that of the constellation, (7M-13)/(5(M-1)), and on a noiseless equiprobable square QAM signal cal_s0 returns its power.", "quantifier": "all S, N, all square M, all gains, phases, orders", "why_tests_cant": "all reals and M", "anchors": ["qampy/core/signal_quality.py:cal_s0", "qampy/core/signal_quality.py:cal_snr_qam", "qampy/core/signal_quality.py:_cal_gamma"]}
{"id": "C91", "title": "Ring thresholds of the 16-QAM partition", "statement": "For a signal with the moments of 16-QAM the thresholds of partition_16qam lie half way between the rings, so samples of the middle ring with an amplitude error below half of the ring distance are assigned to class 2.", "quantifier": "all signals", "why_tests_cant": "noiseless tests pass, the threshold is off by 14 percent", "anchors": ["qampy/core/phaserecovery.py:partition_16qam", "qampy/core/signal_quality.py:cal_s0"]}
{"id": "C92", "title": "Blind QPSK SNR removes the modulation", "statement": "If every received sample is closer in phase to its transmitted QPSK symbol than to any other, cal_snr_blind_qpsk computes the power and variance of the received samples divided by their transmitted symbols.", "quantifier": "all symbol sequences, all noise", "why_tests_cant": "all inputs", "anchors": ["qampy/core/signal_quality.py:cal_snr_blind_qpsk"]}
{"id": "C93", "title": "A training step moves the output towards its target", "statement": "The tap update on a symbol changes the equaliser output of that symbol by mu*err*P, P the energy in the window; so for dd (sbd_data) the distance to the decided (transmitted) symbol shrinks by 1-mu*P, and for cma, mcma and rde with a small enough step the modulus (magnitude of the quadratures) moves towards the reference radius.", "quantifier": "all signals, taps, symbols, step sizes and window lengths", "why_tests_cant": "A sign or conjugation error makes the equaliser diverge on some channels only; tests run a few channels.", "anchors": ["qampy/core/equalisation/pythran_equalisation.py:train_equaliser", "qampy/core/equalisation/pythran_equalisation.py:cma_error", "qampy/core/equalisation/pythran_equalisation.py:rde_error", "qampy/core/equalisation/pythran_equalisation.py:mcma_error", "qampy/core/equalisation/pythran_equalisation.py:ddlms_error", "qampy/core/equalisation/pythran_equalisation.py:sbd_data_error"]}
{"id": "C94", "title": "Training is the stochastic gradient recursion, errors in time order", "statement": "For every trained mode the returned taps are the end of a tap sequence starting with the given taps; element j of the error row is the error function on the output of the j-th taps for symbol j mod TrSyms, and the next taps add mu*err*conj(E) over the window of this symbol; the step size is constant or adapted from the last two errors.", "quantifier": "all signals, modes, TrSyms, iterations, methods", "why_tests_cant": "Arbitrary many steps.", "anchors": ["qampy/core/equalisation/pythran_equalisation.py:train_equaliser"]}
{"id": "C95", "title": "PMD by whole samples is a delay of the principal axes", "statement": "apply_PMD_to_field with a differential group delay of 2d samples rotates to the principal axes, rolls the first by d and the second by -d samples, and rotates back.", "quantifier": "all fields, angles, sampling rates, integer delays", "why_tests_cant": "odd lengths get an additional phase that a test on even lengths does not show", "anchors": ["qampy/core/impairments.py:apply_PMD_to_field", "qampy/core/impairments.py:_applyPMD_dot"]}
{"id": "C96", "title": "Dispersion compensation inverts dispersion", "statement": "CDcomp with one of the two signs of the length undoes add_dispersion; it keeps the energy, is reversible, and in block mode without dispersion returns the signal.", "quantifier": "all signals, lengths, dispersion values, block sizes", "why_tests_cant": "all inputs", "anchors": ["qampy/core/equalisation/equalisation.py:CDcomp", "qampy/core/impairments.py:add_dispersion"]}
{"id": "C97", "title": "The Gaussian filter is a low pass for every mode", "statement": "filter_signal(ftype='gauss') multiplies the spectrum of every mode with the Gaussian: the mean of a mode is kept, the energy not increased and modes are not exchanged.", "quantifier": "all signals, lengths, numbers of modes", "why_tests_cant": "fails only for odd lengths or an odd number of modes", "anchors": ["qampy/core/filter.py:filter_signal"]}
{"id": "C98", "title": "Brick wall pre-filter rejects the given fraction", "statement": "pre_filter(signal, bw) rejects a fraction bw of the spectrum at the edges and keeps the centre; it is a projection.", "quantifier": "all signals, all fractions", "why_tests_cant": "all inputs", "anchors": ["qampy/core/filter.py:pre_filter"]}
{"id": "C99", "title": "Cutoff is the 3 dB frequency", "statement": "The power response of the gauss and exp filters is one half at the cutoff frequency.", "quantifier": "all cutoff frequencies", "why_tests_cant": "all reals", "anchors": ["qampy/core/filter.py:filter_signal"]}
{"id": "C100", "title": "Delay compensation moves by the given delay", "statement": "comp_rf_delay with a delay of d sample periods moves a real signal cyclically by d samples.", "quantifier": "all signals, integer d, sampling rates", "why_tests_cant": "all lengths and reals", "anchors": ["qampy/core/analog_frontend.py:comp_rf_delay"]}
{"id": "C101", "title": "Reported SNR of the converter noise", "statement": "The SNR returned by apply_enob_as_awgn is the ratio of the mean signal power to the expected power of the noise it adds, and that noise is the one of a quantiser with 2^enob steps over the swing in both quadratures.", "quantifier": "all non-zero complex signals, ENOB values and draws with zero mean and unit variance", "why_tests_cant": "expectation over random draws, all reals", "anchors": ["qampy/core/impairments.py:apply_enob_as_awgn"]}
{"id": "C102", "title": "Scaling to a given swing", "statement": "rescale_signal and ideal_amplifier_response scale by one positive factor such that the largest quadrature equals the given swing.", "quantifier": "all non-zero signals, positive swings", "why_tests_cant": "all reals", "anchors": ["qampy/helpers.py:rescale_signal", "qampy/core/impairments.py:ideal_amplifier_response"]}
{"id": "C103", "title": "Normalisation on pilots", "statement": "normalise_and_center_pil maps all samples of a mode by one positive affine map after which the pilots have mean zero and mean power one.", "quantifier": "all signals and pilot positions with at least two different pilots", "why_tests_cant": "all reals and index sets", "anchors": ["qampy/helpers.py:normalise_and_center_pil"]}
{"id": "C104", "title": "Extinction ratio of the modulator", "statement": "A Mach-Zehnder modulator with imbalance er_to_g(er) has the power extinction ratio er (in dB).", "quantifier": "all er >= 0", "why_tests_cant": "all reals", "anchors": ["qampy/core/impairments.py:er_to_g", "qampy/core/impairments.py:modulator_response"]}
{"id": "C105", "title": "Taps are trained on the samples they are applied to", "statement": "The stretch of samples the pilot equaliser is trained on for a frame is the one its taps are applied to: for every mode the training window of the pilot sequence starts where the filtered frame starts.", "quantifier": "all shift factors, frames, numbers of taps of search and equaliser", "why_tests_cant": "all integers; the two code paths compute the offsets separately and the negative and equal-taps cases are rare", "anchors": ["qampy/equalisation.py:pilot_equaliser", "qampy/equalisation.py:_apply_to_pilotsignal", "qampy/core/pilotbased_receiver.py:equalize_pilot_sequence"]}
{"id": "C106", "title": "Mode order after frame synchronisation", "statement": "When received mode l carries the pilots of mode tau(l), after sync2frame the samples and the shift factor of received mode l are in row tau(l).", "quantifier": "all numbers of modes, permutations and correlation values", "why_tests_cant": "all permutations of any number of modes", "anchors": ["qampy/signals.py:SignalWithPilots.sync2frame", "qampy/core/pilotbased_receiver.py:frame_sync"]}
{"id": "C107", "title": "Matched root-raised cosine filters leave no intersymbol interference", "statement": "Upsampling a symbol sequence with rrcos_resample (filter in the frequency domain) to n samples per symbol, applying the same root-raised cosine filter again and taking every n-th sample gives the symbols divided by n, with no contribution of other symbols.", "quantifier": "all sequences of any length, n >= 2, roll-offs in (0,1]", "why_tests_cant": "all lengths, roll-offs and oversampling factors; the spectra fold exactly only by the Nyquist criterion", "anchors": ["qampy/core/resample.py:rrcos_resample", "qampy/core/special_fcts.py:rrcos_freq", "qampy/core/filter.py:rrcos_pulseshaping_freq"]}
{"id": "C108", "title": "Decisions inside the equaliser", "statement": "det_symbol returns a nearest symbol of the alphabet (the first one) and its squared distance.", "quantifier": "all samples and alphabets", "why_tests_cant": "the search starts with the constants 1 and 1000, which matter only for samples far from the alphabet", "anchors": ["qampy/core/equalisation/pythran_equalisation.py:det_symbol"]}
{"id": "C109", "title": "Reference symbols of each mode", "statement": "The symbols given to the equaliser are used row by row for the modes, a single row for all modes, any other number of rows raises ValueError; methods without decisions ignore them; for real-valued methods row m holds the real and row n+m the imaginary parts of the symbols of mode m.", "quantifier": "all numbers of modes and symbols, all methods", "why_tests_cant": "any number of modes and rows", "anchors": ["qampy/core/equalisation/equalisation.py:_reshape_symbols", "qampy/core/equalisation/equalisation.py:generate_symbols_for_eq"]}
{"id": "C110", "title": "Reference constants of the constant modulus methods", "statement": "The generated constant is the one for which the ideal constellation has the right gain: any other gain increases the mean squared deviation of the squared modulus (of each squared component for MCMA and the real-valued methods), and the average update over the ideal constellation vanishes.", "quantifier": "all constellations, all gains", "why_tests_cant": "an inequality over all real gains and constellations", "anchors": ["qampy/core/equalisation/equalisation.py:_cal_Rconstant", "qampy/core/equalisation/equalisation.py:_cal_Rconstant_complex", "qampy/core/equalisation/equalisation.py:generate_symbols_for_eq"]}
{"id": "C111", "title": "Undistorted signals pass the equaliser unchanged", "statement": "If the samples at the symbol positions are perfect for the method, equalise_signal(apply=True) from the default taps returns exactly these samples, the default taps and zero errors. With default arguments all array accesses of the driver are in range for every method with generated symbols; a signal shorter than Ntaps symbols raises ValueError. An empty choice of modes and a mode the signal does not have are refused.", "quantifier": "all modes, taps, lengths, oversampling ratios, iterations, step sizes, with and without adaptive step size", "why_tests_cant": "exact identity for all signals and parameters", "anchors": ["qampy/core/equalisation/equalisation.py:equalise_signal", "qampy/core/equalisation/pythran_equalisation.py:train_equaliser"]}
{"id": "C112", "title": "Two-stage equalisation", "statement": "dual_mode_equalisation starts the second stage from the taps of the first; if these produce constellation points a decision directed second stage keeps them. Without given symbols a decision directed stage decides for the points of the constellation.", "quantifier": "all signals, methods and parameters", "why_tests_cant": "the fallback alphabet silently becomes nan; convergence statement ranges over all signals", "anchors": ["qampy/core/equalisation/equalisation.py:dual_mode_equalisation"]}
{"id": "C113", "title": "Equalising several pilot frames", "statement": "Without a choice of frames pilot_equaliser_nframes equalises all complete frames; accepted frames are complete; results are in frame order and all frames after frame 0 start from its taps; every combination of apply and verbose works.", "quantifier": "all signal lengths, shifts, oversampling ratios, frame lengths and frame lists", "why_tests_cant": "the failing case is an exact multiple of the frame length; arbitrary frame lists", "anchors": ["qampy/equalisation.py:pilot_equaliser_nframes", "qampy/equalisation.py:pilot_equaliser"]}
{"id": "C114", "title": "Symbols chosen for the two stages", "statement": "dual_mode_equalisation of the signal interface gives each stage the symbols of its method: the transmitted ones for a data aided method, the alphabet otherwise.", "quantifier": "all pairs of methods", "why_tests_cant": "the wrong choice leads to reads outside of an array without an error", "anchors": ["qampy/equalisation.py:dual_mode_equalisation"]}
{"id": "C115", "title": "The QAM symbol error rate formula is the average measured symbol error rate", "statement": "For every square QAM order and every signal in which all constellation points occur equally often, the average over all noise realisations of the symbol error rate reported by cal_ser after change_snr at one sample per symbol is exactly ser_vs_es_over_n0_qam at that SNR.", "quantifier": "all square QAM orders 4^N with N >= 1, all balanced symbol sequences of any length, all SNR values in dB", "why_tests_cant": "a test compares one random realisation with the curve within a tolerance; the claim is an equality of an integral over all noise values with a formula, for all orders and SNRs", "anchors": ["qampy/theory.py:34-39", "qampy/core/impairments.py:186-233", "qampy/signals.py:294-335"]}
{"id": "C116", "title": "The 4-PAM formula is the nearest point error rate", "statement": "ser_vs_es_over_n0_4pam(snr) is the symbol error probability of 4-PAM of unit power with nearest point decisions and real Gaussian noise of variance 1/(2 snr), whatever happens at ties.", "quantifier": "all SNR > 0, all nearest point decision functions", "why_tests_cant": "probability over a continuum of noise values", "anchors": ["qampy/theory.py:105-108"]}
{"id": "C117", "title": "The PSK symbol error rate formula is the average measured symbol error rate", "statement": "For every PSK order and every symbol sequence the average over all noise realisations of cal_ser after change_snr is ser_vs_es_over_n0_psk.", "quantifier": "all orders 2^k, all symbol sequences, all SNR values", "why_tests_cant": "probability over a continuum of noise values and all orders; the formula is close to the true value at high SNR so that tests pass", "anchors": ["qampy/theory.py:99-102", "qampy/signals.py:934-947", "qampy/core/impairments.py:186-233"]}
{"id": "C118", "title": "The QAM bit error rate formula bounds the average measured bit error rate", "statement": "For Gray coded square QAM with equally frequent symbols the average over all noise realisations of cal_ber after change_snr is at least ber_vs_es_over_n0_qam, exceeds it by at most 2(1-1/N)(1-2/L)Q(3x) with L = 2^N points per axis and x the argument of the formula, and is equal to it for QPSK; ber_vs_evm_qam(-snr) is the same function.", "quantifier": "all square QAM orders 4^N, all balanced symbol sequences, all SNR values in dB", "why_tests_cant": "integral over all noise values, all orders; depends on the Gray labels of all pairs of points", "anchors": ["qampy/theory.py:41-97", "qampy/signals.py:337-379", "qampy/core/impairments.py:186-233"]}
{"id": "C119", "title": "Shaping probabilities are a distribution that only depends on the amplitude", "statement": "The probabilities of cal_ps_probablts are positive and sum to one, are equal for amplitudes of equal magnitude, decrease strictly with the magnitude for positive shaping factor, are uniform for factor zero, and the quotient of two of them does not depend on the other amplitudes.", "quantifier": "all lists of amplitudes, all shaping factors", "why_tests_cant": "all alphabets and all real factors", "anchors": ["qampy/theory.py:195-222"]}
{"id": "C120", "title": "The Monte-Carlo mutual information is unbiased", "statement": "The average over all noise realisations of sim_mi_mc (cal_mi_mc) is exactly the mutual information of the Gaussian channel for equally distributed symbols normalised to unit power, for every number of noise values; the average of cal_mi_mc_fast over a sequence with equally frequent symbols is the same quantity; it lies between 0 and log2 M.", "quantifier": "all alphabets with a nonzero symbol, all SNR values, all numbers of noise samples, all balanced sequences", "why_tests_cant": "expectation over a continuous noise distribution; a run shows one random estimate only", "anchors": ["qampy/theory.py:312-334", "qampy/core/pythran_dsp.py:288-313"]}
{"id": "C121", "title": "The Monte-Carlo GMI is unbiased and below the mutual information", "statement": "The average over all noise realisations of theory.cal_gmi (cal_gmi_mc) is the sum of the mutual informations between the single label bits and the received value; each is at least 0 and together they are at most the mutual information of the symbols.", "quantifier": "all constellations with 2^k points, all SNR values, all numbers of noise samples", "why_tests_cant": "expectation over a continuous noise distribution and inequality between two integrals", "anchors": ["qampy/theory.py:282-310", "qampy/core/pythran_dsp.py:7-13", "qampy/core/pythran_dsp.py:181-197", "qampy/core/signal_quality.py:298-306"]}
{"id": "C122", "title": "Bias of the data-aided SNR estimate", "statement": "With Gaussian noise of power N0 on a sequence in which every one of the M symbols occurs, estimate_snr returns as noise power a quantity of mean N0(1 - M/n) and as signal power a quantity of mean P + N0 M/n; the estimates are therefore biased by exactly the noise of the M class means and become exact for long sequences.", "quantifier": "all alphabets, all sequences that contain every symbol, all noise powers", "why_tests_cant": "expectation over a continuous noise distribution; a run shows one random estimate only", "anchors": ["qampy/core/pythran_dsp.py:244-286"]}
{"id": "C123", "title": "Simulated phase noise is a Wiener process with the requested linewidth", "statement": "The phase difference between two samples of phase_noise is a zero mean normal variable of variance 2 pi df (m-l)/fs; apply_phase_noise keeps all moduli and multiplies the correlation of two samples by exp(-pi df |m-l|/fs), the correlation of a field with Lorentzian line of full width df.", "quantifier": "all signals, linewidths, sampling rates, pairs of samples", "why_tests_cant": "statement about the law of a random process", "anchors": ["qampy/core/impairments.py:133-186"]}
{"id": "C124", "title": "Time and frequency form of the root raised cosine pulse belong together", "statement": "rrcos_time evaluated on any time grid is, up to the constant sqrt(T), the inverse Fourier transform of rrcos_freq, for all roll-off factors in (0, 1] and symbol periods.", "quantifier": "all roll-off factors, symbol periods, time grids of at least two times", "why_tests_cant": "equality of a closed formula and an integral for a continuum of parameters, with removable singularities that depend on the grid", "anchors": ["qampy/core/special_fcts.py:146-203"]}
{"id": "C125", "title": "Time domain pulse shaping has no delay and unit peak", "statement": "rrcos_pulseshaping with taps convolves with a symmetric pulse of peak 1 centred on the sample itself, for even and odd numbers of taps: output sample i is the sum over q of g((i-q)/fs) x_q over the taps, g(0)=1, g even, |g| <= 1, and g is the normalised root raised cosine pulse. Fewer than two taps raise IndexError.", "quantifier": "all signals, sampling rates with at least beta samples per period, all numbers of taps", "why_tests_cant": "all tap counts and signals; off by one alignment for even numbers of taps", "anchors": ["qampy/core/filter.py:177-213", "qampy/core/special_fcts.py:172-203"]}
{"id": "C126", "title": "Raised cosine pulse is the transform of its spectrum and free of intersymbol interference", "statement": "rcos_time is the inverse Fourier transform of rcos_freq at all times; at the multiples of T it is one for zero and zero otherwise.", "quantifier": "all roll-off factors, symbol periods, times", "why_tests_cant": "equality of a closed formula and an integral for a continuum of parameters", "anchors": ["qampy/core/special_fcts.py:128-143"]}
{"id": "C127", "title": "rrcos_resample evaluates the pulse train at the new sampling times", "statement": "With zero insertion and time domain filter, output sample k of rrcos_resample is the sum over the input samples q of g(k/fnew - q/fold) x_q inside the filter length, with the normalised root raised cosine pulse g (g(0)=1, even, bounded by 1); the output has ceil(n up/down) samples. There is no timing offset for any ratio and any number of taps.", "quantifier": "all signals, all rational ratios, sampling rates, roll-off factors, numbers of taps", "why_tests_cant": "exact timing for all rational ratios, lengths and even or odd filter lengths", "anchors": ["qampy/core/resample.py:73-126", "qampy/core/filter.py:177-213"]}
{"id": "C128", "title": "fftconv only selects the algorithm", "statement": "rrcos_resample gives the same signal with fftconv=True and fftconv=False.", "quantifier": "all signals, ratios, roll-off factors, numbers of taps", "why_tests_cant": "equality of two index calculations for all ratios and lengths", "anchors": ["qampy/core/resample.py:110-122"]}
{"id": "C129", "title": "Pilot based frequency offset estimate", "statement": "pilot_based_foe returns the slope of the least squares line through the unwrapped pilot phases. For pilots received with arbitrary positive gains, a frequency offset f per symbol below half a turn, and phase disturbances of at most delta, the estimate of every mode and the average differ from the true offset by at most delta/pi*sqrt(3/(n^2-1)); without disturbance it is exact. An offset added by add_carrier_offset is estimated exactly and comp_freq_offset with the estimate leaves only a constant phase.", "quantifier": "all pilot sequences of length n >= 2, all numbers of modes, gains, offsets in range, disturbances", "why_tests_cant": "worst case over all disturbances and all lengths of an unwrapped regression", "anchors": ["qampy/core/pilotbased_receiver.py:32-73", "qampy/core/phaserecovery.py:435-473"]}
{"id": "C130", "title": "pilot_based_cpe removes a drifting phase from any number of modes", "statement": "pilot_based_cpe removes the carrier phase known at the pilots: for a phase that drifts linearly by less than half a turn between used pilots, all symbols up to the centre of the last averaging window come out without phase rotation (a constant phase is removed from all symbols), for any number of modes, any number of reference pilots and every use_pilot_ratio.", "quantifier": "all signals, gains, pilot spacings, averaging lengths, pilot ratios, drifts in range", "why_tests_cant": "interaction of block counts, averaging edges and interpolation over all sizes", "anchors": ["qampy/core/pilotbased_receiver.py:167-256"]}
{"id": "C131", "title": "Metrics do not depend on delay, quarter turns and the order of the modes", "statement": "Let each received mode be one of the transmitted modes, cyclically delayed by any number of symbols, turned by any number of quarter turns and disturbed by at most eps per symbol. If the aligned correlation exceeds all other correlations by more than the possible effect of the disturbance, then _sync_and_adjust pairs each received mode with the symbols really sent in it (delayed and turned alike), and SER, BER, EVM and SNR estimate are those of this pairing. For a constellation closed under quarter turns with minimum distance above 2 eps all SER and BER are exactly 0 and each EVM is at most eps.", "quantifier": "all numbers of modes and symbols, all symbol sequences, delays, turns, injective assignments of modes and all bounded disturbances", "why_tests_cant": "Tests use a few random sequences; the delays, turns, mode permutations and disturbances cannot be enumerated and the alignment searches over all of them jointly.", "anchors": ["qampy/signals.py:245-266", "qampy/signals.py:326-335", "qampy/signals.py:369-379", "qampy/signals.py:413-421", "qampy/signals.py:441-454", "qampy/core/ber_functions.py:36-105", "qampy/core/ber_functions.py:108-161"]}
{"id": "C132", "title": "Metrics of a synchronised signal", "statement": "With synced=True symbol n of received mode i is compared with symbol n mod Ntx of transmitted mode i, nothing is moved, and one value is returned per received mode.", "quantifier": "all numbers of modes and all lengths of the transmitted and received arrays, all contents", "why_tests_cant": "The shapes in the tests are equal or multiples; what happens to surplus modes or symbols of either array is not covered by finitely many shapes.", "anchors": ["qampy/signals.py:268-292", "qampy/signals.py:326-335", "qampy/signals.py:441-454"]}
{"id": "C133", "title": "Symbol errors of signals with pilots", "statement": "A signal with pilots, created by the constructor or from a payload array, with any number of frames, received with a disturbance smaller than half the minimum distance at each sample, has symbol error rate 0 in every mode (cal_ser with its defaults).", "quantifier": "all frame layouts, numbers of frames and modes, payloads, pilots and bounded disturbances", "why_tests_cant": "The reference symbols travel through slices, copies and np.tile of signal objects; whether they match the payload of all frames depends on the combination of payload length, frame length and number of frames.", "anchors": ["qampy/signals.py:192-202", "qampy/signals.py:1506-1522", "qampy/signals.py:1624-1638", "qampy/signals.py:1752-1781", "qampy/signals.py:1809-1832"]}
{"id": "C134", "title": "SNR argument of the information rates", "statement": "cal_gmi uses the given SNR in dB or, by default, its own estimate: handing over the estimate in dB changes nothing. For signals with pilots cal_gmi works on all frames and with use_pilot_snr=True it uses the SNR estimated from the pilots.", "quantifier": "all signals, numbers of modes and frames, alphabets and SNRs", "why_tests_cant": "A wrong unit of the SNR only changes the numerical value of the result, which no test compares with a reference for all SNRs.", "anchors": ["qampy/signals.py:458-507", "qampy/signals.py:1885-1917", "qampy/signals.py:1919-1947"]}
{"id": "C135", "title": "Default width of the pulse shaping filter of a signal", "statement": "filtering.rrcos_pulseshaping(sig, beta) without a width filters with the root raised cosine pulse of the symbol period 1/fb of the signal.", "quantifier": "all sampling rates, symbol rates, roll-offs and signals", "why_tests_cant": "For symbol rate 1, the default of all signal classes and of the tests, the symbol rate and the symbol period coincide.", "anchors": ["qampy/filtering.py:96-117", "qampy/core/filter.py:149-213"]}
{"id": "C136", "title": "Power ratio of hybrid signals", "statement": "For any two QAM or PSK formats the ratio of calculate_power_ratio makes the minimum distances of the first and of the scaled second alphabet equal, and it is the ratio of the mean power of the first part to the one of the second part.", "quantifier": "all pairs of QAM and PSK orders", "why_tests_cant": "The minimum distance is computed from neighbours in the sorting order of complex numbers only; that a closest pair is among them has to be shown for each of infinitely many alphabets.", "anchors": ["qampy/signals.py:1244-1246", "qampy/signals.py:1368-1394"]}
{"id": "C137", "title": "Error rate of the second part of a hybrid signal", "statement": "The second part of an undisturbed hybrid signal (symbols_M2) has symbol error rate 0, and building a hybrid signal from two arrays does not depend on earlier uses of the arrays.", "quantifier": "all pairs of QAM and PSK orders, numbers of modes and symbol sequences", "why_tests_cant": "The samples are scaled in place while the alphabet and the reference symbols are not; whether decisions survive this depends on the pair of formats.", "anchors": ["qampy/signals.py:1242-1254", "qampy/signals.py:1344-1366", "qampy/signals.py:294-335"]}
{"id": "C138", "title": "Correlation of delayed PRBS patterns", "statement": "The exclusive or of one period of a PRBS pattern and any other cyclic shift of it is again a period of the same pattern; two different delays of a pattern show all four pairs of bits equally often (the pair of zeros once less), so they agree at 2^(n-1)-1 of 2^n-1 places.", "quantifier": "all supported orders, nonzero seeds and pairs of different delays", "why_tests_cant": "There are 2^n-1 seeds times as many delays for each order, up to 2^62.", "anchors": ["qampy/core/prbs.py:27-58", "qampy/core/pythran_dsp.py:155-166"]}
{"id": "C139", "title": "QPSK signals from a bit error rate tester", "statement": "QPSKfromBERT puts the first pattern, delayed and inverted as requested, on the sign of the real part and the second one on the sign of the imaginary part; a signal of one period shows all four points (equally often up to one) for any delays.", "quantifier": "all supported orders, delays, inversions, one or two modes and lengths", "why_tests_cant": "The number of appearances of the points depends on the delay through the algebra of the shift register; there is no test of the class at all.", "anchors": ["qampy/signals.py:951-1002"]}
{"id": "C140", "title": "Converter model", "statement": "sim_DAC_response with a clipping ratio c scales all modes by one factor and limits the quadratures, the quantiser then moves no quadrature by more than half its step, the converter noise adds the power of an enob-bit converter at full swing, the filter comes last, and with everything switched off the signal is unchanged.", "quantifier": "all non-zero signals with any number of modes, clipping ratios in (0,1), bit counts, ENOB values and draws", "why_tests_cant": "all reals, expectation over random draws", "anchors": ["qampy/core/impairments.py:sim_DAC_response", "qampy/core/impairments.py:apply_DAC_filter", "qampy/core/impairments.py:apply_enob_as_awgn"]}
{"id": "C141", "title": "Transmitter with pre-distortion is linear", "statement": "comp_mod_sin followed by sim_tx_response with the default drive voltage returns the signal up to one factor, for every Vpi.", "quantifier": "all signals with quadratures in [-1,1], all Vpi > 0", "why_tests_cant": "all reals", "anchors": ["qampy/core/impairments.py:sim_tx_response", "qampy/core/impairments.py:ideal_amplifier_response", "qampy/core/digital_pre_compensation.py:comp_mod_sin"]}
{"id": "C142", "title": "Normalisation to the symbol power", "statement": "normalize_and_center(symbol_based=True) removes the mean of every mode, scales it such that the estimated signal power (without the noise) is one and keeps the estimated SNR; it works for every class of signals.", "quantifier": "all synchronised signals with any number of modes, all alphabets, all signal classes", "why_tests_cant": "all reals, all sizes", "anchors": ["qampy/signals.py:SignalBase.normalize_and_center", "qampy/signals.py:SignalBase.est_snr", "qampy/signals.py:SignalWithPilots.est_snr"]}
{"id": "C143", "title": "Pilot training leaves a perfect signal alone", "statement": "equalize_pilot_sequence returns the initial taps if the received pilots are undistorted in the sense of the training methods, for a common shift factor as well as for differing ones, for pilots of any QAM order; with frequency recovery it returns the frequency offset of the signal.", "quantifier": "all numbers of modes, taps, samples, oversampling ratios, iterations, step sizes, constellations of the pilots", "why_tests_cant": "Three chained adaptive trainings with data dependent step sizes over arrays of any size; the tests use one signal with QPSK pilots.", "anchors": ["qampy/core/pilotbased_receiver.py:equalize_pilot_sequence", "qampy/core/pilotbased_receiver.py:pilot_based_foe", "qampy/core/equalisation/equalisation.py:equalise_signal"]}
{"id": "C144", "title": "Pilot training treats every mode on its own", "statement": "The taps equalize_pilot_sequence returns for a mode are the result of training this mode alone on the window of its own shift factor; they do not depend on the shift factors of the other modes. Training succeeds for every signal containing the windows.", "quantifier": "all signals, shift factors, methods, step sizes, starting taps", "why_tests_cant": "Independence is a statement about pairs of runs, for all values of the other modes.", "anchors": ["qampy/core/pilotbased_receiver.py:equalize_pilot_sequence", "qampy/core/equalisation/pythran_equalisation.py:train_equaliser"]}
{"id": "C145", "title": "Signals from symbol arrays keep the symbols", "statement": "SignalQAMGrayCoded.from_symbol_array(symbs, M) of symbols of an M-QAM constellation of any amplitude returns a signal with exactly these symbols; if M is left out it is the number of constellation points.", "quantifier": "all orders, amplitudes, numbers of modes and symbol arrays", "why_tests_cant": "The scale is estimated from the symbols that happen to occur; tests use arrays in which all points occur.", "anchors": ["qampy/signals.py:732-783", "qampy/theory.py:139-149"]}
{"id": "C146", "title": "Signals with an arbitrary alphabet", "statement": "A SymbolOnlySignal has the given dtype and no symbol errors against itself; its symbol error rate is the fraction of samples whose nearest symbol is not the one sent. from_symbol_array without alphabet takes the symbols over unchanged with the set of occurring symbols as alphabet, with an alphabet it takes the nearest symbols. Without bits it still has a mutual information.", "quantifier": "all alphabets, types, numbers of modes and symbols, draws and received signals", "why_tests_cant": "arbitrary alphabets and types", "anchors": ["qampy/signals.py:1004-1140", "qampy/core/equalisation/pythran_equalisation.py:304-334"]}
{"id": "C147", "title": "Calls of SignalWithPilots.from_symbol_array are independent", "statement": "What SignalWithPilots.from_symbol_array returns does not depend on earlier calls, and it does not change the dictionaries passed to it.", "quantifier": "all sequences of calls, dictionaries, orders, payload kinds", "why_tests_cant": "depends on the history of the process; tests run each call once", "anchors": ["qampy/signals.py:SignalWithPilots.from_symbol_array"]}
{"id": "C148", "title": "pilot_scale multiplies the pilots", "statement": "The pilots in every frame of a pilot signal are the drawn or given pilots times pilot_scale, for the constructor and for from_symbol_array.", "quantifier": "all layouts, frames, pilots, payloads and positive scales", "why_tests_cant": "all layouts and scales; tests use scale 1", "anchors": ["qampy/signals.py:SignalWithPilots.__new__", "qampy/signals.py:SignalWithPilots.from_symbol_array"]}
{"id": "C149", "title": "corr_foe removes the frequency offset found by sync2frame", "statement": "After sync2frame, corr_foe removes the average of the found offsets plus the additional one from all modes, and repeated calls with further offsets add up.", "quantifier": "all signals, offsets, sampling rates and sequences of calls", "why_tests_cant": "all offsets and call sequences", "anchors": ["qampy/signals.py:SignalWithPilots.corr_foe", "qampy/core/phaserecovery.py:comp_freq_offset"]}
{"id": "C150", "title": "frame_sync finds the pilot sequence", "statement": "If the pilots are received without distortion from some sample on and correlate with nothing else as well, frame_sync returns for each received mode the pilots it carries and the sample at which they start (half a filter earlier), so that training on the found position sees the pilots.", "quantifier": "all signals, pilots, numbers of modes, mode orders, quarter rotations, frame lengths, oversampling factors, filter lengths and blind methods", "why_tests_cant": "tests place a long pilot sequence in one 64/128-QAM frame; the property is over all frames and positions", "anchors": ["qampy/core/pilotbased_receiver.py:frame_sync", "qampy/signals.py:SignalWithPilots.sync2frame"]}
{"id": "C151", "title": "Length of the pilot sequence needed by the frame search", "statement": "With the default number of training symbols the search compares windows only if the pilot sequence is at least twice as long as the filter. A shorter one that still covers the filter gives a position within two pilot sequences of the start for every signal, one shorter than the filter raises ValueError.", "quantifier": "all signals, filter lengths, pilot sequences, oversampling factors", "why_tests_cant": "all signals and lengths; tests use long sequences only", "anchors": ["qampy/core/pilotbased_receiver.py:frame_sync", "qampy/core/equalisation/equalisation.py:_cal_training_symbol_len"]}
{"id": "C152", "title": "Reported success of the frame search", "statement": "If undistorted pilots of modulus one are found where they are, frame_sync reports success.", "quantifier": "all lengths of the pilot sequence", "why_tests_cant": "all lengths; tests use at least 128 pilots", "anchors": ["qampy/core/pilotbased_receiver.py:frame_sync", "qampy/core/pilotbased_receiver.py:FRAME_SYNC_THRS"]}
{"id": "C153", "title": "Error vector magnitude of plain arrays", "statement": "cal_evm does not depend on the gain of the signal or of the known symbols nor on a common phase, is zero exactly for the known symbols up to a gain, is 1/sqrt(SNR) of the moment based SNR for the matching moments, and the blind value (known=None) never exceeds the value against the known symbols of the constellation and agrees with it without symbol errors.", "quantifier": "all signals and symbols of any length, all square QAM orders", "why_tests_cant": "holds for all complex arrays, orders and gains", "anchors": ["qampy/core/signal_quality.py:cal_evm", "qampy/core/signal_quality.py:_cal_evm_blind", "qampy/core/signal_quality.py:norm_to_s0"]}
{"id": "C154", "title": "Formats of Matlab arrays", "statement": "The key formats of ndarray_from_matlab (one complex array, real and imaginary arrays, one vector per mode as row or column, two real vectors per mode, rows of a real array with a port map; arrays transposed or not) all give the same array of modes.", "quantifier": "all numbers of modes and symbols, all symbols", "why_tests_cant": "no test loads a file; the formats meet for arrays of every shape", "anchors": ["qampy/core/io.py:ndarray_from_matlab"]}
{"id": "C155", "title": "Emulated polarisation multiplexing when loading", "statement": "With fake_polmux the second mode of load_symbols_from_matlab_file is the first one delayed by fake_pm_delay symbols.", "quantifier": "all symbols and delays", "why_tests_cant": "all symbol sequences and delays; no test loads a file", "anchors": ["qampy/io.py:load_symbols_from_matlab_file"]}
{"id": "C156", "title": "Symbols from Matlab files", "statement": "Symbols that use every point of the M-QAM constellation equally often in each mode, saved with any positive gain and any offset per mode, are loaded as the same points of the constellation of unit power.", "quantifier": "all orders, numbers of modes, sequences, gains and offsets", "why_tests_cant": "all sequences, gains and offsets", "anchors": ["qampy/io.py:load_symbols_from_matlab_file", "qampy/helpers.py:normalise_and_center", "qampy/signals.py:SignalQAMGrayCoded.from_symbol_array"]}
{"id": "C157", "title": "Frequency offsets between the bins", "statement": "For QPSK without noise and any frequency offset below the ambiguity limit (an eighth of the symbol rate less half a bin), not only those on the grid of the transform, the offset found is within half a bin of the transform, os/(8F), for every length of the signal (shorter or longer than the transform), with or without averaging over the modes; after compensation the signal is the sent one with a rotation of at most pi/(4F) per sample.", "quantifier": "all QPSK sequences, phases, offsets, signal lengths, transform sizes and mode counts", "why_tests_cant": "all real offsets, lengths and symbol sequences", "anchors": ["qampy/core/phaserecovery.py:find_freq_offset", "qampy/core/phaserecovery.py:comp_freq_offset", "qampy/core/impairments.py:add_carrier_offset"]}
{"id": "C158", "title": "One bit error per symbol error", "statement": "If every received sample deviates from the transmitted point by less than the minimum distance over the square root of two, the bit error rate of a QAM signal is the symbol error rate divided by the number of bits per symbol; for PSK the same holds for deviations below half of the distance to the points after the next ones.", "quantifier": "all QAM and PSK orders, scales, symbol sequences and deviations within the bound", "why_tests_cant": "all orders and all real deviations", "anchors": ["qampy/signals.py:cal_ber", "qampy/signals.py:cal_ser", "qampy/theory.py:gray_code_qam", "qampy/core/utils.py:bin2gray"]}
{"id": "C159", "title": "Shape of the analytic error rates", "statement": "The analytic symbol error rates of M-QAM, M-PSK and 4-PAM and the bit error rate of M-QAM are strictly decreasing in the signal to noise ratio and go to zero; at zero the QAM and PAM symbol error rates are those of guessing; QAM and PSK symbol error rates increase with the order; the bit error rate of M-QAM lies between the symbol error rate over log2(M) and the symbol error rate with ratio to the former going to one; the bit error rate strictly increases with the error vector magnitude.", "quantifier": "all real signal to noise ratios from zero, all real orders from one (four, two)", "why_tests_cant": "all real arguments and limits", "anchors": ["qampy/theory.py:ser_vs_es_over_n0_qam", "qampy/theory.py:ber_vs_es_over_n0_qam", "qampy/theory.py:ber_vs_evm_qam", "qampy/theory.py:ser_vs_es_over_n0_psk", "qampy/theory.py:ser_vs_es_over_n0_4pam"]}
{"id": "C160", "title": "Equaliser training of rotated signals", "statement": "Blind training that only looks at the modulus of the output gives the same taps for a signal multiplied by a carrier phase, with the errors rotated by that phase, and the same trajectory up to the phase when the initial taps have a phase; training with references symmetric under quarter turns gives the same taps for a signal turned by a quarter turn.", "quantifier": "all signals, taps, step sizes, numbers of symbols and iterations, carrier phases", "why_tests_cant": "all phases and all lengths of the training", "anchors": ["qampy/core/equalisation/pythran_equalisation.py:train_equaliser", "qampy/core/equalisation/pythran_equalisation.py:adapt_step", "qampy/core/equalisation/pythran_equalisation.py:cma_error", "qampy/core/equalisation/pythran_equalisation.py:rde_error"]}
{"id": "C161", "title": "Convergence of data aided and decision directed training without noise", "statement": "If some taps reproduce the transmitted symbols exactly, training with sbd_data or dd_data never moves the taps away from them for step sizes up to two over window energy times largest symbol amplitude; with fixed step size the energy of all errors is bounded by the initial distance whatever the number of iterations. The decision directed methods dd and sbd behave the same when started so close that all decisions are right, and the decisions stay right.", "quantifier": "all signals, perfect taps, initial taps, tap numbers, modes, training lengths, iterations, step sizes up to the bound, with and without adaptive step size", "why_tests_cant": "all signals and any number of iterations; convergence in a test shows one trajectory", "anchors": ["qampy/core/equalisation/pythran_equalisation.py:train_equaliser", "qampy/core/equalisation/pythran_equalisation.py:sbd_data_error", "qampy/core/equalisation/pythran_equalisation.py:ddlms_error", "qampy/core/equalisation/pythran_equalisation.py:sbd_error", "qampy/core/equalisation/pythran_equalisation.py:det_symbol"]}
{"id": "C162", "title": "Accuracy of the blind phase search between the test angles", "statement": "Whatever the phase of the received signal is, with a phase that drifts by at most D within the averaging length and noise of at most e per sample, blind phase search picks an angle that brings the window to constellation points with mean square error at most (A(pi/4M + D) + e)^2, for every alphabet closed under quarter turns. For QPSK the remaining phase error is at most half a step of the test angles plus twice the drift plus twice the relative noise (up to quarter turns), and if this stays below the decision distance every sample with a complete window is decided as the transmitted symbol up to quarter turns.", "quantifier": "all signals, phases, drifts and noises within the stated bounds, numbers of test angles and averaging lengths, all quarter-turn closed alphabets (fit), all QPSK amplitudes (accuracy)", "why_tests_cant": "continuum of phases and noise values; a test draws one noise realisation", "anchors": ["qampy/core/phaserecovery.py:bps", "qampy/core/pythran_dsp.py:bps", "qampy/core/pythran_dsp.py:select_angle_index"]}
{"id": "C163", "title": "No cycle slips in the blind phase search", "statement": "For a QPSK signal whose phase moves and whose noise stays within explicit bounds, blind phase search with its unwrapping resolves all samples with a complete window by the same number of quarter turns relative to the transmitted symbols, however far the phase drifts along the signal; trimmed by the averaging length the result is decided as the transmitted symbols up to this common turn, and its symbol error rate is zero.", "quantifier": "all QPSK signals of any length, phase trajectories, noises within the bounds, numbers of test angles, averaging lengths", "why_tests_cant": "cycle slips are rare events that depend on the whole phase trajectory; simulations only bound their rate for one trajectory", "anchors": ["qampy/core/phaserecovery.py:bps", "qampy/core/pythran_dsp.py:select_angle_index", "qampy/core/ber_functions.py:cal_ber_syncd", "qampy/signals.py:SignalQAMGrayCoded.make_decision"]}
{"id": "C164", "title": "Resolution of the two-stage blind phase search", "statement": "For a noise free QPSK signal of any constant phase, bps_twostage with M first stage and B second stage angles leaves a phase of at most pi/(4M(B-1)) up to quarter turns, at every position whose windows are complete; the recovered samples are that close to the transmitted symbols.", "quantifier": "all QPSK signals, phases, numbers of angles in both stages, averaging lengths", "why_tests_cant": "continuum of phases; tests use one phase and a tolerance on the error rate", "anchors": ["qampy/core/phaserecovery.py:bps_twostage", "qampy/core/pythran_dsp.py:bps"]}
{"id": "C165", "title": "Viterbi-Viterbi follows a moving phase without slips", "statement": "For an M-PSK signal whose points satisfy s^M = -1 (the QPSK of the package), with any amplitudes and with a phase (phase noise of the samples included) that moves by at most D < pi/(3M) over the averaging length, viterbiviterbi returns at every position inside the averaging window the transmitted point times one rotation of the constellation common to all positions, with a phase error of at most D; every sample is decided as the transmitted point up to this rotation, however far the phase moves in the end.", "quantifier": "all M, signals of any length, amplitudes, phase trajectories within the bound, averaging lengths", "why_tests_cant": "slips depend on the whole trajectory; tests use one", "anchors": ["qampy/core/phaserecovery.py:viterbiviterbi"]}
{"id": "C166", "title": "Frequency offset in noise", "statement": "Noise does not move the frequency estimate of QPSK by more than a bin: for an offset on the grid of the transform and noise of up to a tenth of the amplitude in every sample (or fourth powers deviating from a tone by less than half on average) the offset is found exactly, for any offset below the ambiguity limit and noise of up to 1/35 of the amplitude (an eighth on average in the fourth power) the estimate is within one bin, os/(4F), of the offset, with or without averaging over the modes.", "quantifier": "all QPSK sequences, bounded noise sequences, offsets, transform sizes, mode counts", "why_tests_cant": "the noise is adversarial within the bound, all lengths and offsets", "anchors": ["qampy/core/phaserecovery.py:find_freq_offset"]}
{"id": "C167", "title": "The carrier recovery chain of QPSK is error free", "statement": "A QPSK signal of any number of modes with unknown phases, a frequency offset below the ambiguity limit and noise of up to 1/35 of the amplitude in every sample is recovered by finding the frequency offset, compensating it and the blind phase search (at least 8 test angles, half window at most 1/32 of the transform size and at most 10000): the decisions are the sent symbols up to one quarter turn per mode, without cycle slips, and the symbol error rate is zero.", "quantifier": "all symbol sequences, lengths, modes, phases, offsets, noise within the bound, search parameters", "why_tests_cant": "composition of three estimators over all noise realisations and lengths", "anchors": ["qampy/core/phaserecovery.py:find_freq_offset", "qampy/core/phaserecovery.py:comp_freq_offset", "qampy/core/phaserecovery.py:bps", "qampy/core/signal_quality.py:make_decision"]}
{"id": "C168", "title": "Both implementations of PMD agree", "statement": "The implementation of PMD with the response matrix of H_PMD (_applyPMD_einsum) gives the same field as the one with two rotations (_applyPMD_dot, used by apply_PMD_to_field); the response matrix is unitary at every frequency.", "quantifier": "all two polarisation fields, angles, delays, sampling rates", "why_tests_cant": "all fields and angles", "anchors": ["qampy/core/impairments.py:H_PMD", "qampy/core/impairments.py:_applyPMD_einsum", "qampy/core/impairments.py:_applyPMD_dot"]}
{"id": "C169", "title": "Distributed processing delivers every result once", "statement": "A DataDealer with any number of RepWorkers: however the requests are distributed and the workers scheduled, every execution ends (at most three steps per request), no result is invented or delivered twice, and at the end there is exactly one result for every request; collected by the id of the request the results do not depend on the number of workers or the scheduling; with one worker they come in the order of the requests.", "quantifier": "all request sequences, handlers, numbers of workers, interleavings", "why_tests_cant": "all interleavings of a concurrent system", "anchors": ["qampy/core/processing.py:DataDealer", "qampy/core/processing.py:RepWorker", "qampy/core/processing.py:PhRecWorker"]}
{"id": "C170", "title": "Data aided training is robust against noise", "statement": "Training with the transmitted symbols (sbd_data, real valued dd_data) with fixed step size of at most one over (largest window energy times largest symbol amplitude) never does much worse than any fixed equaliser: for every comparison taps the energy of all errors of a mode is at most the initial distance of the taps times 2A/mu plus 4A^2 times the energy of the errors the comparison taps make (noise and residual distortion). So the mean error converges to at most a constant times the error of the best taps, for any noise.", "quantifier": "all signals, noise sequences, comparison taps, initial taps, step sizes within the bound, modes, iterations, oversampling", "why_tests_cant": "all noise sequences and lengths, including adversarial ones", "anchors": ["qampy/core/equalisation/pythran_equalisation.py:train_equaliser", "qampy/core/equalisation/pythran_equalisation.py:sbd_data_error", "qampy/core/equalisation/pythran_equalisation.py:dd_data_error_real"]}
{"id": "C171", "title": "Both estimators of the mutual information measure the same noise", "statement": "cal_mi(fast=False) is the average of cal_mi(fast=True) over all symbols of the alphabet as transmitted symbol with the same measured noise.", "quantifier": "all received and transmitted sequences, alphabets, noise powers", "why_tests_cant": "all alphabets and noise sequences; the error vanishes for the symmetric alphabets tests use", "anchors": ["qampy/core/signal_quality.py:cal_mi", "qampy/core/pythran_dsp.py:cal_mi_mc", "qampy/core/pythran_dsp.py:cal_mi_mc_fast"]}
{"id": "C172", "title": "Converter pre-compensation is the least mean square filter", "statement": "comp_dac_resp returns the filter with the least sum of signal distortion (weighted with the raised cosine spectrum of the pulses) and converter noise, the noise being that of a uniform quantiser with 2^enob steps driven with the given peak to average power ratio (density over twice the symbol rate). Filter and converter together have no phase response, a gain in [0,1) and nothing outside the band of the pulses; the gain of the converter does not matter.", "quantifier": "all converter responses, lengths, roll-off factors, PAPR, ENOB, oversampling factors, competing filters", "why_tests_cant": "optimality over all filters and all responses", "anchors": ["qampy/core/digital_pre_compensation.py:comp_dac_resp"]}
{"id": "C173", "title": "Alignment and normalisation do not depend on the gain", "statement": "The alignment of a received signal with the transmitted symbols (delay, quarter turn, assignment of modes, and whether it fails) is the same for every positive gain of each mode; est_snr(synced=False) gives the same ratios and powers which go with the square of the gain; normalize_and_center(symbol_based=True) returns the same signal whatever gain and offset each mode has.", "quantifier": "all transmitted and received arrays of any shape, all positive gains per mode, all offsets", "why_tests_cant": "all gains and arrays; the assignment starts its search with the constant -100 which could act as a threshold", "anchors": ["qampy/signals.py:_sync_and_adjust", "qampy/signals.py:est_snr", "qampy/signals.py:normalize_and_center", "qampy/core/ber_functions.py:find_sequence_offset_complex"]}
{"id": "C174", "title": "Parallel training of the modes is deterministic", "statement": "train_equaliser trains the modes in an OpenMP parallel loop: every interleaving of the threads gives the taps, errors and step size of the sequential loop.", "quantifier": "all signals, taps, methods, numbers of symbols and iterations, lists of different modes, all complete interleavings of the steps of the threads", "why_tests_cant": "a race shows up only for some schedules; a test sees one schedule per run and the number of schedules is exponential", "anchors": ["qampy/core/equalisation/pythran_equalisation.py:train_equaliser", "qampy/core/equalisation/pythran_equalisation.py:train_equaliser_realvalued"]}
{"id": "C175", "title": "The other parallel loops give the sequential result", "statement": "apply_filter_to_signal, make_decision, the soft demappers, bps and select_angles give the result of the sequential loops for every interleaving of the threads; the reductions in estimate_snr, cal_mi_mc, cal_mi_mc_fast and cal_gmi_mc give the sequential sum for every distribution of the iterations to threads (exact arithmetic).", "quantifier": "all inputs of any size, all complete interleavings, all numbers of threads and distributions of the iterations", "why_tests_cant": "schedules cannot be enumerated, a race is seen only by chance", "anchors": ["qampy/core/equalisation/pythran_equalisation.py:apply_filter_to_signal", "qampy/core/equalisation/pythran_equalisation.py:make_decision", "qampy/core/pythran_dsp.py:bps", "qampy/core/pythran_dsp.py:soft_l_value_demapper", "qampy/core/pythran_dsp.py:soft_l_value_demapper_minmax", "qampy/core/pythran_dsp.py:select_angles", "qampy/core/pythran_dsp.py:estimate_snr", "qampy/core/pythran_dsp.py:cal_mi_mc", "qampy/core/pythran_dsp.py:cal_gmi_mc"]}
{"id": "C176", "title": "Gain acquisition of the constant modulus algorithm", "statement": "Let one source of constant modulus be received in any number of modes and taps with fixed weights. Training with cma and a step size of at most half over (power of the weights times reference) from any taps with non-zero output that is not too large brings the output power to the reference, geometrically in the number of training steps; the carrier phase of the output stays and the taps move along the matched filter only. With adaptive step size the distance to the reference never grows. An output of zero is never left.", "quantifier": "all constant modulus sources, weights, numbers of modes and taps, oversampling factors, initial taps in the region, step sizes within the bound, numbers of symbols and iterations", "why_tests_cant": "convergence for all starts, signals and lengths is a statement about a nonlinear recursion", "anchors": ["qampy/core/equalisation/pythran_equalisation.py:cma_error", "qampy/core/equalisation/pythran_equalisation.py:train_equaliser", "qampy/core/equalisation/equalisation.py:equalise_signal"]}
{"id": "C177", "title": "MCMA acquires gain and carrier phase of QPSK", "statement": "For a QPSK source received with any complex weights in any number of modes and taps, training with mcma from taps whose response has two non-zero components converges geometrically to the QPSK point of the quadrant in which the response starts, so that every equalised symbol is a QPSK point up to a common quarter turn. A response on an axis stays on the axis.", "quantifier": "all QPSK symbol sequences, weights (gain, phase, polarisation), initial taps in the region, step sizes within the bound, numbers of symbols and iterations", "why_tests_cant": "convergence for all starting points and lengths", "anchors": ["qampy/core/equalisation/pythran_equalisation.py:mcma_error", "qampy/core/equalisation/pythran_equalisation.py:train_equaliser"]}
{"id": "C178", "title": "Measured converter response", "statement": "load_dac_response turns a table of measured magnitude and phase into the response at the frequencies of the FFT: at measured frequencies it is the measured value, between them it is interpolated linearly, negative frequencies get the conjugate. A real signal filtered with it stays real. Tables with fewer rows than the hard coded index are rejected; beyond the measured range the response is a constant.", "quantifier": "all tables with increasing frequencies starting at zero, all sampling rates, numbers of samples, frequencies", "why_tests_cant": "Hermitian symmetry at all bins for all tables and lengths", "anchors": ["qampy/core/impairments.py:load_dac_response", "qampy/core/impairments.py:apply_DAC_filter"]}
{"id": "C179", "title": "Running sums of the blind phase search in floating point", "statement": "The blind phase search compares differences of running sums over the whole signal. With rounded arithmetic it finds the angle with the smallest cost of the window if the costs of all others are larger by more than an explicit error bound. The single precision version finds an angle whose cost is half of all others at every position of the signal.", "quantifier": "all rounding functions of relative error u, cost matrices, window lengths, positions", "why_tests_cant": "the failure needs more than 2^24 samples, the bound is for all signals", "anchors": ["qampy/core/pythran_dsp.py:select_angle_index", "qampy/core/pythran_dsp.py:bps"]}
{"id": "C180", "title": "Moving average in floating point", "statement": "Every output of moving_average is the mean of its window up to an explicit bound that grows with the position in the signal. In single precision the moving average of a constant signal is that constant up to a factor of two.", "quantifier": "all rounding functions of relative error u, signals, window lengths, positions", "why_tests_cant": "the failure needs more than 2^24 samples, the bound is for all signals", "anchors": ["qampy/core/filter.py:moving_average"]}
{"id": "C181", "title": "Decisions in floating point", "statement": "Computed distances agree with the exact ones up to four roundings. A sample that is inside of the decision region of a symbol by a relative margin of the size of the roundings is decided on that symbol by det_symbol and det_symbol_argmin, as in exact arithmetic.", "quantifier": "all rounding functions of relative error u, alphabets, samples, absolute value functions of relative error v", "why_tests_cant": "all samples and alphabets, all rounding functions", "anchors": ["qampy/core/pythran_dsp.py:det_symbol", "qampy/core/equalisation/pythran_equalisation.py:det_symbol", "qampy/core/equalisation/pythran_equalisation.py:det_symbol_argmin"]}
{"id": "C182", "title": "Equaliser filter in floating point", "statement": "The filter output computed with rounded operations in the order of the source differs from the exact sum by at most ((1+v)(1+u)^(modes*taps)-1) times the sum of the absolute products. A decision on it is the exact one if the exact output has this margin.", "quantifier": "all rounding functions of relative error u, numbers of modes and taps, signals, taps, alphabets", "why_tests_cant": "error bound for all inputs and sizes", "anchors": ["qampy/core/equalisation/pythran_equalisation.py:apply_filter", "qampy/core/equalisation/pythran_equalisation.py:apply_filter_to_signal"]}
{"id": "C183", "title": "Samples per symbol from rounded rates", "statement": "The property os (int(fs/fb)) of a signal whose sampling rate was set to k*fb equals k: for powers of two, for whole-number symbol rates with k*fb at most 2^53, and in general it is never off by more than one. (Refuted in general: for fb = 0.7 and k = 3 in double precision it reports 2. Rounding instead of truncating would always find k.)", "quantifier": "all factors k, symbol rates, rounding functions of relative error u", "why_tests_cant": "all rates and rounding functions; the failing rates are sparse", "anchors": ["qampy/signals.py:SignalBase.os"]}
{"id": "C184", "title": "Length of linspacestep", "statement": "linspacestep(start, step, N) has exactly N elements: in exact arithmetic, and in floating point whenever N*step and start+N*step need no rounding. (Refuted in general: linspacestep(1, 0.1, 3) has 4 elements in double precision.)", "quantifier": "all starts, steps, numbers of steps", "why_tests_cant": "all arguments; depends on rounding", "anchors": ["qampy/core/utils.py:linspacestep"]}
{"id": "C185", "title": "Simulated transmission of a pilot frame", "statement": "sim_tx: every returned mode has mean zero and power one; without delays each mode gets its own impairments only; without impairments the result is the normalised frame; a delay of one mode rolls that mode; with modal_delay mode l is delayed by modal_delay[l] (refuted: np.roll without axis; for equal modes every mode is delayed by the sum of all delays); the argument is left alone (refuted: without delays its first mode is overwritten). A rotation angle raises AttributeError for two modes and is ignored otherwise; a wrong number of delays raises ValueError.", "quantifier": "all frames, numbers of modes, parameters, random draws", "why_tests_cant": "all numbers of modes and delays; aliasing of the argument is not visible in the result", "anchors": ["qampy/core/pilotbased_transmitter.py:sim_tx"]}
{"id": "C186", "title": "Mid position and swing of a signal", "statement": "set_mid_point moves all samples by the same number and the mid of smallest and largest value of both quadratures is the wanted one, independent of a constant offset; set_mid_and_resale with mid position zero keeps one mode within the swing and reaches both ends; the shift of get_center_shift_fac makes the mean zero. (Refuted: with a mid position other than zero the result of set_mid_and_resale does not have it.)", "quantifier": "all signals, mid positions, swings", "why_tests_cant": "all signals and values", "anchors": ["qampy/helpers.py:set_mid_point", "qampy/helpers.py:set_mid_and_resale", "qampy/helpers.py:rescale_signal", "qampy/helpers.py:get_center_shift_fac"]}
{"id": "C187", "title": "The decision routines agree", "statement": "det_symbol and det_symbol_parallel of the equalisers return the same symbol and squared distance for every sample and alphabet, det_symbol_argmin and make_decision the same symbol and the distance as long as a symbol is closer than the start value of the search, and the blind phase search uses the same squared distance. If the loop of the parallel version ran in threads, the distance would not depend on partition and order of the threads, nor the symbol without ties.", "quantifier": "all samples, alphabets (also empty), signals, partitions of the alphabet, thread orders", "why_tests_cant": "agreement of implementations for all inputs including ties and far samples", "anchors": ["qampy/core/equalisation/pythran_equalisation.py:det_symbol", "qampy/core/equalisation/pythran_equalisation.py:det_symbol_parallel", "qampy/core/equalisation/pythran_equalisation.py:det_symbol_argmin", "qampy/core/pythran_dsp.py:det_symbol"]}
{"id": "C188", "title": "The pilot based receiver returns the payload", "statement": "For a frame built by from_symbol_array and received without noise and distortion, but with the modes exchanged, different delays per mode and arbitrary constant phases, sync2frame, pilot_equaliser (frame 0), pilot_cpe and get_data together return exactly the transmitted payload in the order of the transmitted modes. With foe_comp and pilots at the same sample in all modes the same holds when the received signal has a frequency offset of less than half the symbol rate.", "quantifier": "all numbers of modes, payloads, pilots without zeros, frame lengths, oversamplings, tap numbers of equal parity, delays, phases, frequency offsets, settings of the phase recovery", "why_tests_cant": "the chain of four routines with their shared attributes (shift factors, synchronisation taps, mode order) for all delays, orders and numbers of taps", "anchors": ["qampy/signals.py:SignalWithPilots.sync2frame", "qampy/equalisation.py:pilot_equaliser", "qampy/equalisation.py:_apply_to_pilotsignal", "qampy/phaserec.py:pilot_cpe", "qampy/signals.py:SignalWithPilots.get_data"]}
{"id": "C189", "title": "Blind phase search in blocks on a device", "statement": "The ArrayFire version of the blind phase search cuts the signal into overlapping blocks that fit the memory of the device. For every memory limit under which a block holds at least half a window of rows (or the whole signal fits), every signal, constellation, window and set of angles (one row or one per sample) the returned index at each position with a complete window is the first angle with the smallest sum of squared distances over that window, and zero at the edges: no position is skipped, computed twice from different windows or attributed to a neighbour at the joints between the blocks, the result equals that of the reference implementation and does not depend on the memory limit; it equals that of the compiled search when the distances stay below the built-in limits of the latter. Below that memory limit an exception is raised.", "quantifier": "all signals, constellations, angles, window lengths and memory limits", "why_tests_cant": "The blocked branch is only taken for signals of more than 2^28/(angles*symbols) samples, which no unit test uses; correctness at the joints must hold for every remainder of the length modulo the block size.", "anchors": ["qampy/core/phaserecovery.py:161-206"]}
{"id": "C190", "title": "Gain acquisition of the radius directed equaliser", "statement": "Let symbols of any constellation be received with fixed weights in any number of modes and taps. If the output power of the initial taps deviates by a relative error smaller than the ring margin of the constellation (2/(sqrt(M)-1)^2 for square QAM: 2/9 for 16-QAM, 2/49 for 64-QAM) and the step size is at most a fifth over (power of the weights times squared largest symbol power), training with rde and the code book of the library picks the transmitted ring at every step and drives the output power geometrically to that of the constellation; the carrier phase is kept, the taps move along the matched filter only, and the equalised symbols are the transmitted ones up to that phase with the same relative accuracy. With adaptive step size the power error never grows. Outputs lying on wrong rings are never corrected.", "quantifier": "all constellations, symbol sequences, weights, numbers of modes and taps, oversampling factors, initial taps within the margin, step sizes within the bound, numbers of symbols and iterations", "why_tests_cant": "Tests train on a few random sequences and check the symbol error rate; convergence from every start in the region, for every order of the symbols, and the size of the region for every constellation are statements about all runs.", "anchors": ["qampy/core/equalisation/pythran_equalisation.py:130-172", "qampy/core/equalisation/pythran_equalisation.py:196-200", "qampy/core/equalisation/equalisation.py:338-359"]}
{"id": "C191", "title": "Blind phase search receives QAM of any order", "statement": "For M-QAM of every order but 2-QAM and 8-QAM, with any carrier phase that drifts by at most Delta within a window and noise of at most epsilon per sample, bps recovers the phase at every position with a complete window to within (rho*(A*(pi/(4M)+Delta)+epsilon)+epsilon)/a + Delta, up to quarter turns, where A is the largest and a the smallest amplitude of the constellation and at least one in rho^2 symbols of each window is one of the four innermost points. If that is small enough the unwrapped phase never slips and the decisions are the transmitted symbols turned by one common number of quarter turns, with symbol error rate zero. Without innermost points the phase cannot be found: symbols of the middle ring of 16-QAM alone are received wrongly.", "quantifier": "for all signal lengths, symbol sequences, phase trajectories, noise sequences, QAM orders, scales, numbers of test angles and window lengths", "why_tests_cant": "a test takes one random symbol sequence, one phase and one noise draw; that no phase, drift, noise or symbol order within the bound makes the search pick a wrong angle, and that unwrapping never slips along a signal of any length, needs the inequality over all of them", "anchors": ["qampy/core/phaserecovery.py:bps", "qampy/core/pythran_dsp.py:select_angle_index", "qampy/core/ber_functions.py:cal_ber_syncd", "qampy/signals.py:SignalQAMGrayCoded.make_decision", "qampy/core/pythran_dsp.py:bps", "qampy/theory.py:cal_symbols_square_qam", "qampy/theory.py:cal_symbols_qam"]}
{"id": "C192", "title": "Blind receiver for square QAM without errors", "statement": "For square QAM of any order, one source seen with fixed weights in any number of modes and taps, and any carrier phase: if the output power of the initial taps is off by less than the ring margin, the step size is within the bound of C190, the training is long enough and every window of the phase search has enough innermost symbols, then training with rde, filtering with the trained taps, blind phase search and decision return in every output mode exactly the transmitted symbols turned by a number of quarter turns.", "quantifier": "for all orders of square QAM, symbol sequences, weights, numbers of modes and taps, oversampling factors, initial taps within the margin, carrier phases, numbers of iterations and test angles satisfying the bounds, and signal lengths", "why_tests_cant": "a test of the whole chain takes a few random sequences and one channel; that the stages fit together for every sequence and phase (what one guarantees is what the next one needs, including indices of symbols and edges) is a statement about all of them", "anchors": ["qampy/core/equalisation/pythran_equalisation.py:130-172", "qampy/core/equalisation/pythran_equalisation.py:196-200", "qampy/core/equalisation/equalisation.py:338-359", "qampy/core/phaserecovery.py:bps", "qampy/core/pythran_dsp.py:select_angle_index", "qampy/core/ber_functions.py:cal_ber_syncd", "qampy/signals.py:SignalQAMGrayCoded.make_decision", "qampy/core/equalisation/pythran_equalisation.py:train_equaliser", "qampy/core/equalisation/equalisation.py:equalise_signal"]}
{"id": "C193", "title": "Data aided training in floating point follows the exact training", "statement": "When the equaliser is trained with the transmitted symbols ('sbd_data', fixed step size of at most one over the largest energy of a window times the largest amplitude of the symbols) in arithmetic that rounds every operation, the training runs through, after any number of steps the taps differ from the taps of the exact training by at most the number of steps times the rounding of a single step (rounding is not amplified by the recursion), the same holds for the filter outputs, and the taps stay as near to any reference taps as the exact ones up to this difference.", "quantifier": "all signals, numbers of modes, taps, training symbols and iterations, start taps, symbols, noise, and rounding functions of relative error u", "why_tests_cant": "A test runs one precision on one signal; that the recursion does not amplify rounding, for any length of the training, is a statement about all signals and all step numbers.", "anchors": ["qampy/core/equalisation/pythran_equalisation.py:24-31", "qampy/core/equalisation/pythran_equalisation.py:160-173", "qampy/core/equalisation/pythran_equalisation.py:218-222"]}
{"id": "C194", "title": "Carrier frequencies of signal objects", "statement": "For signal objects the offset found by find_freq_offset after add_carrier_offset(sig, fo) is the fraction fo/fb of the symbol rate, compensating what was found restores samples and rates up to one constant phase, for every sampling rate of at least one sample per symbol. (The value is refuted for fractional oversampling: os is truncated, at 1.5 samples per symbol the value is too small by a factor 1.5; finding and compensating still cancel.)", "quantifier": "all noiseless signals with constant fourth power, rates fs >= fb, offsets on the grid, transform sizes, numbers of modes", "why_tests_cant": "Tests use two samples per symbol and fb = 1, for which Hz, fractions of the symbol rate and truncated ratios coincide.", "anchors": ["qampy/impairments.py:add_carrier_offset", "qampy/phaserec.py:find_freq_offset", "qampy/phaserec.py:comp_freq_offset", "qampy/signals.py:179-181"]}
{"id": "C195", "title": "Probabilistically shaped symbols follow the Maxwell-Boltzmann distribution", "statement": "generate_ps_symbols with the levels and probabilities of cal_ps_probablts draws, from uniform random numbers, each point s of the constellation with probability proportional to exp(-nu |s|^2) and nothing else, the positions are drawn independently, and the default call returns symbols of unit power. (Refuted for cross constellations: both quadratures are drawn from the in-phase levels, 8-QAM yields 3+3j; the default call raises NameError because utils is not imported.)", "quantifier": "all QAM orders, scalings, shaping parameters, numbers of symbols", "why_tests_cant": "A histogram of some draws of one constellation does not establish the distribution for every order and parameter; no test calls the function.", "anchors": ["qampy/theory.py:generate_ps_symbols", "qampy/theory.py:cal_ps_probablts"]}
{"id": "C196", "title": "Every library function can return", "statement": "Each function of the library has a call that returns a value. (Refuted: cal_ber_nosyncd, pre_filter_wdm, hybrid_qam_ber_vs_esn0, the three gen_dataframe functions and pilot_based_cpe2 read a name that is never bound before and raise in every run, whatever their arguments, conditions, loops and calls do.)", "quantifier": "all runs: any outcome of conditions, any number of loop rounds, any exception or success of calls", "why_tests_cant": "A test that fails shows one argument; that no argument and no path avoids the unbound name needs all paths.", "anchors": ["qampy/core/ber_functions.py:cal_ber_nosyncd", "qampy/core/filter.py:pre_filter_wdm", "qampy/theory.py:hybrid_qam_ber_vs_esn0", "qampy/core/pilotbased_transmitter.py:17-185", "qampy/core/pilotbased_receiver.py:pilot_based_cpe2"]}
{"id": "C197", "title": "GMI of a received signal", "statement": "cal_gmi of a synchronised signal returns for each mode the sum over the label bits of 1 plus the mean log2 of the posterior probability of the sent bit given the received value. It never exceeds the bits per symbol and approaches them exponentially with the SNR if all values are received nearest to the sent symbol, also with max-log L-values. For equally frequent symbols in Gaussian noise of the given SNR its average is the sum of the bit-wise mutual informations of the channel.", "quantifier": "all alphabets of 2^k distinct symbols, numbers of symbols and modes, received values, SNRs and noise draws", "why_tests_cant": "The value combines the labels of the demodulated reference, the sign convention of the L-values and the SNR scaling; a wrong pairing of bits and L-values still gives plausible numbers, and the average is over a continuum of noise values.", "anchors": ["qampy/signals.py:482-507", "qampy/core/pythran_dsp.py:87-131", "qampy/core/signal_quality.py:276-306"]}
{"id": "C198", "title": "Phase estimate of the 16-QAM partition algorithm", "statement": "For a noiseless 16-QAM signal with the symbol frequencies of the format and a constant phase, phase_partition_16qam returns for every sample a phase that equals the phase of the signal up to quarter turns.", "quantifier": "all signal lengths, symbol orders, block lengths, amplitudes and phases", "why_tests_cant": "The rotation of the middle ring is selected with numpy's lexicographic complex minimum, so the outcome depends on the phase and on the symbols in each block; a test at one phase shows neither the range in which it works nor the phases at which it fails.", "anchors": ["qampy/core/phaserecovery.py:328-385", "qampy/core/phaserecovery.py:291-326"]}
{"id": "C199", "title": "SNR of signals with pilots", "statement": "est_snr of a pilot signal compares the payload of all frames with the data symbols and, with use_pilots=True, the pilots of the requested frames with the pilot symbols: signal power of the class means and mean squared distance from them, per mode. If the signal is received with errors of at most d the noise power estimated from the pilots is at most d squared.", "quantifier": "all frame layouts, numbers of frames and modes, payloads, pilots, received signals and lists of frames", "why_tests_cant": "The reference symbols are repeated for the frames and pilots and payload have different alphabets; a comparison with the wrong alphabet or a shifted reference gives a plausible number for most signals.", "anchors": ["qampy/signals.py:1919-1947", "qampy/signals.py:1783-1804", "qampy/signals.py:441-456", "qampy/core/pythran_dsp.py:244-286"]}
{"id": "C200", "title": "Blind phase search in rounded arithmetic", "statement": "With every operation of the compiled blind phase search rounded (single or double precision), the test angle selected at a position with a complete window has a cost (sum of the exact squared distances to the nearest symbols) within twice an explicit rounding bound of the smallest cost; an angle that is better than all others by more than that bound is selected by the rounded and by the exact search; and for any alphabet invariant under quarter turns the selected angle turns a drifting, noisy signal to symbols with the mean square error of the exact search plus that bound.", "quantifier": "for all signals, alphabets, test angles, window lengths, rounding functions with relative error u, phasors with error v", "why_tests_cant": "the accuracy of the running sums depends on the length of the signal and on all its values; a test compares one signal with tolerance", "anchors": ["qampy/core/pythran_dsp.py:45-85", "qampy/core/pythran_dsp.py:18-43"]}
{"id": "C201", "title": "Power and duration of resampled signals", "statement": "With renormalise=True the resampled signal has mean zero and the mean power of the original, whatever the other options are, and the algorithm (fftconv) does not matter. Resampling a signal object keeps the duration of every mode to within one sample of the new rate and sets the new sampling rate. A filter given to resample_poly is the one that is used: every output sample is the sum of the input samples weighted with it, centred at the output sample.", "quantifier": "for all signals, lengths, numbers of modes, rates with a ratio of denominator up to a million, filters, roll-off factors, numbers of taps and both algorithms", "why_tests_cant": "tests resample one signal by a factor of two; the options, rate ratios and lengths multiply and the effect of a wrong branch (an option that is not passed on, a tolerance) shows only for some of them", "anchors": ["qampy/core/resample.py:37-127", "qampy/signals.py:222-243", "qampy/helpers.py:45-57"]}
{"id": "C202", "title": "Pilot based phase recovery over several frames", "statement": "pilot_cpe over n frames of a signal whose frames all have the same pilots, with a constant phase in every mode, returns the transmitted frames. This holds for one frame, for signals made by from_symbol_array (any n, with or without pilot sequence), and for signals of the constructor if use_seq=True (or there is no pilot sequence) and the pilot ratio divides the pilots per frame; with the default use_seq=False it fails for several frames of a signal of the constructor, since ph_pilots then contains the pilot sequences of the later frames.", "quantifier": "all frame layouts, numbers of frames, modes, pilots that are not zero, payloads, phases, odd and even averaging lengths, pilot ratios", "why_tests_cant": "The tests call pilot_cpe with nframes=1 only; the result over several frames depends on how two functions store and repeat the pilots, for every layout.", "anchors": ["qampy/phaserec.py:156-189", "qampy/core/pilotbased_receiver.py:258-327", "qampy/signals.py:1494-1530", "qampy/signals.py:1662-1668"]}
{"id": "C203", "title": "Masks of payload and pilots", "statement": "idx_payload and idx_pilots of a signal with pilots are complementary and mark the payload and pilot symbols of every complete frame; indexing the signal with them returns the payload (as get_data) and the pilots. This works exactly for signals at one sample per symbol that consist of whole frames; with an incomplete last frame or oversampling the mask is shorter than the signal and indexing raises IndexError.", "quantifier": "all layouts, lengths, numbers of modes and oversampling ratios", "why_tests_cant": "The masks are not tested; whether they fit depends on the length and the oversampling of every signal.", "anchors": ["qampy/signals.py:1675-1676", "qampy/signals.py:1687-1695"]}
{"id": "C204", "title": "Pilot based phase recovery in noise", "statement": "If the carrier phase of each mode stays within d of a constant and the noise at the pilots is at most a fraction rho < 1 of the pilot amplitude, with d + arcsin rho < pi/2, pilot_based_cpe_new succeeds without cycle slips: the phase trace is within d + arcsin rho of the constant (up to whole turns), and every sample is returned with an error of at most (2d + arcsin rho) times its amplitude plus its own noise. If this is below half the distance of the constellation, no symbol error occurs at any position.", "quantifier": "all frame layouts, numbers of frames and modes, pilots, averaging lengths and pilot ratios, all phase and noise sequences within the bounds, arbitrary noise on the data", "why_tests_cant": "Tests draw one noise and phase realisation and check an error rate; the bound is over all realisations and positions, including the extrapolated edges.", "anchors": ["qampy/core/pilotbased_receiver.py:258-327", "qampy/core/filter.py:231-237"]}
{"id": "C205", "title": "Three implementations of the trainer agree", "statement": "The Cython and the numba implementation of the equaliser training compute, from conjugated start taps, the same errors, the conjugated taps and the same step sizes as the compiled implementation, with fixed and adaptive step size and for every error function they share, including the data aided one with its counter; their filter returns the samples of the compiled filter.", "quantifier": "all signals with complete windows, numbers of modes, taps, oversamplings, training lengths, step sizes, start taps, constants, symbols and error objects (as a simulation relation over object states)", "why_tests_cant": "A test compares the results of two implementations for one signal up to a tolerance; the refinement covers every signal and every step of the recursion, and shows the difference in the order of the arguments of the adaptive step, which a short run hides.", "anchors": ["qampy/core/equalisation/cython_equalisation.pyx:53-228", "qampy/core/equalisation/cython_errorfcts.pyx:28-240", "qampy/core/equalisation/numba_equalisation.py:52-361", "qampy/core/equalisation/pythran_equalisation.py:130-265"]}
{"id": "C206", "title": "Carrier offset in floating point", "statement": "add_carrier_offset turns every sample by the phase 2 pi n fo/fs, also in the single precision in which it computes for complex64 signals, and comp_freq_offset takes the offset out again: the result is the sample up to the turn of one time step, with an error bounded by the accuracies of the two types times the accumulated phase. The error of a sample stays below its amplitude for signals of any length.", "quantifier": "all signals, lengths, sample numbers, offsets, sampling rates, every rounding function and every exponential with the given accuracy", "why_tests_cant": "Tests use short double precision signals; the growth of the error with the sample number and the loss of the sample number beyond 2^24 in single precision do not show.", "anchors": ["qampy/core/impairments.py:235-257", "qampy/core/phaserecovery.py:437-469"]}
{"id": "C207", "title": "Pulse shapes", "statement": "gauss, sech and supergauss describe pulses: the value at the offset x0 is the amplitude A, they are positive, symmetric about x0 and fall with the distance from x0, for every width and every positive order of the supergaussian; gauss and all supergaussians have the value A/sqrt(e) at the distance w, and the supergaussian of order one is gauss. ttanh rises from -A to A, odd about x0.", "quantifier": "all amplitudes, offsets, widths, orders and arguments", "why_tests_cant": "Monotony and symmetry are statements about all arguments and orders; the failure for orders that are not integers only shows on one side of the centre.", "anchors": ["qampy/core/special_fcts.py:30-125"]}
{"id": "C208", "title": "Interleaving two bit streams", "statement": "convert_iqtosinglebitstream returns, for any two bit streams and at least two bits per symbol, the stream in which every symbol consists of the next ceil(nbits/2) bits of the first and the next floor(nbits/2) bits of the second stream, for as many symbols as both streams allow.", "quantifier": "all streams of all lengths and all numbers of bits per symbol", "why_tests_cant": "The function has no tests; a test of one even number of bits with square blocks would not show the wrong order of the bits.", "anchors": ["qampy/core/utils.py:202-229"]}
{"id": "C209", "title": "Decision directed training stays locked in noise", "statement": "If the equaliser starts close enough to taps whose output differs from the sent symbols only by noise, decision directed training (sbd, real valued dd) makes only right decisions: errors, taps and step sizes are exactly those of the data aided training (sbd_data, dd_data) with the sent symbols, although it does not know them. Close enough means that half the distance of the symbols exceeds the noise plus the root of (initial squared distance of the taps plus twice step size times amplitude times total noise energy) times the largest window energy. With fixed step size the energy of all errors is therefore bounded by the initial distance and the noise, and the trained taps decide every symbol right.", "quantifier": "all signals, noise sequences, alphabets, comparison taps, initial taps, modes, iterations, oversampling, step sizes within the bound, with and without adaptive step size", "why_tests_cant": "Error propagation of decision directed loops depends on the whole noise sequence; the equality of the two trainings holds for every sequence within the budget.", "anchors": ["qampy/core/equalisation/pythran_equalisation.py:130-178", "qampy/core/equalisation/pythran_equalisation.py:sbd_error", "qampy/core/equalisation/pythran_equalisation.py:sbd_data_error", "qampy/core/equalisation/pythran_equalisation.py:dd_error_real"]}
{"id": "C210", "title": "Choice of the decision routine", "statement": "make_decision returns for every sample the first of the closest symbols whichever of its methods is chosen, in one piece or in blocks, and cal_ser_qam returns the share of wrong decisions. (Refuted: the ArrayFire method reads a name that the module does not have; cal_ser_qam passes the order instead of the alphabet, its default method does not exist, and no argument makes it return. With the name supplied the method agrees with the compiled one for every block size.)", "quantifier": "all signals, alphabets, methods, memory limits, precisions", "why_tests_cant": "The block method is not covered (no device), and that no argument at all makes a function return is a statement about all calls.", "anchors": ["qampy/core/signal_quality.py:make_decision", "qampy/core/signal_quality.py:_decision_af", "qampy/core/signal_quality.py:cal_ser_qam"]}
{"id": "C211", "title": "Accuracy of measured error rates", "statement": "The symbol and bit error rates that cal_ser and cal_ber report for n symbols after change_snr are epsilon or more away from their averages over the noise with probability at most exp(-2 n epsilon^2) on either side; for square QAM with equally frequent symbols the measured symbol error rate is therefore within epsilon of ser_vs_es_over_n0_qam except with probability 2 exp(-2 n epsilon^2), so that log(2/delta)/(2 epsilon^2) symbols are enough for confidence 1-delta, and the bit error rate within epsilon of the formula up to the weight of errors that skip a neighbour.", "quantifier": "all alphabets, symbol sequences of any length, SNR values, oversampling factors, epsilon, delta", "why_tests_cant": "A statement about the law of the measured rate over all noise realisations.", "anchors": ["qampy/signals.py:SignalBase.cal_ser", "qampy/signals.py:SignalBase.cal_ber", "qampy/core/impairments.py:change_snr", "qampy/theory.py:ser_vs_es_over_n0_qam"]}
{"id": "C212", "title": "Probability that a link with laser phase noise is received without errors", "statement": "If n QAM symbols are sent through simulate_transmission with a linewidth df and an SNR, and received with the blind phase search, the probability that the search fails, slips by quarter turns or leaves a symbol error at a position with a complete window is at most 2 n N exp(-D^2 fs/(4 pi df N)) + n exp(-e^2 10^(snr/10) fb/(P fs)), for every drift D within the averaging length and noise amplitude e that the search tolerates (P is the signal power).", "quantifier": "all QAM orders but 2 and 8, symbol sequences with enough innermost symbols per window, lengths, linewidths, rates, SNRs, numbers of test angles and averaging lengths", "why_tests_cant": "A failure probability of 1e-15 cannot be measured; the bound holds for all lengths and parameters and shows how linewidth, window length and SNR trade off.", "anchors": ["qampy/impairments.py:127-168", "qampy/core/impairments.py:133-233", "qampy/core/phaserecovery.py:93-206"]}
{"id": "C213", "title": "Probability that a link with pilots is received without errors", "statement": "If a signal with pilots in m modes of n samples is sent through simulate_transmission with a linewidth df and an SNR and received with pilot_based_cpe_new, the probability that the recovery fails or that any sample is not nearer to the transmitted symbol than to all other symbols is at most m n (2 exp(-d^2 fs/(4 pi df n)) + exp(-W^2 10^(snr/10) fb/(P fs))), for every phase excursion d and noise amplitude W below the pilot amplitude a with (2d + arcsin(W/a)) R + W less than half the symbol distance.", "quantifier": "all constellations, frame layouts, numbers of modes, frames and samples, pilot ratios, averaging lengths, linewidths, rates and SNRs", "why_tests_cant": "Failure probabilities far below one over the number of simulated symbols cannot be measured, and a simulation covers one frame layout at a time.", "anchors": ["qampy/impairments.py:127-168", "qampy/core/impairments.py:133-233", "qampy/core/pilotbased_receiver.py:258-327"]}
{"id": "C214", "title": "Probability of an error in the blind reception of QPSK with a frequency offset", "statement": "If QPSK symbols in m modes of n samples are sent through simulate_transmission with a frequency offset below the ambiguity limit and an SNR, then finding the offset, compensating it, the blind phase search and the decision return the transmitted symbols up to one quarter turn per mode, except with probability at most m n exp(-10^(snr/10) fb/(1225 fs)).", "quantifier": "all symbol sequences, numbers of modes and samples, offsets below the limit, rates, SNRs, transform sizes, numbers of test angles from 8, half windows up to 1/32 of the transform", "why_tests_cant": "The bound holds for every sequence, size and offset; failure rates this small cannot be measured by simulation.", "anchors": ["qampy/impairments.py:127-168", "qampy/core/impairments.py:188-233", "qampy/core/phaserecovery.py:385-473", "qampy/core/phaserecovery.py:93-206"]}
{"id": "C215", "title": "Probability of a wrong decision when training on noisy data", "statement": "Let some taps equalise a received signal exactly and let noise of a given SNR be added. Training with the decision directed method \"sbd\" from taps within a squared distance D of them is, except with probability at most p L exp(-e^2 10^(snr/10) fb/(P fs)), exactly the training with the known symbols (\"sbd_data\"), and for a fixed step size the trained taps decide every training symbol right. This holds for every noise amplitude e for which sqrt((D + 2 A mu N_iter N e^2 V^2) p N_taps (a+e)^2) + e V is below half the symbol distance.", "quantifier": "all constellations, channels with a zero forcing solution, numbers of modes, taps, samples, oversampling, iterations, step sizes up to the stability limit, rates and SNRs", "why_tests_cant": "Whether blind decisions lock depends on the channel, the start and the noise; a simulation shows that some runs lock but gives no bound for the others.", "anchors": ["qampy/impairments.py:127-168", "qampy/core/impairments.py:188-233", "qampy/core/equalisation/pythran_equalisation.py:130-178", "qampy/core/equalisation/pythran_equalisation.py:213-263"]}
{"id": "C216", "title": "Probability that the metrics of a noisy signal are measured against the wrong symbols", "statement": "Let each received mode be one of the transmitted modes, delayed by any number of symbols and turned by any number of quarter turns, with noise added by simulate_transmission. If the aligned correlation exceeds all other correlations by more than 2 eta, then SER, BER, EVM and SNR estimate, which align the signal themselves, are those with respect to the symbols really sent, except with probability at most 4 Lr L (2N-1) exp(-eta^2 10^(snr/10) fb/(2 P fs E)) with the energy E of the sequences. The margin grows with the number of symbols, so the alignment works at SNRs at which many symbols are wrong.", "quantifier": "all numbers of modes and symbols, symbol sequences, delays, turns, injective assignments of modes, rates and SNRs", "why_tests_cant": "A wrong alignment makes the measured rate meaningless; how rarely it happens cannot be measured by repetition and depends on the sequences, delays and SNR.", "anchors": ["qampy/signals.py:245-266", "qampy/signals.py:326-335", "qampy/signals.py:369-379", "qampy/signals.py:413-421", "qampy/signals.py:441-454", "qampy/core/ber_functions.py:36-161", "qampy/impairments.py:127-168", "qampy/core/impairments.py:188-233"]}
{"id": "C217", "title": "Equalising a signal with pilots as a whole keeps its frames", "statement": "Equalising a signal of F whole frames without frame synchronisation (apply_filter with frames=None, equalise_signal and dual_mode_equalisation with apply=True) returns a signal with F frames. (Refuted: with 2 to frame_len*os+1 taps the result has F-1 frames, and for a single frame the call raises AssertionError; it succeeds exactly if frame_len*os + Ntaps - 1 samples are there.)", "quantifier": "all signals, numbers of modes, frames, samples per symbol and taps", "why_tests_cant": "The tests equalise signals with several frames; which lengths work depends on frame length, oversampling and taps together.", "anchors": ["qampy/equalisation.py:117-119", "qampy/equalisation.py:184-188", "qampy/equalisation.py:255-259", "qampy/signals.py:1949-1952", "qampy/signals.py:1675-1677"]}
{"id": "C218", "title": "Error rates measured on a simulated link agree with the formulas", "statement": "Let a square QAM signal of several modes, in which every symbol occurs equally often, be delayed by any number of symbols, turned by quarter turns and its modes exchanged, and let simulate_transmission add noise at a given SNR. If the aligned correlation exceeds all others by more than 2 eta, then cal_ser and cal_ber, which align the signal themselves, return for every mode a symbol error rate within eps of ser_qam at that SNR, and a bit error rate above ber_qam - eps and below ber_qam + eps plus the weight of the errors that skip a neighbour, except with probability at most 4 m exp(-2 N eps^2) + 4 m L (2N-1) exp(-eta^2 10^(snr/10)/(2N)).", "quantifier": "all square QAM orders, numbers of modes and symbols, sequences with equally frequent symbols, delays, turns, exchanges of modes, SNRs and accuracies", "why_tests_cant": "Comparing a simulated curve with the formula at some points is a statistical test; it does not give the accuracy for other lengths, orders, delays and SNRs, nor how often it fails.", "anchors": ["qampy/signals.py:245-266", "qampy/signals.py:326-335", "qampy/signals.py:369-379", "qampy/core/ber_functions.py:36-161", "qampy/theory.py:34-40", "qampy/theory.py:72-98", "qampy/impairments.py:127-168", "qampy/core/impairments.py:188-233"]}
{"id": "C219", "title": "Accuracy of the measured EVM and SNR", "statement": "Let a signal of N symbols per mode and mean power P, in which every symbol of an M symbol constellation occurs, pass simulate_transmission with noise at signal to noise ratio rho (linear, per sample). Except with an explicit probability, exponentially small in N and in a, cal_evm returns for every mode an EVM whose square is within the fraction delta of P/rho, and est_snr returns an estimate between (1-sqrt(kappa/rho))^2/(1+delta) rho and (1+sqrt(kappa/rho))^2/(1-delta-kappa) rho with kappa = 2 a M/N. The same holds when the signal was delayed, turned by quarter turns and its modes exchanged and the metrics align it themselves; the probability of a wrong alignment is then added.", "quantifier": "all constellations closed under quarter turns (any constellation without alignment), numbers of modes and symbols, sequences containing every symbol, delays, turns, exchanges of modes, SNRs and accuracies", "why_tests_cant": "A simulation shows that one estimate is close to the set SNR for one draw; it does not bound the deviation for other lengths, SNRs and constellations nor the probability that it is exceeded.", "anchors": ["qampy/signals.py:413-421", "qampy/signals.py:441-454", "qampy/signals.py:245-266", "qampy/core/pythran_dsp.py:244-286", "qampy/core/ber_functions.py:36-161", "qampy/impairments.py:127-168", "qampy/core/impairments.py:188-233"]}
{"id": "C220", "title": "Accuracy of the measured mutual information", "statement": "The mutual information that cal_mi returns for a received sequence (fast=True with all symbols equally often, fast=False with any transmitted sequence), the simulated value of sim_mi_mc, and the generalised mutual information of cal_gmi deviate from the exact information of the channel by eps or more with a probability of at most V/(n eps^2) for n symbols, with V = ((ln M + 1)^2 + 1)/(ln 2)^2 (for the generalised information k^2 V). The bound holds for every constellation of M symbols, at every noise power.", "quantifier": "all constellations, transmitted sequences, sequence lengths, noise powers and eps > 0; probability over independent Gaussian noise", "why_tests_cant": "A test compares the estimate for a few noise records with a loose tolerance; how the error falls with the number of symbols for every constellation and noise power is a statement about probabilities that sampling cannot settle.", "anchors": ["qampy/core/signal_quality.py:307-336", "qampy/core/pythran_dsp.py", "qampy/theory.py", "qampy/signals.py:546"]}
{"id": "C221", "title": "Decisions and demodulation of signal objects", "statement": "make_decision of a signal returns for every sample the nearest symbol and its index in the coded symbols, deciding a second time changes nothing, and demodulate inverts modulate for every order of the constellation.", "quantifier": "all orders, alphabets, numbers of modes, samples and bit sequences", "why_tests_cant": "The tests use orders up to 256 where the index always fits the 16 bit array; the behaviour for all orders and all real samples cannot be enumerated.", "anchors": ["qampy/signals.py:847-870", "qampy/signals.py:907-932", "qampy/signals.py:678-702"]}
{"id": "C222", "title": "A training step lowers the cost of its sample", "statement": "Every error function of the equaliser is the direction of steepest descent of the cost function of its algorithm (constant modulus, per quadrature, radius directed, decision directed, symbol based, square contour, constellation matched), so that a training step with a small enough step size lowers the cost of the sample it is trained with.", "quantifier": "all signals, taps, windows, symbols, radii and outputs; all step sizes below a positive bound", "why_tests_cant": "Tests train on a few signals and look at the error rate at the end; a wrong sign or factor in one quadrature or on one side of a case distinction can stay unnoticed there, and the claim is about all outputs.", "anchors": ["qampy/core/equalisation/pythran_equalisation.py:178-231", "qampy/core/equalisation/numba_equalisation.py:96-131", "qampy/core/equalisation/numba_equalisation.py:302-361"]}
{"id": "C223", "title": "Parameters of the square contour and constellation matched errors", "statement": "With the radius that _cal_Rsca returns the square contour algorithm keeps the amplitude of the QAM constellation, and with the documented distance parameter the constellation matched error leaves the points of the constellation to its constant modulus part.", "quantifier": "all square QAM orders and scalings, all radii; all points of a square lattice", "why_tests_cant": "Neither of the functions is called by a test; whether the radius has the dimension that the error function expects is a statement about all constellations.", "anchors": ["qampy/core/equalisation/equalisation.py:262-269", "qampy/core/equalisation/numba_equalisation.py:302-361", "qampy/core/equalisation/cython_errorfcts.pyx:196-237"]}
{"id": "C224", "title": "Splitting a hybrid signal into its parts", "statement": "TDHQAMSymbols._divide_signal_frame splits a time domain hybrid signal into the two symbol streams it was made of, after finding the shift of the frame from the power at the positions of the larger format.", "quantifier": "for all fractions, lengths, symbol streams, frame lengths and received samples", "why_tests_cant": "The method is not called by any test; the missing attribute and the sample lost by the modulus depend on every length and every content of the signal.", "anchors": ["qampy/signals.py:1396-1421", "qampy/signals.py:1251-1258"]}
{"id": "C225", "title": "Frames that fit into the signal are equalised", "statement": "apply_filter with a list of frames of a synchronised pilot signal accepts the frames whenever every symbol of them can be computed from samples of the signal, and raises AssertionError otherwise.", "quantifier": "all signals, lengths, oversampling rates, tap numbers, shift factors and lists of frames", "why_tests_cant": "The boundary of the length check depends on six integers at once; tests use recordings that are much longer than needed.", "anchors": ["qampy/equalisation.py:42-50"]}
{"id": "C226", "title": "Random bits give independent, equally likely symbols", "statement": "The symbols of a QAM or PSK signal created from random bits are independent over all positions and modes and every symbol of the alphabet has probability 1/M; the mean power of a mode is one in expectation and its deviation shrinks as 1/N.", "quantifier": "all orders M=2^k, numbers of symbols, numbers of modes and arrays of symbols; probability over the drawn bits", "why_tests_cant": "A distribution over M^(N m) arrays can only be sampled by tests; a mapping that favours some symbols or couples modes passes any fixed-seed test.", "anchors": ["qampy/signals.py:75-81", "qampy/signals.py:658-676", "qampy/signals.py:705-731"]}
{"id": "C227", "title": "The exponential filter is a low pass for every mode", "statement": "filter_signal(ftype=\"exp\") multiplies the spectrum of every mode with 2^(-|f|/cutoff): the mean of a mode is kept, its energy not increased and modes are not exchanged.", "quantifier": "all signals, lengths, numbers of modes, sampling rates and cutoff frequencies", "why_tests_cant": "Tests use two modes of even length; the result is wrong for every odd number of modes above one and every odd length.", "anchors": ["qampy/core/filter.py:119-128"]}
{"id": "C228", "title": "Galois generator of pseudo random bits", "statement": "make_prbs_intXOR returns the requested number of bits for every supported order and nonzero seed, and the sequence has period 2^order-1.", "quantifier": "all supported orders, seeds and numbers of bits", "why_tests_cant": "No test calls the function; that every call fails, and what the register would give, is a statement about all seeds and lengths.", "anchors": ["qampy/core/prbs.py:61-95", "qampy/core/pythran_dsp.py:168-178", "qampy/core/dsp_cython.pyx:208-219"]}
{"id": "C229", "title": "Unwrapping with detection of discontinuities", "statement": "unwrap_discont recovers a slowly varying sequence from its values modulo a period and holds the last value at glitches.", "quantifier": "all sequences, thresholds and periods", "why_tests_cant": "The function has no test; whether a wrap is recognised depends on real values of every size.", "anchors": ["qampy/core/dsp_cython.pyx:36-55"]}
{"id": "C230", "title": "Cython and Pythran versions agree", "statement": "The blind phase search, the two soft demappers and the Monte Carlo GMI of dsp_cython.pyx give the values of the Pythran functions of the same name.", "quantifier": "all signals, alphabets, angles, block lengths, bit maps and noise values", "why_tests_cant": "The versions start from different constants and fill arrays in a different order; agreement on all inputs is an equation between two programs.", "anchors": ["qampy/core/dsp_cython.pyx:57-170", "qampy/core/dsp_cython.pyx:238-261", "qampy/core/pythran_dsp.py:16-197"]}
{"id": "C231", "title": "The SNR set on an oversampled signal is the SNR of the symbols", "statement": "change_snr applied to a root raised cosine shaped signal with n samples per symbol, followed by the matched filter and one sample per symbol, gives symbols with exactly the joint distribution that change_snr with the same SNR gives at one sample per symbol: the error power of every symbol is the mean symbol power divided by the requested SNR and, for square QAM with equally frequent symbols, the measured symbol error rate is on average the value of ser_vs_es_over_n0_qam and concentrates around it.", "quantifier": "all symbol sequences, lengths, oversampling factors n >= 2, roll-offs in (0,1], symbol rates, SNRs", "why_tests_cant": "A statement about the law of the received symbols (the TODO above change_snr asks exactly for this check); simulations only sample it at some settings.", "anchors": ["qampy/core/impairments.py:209-232", "qampy/core/resample.py:rrcos_resample", "qampy/core/filter.py:rrcos_pulseshaping_freq"]}
{"id": "C232", "title": "Signals generated at another sampling rate keep their one-sample-per-symbol reference", "statement": "A ResampledQAM signal has the requested sampling rate, the symbol rate, the order and, as reference for error counting, the symbols at one sample per symbol; this stays so through every later history of slicing, arithmetic, copying, changes in place, recreation and resampling. ResampledQAM.from_symbol_array of any signal takes over its order, symbol rate and reference, owns its samples, and changing either signal in place changes no reference.", "quantifier": "all symbols, rates, filter outputs, attribute values and histories of any length", "why_tests_cant": "A statement about aliasing over all operation histories; tests construct a few signals.", "anchors": ["qampy/signals.py:1142-1178", "qampy/signals.py:222-237"]}
{"id": "C233", "title": "Undoing dispersion and PMD behind the noise leaves the noise as it was", "statement": "A link that disperses the signal, adds noise at the sampling rate and takes the dispersion out again delivers samples with exactly the joint distribution of a link without dispersion; behind the matched filter of a shaped link the received symbols and the measured symbol error rate are distributed as without fibre. The same holds for PMD: after undoing it the samples of both modes are jointly distributed as without PMD, so the noise of the modes stays independent and white.", "quantifier": "all signals, lengths, dispersion values, fibre lengths, wavelengths, rotation angles, group delays, SNRs, symbol and sampling rates, roll-offs and oversampling factors of at least two", "why_tests_cant": "equality of joint distributions of all received samples cannot be established from finitely many noisy runs, least of all for every dispersion and delay", "anchors": ["qampy/core/impairments.py:673-702", "qampy/core/impairments.py:94-131", "qampy/core/impairments.py:209-232", "qampy/core/resample.py:73-127", "qampy/core/filter.py:149-175"]}
{"id": "C234", "title": "The unit of frequency does not matter", "statement": "If the rates of a signal and every frequency argument are multiplied by a positive constant, every time argument is divided by it and the dispersion by its square, then apply_PMD, apply_phase_noise, change_snr, add_carrier_offset, add_dispersion, simulate_transmission, filter_signal (gauss, exp), rrcos_pulseshaping and comp_rf_delay return the same samples and an object with the rates in the new unit.", "quantifier": "all signals, rates, parameters, random draws and unit factors", "why_tests_cant": "quantifies over all signals and a continuum of units; rounding hides a wrong dependence for the units tried", "anchors": ["qampy/impairments.py:24-171", "qampy/filtering.py:23-116", "qampy/analog_frontend.py:24-43", "qampy/core/filter.py:86-147"]}
{"id": "C235", "title": "Error rates measured on random data", "statement": "K symbols of square QAM of any order made of independent fair bits, sent through change_snr, give a measured symbol error rate that is eps or more away from ser_vs_es_over_n0_qam with probability at most 6 exp(-K eps^2/162), over data and noise together; the same bound holds over a link with root raised cosine shaping, any dispersion, noise at the sampling rate, compensation and matched filter. For QPSK no randomness of the data is needed: for every sequence of symbols the average error rate is exactly the formula and the deviation is bounded by 2 exp(-2 K eps^2).", "quantifier": "for all orders 4^N, all lengths K, all SNRs, all eps in (0,3], all dispersions, roll-offs and oversamplings; probability over all bits and all noise samples", "why_tests_cant": "a test measures one random realisation and needs an arbitrary tolerance; it can not tell how likely a deviation is, and the noise level depends on the random power of the data", "anchors": ["qampy/core/impairments.py:209-232", "qampy/theory.py:34-39", "qampy/signals.py:295-340","qampy/signals.py:891-920", "qampy/core/impairments.py:673-702"]}
{"id": "C236", "title": "The front end corrections undo what a coherent front end does", "statement": "Behind a front end with positive gains of the two quadratures, crosstalk of the in-phase component into the quadrature and offsets, comp_IQ_inbalance gives back every balanced signal scaled by the in-phase gain (crosstalk below that gain), and two passes of orthonormalize_signal give back the signal scaled to mean power one; orthonormalize_signal does not depend on gains and offsets at any oversampling, and the samples at the symbols have zero mean and mean power one. With several modes every mode is corrected on its own, and the array of the caller stays as it was.", "quantifier": "for all signals, gains, crosstalks, offsets, oversamplings and numbers of modes", "why_tests_cant": "the tests check the powers of the quadratures for one imbalance of one signal with equal imbalance in all modes", "anchors": ["qampy/core/analog_frontend.py:30-52", "qampy/core/analog_frontend.py:91-132", "qampy/analog_frontend.py:20", "qampy/analog_frontend.py:45-64"]}
{"id": "C237", "title": "Bit error rates measured on random data", "statement": "The bit error rate that cal_ber measures for a Gray coded square QAM signal made of random bits, after change_snr, lies between the formula of theory.py minus epsilon and the formula plus a term for errors beyond the neighbouring point plus epsilon, except with a probability exponentially small in the number of symbols; the same over a dispersive link with shaping, compensation and matched filter. For QPSK the extra term vanishes.", "quantifier": "for all orders of square QAM, numbers of symbols, signal to noise ratios, deviations, and for the link all roll-offs, oversamplings, fibre lengths and dispersions", "why_tests_cant": "the tests compare one measured rate per constellation and signal to noise ratio with the formula at a tolerance found by trial; how far a correct program may deviate is a statement about all data and noise", "anchors": ["qampy/theory.py:41-97", "qampy/signals.py:337-379", "qampy/core/impairments.py:186-233", "qampy/core/impairments.py:673-702"]}
{"id": "C238", "title": "Methods of signals with pilots that are written for signals without", "statement": "A signal with pilots answers cal_mi, make_decision and normalize_and_center about its received payload, as it does for the other metrics. In fact cal_mi with a given signal to noise ratio compares pilots and payload, sample by sample, with the repeated payload, so that even a signal received without errors gets a value that falls below zero and without bound as the ratio grows (the payload alone always gets a value between zero and log2 M); cal_mi without a ratio takes the samples for frame numbers and raises an exception for every signal of more than one frame, and for a single frame as soon as one sample has a real part above one; make_decision() returns the transmitted payload whatever has been received, and decisions for the nearest symbol only if the payload is passed; normalize_and_center(symbol_based=True) always raises TypeError after removing the mean of every mode.", "quantifier": "all alphabets, payloads, pilots, frame structures, numbers of modes and frames, all received samples, all signal to noise ratios", "why_tests_cant": "A test sees one frame and one ratio; that no signal of several frames gets a value, that the value falls without bound and that decisions never depend on the received samples are statements about all of them.", "anchors": ["qampy/signals.py:509-568", "qampy/signals.py:847-870", "qampy/signals.py:1753-1781", "qampy/signals.py:1806-1807", "qampy/signals.py:1919-1947"]}
{"id": "C239", "title": "Blind phase recovery of signals with several modes and with pilots", "statement": "The blind phase search (one and two stages) of a signal object with several modes gives for every mode the field and phase that the mode alone would get, and viterbiviterbi returns field and phase of every mode; a 16-QAM signal with the default QPSK pilots and no distortion is left as it is by the blind phase search, up to quarter turns and the step of the test angles. In fact viterbiviterbi returns the phase of the last mode only, and wherever the averaging window contains only QPSK pilots the search with the alphabet of the payload (which has points of modulus one at other angles) turns the pilots by an angle that is not near a quarter turn, for any pilots, any number of test angles from five and whatever is outside of the window. If pilots and payload are symbols of one alphabet closed under quarter turns, and every mode is turned by a test angle of its own, all samples with a complete window are symbols again.", "quantifier": "all signals, numbers of modes, pilot sequences, window lengths up to 20000 symbols, numbers of test angles", "why_tests_cant": "The tests search signals without pilots and with one or two modes; that every sequence of pilots is turned for every number of test angles is a statement about all of them.", "anchors": ["qampy/phaserec.py:24-92", "qampy/phaserec.py:138-154", "qampy/core/phaserecovery.py:40-79", "qampy/core/phaserecovery.py:93-161", "qampy/core/phaserecovery.py:217-290", "qampy/signals.py:1494-1530", "qampy/signals.py:1806-1807"]}
{"id": "C240", "title": "The symbol rates that lose one of three samples per symbol", "statement": "In double precision (rounding to nearest, ties to even) a signal created for three samples per symbol (recreate_from_np_array with a new symbol rate, or resample to three times the rate) has the oversampling ratio os = 2 exactly when the significand of the symbol rate is at least 4/3 and ends with the bits 110 (0.35 for example), and 3 for every other rate. Of an affected signal with F frames nframes counts F + F/2. Rounding the quotient fs/fb to the nearest integer instead of truncating it would give n for all rates and all n up to 2^50. (C183 has the general facts for any rounding function.)", "quantifier": "all symbol rates in double precision (without overflow and subnormal numbers), all numbers of frames and frame lengths; for the repair all n up to 2^50", "why_tests_cant": "Whether the ratio is right depends on the last bits of the symbol rate; the tests use round rates and two samples per symbol.", "anchors": ["qampy/signals.py:179-181", "qampy/signals.py:209-221", "qampy/signals.py:1675-1677"]}
{"id": "C241", "title": "The IQ modulator with imperfections", "statement": "sim_mod_response / modulator_response: the modulator is passive (the field never exceeds that of the laser, for all drives, biases, chirp and non-negative gain factors); without chirp and imbalance the in-phase component of the field follows the transfer function of the in-phase arm at its own bias and the quadrature component that of the quadrature arm; the chirp factor turns the phase of an arm by pi v c/2 and leaves its power alone; with gain factor er_to_g(er) and the bias at the null the light left without drive is exactly er dB below full drive; complex bias, gain and chirp values set the two arms separately, real part for in-phase, imaginary part for quadrature. (The last is refuted for a zero imaginary part: chirp t+0j, meant for the in-phase arm only, is applied to both.)", "quantifier": "all drive signals, bias voltages, gain factors, chirp factors, extinction ratios", "why_tests_cant": "Real-valued parameter spaces; the wrong case needs a complex value with imaginary part exactly zero.", "anchors": ["qampy/core/impairments.py:415-461", "qampy/core/impairments.py:463-475", "qampy/impairments.py:229-258"]}
{"id": "C242", "title": "Information rates between the error free limit and the capacity of the channel", "statement": "The mutual information that the Monte-Carlo functions (theory.sim_mi_mc, theory.cal_gmi) average to never exceeds the capacity log2(1+SNR) of the channel, and falls short of the bits per symbol by at most the sum over pairs of symbols of exp(-|s_i-s_j|^2/(4 N0))/(M ln 2); the generalised mutual information of theory.cal_gmi falls short by at most the same sum weighted with the number of differing label bits. For distinct symbols the mutual information tends to log2 M without noise and to 0 in strong noise.", "quantifier": "all constellations, labels as built by the library, noise powers, SNRs, numbers of noise samples", "why_tests_cant": "Statements about averages over continuous noise for all constellations; a simulated value near saturation cannot tell an estimator that saturates too early or exceeds capacity by a little.", "anchors": ["qampy/theory.py:312-334", "qampy/theory.py:282-310", "qampy/core/pythran_dsp.py:181-197", "qampy/core/pythran_dsp.py:288-313"]}
{"id": "C243", "title": "Information rates never fall with the SNR", "statement": "The averages of theory.sim_mi_mc and theory.cal_gmi never decrease when the SNR increases; more noise never increases the mutual information of the symbols nor the information of any single bit of the label.", "quantifier": "all constellations, labellings, pairs of noise powers or SNRs, numbers of noise samples", "why_tests_cant": "Simulated values fluctuate more than they grow between neighbouring SNRs, and all constellations and SNR pairs are meant.", "anchors": ["qampy/theory.py:312-334", "qampy/theory.py:282-310", "qampy/core/pythran_dsp.py:181-197", "qampy/core/pythran_dsp.py:288-313"]}
{"id": "C244", "title": "Repeated calls on the same array", "statement": "quantize_signal and sim_mi_mc leave the array they are given as it is; in a sweep, where the same array is passed again and again with other arguments, every result is the one of a call on the untouched array.", "quantifier": "all arrays, all sequences of calls with all arguments", "why_tests_cant": "Both functions scale the array of the caller in place. Whether later calls notice depends on the whole history of calls; a test makes one call on a fresh array.", "anchors": ["qampy/core/impairments.py:330-368", "qampy/theory.py:312-334"]}
{"id": "C245", "title": "Order of the impairments", "statement": "Laser phase noise and carrier offset can be applied before or after each other, before or after a rotation of the polarisations and before or after a modal delay. (Refuted: every mode gets its own phase noise, not the one of a common laser, so the order matters for a rotation unless the phases agree wherever there is a field; a delay agrees up to a constant phase if the offset makes whole turns over the signal. Offset and noise, and offset and rotation, can be exchanged.)", "quantifier": "all signals, angles, line widths, offsets, rates, draws and delays", "why_tests_cant": "The phase noise is random; that two orders agree for all draws and signals, and exactly when, needs a proof.", "anchors": ["qampy/core/impairments.py:63-82", "qampy/core/impairments.py:133-186", "qampy/core/impairments.py:235-281"]}
{"id": "C246", "title": "Training follows a moving phase", "statement": "A trainer with one tap follows a phase that moves from symbol to symbol by at most delta: with effective step size k the relative error of the output is at most delta/k plus a part of the initial error that decays like (1-k)^i. Decision directed training makes no wrong decision in the whole run if delta is at most k times the error that is still decided correctly. The same holds for a complex gain that changes from symbol to symbol by at most the fraction delta, noise included, with the contraction (1-k)(1+delta). With a constant frequency offset the error does not vanish: it tends to a known lag, zero only without offset.", "quantifier": "all lengths, paths of the phase, symbols (QPSK like for data aided and sbd, any alphabet for dd), gains, step sizes with k at most 1, initial taps", "why_tests_cant": "The phase is random and the run arbitrarily long; one wrong decision changes everything after it, so a test of finite length cannot exclude a loss of lock.", "anchors": ["qampy/core/pythran_equalisation.py:130-173", "qampy/core/pythran_equalisation.py:218-231", "qampy/core/pythran_equalisation.py:240-265"]}
