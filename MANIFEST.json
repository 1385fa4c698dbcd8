{
 "claims": [
  {
   "property": "C01",
   "status": "proved",
   "theorems": [
    "Qampy.C01_extend_tx",
    "Qampy.C01_extend_rx",
    "Qampy.C01_room_of_neg",
    "Qampy.C01_room_of_not_dvd",
    "Qampy.C01_room_of_dvd"
   ],
   "note": "Hypothesis: the leading part produced for the offset fits into the reference (proved to hold for every negative offset and for in-range offsets, see C01_room_*)."
  },
  {
   "property": "C02",
   "status": "partial",
   "theorems": [
    "Qampy.C02_false",
    "Qampy.C02_false_extend",
    "Qampy.C02_equal_length_partial"
   ],
   "note": "Refuted for the code (C02_false, C02_false_extend); proved for truncate, for extend with room, and for offset zero."
  },
  {
   "property": "C03",
   "status": "partial",
   "theorems": [
    "Qampy.C03_false",
    "Qampy.C03_sync_and_adjust_partial",
    "Qampy.C03_aligned"
   ],
   "note": "Refuted when the found lag is a multiple of the pattern length close to the end (C03_false); proved otherwise, and proved with exact alignment for an embedded unit-modulus pattern (C03_aligned)."
  },
  {
   "property": "C04",
   "status": "proved",
   "theorems": [
    "Qampy.C04_find_sequence_offset",
    "Qampy.C04_find_sequence_offset_unique"
   ],
   "note": "Exact complex arithmetic; FFT rounding not modelled."
  },
  {
   "property": "C05",
   "status": "partial",
   "theorems": [
    "Qampy.C05_false",
    "Qampy.C05_sync_tx2rx_partial",
    "Qampy.C05_sync_rx2tx_partial",
    "Qampy.C05_no_window_raises"
   ],
   "note": "Refuted when the search runs past the end of the received data (empty window matches); proved inside."
  },
  {
   "property": "C06",
   "status": "proved",
   "theorems": [
    "Qampy.C06_ber",
    "Qampy.C06_ber_metric"
   ],
   "note": "Exact rationals in place of floats."
  },
  {
   "property": "C07",
   "status": "proved",
   "theorems": [
    "Qampy.C07_prbs_period"
   ],
   "note": "Kernel-computed matrix powers over GF(2), Mersenne prime by Lucas-Lehmer."
  },
  {
   "property": "C08",
   "status": "proved",
   "theorems": [
    "Qampy.C08_prbs_windows",
    "Qampy.C08_prbs_balance"
   ],
   "note": "Windows and balance over one full period for every supported order."
  },
  {
   "property": "C09",
   "status": "proved",
   "theorems": [
    "Qampy.C09_prbs_prefix",
    "Qampy.C09_prbs_recurrence",
    "Qampy.C09_prbs_zero_seed",
    "Qampy.C09_generator_agrees",
    "Qampy.C09_seed_forms",
    "Qampy.C09_unsupported_order"
   ],
   "note": "Prefix, recurrence, zero seed, seed forms and unsupported orders, each for all lengths."
  },
  {
   "property": "C10",
   "status": "proved",
   "theorems": [
    "Qampy.C10_square_qam",
    "Qampy.C10_square_qam_order"
   ],
   "note": "Membership characterisation, no repetition, and listing order, for all N."
  },
  {
   "property": "C11",
   "status": "proved",
   "theorems": [
    "Qampy.C11_scaling_factor",
    "Qampy.C11_unit_power"
   ],
   "note": "Closed formula for even orders; unit mean power and zero mean of the scaled constellation for all orders."
  },
  {
   "property": "C12",
   "status": "proved",
   "theorems": [
    "Qampy.C12_cross_qam",
    "Qampy.C12_cross_shape",
    "Qampy.C12_cross_8qam"
   ],
   "note": "Exact shape for N >= 2; the 8-QAM case is a rectangle (C12_cross_8qam)."
  },
  {
   "property": "C13",
   "status": "proved",
   "theorems": [
    "Qampy.C13_gray_bijection",
    "Qampy.C13_label_of_point"
   ],
   "note": "Coded symbols and labels; all k and all nonzero scales."
  },
  {
   "property": "C14",
   "status": "proved",
   "theorems": [
    "Qampy.C14_gray_neighbours"
   ],
   "note": "Square orders; also shows that 2/scale is the minimum distance."
  },
  {
   "property": "C15",
   "status": "proved",
   "theorems": [
    "Qampy.C15_demodulate_modulate",
    "Qampy.C15_modulate_demodulate",
    "Qampy.C15_qam",
    "Qampy.C15_psk"
   ],
   "note": "For any alphabet of 2^k distinct symbols and instantiated for the QAM and PSK mappings of the library."
  },
  {
   "property": "C16",
   "status": "proved",
   "theorems": [
    "Qampy.C16_min_distance",
    "Qampy.C16_recovers",
    "Qampy.C16_idempotent"
   ],
   "note": "Exact real arithmetic."
  },
  {
   "property": "C17",
   "status": "proved",
   "theorems": [
    "Qampy.C17_bitmap"
   ],
   "note": "Shape never raises, halves, and label characterisation."
  },
  {
   "property": "C18",
   "status": "proved",
   "theorems": [
    "Qampy.C18_sign",
    "Qampy.C18_value",
    "Qampy.C18_exact"
   ],
   "note": "Sign for every sample (including the capped region); value formula within distance 100 of the constellation."
  },
  {
   "property": "C19",
   "status": "partial",
   "theorems": [
    "Qampy.C19_false",
    "Qampy.C19_maxlog_bound_partial"
   ],
   "note": "Refuted beyond distance 100 of the constellation (start value 10000 of find_minmax, C19_false); proved for samples within distance 100 of all points (C19_maxlog_bound_partial)."
  },
  {
   "property": "C20",
   "status": "proved",
   "theorems": [
    "Qampy.C20_layout",
    "Qampy.C20_count"
   ],
   "note": "All natural frame lengths, sequence lengths and ratios; ratio 0 stands for 0 or None."
  },
  {
   "property": "C21",
   "status": "proved",
   "theorems": [
    "Qampy.C21_get_data",
    "Qampy.C21_extract_pilots",
    "Qampy.C21_extract_pilots_all",
    "Qampy.C21_round_trip",
    "Qampy.C21_rebuild"
   ],
   "note": "At one sample per symbol (get_data requires it); arbitrary sample type."
  },
  {
   "property": "C22",
   "status": "partial",
   "theorems": [
    "Qampy.C22_multi_frame_fails",
    "Qampy.C22_false",
    "Qampy.C22_single_frame_partial",
    "Qampy.C22_tail_fails"
   ],
   "note": "Refuted: raises for every signal with two or more frames (C22_multi_frame_fails) and for signals with an incomplete last frame; proved for single frame signals, and C21_get_data covers the default argument."
  },
  {
   "property": "C23",
   "status": "proved",
   "theorems": [
    "Qampy.C23_partition",
    "Qampy.C23_round_trip"
   ],
   "note": "limit_denominator is library code: the fraction is an exact rational."
  },
  {
   "property": "C24",
   "status": "proved",
   "theorems": [
    "Qampy.C24_apply_filter",
    "Qampy.C24_too_short",
    "Qampy.C24_linear_signal",
    "Qampy.C24_linear_taps"
   ],
   "note": "Formula, length, absence of out-of-range reads for all shapes, linearity in signal and taps."
  },
  {
   "property": "C25",
   "status": "proved",
   "theorems": [
    "Qampy.C25_pass_through"
   ],
   "note": "All numbers of modes, taps, oversampling ratios."
  },
  {
   "property": "C26",
   "status": "proved",
   "theorems": [
    "Qampy.C26_adapt_step",
    "Qampy.C26_non_increasing",
    "Qampy.C26_training"
   ],
   "note": "Per step, along every prefix of a run, and for the whole training over all modes."
  },
  {
   "property": "C27",
   "status": "proved",
   "theorems": [
    "Qampy.C27_in_bounds",
    "Qampy.C27_out_of_bounds",
    "Qampy.C27_default_fits",
    "Qampy.C27_methods",
    "Qampy.C27_rde_usable",
    "Qampy.C27_data_short"
   ],
   "note": "No out-of-range access if the requested number fits (all methods); the default fits; the converse (reads behind the end) is proved too."
  },
  {
   "property": "C28",
   "status": "proved",
   "theorems": [
    "Qampy.C28_mode_independent",
    "Qampy.C28_untrained"
   ],
   "note": "Fixed step size; any two runs that agree on the mode."
  },
  {
   "property": "C29",
   "status": "proved",
   "theorems": [
    "Qampy.C29_fixed_point",
    "Qampy.C29_methods",
    "Qampy.C29_real_methods"
   ],
   "note": "All complex methods (cma, mcma, rde, mrde, sbd, mddma, dd, sbd_data) and all real valued methods. 'sgncma' is covered by C84, 'cma2' by the generic theorem."
  },
  {
   "property": "C30",
   "status": "proved",
   "theorems": [
    "Qampy.C30_nearest",
    "Qampy.C30_rde_codes"
   ],
   "note": "Any increasing code book; and the code book generated from any constellation."
  },
  {
   "property": "C31",
   "status": "proved",
   "theorems": [
    "Qampy.C31_real_complex",
    "Qampy.C31_complex_real"
   ],
   "note": "Both directions."
  },
  {
   "property": "C32",
   "status": "partial",
   "theorems": [
    "Qampy.C32_segment_axis_partial",
    "Qampy.C32_wrap_short",
    "Qampy.C32_cut_short",
    "Qampy.C32_false"
   ],
   "note": "Refuted for end='wrap' with an array shorter than half a frame (C32_false, C32_wrap_short); proved in all other cases."
  },
  {
   "property": "C33",
   "status": "partial",
   "theorems": [
    "Qampy.C33_compiled",
    "Qampy.C33_reference",
    "Qampy.C33_agree_partial",
    "Qampy.C33_false"
   ],
   "note": "Compiled selection and python reference both characterised (first minimiser of the windowed sum, zero at the edges). They agree if all nearest distances are at most 10 and one window sum is below 1000; C33_false shows a disagreement outside of that range (start values 100 and 1000 of the minimum searches)."
  },
  {
   "property": "C34",
   "status": "proved",
   "theorems": [
    "Qampy.C34_noiseless",
    "Qampy.C34_noiseless_closed"
   ],
   "note": "Noiseless signal rotated by the negative of one test angle: every inner output sample is the input rotated onto the constellation times a power of i; for constellations closed under a quarter turn the outputs are constellation points."
  },
  {
   "property": "C35",
   "status": "partial",
   "theorems": [
    "Qampy.C35_freq_offset",
    "Qampy.C35_pilot_cpe",
    "Qampy.C35_const_phase",
    "Qampy.C35_bps",
    "Qampy.C35_twostage",
    "Qampy.C35_viterbi_partial",
    "Qampy.C35_false"
   ],
   "note": "Moduli preserved for bps, two-stage bps, frequency offset compensation, pilot CPE and constant phase correction; Viterbi-Viterbi zeroes the samples outside of the averaging windows (C35_false) and preserves the inner ones."
  },
  {
   "property": "C36",
   "status": "proved",
   "theorems": [
    "Qampy.C36_cancel",
    "Qampy.C36_additive",
    "Qampy.C36_comp_additive"
   ],
   "note": "Compensation of the exact offset leaves one constant phase (index starts at 1 in comp_freq_offset, at 0 in add_carrier_offset); both are additive in the offset."
  },
  {
   "property": "C37",
   "status": "partial",
   "theorems": [
    "Qampy.C37_constant_phase_partial",
    "Qampy.C37_false",
    "Qampy.C37_linear_phase",
    "Qampy.C37_const_phase",
    "Qampy.C37_const_phase_round_trip"
   ],
   "note": "Constant phase per mode (any layout, averaging, ratio) and linear phase (equidistant pilots, inner stretch) removed exactly. C37_false: max_num_blocks smaller than the number of pilots together with several frames takes wrong reference pilots."
  },
  {
   "property": "C38",
   "status": "proved",
   "theorems": [
    "Qampy.C38_power",
    "Qampy.C38_add",
    "Qampy.C38_zero",
    "Qampy.C38_inverse",
    "Qampy.C38_quarter",
    "Qampy.C38_modes"
   ],
   "note": "Exact real/complex numbers"
  },
  {
   "property": "C39",
   "status": "proved",
   "theorems": [
    "Qampy.C39_energy",
    "Qampy.C39_zero",
    "Qampy.C39_add",
    "Qampy.C39_inverse"
   ],
   "note": "Two rows of equal nonzero length"
  },
  {
   "property": "C40",
   "status": "proved",
   "theorems": [
    "Qampy.C40_delay",
    "Qampy.C40_add",
    "Qampy.C40_inverse",
    "Qampy.C40_wrong_length"
   ],
   "note": "Rolls of rows; the shape assertion included"
  },
  {
   "property": "C41",
   "status": "partial",
   "theorems": [
    "Qampy.C41_new_scalar",
    "Qampy.C41_new_partial",
    "Qampy.C41_new_false",
    "Qampy.C41_new_no_rescale",
    "Qampy.C41_old_partial",
    "Qampy.C41_old_false"
   ],
   "note": "quantize_signal_New: half step bound, 2^n levels, monotone, saturation proved for modes of equal peak (in particular one mode); refuted for modes of different peak (every mode is scaled to its own peak and back by the global one) and rescale_in=False ignores the signal. quantize_signal rounds up by up to a whole step: half step bound refuted, whole step bound proved."
  },
  {
   "property": "C42",
   "status": "partial",
   "theorems": [
    "Qampy.C42_partial",
    "Qampy.C42_iff",
    "Qampy.C42_false",
    "Qampy.C42_arms_partial"
   ],
   "note": "Exactly for vpi = 1/pi the pre-compensated modulator returns (half) the signal; proved that no other positive Vpi works, in particular not the default 1.14 (C42_iff)."
  },
  {
   "property": "C43",
   "status": "partial",
   "theorems": [
    "Qampy.C43_single_partial",
    "Qampy.C43_modes_partial",
    "Qampy.C43_inverse_partial",
    "Qampy.C43_false"
   ],
   "note": "The final fftshift has no axes argument and exchanges the modes; single mode, mode permutation and inverse for an even number of modes proved"
  },
  {
   "property": "C44",
   "status": "proved",
   "theorems": [
    "Qampy.C44_zero_mean_unit_power",
    "Qampy.C44_affine_invariant",
    "Qampy.C44_constant_fails"
   ],
   "note": "Zero mean, unit power, idempotence, invariance under positive affine maps per mode; constant modes give nan."
  },
  {
   "property": "C45",
   "status": "partial",
   "theorems": [
    "Qampy.C45_compIQ_partial",
    "Qampy.C45_compIQ_nan",
    "Qampy.C45_orthonorm_partial",
    "Qampy.C45_orthonorm_balanced_iff",
    "Qampy.C45_false"
   ],
   "note": "comp_IQ_inbalance is right when |sum IQ| < sum I^2 and returns nan beyond; orthonormalize_signal gives unequal quadrature powers unless the input was already uncorrelated (exact ratio proved). os=1 for orthonormalize_signal."
  },
  {
   "property": "C46",
   "status": "proved",
   "theorems": [
    "Qampy.C46_mi_mc",
    "Qampy.C46_mi_mc_fast",
    "Qampy.C46_gmi_mc",
    "Qampy.C46_gmi",
    "Qampy.C46_gmi_error_free"
   ],
   "note": "All estimators (Monte Carlo MI, fast MI, GMI of theory, GMI from L-values); noise is an argument, so the bound holds per draw."
  },
  {
   "property": "C47",
   "status": "proved",
   "theorems": [
    "Qampy.C47_ser",
    "Qampy.C47_ber"
   ],
   "note": "SER as fraction of wrong decisions; SER/log2 M <= BER <= SER."
  },
  {
   "property": "C48",
   "status": "proved",
   "theorems": [
    "Qampy.C48_moving_average",
    "Qampy.C48_constant",
    "Qampy.C48_linear"
   ],
   "note": "Index formula, constants, linearity of moving_average."
  },
  {
   "property": "C49",
   "status": "partial",
   "theorems": [
    "Qampy.C49_spectrum",
    "Qampy.C49_band",
    "Qampy.C49_nyquist_partial",
    "Qampy.C49_false"
   ],
   "note": "Spectrum values, evenness, bounds and band for all reals; Nyquist folding for roll-offs in (0,1]. Refuted for roll-off 0, where both band edges are included (C49_false)."
  },
  {
   "property": "C50",
   "status": "proved",
   "theorems": [
    "Qampy.C50_decibel"
   ],
   "note": "Inverse functions, homomorphism, monotone."
  },
  {
   "property": "C51",
   "status": "partial",
   "theorems": [
    "Qampy.C51_average",
    "Qampy.C51_out_of_bounds",
    "Qampy.C51_optimal",
    "Qampy.C51_table_partial",
    "Qampy.C51_assertion",
    "Qampy.C51_false"
   ],
   "note": "Averages and optimality of cal_lut_avg for all sequences, the whole of cal_lut for alphabets with no more imaginary than real levels; refuted otherwise (write outside of the table, C51_false); the assertions of the source contradict the caller (C51_assertion). real_ptrns=False is not modelled."
  },
  {
   "property": "C52",
   "status": "proved",
   "theorems": [
    "Qampy.C52_windows",
    "Qampy.C52_window_too_long",
    "Qampy.C52_windows_plain",
    "Qampy.C52_patterns",
    "Qampy.C52_table"
   ],
   "note": "All signals, alphabets and pattern lengths up to the signal length plus one; longer windows read outside of the array (C52_window_too_long)."
  },
  {
   "property": "C53",
   "status": "partial",
   "theorems": [
    "Qampy.C53_history_partial",
    "Qampy.C53_tdh_fails",
    "Qampy.C53_false",
    "Qampy.C53_fb_truncates",
    "Qampy.C53_reference_of_symbols"
   ],
   "note": "Induction over all histories of views, copies, arithmetic, in-place changes, recreate_from_np_array and resampling on a heap of objects and shared buffers: every declared attribute and the reference symbols survive and their samples never change. Partial because resampling a hybrid (TDHQAM) object fails (C53_tdh_fails), so the statement over all classes is false. SignalWithPilots is not in this heap model; its own code is under C19 to C22."
  },
  {
   "property": "C54",
   "status": "proved",
   "theorems": [
    "Qampy.C54_assignment",
    "Qampy.C54_permutation",
    "Qampy.C54_too_many"
   ],
   "note": "every received mode is matched with a different transmitted mode, the best of those left (induction over the modes); IndexError when there are more received than transmitted modes"
  },
  {
   "property": "C55",
   "status": "proved",
   "theorems": [
    "Qampy.C55_round_trip",
    "Qampy.C55_undeclared_lost"
   ],
   "note": "Round trip through reduce and setstate restores samples and every declared attribute for any class; attributes that are set but not declared are lost (C55_undeclared_lost)."
  },
  {
   "property": "C56",
   "status": "partial",
   "theorems": [
    "Qampy.C56_false",
    "Qampy.C56_false_result",
    "Qampy.C56_replies",
    "Qampy.C56_one_reply_partial"
   ],
   "note": "The literal statement is false: a non-ASCII error message or a result that cannot be serialised ends the worker without a reply (C56_false, C56_false_result). Partial: one reply per request, in order, when messages are ASCII and results serialise; C56_replies gives the replies for every request list."
  },
  {
   "property": "C57",
   "status": "partial",
   "theorems": [
    "Qampy.C57_find_offset_bytes",
    "Qampy.C57_false_two_bytes",
    "Qampy.C57_needs_longer_data"
   ],
   "note": "Refuted for item size two (C57_false_two_bytes), proved for one-byte elements."
  },
  {
   "property": "C58",
   "status": "partial",
   "theorems": [
    "Qampy.C58_best_approximation",
    "Qampy.C58_exact_ratio_partial",
    "Qampy.C58_coprime",
    "Qampy.C58_zero_factor",
    "Qampy.C58_false",
    "Qampy.C58_length",
    "Qampy.C58_samples",
    "Qampy.C58_round_trip",
    "Qampy.C58_hybrid_fractions"
   ],
   "note": "limit_denominator in full: best approximation, exact for denominators up to 10^6, coprime, lengths and samples of the upsample-filter-downsample chain. Refuted for rate reductions over 2*10^6 (factor 0)."
  },
  {
   "property": "C59",
   "status": "partial",
   "theorems": [
    "Qampy.C59_false",
    "Qampy.C59_correct_false",
    "Qampy.C59_shift_partial",
    "Qampy.C59_correct_partial"
   ],
   "note": "one mode is rolled in the opposite direction and the corrected factors are not reduced to the frame: C59_false, C59_correct_false. Proved for two or more modes"
  },
  {
   "property": "C60",
   "status": "proved",
   "theorems": [
    "Qampy.C60_noise_power"
   ],
   "note": "The two randn calls are inputs of the model; for draws of mean zero and variance one the expected noise power is proved (Bochner integral over any probability space). The signal power is the mean over all modes."
  },
  {
   "property": "C61",
   "status": "proved",
   "theorems": [
    "Qampy.C61_maxwell_boltzmann"
   ],
   "note": "All clauses proved for cal_ps_probablts."
  },
  {
   "property": "C62",
   "status": "proved",
   "theorems": [
    "Qampy.C62_exactly_one",
    "Qampy.C62_noiseless"
   ],
   "note": "Exactly one class for every sample of every signal; correct rings for every noiseless 16-QAM signal with the right symbol frequencies."
  },
  {
   "property": "C63",
   "status": "proved",
   "theorems": [
    "Qampy.C63_frames",
    "Qampy.C63_concat"
   ],
   "note": "hypothesis: the corrected shift factors are at least minus one frame"
  },
  {
   "property": "C64",
   "status": "proved",
   "theorems": [
    "Qampy.C64_core",
    "Qampy.C64_core_identity",
    "Qampy.C64_identity",
    "Qampy.C64_order",
    "Qampy.C64_single",
    "Qampy.C64_dispersion",
    "Qampy.C64_phase_noise",
    "Qampy.C64_energy_modes",
    "Qampy.C64_energy",
    "Qampy.C64_zero",
    "Qampy.C64_order_matters"
   ],
   "note": "Every subset of the stages, order, energy, failure with dispersion given."
  },
  {
   "property": "C65",
   "status": "partial",
   "theorems": [
    "Qampy.C65_false",
    "Qampy.C65_energy_partial",
    "Qampy.C65_orthogonal_partial"
   ],
   "note": "Refuted: the minus sign on one row is missing (C65_false). Energy preservation proved, orthogonality proved if one row vanishes."
  },
  {
   "property": "C66",
   "status": "proved",
   "theorems": [
    "Qampy.C66_estimate_snr",
    "Qampy.C66_noise_le_error",
    "Qampy.C66_missing_symbol"
   ],
   "note": "Law of total variance for the estimator, bound by the mean squared error, gain and phase invariance, NaN (none) when an alphabet symbol never occurs."
  },
  {
   "property": "C67",
   "status": "proved",
   "theorems": [
    "Qampy.C67_clip"
   ],
   "note": "All clauses proved per sample."
  },
  {
   "property": "C68",
   "status": "partial",
   "theorems": [
    "Qampy.C68_false",
    "Qampy.C68_train_frame_partial"
   ],
   "note": "false when Ntaps equals synctaps (the frame offset is only added in the other branch); proved otherwise"
  },
  {
   "property": "C69",
   "status": "partial",
   "theorems": [
    "Qampy.C69_false",
    "Qampy.C69_partial",
    "Qampy.C69_zero_loses_everything"
   ],
   "note": "Proved for N >= 1; for N = 0 the slice [0:-0] is empty."
  },
  {
   "property": "C70",
   "status": "partial",
   "theorems": [
    "Qampy.C70_false",
    "Qampy.C70_false_four",
    "Qampy.C70_two_partial"
   ],
   "note": "the mask of the phase pilots is hard coded for two samples per symbol; proved for os = 2"
  },
  {
   "property": "C71",
   "status": "partial",
   "theorems": [
    "Qampy.C71_false",
    "Qampy.C71_prbsbits_partial",
    "Qampy.C71_short_partial",
    "Qampy.C71_no_seed_partial"
   ],
   "note": "Refuted (C71_false); proved when orders are given for all modes."
  },
  {
   "property": "C72",
   "status": "proved",
   "theorems": [
    "Qampy.C72_galois_period"
   ],
   "note": "make_prbs_intXOR itself calls the compiled function with too few arguments (TypeError); the claim is about the generator lfsr_int."
  },
  {
   "property": "C73",
   "status": "partial",
   "theorems": [
    "Qampy.C73_false",
    "Qampy.C73_single_mode_partial"
   ],
   "note": "Refuted for more than one mode (C73_false); proved for one mode."
  },
  {
   "property": "C74",
   "status": "proved",
   "theorems": [
    "Qampy.C74_psk_gray"
   ],
   "note": "Exact complex exponentials."
  },
  {
   "property": "C75",
   "status": "partial",
   "theorems": [
    "Qampy.C75_false",
    "Qampy.C75_from_bit_array_partial"
   ],
   "note": "Refuted for lengths that are not a multiple of log2(M) (C75_false); proved otherwise."
  },
  {
   "property": "C76",
   "status": "proved",
   "theorems": [
    "Qampy.C76_blind_evm_le",
    "Qampy.C76_blind_evm_zero"
   ],
   "note": "Exact arithmetic; blind decision is the nearest point."
  },
  {
   "property": "C77",
   "status": "proved",
   "theorems": [
    "Qampy.C77_scale_invariant"
   ],
   "note": "Exact arithmetic."
  },
  {
   "property": "C78",
   "status": "partial",
   "theorems": [
    "Qampy.C78_false",
    "Qampy.C78_exact_lengths_partial",
    "Qampy.C78_only_exact_partial"
   ],
   "note": "Refuted (surplus raises ValueError); proved for matching lengths, where the result equals the constructor's assembly (C23_round_trip)."
  },
  {
   "property": "C79",
   "status": "partial",
   "theorems": [
    "Qampy.C79_false",
    "Qampy.C79_given_positions_partial",
    "Qampy.C79_get_data_fails"
   ],
   "note": "Refuted (index zero is not counted); placement proved when position 0 is a pilot and pilots are given; get_data always fails afterwards (C79_get_data_fails)."
  },
  {
   "property": "C80",
   "status": "partial",
   "theorems": [
    "Qampy.C80_new_partial",
    "Qampy.C80_false",
    "Qampy.C80_repeat_pilots_false_fails"
   ],
   "note": "Refuted for repeat_pilots=False with several frames; proved for repeat_pilots=True and both values of repeat_data."
  },
  {
   "property": "C81",
   "status": "partial",
   "theorems": [
    "Qampy.C81_prefix_partial",
    "Qampy.C81_false"
   ],
   "note": "Refuted: the compiled version is one sample shorter unless os divides L-Ntaps+1; proved: prefix, and exact condition for equality."
  },
  {
   "property": "C82",
   "status": "partial",
   "theorems": [
    "Qampy.C82_first_mode_partial",
    "Qampy.C82_false"
   ],
   "note": "Refuted: the step size variable is shared by all modes (C82_false); the first mode is independent."
  },
  {
   "property": "C83",
   "status": "partial",
   "theorems": [
    "Qampy.C83_symmetric_partial",
    "Qampy.C83_qam_partial",
    "Qampy.C83_false"
   ],
   "note": "Refuted for 8-QAM; proved for all other orders."
  },
  {
   "property": "C84",
   "status": "partial",
   "theorems": [
    "Qampy.C84_false",
    "Qampy.C84_real_partial",
    "Qampy.C84_methods_partial",
    "Qampy.C84_radius_partial"
   ],
   "note": "Refuted: 'sgncma' is dispatched to cma_error; the real valued version is proved."
  },
  {
   "property": "C85",
   "status": "partial",
   "theorems": [
    "Qampy.C85_odd_partial",
    "Qampy.C85_even_fails",
    "Qampy.C85_false"
   ],
   "note": "Proved for odd numbers of second stage angles; for even numbers (the default) the property fails for every noiseless QPSK-type signal."
  },
  {
   "property": "C86",
   "status": "partial",
   "theorems": [
    "Qampy.C86_viterbi",
    "Qampy.C86_qpsk_partial",
    "Qampy.C86_psk_fails",
    "Qampy.C86_false"
   ],
   "note": "Exact recovery for all constellations with s^M = -1; the package's own PSK constellations satisfy this only for M = 4."
  },
  {
   "property": "C87",
   "status": "proved",
   "theorems": [
    "Qampy.C87_find_freq_offset",
    "Qampy.C87_round_trip"
   ],
   "note": "Exact index of the spectral maximum and round trip."
  },
  {
   "property": "C88",
   "status": "partial",
   "theorems": [
    "Qampy.C88_one_offset",
    "Qampy.C88_false",
    "Qampy.C88_per_mode_partial"
   ],
   "note": "IndexError for every signal with more modes than offsets."
  },
  {
   "property": "C89",
   "status": "partial",
   "theorems": [
    "Qampy.C89_fourfold_partial",
    "Qampy.C89_amplitude",
    "Qampy.C89_false"
   ],
   "note": "C89_false: the field is rotated by four times the phase (and negated), and all modes by the estimate of the last mode; the theorem C89_fourfold_partial gives this rotation for all inputs. Amplitudes are preserved."
  },
  {
   "property": "C90",
   "status": "proved",
   "theorems": [
    "Qampy.C90_exact_moments",
    "Qampy.C90_noiseless",
    "Qampy.C90_gamma_square",
    "Qampy.C90_square_qam"
   ],
   "note": "Exact moments in, exact values out; gamma of square QAM by summation of fourth powers for all sizes."
  },
  {
   "property": "C91",
   "status": "partial",
   "theorems": [
    "Qampy.C91_outer_threshold",
    "Qampy.C91_inner_partial",
    "Qampy.C91_false"
   ],
   "note": "C91_false: partition_16qam passes the kurtosis 1.32 where cal_s0 expects the QAM order; the outer threshold is below 1.01 times the middle ring instead of 1.17."
  },
  {
   "property": "C92",
   "status": "proved",
   "theorems": [
    "Qampy.C92_blind_qpsk"
   ],
   "note": "Principal fourth root of -E^4."
  },
  {
   "property": "C93",
   "status": "proved",
   "theorems": [
    "Qampy.C93_posterior_output",
    "Qampy.C93_dd",
    "Qampy.C93_cma",
    "Qampy.C93_sbd_data",
    "Qampy.C93_rde",
    "Qampy.C93_mcma"
   ],
   "note": "Posterior output for every error function; contraction factors for dd, cma, rde, mcma, sbd_data"
  },
  {
   "property": "C94",
   "status": "proved",
   "theorems": [
    "Qampy.C94_trajectory",
    "Qampy.C94_equaliser"
   ],
   "note": "One mode with fixed or adaptive step size; whole equaliser with fixed step size and distinct modes"
  },
  {
   "property": "C95",
   "status": "partial",
   "theorems": [
    "Qampy.C95_even_partial",
    "Qampy.C95_odd_partial",
    "Qampy.C95_false"
   ],
   "note": "Violated for odd lengths (phase +-pi*d/N); proved for even lengths and all angles"
  },
  {
   "property": "C96",
   "status": "partial",
   "theorems": [
    "Qampy.C96_false",
    "Qampy.C96_reversible_partial",
    "Qampy.C96_block_partial",
    "Qampy.C96_block_size"
   ],
   "note": "Violated with both signs (frequency axis including the end point); energy and reversibility for a single transform, block mode without dispersion, block sizes that raise"
  },
  {
   "property": "C97",
   "status": "partial",
   "theorems": [
    "Qampy.C97_even_partial",
    "Qampy.C97_false",
    "Qampy.C97_odd_fails"
   ],
   "note": "Violated for an odd number of modes and odd lengths; proved for even lengths and an even number of modes or one"
  },
  {
   "property": "C98",
   "status": "partial",
   "theorems": [
    "Qampy.C98_rejects_all",
    "Qampy.C98_false",
    "Qampy.C98_projection_partial",
    "Qampy.C98_bins_partial",
    "Qampy.C98_zero_width"
   ],
   "note": "Violated: every bw <= 2 rejects the whole signal; the code is a projection on the bins at least N/(bw/2) from both ends"
  },
  {
   "property": "C99",
   "status": "partial",
   "theorems": [
    "Qampy.C99_gauss_partial",
    "Qampy.C99_exp_partial",
    "Qampy.C99_false",
    "Qampy.C99_exp_fails"
   ],
   "note": "Violated: power 1/256 (gauss) and 1/4 (exp) at the cutoff"
  },
  {
   "property": "C100",
   "status": "partial",
   "theorems": [
    "Qampy.C100_partial",
    "Qampy.C100_false"
   ],
   "note": "fftfreq is given sampling_rate/2 instead of the sample period; proved: the delay d*fs/2 moves by d samples; refuted for d/fs."
  },
  {
   "property": "C101",
   "status": "proved",
   "theorems": [
    "Qampy.C101_enob"
   ],
   "note": "Complex signals; draws as inputs with variance one."
  },
  {
   "property": "C102",
   "status": "proved",
   "theorems": [
    "Qampy.C102_amplifier",
    "Qampy.C102_rescale"
   ],
   "note": "Complex branch."
  },
  {
   "property": "C103",
   "status": "proved",
   "theorems": [
    "Qampy.C103_pilot_normalisation"
   ],
   "note": "Two dimensional branch per mode (the one dimensional branch fails in sig[:, idx_pil])."
  },
  {
   "property": "C104",
   "status": "proved",
   "theorems": [
    "Qampy.C104_extinction"
   ],
   "note": "No chirp."
  },
  {
   "property": "C105",
   "status": "partial",
   "theorems": [
    "Qampy.C105_false",
    "Qampy.C105_false_equal_taps",
    "Qampy.C105_train_apply_partial"
   ],
   "note": "false when a corrected shift factor becomes negative (application adds a frame, training does not) and in the case of C68; proved otherwise"
  },
  {
   "property": "C106",
   "status": "partial",
   "theorems": [
    "Qampy.C106_permutation",
    "Qampy.C106_order",
    "Qampy.C106_false",
    "Qampy.C106_involution_partial"
   ],
   "note": "sync2frame applies the permutation instead of its inverse: wrong for a cyclic permutation of three modes. Proved for permutations that are their own inverse (all with up to two modes); the order found is always a permutation"
  },
  {
   "property": "C107",
   "status": "proved",
   "theorems": [
    "Qampy.C107_matched_filter"
   ],
   "note": "Exact DFT arithmetic for every length, n and roll-off in (0,1]."
  },
  {
   "property": "C108",
   "status": "partial",
   "theorems": [
    "Qampy.C108_nearest_partial",
    "Qampy.C108_far",
    "Qampy.C108_false"
   ],
   "note": "Nearest symbol whenever some symbol is closer than sqrt(1000); refuted for samples farther away, which are decided as 1 (C108_far)."
  },
  {
   "property": "C109",
   "status": "proved",
   "theorems": [
    "Qampy.C109_complex",
    "Qampy.C109_complex_mismatch",
    "Qampy.C109_ignored",
    "Qampy.C109_real",
    "Qampy.C109_real_generated"
   ],
   "note": "All of _reshape_symbols for complex and real methods."
  },
  {
   "property": "C110",
   "status": "partial",
   "theorems": [
    "Qampy.C110_cma_gain",
    "Qampy.C110_mcma_gain",
    "Qampy.C110_uncorrelated",
    "Qampy.C110_false",
    "Qampy.C110_real_partial",
    "Qampy.C110_square"
   ],
   "note": "Gain property for CMA and MCMA, vanishing average update; the real-valued constant uses the in-phase value for both rows: refuted for 8-QAM, proved for equal component distributions (all square QAM, C110_square)."
  },
  {
   "property": "C111",
   "status": "proved",
   "theorems": [
    "Qampy.C111_transparent",
    "Qampy.C111_decision",
    "Qampy.C111_data",
    "Qampy.C111_in_bounds",
    "Qampy.C111_modes"
   ],
   "note": "Transparent for the perfect samples of every method, corollaries for decision directed and data aided methods; in-bounds and error condition of the driver with default arguments."
  },
  {
   "property": "C112",
   "status": "partial",
   "theorems": [
    "Qampy.C112_stage_keeps",
    "Qampy.C112_converged",
    "Qampy.C112_transparent",
    "Qampy.C112_false",
    "Qampy.C112_no_symbols",
    "Qampy.C112_given_partial"
   ],
   "note": "Second stage keeps converged taps; without symbols the alphabet is nan and every decision is 1 (refuted), proved with given symbols."
  },
  {
   "property": "C113",
   "status": "partial",
   "theorems": [
    "Qampy.C113_false",
    "Qampy.C113_frames_partial",
    "Qampy.C113_complete",
    "Qampy.C113_loop",
    "Qampy.C113_return_false",
    "Qampy.C113_return_partial"
   ],
   "note": "Default frames fail exactly for a whole number of frames; apply=False fails with verbose=True and for frames after frame 0; loop order and starting taps proved."
  },
  {
   "property": "C114",
   "status": "partial",
   "theorems": [
    "Qampy.C114_false",
    "Qampy.C114_partial",
    "Qampy.C114_outside"
   ],
   "note": "The last method decides for both stages; refuted for a data aided first stage, proved for stages of the same kind, out of range read for the refuted case."
  },
  {
   "property": "C115",
   "status": "proved",
   "theorems": [
    "Qampy.C115_ser"
   ],
   "note": "Exact equality of the integral over the noise law (independent standard normal components, the law of np.random.randn) with the formula; one sample per symbol."
  },
  {
   "property": "C116",
   "status": "proved",
   "theorems": [
    "Qampy.C116_pam"
   ],
   "note": "Exact; any nearest point decision."
  },
  {
   "property": "C117",
   "status": "partial",
   "theorems": [
    "Qampy.C117_psk_partial",
    "Qampy.C117_false"
   ],
   "note": "Disproved for BPSK, where the formula is twice the error rate; proved: the average is at most the formula and at least the formula minus erfc(sqrt snr)/2, for all orders and symbol sequences. Missing: equality, which is false."
  },
  {
   "property": "C118",
   "status": "proved",
   "theorems": [
    "Qampy.C118_ber",
    "Qampy.C118_evm"
   ],
   "note": "Bounds for all square orders, equality for QPSK."
  },
  {
   "property": "C119",
   "status": "proved",
   "theorems": [
    "Qampy.C119_shaping"
   ],
   "note": "All clauses."
  },
  {
   "property": "C120",
   "status": "proved",
   "theorems": [
    "Qampy.C120_mi",
    "Qampy.C120_fast"
   ],
   "note": "mutualInfo is defined from the channel density; the expectation is over independent normal draws. Floating point and the in-place change of the symbols by sim_mi_mc are not modelled."
  },
  {
   "property": "C121",
   "status": "proved",
   "theorems": [
    "Qampy.C121_gmi"
   ],
   "note": "bitInfo is defined from the channel density and the label bits; the expectation is over independent normal draws."
  },
  {
   "property": "C122",
   "status": "proved",
   "theorems": [
    "Qampy.C122_bias"
   ],
   "note": "exact means of both powers over independent Gaussian noise; every symbol of the alphabet occurs (otherwise the code takes the mean of an empty selection)"
  },
  {
   "property": "C123",
   "status": "proved",
   "theorems": [
    "Qampy.C123_wiener",
    "Qampy.C123_coherence"
   ],
   "note": "law of the increments, moduli and correlation of the field, for independent normal draws"
  },
  {
   "property": "C124",
   "status": "partial",
   "theorems": [
    "Qampy.C124_pair_partial",
    "Qampy.C124_false",
    "Qampy.C124_no_sinc"
   ],
   "note": "refuted as stated (C124_false: samples near T/(4 beta) get the value at T/(4 beta)); proved for grids that contain the exceptional times exactly or keep a quarter of the spacing away; roll-off 0 raises"
  },
  {
   "property": "C125",
   "status": "proved",
   "theorems": [
    "Qampy.C125_impulse",
    "Qampy.C125_few_taps"
   ],
   "note": "impulse response, alignment, symmetry and peak for all signals and tap numbers; at least beta samples per symbol period"
  },
  {
   "property": "C126",
   "status": "partial",
   "theorems": [
    "Qampy.C126_pair_partial",
    "Qampy.C126_false",
    "Qampy.C126_nyquist_partial"
   ],
   "note": "refuted at |t| = T/(2 beta) (0/0); proved at all other times, zero crossings likewise"
  },
  {
   "property": "C127",
   "status": "proved",
   "theorems": [
    "Qampy.C127_pulse_train"
   ],
   "note": "full characterisation of the zero insertion path for all ratios and tap numbers"
  },
  {
   "property": "C128",
   "status": "partial",
   "theorems": [
    "Qampy.C128_scaled_partial",
    "Qampy.C128_copy",
    "Qampy.C128_false"
   ],
   "note": "refuted: the polyphase path is larger by the factor up (C128_scaled_partial) and does not filter for equal rates (C128_copy); scipy.signal.resample_poly modelled from its documented behaviour"
  },
  {
   "property": "C129",
   "status": "proved",
   "theorems": [
    "Qampy.C129_least_squares",
    "Qampy.C129_error",
    "Qampy.C129_round_trip"
   ],
   "note": "polyfit is modelled by its defining normal equations; the condition 2*pi*|f|+2*delta<pi is what the phase unwrapping needs."
  },
  {
   "property": "C130",
   "status": "partial",
   "theorems": [
    "Qampy.C130_drift_partial",
    "Qampy.C130_modes",
    "Qampy.C130_uneven",
    "Qampy.C130_false"
   ],
   "note": "Proved for two modes (exact trace, including the held part at the end). False otherwise: reshape(2,1) raises for any other number of modes (C130_modes, C130_false), and a number of reference pilots that is no multiple of use_pilot_ratio raises (C130_uneven)."
  },
  {
   "property": "C131",
   "status": "proved",
   "theorems": [
    "Qampy.C131_align",
    "Qampy.C131_metrics",
    "Qampy.C131_error_free"
   ],
   "note": "Alignment of all modes (C131_align), all four metrics (C131_metrics) and the error free case (C131_error_free); the sidelobe condition is a hypothesis on the transmitted sequences, shown to be met by an example."
  },
  {
   "property": "C132",
   "status": "partial",
   "theorems": [
    "Qampy.C132_adjust",
    "Qampy.C132_ser_partial",
    "Qampy.C132_dropped",
    "Qampy.C132_false",
    "Qampy.C132_snr_raises"
   ],
   "note": "The comparison made is proved for all shapes (C132_adjust, C132_ser_partial); the statement \"one value per received mode\" is false when fewer modes were transmitted than received (C132_false): the surplus modes are dropped without a message by SER, BER and EVM while the SNR estimate raises IndexError (C132_snr_raises)."
  },
  {
   "property": "C133",
   "status": "partial",
   "theorems": [
    "Qampy.C133_new_partial",
    "Qampy.C133_from_array_partial",
    "Qampy.C133_false"
   ],
   "note": "Proved for the constructor (C133_new_partial) and for payload arrays of exactly one frame or single frames (C133_from_array_partial). False for a payload longer than the frame with two or more frames (C133_false): the stored slice keeps all payload symbols as reference, so the second frame is compared with the unused symbols."
  },
  {
   "property": "C134",
   "status": "partial",
   "theorems": [
    "Qampy.C134_own_estimate_partial",
    "Qampy.C134_multi_frame_raises",
    "Qampy.C134_linear_as_db",
    "Qampy.C134_false"
   ],
   "note": "C134_own_estimate_partial is proved for all signals; for signals with pilots the statement is false: the linear estimate is taken for dB (C134_linear_as_db, C134_false) and with two or more frames every call raises ValueError (C134_multi_frame_raises)."
  },
  {
   "property": "C135",
   "status": "partial",
   "theorems": [
    "Qampy.C135_default_partial",
    "Qampy.C135_false"
   ],
   "note": "False for every symbol rate other than one: the symbol rate is used as the width (C135_false). Proved for symbol rate one and for an explicitly given width."
  },
  {
   "property": "C136",
   "status": "proved",
   "theorems": [
    "Qampy.C136_equal_distance",
    "Qampy.C136_qam_ratio",
    "Qampy.C136_same",
    "Qampy.C136_single"
   ],
   "note": "For all QAM and PSK orders; also the closed form for QAM and the error for single points."
  },
  {
   "property": "C137",
   "status": "partial",
   "theorems": [
    "Qampy.C137_ser_partial",
    "Qampy.C137_false",
    "Qampy.C137_repeat"
   ],
   "note": "False if the second format has several amplitudes (C137_false, QPSK with 16-QAM), proved for constant modulus formats and equal formats. C137_repeat: from_symbol_arrays changes the array of the caller, a second use scales it again."
  },
  {
   "property": "C138",
   "status": "proved",
   "theorems": [
    "Qampy.C138_shift_and_add",
    "Qampy.C138_pairs"
   ],
   "note": "Linearity of the shift register and balance of C08."
  },
  {
   "property": "C139",
   "status": "partial",
   "theorems": [
    "Qampy.C139_mapping",
    "Qampy.C139_single",
    "Qampy.C139_points_partial",
    "Qampy.C139_diagonal",
    "Qampy.C139_false",
    "Qampy.C139_three_modes"
   ],
   "note": "C139_mapping is complete; the statement about the four points is false for equal delays, the default (C139_false, C139_diagonal), and proved for all others. C139_three_modes: three or more modes raise IndexError."
  },
  {
   "property": "C140",
   "status": "partial",
   "theorems": [
    "Qampy.C140_quant_partial",
    "Qampy.C140_modes",
    "Qampy.C140_false",
    "Qampy.C140_noise_partial",
    "Qampy.C140_off",
    "Qampy.C140_filter"
   ],
   "note": "Proved per mode (C140_quant_partial, C140_noise_partial, C140_off, C140_filter). One scale for all modes is false: rescale_signal normalises every mode to its own peak, so clipping removes power differences between modes (C140_modes, C140_false). A measured response always raises TypeError (astype(sig))."
  },
  {
   "property": "C141",
   "status": "partial",
   "theorems": [
    "Qampy.C141_partial",
    "Qampy.C141_default_drive",
    "Qampy.C141_false"
   ],
   "note": "Proved for the drive voltage 2/pi*arcsin(peak), any Vpi (C141_partial, C141_default_drive for peak one). With the default drive voltage and a smaller peak the output is not proportional to the signal (C141_false)."
  },
  {
   "property": "C142",
   "status": "partial",
   "theorems": [
    "Qampy.C142_synced_partial",
    "Qampy.C142_classes",
    "Qampy.C142_false",
    "Qampy.C142_unsynced_partial"
   ],
   "note": "Proved for synchronised SignalBase objects (C142_synced_partial) and for unsynchronised ones with any gain, offset, delay, quarter turn and order of modes under the correlation conditions of C131 (C142_unsynced_partial). Signals with pilots and symbol-only signals raise TypeError because their est_snr has no argument verbose (C142_classes, C142_false)."
  },
  {
   "property": "C143",
   "status": "partial",
   "theorems": [
    "Qampy.C143_mixed",
    "Qampy.C143_foe_partial",
    "Qampy.C143_common_partial",
    "Qampy.C143_per_mode_partial",
    "Qampy.C143_false",
    "Qampy.C143_data_first",
    "Qampy.C143_carrier_partial"
   ],
   "note": "Transparency with a common shift factor for every constellation, with frequency recovery for phase blind methods (the offset is returned exactly); with differing shift factors only if the pilots are also perfect for the constants of 4 points, which the code hard-codes (C143_false). The data aided method as first one always raises (C143_data_first)."
  },
  {
   "property": "C144",
   "status": "partial",
   "theorems": [
    "Qampy.C144_own_window",
    "Qampy.C144_common_partial",
    "Qampy.C144_same_partial",
    "Qampy.C144_total",
    "Qampy.C144_false"
   ],
   "note": "Each mode alone on its own window for differing shift factors (any step size rule) and for a common one with fixed step size; totality. The full statement is false with the adaptive step size (C144_false)."
  },
  {
   "property": "C145",
   "status": "partial",
   "theorems": [
    "Qampy.C145_power_partial",
    "Qampy.C145_all_points_partial",
    "Qampy.C145_qpsk_partial",
    "Qampy.C145_inner",
    "Qampy.C145_false"
   ],
   "note": "Holds if the mean power of the distinct symbols that occur is that of the constellation, in particular if all points occur, and always for 2 and 4 points. Otherwise violated: the scale is estimated from the symbols that occur; 16-QAM arrays with inner points only become corner points (C145_inner, C145_false)."
  },
  {
   "property": "C146",
   "status": "partial",
   "theorems": [
    "Qampy.C146_ser",
    "Qampy.C146_new_partial",
    "Qampy.C146_dtype",
    "Qampy.C146_false",
    "Qampy.C146_from_symbols",
    "Qampy.C146_from_alphabet",
    "Qampy.C146_mi"
   ],
   "note": "Violated for dtype different from the type of the alphabet: samples keep the type of the alphabet, every decision is a TypeError (C146_dtype, C146_false). cal_mi without snr is a TypeError because est_snr of the class lacks the keyword (C146_mi). The rest is proved."
  },
  {
   "property": "C147",
   "status": "partial",
   "theorems": [
    "Qampy.C147_second_call",
    "Qampy.C147_leak",
    "Qampy.C147_fresh_partial",
    "Qampy.C147_no_keyword_partial",
    "Qampy.C147_false"
   ],
   "note": "False: the default dictionary is changed by the call (C147_false). Proved for every history: the entry after any calls (heapAfter_eq), later calls with M raise (C147_second_call), later calls without M use the wrong order (C147_leak); independent with unused dictionaries."
  },
  {
   "property": "C148",
   "status": "partial",
   "theorems": [
    "Qampy.C148_new",
    "Qampy.C148_from_array",
    "Qampy.C148_agree_iff_one",
    "Qampy.C148_false",
    "Qampy.C148_unit_partial"
   ],
   "note": "False for from_symbol_array: it divides by the root of the scale and ignores the scale for given pilots (C148_from_array, C148_false); true for the constructor (C148_new). The two agree exactly for scale 1 (C148_agree_iff_one)."
  },
  {
   "property": "C149",
   "status": "partial",
   "theorems": [
    "Qampy.C149_first_partial",
    "Qampy.C149_needs_sync",
    "Qampy.C149_once",
    "Qampy.C149_false",
    "Qampy.C149_common"
   ],
   "note": "The first call does what is claimed (C149_first_partial, C149_common); any further call raises AttributeError (C149_once, C149_false)."
  },
  {
   "property": "C150",
   "status": "partial",
   "theorems": [
    "Qampy.C150_coverage",
    "Qampy.C150_complete",
    "Qampy.C150_variance",
    "Qampy.C150_found_partial",
    "Qampy.C150_noiseless_partial",
    "Qampy.C150_train_partial",
    "Qampy.C150_first_window",
    "Qampy.C150_false",
    "Qampy.C150_odd",
    "Qampy.C150_rejects"
   ],
   "note": "Proved when the first window with vanishing error variance is the one with the pilots, the frequency offset found is zero (or given the correlation peak for the found one), for complex-valued blind methods; composed with the training of C143. The full statement is false for payloads of constant modulus."
  },
  {
   "property": "C151",
   "status": "proved",
   "theorems": [
    "Qampy.C151_enough",
    "Qampy.C151_none",
    "Qampy.C151_short",
    "Qampy.C151_shorter"
   ],
   "note": "Default number of training symbols, complex-valued blind methods, even number of samples of the pilot sequence for the position."
  },
  {
   "property": "C152",
   "status": "partial",
   "theorems": [
    "Qampy.C152_threshold_partial",
    "Qampy.C152_quarters_partial",
    "Qampy.C152_false"
   ],
   "note": "Success is reported exactly from 120 pilots on; the full statement is false for shorter sequences."
  },
  {
   "property": "C153",
   "status": "partial",
   "theorems": [
    "Qampy.C153_scale",
    "Qampy.C153_scale_blind",
    "Qampy.C153_zero",
    "Qampy.C153_snr",
    "Qampy.C153_blind_le_partial",
    "Qampy.C153_blind_eq_partial",
    "Qampy.C153_false"
   ],
   "note": "Independence of gain and common phase, zero exactly up to a gain, relation to the SNR are proved in full; blind <= known and equality without symbol errors for known symbols that use every point of a square constellation equally often. In general false: C153_false (a block of outer 16-QAM symbols is normalised too small, so an undistorted signal has a blind EVM above zero)."
  },
  {
   "property": "C154",
   "status": "proved",
   "theorems": [
    "Qampy.C154_array",
    "Qampy.C154_parts",
    "Qampy.C154_modes",
    "Qampy.C154_mode_parts",
    "Qampy.C154_ports",
    "Qampy.C154_mixed",
    "Qampy.C154_default_ports"
   ],
   "note": "All formats give the array of modes, for any shape (at least two modes for the formats with several entries, since one entry is treated as an array). C154_mixed: a row for the real and a column for the imaginary part give a square array."
  },
  {
   "property": "C155",
   "status": "partial",
   "theorems": [
    "Qampy.C155_first_partial",
    "Qampy.C155_value_partial",
    "Qampy.C155_false"
   ],
   "note": "Violated: the first mode is delayed, not the second (C155_false). C155_first_partial and C155_value_partial describe what is loaded."
  },
  {
   "property": "C156",
   "status": "proved",
   "theorems": [
    "Qampy.C156_load"
   ],
   "note": "For every order, any gain and offset per mode and all key formats (the loaded array is a hypothesis which C154 establishes)."
  },
  {
   "property": "C157",
   "status": "proved",
   "theorems": [
    "Qampy.C157_half_bin",
    "Qampy.C157_residual"
   ],
   "note": "the sum of K unit vectors turning by d is strictly shorter for the larger angle: Fejer kernel as a sum of cosines up to pi/K, chord bound above; so the largest bin is the nearest one around the circle; limited to offsets below os/8-os/(8F) where the estimate is not ambiguous; only signals whose fourth power is a tone (QPSK, no noise), exact arithmetic."
  },
  {
   "property": "C158",
   "status": "partial",
   "theorems": [
    "Qampy.C158_square_partial",
    "Qampy.C158_psk_partial",
    "Qampy.C158_false"
   ],
   "note": "square QAM of all orders and PSK of all orders from four proved; false for 32-QAM (cross constellations), where the neighbours (-1,-5) and (-1,-3) have labels that differ in two bits (C158_false)."
  },
  {
   "property": "C159",
   "status": "proved",
   "theorems": [
    "Qampy.C159_ser_qam",
    "Qampy.C159_order",
    "Qampy.C159_ber_qam",
    "Qampy.C159_psk",
    "Qampy.C159_pam",
    "Qampy.C159_evm"
   ],
   "note": "erfc as the integral of exp(-t^2), strictly decreasing, 1 at zero, 0 at infinity; all formulas reduced to one value of erfc; real arithmetic."
  },
  {
   "property": "C160",
   "status": "partial",
   "theorems": [
    "Qampy.C160_decisions_partial",
    "Qampy.C160_tie",
    "Qampy.C160_phase_partial",
    "Qampy.C160_taps_partial",
    "Qampy.C160_quarter_partial",
    "Qampy.C160_false"
   ],
   "note": "Proved for cma, sgncma and rde with fixed step size and any phase (signal or initial taps), and for quarter turns also with adaptive step size and for mcma, mrde, sbd_data; for dd, sbd and mddma under every symmetry of the alphabet if all decisions of the run are clear (C160_decisions_partial; needed: C160_tie). Refuted for a general phase with adaptive step size (C160_false). cma2 is not invariant."
  },
  {
   "property": "C161",
   "status": "proved",
   "theorems": [
    "Qampy.C161_data",
    "Qampy.C161_data_energy",
    "Qampy.C161_decision",
    "Qampy.C161_decision_energy",
    "Qampy.C161_real"
   ],
   "note": "Distance of the taps to any perfect solution as Lyapunov function, over the whole training loop of all modes; for dd and sbd the closeness of the initial taps is an invariant that keeps the decisions right."
  },
  {
   "property": "C162",
   "status": "proved",
   "theorems": [
    "Qampy.C162_fit",
    "Qampy.C162_qpsk",
    "Qampy.C162_decision"
   ],
   "note": "Deterministic bounds on drift and noise; the accuracy and decision statements are for QPSK, the fit statement for every alphabet closed under quarter turns. The built-in start values 100 and 1000 of the search enter as hypotheses on amplitude, noise and window length."
  },
  {
   "property": "C163",
   "status": "proved",
   "theorems": [
    "Qampy.C163_no_slips",
    "Qampy.C163_error_free"
   ],
   "note": "Deterministic bounds: twice the phase accuracy of C162 plus the drift plus an eighth of a turn must stay below the chord of a quarter turn. Only positions with a complete window; the N samples at each edge keep the first test angle."
  },
  {
   "property": "C164",
   "status": "proved",
   "theorems": [
    "Qampy.C164_resolution"
   ],
   "note": "Constant phase and no noise; the bound is the best one over all phases for the angles tested (compare C85: with an even number of second stage angles a phase on the grid is moved away from it)."
  },
  {
   "property": "C165",
   "status": "proved",
   "theorems": [
    "Qampy.C165_tracking",
    "Qampy.C165_decision"
   ],
   "note": "Deterministic bound on the movement of the phase, noise included. The other PSK orders of the package have s^M = 1, see C86."
  },
  {
   "property": "C166",
   "status": "proved",
   "theorems": [
    "Qampy.C166_grid",
    "Qampy.C166_one_bin",
    "Qampy.C166_qpsk_grid",
    "Qampy.C166_qpsk_one_bin"
   ],
   "note": "Noise is any sequence bounded per sample (or on average in the fourth power); the signal fills the transform. Exact arithmetic."
  },
  {
   "property": "C167",
   "status": "proved",
   "theorems": [
    "Qampy.C167_qpsk_chain"
   ],
   "note": "Composition of the models of find_freq_offset, comp_freq_offset, bps, make_decision and the symbol error rate; edges of the search window (N symbols) are dropped as in C163."
  },
  {
   "property": "C168",
   "status": "partial",
   "theorems": [
    "Qampy.C168_unitary",
    "Qampy.C168_axes",
    "Qampy.C168_aligned_partial",
    "Qampy.C168_extinction",
    "Qampy.C168_false"
   ],
   "note": "False (C168_false): the einsum sums matrix rows, at 45 degrees without delay the first polarisation is extinguished (C168_extinction); proved for aligned axes, and the unitarity for all angles. The matrices with the last rotation do not depend on the angle (C168_axes)."
  },
  {
   "property": "C169",
   "status": "partial",
   "theorems": [
    "Qampy.C169_terminates",
    "Qampy.C169_at_most_once",
    "Qampy.C169_results_partial",
    "Qampy.C169_by_id",
    "Qampy.C169_one_worker",
    "Qampy.C169_false",
    "Qampy.C169_order"
   ],
   "note": "Holds if results can be serialised and error texts are ASCII (C169_results_partial, C169_by_id, C169_one_worker); false in general because a worker that stops loses requests (C169_false). Termination and at-most-once delivery without that condition. ZeroMQ queues are in the trusted base."
  },
  {
   "property": "C170",
   "status": "proved",
   "theorems": [
    "Qampy.C170_data",
    "Qampy.C170_real"
   ],
   "note": "The comparison taps are universally quantified, so no assumption on the noise is needed; fixed step size."
  },
  {
   "property": "C171",
   "status": "partial",
   "theorems": [
    "Qampy.C171_conjugate_noise",
    "Qampy.C171_slow_is_average_partial",
    "Qampy.C171_qam",
    "Qampy.C171_false"
   ],
   "note": "False for alphabets not symmetric about the real axis (missing conjugation, C171_false); proved for symmetric alphabets, in particular all QAM alphabets of the library, and for every alphabet with the conjugated noise."
  },
  {
   "property": "C172",
   "status": "proved",
   "theorems": [
    "Qampy.C172_noise",
    "Qampy.C172_optimal",
    "Qampy.C172_response",
    "Qampy.C172_gain"
   ],
   "note": "The response of the Bessel filter computed by scipy is an argument of the model."
  },
  {
   "property": "C173",
   "status": "proved",
   "theorems": [
    "Qampy.C173_align",
    "Qampy.C173_snr",
    "Qampy.C173_normalise"
   ],
   "note": "The errors are included: both sides raise the same exception in the same cases."
  },
  {
   "property": "C174",
   "status": "partial",
   "theorems": [
    "Qampy.C174_fixed_partial",
    "Qampy.C174_order",
    "Qampy.C174_false"
   ],
   "note": "False with adaptive step size: mu is shared between the threads, C174_false. Proved: fixed step size, all interleavings (C174_fixed_partial); adaptive with threads one after another in any order equals the sequential loop in that order (C174_order)."
  },
  {
   "property": "C175",
   "status": "proved",
   "theorems": [
    "Qampy.C175_filter",
    "Qampy.C175_decision",
    "Qampy.C175_demapper",
    "Qampy.C175_bps",
    "Qampy.C175_select",
    "Qampy.C175_reduction"
   ],
   "note": "Proved for all interleavings of atomic steps; reductions in exact arithmetic (with floats the last digits depend on the distribution)."
  },
  {
   "property": "C176",
   "status": "proved",
   "theorems": [
    "Qampy.C176_cma",
    "Qampy.C176_real",
    "Qampy.C176_adaptive",
    "Qampy.C176_stuck"
   ],
   "note": "Rank one channel (all windows are multiples of one window by unit modulus factors): single tap PSK, single polarisation signals behind any polarisation rotation. C176_stuck shows that the restriction on the start is needed."
  },
  {
   "property": "C177",
   "status": "proved",
   "theorems": [
    "Qampy.C177_mcma",
    "Qampy.C177_output",
    "Qampy.C177_axis"
   ],
   "note": "Same channel model as C176, QPSK source; C177_output gives the distance of the equalised symbols, C177_axis the exception."
  },
  {
   "property": "C178",
   "status": "partial",
   "theorems": [
    "Qampy.C178_interpolated",
    "Qampy.C178_measured",
    "Qampy.C178_outside",
    "Qampy.C178_rows",
    "Qampy.C178_hermitian",
    "Qampy.C178_real",
    "Qampy.C178_false"
   ],
   "note": "Interpolation, symmetry and bins for all tables; false for even numbers of samples (Nyquist bin)."
  },
  {
   "property": "C179",
   "status": "partial",
   "theorems": [
    "Qampy.C179_exact",
    "Qampy.C179_gap",
    "Qampy.C179_stuck",
    "Qampy.C179_false"
   ],
   "note": "Right with a gap larger than the error bound, for every rounding function; in single precision wrong from sample 2^24 on."
  },
  {
   "property": "C180",
   "status": "partial",
   "theorems": [
    "Qampy.C180_accuracy",
    "Qampy.C180_stuck",
    "Qampy.C180_false"
   ],
   "note": "Error bound for every rounding function; in single precision wrong from sample 2^24 on."
  },
  {
   "property": "C181",
   "status": "proved",
   "theorems": [
    "Qampy.C181_distance",
    "Qampy.C181_absolute",
    "Qampy.C181_exact",
    "Qampy.C181_decision",
    "Qampy.C181_argmin"
   ],
   "note": "For every rounding function of relative error u; without overflow and underflow."
  },
  {
   "property": "C182",
   "status": "proved",
   "theorems": [
    "Qampy.C182_filter",
    "Qampy.C182_decision"
   ],
   "note": "For every rounding function of relative error u; operations in the order of the source, no fused operations."
  },
  {
   "property": "C183",
   "status": "partial",
   "theorems": [
    "Qampy.C183_exact_product",
    "Qampy.C183_power_of_two",
    "Qampy.C183_whole",
    "Qampy.C183_bound",
    "Qampy.C183_round",
    "Qampy.C183_seven_tenths",
    "Qampy.C183_false"
   ],
   "note": "Proved for powers of two, whole-number rates, and within one sample for every rate and rounding function; the general claim is refuted by C183_false (0.7, factor 3, double precision)."
  },
  {
   "property": "C184",
   "status": "partial",
   "theorems": [
    "Qampy.C184_exact",
    "Qampy.C184_whole",
    "Qampy.C184_tenth",
    "Qampy.C184_false"
   ],
   "note": "Proved in exact arithmetic and when the end point is exact; the general claim is refuted by C184_false (1, 0.1, 3)."
  },
  {
   "property": "C185",
   "status": "partial",
   "theorems": [
    "Qampy.C185_power",
    "Qampy.C185_modes",
    "Qampy.C185_clean",
    "Qampy.C185_caller",
    "Qampy.C185_argument_false",
    "Qampy.C185_single_partial",
    "Qampy.C185_sum",
    "Qampy.C185_false",
    "Qampy.C185_impairments",
    "Qampy.C185_levels",
    "Qampy.C185_errors"
   ],
   "note": "Power, independence of the modes, clean transmission, single-mode delay and exceptions proved; delays of several modes refuted by C185_false (exact behaviour for equal modes in C185_sum), argument left alone refuted by C185_argument_false."
  },
  {
   "property": "C186",
   "status": "partial",
   "theorems": [
    "Qampy.C186_mid",
    "Qampy.C186_offset",
    "Qampy.C186_real",
    "Qampy.C186_swing",
    "Qampy.C186_false",
    "Qampy.C186_center"
   ],
   "note": "Proved for mid position zero; refuted by C186_false otherwise."
  },
  {
   "property": "C187",
   "status": "proved",
   "theorems": [
    "Qampy.C187_parallel",
    "Qampy.C187_threads",
    "Qampy.C187_tie_order",
    "Qampy.C187_argmin",
    "Qampy.C187_search",
    "Qampy.C187_signal"
   ],
   "note": "det_symbol_parallel runs sequentially (its directive is commented out), C187_parallel; the threaded version is proved for private variables (C187_threads), with the counterexample for ties (C187_tie_order)."
  },
  {
   "property": "C188",
   "status": "proved",
   "theorems": [
    "Qampy.C188_payload",
    "Qampy.C188_carrier",
    "Qampy.C188_frame"
   ],
   "note": "the hypotheses on the synchronisation (UndistortedPilots) are those of C150: the search has to reach the pilots before any other window with constant training error, and the correlation has to have its peak there; the exchange of modes is an involution"
  },
  {
   "property": "C189",
   "status": "proved",
   "theorems": [
    "Qampy.C189_blocked",
    "Qampy.C189_reference",
    "Qampy.C189_compiled",
    "Qampy.C189_needs_room"
   ],
   "note": "the loop over the blocks of the search with ArrayFire, for all signals, block sizes and remainders; the library operations are taken as documented and arithmetic is exact"
  },
  {
   "property": "C190",
   "status": "proved",
   "theorems": [
    "Qampy.C190_rde",
    "Qampy.C190_output",
    "Qampy.C190_adaptive",
    "Qampy.C190_square_margin",
    "Qampy.C190_wrong_rings"
   ],
   "note": "Rank one channel as in C176 (every window is the symbol times fixed weights), exact arithmetic; the margin is instantiated for all square QAM constellations, C190_wrong_rings shows that it is needed"
  },
  {
   "property": "C191",
   "status": "proved",
   "theorems": [
    "Qampy.C191_accuracy",
    "Qampy.C191_error_free",
    "Qampy.C191_qam",
    "Qampy.C191_needs_innermost"
   ],
   "note": "all QAM orders but 2 and 8; the hypotheses bound drift, noise and the share of innermost symbols per window"
  },
  {
   "property": "C192",
   "status": "proved",
   "theorems": [
    "Qampy.C192_blind_receiver"
   ],
   "note": "one source with fixed weights (no intersymbol interference, no drift); gain error within the ring margin"
  },
  {
   "property": "C193",
   "status": "proved",
   "theorems": [
    "Qampy.C193_step",
    "Qampy.C193_training",
    "Qampy.C193_exact"
   ],
   "note": "C193_step: one step; C193_training: any number of steps, by the non-expansiveness of the exact step; C193_exact: without rounding the model is that of C161 and C170. Fused operations and reordering (-ffast-math), overflow and underflow are not covered; the adaptive step size neither"
  },
  {
   "property": "C194",
   "status": "partial",
   "theorems": [
    "Qampy.C194_found",
    "Qampy.C194_value_partial",
    "Qampy.C194_residual",
    "Qampy.C194_round_trip",
    "Qampy.C194_undersampled",
    "Qampy.C194_false"
   ],
   "note": "Value proved for whole numbers of samples per symbol and refuted for 1.5 (C194_false); find and compensate cancel for every rate (C194_round_trip); residual of compensating any value (C194_residual)."
  },
  {
   "property": "C195",
   "status": "partial",
   "theorems": [
    "Qampy.C195_draws",
    "Qampy.C195_distribution",
    "Qampy.C195_outside",
    "Qampy.C195_grid_partial",
    "Qampy.C195_square",
    "Qampy.C195_false",
    "Qampy.C195_default"
   ],
   "note": "The distribution on the grid of the in-phase levels for any constellation, on the constellation for every square QAM (C195_square); refuted for 8-QAM (C195_false), default call raises (C195_default). Uniform real draws, exact arithmetic."
  },
  {
   "property": "C196",
   "status": "partial",
   "theorems": [
    "Qampy.C196_sound",
    "Qampy.C196_dead",
    "Qampy.C196_false",
    "Qampy.C196_alive",
    "Qampy.C196_reached"
   ],
   "note": "Refuted for seven functions in every run (C196_dead through the sound flow bound C196_sound); C196_alive shows a function that returns in the same model, C196_reached that the missing names are reached. Only names are modelled, values are left open."
  },
  {
   "property": "C197",
   "status": "proved",
   "theorems": [
    "Qampy.C197_posterior",
    "Qampy.C197_high",
    "Qampy.C197_average",
    "Qampy.C197_rows",
    "Qampy.C197_minmax"
   ],
   "note": "Exact formula, bounds and average over Gaussian noise for the value of cal_gmi; SNR given (the estimated one is C134)."
  },
  {
   "property": "C198",
   "status": "partial",
   "theorems": [
    "Qampy.C198_phase_partial",
    "Qampy.C198_false"
   ],
   "note": "Right in a range of phases (and for every phase in blocks without middle-ring symbols); the full claim is refuted by C198_false."
  },
  {
   "property": "C199",
   "status": "proved",
   "theorems": [
    "Qampy.C199_pilots",
    "Qampy.C199_pilots_all",
    "Qampy.C199_data",
    "Qampy.C199_received"
   ],
   "note": "One sample per symbol, synchronised signal; every pilot (data) symbol of the alphabet occurs."
  },
  {
   "property": "C200",
   "status": "proved",
   "theorems": [
    "Qampy.C200_near",
    "Qampy.C200_gap",
    "Qampy.C200_fit"
   ],
   "note": "rounded search against the exact cost: near-optimality (C200_near), same angle when the gap is larger than the error (C200_gap), fit of a drifting noisy signal (C200_fit); the error bound grows with the length of the signal because the code uses running sums"
  },
  {
   "property": "C201",
   "status": "partial",
   "theorems": [
    "Qampy.C201_power_partial",
    "Qampy.C201_poly",
    "Qampy.C201_ignored",
    "Qampy.C201_false",
    "Qampy.C201_same",
    "Qampy.C201_window",
    "Qampy.C201_duration_partial",
    "Qampy.C201_duration_false"
   ],
   "note": "false without roll-off (option not passed on) and for nearly equal rates (samples copied); proved for every given roll-off (C201_power_partial), for resample_poly with every window (C201_poly), independence of the algorithm (C201_same), duration for rates that are not nearly equal (C201_duration_partial)"
  },
  {
   "property": "C202",
   "status": "partial",
   "theorems": [
    "Qampy.C202_frames_partial",
    "Qampy.C202_from_array",
    "Qampy.C202_false"
   ],
   "note": "C202_false refutes the statement for the default use_seq=False over several frames; C202_frames_partial and C202_from_array are the cases that hold."
  },
  {
   "property": "C203",
   "status": "partial",
   "theorems": [
    "Qampy.C203_partition",
    "Qampy.C203_payload_partial",
    "Qampy.C203_pilots_partial",
    "Qampy.C203_fits",
    "Qampy.C203_false"
   ],
   "note": "C203_fits gives exactly when the masks can be used; C203_false refutes the statement for an incomplete last frame."
  },
  {
   "property": "C204",
   "status": "proved",
   "theorems": [
    "Qampy.C204_noise",
    "Qampy.C204_decisions"
   ],
   "note": "Exact arithmetic; the noise is an arbitrary bounded sequence (worst case), not a random process."
  },
  {
   "property": "C205",
   "status": "partial",
   "theorems": [
    "Qampy.C205_errors",
    "Qampy.C205_numba_errors",
    "Qampy.C205_far",
    "Qampy.C205_counter",
    "Qampy.C205_cython_partial",
    "Qampy.C205_cython_exchanged",
    "Qampy.C205_numba",
    "Qampy.C205_false",
    "Qampy.C205_filter"
   ],
   "note": "Refinement of the compiled trainer by the numba trainer (any step size) and by the Cython trainer (fixed step size; adaptive step size with exchanged arguments, hence C205_false). Error functions equal, those with decisions if a symbol is closer than sqrt(1000)."
  },
  {
   "property": "C206",
   "status": "partial",
   "theorems": [
    "Qampy.C206_add",
    "Qampy.C206_roundtrip",
    "Qampy.C206_stuck",
    "Qampy.C206_false"
   ],
   "note": "C206_add and C206_roundtrip bound the error of every sample; it is proportional to the accumulated phase. C206_false: in single precision the statement fails from sample 2^24 on (C206_stuck)."
  },
  {
   "property": "C207",
   "status": "partial",
   "theorems": [
    "Qampy.C207_gauss",
    "Qampy.C207_sech",
    "Qampy.C207_ttanh",
    "Qampy.C207_supergauss",
    "Qampy.C207_nan",
    "Qampy.C207_odd",
    "Qampy.C207_false"
   ],
   "note": "Proved for gauss, sech, ttanh and supergaussians of integer order; C207_false: half-integer orders are unbounded on one side, other orders give nan there (C207_nan, C207_odd)."
  },
  {
   "property": "C208",
   "status": "partial",
   "theorems": [
    "Qampy.C208_raises",
    "Qampy.C208_rows",
    "Qampy.C208_odd",
    "Qampy.C208_false"
   ],
   "note": "The statement is false: C208_raises shows that no call returns. C208_rows and C208_odd describe the function with the integer division of Python 2, for which the statement is false as well."
  },
  {
   "property": "C209",
   "status": "proved",
   "theorems": [
    "Qampy.C209_locked",
    "Qampy.C209_energy",
    "Qampy.C209_real"
   ],
   "note": "C209_locked (complex), C209_real: equality of the whole training results; C209_energy: bound of the errors and right decisions."
  },
  {
   "property": "C210",
   "status": "partial",
   "theorems": [
    "Qampy.C210_compiled",
    "Qampy.C210_blocks",
    "Qampy.C210_device",
    "Qampy.C210_unknown",
    "Qampy.C210_ser",
    "Qampy.C210_count",
    "Qampy.C210_false"
   ],
   "note": "Compiled method and (with the missing name supplied) the block method proved for all signals, alphabets and block sizes; the device method as it stands and cal_ser_qam never return (C210_device, C210_ser)."
  },
  {
   "property": "C211",
   "status": "proved",
   "theorems": [
    "Qampy.C211_ser",
    "Qampy.C211_ber",
    "Qampy.C211_qam",
    "Qampy.C211_qam_ber"
   ],
   "note": "Independent standard normal draws (the law of np.random.randn); every alphabet for the concentration, square QAM for the comparison with the formulas; one mode, synchronised."
  },
  {
   "property": "C212",
   "status": "proved",
   "theorems": [
    "Qampy.C212_link"
   ],
   "note": "Exact arithmetic; independent standard normal draws; the bound is a union bound, not the exact probability. Edge positions (N at each side) are excluded as in C191."
  },
  {
   "property": "C213",
   "status": "proved",
   "theorems": [
    "Qampy.C213_pilot_link"
   ],
   "note": "Exact arithmetic; independent standard normal draws; union bound. The phase excursion is measured from the start of the signal."
  },
  {
   "property": "C214",
   "status": "proved",
   "theorems": [
    "Qampy.C214_qpsk_link"
   ],
   "note": "Exact arithmetic; independent standard normal draws; union bound over the samples, with the noise margin 1/35 of C167, so the bound says something from about 40 dB on. Edge positions (N at each side) are excluded."
  },
  {
   "property": "C215",
   "status": "proved",
   "theorems": [
    "Qampy.C215_training"
   ],
   "note": "Additive noise only; the channel is any signal for which exact taps exist. The error after training is for the fixed step size."
  },
  {
   "property": "C216",
   "status": "proved",
   "theorems": [
    "Qampy.C216_alignment"
   ],
   "note": "The side lobes of the sequences are a hypothesis (they are properties of the sequences alone)."
  },
  {
   "property": "C217",
   "status": "partial",
   "theorems": [
    "Qampy.C217_whole",
    "Qampy.C217_frames",
    "Qampy.C217_false"
   ],
   "note": "False as stated; proved which lengths are accepted and how many frames remain."
  },
  {
   "property": "C218",
   "status": "proved",
   "theorems": [
    "Qampy.C218_measured"
   ],
   "note": "C218_measured: all modes at once, SER and BER with the own alignment of the metrics; at one sample per symbol. Combines C115, C118, C211 and C216."
  },
  {
   "property": "C219",
   "status": "proved",
   "theorems": [
    "Qampy.C219_synced",
    "Qampy.C219_accuracy"
   ],
   "note": "exact real arithmetic; the noise draws are independent standard normals; kappa <= rho and delta + kappa < 1 assumed"
  },
  {
   "property": "C220",
   "status": "proved",
   "theorems": [
    "Qampy.C220_fast",
    "Qampy.C220_slow",
    "Qampy.C220_sim",
    "Qampy.C220_gmi"
   ],
   "note": "Noise power N0 given to the functions is the true one; in signals.cal_mi it is estimated from the signal (accuracy of that estimate: C219). Bound by Chebyshev's inequality, exact reals."
  },
  {
   "property": "C221",
   "status": "partial",
   "theorems": [
    "Qampy.C221_small",
    "Qampy.C221_again",
    "Qampy.C221_top_bits",
    "Qampy.C221_roundtrip_partial",
    "Qampy.C221_fails",
    "Qampy.C221_false",
    "Qampy.C221_ber"
   ],
   "note": "Refuted for orders above 65536 (C221_false, C221_fails, C221_top_bits, C221_ber); proved for all orders up to 65536 (C221_roundtrip_partial, C221_small) and the fixed point property for all (C221_again)."
  },
  {
   "property": "C222",
   "status": "partial",
   "theorems": [
    "Qampy.C222_gradient",
    "Qampy.C222_square",
    "Qampy.C222_matched",
    "Qampy.C222_step",
    "Qampy.C222_numba_step",
    "Qampy.C222_false",
    "Qampy.C222_cma2"
   ],
   "note": "Gradient theorems for all compiled error functions but cma2 and for the numba square contour and constellation matched functions; a step lowers the cost of its sample. Refuted for cma2."
  },
  {
   "property": "C223",
   "status": "partial",
   "theorems": [
    "Qampy.C223_value",
    "Qampy.C223_radius",
    "Qampy.C223_false",
    "Qampy.C223_root",
    "Qampy.C223_qpsk",
    "Qampy.C223_matched_false",
    "Qampy.C223_matched"
   ],
   "note": "Value of _cal_Rsca for every symmetric constellation; amplitude kept exactly when the square of the radius is this value, so the value itself as radius is refuted (QPSK). Documented distance of the constellation matched error refuted; half of it proved."
  },
  {
   "property": "C224",
   "status": "partial",
   "theorems": [
    "Qampy.C224_attr",
    "Qampy.C224_false",
    "Qampy.C224_shift",
    "Qampy.C224_last_unread",
    "Qampy.C224_parts_partial",
    "Qampy.C224_rotated"
   ],
   "note": "False for created signals (AttributeError). With the attribute set: which shift is found, the last sample is never read, and the parts are recovered except for the last symbol."
  },
  {
   "property": "C225",
   "status": "partial",
   "theorems": [
    "Qampy.C225_accept",
    "Qampy.C225_false",
    "Qampy.C225_longer_partial"
   ],
   "note": "False at the boundary; C225_accept gives the exact condition (one more symbol after the last frame)."
  },
  {
   "property": "C226",
   "status": "proved",
   "theorems": [
    "Qampy.C226_symbols",
    "Qampy.C226_signal",
    "Qampy.C226_given",
    "Qampy.C226_power",
    "Qampy.C226_spread",
    "Qampy.C226_alphabets"
   ],
   "note": "The random generator is an input: its bits are taken as independent and fair. C226_alphabets shows that the QAM and PSK alphabets of every order meet the hypotheses."
  },
  {
   "property": "C227",
   "status": "partial",
   "theorems": [
    "Qampy.C227_modes",
    "Qampy.C227_even_partial",
    "Qampy.C227_false",
    "Qampy.C227_odd_fails",
    "Qampy.C227_odd_mode"
   ],
   "note": "Refuted for an odd number of modes (three or more) and for odd lengths; proved for even lengths and an even number of modes or one. C227_modes gives the mode order for every number of modes."
  },
  {
   "property": "C228",
   "status": "partial",
   "theorems": [
    "Qampy.C228_generator",
    "Qampy.C228_compiled",
    "Qampy.C228_never",
    "Qampy.C228_false",
    "Qampy.C228_galois_partial"
   ],
   "note": "Refuted: no call returns (C228_never). With the three argument function of dsp_cython.pyx the claim holds (C228_galois_partial); C228_compiled shows the call that the compiled function would need."
  },
  {
   "property": "C229",
   "status": "partial",
   "theorems": [
    "Qampy.C229_smooth",
    "Qampy.C229_values",
    "Qampy.C229_never",
    "Qampy.C229_false",
    "Qampy.C229_jump",
    "Qampy.C229_mirror",
    "Qampy.C229_wrap"
   ],
   "note": "Refuted for every sequence inside of one period (C229_never). Proved: unchanged without jumps, every value is held or congruent to the input."
  },
  {
   "property": "C230",
   "status": "proved",
   "theorems": [
    "Qampy.C230_bps",
    "Qampy.C230_soft",
    "Qampy.C230_minmax",
    "Qampy.C230_gmi"
   ],
   "note": "select_angle_index has the same loops in both files and one model. The Cython module is not built by setup.py."
  },
  {
   "property": "C231",
   "status": "proved",
   "theorems": [
    "Qampy.C231_law",
    "Qampy.C231_snr",
    "Qampy.C231_ser"
   ],
   "note": "Exact arithmetic; filter in the frequency domain (taps=None); the received symbols are taken without the gain 1/n of the two filters (C107). Answers the TODO at core/impairments.py:209 positively."
  },
  {
   "property": "C232",
   "status": "proved",
   "theorems": [
    "Qampy.C232_new",
    "Qampy.C232_from"
   ],
   "note": "The samples of the resampling filter are inputs (C58, C127, C128, C201 are about them); rates are rationals."
  },
  {
   "property": "C233",
   "status": "proved",
   "theorems": [
    "Qampy.C233_dispersion",
    "Qampy.C233_symbols",
    "Qampy.C233_ser",
    "Qampy.C233_pmd"
   ],
   "note": "Exact arithmetic; the matrix of the whole compensation is unitary because C39_energy / the dispersion theorem keep the energy of every input, and the law of iid Gaussian pairs is invariant under unitary maps."
  },
  {
   "property": "C234",
   "status": "partial",
   "theorems": [
    "Qampy.C234_impairments",
    "Qampy.C234_filters",
    "Qampy.C234_false"
   ],
   "note": "All impairments and filters listed are proved; the full statement fails for comp_rf_delay (C234_false)."
  },
  {
   "property": "C235",
   "status": "proved",
   "theorems": [
    "Qampy.C235_random",
    "Qampy.C235_fibre",
    "Qampy.C235_qpsk"
   ],
   "note": "Random bits are a model of numpy's generator as an exact source of independent fair bits; the probability is over the product of the laws of bits and noise. The deviation bound is stated for eps up to 3 only because larger deviations can not happen. Exact real arithmetic."
  },
  {
   "property": "C236",
   "status": "partial",
   "theorems": [
    "Qampy.C236_gain",
    "Qampy.C236_twice",
    "Qampy.C236_orthonormalize",
    "Qampy.C236_compIQ",
    "Qampy.C236_joint",
    "Qampy.C236_false",
    "Qampy.C236_pure_false",
    "Qampy.C236_again",
    "Qampy.C236_symbols"
   ],
   "note": "Recovery, invariance, joint treatment of the modes and what is left in the caller's array are proved; that every mode is corrected and that the array of the caller is left alone are refuted for comp_IQ_inbalance. orthonormalize_signal needs two passes because of C45. Exact real arithmetic."
  },
  {
   "property": "C237",
   "status": "proved",
   "theorems": [
    "Qampy.C237_ber",
    "Qampy.C237_fibre",
    "Qampy.C237_symbols"
   ],
   "note": "Random data, direct and over the dispersive link, and how many symbols suffice."
  },
  {
   "property": "C238",
   "status": "partial",
   "theorems": [
    "Qampy.C238_bound",
    "Qampy.C238_payload",
    "Qampy.C238_false",
    "Qampy.C238_raises",
    "Qampy.C238_large",
    "Qampy.C238_decision",
    "Qampy.C238_normalise"
   ],
   "note": "The property as claimed is false for cal_mi (C238_false); the other theorems say what the methods do instead."
  },
  {
   "property": "C239",
   "status": "partial",
   "theorems": [
    "Qampy.C239_modes",
    "Qampy.C239_twostage",
    "Qampy.C239_viterbi",
    "Qampy.C239_viterbi_false",
    "Qampy.C239_turned",
    "Qampy.C239_false",
    "Qampy.C239_alphabet"
   ],
   "note": "The claims for pilots of another format and for the phase of viterbiviterbi are false in the code (C239_false, C239_viterbi_false); the other theorems say what holds."
  },
  {
   "property": "C240",
   "status": "proved",
   "theorems": [
    "Qampy.C240_rounded",
    "Qampy.C240_three",
    "Qampy.C240_frames"
   ],
   "note": "Which rates are affected is settled exactly for three samples per symbol (C240_three). Overflow and subnormal numbers are not modelled; the general facts for any rounding function and any n are in C183."
  },
  {
   "property": "C241",
   "status": "partial",
   "theorems": [
    "Qampy.C241_passive",
    "Qampy.C241_bias",
    "Qampy.C241_chirp",
    "Qampy.C241_extinction",
    "Qampy.C241_arms_partial",
    "Qampy.C241_zero",
    "Qampy.C241_false"
   ],
   "note": "The separate setting of the arms is false for a zero imaginary part (C241_false, C241_zero) and proved when no imaginary part is zero (C241_arms_partial); passivity, bias and extinction hold in full."
  },
  {
   "property": "C242",
   "status": "proved",
   "theorems": [
    "Qampy.C242_mi",
    "Qampy.C242_gmi",
    "Qampy.C242_capacity",
    "Qampy.C242_sim",
    "Qampy.C242_theory",
    "Qampy.C242_limits"
   ],
   "note": "Averages over the noise (exact reals), through C120 and C121."
  },
  {
   "property": "C243",
   "status": "proved",
   "theorems": [
    "Qampy.C243_mi",
    "Qampy.C243_bit",
    "Qampy.C243_sim",
    "Qampy.C243_gmi"
   ],
   "note": "Averages over the noise (exact reals), through C120 and C121."
  },
  {
   "property": "C244",
   "status": "partial",
   "theorems": [
    "Qampy.C244_call",
    "Qampy.C244_history",
    "Qampy.C244_sweep",
    "Qampy.C244_false",
    "Qampy.C244_result",
    "Qampy.C244_mi"
   ],
   "note": "false as stated, the array is changed in place and a later call without rescale gives another result; C244_history gives the results and the array after any sequence of calls, C244_sweep and C244_mi show that sweeps are unaffected"
  },
  {
   "property": "C245",
   "status": "partial",
   "theorems": [
    "Qampy.C245_offset_noise",
    "Qampy.C245_offset_rotate",
    "Qampy.C245_noise_rotate",
    "Qampy.C245_one_laser",
    "Qampy.C245_offset_delay",
    "Qampy.C245_false"
   ],
   "note": "false as stated; C245_offset_noise and C245_offset_rotate hold in full, C245_noise_rotate says exactly when phase noise and rotation can be exchanged, C245_offset_delay covers offsets with whole turns over the signal"
  },
  {
   "property": "C246",
   "status": "proved",
   "theorems": [
    "Qampy.C246_data",
    "Qampy.C246_decision",
    "Qampy.C246_lag",
    "Qampy.C246_fading",
    "Qampy.C246_sbd"
   ],
   "note": "One mode, one tap, one pass and fixed step size; exact arithmetic. C246_data and C246_lag: method sbd_data with symbols whose quadratures all have the size a, no noise. C246_decision and C246_fading: method dd, any alphabet; C246_sbd: method sbd, QPSK like symbols, changing gain; C246_fading for a changing complex gain, bounded noise on a symbol other than zero is such a gain."
  }
 ]
}