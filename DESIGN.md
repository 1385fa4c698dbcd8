# Formal model of QAMpy: design

Source: ChalmersPhotonicsLab/QAMpy at the pinned commit in `/repo` (read as text, never executed).
Model and proofs: Lean 4.33.0 + single Mathlib modules, Lake project in `lean/`.

## Layout

* `lean/Verif/Model/*.lean`  - the model: one definition per source function, each with a comment
  citing file and lines and naming the simplifications.
* `lean/Verif/Spec/*.lean` (or the head of the property file) - small independent specifications.
* `lean/Verif/Lemmas/*.lean` - helper lemmas.
* `lean/Verif/Props/*.lean` - one file per topic with the property theorems (named after the property,
  `C07_...`), each followed by an `example` exhibiting a concrete case that meets its hypotheses.
* `MANIFEST.json` - property -> theorem names and status.
* `seeded/LOG.jsonl` - record of wrong-program experiments (mutations of the model in a scratch copy).

## Modelling conventions

* Bits, indices, shapes: exact (`Nat`, `Int`, `Bool`, `List`).  Python `//` and `%` are `Int.fdiv`/`Int.fmod`
  (for positive divisors identical to Lean's `/`, `%` on `Int`).
* Samples: exact real/complex arithmetic (`Real`, `Complex`) in place of IEEE floats.  Rounding,
  overflow, NaN and dtype conversions are outside of these models.  For the inner loops where rounding matters most
  (running sums of the blind phase search, moving average, decisions, equaliser filter, data aided training) `Model/Rounded.lean`,
  `Model/RoundedEq.lean` and `Model/RoundedTrain.lean` repeat the source with a rounding function after every operation (C179-C182, C193): any function of
  relative error `u`, and round to nearest even with `p` bits (`flP`) as instance. Not modelled there: overflow, underflow,
  fused operations and the reordering that `-ffast-math` permits.  Where the code computes a square root and
  then squares it, or compares moduli instead of squared moduli, the exact model follows the code.
* Exceptions are values (`Except`), with the exception class and the check that raises it.
* `assert` is an exception in the model of pure Python code.  The two pythran modules are compiled with
  `-DNDEBUG` (setup.py:24-28), so for them an assertion is modelled as absent and any out-of-range
  read has to be excluded by proof (`C24`, `C27`).
* Randomness: a random draw is an extra argument, theorems quantify over all draws.
* Loops that mutate arrays become folds or structural recursion that return the new value.
* `fft`/`ifft`: the exact DFT over the complex numbers (Mathlib `ZMod.dft` or an explicit sum).
* OpenMP loops (`#omp parallel for`) are modelled sequentially in the functions themselves. `Model/Omp.lean` models their
  parallel execution (atomic steps, any interleaving); C174 and C175 show which loops give the sequential result. Not
  modelled: weak memory (only the shared `mu` would be affected, the other loops have no shared locations) and the
  classification of variables as private by Pythran (read off the source).

## Trusted base

* Lean's kernel and the three standard axioms `propext`, `Classical.choice`, `Quot.sound`.
* No further axioms, no compiler-evaluated proofs.  Finite computations inside proofs (e.g. matrix powers for
  the PRBS periods) are done with `decide +kernel`, i.e. by the kernel.
* The faithfulness of the model: each definition cites the lines it was read from.
* numpy/scipy primitives (`roll`, `hstack`, boolean indexing, `argmin`, `digitize`, `interp`, `unwrap`,
  `tile`, `fft`, ...) are modelled from their documented behaviour; they are listed in `Model/Np.lean`.
* Expectations (C115-C118): `np.random.randn` draws independent standard normal values, `scipy.special.erfc` is the integral
  `2/sqrt(pi) * int_x^oo exp(-t^2) dt`.
* Not modelled: matplotlib/analysis scripts, `Scripts/`, plotting, file formats (zlib, pickle byte streams, MATLAB
  files), zmq sockets (C169 assumes that the requests and replies of one worker are delivered once and in order), the single precision variants of the Cython classes and of dsp_cython.pyx (`*.pyx` files are not built by setup.py),
  scipy filters (`bessel`, `butter`, `lsim`, `resample_poly`).

## Plan per property

| id | model | proof idea |
|----|-------|------------|
| C01 | `_adjust_to`, `adjust_data_length` on lists, integer offset | index formula `(i-k) mod L`, induction on copies |
| C02 | same | equal length for truncate/extend in range; counterexample for `None`, offset = multiple of L (code violates) |
| C03 | `find_sequence_offset_complex`, `sync_and_adjust` over an abstract commutative star ring / complex | case split, bounds on the argmax offset |
| C04 | `find_sequence_offset` over complex | triangle inequality, equality case |
| C05 | `find_offset`, `sync_rx2tx`, `sync_tx2rx` | induction on tries; counterexample past the end (code violates) |
| C06 | `cal_ber_syncd` | list induction |
| C07-C09 | `prbs_ext`, `lfsr_ext`, `make_prbs_extXOR` on `Nat` bit arithmetic | linear maps over GF(2) as column lists; T^(2^n)=T by repeated squaring in the kernel; fixed-point freeness of T^((2^n-1)/q) by exhibited inverses |
| C10-C12 | `cal_symbols_square_qam`, `cal_symbols_cross_qam` over Gaussian integers (scaled later) | explicit membership characterisation, counting |
| C13-C14 | `bin2gray`, `gray_code_qam` | bit lemmas, injectivity of the binary reflected code, one-bit difference of neighbours |
| C15 | `_generate_mapping`, `_modulate`, `_demodulate` | MSB-first number/bit-list bijection, argmin of an exact hit |
| C16 | `det_symbol_argmin`, `make_decision` | argmin correctness, triangle inequality |
| C17-C19 | `generate_bitmapping_mtx`, `cal_l_values`, `find_minmax` | counting labels; min over halves; log-sum-exp bounds |
| C20-C22 | `_cal_pilot_idx`, frame assembly, `get_data`, `extract_pilots` | boolean masks on lists; C22 refuted with witnesses and partial theorem |
| C23 | `_cal_symbol_idx`, TDH assembly | counting residues |
| C24-C29 | compiled equaliser | sums over lists; invariants over training steps |
| C30 | `partition_value` | induction over the partition |
| C31 | real/complex stacking | lists |
| C32 | `segment_axis` | index arithmetic |
| C33-C34 | `select_angle_index`, `bps`, `_bps_idx_py` | loop invariant for running sums and argmin |
| C35-C37 | phase compensation | complex exponential has modulus one; interpolation of constants |
| C38-C40 | rotation, PMD, modal delay | trigonometric identities, DFT inversion/Parseval, list rotation |
| C41 | quantiser | digitise counting |
| C42 | modulator | `sin (arcsin x) = x` |
| C43 | dispersion | DFT; mode order refuted with a witness |
| C44-C45 | normalisation, Gram-Schmidt | algebra over reals; equal power of `orthonormalize_signal` refuted |
| C46 | mutual information estimators | log of sums containing the diagonal term |
| C47 | SER/BER | counting |
| C48 | moving average via cumulative sums | telescoping |
| C49 | raised cosine | case analysis on intervals |
| C50 | decibel | `Real.rpow`/`logb` |
| C51-C52 | LUT, pattern index | fold invariants, mixed radix |
| C53,C55 | signal metadata | state machine over operations |
| C54 | greedy mode assignment | loop invariant |
| C56 | worker loop | state machine |
| C57 | `find_offset` on bytes | refuted for item size > 1, proved for size 1 |
| C58 | `_resamplingfactors` on rationals; zero-insertion and decimation lengths | `Rat` reducedness; scipy's resample_poly length by its documented formula |
| C59 | shifts | refuted for one mode; proved for several |
| C60 | noise scaling | algebra, noise draw as argument |
| C61 | Maxwell-Boltzmann | exponentials |
| C62 | partition masks | decision logic |
| C63 | `_apply_to_pilotsignal` | window arithmetic |
| C64 | `simulate_transmission` | decision logic |
| C65 | `orthogonalizetaps` | sums |
| C66 | `estimate_snr` | algebra |
| C67 | clipper | real arithmetic |
| C68-C71 | see properties | decision logic / index arithmetic, refutations where the code deviates |

| C72 | `lfsr_int` Galois form | companion recurrence, period |
| C73, C75 | `from_symbol_array`, `from_bit_array` | refuted (C73 for several modes, C75 for odd lengths), partial theorems |
| C74 | PSK labels | cyclic Gray code |
| C76 | `cal_evm` | nearest point minimises each term |
| C77 | `estimate_snr` | both powers scale with the squared gain |
| C78-C80 | TDHQAM from arrays, `pilot_idx`, `repeat_pilots` | refuted, partial theorems |
| C81-C84 | python filter, adaptive training, MRDE codes, method dispatch | refuted, partial theorems |
| C85 | `bps_twostage` | refuted for an even number of second stage angles, proved for odd |
| C86 | `viterbiviterbi` on library PSK | refuted except QPSK, exact recovery for `s^M = -1` |
| C87 | `find_freq_offset` | discrete Fourier sum of one tone, strict maximum at its bin |
| C88 | `comp_freq_offset` with one offset | refuted, per mode offsets proved |
| C89 | `phase_partition_16qam` | refuted, rotation by the fourfold phase proved |
| C90 | `cal_s0`, `cal_snr_qam`, `_cal_gamma` | algebra on the moments, sums of fourth powers |
| C91 | `partition_16qam` thresholds | refuted, explicit bounds |
| C92 | `cal_snr_blind_qpsk` | principal power |
| C93 | loop body of `train_equaliser`, error functions | effect of a step on the output of the same window |
| C94 | `train_equaliser` | induction over the symbols used |
| C95 | PMD by whole samples | shift theorem of the DFT; refuted for odd lengths |
| C96 | `CDcomp` | refuted; Parseval, overlap-add invariant over the blocks |
| C97-C99 | `filter_signal` (gauss, exp), `pre_filter` | refuted in general, exact transfer functions |
| C41 | `quantize_signal_New`, `quantize_signal` | counting lemma for `digitize`; refuted in general |
| C42, C104 | `comp_mod_sin`, `modulator_response`, `er_to_g` | trigonometry; C42 refuted, exact characterisation of the Vpi which works |
| C44, C102, C103 | `normalise_and_center`, `rescale_signal`, ... | sums over rows |
| C45 | `orthonormalize_signal`, `comp_IQ_inbalance` | sums over rows; refuted, exact power ratio |
| C50, C61, C67, C69 | decibel, shaping weights, clipping, edges | C69 refuted for N = 0 |
| C60, C101 | `change_snr`, `add_awgn`, `apply_enob_as_awgn` | expectation over the draws |
| C100 | `comp_rf_delay` | shift theorem; refuted for delays in seconds |
| C54, C106 | `_sync_and_adjust`, mode search of `frame_sync`, `sync2frame` | invariant over the modes handled so far; C106 refuted for 3-cycles |
| C59, C70 | `shift_signal`, `correct_shifts`, `find_pilot_idx` | index formulas; refuted in general |
| C63, C68, C105 | `pilot_equaliser`, `_apply_to_pilotsignal`, `equalize_pilot_sequence` | window arithmetic on the filter of C24; C68, C105 refuted in general |
| C53 | `SignalBase.__array_finalize__`, `recreate_from_np_array`, `resample`, ufuncs, views | heap of objects with shared buffers; invariant over all operation histories |
| C55 | `__reduce__`, `__setstate__` | attribute tuple appended to the state of numpy; any class |
| C56 | `RepWorker.process`, `RepWorker.run` (core/processing.py) | replies of a request list by induction; refuted in general |
| C58 | `_resamplingfactors` with CPython's `Fraction.limit_denominator`, `rrcos_resample` (core/resample.py) | continued fraction loop invariants; refuted in general |
| C64 | `simulate_transmission` (impairments.py) | composition of optional stages over C40, C44, C38 |
| C49, C107 | `rcos_freq`, `rrcos_freq`, `rrcos_pulseshaping_freq`, `rrcos_resample(taps=None)` | case analysis over reals; DFT folding |
| C51, C52 | `rolling_window`, `find_sym_patterns`, `cal_lut`, `cal_lut_avg` | mixed radix arithmetic, loop invariant; C51 refuted in general |
| C108 | `det_symbol` (pythran_equalisation.py) | loop invariant; refuted far from the alphabet |
| C109 | `_reshape_symbols`, `generate_symbols_for_eq` | case analysis on the rows |
| C110 | `_cal_Rconstant`, `_cal_Rconstant_complex` | quadratic in the squared gain; permutation of a square grid for the real methods; refuted for 8-QAM |
| C111, C112 | `equalise_signal`, `dual_mode_equalisation` (core) | composition of C24, C25, C27, C29; refuted for missing symbols |
| C113 | `pilot_equaliser_nframes` | integer division; induction over the frames; refuted for whole numbers of frames |
| C114 | `dual_mode_equalisation` (signal interface) | fold over the methods; refuted for mixed stages |
| C115 | `ser_vs_es_over_n0_qam` | expectation of `calSer` after `changeSnr` under the product of standard normal laws |
| C116 | `ser_vs_es_over_n0_4pam` | probability of a wrong nearest point decision |
| C117 | `ser_vs_es_over_n0_psk` | half plane probabilities; false for BPSK, bounds in general |
| C118 | `ber_vs_es_over_n0_qam`, `ber_vs_evm_qam` | expectation of `calBer`, Gray labels of all pairs |
| C119 | `cal_ps_probablts` | sums of exponentials |
| C120 | `simMiMc`, `calMiMc`, `calMiMcFast` | law of the received value as measure with density; logarithm of the density ratio is integrable (0 ≤ log x ≤ x); conjugated noise has the same law; information inequality log x ≤ x − 1 |
| C121 | `theoryGmi`, `calGmiMc`, `bitmapMtx` | same integrals for the subsets of one label bit; pointwise inequality Σ_i Π_k F_{k,b_k(i)}/F ≤ Π_k Σ_b F_{k,b}/F = 1 |
| C122 | `estimateSnr` | class means of independent Gaussian noise; second moments; Σ over classes of the class variance counts one noise power per class |
| C123 | `phaseNoiseRow`, `applyPhaseNoise` | partial sums of independent Gaussians are Gaussian (law of a linear form); characteristic function for the coherence |
| C124 | `rrcosTime`, `rrcosFreq` | Fourier integral of an even spectrum of two pieces, explicit antiderivatives, three cases of the time |
| C125 | `rrcosPulseTime`, `rrcosTaps`, `convSame` | centred convolution as sum over input samples; modulus of a Fourier integral of a nonnegative spectrum is largest at 0 |
| C126 | `rcosTime`, `rcosFreq` | as C124; zeros of the sine at multiples of π |
| C127 | `rrcosResampleTaps` (zero insertion path) | sum over multiples of `up`, strided list, index arithmetic of the centred convolution |
| C128 | `rrcosResampleTaps` (polyphase path), `scipyResamplePoly`, `upfirdn` | padded window of scipy, same sum with factor `up` |
| C129 | `polyfit1`, `pilotFoeMode`, `pilotBasedFoe` | unwrapping exact for slow phases, Cauchy-Schwarz on the centred slope, power sums |
| C130 | `cpeOldBlocks`, `cpeOldBase`, `cpeOldPhase`, `cpeOldTrace`, `pilotBasedCpeOld` | interpolation on an even grid, symmetric average of a line is exact, held end |
| C131 | Model/Metrics syncRows and the four metrics | correlation = turned correlation of the signal + bounded disturbance; the peak determines lag and turn, sidelobes bound all the others; then C54_permutation, C16_recovers, C47 |
| C132 | Model/Metrics adjustOnly, calSerRows | periodic extension of adjustTo_back, truncation; false statement for surplus received modes |
| C133 | Model/PilotMetrics pilotCalSer, refNew, refFromArray | C21/C80 round trips, samplesAt keeps closeness, periodic extension = tile, C16_recovers |
| C134 | Model/PilotMetrics calGmiRows, pilotCalGmi | 10^(logb 10 x) = x; frames are handed on explicitly so that C22_multi_frame_fails applies; concrete signal with pilot SNR 1 |
| C135 | Model/Frontend | the filter of C125 with the width passed by the wrapper; counterexample from the zero of the pulse at 3/8 |
| C136 | Model/Hybrid | sorted distinct values: if a closest pair has nothing between its points the smallest step is the minimum distance; vertical neighbours for QAM, the lexicographic successor of -1 for PSK |
| C137 | Model/Hybrid | decisions of scaled points of a constant modulus alphabet; 16-QAM stretched by sqrt(5) as counterexample |
| C138 | Model/Prbs | shift and add by linearity of the register, balance of C08 for three seeds gives the counts of pairs |
| C139 | Model/Bert | the Gray labels of QPSK separate into components; C138 for the counts |
| C140 | `dacClip`, `dacQuant`, `dacNoise`, `simDac` (Model/TxChain) on top of clipper, quantiser and noise of Model/Waveform | peak of a clipped mode is one, so C41 applies with full swing one; mean-zero draws remove the cross term |
| C141 | `simTx`, `compModSin`, `modulatorResponse` | the amplifier undoes `vpi`, `sin (arcsin x) = x`; counterexample by the triple angle formula |
| C142 | `normalizeSymbols` (Model/Normalise) with `estSnrRows` | class means are linear, so both powers of C66 scale with the square of the factor |
| C143 | `equalizePilotSequence` (Model/PilotTrain) with the three trainings of both branches | the initial taps are a fixed point of every training (C29); frequency recovery by C129 and phase blindness of the methods |
| C144 | same | the taps of a mode after a fold over modes are those of its own three runs; invariant of the folds of C28; totality from C27 |
| C145 | `fromSymbols`, `fromSymbolsGuess` (Model/SymbolOnly) on top of `fromSymbolArray` | the estimated scale equals the true one iff the powers agree; decisions of C16 |
| C146 | `SymbolOnly`, `decideTyped`, `symbolOnlyNew`, `symbolOnlyFrom` | unique nearest symbol by C16, counting; dispatch on the exported types |
| C147 | `fromArrayCall`, `heapAfter` | dictionaries by identity; induction over the history of calls |
| C148 | `pilotNewScaled`, `pilotFromSymbolArrayScaled` | C80, C21 with scaled pilots |
| C149 | `corrFoe` | C36; state of the attribute `_foe` |
| C150 | `searchTrain`, `bestWindow`, `longSymbols`, `frameSync` | C29 (no error, no training), first minimum; C87-style peak of the spectrum; C04-style correlation; induction over the modes; C143 |
| C151 | `trainingLen`, `errVar`, `argminNan`, `frameSync` | empty rows of errors, nan wins in argmin |
| C152 | `syncPick` | value of the correlation at the peak is the energy of the pilots |
| C153 | `Model/Evm`: `calEvm`, `blindEvm` on top of `normToS0` | moments scale with the gain; nearest point is at most as far as the sent one |
| C154 | `Model/Matlab`: `ndarrayFromMatlab` over a map from names to arrays, with broadcasting | arrays as functions of two indices; induction over the entries |
| C155 | `loadSymbols` with `rollFlat` | normalisation and decisions commute with a cyclic shift; witness with the four QPSK points |
| C156 | `loadSymbols`, `normaliseAndCenter`, `fromSymbols` | affine invariance of the normalisation and C145 |
| C157 | `findFreqOffset`, `compFreqOffset` | Dirichlet kernel: nearest bin has the largest modulus, for any length |
| C158 | `calSer`, `calBer`, `qamCodedSymbols`, `pskCodedSymbols` | wrong decisions are neighbours, whose Gray labels differ in one bit; refuted for 32-QAM |
| C159 | `serQam`, `berQam`, `berEvm`, `serPsk`, `ser4pam` | monotone and limit properties of erfc |
| C160 | `trainEqualiser`, `adaptStep`, `errorFct` | commutation of every loop with the rotation, induction over the steps |
| C161 | `trainEqualiser`, `sbdDataError`, `ddlmsError`, `sbdError`, `ddDataErrorReal` | squared distance to the perfect taps decreases in each step, induction over the steps and modes |
| C162 | `bps`, `bpsIdx`, `testAngles`, `unwrapInner` | the test angles cover all phases within half a step; cost of the best angle bounds the cost of the chosen one; for QPSK one sample of the window bounds the phase |
| C163 | `bps`, `unwrapInner`, `makeDecision`, `calSer` | unwrapped phases move by at most an eighth of a turn, so the quarter turn of C162 is the same at neighbours; induction along the signal |
| C164 | `bpsTwostage`, `stageTwoAngles` | one search with equal angles in the window picks an angle at least as close as any other (chords are monotone in the angle); the second stage covers the step of the first |
| C165 | `viterbiviterbi`, `unwrap` | sums of unit vectors in a cone stay in the cone; unwrapping a slowly moving phase adds one constant; cosines separate the points |
| C166 | `Model/Phase` (`findFreqOffset`) | the spectrum of the fourth power is that of a tone (a Dirichlet kernel) up to the sum of the deviations; the kernel is at least 2/π of its maximum in the nearest bin and below 5/14 more than one bin away, zero in other bins on the grid |
| C167 | `Model/Phase` (`findFreqOffset`, `compFreqOffset`, `bps`), `Model/Quality` | C166 bounds the residual slope of the phase, which then is a slowly drifting phase for C163; the noise is only rotated |
| C168 | `Model/Pmd` (`hPMD`, `applyPMDEinsum`) | products of rotations; the row sums of the matrices act on each polarisation alone, counterexample without delay at 45 degrees |
| C169 | `Model/Dealer` (transition system of the dealer and any number of workers) | invariant: results received, under way and expected are a permutation of the expected ones; a measure decreases with every step; a stopped worker loses requests |
| C170 | Model/Equaliser (train_equaliser with "sbd_data", real valued "dd_data") | tap distance plus error energy over the step size bounded by the initial distance plus the noise energy, for any comparison taps |
| C171 | Model/CalMi (core `cal_mi`) | exponent identity; permutation of the alphabet by conjugation; counterexample with the alphabet 1, i |
| C172 | Model/DacComp (`comp_dac_resp`, response of the scipy filter as argument) | completing the square per bin (Wiener filter); quantiser noise density; scaling of the noise term with the gain |
| C173 | Correlate, Receiver, Metrics, Normalise | every comparison in the search is between values scaled with the same gain; the correlation found is positive, so the start value −100 never wins |
| C174 | Model/Omp: `trainParallel`, any interleaving of the loop over the modes | race freedom by a relation per mode (taps, error row, step size); counterexample with the shared adaptive step size |
| C175 | Model/Omp: `mapParallel`, `ompReduce` and the bodies of all other parallel loops | race freedom of element-wise loops; a sum split over threads is the sum |
| C176 | `trainEqualiser` with `cmaError`/`cmaErrorReal`, one source of constant modulus | scalar recursion of the output power, invariant region and contraction factor |
| C177 | `trainEqualiser` with `mcmaError`, QPSK source | the two components of the response follow the recursion of C176 independently |
| C178 | DacResp | piecewise linear interpolation on the mirrored table; Hermitian bins give a real inverse transform |
| C179 | Rounded | relative error of running sums, gap argument; with p bits a sum of ones stops at 2^p |
| C180 | Rounded | the same bound for differences of running sums |
| C181 | RoundedEq | lower and upper factors of the computed distance, triangle inequality |
| C182 | RoundedEq | invariant of the two loops: error factor times sum of absolute products |
| C183 | `Model/RoundedInt` `osFl`, `rateFor` | quotient of rounded product within k(2u+u²) of k; scaling by powers of two and integers exact; kernel-free evaluation of the rounding at 0.7 |
| C184 | `Model/RoundedInt` `arangeLen`, `linspacestepLen` | ceiling of an exact quotient; explicit roundings at 0.1 |
| C185 | `Model/SimTx` | loop invariant over the modes (processed modes normalised and final, others normalised), aliasing flag; roll of a flattened replicated array |
| C186 | `Model/MidPoint` | mid of extreme values under affine maps |
| C187 | `Model/Decisions` | case analysis of the linear search, induction over the parts of the alphabet |
| C188 | `Model/PilotRx` | composition of C150, C143, C105, C21 and the phase recovery with constant phases |
| C189 | `Model/BpsAf` | invariant of the filled prefix over the blocks; windows of a block are windows of the signal |
| C190 | existing models of training and code books | induction over the steps with the contraction of C176 per symbol; integer arithmetic of the ring radii |
| C191 | `bps`, `symbolsQam`, `makeDecision`, `calSer` | the four innermost points are the nearest ones to their whole circle; the mean fit of the window (C162) bounds one innermost symbol of it; unwrapping as in C163; for the need of them one received signal that belongs to two transmitted sequences |
| C192 | `trainEqualiser`, `applyFilterToSignal`, `bps`, `makeDecision` | C190 gives the gain left after training, which is the noise bound of C191 for the filtered signal; the phase of the response is the carrier phase |
| C193 | `Model/RoundedTrain` | one step: filter (C182), error, scaling and update each with relative error; exact steps are non-expansive (`sbd_step_dist`), so the differences add up; the size of the taps is bounded by C170 |
| C194 | `ObjCarrier.objAddCarrierOffset`, `objFindFreqOffset`, `objCompFreqOffset` | C87 with the truncated number of samples per symbol, residual offset formula |
| C195 | `Shaped.npChoice`, `generatePsSymbols` | inverse of the cumulative sums: each level owns an interval of its probability; product measure; grid constellations |
| C196 | `Names.NameRun`, bodies of seven functions and `cal_ber_syncd` as reads and bindings of names | flow bound `nameFlow` sound for every run (induction over runs), evaluated for the bodies |
| C197 | `gmiMode`, `calGmiRows`, `bitRows` (Model/PilotMetrics) | the rows of demodulated bits are the labels; one plus the exponential of the signed L-value is the inverse posterior of the sent bit; bounds by the margin in squared distance; integral over the noise with the densities of C121 |
| C198 | `phasePartition16`, `blockPhase16`, `complexMin`, `partition16` | fourth powers of the grid points: diagonals give `-r^4`, the middle ring gives `-100` after the right rotation; the lexicographic minimum picks it iff `7·abs(sin 4θ) < -24·cos 4θ`; then the block sum is a positive multiple of `-g^4` |
| C199 | `pilotEstSnr`, `estSnrRows`, `extractPilots`, `getData`, `pilotNew` | selection theorems C21 give the samples, `adjustOnly` extends the reference by whole repetitions, C66 gives the powers |
| C200 | `bpsDistsFl`, `bpsIdxFl` (Model/RoundedBps) | error of a turned sample (product and phasor), of one capped distance (both directions, with the cap at 100), of the running sums (C179), then arg-min of perturbed costs; fit as in C162 |
| C201 | `renormTo`, `resamplePoly`, `rrcosResampleAll`, `objResample` (Model/ResampleObj) | the normalised row has mean zero and power one (C44), times the root of the power; lengths of both paths from C127, C128; factors from C58; ceiling division |
| C202 | `pilotCpe`, `pilotBasedCpe` (existing), `pilotNew`, `pilotFromSymbolArray` | the references used equal those of a single frame repeated, by index arithmetic of `tile` and strides; reduction to C37; counterexample of three frames |
| C203 | `idxPayload`, `idxPilots`, `selectMask` (Model/PilotMask) | lengths and entries of the tiled mask by index arithmetic; the mask fits iff one sample per symbol and whole frames |
| C204 | `pilotBasedCpe`, `cpeMode` (existing) | the trace depends only on the arguments of the received pilots (`cpeMode_split`, `pilotPhase_amp`); |arg(1+v)| ≤ arcsin ρ; averaging and interpolation stay in the convex hull |
| C205 | `Model/TrainAlt`: `cyTrainEq`, `nbTrainEq`, error objects with state, `cyApplyFilterToSignal` | simulation relation over the states of the error object, induction over the symbols |
| C206 | `Model/RoundedCarrier`: `addCarrierOffsetFl`, `compFreqOffsetFl` | relative factors of the rounded phase multiply (`WithinFactor`); exponentials of close phases are close; `flP p` cannot represent `2^p + 1` |
| C207 | `Model/SpecialFcts`: `gaussPulse`, `supergauss`, `sechPulse`, `ttanh` | reduction to even functions falling in the absolute value; `npPow` is nan for negative bases unless the exponent is an integer |
| C208 | `Model/IqStream`: `convertIq` with the division as a parameter | evaluation of the reshape for every length; counterexamples for both divisions |
| C209 | `trainEqualiser`, `sbdError`, `sbdDataError`, `ddErrorReal`, `ddDataErrorReal` (existing) | the two trainings agree step by step while the distance of the taps is within the budget; the step estimate of C170 keeps it there |
| C210 | `DecideMethod.coreMakeDecision`, `decisionAf`, `calSerQam` | invariant over the blocks (the first `c` samples decided, the rest zero); case analysis for the errors |
| C211 | `changeSnr`, `calSer`, `calBer` (no new definitions) | the rate is an average of independent bounded functions of the noise values; Hoeffding inequality of Mathlib, means from C115 and C118 |
| C212 | `simulateTransmission` (phase noise, SNR), `bps`, `makeDecision`, `calSer`, laws `drawLaw`, `noiseLaw` | tails of the phase increments (C123, sub-Gaussian bound) and of the noise amplitude (Rayleigh, polar coordinates), union bound over pairs and samples, then C191 on the remaining draws |
| C213 | `simulateTransmission` for several modes, `pilotBasedCpe`, law `linkLaw` of all draws | tails of the accumulated phase and of the noise amplitude, union bound over all samples, then C204 on the remaining draws |
| C214 | `simulateTransmission` (frequency offset, SNR), `findFreqOffset`, `compFreqOffset`, `bps`, `makeDecision`, law `linkLaw` | Rayleigh tail of the noise amplitude, union bound over all samples, then C167 on the remaining draws |
| C215 | `simulateTransmission` (SNR), `trainEqualiser` with `sbdError` and `sbdDataError`, `detSymbol`, law `linkLaw` | Rayleigh tail of the noise amplitude and union bound; a bounded perturbation of the samples perturbs the output of the taps by at most e times the sum of their moduli; then C209 |
| C216 | `simulateTransmission` (SNR), `calSerRows`, `calBerRows`, `calEvmRows`, `estSnrRows`, law `linkLaw` | each correlation of the noise is a weighted sum of independent normal draws: sub-Gaussian tail, union bound over modes and lags, then the alignment of C131 with a bound on correlations (`align_corr`) |
| C217 | `applyWhole`, `recreatePilots`, `pilotFrames` (Model/PilotApply) | length of the filter output (C24) and integer division |
| C218 | Metrics, SimTransmission, Theory models | the delayed and turned sequence has equally frequent symbols, so C211 applies to every mode; C216 for the alignment; union of both events |
| C219 | Metrics, SimTransmission models | Chernoff bounds for the sum of squared normals above and below; Gaussian tail for the mean of the noise of each group of equal symbols; the estimate is a ratio of both; C216 for the alignment |
| C220 | CalMi, Quality (calMiMc, calMiMcFast), Theory (simMiMc, theoryGmi) | the ratio of the densities is between 1 and a variable with mean M, so the second moment of its logarithm is bounded; Chebyshev's inequality for the mean of independent terms |
| C221 | Decided (decideRow, decideObj, demodulateObj, calBerObj) | index stored modulo 2^16: equality with the single mode model up to 65536 symbols; otherwise the first k-16 bits of every label row are zero |
| C222 | Model/Equaliser, Model/TrainAlt | derivative of the costs along every line; the output after a step is x + mu P err with the energy P of the window; counterexample for cma2 on the imaginary axis |
| C223 | Model/SquareContour | odd imaginary parts cancel by symmetry; derivative of the total cost with respect to the amplitude; QPSK has the value 1/2 |
| C224 | `HybridSplit`: index arrays, read modulo the largest index, search of the shift, loop over modes | fold invariant (first maximum), the modulus `L-1` never reaches the last sample, C23 round trip for the parts |
| C225 | `applyToPilotSignal` (Receiver), `frameStart` | the check as an inequality for all modes and frames via maxima; boundary case refutes the full statement |
| C226 | `signalNew` (RandomSignal), `modulate` | modulation is a bijection of bit arrays onto index arrays (C15 and cardinality), so uniform goes to uniform; product measures over modes; Chebyshev for the mean power |
| C227 | `filterExp` (ExpFilter) | shifts of the mode axis composed to one roll; for even lengths the shifted transforms are the centred spectrum, its multiplication gives mean and energy; three modes and odd lengths refute the full statement |
| C228 | `makePrbsIntXOR`, `cyPrbsInt` (DspCython) | number of arguments; the Cython function is the generator of C72 |
| C229 | `unwrapDiscont` (DspCython) | induction over the sequence with the period counter as state |
| C230 | `cyBps`, `cySoftLValueDemapper`, `cyCalGmiMc` (DspCython) | capped minima agree; nested writes of a flat array; exchange of sums |
| C231 | `rrcosResample`, `changeSnr`, `rrcosPulseFreq`, `calSer` composed (`shapedLink`) | the sampled matched filter is an orthonormal map (folded squared spectra are one); a Gaussian vector keeps its law under orthonormal maps (characteristic functions) |
| C232 | `opResampleArray`, `resampledNew`, `resampledFrom` (Model/ResampledQam) on the heap of Model/Signal | the invariant of C53 (no signal owns a reference buffer) is kept by the class method; induction over histories |
| C233 | Props.NoiseInvariance (dispLink, fibreLink, pmdLink over disperseRow, applyPMD, changeSnr, rrcosPulseFreq) | every step is a matrix (Lemmas.Unitary); energy conservation makes it unitary; a unitary map keeps the law of iid complex Gaussians |
| C234 | Model.ObjImpairments (object-level wrappers: rates come from the object) | every formula depends on products of frequency and time only; maxima of scaled taps scale; comp_rf_delay refuted through C100 |
| C235 | `modulate`, `changeSnr`, `fibreRx`, `calSer`, `serQam` | the average over the noise for given data is the mean of cell error probabilities at the measured power; Q(x/sqrt P) is Lipschitz in P; Hoeffding for the power and for the symbol frequencies (bits give iid uniform symbols, C226), and for the errors given the data (C211); the fibre link has the law of the direct one (C233) |
| C236 | `compIQModes`, `compIQ`, `orthonormRow` | the centred quadratures of the distorted signal are linear in those of the signal, so powers and correlation are known and the Gram-Schmidt step removes the crosstalk; the remaining gains drop out of the second pass; sums over all modes are those of the flattened array |
| C237 | `modulate`, `changeSnr`, `fibreRx`, `calBer`, `berQam` | as C235 with the bounds of C118 on the bit errors of one symbol: the frequencies of points with one and with two neighbours per axis are means of bounded functions of independent symbols (Hoeffding), Q(x) and Q(3x) are Lipschitz in the power; C211 for the errors given the data, C233 for the link |
| C238 | `Model/PilotDelegate.lean`: `cal_mi`, `make_decision`, `normalize_and_center` of `SignalWithPilots`, inherited or looked up in the payload | every term of the sum over the alphabet contains the received symbol itself, which bounds the mutual information from above; case analysis of the frame argument; decisions of alphabet symbols are the symbols |
| C239 | `Model/ObjPhase.lean`: the loops over modes of `bps`, `bps_twostage`, `viterbiviterbi`; `bps` of a signal with pilots | the cost of the chosen angle in a window is the least of all (local form of C162); QPSK points are 1/3 away from 16-QAM but turned by one angle they meet its ring of modulus one |
| C240 | `Model/Double.lean`: rounding to 53 bits (ties to even), `os`, `fs` of `recreate_from_np_array` | case analysis of 3m modulo 2 and 4: the quotient falls below 3 only if the product is a tie that rounds down by two units; relative error of rounding twice is below half a sample |
| C241 | `Model/Waveform.lean` (`modulatorResponse`, `mzm`, `bothQuad`, `erToG`) | triangle inequality on convex combinations; values at null and full drive; exchange of the quadrature arms of two modulators leaves the sum |
| C242 | `mutualInfo`, `bitInfo` (averages of the Monte-Carlo functions by C120, C121) | log(1+x^2) <= x with the Bhattacharyya coefficient of two Gaussians; Gibbs inequality against a centred Gaussian of the received power; squeeze for the limits |
| C243 | `mutualInfo`, `bitInfo` (averages of the Monte-Carlo functions by C120, C121) | the larger noise is the smaller one plus independent noise (characteristic functions); for each value of the added noise the densities of the noisier channel are a mismatched guess, which by the Gibbs inequality loses at least as much; Fubini |
| C244 | `Model/InPlace.lean` (content of the array as state), `quantizeOldRow`, `simMiMc` | induction over the calls; scaling by the peak and by the root mean power is idempotent |
| C245 | `rotateField`, `applyPhaseNoise`, `addCarrierOffset`, `addModalDelay` | sample by sample; the two orders differ by sin(theta) times the field times the difference of the phase factors; index shift modulo the length for the delay |
| C246 | `trainEqualiser` with one tap, `sbdDataError`, `sbdError`, `ddlmsError`, `detSymbol` | invariant on the factor between symbols and output: contraction by 1-k per symbol plus the step of the phase; induction over the symbols; the decision stays correct as part of the invariant |

## Disagreements between code and property (filled in as found)

Each has a `Cxx_statement`, a proof `Cxx_false` of its negation with a concrete witness, and a `_partial` theorem for the
range in which the code does satisfy the property.

* C02 `adjust_data_length(method=None)` with an offset that is a multiple of the length does not return equal lengths.
* C03 `sync_and_adjust` - see the note in MANIFEST.json.
* C05 `sync_rx2tx`/`sync_tx2rx` past the end of the sequence.
* C19 `find_minmax` starts its minimum search at 10000, so samples further than 100 from the constellation get a
  max-log L-value of zero, while the exact L-value grows without bound.
* C57 `find_offset` searches byte strings: for item size > 1 a match can be misaligned.
* C71 `PRBSBits` - see the note in MANIFEST.json.
* C73 `from_symbol_array` with several modes stores the bits of the last mode only (the index of the decisions is overwritten in the loop, signals.py:763-765).
* C75 `from_bit_array` with a length that is no multiple of log2 M drops trailing bits of the symbols, not of `bits`.

* C22 `get_data(frames)` sizes its mask with `max(frames)` instead of the number of frames: it raises for every signal with
  two or more frames (`C22_multi_frame_fails`); a received signal with an incomplete last frame makes even
  `get_data()` raise (`C22_tail_fails`).
* C78 `TDHQAMSymbols.from_symbol_arrays` announces a truncation of the longer array but never performs it: ValueError.
* C79 `from_symbol_array(pilot_idx=...)` counts nonzero *indices*: if symbol 0 is a data symbol one data symbol is lost
  (ValueError, or silent duplication for two data positions); `get_data()` of such an object always raises.
* C80 `SignalWithPilots(repeat_pilots=False, nframes>1)` draws pilots for one frame only: ValueError.
* C32 `segment_axis(end='wrap')` raises ValueError if the array is shorter than half a frame (and longer than one).
* C65 `orthogonalizetaps` reverses and conjugates both rows without changing a sign: the result is in general not orthogonal.
* C81 `apply_filter_py` returns one sample more than the compiled filter unless `os` divides `L-Ntaps+1`; with `modes` given it
  raises NameError (`nmodes = modes.sizeX = X1`).
* C82 `train_equaliser` shares the adaptive step size between the modes.
* C83 `generate_partition_codes_complex(8)`: the boundaries of the 4x2 constellation are lost by broadcasting.
* C84 `train_equaliser(method="sgncma")` uses `cma_error`.
* C33 the compiled `bps` starts its nearest point search at squared distance 100 and its window minimum at 1000: for samples further
  away it returns another index than the python reference (`C33_agree_partial` gives the range of agreement).
* C35 `viterbiviterbi` sets the samples outside of the averaging windows to zero.
* C37 `pilot_based_cpe_new(max_num_blocks=...)` with several frames keeps the first blocks of the reference but of every frame of
  the index, the two get out of step.
* C85 `bps_twostage` with an even number of second stage angles (the default `B=4` is even) never tests the angle of the first
  stage again, so it adds an error to a noiseless signal that stage one has recovered exactly (`C85_even_fails`).
* C86 `viterbiviterbi` assumes `s^M = -1`; `cal_symbols_psk(M)` has `s^M = 1` except for `M = 4` (`C86_psk_fails`).
* C88 `comp_freq_offset`: "if 1D then applies the same frequency offset to all modes" raises IndexError.
* C89 `phase_partition_16qam` multiplies the field with `exp(-1j*phi_est)` where `phi_est` is four times the phase (and that of the last
  mode), while it returns `phi_est/4 - pi/4` per mode.
* C91 `partition_16qam` calls `cal_s0(E, 1.32)`; the second argument is the QAM order, not the kurtosis.
* C43 `add_dispersion`: the final `fftshift` has no `axes` argument, so the modes are shifted (exchanged for two modes).
* C95 `apply_PMD_to_field` uses `linspace(-fs/2, fs/2, N, endpoint=False)` as frequency axis, which is half a bin off for odd `N`.
* C96 `CDcomp` uses `linspace(-1, 1, N)` including the end point, with the sign of the fibre itself; block sizes that are no multiple of four raise.
* C97 `filter_signal(ftype="gauss")` uses `fftshift` where `ifftshift` is needed (odd lengths: spectrum moved by one bin, `C97_odd_fails`) and
  shifts over all axes (odd number of modes: modes permuted).
* C98 `pre_filter` divides by `bw/2` where the documentation asks for a product: for any fraction the output is zero.
* C99 the documented "3 dB cutoff" is neither: -24 dB (gauss), -6 dB (exp).
* (no property) `pre_filter_wdm` refers to an undefined name `sig` and always raises NameError.
* C41 `quantize_signal_New` scales each mode to its own peak but all modes back with the global peak; with `rescale_in=False` it quantises an array of
  zeros. `quantize_signal` digitises with the levels themselves as thresholds, so every value is rounded up, by up to a whole step.
* C42 `comp_mod_sin` lacks the factor 1/pi: it inverts `modulator_response` only for `vpi = 1/pi`.
* C45 `orthonormalize_signal` divides the orthogonalised quadrature by its power before the projection; `comp_IQ_inbalance` takes the arcsin of
  `sum(IQ)/sum(I^2)`, which need not be at most one.
* C69 `dump_edges(E, 0)` returns an empty array.
* C100 `comp_rf_delay` passes `sampling_rate/2` as sample spacing to `fftfreq`.
* C59 `shift_signal` rolls a single mode by `+shift`, several modes by `-shift`; `correct_shifts` does not reduce modulo the frame.
* C68 `pilot_equaliser(frame=k)` forgets the frame offset if `Ntaps == synctaps`: it always trains on frame 0.
* C70 `find_pilot_idx` is only right for two samples per symbol.
* C105 a shift factor that becomes negative by the correction for the tap number is moved up by one frame when the taps are applied but
  not when they are trained, where it is used as a negative slice index.
* C106 `sync2frame` uses `self[mode_alignment, :]` where the inverse permutation is needed (visible from three modes on).
* C53 `TDHQAMSymbols` has no `_symbols` attribute, so `resample` of a hybrid signal raises AttributeError. `recreate_from_np_array(fb=...)` truncates
  the oversampling to an integer.
* C55 `_power_method` of a hybrid signal is set but not declared, so pickling loses it.
* C56 the worker encodes error texts as ASCII and serialises results outside the `try`: either failure ends it without a reply. (`core/processing.py:23` also imports a name `blindphasesearch` that `core/phaserecovery.py` does not define, so in this commit the module cannot be imported at all; the model describes the loop as written.)
* C58 a rate reduction by more than 2*10^6 gives the factor 0 and raises; ratios with denominators over 10^6 are only approximated.
* C64 `simulate_transmission(dispersion=...)` passes an undefined name `D` and raises NameError.
* C49 `rcos_freq` with roll-off 0 includes both band edges, so the folded spectrum is doubled there.
* C51 `cal_lut_avg` asserts that the index arrays are longer than the error array, `cal_lut` passes arrays of equal length (compiled out). The table
  has the size of the real levels only, more imaginary levels lead to a write outside of it.
* C52 `rolling_window(wrap=True)` with a window of more than `len + 1` elements reads outside of the array.
* C108 `det_symbol` starts its search with symbol 1 at squared distance 1000: samples farther away from the whole alphabet are decided as 1.
* C110 "cma_real" and "sgncma_real" use the constant of the in-phase component for the quadrature rows, wrong for 8-QAM (4 by 2 points).
* C112 `dual_mode_equalisation` of the core module without symbols passes `np.atleast_1d(None)` on, which becomes nan: all decisions are 1.
* C113 `pilot_equaliser_nframes(frames=None)` raises AssertionError if the samples after the shift are a whole number of frames (strict comparison).
  `pilot_equaliser(apply=False, verbose=True)` lacks a `return`, so `pilot_equaliser_nframes(apply=False)` raises TypeError by default; with
  `verbose=False` the first row of the taps is passed on as starting taps and frames after frame 0 raise AssertionError.
* C114 the loop over the methods overwrites the symbols, so the last method decides for both stages.

- **C117** (`theory.py:99-102`): `ser_vs_es_over_n0_psk` is the usual two-neighbour approximation. For `M = 2` both neighbours are the same point, so the value is twice the true symbol error rate
  (`C117_false`); for other orders it is an upper bound with a gap of at most `erfc(sqrt(snr))/2`. The docstring does not say that it is an approximation.
- Not modelled, found while reading `theory.py`: `hybrid_qam_ber_vs_esn0` refers to the undefined names `theory.MQAM_BERvsEsN0`, and `generate_ps_symbols(normalize=True)`, its default, to the undefined
  name `utils`; both raise `NameError` when called. `sim_mi_mc` normalises the caller's array in place.
- C124: `rrcos_time` replaces all values within a quarter of the grid spacing of `|t| = T/(4 beta)` by the value of the pulse at that time. On a grid that does not contain the time exactly, the nearest sample gets a wrong value: `beta = 1`, `T = 1`, `t = [1/8, 9/8]` gives 1 instead of 8√2/(3π) ≈ 1.2 (`C124_false`). The documented `beta = 0` raises ZeroDivisionError (`C124_no_sinc`).
- C126: `rcos_time` has no replacement at `|t| = T/(2 beta)` and computes `0/0` there (`C126_false`), for instance one symbol from the centre with roll-off 1/2.
- C128: `rrcos_resample(..., fftconv=False)` hands the normalised pulse to `scipy.signal.resample_poly`, which multiplies an array window by `up`: the result is `up` times the result with `fftconv=True` (`C128_scaled_partial`, `C128_false`). For equal rates `resample_poly` returns a copy, so no pulse shaping happens (`C128_copy`). `resample_poly`/`upfirdn` are modelled after the scipy documentation and source as known (the package is not present here).
- C130: the older `pilot_based_cpe` reshapes the last averages to (2, 1), which raises for every number of modes but two, although the rest is written for any number (`C130_modes`, `C130_false`). It rounds the number of blocks to a multiple of `use_pilot_ratio` before cutting it to the number of reference pilots; if that is no multiple the assignment of the trace raises (`C130_uneven`). `pilot_based_cpe2` (core/pilotbased_receiver.py:75-165) reads `numBlocks` before any assignment and always raises UnboundLocalError; not modelled.
- C132: `_adjust_only` (signals.py:268-292) cuts surplus transmitted modes, but with fewer transmitted than received modes it loops over the transmitted ones only: `cal_ser`, `cal_ber` and `cal_evm` with `synced=True` return fewer values than there are received modes, without a message, and `est_snr` raises IndexError (`C132_false`, `C132_dropped`, `C132_snr_raises`).
- C133: `SignalWithPilots.from_symbol_array` stores `payload[:, :Ndat].copy()`, whose attribute `_symbols` still holds all symbols of the payload. For a payload longer than the frame needs and at least two frames the metrics compare the second frame with the unused symbols, and an undisturbed signal has symbol errors (`C133_false`).
- C134: `SignalWithPilots.cal_gmi(use_pilot_snr=True)` hands the linear SNR estimate to `SignalBase.cal_gmi`, which expects dB (`C134_linear_as_db`, `C134_false`). Because it hands on explicit frame numbers, `cal_gmi` raises ValueError for every signal of two or more frames (`C134_multi_frame_raises`, a consequence of C22).
- C135: `filtering.rrcos_pulseshaping` documents the inverse of the symbol rate as the default width of the pulse but passes the symbol rate itself (`C135_false`).
- C137: `TDHQAMSymbols` divides the samples of the second part by the root of the power ratio, in place, but neither their alphabet nor their reference symbols: decisions and error rates of `symbols_M2` are wrong for formats with
  several amplitudes (`C137_false`). `from_symbol_arrays` does this to the array of the caller, so a second call scales again (`C137_repeat`). The doc string of `calculate_power_ratio` gives the inverse of the ratio that is returned;
  the one of the class agrees with the code. `_divide_signal_frame` (not modelled) refers to the attribute `_frame_len`, which no class sets, and takes indices modulo the last index instead of the length.
- C139: with its default arguments `QPSKfromBERT` uses the same order, seed and delay for both components, so only two of the four points appear (`C139_diagonal`, `C139_false`). It cannot pass seeds to `PRBSBits`, so three or more modes
  with orders for all of them raise IndexError (`C139_three_modes`); with fewer orders than modes the orders and seeds of the further modes are drawn at random.
- C140: `sim_DAC_response` with clipping normalises every mode to its own peak, so a power difference between the modes is lost (`C140_false`); a measured DAC response can never be used (TypeError, `C140_filter`).
- C141: with the default drive voltage the pre-distorted transmitter is linear only for signals whose peak is one (`C141_false`); the right drive is `2/π·arcsin(peak)`.
- C142: `normalize_and_center(symbol_based=True)` raises TypeError for signals with pilots and symbol-only signals, whose `est_snr` does not take `verbose` (`C142_classes`); the mean is already removed then.
- C143: with differing shift factors the last training of `equalize_pilot_sequence` uses the constants of 4 points instead of those of `M_pilot` (core/pilotbased_receiver.py:540), so undistorted 16-QAM pilots change the taps (`C143_false`);
  with a common shift factor they do not. The first stage never gets the pilots, so the data aided method cannot be the first one (`C143_data_first`). Without frequency recovery the returned offsets are zeros; the doc string says ones.
- C144: with a common shift factor and the adaptive step size (the default) a mode starts with the step size left by the previous one, with differing shift factors it starts with the given one, so the taps of a mode depend on the shift factors of the others (`C144_false`).
- C145: `from_symbol_array` scales the constellation with the power of the symbols that occur (signals.py:761), even when M is given. Arrays in which not all points occur are changed: inner points of 16-QAM become corner points (`C145_inner`, `C145_false`).
- C146: `SymbolOnlySignal(..., dtype)` converts the alphabet but draws from the original one (signals.py:1050-1051), so with another `dtype` all decisions raise TypeError (`C146_false`). `cal_mi` without SNR raises TypeError (`C146_mi`).
- C147: `SignalWithPilots.from_symbol_array` stores `M` in its `payload_kwargs` (signals.py:1600-1603), which is one and the same default dictionary for all calls. The second call with `M` in a process raises AssertionError (`C147_second_call`), a call
  without `M` on a plain array uses the order of the earlier call (`C147_leak`).
- C148: `from_symbol_array` divides drawn pilots by `sqrt(pilot_scale)` and ignores the scale for given pilots; the constructor multiplies by `pilot_scale` (`C148_from_array`, `C148_new`, `C148_false`).
- C149: `corr_foe` replaces the array of offsets by the integer 0, so a second call (and a call before `sync2frame`) raises AttributeError (`C149_once`, `C149_false`).
- C150: `frame_sync` takes the first window with the smallest variance of the equaliser error. For an undistorted signal of constant modulus (QPSK payload and pilots) all variances are zero and the first window is taken, so the shift factors stay within
  two pilot sequences of the start, wherever the pilots are (`C150_first_window`, `C150_false`). If the number of samples of the pilot sequence is odd, the stretch around the first window is the empty slice `[-1:...]` (`C150_odd`).
- C151: with the default number of training symbols and `Ntaps <= len(pilots) < 2*Ntaps` there are no training symbols, all variances are nan and the first window is taken for every signal (`C151_short`).
- C152: the threshold for the reported success (120) does not depend on the number of pilots; fewer than 120 pilots of modulus one are always reported as failed (`C152_threshold_partial`, `C152_false`).
- C153: `_cal_evm_blind` and `cal_evm` normalise with the power estimated from the moments (core/signal_quality.py:122-139), which takes unequal use of the amplitudes for noise; for one block of outer 16-QAM symbols without distortion the blind EVM is not zero.
- C155: `np.vstack([np.roll(symbs, fake_pm_delay), symbs])` (io.py:71) delays the first mode; the documentation says the second dimension is delayed.
- C158: the labelling of cross constellations is not a Gray labelling: in 32-QAM the neighbours (-1,-5) and (-1,-3) differ in two bits, so one symbol error can be two bit errors.
- C160: `adapt_step` (pythran_equalisation.py:12-16) compares the signs of the real and imaginary parts of consecutive errors separately, so with the adaptive step size the taps found by the constant modulus algorithm depend on the carrier phase of the signal.
- C168: `_applyPMD_einsum` (core/impairments.py:84-92) does not multiply with the response matrix: `'ijk,ik -> ik'` sums each row of the matrix and multiplies with the same polarisation. Without any delay and with axes at 45 degrees the first polarisation is extinguished. Even the matrix product with the matrices of `H_PMD` would not depend on the angle (`h3*H` is the diagonal delay). `apply_PMD_to_field` does not use it.
- C169: a worker that stops (C56: an error text that is not ASCII, a result that cannot be serialised) loses its request and those waiting for it, the dealer waits forever. With more than one worker results come in any order (the id in the request is needed).
- C171: `cal_mi_mc` multiplies the symbol difference with the noise instead of its conjugate. For noise with a symmetric distribution (`sim_mi_mc`) and for alphabets symmetric about the real axis (all QAM alphabets of the library) this makes no difference (`C171_slow_is_average_partial`, `C171_qam`), for other alphabets `cal_mi(fast=False)` evaluates the conjugated noise (`C171_conjugate_noise`, `C171_false`).
- C174: the step size `mu` is a variable outside of the loop `#omp parallel for` over the modes (pythran_equalisation.py:98-107, 162-172) and is shared by the threads. With `adaptive=True` every thread reads and writes it, the taps depend on the order of the threads (`C174_false`); with a fixed step size all executions agree (`C174_fixed_partial`). A mode listed twice in `modes` would race as well (excluded by hypothesis).
- C178: for an even number of samples `load_dac_response` (core/impairments.py:589-620) gives the Nyquist bin the complex (conjugated) measured value, so that a real signal becomes complex (`C178_false`); beyond the measured range the response is the magnitude of row 320 instead of the zero padding announced in the comment; fewer than 321 rows raise IndexError; the value at frequency zero has to be real.
- C179: `select_angle_index` (pythran_dsp.py:26-42) subtracts running sums over the whole signal. In single precision (complex64 input) a running sum of costs of one stops growing at 2^24, and from there on an angle of half the cost is not found (`C179_stuck`, `C179_false`).
- C180: `moving_average` (core/filter.py:215-237) has the same defect: in single precision the average of ones is zero from sample 2^24 on (`C180_stuck`, `C180_false`).
- C183: `os` truncates the rounded quotient `fs/fb` (signals.py:179-181). With fb = 0.7 and fs = 3*fb in double precision the quotient is just below 3 and `os` is 2; `C183_false`. The error is never more than one sample (`C183_bound`) and `int(round(fs/fb))` would be right (`C183_round`).
- C184: `linspacestep` promises N elements; `np.arange` with rounded end gives 4 elements for (1, 0.1, 3); `C184_false`.
- C185: `sim_tx` rolls the flattened array (`np.roll(sig, modal_delay[l])` without axis, core/pilotbased_transmitter.py:206) once per mode: `C185_false`, `C185_sum`. Without delays `sig = frame` is the caller's array and its first mode is overwritten: `C185_argument_false`. `utils.rotate_field` (line 233) does not exist: `C185_errors`.
- C186: `set_mid_and_resale` scales after moving, so a mid position other than zero is not kept: `C186_false`.
- Observation (not modelled): `cal_ser_qam` (core/signal_quality.py:274-296) passes the number of symbols instead of the symbols to `make_decision`, with the method "pyx", which `make_decision` does not know: it always raises. `cal_ber_nosyncd` (ber_functions.py:359-394), `pre_filter_wdm` (filter.py:51-84), `pilot_based_cpe2`, `gen_dataframe_*` (core/pilotbased_transmitter.py:17-185), `hybrid_qam_ber_vs_esn0` (theory.py:250-280) and `TDHQAMSymbols._divide_signal_frame` use names that are not bound and raise whenever they are called.
- C194: `os` is `int(fs/fb)`; with a fractional number of samples per symbol `find_freq_offset` of a signal object reports `fo*os/fs` instead of `fo/fb` (and raises ZeroDivisionError below one sample per symbol). The value is a fraction of the symbol rate while `add_carrier_offset` takes Hz.
- C195: `generate_ps_symbols` draws both quadratures from the in-phase levels: for cross QAM (8, 32, 128) points outside of the constellation appear. With the default `normalize=True` it raises NameError (`utils` is not imported in theory.py).
- C196: `cal_ber_nosyncd` reads `data_tx_sync` before it is bound (UnboundLocalError), `pre_filter_wdm` reads `sig`, `hybrid_qam_ber_vs_esn0` reads `theory`, the three `gen_dataframe...` functions read `modulation` (NameError), `pilot_based_cpe2` reads `numBlocks` before it is bound; none of them can return.
- C198: `phase_partition_16qam` (phaserecovery.py:369-380) selects the rotation of the middle-ring symbols with `np.min` of complex numbers, which compares real parts, not distances. The right rotation is selected only if the signal phase is within 18.4 degrees of 45 degrees (up to quarter turns). `C198_false`: at phase 0 a block of `1+i` and `1+3i` gets a wrong phase. `C198_phase_partial` proves the estimate in that range, and at every phase for blocks without middle-ring symbols.
- C201: `rrcos_resample(..., beta=None, renormalise=True)` does not normalise: line 104 of core/resample.py calls `resample_poly(signal, fold, fnew)` without the option (`C201_ignored`, `C201_false`).
- C201: `resample` copies the samples when `np.isclose(fnew/fold, 1)`, but still sets the new sampling rate; with 400000 samples and rates 200000 and 200001 two samples are missing (`C201_duration_false`).
- C202: `ph_pilots` of a signal made by the constructor with several frames is the tiled pilot array without the first pilot sequence, so `pilot_cpe(nframes=n, use_seq=False)` with n ≥ 2 compares the phase pilots of the second and later frames with pilot sequence symbols (`C202_false`: a signal without phase error is rotated by 30 degrees).
- C203: `idx_payload` and `idx_pilots` are tiled to the complete frames only and then cut to the length of the signal, which suggests that they are meant for signals with an incomplete last frame; for these (and for oversampled signals) indexing with them raises IndexError (`C203_fits`, `C203_false`).
- C205: the Cython trainer calls `adapt_step(mu, err[i-1], err[i])` (cython_equalisation.pyx:227), the compiled and the numba trainers `adapt_step(mu, err[i], err[i-1])` (pythran_equalisation.py:172, numba_equalisation.py:130) although the
  parameters are named `(mu, err_p, err)`: the latter reduce the step by the size of the previous error (`C205_false`, `C205_cython_exchanged`). `det_symbol` starts with distance 10000 and symbol 0 instead of 1000 and 1 (`C205_far`). The Cython filter returns
  every complete window, the compiled one drops the last unless `os` divides `L-Ntaps+1` (`C205_filter`). The counter of the data aided object is never reset (`C205_counter`). Not modelled: `rde_fct` and `mrde_fct` of the numba module use the undefined names `part`, `code` and `partion`.
- C206: `add_carrier_offset` numbers the samples in the type of the signal (core/impairments.py:255-257). For complex64 the phase error grows with the sample number, and from sample 2^24 on neighbouring samples get the same phase (`C206_stuck`, `C206_false`);
  `comp_freq_offset` counts in double precision (core/phaserecovery.py:466) and does not undo this. `C206_roundtrip` gives the bound which does hold.
- C207: `supergauss` raises `(x-x0)/w`, not its absolute value, to the power `2*o` (core/special_fcts.py:101) although the order is documented as a float: if `2*o` is not an integer the side `x < x0` is nan (`C207_nan`), if it is odd this side grows above `A` without bound
  (`C207_odd`, `C207_false`). Integer orders are pulses (`C207_supergauss`).
- C208: `convert_iqtosinglebitstream` passes the float `len(idat_n)/N[0]` to `reshape` (core/utils.py:224-226), so every call raises TypeError (`C208_raises`). With integer division it would concatenate long rows of both streams instead of interleaving
  them bit group by bit group (`C208_rows`), and raise ValueError for odd numbers of bits (`C208_odd`).
- C210: `_decision_af` reads the global `NMAX`, which signal_quality.py does not have (NameError); `cal_ser_qam` passes `M` as alphabet and its default method "pyx" is rejected by `make_decision`: it never returns.
- C217: `SignalWithPilots.recreate_from_np_array` asserts that a whole frame is left, but the equaliser filter shortens the signal by its length. `equalise_signal`, `dual_mode_equalisation` and `apply_filter(frames=None)` of a signal with exactly one frame raise AssertionError (`C217_false`, `C217_frames`).
- C221: the index of the decision is stored as uint16 (signals.py:864), so for QAM orders above 65536 `demodulate` returns the bits of the index modulo 65536: the first k-16 bits of every symbol are zero and `cal_ber` never exceeds 16/k. The models of single modes (`demodulate`, `calBer` in Model/Constellation and Model/Quality) keep the exact index and agree with the code up to 65536 symbols (C221_small); results on bits for larger orders (C15, C47, C158 and others) are about the exact index.
- C222: the error function of `cma2` is not a descent direction of the constant modulus cost: samples of modulus one off the real axis are driven away from the circle (`C222_false`); it agrees with `cma` for real samples only (`C222_cma2`).
- C223: `_cal_Rsca` returns the square of the radius that the square contour error functions expect (`C223_false`, `C223_root`). The documentation of the constellation matched error names the distance between the points as parameter, the formula needs half of it (`C223_matched_false`, `C223_matched`).
- C224: `_divide_signal_frame` reads `_frame_len`, which no constructor of `TDHQAMSymbols` sets, so it raises AttributeError for every created signal. Even with the attribute the modulus `idx.max()` is one too small: the last sample is never read and the last symbol of the second part is replaced by the first sample.
- C225: the length check of `_apply_to_pilotsignal` asks for one symbol more than the frame needs (`<` and a whole period instead of the last symbol): a signal that ends with the last sample needed is refused.
- C227: `filter_signal(ftype="exp")` shifts the mode axis four times (`fftshift` without `axes`, core/filter.py:124-128): with an odd number of modes (three or more) mode `l` of the result is the filtered mode `l+2`. For odd lengths the spectrum is moved by one bin, a constant becomes a signal of mean zero.
- C228: `make_prbs_intXOR` calls `prbs_int` with three arguments (prbs.py:94); the compiled function takes four (pythran_dsp.py:168-169). Every call raises TypeError.
- C229: `unwrap_discont` compares the wrapped value with the unwrapped one before it and takes jumps between `max_diff` and one period for glitches: a sequence reduced to one period is never unwrapped, and after a recognised jump the output stays at one value.
* C234 `comp_rf_delay` passes the sampling rate where `fftfreq` expects a time: the result depends on the unit in which rates and delays are given (same cause as C100).
* C236 `comp_IQ_inbalance` takes mean, correlation and powers over all modes together: modes with opposite imbalance are returned uncorrected (`C236_false`). It removes the mean in place, from the array of the caller (`C236_pure_false`).
* C238 `SignalWithPilots` does not override `cal_mi`, `make_decision` and `normalize_and_center`: `cal_mi` compares pilots with payload symbols (`C238_false`), or raises as it passes samples as the argument `frames` of `est_snr`; `make_decision()` decides the transmitted payload; `normalize_and_center(symbol_based=True)` raises TypeError.
* C239 `phaserec.bps` of a signal with pilots searches with the alphabet of the payload over the pilots as well, and turns a pilot sequence of QPSK in a 16-QAM signal (`C239_false`); `viterbiviterbi` returns the phase of the last mode only (`C239_viterbi_false`).
* C240 (with C183) `os` is `int(fs/fb)`: for 3 samples per symbol exactly the symbol rates with a significand of at least 4/3 ending in bits 110 (0.35 for example) have the ratio 2 in double precision (`C240_three`), and their frames are counted as F + F/2 (`C240_frames`).
* C241 `np.iscomplex` is false for a complex value with zero imaginary part, so `modulator_response` gives a parameter `t+0j` to both arms (`C241_zero`, `C241_false`).
* C244 `quantize_signal` and `sim_mi_mc` scale the array of the caller in place (`C244_false`, `C244_mi`). Sweeps are not affected (`C244_sweep`), but a call of `quantize_signal` with `rescale=False` after one with `rescale=True` is (`C244_result`).
* C245 `apply_phase_noise` draws a separate phase noise for every mode, so it does not commute with a rotation of the polarisations (`C245_noise_rotate` says exactly when, `C245_false`).
