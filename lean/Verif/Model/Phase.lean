import Verif.Model.Segment
import Mathlib.Analysis.SpecialFunctions.Complex.Arg

/-!
Model of carrier phase and frequency recovery: qampy/core/phaserecovery.py, qampy/core/pythran_dsp.py:16-85 and 137-153,
qampy/core/pilotbased_receiver.py:258-327, qampy/phaserec.py:156-238, qampy/core/filter.py:215-237, and of
`add_carrier_offset`, qampy/core/impairments.py:235-257.

Arrays are lists, real numbers stand for floats. Functions that loop over modes are given for one mode unless the loop matters.
-/

namespace Qampy

open Complex (I)

/-! ### Library functions -/

/-- `np.mod(x, p)` for a positive `p`. -/
noncomputable def npMod (x p : ℝ) : ℝ := x - p * ⌊x / p⌋

/-- The correction of one phase step in `np.unwrap` (period `2π`, `discont = π`), from numpy's source: `ddmod`, the special case at the
upper end of the interval, and no correction below the discontinuity. -/
noncomputable def unwrapCorr (dd : ℝ) : ℝ :=
  let m := npMod (dd + Real.pi) (2 * Real.pi) - Real.pi
  let m := if m = -Real.pi ∧ 0 < dd then Real.pi else m
  if |dd| < Real.pi then 0 else m - dd

/-- The running sum of the corrections added to the elements behind the first one; `c` is the sum so far, `prev` the previous
element. -/
noncomputable def unwrapGo : ℝ → ℝ → List ℝ → List ℝ
  | _, _, [] => []
  | c, prev, x :: l => (x + (c + unwrapCorr (x - prev))) :: unwrapGo (c + unwrapCorr (x - prev)) x l

/-- `np.unwrap(p)` -/
noncomputable def unwrap : List ℝ → List ℝ
  | [] => []
  | x :: l => x :: unwrapGo 0 x l

/-- `np.interp(x, xp, fp)` on the list of pairs `(xp, fp)` for increasing `xp`; `none` (ValueError) for an empty list. -/
noncomputable def interp (x : ℝ) : List (ℝ × ℝ) → Option ℝ
  | [] => none
  | [p] => some p.2
  | p :: q :: l =>
    if x ≤ p.1 then some p.2
    else if x < q.1 then some ((q.2 - p.2) / (q.1 - p.1) * (x - p.1) + p.2)
    else interp x (q :: l)

/-- `np.cumsum` -/
noncomputable def cumsumGo : ℝ → List ℝ → List ℝ
  | _, [] => []
  | c, x :: l => (c + x) :: cumsumGo (c + x) l

/-- `moving_average(sig, N)` for one mode, filter.py:231-237: running sums of the array with a zero in front, `ret[N:] - ret[:-N]`
divided by `N`. Both slices have `len(sig)+1-N` entries for `1 ≤ N ≤ len(sig)+1` and none for larger `N`. `N = 0` makes the second
slice empty (ValueError of the broadcast, or an empty result; not used), here `none`. -/
noncomputable def movingAverage (sig : List ℝ) (N : Nat) : Option (List ℝ) :=
  if N = 0 then none else
    let ret := cumsumGo 0 (0 :: sig)
    some (List.zipWith (fun a b => (a - b) / (N : ℝ)) (ret.drop N) (ret.take (ret.length - N)))

/-! ### Blind phase search -/

/-- `cabsq`, pythran_dsp.py:3-4. -/
noncomputable def cabsq (z : ℂ) : ℝ := z.re ^ 2 + z.im ^ 2

/-- The distance returned by `det_symbol(X, symbs)`, pythran_dsp.py:16-23; the symbol, which stays undefined if no symbol is
closer than the start value 1000, is not used by `bps`. -/
noncomputable def detDist (X : ℂ) (symbs : List ℂ) : ℝ :=
  symbs.foldl (fun d0 s => if cabsq (X - s) < d0 then cabsq (X - s) else d0) 1000

/-- The array `dists` of `bps`, pythran_dsp.py:66-84 (the omp directive does not change it). `angles` has one row for all samples or
one row per sample; a missing row is an access outside the array (`none`). -/
noncomputable def bpsDists (E : List ℂ) (angles : List (List ℝ)) (symbols : List ℂ) : Option (List (List ℝ)) :=
  (List.range E.length).mapM fun i => do
    let e ← E[i]?
    let row ← angles[if 1 < angles.length then i else 0]?
    some (row.map fun φ : ℝ =>
      let d := detDist (e * Complex.exp (I * (φ : ℂ))) symbols
      if d < 100 then d else 100)

/-- The loop over `k` in `select_angle_index`, pythran_dsp.py:36-41: `cur` is the entry of `idx`, `dmin` the best sum so far. -/
noncomputable def scanBest : List ℝ → Nat → Nat → ℝ → Nat
  | [], _, cur, _ => cur
  | a :: l, k, cur, dmin => if a < dmin then scanBest l (k + 1) k a else scanBest l (k + 1) cur dmin

/-- One pass of the loop over `i`, pythran_dsp.py:30-41; state `(csum, idx)`. -/
noncomputable def selStep (x : List (List ℝ)) (N : Nat) (st : List (List ℝ) × List Nat) (i : Nat) :
    Option (List (List ℝ) × List Nat) := do
  let prev ← st.1[i - 1]?
  let xi ← x[i]?
  let csum := st.1.set i (List.zipWith (· + ·) prev xi)
  if i < N then some (csum, st.2)
  else do
    let old ← csum[i - N]?
    let cur ← st.2[i - N / 2]?
    some (csum, st.2.set (i - N / 2) (scanBest (List.zipWith (· - ·) (List.zipWith (· + ·) prev xi) old) 0 cur 1000))

/-- `select_angle_index(x, N)`, pythran_dsp.py:26-42. -/
noncomputable def selectAngleIndex (x : List (List ℝ)) (N : Nat) : Option (List Nat) :=
  ((List.range' 1 (x.length - 1)).foldlM (selStep x N)
    (x.map fun r => r.map fun _ => (0 : ℝ), List.replicate x.length 0)).map (·.2)

/-- `bps(E, testangles, symbols, N)`, pythran_dsp.py:45-85. -/
noncomputable def bpsIdx (E : List ℂ) (angles : List (List ℝ)) (symbols : List ℂ) (N : Nat) : Option (List Nat) := do
  let d ← bpsDists E angles symbols
  selectAngleIndex d (2 * N)

/-- `np.min` of a list of reals; `none` (ValueError) if empty. -/
noncomputable def listMin (l : List ℝ) : Option ℝ := l.min?

/-- Running sums of the rows of a matrix, `np.cumsum(dist, axis=0)`. -/
noncomputable def cumsumRows : List ℝ → List (List ℝ) → List (List ℝ)
  | _, [] => []
  | acc, r :: l => List.zipWith (· + ·) acc r :: cumsumRows (List.zipWith (· + ·) acc r) l

/-- `_bps_idx_py(E, angles, symbols, N)`, phaserecovery.py:81-91, for one row of angles. For `N = 0` the slice `csum[:-0]` is empty and the
subtraction raises ValueError unless there is at most one sample. -/
noncomputable def bpsIdxPy (E : List ℂ) (angles : List ℝ) (symbols : List ℂ) (N : Nat) : Except PyErr (List Nat) :=
  match E.mapM (fun e => angles.mapM fun φ : ℝ => listMin (symbols.map fun s => ‖e * Complex.exp (I * (φ : ℂ)) - s‖ ^ 2)) with
  | none => .error .value
  | some dist =>
    if N = 0 then (if E.length ≤ 1 then .ok (List.replicate E.length 0) else .error .value)
    else
      let csum := cumsumRows (List.replicate angles.length 0) dist
      let mvg := List.zipWith (List.zipWith (· - ·)) (csum.drop (2 * N)) (csum.take (csum.length - 2 * N))
      match mvg.mapM Np.argmin with
      | none => .error .value
      | some a => .ok (if E.length ≤ 2 * N then List.replicate E.length 0
                       else List.replicate N 0 ++ a ++ List.replicate N 0)

/-- `select_angles(angles, idx)`, pythran_dsp.py:137-153; `none` is an access outside of an array. -/
def selectAngles {α : Type _} (angles : List (List α)) (idx : List Nat) : Option (List α) :=
  if 1 < angles.length then
    (List.range angles.length).mapM fun i => do
      let r ← angles[i]?
      let k ← idx[i]?
      r[k]?
  else
    idx.mapM fun k => do
      let r ← angles[0]?
      r[k]?

/-- `np.linspace(-π/4, π/4, M, endpoint=False)`, phaserecovery.py:148. -/
noncomputable def testAngles (M : Nat) : List ℝ :=
  (List.range M).map fun j : Nat => -Real.pi / 4 + j * (Real.pi / 2 / M)

/-- `np.unwrap(ph*4)/4` -/
noncomputable def unwrap4 (ph : List ℝ) : List ℝ := (unwrap (ph.map (· * 4))).map (· / 4)

/-- `ph[N:-N] = np.unwrap(ph[N:-N]*4)/4`, phaserecovery.py:157 (an empty slice if `N = 0` or `2N ≥ len`). -/
noncomputable def unwrapInner (ph : List ℝ) (N : Nat) : List ℝ :=
  if N = 0 ∨ ph.length ≤ 2 * N then ph
  else ph.take N ++ unwrap4 ((ph.drop N).take (ph.length - 2 * N)) ++ ph.drop (ph.length - N)

/-- `E*np.exp(1.j*ph)` -/
noncomputable def rotateBy (E : List ℂ) (ph : List ℝ) : List ℂ :=
  List.zipWith (fun (e : ℂ) (p : ℝ) => e * Complex.exp (I * ((p : ℝ) : ℂ))) E ph

/-- `bps(E, Mtestangles, symbols, N, method="pyt")` for one mode, phaserecovery.py:93-161: the compensated field and the phase. -/
noncomputable def bps (E : List ℂ) (M : Nat) (symbols : List ℂ) (N : Nat) : Option (List ℂ × List ℝ) := do
  let idx ← bpsIdx E [testAngles M] symbols N
  let ph ← selectAngles [testAngles M] idx
  some (rotateBy E (unwrapInner ph N), unwrapInner ph N)

/-- `np.linspace(-B/2, B/2, B)`, phaserecovery.py:270. -/
noncomputable def stageTwoOffsets (B : Nat) : List ℝ :=
  (List.range B).map fun k : Nat => if B = 1 then -(B : ℝ) / 2 else -(B : ℝ) / 2 + k * ((B : ℝ) / ((B : ℝ) - 1))

/-- The test angles of the second stage, phaserecovery.py:271: one row per sample. -/
noncomputable def stageTwoAngles (ph : List ℝ) (M B : Nat) : List (List ℝ) :=
  ph.map fun p => (stageTwoOffsets B).map fun b => p + b / (B * M) * Real.pi / 2

/-- `bps_twostage(E, Mtestangles, symbols, N, B, method="pyt")` for one mode, phaserecovery.py:217-281. -/
noncomputable def bpsTwostage (E : List ℂ) (M : Nat) (symbols : List ℂ) (N B : Nat) : Option (List ℂ × List ℝ) := do
  let idx ← bpsIdx E [testAngles M] symbols N
  let ph ← selectAngles [testAngles M] idx
  let phn := stageTwoAngles ph M B
  let idx2 ← bpsIdx E phn symbols N
  let phf ← selectAngles phn idx2
  some (rotateBy E (unwrap4 phf), unwrap4 phf)

/-! ### Viterbi-Viterbi -/

/-- `viterbiviterbi(E, N, M)` for one mode, phaserecovery.py:42-79: the field and the phase estimate. Samples outside of the averaging
window stay zero. `N` and `M` are naturals. -/
noncomputable def viterbiviterbi (E : List ℂ) (N M : Nat) : Except PyErr (List ℂ × List ℝ) :=
  match segmentAxis (E.map fun e => Complex.exp (I * ((Complex.arg e : ℝ) : ℂ)) ^ M) N ((N : Int) - 1) .cut 0 with
  | .error x => .error x
  | .ok sa =>
    let ph := (unwrap (sa.map fun f => Complex.arg f.sum)).map fun p => (p - Real.pi) / M
    let a := if N % 2 = 1 then (N - 1) / 2 else N / 2 - 1
    let b := if N % 2 = 1 then E.length - (N - 1) / 2 else E.length - N / 2
    .ok (List.replicate a 0 ++ rotateBy ((E.take b).drop a) (ph.map (- ·)) ++ List.replicate (E.length - b) 0, ph)

/-! ### Frequency offset -/

/-- `add_carrier_offset(sig, fo, fs)` for one mode, core/impairments.py:235-257. -/
noncomputable def addCarrierOffset (sig : List ℂ) (fo fs : ℝ) : List ℂ :=
  sig.mapIdx fun (n : Nat) x => x * Complex.exp (I * ((2 * Real.pi * n * fo / fs : ℝ) : ℂ))

/-- `comp_freq_offset(sig, freq_offset, os)`, phaserecovery.py:435-473: the offset of mode `l` is `freq_offset[l]` (IndexError if there is
none), time starts at one. -/
noncomputable def compFreqOffset (sig : List (List ℂ)) (fo : List ℝ) (os : ℝ) : Except PyErr (List (List ℂ)) :=
  (List.range sig.length).mapM fun l =>
    match sig[l]?, fo[l]? with
    | some r, some f => .ok (r.mapIdx fun (n : Nat) x =>
        x * Complex.exp (-(I * ((2 * Real.pi * ((n : ℝ) + 1) * f / os : ℝ) : ℂ))))
    | _, _ => .error .index

/-- `np.fft.fft(x, F)`, element `m`: the first `F` samples, padded by zeros (exact sum). -/
noncomputable def dftPad (x : List ℂ) (F : Nat) (m : Nat) : ℂ :=
  ∑ n ∈ Finset.range F, x.getD n 0 * Complex.exp (-(I * ((2 * Real.pi * n * m / F : ℝ) : ℂ)))

/-- `np.fft.fftfreq(F, 1/os)`, element `m`. -/
noncomputable def fftfreq (F : Nat) (os : ℝ) (m : Nat) : ℝ :=
  (if m < (F + 1) / 2 then (m : ℝ) else (m : ℝ) - F) * os / F

/-- The frequency found for one mode in `find_freq_offset`, phaserecovery.py:418-428. -/
noncomputable def freqOffsetMode (x : List ℂ) (os : ℝ) (F : Nat) : Option ℝ :=
  (Np.argmax ((List.range F).map fun m => ‖dftPad (x.map (· ^ 4)) F m‖ ^ 2)).map fun m => fftfreq F os m / 4

/-- `find_freq_offset(sig, os, average_over_modes, fft_size)`, phaserecovery.py:388-433. The size is rounded up to a power of two
(411-412). -/
noncomputable def findFreqOffset (sig : List (List ℂ)) (os : ℝ) (average : Bool) (fftSize : Nat) : Option (List ℝ) := do
  let f ← sig.mapM fun x => freqOffsetMode x os (2 ^ Nat.clog 2 fftSize)
  some (if average then f.map fun _ => f.sum / f.length else f)

/-! ### Pilot based phase recovery -/

/-- `np.angle(ref.conj()*rec)` unwrapped, pilotbased_receiver.py:312 and phaserec.py:217. -/
noncomputable def pilotPhase (ref rec : List ℂ) : List ℝ :=
  unwrap (List.zipWith (fun p r => Complex.arg ((starRingEnd ℂ) p * r)) ref rec)

/-- The positions of the used pilots, pilotbased_receiver.py:298-304. -/
def cpePilotIdx (pilotIdx : List Nat) (frameLen nframes ratio nlen : Nat) (maxBlocks : Option Nat) : List Nat :=
  let idx := Np.strided (match maxBlocks with
    | none => pilotIdx
    | some m => pilotIdx.take m) ratio
  ((List.range nframes).flatMap fun f => idx.map fun i => i + f * frameLen).filter fun i => decide (i < nlen)

/-- One mode of `pilot_based_cpe_new`, pilotbased_receiver.py:305-326, for an already odd `num_average` and the full index list. -/
noncomputable def cpeMode (signal pilots : List ℂ) (idx : List Nat) (numAverage nlen nkeep ratio nframes : Nat) :
    Except PyErr (List ℂ × List ℝ) := do
  let rec_ ← fancyIndex idx signal
  let ref := (Np.tile (Np.strided pilots ratio) nframes).take rec_.length
  if rec_.length ≠ ref.length then throw .assertion
  if ¬ ref.length ≥ numAverage then throw .assertion
  let adj := (numAverage - 1) / 2
  let avg ← (movingAverage (pilotPhase ref rec_) numAverage).elim (.error .value) .ok
  let idxAvg := (idx.drop adj).take (idx.length - 2 * adj)
  if idxAvg.length ≠ avg.length then throw .assertion
  let trace ← (List.range nlen).mapM fun n : Nat =>
    (interp n (List.zip (idxAvg.map fun i : Nat => (i : ℝ)) avg)).elim (.error .value) .ok
  return ((rotateBy (signal.take nlen) (trace.map (- ·))).take nkeep, trace.take nkeep)

/-- `pilot_based_cpe_new(signal, pilot_symbs, pilot_idx, frame_len, ...)`, pilotbased_receiver.py:258-327. All modes of a signal have the same
length, `L` is `signal.shape[-1]`; `seq_len` is not used by the code. `ratio ≥ 1`. -/
noncomputable def pilotBasedCpe (signal pilots : List (List ℂ)) (L : Nat) (pilotIdx : List Nat) (frameLen numAverage ratio : Nat)
    (maxBlocks : Option Nat) (nframes : Nat) : Except PyErr (List (List ℂ × List ℝ)) :=
  if ¬ numAverage > 1 then .error .assertion
  else if signal.length ≠ pilots.length then .error .assertion
  else
    let numAverage := if numAverage % 2 = 0 then numAverage + 1 else numAverage
    let nlen := min (frameLen * nframes) L
    let idx := cpePilotIdx pilotIdx frameLen nframes ratio nlen maxBlocks
    (signal.zip pilots).mapM fun p => cpeMode p.1 p.2 idx numAverage nlen (nframes * frameLen) ratio nframes

/-- `find_pilot_const_phase(rec_pilots, ref_pilots)` for one mode, qampy/phaserec.py:194-218. -/
noncomputable def findPilotConstPhase (rec_ ref : List ℂ) : ℝ := (pilotPhase ref rec_).sum / (pilotPhase ref rec_).length

/-- `correct_pilot_const_phase(signal, phase_offsets)`, qampy/phaserec.py:220-238; `phase_offsets` has shape `(nmodes, 1)`, the
result shape of `find_pilot_const_phase`, and is written here as the list of its rows. -/
noncomputable def correctPilotConstPhase (signal : List (List ℂ)) (ph : List ℝ) : Except PyErr (List (List ℂ)) :=
  if signal.length ≠ ph.length then .error .assertion
  else .ok (List.zipWith (fun (r : List ℂ) (p : ℝ) => r.map fun x => x * Complex.exp (-(I * ((p : ℝ) : ℂ)))) signal ph)

end Qampy
