import Verif.Model.Pilots
import Verif.Model.Constellation
import Mathlib.Analysis.RCLike.Basic
import Mathlib.Data.List.Sort

/-!
Model of the adaptive equaliser: qampy/core/equalisation/pythran_equalisation.py (compiled) and the Python driver
qampy/core/equalisation/equalisation.py.

The compiled code is built with `-DNDEBUG` and does not check indices: every array access of the model is partial,
`none` is an access outside the array. Two dimensional arrays are lists of rows.
-/

namespace Qampy

open Complex

/-- Element `a[k, i]`; `none` outside the array. -/
def at2 {α : Type _} (a : List (List α)) (k i : Nat) : Option α := (a[k]?).bind fun r => r[i]?

/-- `E[:, a:a+n]` (slices are cut at the end of the array). -/
def window {α : Type _} (E : List (List α)) (a n : Nat) : List (List α) := E.map fun r => (r.drop a).take n

section generic
variable {K : Type} [RCLike K]

/-- `apply_filter(E, wx)`, pythran_equalisation.py:24-31; `pols = E.shape[0]`, `Ntaps = wx.shape[1]` is passed. -/
def applyFilter (E wx : List (List K)) (ntaps : Nat) : Option K :=
  (List.range E.length).foldlM (fun acc k =>
    (List.range ntaps).foldlM (fun acc i => do
      let e ← at2 E k i
      let w ← at2 wx k i
      some (acc + e * w)) acc) 0

/-- `apply_filter_to_signal(E, os, wx, modes)`, pythran_equalisation.py:37-76. `L = E.shape[1]` and `Ntaps = wx.shape[-1]` are
passed; `modes=None` is the list `0..wx.shape[0]-1`. The number of output samples is `(L-Ntaps+1)//os`; a negative value makes
`np.zeros` raise, here the outer `none`. `os > 0` is asserted in the source; with assertions compiled out `os = 0` is a division
by zero, also `none`. -/
def applyFilterToSignal (E : List (List K)) (L os : Nat) (wx : List (List (List K))) (ntaps : Nat) (modes : List Nat) :
    Option (List (List K)) :=
  if os = 0 ∨ (L : Int) - ntaps + 1 < 0 then none
  else
    let N := ((((L : Int) - ntaps + 1)) / os).toNat
    modes.mapM fun m => do
      let w ← wx[m]?
      (List.range N).mapM fun i => applyFilter (window E (i * os) ntaps) w ntaps

/-- State of the training loop of one mode: taps `wx[mode]`, step size, the errors so far (newest first). -/
structure TrainState (K : Type) where
  w : List (List K)
  mu : ℝ
  errs : List K

/-- `wx[mode] += mu * err * np.conj(X)`, pythran_equalisation.py:170 (and 105 for real fields, where `star` is the identity).
The shapes have to agree, otherwise elements outside of an array are touched (`none`). -/
def updateTaps (w X : List (List K)) (c : K) : Option (List (List K)) :=
  if w.length = X.length ∧ ∀ p ∈ w.zip X, p.1.length = p.2.length then
    some (List.zipWith (List.zipWith fun a x => a + c * star x) w X)
  else none

/-- `if adaptive and i > 0: mu = adapt_step(mu, err, err_prev)`, pythran_equalisation.py:171-172 (106-107). -/
def nextMu (adapt : ℝ → K → K → ℝ) (adaptive : Bool) (mu : ℝ) (err : K) (errs : List K) (i : Nat) : Option ℝ :=
  if adaptive && decide (0 < i) then (errs.head?).map fun prev => adapt mu err prev else some mu

/-- One pass of the loop body, pythran_equalisation.py:166-172 (102-107). `errf Xest symbs i` is the error function, `adapt mu err
err_prev` the step size function; the previous error is the newest one in the state. -/
def trainStep (errf : K → List K → Nat → Option K) (adapt : ℝ → K → K → ℝ) (adaptive : Bool) (E : List (List K))
    (os ntaps : Nat) (symbs : List K) (st : TrainState K) (i : Nat) : Option (TrainState K) := do
  let X := window E (i * os) ntaps
  let xest ← applyFilter X st.w ntaps
  let err ← errf xest symbs i
  let w ← updateTaps st.w X ((st.mu : K) * err)
  let mu ← nextMu adapt adaptive st.mu err st.errs i
  some { w := w, mu := mu, errs := err :: st.errs }

/-- The two inner loops for one mode, pythran_equalisation.py:164-172 (100-107). -/
def trainMode (errf : K → List K → Nat → Option K) (adapt : ℝ → K → K → ℝ) (adaptive : Bool) (E : List (List K))
    (trSyms nIter os ntaps : Nat) (symbs : List K) (w : List (List K)) (mu : ℝ) : Option (TrainState K) :=
  (List.range nIter).foldlM (fun st _ => (List.range trSyms).foldlM (trainStep errf adapt adaptive E os ntaps symbs) st)
    { w := w, mu := mu, errs := [] }

/-- The result of a training run: error array (row per mode), taps, step size. -/
structure TrainResult (K : Type) where
  err : List (List K)
  wx : List (List (List K))
  mu : ℝ

/-- `train_equaliser` / `train_equaliser_realvalued`, pythran_equalisation.py:130-173 and 80-108, after the choice of the error
function. The modes are processed in the order of `modes`; the step size variable `mu` is shared: a mode starts with the
final value of the previous mode (the omp directive is ignored, i.e. the sequential program is modelled). `TrSyms` is a natural number, a
negative one makes `np.zeros` raise. Modes that are not trained keep a zero error row. -/
def trainEqualiser (errf : K → List K → Nat → Option K) (adapt : ℝ → K → K → ℝ) (adaptive : Bool) (E : List (List K))
    (trSyms nIter os : Nat) (mu : ℝ) (wx : List (List (List K))) (ntaps : Nat) (modes : List Nat) (symbols : List (List K)) :
    Option (TrainResult K) :=
  modes.foldlM (fun r mode => do
    let w ← r.wx[mode]?
    let symbs ← symbols[mode]?
    let st ← trainMode errf adapt adaptive E trSyms nIter os ntaps symbs w r.mu
    some { err := r.err.set mode st.errs.reverse, wx := r.wx.set mode st.w, mu := st.mu })
    { err := List.replicate E.length (List.replicate (trSyms * nIter) 0), wx := wx, mu := mu }

end generic

/-! ### Step size -/

/-- `adapt_step`, pythran_equalisation.py:12-16; arguments in the order of the definition. -/
noncomputable def adaptStep (mu : ℝ) (errP err : ℂ) : ℝ :=
  if err.re * errP.re > 0 ∧ err.im * errP.im > 0 then mu else mu / (1 + mu * (err.re * err.re + err.im * err.im))

/-- `adapt_step_real`, pythran_equalisation.py:18-22. -/
noncomputable def adaptStepReal (mu : ℝ) (errP err : ℝ) : ℝ :=
  if err * errP > 0 then mu else mu / (1 + mu * (err * err))

/-! ### Error functions -/

/-- `partition_value(signal, partitions, codebook, fct)`, pythran_equalisation.py:4-9, for lists already mapped by `fct`. -/
noncomputable def partitionIndex (signal : ℝ) : List ℝ → Nat
  | [] => 0
  | p :: ps => if signal > p then partitionIndex signal ps + 1 else 0

noncomputable def partitionValue (signal : ℝ) (partitions codebook : List ℝ) : Option ℝ :=
  codebook[partitionIndex signal partitions]?

/-- `det_symbol(X, symbs)`, pythran_equalisation.py:240-265: linear search starting with symbol `1` and squared distance 1000. -/
noncomputable def detSymbolGo (X : ℂ) : List ℂ → ℂ → ℝ → ℂ × ℝ
  | [], s, d0 => (s, d0)
  | c :: cs, s, d0 => if ‖X - c‖ ^ 2 < d0 then detSymbolGo X cs c (‖X - c‖ ^ 2) else detSymbolGo X cs s d0

noncomputable def detSymbol (X : ℂ) (symbs : List ℂ) : ℂ × ℝ := detSymbolGo X symbs 1 1000

/-- `cma_error`, pythran_equalisation.py:178-180. -/
noncomputable def cmaError (x : ℂ) (s1 : List ℂ) (_ : Nat) : Option ℂ := do
  let s ← s1[0]?
  some (((s.re - ‖x‖ ^ 2 : ℝ) : ℂ) * x)

/-- `cma2_error`, pythran_equalisation.py:182-184. -/
noncomputable def cma2Error (x : ℂ) (s1 : List ℂ) (_ : Nat) : Option ℂ := do
  let s ← s1[0]?
  some ((s - x ^ 2) * x)

/-- `sgncma_error`, pythran_equalisation.py:186-188 (not used by `train_equaliser`). The sign of the complex number
`s1[0] - abs(Xest)**2` is numpy's: the sign of the real part, or of the imaginary part if the real part is zero. -/
noncomputable def sgncmaError (x : ℂ) (s1 : List ℂ) (_ : Nat) : Option ℂ := do
  let s ← s1[0]?
  let d : ℝ := if s.re - ‖x‖ ^ 2 ≠ 0 then SignType.sign (s.re - ‖x‖ ^ 2) else SignType.sign s.im
  some ((d : ℂ) * (((SignType.sign x.re : ℝ) : ℂ) + Complex.I * ((SignType.sign x.im : ℝ) : ℂ)))

/-- `mcma_error`, pythran_equalisation.py:190-194. -/
noncomputable def mcmaError (x : ℂ) (s1 : List ℂ) (_ : Nat) : Option ℂ := do
  let s ← s1[0]?
  some ⟨(s.re - x.re ^ 2) * x.re, (s.im - x.im ^ 2) * x.im⟩

/-- `np.array_split(symbs, 2)`: the first part has the extra element. -/
def arraySplit2 {α : Type _} (l : List α) : List α × List α := (l.take ((l.length + 1) / 2), l.drop ((l.length + 1) / 2))

/-- `rde_error`, pythran_equalisation.py:196-200. -/
noncomputable def rdeError (x : ℂ) (symbs : List ℂ) (_ : Nat) : Option ℂ := do
  let (codebook, partition) := arraySplit2 symbs
  let r ← partitionValue (‖x‖ ^ 2) (partition.map re) (codebook.map re)
  some (x * ((r - ‖x‖ ^ 2 : ℝ) : ℂ))

/-- `mrde_error`, pythran_equalisation.py:203-210. -/
noncomputable def mrdeError (x : ℂ) (symbs : List ℂ) (_ : Nat) : Option ℂ := do
  let (codebook, partition) := arraySplit2 symbs
  let rr ← partitionValue (x.re ^ 2) (partition.map re) (codebook.map re)
  let ri ← partitionValue (x.im ^ 2) (partition.map im) (codebook.map im)
  some ⟨(rr - x.re ^ 2) * x.re, (ri - x.im ^ 2) * x.im⟩

/-- `sbd_error`, pythran_equalisation.py:213-216. -/
noncomputable def sbdError (x : ℂ) (symbs : List ℂ) (_ : Nat) : Option ℂ :=
  let s := (detSymbol x symbs).1
  some ⟨(s.re - x.re) * |s.re|, (s.im - x.im) * |s.im|⟩

/-- `sbd_data_error`, pythran_equalisation.py:218-222. -/
noncomputable def sbdDataError (x : ℂ) (symbs : List ℂ) (i : Nat) : Option ℂ := do
  let s ← symbs[i]?
  some ⟨(s - x).re * |s.re|, (s - x).im * |s.im|⟩

/-- `mddma_error`, pythran_equalisation.py:224-227. -/
noncomputable def mddmaError (x : ℂ) (symbs : List ℂ) (_ : Nat) : Option ℂ :=
  let s := (detSymbol x symbs).1
  some ⟨(s.re ^ 2 - x.re ^ 2) * x.re, (s.im ^ 2 - x.im ^ 2) * x.im⟩

/-- `ddlms_error`, pythran_equalisation.py:229-231. -/
noncomputable def ddlmsError (x : ℂ) (symbs : List ℂ) (_ : Nat) : Option ℂ := some ((detSymbol x symbs).1 - x)

/-- The error functions of `train_equaliser` by method name, pythran_equalisation.py:131-152; `none` is ValueError. -/
noncomputable def errorFct : String → Option (ℂ → List ℂ → Nat → Option ℂ)
  | "mcma" => some mcmaError
  | "sgncma" => some cmaError
  | "cma2" => some cma2Error
  | "cma" => some cmaError
  | "sbd" => some sbdError
  | "rde" => some rdeError
  | "mrde" => some mrdeError
  | "mddma" => some mddmaError
  | "dd" => some ddlmsError
  | "sbd_data" => some sbdDataError
  | _ => none

/-- `cma_error_real`, pythran_equalisation.py:110-112. -/
noncomputable def cmaErrorReal (x : ℝ) (s1 : List ℝ) (_ : Nat) : Option ℝ := do
  let s ← s1[0]?
  some ((s - |x| ^ 2) * x)

/-- `sgncma_error_real`, pythran_equalisation.py:114-116. -/
noncomputable def sgncmaErrorReal (x : ℝ) (s1 : List ℝ) (_ : Nat) : Option ℝ := do
  let s ← s1[0]?
  some ((SignType.sign (s - |x| ^ 2) : ℝ) * (SignType.sign x : ℝ))

/-- `dd_error_real`, pythran_equalisation.py:118-120, with `det_symbol_argmin` (233-236) on real symbols. -/
noncomputable def ddErrorReal (x : ℝ) (symbs : List ℝ) (_ : Nat) : Option ℝ := do
  let j ← Np.argmin (symbs.map fun s => |x - s|)
  let s ← symbs[j]?
  some ((s - x) * |s|)

/-- `dd_data_error_real`, pythran_equalisation.py:122-125. -/
noncomputable def ddDataErrorReal (x : ℝ) (symbs : List ℝ) (i : Nat) : Option ℝ := do
  let s ← symbs[i]?
  some ((s - x) * |s|)

/-- The error functions of `train_equaliser_realvalued` by method name (without the suffix `_real`),
pythran_equalisation.py:80-90; `none` is ValueError. -/
noncomputable def errorFctReal : String → Option (ℝ → List ℝ → Nat → Option ℝ)
  | "cma" => some cmaErrorReal
  | "dd" => some ddErrorReal
  | "dd_data" => some ddDataErrorReal
  | "sgncma" => some sgncmaErrorReal
  | _ => none

/-! ### Python driver -/

/-- `_cal_training_symbol_len(os, ntaps, L)`, equalisation.py:361-362; ZeroDivisionError (`none`) for zero arguments. -/
def calTrainingSymbolLen (os ntaps L : Nat) : Option Int :=
  if os = 0 ∨ ntaps = 0 then none else some ((((L / os / ntaps : Nat) : Int) - 1) * ntaps)

/-- `_init_taps(Ntaps, nmodes, nmodes2, dtype)`, equalisation.py:364-373, for `nmodes2 = nmodes` (the only use, 536):
the unit tap of output mode `m` is at input mode `m`, tap `Ntaps // 2`. -/
def initTaps {K : Type} [Zero K] [One K] (ntaps nmodes : Nat) : List (List (List K)) :=
  (List.range nmodes).map fun m => (List.range nmodes).map fun k => (List.range ntaps).map fun i =>
    if k = m ∧ i = ntaps / 2 then 1 else 0

/-- `_convert_sig_to_real`, equalisation.py:253-257. -/
def convertSigToReal (E : List (List ℂ)) : List (List ℝ) := E.map (·.map re) ++ E.map (·.map im)

/-- `_convert_sig_to_cmplx(E, modes)`, equalisation.py:259-260; ValueError (`none`) if the two halves do not have the same number of
rows (broadcasting of a single row is not modelled). -/
noncomputable def convertSigToCmplx (E : List (List ℝ)) (modes : Nat) : Option (List (List ℂ)) :=
  let a := E.take (modes / 2)
  let b := E.drop (modes / 2)
  if a.length = b.length then some (List.zipWith (List.zipWith fun x y => (⟨x, y⟩ : ℂ)) a b) else none

/-- `orthogonalizetaps(wx)`, equalisation.py:284-309. -/
def orthogonalizetaps (wx : List (List ℂ)) : List (List ℂ) := (wx.reverse).map fun r => r.reverse.map star

/-- `np.unique` of a real array: sorted without repetitions. -/
noncomputable def uniqueReal (l : List ℝ) : List ℝ := l.dedup.insertionSort (· ≤ ·)

/-- `codes[:-1] + np.diff(codes)/2`, equalisation.py:333-335 and 358: the midpoints of consecutive codes. -/
noncomputable def midpoints : List ℝ → List ℝ
  | a :: b :: l => (a + (b - a) / 2) :: midpoints (b :: l)
  | _ => []

/-- `generate_partition_codes_radius(M)`, equalisation.py:338-359, for the scaled constellation `syms`; `abs(s)**4/abs(s)**2` is
`abs(s)**2` because no constellation point is zero. -/
noncomputable def partitionCodesRadius (syms : List ℂ) : List ℂ :=
  let codes := uniqueReal (syms.map fun s => ‖s‖ ^ 2)
  (codes ++ midpoints codes).map Complex.ofReal

/-- numpy addition of two one dimensional arrays: lengths equal, or one of them one (broadcast); `none` is ValueError. -/
def broadcastZip {α β γ : Type _} (f : α → β → γ) (a : List α) (b : List β) : Option (List γ) :=
  if a.length = b.length then some (List.zipWith f a b)
  else match a, b with
    | [x], b => some (b.map (f x))
    | a, [y] => some (a.map fun x => f x y)
    | _, _ => none

/-- `generate_partition_codes_complex(M)`, equalisation.py:311-336, for the scaled constellation `syms`. -/
noncomputable def partitionCodesComplex (syms : List ℂ) : Option (List ℂ) := do
  let symsR := uniqueReal (syms.map fun s => s.re ^ 2)
  let symsI := uniqueReal (syms.map fun s => s.im ^ 2)
  let codes ← broadcastZip (fun x y => (⟨x, y⟩ : ℂ)) symsR symsI
  let parts ← broadcastZip (fun x y => (⟨x, y⟩ : ℂ)) (midpoints symsR) (midpoints symsI)
  some (codes ++ parts)

end Qampy
