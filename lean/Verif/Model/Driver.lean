import Verif.Model.Equaliser

/-!
Model of the drivers of the adaptive equaliser: symbol generation and shaping, `equalise_signal` and `dual_mode_equalisation` of
core/equalisation/equalisation.py, the choice of symbols in qampy/equalisation.py, the loop over frames of `pilot_equaliser_nframes`.
-/

namespace Qampy

open Complex

/-! ### Constants and symbols -/

/-- `np.mean` of a real array. -/
noncomputable def meanReal (l : List ℝ) : ℝ := l.sum / l.length

/-- `_cal_Rconstant(M)`, core/equalisation/equalisation.py:271-275, for the scaled constellation `syms`. -/
noncomputable def rConstant (syms : List ℂ) : ℝ := meanReal (syms.map fun s => ‖s‖ ^ 4) / meanReal (syms.map fun s => ‖s‖ ^ 2)

/-- `_cal_Rconstant_complex(M)`, core/equalisation/equalisation.py:277-281. -/
noncomputable def rConstantComplex (syms : List ℂ) : ℂ :=
  ⟨meanReal (syms.map fun s => s.re ^ 4) / meanReal (syms.map fun s => s.re ^ 2), meanReal (syms.map fun s => s.im ^ 4) / meanReal (syms.map fun s => s.im ^ 2)⟩

/-- `generate_symbols_for_eq(method, M, dtype)`, core/equalisation/equalisation.py:101-136, complex valued methods; `syms` is `cal_symbols_qam(M)/sqrt(cal_scaling_factor_qam(M))`. -/
noncomputable def generateSymbols (method : String) (syms : List ℂ) : Except PyErr (List (List ℂ)) :=
  if method = "cma" ∨ method = "cma2" ∨ method = "sgncma" then .ok [[(rConstant syms : ℂ)]]
  else if method = "mcma" then .ok [[rConstantComplex syms]]
  else if method = "rde" then .ok [partitionCodesRadius syms]
  else if method = "mrde" then
    match partitionCodesComplex syms with
    | some p => .ok [p]
    | none => .error .value
  else if method = "sbd" ∨ method = "mddma" ∨ method = "dd" then .ok [syms]
  else .error .value

/-- `generate_symbols_for_eq`, core/equalisation/equalisation.py:125-136, real valued methods. -/
noncomputable def generateSymbolsReal (method : String) (syms : List ℂ) : Except PyErr (List (List ℝ)) :=
  if method = "sgncma_real" ∨ method = "cma_real" then .ok [[(rConstantComplex syms).re], [(rConstantComplex syms).re]]
  else if method = "dd_real" then .ok [syms.map re, syms.map im]
  else .error .value

/-- `NONDECISION_BASED`, core/equalisation/equalisation.py:90. -/
def nonDecision : List String := ["cma", "cma2", "mcma", "rde", "mrde", "cma_real", "sgncma_real", "sgncma"]

/-- `DATA_AIDED`, core/equalisation/equalisation.py:96. -/
def dataAided : List String := ["dd_data_real", "sbd_data"]

/-- `_reshape_symbols`, core/equalisation/equalisation.py:569-570: the generated symbols `gen` replace missing ones, and given ones for the methods without decisions. -/
def selectSymbols {α : Type} (gen : Except PyErr α) (symbols : Option α) (method : String) : Except PyErr α :=
  match symbols with
  | none => gen
  | some s => if method ∈ nonDecision then gen else .ok s

/-- `_reshape_symbols(symbols, method, M, dtype, nmodes)`, core/equalisation/equalisation.py:568-578, complex valued methods; `gen` is the result of
`generate_symbols_for_eq`. A one dimensional array is a single row. -/
def reshapeSymbols {α : Type} (gen : Except PyErr (List (List α))) (symbols : Option (List (List α))) (method : String) (nmodes : Nat) : Except PyErr (List (List α)) := do
  let s ← selectSymbols gen symbols method
  match s with
  | [row] => .ok (List.replicate nmodes row)
  | _ => if s.length ≠ nmodes then .error .value else .ok s

/-- A symbol array passed to a real valued method. -/
inductive SymArray where
  | cplx (rows : List (List ℂ))
  | real (rows : List (List ℝ))

/-- `_reshape_symbols`, core/equalisation/equalisation.py:568-570, 579-594, real valued methods; `nmodes` is the number of real rows. -/
def reshapeSymbolsReal (gen : Except PyErr (List (List ℝ))) (symbols : Option SymArray) (method : String) (nmodes : Nat) : Except PyErr (List (List ℝ)) := do
  let s ← selectSymbols (gen.map SymArray.real) symbols method
  match s with
  | .cplx [row] => .ok (List.replicate (nmodes / 2) (row.map re) ++ List.replicate (nmodes / 2) (row.map im))
  | .cplx rows => if rows.length = nmodes / 2 then .ok (rows.map (·.map re) ++ rows.map (·.map im)) else .error .value
  | .real rows =>
    if 2 < nmodes then
      match rows with
      | [a, b] => .ok (List.replicate (nmodes / 2) a ++ List.replicate (nmodes / 2) b)
      | _ => if rows.length ≠ nmodes then .error .value else .ok rows
    else if rows.length ≠ nmodes then .error .value else .ok rows

/-! ### Drivers -/

/-- The modes to equalise, core/equalisation/equalisation.py:525-534 for complex methods: all, or the given ones after the check `np.max(modes) < nmodes`
(`np.max` of an empty array raises ValueError). -/
def chooseModes (modes : Option (List Nat)) (nmodes : Nat) : Except PyErr (List Nat) :=
  match modes with
  | none => .ok (List.range nmodes)
  | some ms => if ms = [] then .error .value else if ms.all (fun m => decide (m < nmodes)) then .ok ms else .error .assertion

/-- The starting taps, core/equalisation/equalisation.py:535-541; `ntaps` is the last dimension of given taps. `wxy[i, i, Ntaps//2] = 1` raises IndexError for zero taps. -/
def startTaps {K : Type} [Zero K] [One K] (wxy : Option (List (List (List K)))) (ntaps nmodes : Nat) : Except PyErr (List (List (List K))) :=
  match wxy with
  | none => if ntaps = 0 ∧ 0 < nmodes then .error .index else .ok (initTaps ntaps nmodes)
  | some w => if w.length = nmodes ∧ w.all (fun v => decide (v.length = nmodes)) then .ok w else .error .assertion

/-- The number of training symbols, core/equalisation/equalisation.py:542-543; the allocation of the error array raises ValueError for a negative number. -/
def trainingLen (trSyms : Option Int) (os ntaps L : Nat) : Except PyErr Nat := do
  let t ← match trSyms with
    | some t => .ok t
    | none => match calTrainingSymbolLen os ntaps L with
      | some t => .ok t
      | none => .error .zeroDiv
  if t < 0 then .error .value else .ok t.toNat

/-- `equalise_signal(E, os, mu, M, wxy, Ntaps, TrSyms, Niter, method, adaptive_stepsize, symbols, modes, apply=False)`, core/equalisation/equalisation.py:515-556, for a complex
valued method in lower case; `L = E.shape[1]`, `syms` is the scaled constellation. The inner `none` is an access outside of an array in the compiled code. -/
noncomputable def equaliseSignal (syms : List ℂ) (E : List (List ℂ)) (L os : Nat) (mu : ℝ) (wxy : Option (List (List (List ℂ)))) (ntaps : Nat) (trSyms : Option Int) (nIter : Nat)
    (method : String) (adaptive : Bool) (symbols : Option (List (List ℂ))) (modes : Option (List Nat)) : Except PyErr (Option (TrainResult ℂ)) := do
  let ms ← chooseModes modes E.length
  let wx ← startTaps wxy ntaps E.length
  let tr ← trainingLen trSyms os ntaps L
  let s ← reshapeSymbols (generateSymbols method syms) symbols method E.length
  match errorFct method with
  | none => .error .value
  | some errf => .ok (trainEqualiser errf adaptStep adaptive E tr nIter os mu wx ntaps ms s)

/-- `equalise_signal(..., apply=True)`, core/equalisation/equalisation.py:557-566: equalised signal and training result. -/
noncomputable def equaliseSignalApply (syms : List ℂ) (E : List (List ℂ)) (L os : Nat) (mu : ℝ) (wxy : Option (List (List (List ℂ)))) (ntaps : Nat) (trSyms : Option Int) (nIter : Nat)
    (method : String) (adaptive : Bool) (symbols : Option (List (List ℂ))) (modes : Option (List Nat)) : Except PyErr (Option (List (List ℂ) × TrainResult ℂ)) := do
  let ms ← chooseModes modes E.length
  let r ← equaliseSignal syms E L os mu wxy ntaps trSyms nIter method adaptive symbols modes
  return r.bind fun r => (applyFilterToSignal E L os r.wx ntaps ms).map fun out => (out, r)

/-- The symbol argument of `dual_mode_equalisation`: nothing, an array of up to two dimensions, a three dimensional array. -/
inductive DualSymbols (α : Type) where
  | none
  | d2 (rows : List (List α))
  | d3 (stages : List (List (List α)))

/-- The symbols of the two stages, core/equalisation/equalisation.py:453-456. `np.atleast_1d(None)` is an array with the single element `None`, which is repeated like any other array
and becomes nan when it is converted to a complex array (572); nan is `none` here. -/
def dualStageSymbols {α : Type} (symbols : DualSymbols α) : Except PyErr (List (List (Option α)) × List (List (Option α))) :=
  match symbols with
  | .none => .ok ([[none]], [[none]])
  | .d2 rows => .ok (rows.map (·.map some), rows.map (·.map some))
  | .d3 (a :: b :: _) => .ok (a.map (·.map some), b.map (·.map some))
  | .d3 _ => .error .index

/-- `det_symbol(X, symbs)`, pythran_equalisation.py:240-265, for an alphabet with nan: a comparison with nan is false. -/
noncomputable def detSymbolNan (X : ℂ) : List (Option ℂ) → ℂ → ℝ → ℂ × ℝ
  | [], s, d0 => (s, d0)
  | none :: cs, s, d0 => detSymbolNan X cs s d0
  | some c :: cs, s, d0 => if ‖X - c‖ ^ 2 < d0 then detSymbolNan X cs c (‖X - c‖ ^ 2) else detSymbolNan X cs s d0

/-- The decision inside the errors of "sbd", "mddma" and "dd" (213-231) for an alphabet with nan. -/
noncomputable def decideNan (X : ℂ) (symbs : List (Option ℂ)) : ℂ := (detSymbolNan X symbs 1 1000).1

/-- `dual_mode_equalisation(E, os, mu, M, wxy, Ntaps, TrSyms, Niter, methods, adaptive_stepsize, symbols, modes, apply)`, core/equalisation/equalisation.py:453-466, for given symbols (without nan) of
the two stages. The number of taps of the second stage is that of the taps of the first. -/
noncomputable def dualModeEqualisation (syms : List ℂ) (E : List (List ℂ)) (L os : Nat) (mu : ℝ × ℝ) (wxy : Option (List (List (List ℂ)))) (ntaps : Nat) (trSyms : Option Int × Option Int) (nIter : Nat × Nat)
    (methods : String × String) (adaptive : Bool × Bool) (symbols : List (List ℂ) × List (List ℂ)) (modes : Option (List Nat)) :
    Except PyErr (Option (List (List ℂ) × TrainResult ℂ × TrainResult ℂ)) := do
  let ms ← chooseModes modes E.length
  let r1 ← equaliseSignal syms E L os mu.1 wxy ntaps trSyms.1 nIter.1 methods.1 adaptive.1 (some symbols.1) modes
  match r1 with
  | none => return none
  | some r1 =>
    let r2 ← equaliseSignal syms E L os mu.2 (some r1.wx) ntaps trSyms.2 nIter.2 methods.2 adaptive.2 (some symbols.2) modes
    return r2.bind fun r2 => (applyFilterToSignal E L os r2.wx ntaps ms).map fun out => (out, r1, r2)

/-- The symbols chosen by `dual_mode_equalisation`, qampy/equalisation.py:246-254, when none are given: the loop over the methods overwrites the variable. `coded = none` is a signal without
`coded_symbols`. -/
def frontEndSymbols {α : Type} (methods : List String) (transmitted : α) (coded : Option α) : Option α :=
  methods.foldl (fun _ m => if m ∈ dataAided then some transmitted else coded) none

/-! ### Several frames -/

/-- The frames asked for, qampy/equalisation.py:376-378; all complete frames by default. -/
def framesAsked (L shift os fl : Int) (frames : Option (List Int)) : List Int :=
  match frames with
  | some fs => fs
  | none => (List.range ((L - shift) / (os * fl)).toNat).map fun (i : Nat) => (i : Int)

/-- The frames to equalise and the check that the last one is complete, qampy/equalisation.py:376-380; `shift` is the largest shift factor. The maximum of an empty array raises ValueError. -/
def framesToEqualise (L shift os fl : Int) (frames : Option (List Int)) : Except PyErr (List Int) :=
  if os * fl = 0 ∧ frames = none then .error .zeroDiv
  else match (framesAsked L shift os fl frames).max? with
    | none => .error .value
    | some m => if L - (shift + m * fl * os) > fl * os then .ok (framesAsked L shift os fl frames) else .error .assertion

/-- The loop over the frames, qampy/equalisation.py:384-389; `eq wxinit frame` is the call of `pilot_equaliser`, returning the taps and the rest of the tuple. -/
def framesLoop {τ σ : Type} (eq : Option τ → Int → Except PyErr (τ × σ)) : Option τ → List Int → Except PyErr (List (τ × σ))
  | _, [] => .ok []
  | w, i :: rest => do
    let r ← eq w i
    let rs ← framesLoop eq (if i = 0 then some r.1 else w) rest
    return r :: rs

/-- What `pilot_equaliser` returns, qampy/equalisation.py:326-338: a tuple, the taps alone, or nothing (the last tuple lacks its `return`). -/
inductive PilotReturn where
  | tuple (n : Nat)
  | taps
  | nothing
deriving DecidableEq

def pilotReturn (apply verbose : Bool) : PilotReturn :=
  match apply, verbose with
  | true, true => .tuple 4
  | true, false => .tuple 2
  | false, true => .nothing
  | false, false => .taps

/-- What happens to the return values, qampy/equalisation.py:386-397, for a list of frames: `ret[0]` and `zip(*rets)` raise TypeError for `None`; the first element of an array of
taps is a two dimensional array, which is rejected as starting taps of the next frame (`wxy.ndim == 3`, core/equalisation/equalisation.py:540). -/
def framesReturn (apply verbose : Bool) : Bool → List Int → Except PyErr Unit
  | _, [] => .ok ()
  | bad, i :: rest =>
    if bad then .error .assertion
    else match pilotReturn apply verbose with
      | .nothing => .error .typ
      | .taps => framesReturn apply verbose (bad || decide (i = 0)) rest
      | .tuple _ => framesReturn apply verbose false rest

end Qampy
