import Verif.Model.Driver
import Verif.Model.Receiver
import Verif.Model.Foe

/-!
The two stage training of the equaliser on the pilot sequence: `equalize_pilot_sequence` of core/pilotbased_receiver.py.
-/

namespace Qampy

/-- Sequencing of computations that may raise (`Except`) or read outside of an array in compiled code (`none`). -/
def thenTry {α β : Type} (x : Except PyErr (Option α)) (f : α → Except PyErr (Option β)) : Except PyErr (Option β) :=
  match x with
  | .error e => .error e
  | .ok none => .ok none
  | .ok (some a) => f a

/-- The arguments of `equalize_pilot_sequence`, core/pilotbased_receiver.py:454-455, apart from the signal, the shift factors and the taps. `symsP` and `syms4` are the scaled constellations of
`M_pilot` and of 4 points. -/
structure PilotEqParams where
  symsP : List ℂ
  syms4 : List ℂ
  ref : List (List ℂ)
  seqLen : Nat
  os : Nat
  mu : ℝ × ℝ
  ntaps : Nat
  nIter : Nat
  adaptive : Bool
  methods : String × String

/-- `REAL_VALUED`, core/equalisation/equalisation.py:93. -/
def realValued : List String := ["cma_real", "dd_real", "sgncma_real", "dd_data_real"]

/-- The training window of all modes for a shift factor, core/pilotbased_receiver.py:508, 516, 535, 544. -/
def pilotWindow (P : PilotEqParams) (rx : List (List ℂ)) (s : Int) : List (List ℂ) := rx.map fun r => trainSlice r s P.seqLen P.os P.ntaps

/-- `rx_sig_mode.shape[1]`. -/
def columns (E : List (List ℂ)) : Nat := (E.headD []).length

/-- First stage for differing shift factors, core/pilotbased_receiver.py:506-513: one call for each mode, without symbols, each starting from the taps of the previous one. Returns the
taps and the rows of `syms_out`. `syms_out[i] = ...` raises IndexError for a missing reference mode, ValueError for a different number of symbols (a single symbol, which would be broadcast, is
not modelled). -/
noncomputable def firstPerMode (P : PilotEqParams) (rx : List (List ℂ)) (shifts : List Int) :
    List Nat → Option (List (List (List ℂ))) → Except PyErr (Option (Option (List (List (List ℂ))) × List (List ℂ)))
  | [], wx => .ok (some (wx, []))
  | i :: is, wx =>
    match shifts[i]? with
    | none => .error .index
    | some s => thenTry (equaliseSignalApply P.symsP (pilotWindow P rx s) (columns (pilotWindow P rx s)) P.os P.mu.1 wx P.ntaps none P.nIter P.methods.1 P.adaptive none (some [i])) fun o =>
      match P.ref[i]? with
      | none => .error .index
      | some r => if (o.1.headD []).length ≠ r.length then .error .value
        else thenTry (firstPerMode P rx shifts is (some o.2.wx)) fun t => .ok (some (t.1, o.1.headD [] :: t.2))

/-- First stage for a common shift factor, core/pilotbased_receiver.py:516-522. -/
noncomputable def firstCommon (P : PilotEqParams) (rx : List (List ℂ)) (s : Int) (wx : Option (List (List (List ℂ)))) :
    Except PyErr (Option (Option (List (List (List ℂ))) × List (List ℂ))) :=
  thenTry (equaliseSignalApply P.symsP (pilotWindow P rx s) (columns (pilotWindow P rx s)) P.os P.mu.1 wx P.ntaps none P.nIter P.methods.1 P.adaptive none none) fun o => .ok (some (some o.2.wx, o.1))

/-- The window of the second stage, core/pilotbased_receiver.py:535-537, 544-546: the frequency offset `foe` of the modes is compensated if asked for. -/
noncomputable def secondWindow (P : PilotEqParams) (rx : List (List ℂ)) (s : Int) (foe : Option (List ℝ)) : Except PyErr (List (List ℂ)) :=
  match foe with
  | none => .ok (pilotWindow P rx s)
  | some f => compFreqOffset (pilotWindow P rx s) f P.os

/-- The two trainings of the second stage on one window, core/pilotbased_receiver.py:538-541, 547-552; `syms2` is the constellation used for the second. -/
noncomputable def secondTrain (P : PilotEqParams) (syms2 : List ℂ) (win : List (List ℂ)) (modes : Option (List Nat)) (wx : List (List (List ℂ))) : Except PyErr (Option (List (List (List ℂ)))) :=
  thenTry (equaliseSignal P.symsP win (columns win) P.os P.mu.1 (some wx) P.ntaps none P.nIter P.methods.1 P.adaptive (some P.ref) modes) fun r =>
    thenTry (equaliseSignal syms2 win (columns win) P.os P.mu.2 (some r.wx) P.ntaps none P.nIter P.methods.2 P.adaptive (some P.ref) modes) fun r2 => .ok (some r2.wx)

/-- Second stage for differing shift factors, core/pilotbased_receiver.py:534-541: the last training uses the constants of 4 points, whatever `M_pilot`. -/
noncomputable def secondPerMode (P : PilotEqParams) (rx : List (List ℂ)) (shifts : List Int) (foe : Option (List ℝ)) : List Nat → List (List (List ℂ)) → Except PyErr (Option (List (List (List ℂ))))
  | [], wx => .ok (some wx)
  | i :: is, wx =>
    match shifts[i]? with
    | none => .error .index
    | some s => (secondWindow P rx s foe).bind fun win => thenTry (secondTrain P P.syms4 win (some [i]) wx) fun w => secondPerMode P rx shifts foe is w

/-- Second stage for a common shift factor, core/pilotbased_receiver.py:544-552. -/
noncomputable def secondCommon (P : PilotEqParams) (rx : List (List ℂ)) (s : Int) (foe : Option (List ℝ)) (wx : List (List (List ℂ))) : Except PyErr (Option (List (List (List ℂ)))) :=
  (secondWindow P rx s foe).bind fun win => secondTrain P P.symsP win none wx

/-- The frequency offsets of the modes, core/pilotbased_receiver.py:525-527: the average for all of them. -/
noncomputable def pilotTrainFoe (P : PilotEqParams) (foeComp : Bool) (out : List (List ℂ)) : Except PyErr (Option (List ℝ)) :=
  if foeComp then (pilotBasedFoe out P.ref).bind fun f => .ok (some (List.replicate f.2.1.length f.1)) else .ok none

/-- `methods` of both kinds, core/pilotbased_receiver.py:498-502. -/
def mixedMethods (m : String × String) : Bool := decide (m.1 ∈ realValued) != decide (m.2 ∈ realValued)

/-- The first stage, core/pilotbased_receiver.py:503-522. -/
noncomputable def firstStage (P : PilotEqParams) (rx : List (List ℂ)) (shifts : List Int) (wxinit : Option (List (List (List ℂ)))) :
    Except PyErr (Option (Option (List (List (List ℂ))) × List (List ℂ))) :=
  if severalValues shifts then firstPerMode P rx shifts (List.range rx.length) wxinit
  else match shifts with
    | [] => .error .index
    | s :: _ => firstCommon P rx s wxinit

/-- The second stage, core/pilotbased_receiver.py:531-552; `wx.copy()` of `None` raises AttributeError. -/
noncomputable def secondStage (P : PilotEqParams) (rx : List (List ℂ)) (shifts : List Int) (foe : Option (List ℝ)) (wx : Option (List (List (List ℂ)))) : Except PyErr (Option (List (List (List ℂ)))) :=
  match wx with
  | none => .error .attr
  | some w => if severalValues shifts then secondPerMode P rx shifts foe (List.range rx.length) w
    else match shifts with
      | [] => .error .index
      | s :: _ => secondCommon P rx s foe w

/-- `equalize_pilot_sequence(rx_signal, ref_symbs, shift_fctrs, os, foe_comp, mu, M_pilot, Ntaps, Niter, adaptive_stepsize, methods, wxinit)`, core/pilotbased_receiver.py:454-554, for complex
valued methods in lower case: taps and frequency offset of each mode. -/
noncomputable def equalizePilotSequence (P : PilotEqParams) (rx : List (List ℂ)) (shifts : List Int) (foeComp : Bool) (wxinit : Option (List (List (List ℂ)))) :
    Except PyErr (Option (List (List (List ℂ)) × List ℝ)) :=
  if mixedMethods P.methods then .error .value
  else thenTry (firstStage P rx shifts wxinit) fun t =>
    (pilotTrainFoe P foeComp t.2).bind fun foe =>
      thenTry (secondStage P rx shifts foe t.1) fun w => .ok (some (w, foe.getD (List.replicate rx.length 0)))

end Qampy
