import Verif.Model.PilotTrain
import Verif.Model.FrameSync

/-!
Parts of C143 and C150: training methods that the pilot receiver does not accept, by their names.
-/

namespace Qampy

/-- The names of the training methods in the documentation of `equalise_signal` and `TRAINING_FCTS`, core/equalisation/equalisation.py:87-99. -/
def trainingNames : List String :=
  ["sbd", "mddma", "dd", "sbd_data", "dd_real", "dd_data_real", "cma", "cma2", "mcma", "rde", "mrde", "cma_real", "sgncma_real", "sgncma"]

/-- A complex valued method in one stage and a real valued one (by its name) in the other are rejected, whatever the data. -/
theorem C143_mixed (P : PilotEqParams) (rx : List (List ℂ)) (shifts : List Int) (foeComp : Bool) (wxinit : Option (List (List (List ℂ)))) (h1 : P.methods.1 ∈ trainingNames) (h2 : P.methods.2 ∈ trainingNames)
    (h : ("_real".toList <:+ P.methods.1.toList) ↔ ¬ ("_real".toList <:+ P.methods.2.toList)) : equalizePilotSequence P rx shifts foeComp wxinit = .error .value := by
  have key : ∀ a ∈ trainingNames, ("_real".toList <:+ a.toList ↔ a ∈ realValued) := by decide +kernel
  have hm : mixedMethods P.methods = true := by
    unfold mixedMethods
    rw [key _ h1, key _ h2] at h
    by_cases ha : P.methods.1 ∈ realValued <;> by_cases hb : P.methods.2 ∈ realValued <;> simp_all
  unfold equalizePilotSequence
  rw [if_pos hm]

/-- The search for the frame rejects real valued and data aided methods (by their names) for a complex signal that is long enough, and no other method. -/
theorem C150_rejects (S : SyncParams) (rx ref : List (List ℂ)) (L seqLen : Nat) (hL : (S.frameLen + 2 * seqLen) * S.os ≤ L) (hm : S.method ∈ trainingNames) :
    ("_real".toList <:+ S.method.toList ∨ "_data".toList <:+ S.method.toList → frameSync S rx L ref seqLen = .error .value)
    ∧ (¬ ("_real".toList <:+ S.method.toList ∨ "_data".toList <:+ S.method.toList) → searchStep S seqLen = 0 → frameSync S rx L ref seqLen = .error .zeroDiv) := by
  have key : ∀ a ∈ trainingNames, (("_real".toList <:+ a.toList ∨ "_data".toList <:+ a.toList) ↔ (a ∈ realValued ∨ a ∈ dataAided)) := by decide +kernel
  unfold frameSync
  rw [if_neg (not_not.2 hL), key _ hm]
  constructor
  · intro h; rw [if_pos h]
  · intro h h0; rw [if_neg h, if_pos h0]

example : ("_real".toList <:+ "dd_real".toList) ∧ ¬ ("_real".toList <:+ "mcma".toList) := by decide

end Qampy
