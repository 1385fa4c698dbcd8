import Verif.Model.CoreTransmission
import Verif.Props.Transmission

/-!
C64 for the array version.
-/

namespace Qampy

/-- C64: without dispersion the function for signal objects and the one for arrays, given the rates of the signal, compute the same for every
combination of impairments, also when they raise. -/
theorem C64_core (a : TxAttrs) (d : TxDraws) (p : TxParams) (hD : p.dispersion = none) (sig : List (List ℂ)) :
    coreSimulateTransmission sig a.fb a.fs d a.pilotLen p.snr p.freqOff p.lwdth p.dgd p.theta p.modalDelay p.rollFrame = simulateTransmission a d p sig := by
  obtain ⟨snr, fo, lw, dgd, theta, md, disp, rf⟩ := p
  obtain ⟨fs, fb, pl⟩ := a
  simp only at hD
  subst hD
  unfold coreSimulateTransmission simulateTransmission txRoll txPhase txOffset txSnr txDelay txDispersion txPMD
  cases md with
  | none => cases rf <;> cases pl <;> cases snr <;> cases fo <;> cases lw <;> rfl
  | some ds =>
    cases rf <;> cases pl <;> cases snr <;> cases fo <;> cases lw <;> simp only [bind, Except.bind, if_true, Bool.false_eq_true, if_false] <;> rfl

example (d : TxDraws) (sig : List (List ℂ)) :
    coreSimulateTransmission sig 1 2 d none (some 20) none (some (1 / 1000)) none 1 (some [3]) false =
      simulateTransmission ⟨2, 1, none⟩ d { snr := some 20, lwdth := some (1 / 1000), theta := 1, modalDelay := some [3] } sig :=
  C64_core ⟨2, 1, none⟩ d { snr := some 20, lwdth := some (1 / 1000), theta := 1, modalDelay := some [3] } rfl sig

/-- C64: with every impairment left out the array version returns the signal. -/
theorem C64_core_identity (sig : List (List ℂ)) (fb fs theta : ℝ) (d : TxDraws) (pl : Option Nat) :
    coreSimulateTransmission sig fb fs d pl none none none none theta none false = .ok sig := rfl

end Qampy
