import Verif.Model.Transmission

/-!
The array version of `simulate_transmission`, core/impairments.py:284-328: rates are arguments, there is no dispersion.
-/

namespace Qampy

/-- `simulate_transmission(sig, fb, fs, snr, freq_off, lwdth, dgd, theta, modal_delay, roll_frame_sync)`, core/impairments.py:284-328, for two dimensional
signals. `pilotLen` is the number of pilots of a signal object with pilots, `none` for an array, which has no attribute `nframes`; the warning is silent. -/
noncomputable def coreSimulateTransmission (sig : List (List ℂ)) (fb fs : ℝ) (d : TxDraws) (pilotLen : Option Nat) (snr freqOff lwdth dgd : Option ℝ) (theta : ℝ)
    (modalDelay : Option (List Int)) (rollFrame : Bool) : Except PyErr (List (List ℂ)) := do
  let sig ← if rollFrame then
      match pilotLen with
      | none => .error .attr
      | some n => .ok (sig.map (Np.roll · (n : Int)))
    else .ok sig
  let sig := match lwdth with
    | none => sig
    | some df => applyPhaseNoise sig df fs d.ph
  let sig := match freqOff with
    | none => sig
    | some fo => sig.map fun r => addCarrierOffset r fo fs
  let sig := match snr with
    | none => sig
    | some s => changeSnr sig s fb fs (sig.mapIdx fun l r => (List.range r.length).map (d.re l)) (sig.mapIdx fun l r => (List.range r.length).map (d.im l))
  let sig ← match modalDelay with
    | none => .ok sig
    | some ds => addModalDelay sig ds
  match dgd with
  | none => .ok sig
  | some t => applyPMD sig theta t fs

end Qampy
