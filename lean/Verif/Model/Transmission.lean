import Verif.Model.Impairments
import Verif.Model.Waveform

/-!
Model of `simulate_transmission` (qampy/impairments.py:127-171) and of the phase noise of core/impairments.py. Random numbers are inputs: a draw of an
array of the shape of the signal is a function of mode and sample.
-/

namespace Qampy

open Complex

/-- `phase_noise(sz, df, fs)`, core/impairments.py:133-160, one row: running sum of normal draws with standard deviation `sqrt(2*pi*df/fs)`; `f` are the
standard normal draws. A negative linewidth (nan) is not modelled. -/
noncomputable def phaseNoiseRow (df fs : ℝ) (f : Nat → ℝ) (n : Nat) : List ℝ :=
  cumsumGo 0 ((List.range n).map fun j => Real.sqrt (2 * Real.pi * df / fs) * f j)

/-- `apply_phase_noise(signal, df, fs)`, core/impairments.py:162-186. -/
noncomputable def applyPhaseNoise (sig : List (List ℂ)) (df fs : ℝ) (f : Nat → Nat → ℝ) : List (List ℂ) :=
  sig.mapIdx fun l r => List.zipWith (fun x (p : ℝ) => x * exp (I * (p : ℂ))) r (phaseNoiseRow df fs (f l) r.length)

/-- The parameters of `simulate_transmission`; `none` is Python's `None`. -/
structure TxParams where
  snr : Option ℝ := none
  freqOff : Option ℝ := none
  lwdth : Option ℝ := none
  dgd : Option ℝ := none
  theta : ℝ := Real.pi / 3.731
  modalDelay : Option (List Int) := none
  dispersion : Option ℝ := none
  rollFrame : Bool := false

/-- The attributes of the signal that are used: sampling rate, symbol rate, and the length of the pilot sequence for a signal with pilots. -/
structure TxAttrs where
  fs : ℝ
  fb : ℝ
  pilotLen : Option Nat

/-- The random draws: phase noise, real and imaginary part of the additive noise. -/
structure TxDraws where
  ph : Nat → Nat → ℝ
  re : Nat → Nat → ℝ
  im : Nat → Nat → ℝ

/-- qampy/impairments.py:155-158; a signal without pilots has no attribute `nframes`. The warning is silent. -/
def txRoll (a : TxAttrs) (p : TxParams) (sig : List (List ℂ)) : Except PyErr (List (List ℂ)) :=
  if p.rollFrame then
    match a.pilotLen with
    | none => .error .attr
    | some n => .ok (sig.map (Np.roll · (n : Int)))
  else .ok sig

/-- qampy/impairments.py:159-160. -/
noncomputable def txPhase (a : TxAttrs) (d : TxDraws) (p : TxParams) (sig : List (List ℂ)) : Except PyErr (List (List ℂ)) :=
  match p.lwdth with
  | none => .ok sig
  | some df => .ok (applyPhaseNoise sig df a.fs d.ph)

/-- qampy/impairments.py:161-162; one offset for all modes. -/
noncomputable def txOffset (a : TxAttrs) (p : TxParams) (sig : List (List ℂ)) : Except PyErr (List (List ℂ)) :=
  match p.freqOff with
  | none => .ok sig
  | some fo => .ok (sig.map fun r => addCarrierOffset r fo a.fs)

/-- qampy/impairments.py:163-164. -/
noncomputable def txSnr (a : TxAttrs) (d : TxDraws) (p : TxParams) (sig : List (List ℂ)) : Except PyErr (List (List ℂ)) :=
  match p.snr with
  | none => .ok sig
  | some snr => .ok (changeSnr sig snr a.fb a.fs (sig.mapIdx fun l r => (List.range r.length).map (d.re l))
      (sig.mapIdx fun l r => (List.range r.length).map (d.im l)))

/-- qampy/impairments.py:165-166. -/
def txDelay (p : TxParams) (sig : List (List ℂ)) : Except PyErr (List (List ℂ)) :=
  match p.modalDelay with
  | none => .ok sig
  | some ds => addModalDelay sig ds

/-- qampy/impairments.py:167-168: the name `D` is not defined. -/
def txDispersion (p : TxParams) (sig : List (List ℂ)) : Except PyErr (List (List ℂ)) :=
  match p.dispersion with
  | none => .ok sig
  | some _ => .error .name

/-- qampy/impairments.py:169-170. -/
noncomputable def txPMD (a : TxAttrs) (p : TxParams) (sig : List (List ℂ)) : Except PyErr (List (List ℂ)) :=
  match p.dgd with
  | none => .ok sig
  | some t => applyPMD sig p.theta t a.fs

/-- `simulate_transmission(sig, ...)`, qampy/impairments.py:127-171, for two dimensional signals. -/
noncomputable def simulateTransmission (a : TxAttrs) (d : TxDraws) (p : TxParams) (sig : List (List ℂ)) : Except PyErr (List (List ℂ)) := do
  let sig ← txRoll a p sig
  let sig ← txPhase a d p sig
  let sig ← txOffset a p sig
  let sig ← txSnr a d p sig
  let sig ← txDelay p sig
  let sig ← txDispersion p sig
  txPMD a p sig

end Qampy
