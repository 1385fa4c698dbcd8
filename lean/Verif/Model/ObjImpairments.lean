import Verif.Model.ObjCarrier
import Verif.Model.Impairments
import Verif.Model.Transmission
import Verif.Model.ExpFilter
import Verif.Model.PulseTime
import Verif.Model.Waveform

/-!
# Impairments and filters of signal objects: qampy/impairments.py, qampy/filtering.py, qampy/analog_frontend.py

The functions take the sampling rate and the symbol rate from the object. A result is an object with the rates of the argument (numpy operations and `recreate_from_np_array` copy
the attributes, C53).
-/

namespace Qampy

/-- `impairments.apply_PMD(field, theta, t_dgd)`, impairments.py:24-45. -/
noncomputable def objApplyPMD (s : RateSignal) (theta t : ℝ) : Except PyErr RateSignal := do
  let d ← applyPMD s.data theta t s.fs
  return { s with data := d }

/-- `impairments.apply_phase_noise(signal, df)`, impairments.py:47-66; `f` are the random draws. -/
noncomputable def objPhaseNoise (s : RateSignal) (df : ℝ) (f : Nat → Nat → ℝ) : RateSignal :=
  { s with data := applyPhaseNoise s.data df s.fs f }

/-- `impairments.change_snr(sig, snr)`, impairments.py:68-84; `n1`, `n2` are the random draws. -/
noncomputable def objChangeSnr (s : RateSignal) (snr : ℝ) (n1 n2 : List (List ℝ)) : RateSignal :=
  { s with data := changeSnr s.data snr s.fb s.fs n1 n2 }

/-- `impairments.add_dispersion(sig, D, L, wl0)`, impairments.py:104-125. -/
noncomputable def objAddDispersion (s : RateSignal) (D L wl : ℝ) : RateSignal :=
  { s with data := addDispersion s.data s.fs D L wl }

/-- `impairments.simulate_transmission(sig, ...)`, impairments.py:127-171; `pl` is the length of the pilot sequence, if the signal has one. -/
noncomputable def objTransmission (s : RateSignal) (pl : Option Nat) (d : TxDraws) (p : TxParams) : Except PyErr RateSignal := do
  let r ← simulateTransmission ⟨s.fs, s.fb, pl⟩ d p s.data
  return { s with data := r }

/-- `filtering.filter_signal(signal, cutoff, ftype)`, filtering.py:23-48, for the Gaussian filter. -/
noncomputable def objFilterGauss (s : RateSignal) (cutoff : ℝ) : RateSignal := { s with data := filterGauss s.data s.fs cutoff }

/-- `filtering.filter_signal(signal, cutoff, ftype)`, filtering.py:23-48, for the exponential filter. -/
noncomputable def objFilterExp (s : RateSignal) (cutoff : ℝ) : RateSignal := { s with data := filterExp s.data s.fs cutoff }

/-- `filtering.rrcos_pulseshaping(sig, beta, T)`, filtering.py:96-116, with a given width: 1001 taps (core/filter.py:177), mode by mode. `none`: nan. -/
noncomputable def objRrcos (s : RateSignal) (beta T : ℝ) : Except PyErr (Option RateSignal) := do
  let d ← s.data.mapM (rrcosPulseTime s.fs T beta 1001)
  return (d.mapM id).map fun d => { s with data := d }

/-- `analog_frontend.comp_rf_delay(signal, delay)`, analog_frontend.py:24-43; the result is real. -/
noncomputable def objRfDelay (s : RateSignal) (delay : ℝ) : RateSignal :=
  { s with data := s.data.map fun r => (compRfDelay r delay s.fs).map fun v : ℝ => (v : ℂ) }

end Qampy
