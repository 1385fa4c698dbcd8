import Verif.Model.Phase

/-!
# Carrier frequencies of signal objects: the functions of qampy/impairments.py and qampy/phaserec.py
-/

namespace Qampy

/-- The part of a signal object that these functions use: symbol rate, sampling rate and samples, signals.py:144-181. -/
structure RateSignal where
  fb : ℝ
  fs : ℝ
  data : List (List ℂ)

/-- `SignalBase.os`, signals.py:179-181: `int(self.fs/self.fb)`; the rates are positive, so truncation is the floor. Exact quotient, for
the rounded one see C183. -/
noncomputable def RateSignal.os (s : RateSignal) : ℤ := ⌊s.fs / s.fb⌋

/-- `impairments.add_carrier_offset(sig, fo)`, impairments.py:86-102: the sampling rate of the object is used, the result is an object of
the same kind (product of the object and an array). -/
noncomputable def objAddCarrierOffset (s : RateSignal) (fo : ℝ) : RateSignal :=
  { s with data := s.data.map fun r => addCarrierOffset r fo s.fs }

/-- `phaserec.find_freq_offset(sig, average_over_modes, fft_size)`, phaserec.py:94-116: `sig.os` samples per symbol; `1/os`
(core/phaserecovery.py:424) raises ZeroDivisionError for `os = 0`. -/
noncomputable def objFindFreqOffset (s : RateSignal) (average : Bool) (fftSize : Nat) : Except PyErr (Option (List ℝ)) :=
  if s.os = 0 then .error .zeroDiv else .ok (findFreqOffset s.data s.os average fftSize)

/-- `phaserec.comp_freq_offset(sig, freq_offset)`, phaserec.py:118-136: `sig.os` samples per symbol, the result is recreated with the
attributes of `sig`. For `os = 0` the phases are nan (array divided by zero): `none`. -/
noncomputable def objCompFreqOffset (s : RateSignal) (f : List ℝ) : Except PyErr (Option RateSignal) :=
  match compFreqOffset s.data f s.os with
  | .error e => .error e
  | .ok d => .ok (if s.os = 0 then none else some { s with data := d })

end Qampy
