import Verif.Model.ResampleTime
import Verif.Model.Waveform
import Verif.Model.Signal
import Verif.Model.ObjCarrier

/-!
Resampling with all options: `resample_poly` and `rrcos_resample` of qampy/core/resample.py with the normalisation, and `SignalBase.resample`.
-/

namespace Qampy

/-- `p = np.mean(abs(signal)**2); sig_new = normalise_and_center(sig_new)*np.sqrt(p)`, core/resample.py:69-70 and 125-126. -/
noncomputable def renormTo (sig new : List ℂ) : Option (List ℂ) :=
  (normRow new).map fun y => y.map fun z => z * (Real.sqrt (meanR (sig.map cabsq)) : ℝ)

/-- `resample_poly(signal, fold, fnew, window, renormalise)`, core/resample.py:37-71, after `flatten`; `up`, `down` are the factors of
`_resamplingfactors` (line 63), `dflt` is the filter that scipy designs from the factors when no window is given. scipy raises ValueError for
`up < 1`. -/
noncomputable def resamplePoly (dflt : Nat → Nat → List ℝ) (window : Option (List ℝ)) (renormalise : Bool) (up down : Nat) (sig : List ℂ) : Except PyErr (Option (List ℂ)) :=
  if up = 0 then .error .value
  else
    let y := scipyResamplePoly (window.getD (dflt up down)) sig up down
    .ok (if renormalise then renormTo sig y else some y)

/-- `rrcos_resample(signal, fold, fnew, Ts, beta, taps, renormalise, fftconv)`, core/resample.py:73-127, for a given number of taps. Without roll-off
`resample_poly(signal, fold, fnew)` is called (line 104), which gets neither the window nor `renormalise`. -/
noncomputable def rrcosResampleAll (dflt : Nat → Nat → List ℝ) (fftconv renormalise : Bool) (up down : Nat) (fold : ℝ) (Ts beta : Option ℝ) (taps : Nat) (sig : List ℂ) : Except PyErr (Option (List ℂ)) :=
  match beta with
  | none => resamplePoly dflt none false up down sig
  | some b => do
    let y ← rrcosResampleTaps fftconv up down fold (Ts.getD (1 / fold)) b taps sig
    return y.bind fun y => if renormalise then renormTo sig y else some y

/-- `SignalBase.resample(fnew, **kwargs)` with `_resample_array`, signals.py:222-243; `x` is the floating point quotient `fnew/fs`. For a quotient
close to one the samples are copied; otherwise every mode is resampled on its own, the width of the filter is `1/fb` unless `Ts` is given. -/
noncomputable def objResample (dflt : Nat → Nat → List ℝ) (fftconv renormalise : Bool) (Ts beta : Option ℝ) (taps : Nat) (x : ℚ) (fnew : ℝ) (s : RateSignal) : Except PyErr (Option RateSignal) :=
  if isCloseOne x then .ok (some { s with fs := fnew })
  else do
    let rows ← s.data.mapM fun r => rrcosResampleAll dflt fftconv renormalise (resamplingFactors x).1.toNat (resamplingFactors x).2 s.fs (some (Ts.getD (1 / s.fb))) beta taps r
    return (rows.mapM id).map fun d => { s with fs := fnew, data := d }

end Qampy
