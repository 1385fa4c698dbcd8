import Verif.Model.PulseTime
import Verif.Model.Resample

/-!
`rrcos_resample` with a time domain filter (qampy/core/resample.py), both implementations: zero insertion with `fftconvolve` and `scipy.signal.resample_poly`.
-/

namespace Qampy

/-- `scipy.signal.upfirdn(h, x, up, down)`: zero insertion, full convolution with `h`, every `down`-th sample. -/
noncomputable def upfirdn (h : List ℝ) (x : List ℂ) (up down : Nat) : List ℂ :=
  (List.range (((x.length - 1) * up + h.length - 1) / down + 1)).map fun k =>
    ((List.range x.length).map fun q => if q * up ≤ k * down then (h.getD (k * down - q * up) 0 : ℂ) * x.getD q 0 else 0).sum

/-- `_output_len` of scipy. -/
def upfirdnLen (lenH lenX up down : Nat) : Nat := ((lenX - 1) * up + lenH - 1) / down + 1

/-- `while _output_len(...) < n_out + n_pre_remove: n_post_pad += 1` of `scipy.signal.resample_poly`, at most `fuel` passes. -/
def postPad (lenH lenX up down need : Nat) : Nat → Nat
  | 0 => 0
  | fuel + 1 => if upfirdnLen lenH lenX up down < need then 1 + postPad (lenH + 1) lenX up down need fuel else 0

/-- `scipy.signal.resample_poly(x, up, down, window=h)` for an array window and coprime factors: equal rates return a copy, otherwise the window is multiplied by `up`, padded to centre the output samples, and applied with `upfirdn`. -/
noncomputable def scipyResamplePoly (h : List ℝ) (x : List ℂ) (up down : Nat) : List ℂ :=
  if up = 1 ∧ down = 1 then x
  else
    let nOut := (x.length * up) / down + (if (x.length * up) % down = 0 then 0 else 1)
    let half := (h.length - 1) / 2
    let pre := down - half % down
    let rem := (half + pre) / down
    let post := postPad (h.length + pre) x.length up down (nOut + rem) ((nOut + rem) * down)
    ((upfirdn (List.replicate pre 0 ++ h.map (fun v => v * (up : ℝ)) ++ List.replicate post 0) x up down).drop rem).take nOut

/-- `rrcos_resample(signal, fold, fnew, Ts, beta, taps, fftconv=...)`, core/resample.py:73-126, with given roll-off and number of taps, without the normalisation; `up`, `down` are the factors of `_resamplingfactors`. -/
noncomputable def rrcosResampleTaps (fftconv : Bool) (up down : Nat) (fold Ts beta : ℝ) (taps : Nat) (sig : List ℂ) : Except PyErr (Option (List ℂ)) :=
  if ¬ (0 < beta ∧ beta ≤ 1) then .error .assertion
  else if up = 0 then .error .value
  else if fftconv then do
    let y ← rrcosPulseTime (up * fold) Ts beta taps (insertZeros 0 up sig)
    return y.map (Np.strided · down)
  else do
    let h ← rrcosTaps taps (up * fold) Ts beta
    return h.map fun h => scipyResamplePoly h sig up down

end Qampy
