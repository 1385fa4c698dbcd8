import Verif.Model.Fourier
import Verif.Model.Phase

/-!
Measured frequency response of a converter: `load_dac_response`, qampy/core/impairments.py:589-620, and its application in `apply_DAC_filter`, impairments.py:548-551.
-/

namespace Qampy

/-- A row of the file: frequency, magnitude and phase, core/impairments.py:608-610. -/
structure DacRow where
  freq : ℝ
  mag : ℝ
  phase : ℝ

/-- The complex response of a row, core/impairments.py:610. -/
noncomputable def DacRow.value (r : DacRow) : ℂ := r.mag * Complex.exp (Complex.I * r.phase)

/-- The points of the interpolation, core/impairments.py:611-612: the conjugate response of all but the first row at the negative frequencies, in reversed order, then the rows. -/
noncomputable def dacPoints (t : List DacRow) : List (ℝ × ℂ) :=
  ((t.drop 1).map fun r => (-r.freq, (starRingEnd ℂ) r.value)).reverse ++ t.map fun r => (r.freq, r.value)

/-- The line through two points; `none` is the nan (or infinity) for two points at the same frequency. -/
noncomputable def dacLine (p q : ℝ × ℂ) (x : ℝ) : Option ℂ :=
  if q.1 = p.1 then none else some ((q.2 - p.2) / ((q.1 - p.1 : ℝ) : ℂ) * ((x - p.1 : ℝ) : ℂ) + p.2)

/-- scipy's `interp1d(kind='linear')` at one position, without the bounds: the segment that ends at the first point not below `x`. Fewer than two points do not occur (the file has at least 321 rows). -/
noncomputable def dacSegment (x : ℝ) : List (ℝ × ℂ) → Option ℂ
  | [] => none
  | [_] => none
  | [p, q] => dacLine p q x
  | p :: q :: r :: l => if x ≤ q.1 then dacLine p q x else dacSegment x (q :: r :: l)

/-- `interp1d(..., bounds_error=False, fill_value=fill)` at one position: the points are sorted, positions outside of them get the fill value. -/
noncomputable def dacInterp (pts : List (ℝ × ℂ)) (fill : ℂ) (x : ℝ) : Option ℂ :=
  if (∀ p ∈ pts, x < p.1) ∨ (∀ p ∈ pts, p.1 < x) then some fill
  else dacSegment x (pts.mergeSort fun a b => decide (a.1 ≤ b.1))

/-- `load_dac_response(fn, fs, N, ch)`, core/impairments.py:589-620, for the table `t` of the channel: IndexError for fewer than 321 rows (`dac_f[320, 1]`), ZeroDivisionError of `fftfreq` for `N = 0`. -/
noncomputable def loadDacResponse (t : List DacRow) (fs : ℝ) (N : Nat) : Except PyErr (List (Option ℂ)) :=
  if N = 0 then .error .zeroDiv
  else match t[320]? with
    | none => .error .index
    | some r => .ok ((List.range N).map fun m => dacInterp (dacPoints t) (r.mag : ℂ) (fftfreq N fs m))

/-- The use of the response, core/impairments.py:549-551, without the conversion `astype(sig)` (which raises TypeError, C140): filter of one mode in the frequency domain. -/
noncomputable def dacApply (h x : List ℂ) : List ℂ := ifft (rowMul (fft x) h)

end Qampy
