import Verif.Model.Waveform

/-!
Model of the mid position helpers of helpers.py:86-127 for complex signals. `Option`: `none` for the ValueError of the maximum of an empty array and for nan.
-/

namespace Qampy

open Complex

/-- `(x.max() + x.min())/2`, helpers.py:91. -/
noncomputable def midOf (x : List ℝ) : Option ℝ := do
  let a ← x.max?
  let b ← x.min?
  return (a + b) / 2

/-- `set_mid_point(E, mid_pos)`, helpers.py:86-96, complex branch; the mid position is that of all samples of all rows together. -/
noncomputable def setMidPoint (E : List (List ℂ)) (mid : ℂ) : Option (List (List ℂ)) := do
  let a ← midOf (E.flatten.map (·.re))
  let b ← midOf (E.flatten.map (·.im))
  return E.map fun r => r.map fun z => z - (a + I * b) + mid

/-- `set_mid_point(E, mid_pos)`, helpers.py:94-96, real branch, one row. -/
noncomputable def setMidPointReal (E : List ℝ) (mid : ℝ) : Option (List ℝ) := do
  let a ← midOf E
  return E.map fun z => z - a + mid

/-- `set_mid_and_resale(E, mid_pos, swing)`, helpers.py:110-117, two dimensional complex signals (one dimensional ones fail in line 105). -/
noncomputable def setMidAndRescale (E : List (List ℂ)) (mid : ℂ) (swing : ℝ) : Option (List (List ℂ)) := do
  let s ← setMidPoint E mid
  s.mapM (rescaleRow swing)

/-- `get_center_shift_fac(E)` for one row, helpers.py:119-127. -/
noncomputable def centerShift (x : List ℂ) : ℂ := -meanC x

end Qampy
