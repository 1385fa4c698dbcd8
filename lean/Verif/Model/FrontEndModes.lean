import Verif.Model.Waveform

/-!
# Front end corrections of arrays with several modes
-/

namespace Qampy

open Complex

/-- `comp_IQ_inbalance(signal)` for a two dimensional array, core/analog_frontend.py:30-52: the array of the caller after the call and the result. Line 37 works in place, and the
mean of line 37 and the sums of lines 42 and 47 run over all modes. `none`: nan or division by zero. The array is complex (an integer array raises in line 37). -/
noncomputable def compIQModes (xs : List (List ℂ)) : List (List ℂ) × Option (List (List ℂ)) :=
  let y := xs.map fun r => r.map fun z => z - meanC xs.flatten
  let sII := (y.flatten.map fun z => z.re ^ 2).sum
  let mon := (y.flatten.map fun z => z.re * z.im).sum / sII
  let ph := Real.arcsin (-mon)
  let q : ℂ → ℝ := fun z => (z.im + Real.sin ph * z.re) / Real.cos ph
  let sQQ := (y.flatten.map fun z => q z ^ 2).sum
  (y, if sII = 0 ∨ 1 < |mon| ∨ Real.cos ph = 0 ∨ sQQ = 0 then none
    else some (y.map fun r => r.map fun z => (⟨z.re, q z * Real.sqrt (sII / sQQ)⟩ : ℂ)))

end Qampy
