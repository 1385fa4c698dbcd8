import Mathlib.Analysis.SpecialFunctions.Pow.Real
import Mathlib.Analysis.SpecialFunctions.Trigonometric.DerivHyp

/-!
The pulse shapes of core/special_fcts.py:30-125, for one value `x` (the functions act on every value of an array). The raised cosine functions of the same file are modelled elsewhere.
-/

namespace Qampy

/-- `x ** y` of numpy for real `x` and `y`: a power of a negative number is nan (here `none`) unless the exponent is an integer. `0 ** y` with `y < 0` is infinite and not distinguished here;
the exponents below are used with `y ≥ 0`. -/
noncomputable def npPow (x y : ℝ) : Option ℝ :=
  open Classical in if x < 0 ∧ ¬ ∃ k : ℤ, y = k then none else some (x ^ y)

/-- `ttanh(x, A, x0, w)`, core/special_fcts.py:30-51. -/
noncomputable def ttanh (x A x0 w : ℝ) : ℝ := A * Real.tanh ((x - x0) / w)

/-- `gauss(x, A, x0, w)`, core/special_fcts.py:54-75. The exponent is the integer 2. -/
noncomputable def gaussPulse (x A x0 w : ℝ) : ℝ := A * Real.exp (-(((x - x0) / w) ^ 2) / 2)

/-- `supergauss(x, A, x0, w, o)`, core/special_fcts.py:78-101. The sign is applied after the power; `none` is nan. -/
noncomputable def supergauss (x A x0 w o : ℝ) : Option ℝ := (npPow ((x - x0) / w) (2 * o)).map fun p => A * Real.exp (-p / 2)

/-- `sech(x, A, x0, w)`, core/special_fcts.py:104-125. -/
noncomputable def sechPulse (x A x0 w : ℝ) : ℝ := A / Real.cosh ((x - x0) / w)

end Qampy
