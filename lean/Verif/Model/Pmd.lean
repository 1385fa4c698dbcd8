import Verif.Model.Impairments
import Mathlib.LinearAlgebra.Matrix.Notation
import Mathlib.Data.Matrix.Mul

/-!
Model of the PMD response matrix and the implementation of PMD with it: `H_PMD` and `_applyPMD_einsum` of core/impairments.py (the second
implementation beside `_applyPMD_dot`, not called by `apply_PMD_to_field`).
-/

namespace Qampy

open Complex

/-- The rotation matrices `h1` and `h3`, core/impairments.py:54 and 58 (`h3` with the negative angle). -/
noncomputable def pmdRot (theta : ℝ) : Matrix (Fin 2) (Fin 2) ℂ :=
  !![(Real.cos theta : ℂ), -(Real.sin theta : ℂ); (Real.sin theta : ℂ), (Real.cos theta : ℂ)]

/-- One frequency of `h2`, core/impairments.py:55. -/
noncomputable def pmdDelay (tdgd w : ℝ) : Matrix (Fin 2) (Fin 2) ℂ :=
  !![exp (-(I * ((w * tdgd / 2 : ℝ) : ℂ))), 0; 0, exp (I * ((w * tdgd / 2 : ℝ) : ℂ))]

/-- `H_PMD(theta, t_dgd, omega)`, core/impairments.py:29-61: the matrices of all frequencies, `einsum('ij,jkl->ikl', h1, h2)`, and `h3`. -/
noncomputable def hPMD (theta tdgd : ℝ) (omega : List ℝ) : List (Matrix (Fin 2) (Fin 2) ℂ) × Matrix (Fin 2) (Fin 2) ℂ :=
  (omega.map fun w => pmdRot theta * pmdDelay tdgd w, pmdRot (-theta))

/-- `np.dot` of a matrix with two rows. -/
noncomputable def dotRows (h : Matrix (Fin 2) (Fin 2) ℂ) (x y : List ℂ) : List (List ℂ) :=
  [List.zipWith (fun a b => h 0 0 * a + h 0 1 * b) x y, List.zipWith (fun a b => h 1 0 * a + h 1 1 * b) x y]

/-- `_applyPMD_einsum(field, H, h3)`, core/impairments.py:84-92, for the two rows of the field (as many columns as frequencies, not empty):
`einsum('ijk,ik -> ik', H, Sf)` sums the rows of the matrix over `j` and multiplies with the same polarisation. -/
noncomputable def applyPMDEinsum (x y : List ℂ) (H : List (Matrix (Fin 2) (Fin 2) ℂ)) (h3 : Matrix (Fin 2) (Fin 2) ℂ) : List (List ℂ) :=
  let ssf0 := List.zipWith (fun (h : Matrix (Fin 2) (Fin 2) ℂ) a => (h 0 0 + h 0 1) * a) H (spectrum x)
  let ssf1 := List.zipWith (fun (h : Matrix (Fin 2) (Fin 2) ℂ) a => (h 1 0 + h 1 1) * a) H (spectrum y)
  dotRows h3 (unspectrum ssf0) (unspectrum ssf1)

end Qampy
