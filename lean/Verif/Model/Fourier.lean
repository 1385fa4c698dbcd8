import Verif.Model.Np
import Mathlib.Analysis.SpecialFunctions.Complex.Circle
import Mathlib.Algebra.BigOperators.Group.Finset.Basic

/-!
The discrete Fourier transform primitives of numpy / scipy on rows (library code, from its documentation, exact complex numbers).
-/

namespace Qampy

open Complex

/-- `np.fft.fft(x)`. The empty input, which raises ValueError, gives the empty list; callers have nonempty rows or handle this case. -/
noncomputable def fft (x : List ℂ) : List ℂ :=
  (List.range x.length).map fun (k : Nat) => ∑ n ∈ Finset.range x.length, x.getD n 0 * exp (-(I * ((2 * Real.pi * n * k / x.length : ℝ) : ℂ)))

/-- `np.fft.ifft(x)`. -/
noncomputable def ifft (x : List ℂ) : List ℂ :=
  (List.range x.length).map fun (n : Nat) =>
    (∑ k ∈ Finset.range x.length, x.getD k 0 * exp (I * ((2 * Real.pi * n * k / x.length : ℝ) : ℂ))) / x.length

/-- `np.fft.fftshift(x)` of one row: roll by `n//2`. -/
def fftshift {α : Type} (x : List α) : List α := Np.roll x ((x.length / 2 : Nat) : Int)

/-- `np.fft.ifftshift(x)` of one row: roll by `-(n//2)`. -/
def ifftshift {α : Type} (x : List α) : List α := Np.roll x (-((x.length / 2 : Nat) : Int))

/-- `np.linspace(a, b, n, endpoint=False)`. -/
noncomputable def linspaceOpen (a b : ℝ) (n : Nat) : List ℝ := (List.range n).map fun (k : Nat) => a + k * ((b - a) / n)

/-- `np.linspace(a, b, n)` for `n ≥ 2`; for `n = 1` it is `[a]`. -/
noncomputable def linspace (a b : ℝ) (n : Nat) : List ℝ := (List.range n).map fun (k : Nat) => a + k * ((b - a) / ((n : ℝ) - 1))

/-- Product of two rows. -/
def rowMul {α : Type} [Mul α] (x y : List α) : List α := List.zipWith (· * ·) x y

end Qampy
