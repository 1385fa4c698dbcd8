import Verif.Lemmas.WhiteNoise
import Verif.Lemmas.Fourier
import Mathlib.Analysis.InnerProductSpace.PiL2
import Mathlib.LinearAlgebra.Matrix.NonsingularInverse

/-!
Linear maps on signals that keep the energy leave the law of white noise unchanged.
-/

namespace Qampy

open MeasureTheory ProbabilityTheory

/-- A linear map that keeps the energy has orthonormal rows. -/
theorem rows_orth {N : Nat} (A : Fin N → Fin N → ℂ) (hA : ∀ v : Fin N → ℂ, ∑ m, ‖∑ j, A m j * v j‖ ^ 2 = ∑ m, ‖v m‖ ^ 2) (m m' : Fin N) :
    ∑ j, A m j * (starRingEnd ℂ) (A m' j) = if m = m' then 1 else 0 := by
  let M : Matrix (Fin N) (Fin N) ℂ := Matrix.of A
  let f : EuclideanSpace ℂ (Fin N) →ₗᵢ[ℂ] EuclideanSpace ℂ (Fin N) :=
    { toLinearMap := Matrix.toEuclideanLin M
      norm_map' := by
        intro x
        rw [EuclideanSpace.norm_eq, EuclideanSpace.norm_eq]
        congr 1
        exact hA x }
  have h1 : M.conjTranspose * M = 1 := by
    ext i j
    have h := f.inner_map_map (EuclideanSpace.single i (1 : ℂ)) (EuclideanSpace.single j (1 : ℂ))
    have e : ∀ (i m : Fin N), (f (EuclideanSpace.single i (1 : ℂ))) m = A m i := by
      intro i m
      change ((Matrix.toEuclideanLin M) (EuclideanSpace.single i (1 : ℂ))) m = _
      rw [Matrix.toLpLin_apply]
      simp [M, Matrix.mulVec, dotProduct]
    rw [PiLp.inner_apply] at h
    simp only [e] at h
    rw [Matrix.mul_apply, Matrix.one_apply]
    simp only [Matrix.conjTranspose_apply, M, Matrix.of_apply]
    rw [EuclideanSpace.inner_single_left] at h
    simp only [RCLike.inner_apply, map_one, one_mul] at h
    rw [show (if i = j then (1 : ℂ) else 0) = (EuclideanSpace.single j (1 : ℂ)) i by simp, ← h]
    refine Finset.sum_congr rfl fun k _ => ?_
    rw [mul_comm]
    rfl
  have h2 : M * M.conjTranspose = 1 := mul_eq_one_comm.1 h1
  have h3 := congrFun (congrFun h2 m) m'
  rw [Matrix.mul_apply, Matrix.one_apply] at h3
  exact h3

/-- White noise keeps its law under linear maps that keep the energy. -/
theorem unitary_law {N : Nat} (A : Fin N → Fin N → ℂ) (hA : ∀ v : Fin N → ℂ, ∑ m, ‖∑ j, A m j * v j‖ ^ 2 = ∑ m, ‖v m‖ ^ 2) :
    (noiseLaw N).map (fun w m => ∑ j, A m j * toC (w j)) = (noiseLaw N).map (fun w m => toC (w m)) :=
  combine_law A (rows_orth A hA)

/-- On rows of length `N` the function multiplies with a matrix. -/
def IsMat (N : Nat) (f : List ℂ → List ℂ) : Prop :=
  ∃ A : Nat → Nat → ℂ, ∀ x : List ℂ, x.length = N → (f x).length = N ∧ ∀ t < N, at0 (f x) t = ∑ j ∈ Finset.range N, A t j * at0 x j

theorem IsMat.comp {N : Nat} {f g : List ℂ → List ℂ} (hf : IsMat N f) (hg : IsMat N g) : IsMat N (fun x => f (g x)) := by
  obtain ⟨A, hA⟩ := hf
  obtain ⟨B, hB⟩ := hg
  refine ⟨fun t j => ∑ k ∈ Finset.range N, A t k * B k j, fun x hx => ?_⟩
  obtain ⟨h1, h2⟩ := hB x hx
  obtain ⟨h3, h4⟩ := hA (g x) h1
  refine ⟨h3, fun t ht => ?_⟩
  rw [h4 t ht]
  simp only [Finset.sum_mul]
  rw [Finset.sum_comm]
  refine Finset.sum_congr rfl fun k hk => ?_
  rw [h2 k (Finset.mem_range.1 hk), Finset.mul_sum]
  exact Finset.sum_congr rfl fun j _ => (mul_assoc _ _ _).symm

theorem IsMat.congr {N : Nat} {f g : List ℂ → List ℂ} (hf : IsMat N f) (h : ∀ x : List ℂ, x.length = N → g x = f x) : IsMat N g := by
  obtain ⟨A, hA⟩ := hf
  refine ⟨A, fun x hx => ?_⟩
  rw [h x hx]
  exact hA x hx

theorem isMat_roll (N : Nat) (d : Nat → Int) : IsMat N (fun x => Np.roll x (d x.length)) := by
  refine ⟨fun t j => if j = (((t : Int) - d N) % N).toNat then 1 else 0, fun x hx => ⟨by rw [Np.length_roll, hx], fun t ht => ?_⟩⟩
  have hN : (0 : Int) < N := by omega
  have h1 := Int.emod_nonneg ((t : Int) - d N) hN.ne'
  have h2 := Int.emod_lt_of_pos ((t : Int) - d N) hN
  rw [at0_roll x _ (by omega), hx, Finset.sum_eq_single (((t : Int) - d N) % N).toNat]
  · dsimp only
    rw [if_pos rfl, one_mul]
  · intro j _ hj
    dsimp only
    rw [if_neg hj, zero_mul]
  · intro h
    exact absurd (Finset.mem_range.2 (by omega)) h

theorem isMat_fft (N : Nat) : IsMat N fft := by
  refine ⟨fun t j => ew N (-((j : ℤ) * t)), fun x hx => ⟨by rw [length_fft, hx], fun t ht => ?_⟩⟩
  rw [at0_fft x (by omega), hx]
  exact Finset.sum_congr rfl fun j _ => mul_comm _ _

theorem isMat_ifft (N : Nat) : IsMat N ifft := by
  refine ⟨fun t j => ew N ((t : ℤ) * j) / N, fun x hx => ⟨by rw [length_ifft, hx], fun t ht => ?_⟩⟩
  rw [at0_ifft x (by omega), hx, Finset.sum_div]
  refine Finset.sum_congr rfl fun j _ => ?_
  ring

theorem isMat_mul {N : Nat} (h : List ℂ) (hl : h.length = N) : IsMat N (fun x => rowMul x h) := by
  refine ⟨fun t j => if j = t then at0 h t else 0, fun x hx => ⟨by rw [length_rowMul, hx, hl, Nat.min_self], fun t ht => ?_⟩⟩
  rw [at0_rowMul x h (by omega) (by omega), Finset.sum_eq_single t]
  · dsimp only
    rw [if_pos rfl, mul_comm]
  · intro j _ hj
    dsimp only
    rw [if_neg hj, zero_mul]
  · intro h
    exact absurd (Finset.mem_range.2 ht) h

theorem isMat_fftshift (N : Nat) : IsMat N fftshift := isMat_roll N fun n => ((n / 2 : Nat) : Int)

theorem isMat_ifftshift (N : Nat) : IsMat N ifftshift := isMat_roll N fun n => -((n / 2 : Nat) : Int)

/-- On pairs of rows of length `N` the function adds the products with two matrices. -/
def IsMat2 (N : Nat) (f : List ℂ → List ℂ → List ℂ) : Prop :=
  ∃ A B : Nat → Nat → ℂ, ∀ x y : List ℂ, x.length = N → y.length = N →
    (f x y).length = N ∧ ∀ t < N, at0 (f x y) t = ∑ j ∈ Finset.range N, A t j * at0 x j + ∑ j ∈ Finset.range N, B t j * at0 y j

theorem IsMat.comp2 {N : Nat} {f : List ℂ → List ℂ} {g : List ℂ → List ℂ → List ℂ} (hf : IsMat N f) (hg : IsMat2 N g) : IsMat2 N (fun x y => f (g x y)) := by
  obtain ⟨A, hA⟩ := hf
  obtain ⟨B, C, hB⟩ := hg
  refine ⟨fun t j => ∑ k ∈ Finset.range N, A t k * B k j, fun t j => ∑ k ∈ Finset.range N, A t k * C k j, fun x y hx hy => ?_⟩
  obtain ⟨h1, h2⟩ := hB x y hx hy
  obtain ⟨h3, h4⟩ := hA (g x y) h1
  refine ⟨h3, fun t ht => ?_⟩
  rw [h4 t ht]
  simp only [Finset.sum_mul]
  rw [Finset.sum_comm, Finset.sum_comm (s := Finset.range N) (t := Finset.range N) (f := fun j k => A t k * C k j * at0 y j), ← Finset.sum_add_distrib]
  refine Finset.sum_congr rfl fun k hk => ?_
  rw [h2 k (Finset.mem_range.1 hk), mul_add, Finset.mul_sum, Finset.mul_sum]
  simp only [mul_assoc]

theorem IsMat2.comb {N : Nat} {f g h : List ℂ → List ℂ → List ℂ} (hf : IsMat2 N f) (hg : IsMat2 N g) (a b : ℂ)
    (hh : ∀ x y : List ℂ, x.length = N → y.length = N → (f x y).length = N → (g x y).length = N →
      (h x y).length = N ∧ ∀ t < N, at0 (h x y) t = a * at0 (f x y) t + b * at0 (g x y) t) : IsMat2 N h := by
  obtain ⟨A, B, hA⟩ := hf
  obtain ⟨C, D, hC⟩ := hg
  refine ⟨fun t j => a * A t j + b * C t j, fun t j => a * B t j + b * D t j, fun x y hx hy => ?_⟩
  obtain ⟨h1, h2⟩ := hA x y hx hy
  obtain ⟨h3, h4⟩ := hC x y hx hy
  obtain ⟨h5, h6⟩ := hh x y hx hy h1 h3
  refine ⟨h5, fun t ht => ?_⟩
  rw [h6 t ht, h2 t ht, h4 t ht]
  simp only [add_mul, Finset.sum_add_distrib, mul_add, Finset.mul_sum, mul_assoc]
  ring

theorem IsMat.fst {N : Nat} {f : List ℂ → List ℂ} (hf : IsMat N f) : IsMat2 N (fun x _ => f x) := by
  obtain ⟨A, hA⟩ := hf
  refine ⟨A, fun _ _ => 0, fun x y hx _ => ⟨(hA x hx).1, fun t ht => ?_⟩⟩
  rw [(hA x hx).2 t ht]
  simp

theorem IsMat.snd {N : Nat} {f : List ℂ → List ℂ} (hf : IsMat N f) : IsMat2 N (fun _ y => f y) := by
  obtain ⟨A, hA⟩ := hf
  refine ⟨fun _ _ => 0, A, fun x y _ hy => ⟨(hA y hy).1, fun t ht => ?_⟩⟩
  rw [(hA y hy).2 t ht]
  simp

theorem IsMat2.congr {N : Nat} {f g : List ℂ → List ℂ → List ℂ} (hf : IsMat2 N f) (h : ∀ x y : List ℂ, x.length = N → y.length = N → g x y = f x y) : IsMat2 N g := by
  obtain ⟨A, B, hA⟩ := hf
  refine ⟨A, B, fun x y hx hy => ?_⟩
  rw [h x y hx hy]
  exact hA x y hx hy

end Qampy
