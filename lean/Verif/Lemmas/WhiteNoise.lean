import Verif.Props.Theory
import Mathlib.Probability.Distributions.Gaussian.Basic

/-!
Orthonormal combinations of independent complex normal variables are independent complex normal variables.
-/

namespace Qampy

open MeasureTheory ProbabilityTheory

/-- A draw as a complex number. -/
def toC (p : ℝ × ℝ) : ℂ := ⟨p.1, p.2⟩

theorem toC_eq (p : ℝ × ℝ) : toC p = p.1 + Complex.I * p.2 := by
  apply Complex.ext <;> simp [toC]

/-- Characteristic function of the draws. -/
theorem charFunDual_noise (N : Nat) (Λ : StrongDual ℝ (Fin N → ℝ × ℝ)) :
    charFunDual (noiseLaw N) Λ =
      Complex.exp (-(((∑ j, (Λ (Pi.single j (1, 0)) ^ 2 + Λ (Pi.single j (0, 1)) ^ 2)) / 2 : ℝ) : ℂ)) := by
  have h1 : ∀ l : StrongDual ℝ ℝ, charFunDual (gaussianReal 0 1) l = Complex.exp (-(((l 1) ^ 2 / 2 : ℝ) : ℂ)) := by
    intro l
    rw [charFunDual_eq_charFun_map_one, gaussianReal_map_continuousLinearMap, charFun_gaussianReal]
    congr 1
    simp [max_eq_left (sq_nonneg (l 1))]
  have h2 : ∀ l : StrongDual ℝ (ℝ × ℝ), charFunDual stdN2 l = Complex.exp (-(((l (1, 0)) ^ 2 / 2 + (l (0, 1)) ^ 2 / 2 : ℝ) : ℂ)) := by
    intro l
    rw [stdN2, charFunDual_prod, h1, h1, ← Complex.exp_add]
    congr 1
    simp
    ring
  rw [charFunDual_pi]
  simp_rw [h2]
  rw [← Complex.exp_sum]
  congr 1
  rw [Finset.sum_neg_distrib, ← Complex.ofReal_sum]
  congr 2
  rw [Finset.sum_div]
  refine Finset.sum_congr rfl fun j _ => ?_
  simp
  ring

/-- The combination with the coefficients `A` as a continuous linear map. -/
noncomputable def combine {N L : Nat} (A : Fin L → Fin N → ℂ) : (Fin N → ℝ × ℝ) →L[ℝ] (Fin L → ℂ) :=
  LinearMap.toContinuousLinearMap
    { toFun := fun w m => ∑ j, A m j * toC (w j)
      map_add' := by
        intro v w
        funext m
        simp only [Pi.add_apply, ← Finset.sum_add_distrib]
        refine Finset.sum_congr rfl fun j _ => ?_
        rw [← mul_add]
        congr 1
      map_smul' := by
        intro r w
        funext m
        simp only [Pi.smul_apply, Finset.smul_sum, RingHom.id_apply]
        refine Finset.sum_congr rfl fun j _ => ?_
        rw [Complex.real_smul, toC_eq, toC_eq]
        simp
        ring }

theorem combine_apply {N L : Nat} (A : Fin L → Fin N → ℂ) (w : Fin N → ℝ × ℝ) (m : Fin L) : combine A w m = ∑ j, A m j * toC (w j) := rfl

/-- A real functional of complex vectors. -/
theorem dual_apply {L : Nat} (Λ : StrongDual ℝ (Fin L → ℂ)) : ∃ c : Fin L → ℂ, ∀ v, Λ v = (∑ m, c m * v m).re := by
  refine ⟨fun m => ⟨Λ (Pi.single m 1), -Λ (Pi.single m Complex.I)⟩, fun v => ?_⟩
  have hv : v = ∑ m, ((v m).re • (Pi.single m 1 : Fin L → ℂ) + (v m).im • (Pi.single m Complex.I : Fin L → ℂ)) := by
    funext k
    rw [Finset.sum_apply, Finset.sum_eq_single k]
    · simp [Complex.re_add_im]
    · intro b _ hb
      simp [Pi.single_eq_of_ne hb.symm]
    · simp
  conv_lhs => rw [hv]
  rw [map_sum, Complex.re_sum]
  refine Finset.sum_congr rfl fun m _ => ?_
  rw [map_add, map_smul, map_smul]
  simp
  ring

/-- Orthonormal combinations have the law of the draws themselves. -/
theorem combine_law {N L : Nat} (A : Fin L → Fin N → ℂ) (hA : ∀ m m', ∑ j, A m j * (starRingEnd ℂ) (A m' j) = if m = m' then 1 else 0) :
    (noiseLaw N).map (fun w m => ∑ j, A m j * toC (w j)) = (noiseLaw L).map (fun w m => toC (w m)) := by
  have e1 : (fun (w : Fin N → ℝ × ℝ) (m : Fin L) => ∑ j, A m j * toC (w j)) = combine A := rfl
  have e2 : (fun (w : Fin L → ℝ × ℝ) (m : Fin L) => toC (w m)) = combine (fun m j : Fin L => if m = j then (1 : ℂ) else 0) := by
    funext w m
    rw [combine_apply]
    simp
  have key : ∀ (K : Nat) (B : Fin L → Fin K → ℂ), (∀ m m', ∑ j, B m j * (starRingEnd ℂ) (B m' j) = if m = m' then 1 else 0) →
      ∀ (Λ : StrongDual ℝ (Fin L → ℂ)) (c : Fin L → ℂ), (∀ v, Λ v = (∑ m, c m * v m).re) →
      charFunDual ((noiseLaw K).map (combine B)) Λ = Complex.exp (-(((∑ m, Complex.normSq (c m)) / 2 : ℝ) : ℂ)) := by
    intro K B hB Λ c hc
    rw [charFunDual_map, charFunDual_noise]
    congr 4
    have hd : ∀ j, (Λ.comp (combine B)) (Pi.single j (1, 0)) ^ 2 + (Λ.comp (combine B)) (Pi.single j (0, 1)) ^ 2 = Complex.normSq (∑ m, c m * B m j) := by
      intro j
      have hs : ∀ (p : ℝ × ℝ) (m : Fin L), combine B (Pi.single j p) m = B m j * toC p := by
        intro p m
        rw [combine_apply, Finset.sum_eq_single j]
        · simp
        · intro b _ hb
          rw [Pi.single_eq_of_ne hb, show toC (0 : ℝ × ℝ) = 0 from rfl, mul_zero]
        · simp
      have hs2 : ∀ p : ℝ × ℝ, (Λ.comp (combine B)) (Pi.single j p) = ((∑ m, c m * B m j) * toC p).re := by
        intro p
        rw [ContinuousLinearMap.comp_apply, hc, Finset.sum_mul]
        congr 1
        refine Finset.sum_congr rfl fun m _ => ?_
        rw [hs, mul_assoc]
      rw [hs2, hs2, Complex.normSq_apply]
      simp [toC, Complex.mul_re]
      ring
    rw [Finset.sum_congr rfl fun j _ => hd j]
    have hcx : (((∑ j, Complex.normSq (∑ m, c m * B m j)) : ℝ) : ℂ) = ((∑ m, Complex.normSq (c m) : ℝ) : ℂ) := by
      push_cast
      have h3 : ∀ j, ((Complex.normSq (∑ m, c m * B m j) : ℝ) : ℂ) = ∑ m, ∑ m', c m * (starRingEnd ℂ) (c m') * (B m j * (starRingEnd ℂ) (B m' j)) := by
        intro j
        rw [← Complex.mul_conj, map_sum, Finset.sum_mul_sum]
        refine Finset.sum_congr rfl fun m _ => Finset.sum_congr rfl fun m' _ => ?_
        rw [map_mul]
        ring
      rw [Finset.sum_congr rfl fun j _ => h3 j, Finset.sum_comm]
      refine Finset.sum_congr rfl fun m _ => ?_
      rw [Finset.sum_comm]
      simp_rw [← Finset.mul_sum, hB]
      simp [Complex.mul_conj]
    exact_mod_cast hcx
  rw [e1, e2]
  apply Measure.ext_of_charFunDual
  funext Λ
  obtain ⟨c, hc⟩ := dual_apply Λ
  rw [key N A hA Λ c hc, key L _ ?_ Λ c hc]
  intro m m'
  simp only [ite_mul, one_mul, zero_mul, Finset.sum_ite_eq, Finset.mem_univ, if_true]
  by_cases h : m = m'
  · subst h; simp
  · rw [if_neg h, if_neg (fun h' => h h'.symm), map_zero]

end Qampy
