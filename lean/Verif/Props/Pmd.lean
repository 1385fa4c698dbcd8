import Verif.Model.Pmd
import Verif.Props.Filters
import Mathlib.LinearAlgebra.Matrix.ConjTranspose

/-!
# The PMD response matrix: C168
-/

namespace Qampy

open Complex

/-- The frequencies of `apply_PMD_to_field`, core/impairments.py:130. -/
noncomputable def pmdOmega (fs : ℝ) (N : Nat) : List ℝ := (linspaceOpen (-fs / 2) (fs / 2) N).map (2 * Real.pi * ·)

/-- C168: both implementations of PMD give the same field. -/
def C168_statement : Prop := ∀ (x y : List ℂ) (theta t fs : ℝ), x.length = y.length → x ≠ [] →
  applyPMD [x, y] theta t fs = .ok (applyPMDEinsum x y (hPMD theta t (pmdOmega fs x.length)).1 (hPMD theta t (pmdOmega fs x.length)).2)

theorem exp_mul_conj_I (a : ℝ) : exp (I * (a : ℂ)) * exp (-(I * (a : ℂ))) = 1 := by rw [← exp_add]; simp

theorem pmdRot_mul (a b : ℝ) : pmdRot a * pmdRot b = pmdRot (a + b) := by
  unfold pmdRot
  rw [Matrix.mul_fin_two]
  simp only [Real.cos_add, Real.sin_add]
  congr 1
  push_cast
  ext i j
  fin_cases i <;> fin_cases j <;> simp <;> ring

theorem pmdRot_zero : pmdRot 0 = 1 := by
  unfold pmdRot
  ext i j
  fin_cases i <;> fin_cases j <;> simp

theorem pmdRot_conj (a : ℝ) : (pmdRot a).conjTranspose = pmdRot (-a) := by
  unfold pmdRot
  ext i j
  fin_cases i <;> fin_cases j <;> simp [Matrix.conjTranspose_apply, -Complex.ofReal_cos, -Complex.ofReal_sin, Complex.conj_ofReal]

theorem pmdDelay_conj_mul (t w : ℝ) : (pmdDelay t w).conjTranspose * pmdDelay t w = 1 := by
  have he := exp_mul_conj_I (w * t / 2)
  have c1 : (starRingEnd ℂ) (exp (I * ((w * t / 2 : ℝ) : ℂ))) = exp (-(I * ((w * t / 2 : ℝ) : ℂ))) := by
    rw [← exp_conj, map_mul, conj_I, conj_ofReal, neg_mul]
  have c2 : (starRingEnd ℂ) (exp (-(I * ((w * t / 2 : ℝ) : ℂ)))) = exp (I * ((w * t / 2 : ℝ) : ℂ)) := by
    rw [← c1, Complex.conj_conj]
  unfold pmdDelay
  generalize exp (I * ((w * t / 2 : ℝ) : ℂ)) = p at he c1 c2 ⊢
  generalize exp (-(I * ((w * t / 2 : ℝ) : ℂ))) = m at he c1 c2 ⊢
  ext i j
  fin_cases i <;> fin_cases j <;> simp only [Matrix.mul_apply, Fin.sum_univ_two, Matrix.conjTranspose_apply] <;> simp [c1, c2, he, mul_comm m p]

/-- C168: the matrix of every frequency is unitary and the last rotation undoes the first. -/
theorem C168_unitary (theta t : ℝ) (omega : List ℝ) :
    (∀ h ∈ (hPMD theta t omega).1, h.conjTranspose * h = 1) ∧ (hPMD theta t omega).2 * pmdRot theta = 1 := by
  constructor
  · intro h hh
    obtain ⟨w, -, rfl⟩ := List.mem_map.1 hh
    rw [Matrix.conjTranspose_mul, Matrix.mul_assoc, ← Matrix.mul_assoc (pmdRot theta).conjTranspose, pmdRot_conj, pmdRot_mul, neg_add_cancel,
      pmdRot_zero, Matrix.one_mul, pmdDelay_conj_mul]
  · show pmdRot (-theta) * pmdRot theta = 1
    rw [pmdRot_mul, neg_add_cancel, pmdRot_zero]

/-- C168: the matrices and the last rotation together do not depend on the angle of the principal axes: even as matrix products they delay the
observed axes, not the principal ones. -/
theorem C168_axes (theta t : ℝ) (omega : List ℝ) :
    (hPMD theta t omega).1.map ((hPMD theta t omega).2 * ·) = omega.map (pmdDelay t) := by
  show List.map _ (omega.map _) = _
  rw [List.map_map]
  apply List.map_congr_left
  intro w _
  show pmdRot (-theta) * (pmdRot theta * pmdDelay t w) = _
  rw [← Matrix.mul_assoc, pmdRot_mul, neg_add_cancel, pmdRot_zero, Matrix.one_mul]

theorem dotRows_rot (theta : ℝ) (x y : List ℂ) : dotRows (pmdRot theta) x y = [(rotateRows theta x y).1, (rotateRows theta x y).2] := by
  unfold dotRows rotateRows pmdRot
  simp

/-- What the matrix implementation does to a field. -/
theorem applyPMDEinsum_eq (x y : List ℂ) (theta t fs : ℝ) :
    applyPMDEinsum x y (hPMD theta t (pmdOmega fs x.length)).1 (hPMD theta t (pmdOmega fs x.length)).2 =
      (let r := rotateRows (-theta)
        (unspectrum (List.zipWith (fun (p : ℂ) a => ((Real.cos theta : ℂ) * p - (Real.sin theta : ℂ) * (starRingEnd ℂ) p) * a)
          (pmdH x.length fs t) (spectrum x)))
        (unspectrum (List.zipWith (fun (p : ℂ) a => ((Real.sin theta : ℂ) * p + (Real.cos theta : ℂ) * (starRingEnd ℂ) p) * a)
          (pmdH x.length fs t) (spectrum y)))
       [r.1, r.2]) := by
  have key : ∀ w : ℝ, exp (I * ((w * t / 2 : ℝ) : ℂ)) = (starRingEnd ℂ) (exp (-(I * ((w * t / 2 : ℝ) : ℂ)))) := by
    intro w
    rw [← exp_conj, map_neg, map_mul, conj_I, conj_ofReal]
    ring_nf
  unfold applyPMDEinsum
  show dotRows (pmdRot (-theta)) _ _ = _
  rw [dotRows_rot]
  have e : ∀ (f : Matrix (Fin 2) (Fin 2) ℂ → ℂ) (g : ℂ → ℂ) (z : List ℂ),
      (∀ w : ℝ, f (pmdRot theta * pmdDelay t w) = g (exp (-(I * ((w * t / 2 : ℝ) : ℂ))))) →
      List.zipWith (fun (m : Matrix (Fin 2) (Fin 2) ℂ) a => f m * a) (hPMD theta t (pmdOmega fs x.length)).1 z =
      List.zipWith (fun (p : ℂ) a => g p * a) (pmdH x.length fs t) z := by
    intro f g z hfg
    show List.zipWith _ ((pmdOmega fs x.length).map _) z = List.zipWith _ ((pmdOmega fs x.length).map _) z
    rw [List.zipWith_map_left, List.zipWith_map_left]
    congr 1
    funext w a
    rw [hfg]
  rw [e (fun m => m 0 0 + m 0 1) (fun p => (Real.cos theta : ℂ) * p - (Real.sin theta : ℂ) * (starRingEnd ℂ) p),
    e (fun m => m 1 0 + m 1 1) (fun p => (Real.sin theta : ℂ) * p + (Real.cos theta : ℂ) * (starRingEnd ℂ) p)]
  · intro w
    rw [← key]
    unfold pmdRot pmdDelay
    rw [Matrix.mul_fin_two]
    simp
  · intro w
    rw [← key]
    unfold pmdRot pmdDelay
    rw [Matrix.mul_fin_two]
    simp
    ring

/-- C168 for axes that are aligned with the principal ones. -/
theorem C168_aligned_partial (x y : List ℂ) (t fs : ℝ) (h : x.length = y.length) (h0 : x ≠ []) :
    applyPMD [x, y] 0 t fs = .ok (applyPMDEinsum x y (hPMD 0 t (pmdOmega fs x.length)).1 (hPMD 0 t (pmdOmega fs x.length)).2) := by
  have hs : (spectrum x).length = (spectrum y).length := by simp [h]
  rw [applyPMD_eq h h0, applyPMDEinsum_eq x y 0 t fs]
  simp only [neg_zero]
  have hc : ∀ w : ℝ, (starRingEnd ℂ) (exp (-(I * ((w * t / 2 : ℝ) : ℂ)))) = exp (-(I * ((w * (-t) / 2 : ℝ) : ℂ))) := by
    intro w
    rw [← exp_conj, map_neg, map_mul, conj_I, conj_ofReal]
    congr 1
    push_cast
    ring
  have e1 : List.zipWith (fun (p : ℂ) a => ((Real.cos 0 : ℂ) * p - (Real.sin 0 : ℂ) * (starRingEnd ℂ) p) * a) (pmdH x.length fs t) (spectrum x) =
      rowMul (spectrum x) (pmdH x.length fs t) := by
    unfold rowMul
    rw [List.zipWith_comm]
    congr 1
    funext a p
    simp [mul_comm]
  have e2 : List.zipWith (fun (p : ℂ) a => ((Real.sin 0 : ℂ) * p + (Real.cos 0 : ℂ) * (starRingEnd ℂ) p) * a) (pmdH x.length fs t) (spectrum y) =
      rowMul (spectrum y) (pmdH x.length fs (-t)) := by
    unfold rowMul pmdH
    rw [List.zipWith_comm]
    simp only [List.zipWith_map_right, hc, Real.sin_zero, Real.cos_zero, ofReal_zero, ofReal_one, zero_mul, zero_add, one_mul]
    congr 1
    funext a w
    exact mul_comm _ _
  rw [e1, e2, rotateRows_zero hs]
  dsimp only
  rw [rotateRows_zero (by simp [rowMul, h]), rotateRows_zero (by simp [rowMul, h])]

/-- C168: without any delay and with the principal axes at 45 degrees the matrix implementation extinguishes the first polarisation instead of
leaving the field as it is. -/
theorem C168_extinction (x : List ℂ) (fs : ℝ) :
    applyPMDEinsum x (x.map fun _ => 0) (hPMD (Real.pi / 4) 0 (pmdOmega fs x.length)).1 (hPMD (Real.pi / 4) 0 (pmdOmega fs x.length)).2 =
      [x.map fun _ => 0, x.map fun _ => 0] := by
  have hz : ∀ z : List ℂ, spectrum (z.map fun _ => (0 : ℂ)) = z.map fun _ => (0 : ℂ) := by
    intro z
    have h1 := spectrum_rowLin 0 0 (x := z) (y := z) rfl
    have h2 : ∀ v : List ℂ, rowLin 0 0 v v = v.map fun _ => (0 : ℂ) := by
      intro v
      unfold rowLin
      induction v with
      | nil => rfl
      | cons a v ih => simp
    rw [h2, h2] at h1
    rw [h1, List.map_const', List.map_const', length_spectrum]
  have hu : ∀ z : List ℂ, unspectrum (z.map fun _ => (0 : ℂ)) = z.map fun _ => (0 : ℂ) := by
    intro z
    conv_lhs => rw [← hz z]
    exact unspectrum_spectrum _
  have h0 : ∀ (g : ℂ → ℂ) (z : List ℂ), z.length = x.length → (∀ p ∈ pmdH x.length fs 0, ∀ a ∈ z, g p * a = 0) →
      List.zipWith (fun (p : ℂ) a => g p * a) (pmdH x.length fs 0) z = x.map fun _ => (0 : ℂ) := by
    intro g z hl hg
    apply List.ext_getElem (by simp [hl])
    intro n h1 h2
    rw [List.getElem_zipWith, List.getElem_map]
    exact hg _ (List.getElem_mem _) _ (List.getElem_mem _)
  have hp : ∀ p ∈ pmdH x.length fs 0, p = 1 := by
    intro p hp
    unfold pmdH at hp
    obtain ⟨w, -, rfl⟩ := List.mem_map.1 hp
    simp
  rw [applyPMDEinsum_eq]
  rw [h0 (fun p => (Real.cos (Real.pi / 4) : ℂ) * p - (Real.sin (Real.pi / 4) : ℂ) * (starRingEnd ℂ) p) (spectrum x) (by simp) (by
      intro p hpm a _
      rw [hp p hpm, Real.cos_pi_div_four, Real.sin_pi_div_four]
      simp),
    h0 (fun p => (Real.sin (Real.pi / 4) : ℂ) * p + (Real.cos (Real.pi / 4) : ℂ) * (starRingEnd ℂ) p) _ (by simp) (by
      intro p _ a ha
      rw [hz] at ha
      obtain ⟨_, -, rfl⟩ := List.mem_map.1 ha
      simp), hu]
  dsimp only
  unfold rotateRows
  have hr : ∀ (u v : ℂ) (z : List ℂ), List.zipWith (fun a b => u * a + v * b) (z.map fun _ => (0 : ℂ)) (z.map fun _ => (0 : ℂ)) = z.map fun _ => (0 : ℂ) := by
    intro u v z
    induction z with
    | nil => rfl
    | cons a z ih => simp
  rw [hr, hr]

theorem C168_false : ¬ C168_statement := by
  intro H
  have h := H [1] [0] (Real.pi / 4) 0 1 rfl (by simp)
  rw [C39_zero (x := [1]) (y := [0]) rfl (by simp)] at h
  have h2 := C168_extinction [1] 1
  simp only [List.map_cons, List.map_nil] at h2
  rw [h2] at h
  simp at h

/-- A field of two polarisations through a quarter of a period of delay: both implementations agree for aligned axes. -/
example : applyPMD [[1, I], [2, 3]] 0 (1 / 4) 1 =
    .ok (applyPMDEinsum [1, I] [2, 3] (hPMD 0 (1 / 4) (pmdOmega 1 2)).1 (hPMD 0 (1 / 4) (pmdOmega 1 2)).2) :=
  C168_aligned_partial [1, I] [2, 3] (1 / 4) 1 rfl (by simp)

end Qampy
