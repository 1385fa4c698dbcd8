import Verif.Props.Info
import Verif.Props.Stats
import Mathlib.Analysis.Complex.ExponentialBounds

/-!
# C242: information rates between the error free limit and the capacity of the channel
-/

namespace Qampy

open MeasureTheory ProbabilityTheory

theorem log_one_add_le_sqrt {x : ℝ} (hx : 0 ≤ x) : Real.log (1 + x ^ 2) ≤ x := by
  rw [Real.log_le_iff_le_exp (by positivity)]
  have h1 := Real.quadratic_le_exp_of_nonneg hx
  by_cases h : x ≤ 2
  · nlinarith
  · push Not at h
    have h2 : Real.exp x = Real.exp (x / 2) ^ 2 := by rw [← Real.exp_nat_mul]; congr 1; push_cast; ring
    have h3 := Real.quadratic_le_exp_of_nonneg (x := x / 2) (by linarith)
    have h4 : x ≤ Real.exp (x / 2) := by nlinarith
    nlinarith [sq_nonneg (x - 2)]

theorem log_one_add_sum {ι : Type} (A : Finset ι) (x : ι → ℝ) (hx : ∀ j ∈ A, 0 ≤ x j) : Real.log (1 + ∑ j ∈ A, x j ^ 2) ≤ ∑ j ∈ A, x j := by
  classical
  induction A using Finset.induction_on with
  | empty => simp
  | insert a A ha ih =>
    rw [Finset.sum_insert ha, Finset.sum_insert ha]
    have h1 := ih fun j hj => hx j (Finset.mem_insert_of_mem hj)
    have h2 := log_one_add_le_sqrt (hx a (Finset.mem_insert_self a A))
    have h3 : 0 ≤ ∑ j ∈ A, x j ^ 2 := Finset.sum_nonneg fun j _ => sq_nonneg _
    have h4 : Real.log (1 + (x a ^ 2 + ∑ j ∈ A, x j ^ 2)) ≤ Real.log ((1 + x a ^ 2) * (1 + ∑ j ∈ A, x j ^ 2)) := by
      apply Real.log_le_log (by positivity)
      nlinarith [mul_nonneg (sq_nonneg (x a)) h3]
    rw [Real.log_mul (by positivity) (by positivity)] at h4
    linarith

/-- Square root of the ratio of the densities of two symbols. -/
noncomputable def rootRatio (N0 : ℝ) (s t y : ℂ) : ℝ := Real.exp (-(‖y - t‖ ^ 2 - ‖y - s‖ ^ 2) / (2 * N0))

theorem rootRatio_avg {N0 : ℝ} (h0 : 0 < N0) (s t : ℂ) :
    Integrable (fun z => rootRatio N0 s t (rcv N0 s z)) stdN2 ∧ ∫ z, rootRatio N0 s t (rcv N0 s z) ∂stdN2 = Real.exp (-‖s - t‖ ^ 2 / (4 * N0)) := by
  have hm : Measurable (rootRatio N0 s t) := by
    unfold rootRatio
    fun_prop
  obtain ⟨k1, k2⟩ := ch_integral h0 s hm
  have e : ∀ p : ℝ × ℝ, chDens N0 s (mkC p) * rootRatio N0 s t (mkC p) = chDens N0 ((s + t) / 2) (mkC p) * Real.exp (-‖s - t‖ ^ 2 / (4 * N0)) := by
    intro p
    unfold chDens rootRatio
    rw [mul_assoc, mul_assoc, ← Real.exp_add, ← Real.exp_add]
    congr 2
    have hid : ‖mkC p - s‖ ^ 2 + ‖mkC p - t‖ ^ 2 = 2 * ‖mkC p - (s + t) / 2‖ ^ 2 + ‖s - t‖ ^ 2 / 2 := by
      simp only [← Complex.normSq_eq_norm_sq, Complex.normSq_apply, Complex.sub_re, Complex.sub_im, Complex.div_ofNat_re, Complex.div_ofNat_im, Complex.add_re, Complex.add_im]
      ring
    generalize ‖mkC p - (s + t) / 2‖ = c at hid ⊢
    generalize ‖mkC p - s‖ = a at hid ⊢
    generalize ‖mkC p - t‖ = b at hid ⊢
    generalize ‖s - t‖ = d at hid ⊢
    field_simp
    linarith
  simp only [e] at k1 k2
  obtain ⟨i1, i2⟩ := chDens_integrable h0 ((s + t) / 2)
  refine ⟨k1 (i1.mul_const _), ?_⟩
  rw [k2, integral_mul_const, i2, one_mul]

/-- The average loss for symbol `i` is at most the sum of the Bhattacharyya coefficients of the symbols outside the set. -/
theorem avgLog_bhatt {M : Nat} (S : Fin M → ℂ) {N0 : ℝ} (h0 : 0 < N0) {A : Finset (Fin M)} {i : Fin M} (hi : i ∈ A) :
    avgLog S N0 A i ≤ ∑ j ∈ Finset.univ \ A, Real.exp (-‖S i - S j‖ ^ 2 / (4 * N0)) := by
  have hb : Integrable (fun z => ∑ j ∈ Finset.univ \ A, rootRatio N0 (S i) (S j) (rcv N0 (S i) z)) stdN2 := integrable_finsetSum _ fun j _ => (rootRatio_avg h0 (S i) (S j)).1
  have h1 : avgLog S N0 A i ≤ ∫ z, ∑ j ∈ Finset.univ \ A, rootRatio N0 (S i) (S j) (rcv N0 (S i) z) ∂stdN2 := by
    unfold avgLog
    refine integral_mono (avgLog_eq S h0 hi).1 hb fun z => ?_
    dsimp only
    generalize rcv N0 (S i) z = y
    refine le_trans ?_ (log_one_add_sum _ (fun j => rootRatio N0 (S i) (S j) y) fun j _ => (Real.exp_pos _).le)
    have hA := sumDens_pos S h0 ⟨i, hi⟩ y
    have hci : chDens N0 (S i) y ≤ sumDens S N0 A y := Finset.single_le_sum (f := fun j => chDens N0 (S j) y) (fun j _ => (chDens_pos h0 _ _).le) hi
    have hsq : ∀ j, rootRatio N0 (S i) (S j) y ^ 2 = Real.exp (-(‖y - S j‖ ^ 2 - ‖y - S i‖ ^ 2) / N0) := by
      intro j
      unfold rootRatio
      rw [← Real.exp_nat_mul]
      congr 1
      push_cast
      field_simp
    have hU : sumDens S N0 Finset.univ y = sumDens S N0 A y + sumDens S N0 (Finset.univ \ A) y := by
      unfold sumDens
      rw [add_comm, Finset.sum_sdiff (Finset.subset_univ A)]
    have hB : 0 ≤ ∑ j ∈ Finset.univ \ A, rootRatio N0 (S i) (S j) y ^ 2 := Finset.sum_nonneg fun j _ => sq_nonneg _
    have hpos : 0 < sumDens S N0 Finset.univ y := sumDens_pos S h0 ⟨i, Finset.mem_univ _⟩ y
    apply Real.log_le_log (div_pos hpos hA)
    rw [div_le_iff₀ hA, hU, sumDens_exp S (Finset.univ \ A) i, add_mul, one_mul]
    simp only [← hsq]
    nlinarith [mul_le_mul_of_nonneg_right hci hB]
  refine h1.trans (le_of_eq ?_)
  rw [integral_finsetSum _ fun j _ => (rootRatio_avg h0 (S i) (S j)).1]
  exact Finset.sum_congr rfl fun j _ => (rootRatio_avg h0 (S i) (S j)).2

/-- **C242** The mutual information falls short of the bits per symbol by no more than the sum of the Bhattacharyya coefficients of all pairs of symbols, so exponentially little at high SNR. -/
theorem C242_mi {M : Nat} (hM : 0 < M) (S : Fin M → ℂ) {N0 : ℝ} (h0 : 0 < N0) :
    Real.logb 2 M - (∑ i, ∑ j with j ≠ i, Real.exp (-‖S i - S j‖ ^ 2 / (4 * N0))) / (M * Real.log 2) ≤ mutualInfo S N0 := by
  have hl2 : 0 < Real.log 2 := Real.log_pos (by norm_num)
  have hM' : (0 : ℝ) < M := by exact_mod_cast hM
  rw [mutualInfo_eq S h0 hM, div_div, mul_comm (Real.log 2)]
  apply sub_le_sub_left
  apply div_le_div_of_nonneg_right _ (by positivity)
  refine Finset.sum_le_sum fun i _ => (avgLog_bhatt S h0 (Finset.mem_singleton_self i)).trans (le_of_eq ?_)
  apply Finset.sum_congr _ fun _ _ => rfl
  ext j
  simp

/-- Every bit of the label is true for half of the symbols. -/
theorem labelBit_half {k : Nat} (S : Fin (2 ^ k) → ℂ) (bit : Fin k) (c : Bool) : (Finset.univ.filter fun j => labelBit k j bit = c).card * 2 = 2 ^ k := by
  obtain ⟨m, hm, -, hcol⟩ := C17_bitmap k (List.ofFn S) (by simp)
  rw [bitmapMtx_ofFn] at hm
  cases hm
  obtain ⟨h1, h2, -⟩ := hcol bit (bitmapColumn k (List.ofFn S) bit) (by simp)
  rw [bitmapColumn_ofFn] at h1 h2
  have hlen : ∀ b : Fin (2 ^ k) → Bool, ((Np.select (List.ofFn S) (List.ofFn b)).length : ℝ) = ((Finset.univ.filter fun j => b j = true).card : ℝ) := by
    intro b
    have := select_sum _ S b fun _ => 1
    simpa using this
  have e : 2 ^ (k - 1) * 2 = 2 ^ k := by
    rw [← pow_succ]
    congr 1
    have := bit.2
    omega
  refine Eq.trans ?_ e
  congr 1
  cases c
  · have := hlen fun l => !labelBit k l bit
    dsimp only at h1
    rw [h1] at this
    have h3 : 2 ^ (k - 1) = (Finset.univ.filter fun j => (!labelBit k j bit) = true).card := by exact_mod_cast this
    rw [h3]
    congr 1
    ext j
    simp
  · have := hlen fun l => labelBit k l bit
    dsimp only at h2
    rw [h2] at this
    have h3 : 2 ^ (k - 1) = (Finset.univ.filter fun j => labelBit k j bit = true).card := by exact_mod_cast this
    exact h3.symm

/-- **C242** The same for the generalised mutual information: every pair of symbols counts once for each bit in which their labels differ. -/
theorem C242_gmi {k : Nat} (S : Fin (2 ^ k) → ℂ) {N0 : ℝ} (h0 : 0 < N0) :
    k - (∑ i, ∑ j, (Finset.univ.filter fun bit : Fin k => labelBit k j bit ≠ labelBit k i bit).card * Real.exp (-‖S i - S j‖ ^ 2 / (4 * N0))) / (2 ^ k * Real.log 2)
      ≤ ∑ bit : Fin k, bitInfo S (fun l => labelBit k l bit) N0 := by
  have hl2 : 0 < Real.log 2 := Real.log_pos (by norm_num)
  have hM' : (0 : ℝ) < 2 ^ k := by positivity
  have h1 : ∀ bit : Fin k, 1 - (∑ i, ∑ j with labelBit k j bit ≠ labelBit k i bit, Real.exp (-‖S i - S j‖ ^ 2 / (4 * N0))) / (2 ^ k * Real.log 2) ≤ bitInfo S (fun l => labelBit k l bit) N0 := by
    intro bit
    rw [bitInfo_eq S _ h0]
    have hone : ∀ i : Fin (2 ^ k), Real.logb 2 (((2 ^ k : ℕ) : ℝ) / (Finset.univ.filter fun j => labelBit k j bit = labelBit k i bit).card) = 1 := by
      intro i
      have hc := labelBit_half S bit (labelBit k i bit)
      have hc' : ((Finset.univ.filter fun j => labelBit k j bit = labelBit k i bit).card : ℝ) * 2 = ((2 ^ k : ℕ) : ℝ) := by exact_mod_cast hc
      have hpos : (0 : ℝ) < (Finset.univ.filter fun j => labelBit k j bit = labelBit k i bit).card := by
        have : (0 : ℝ) < ((2 ^ k : ℕ) : ℝ) := by positivity
        linarith
      rw [← hc', mul_div_cancel_left₀ _ hpos.ne', Real.logb_self_eq_one (by norm_num)]
    simp only [hone]
    rw [Finset.sum_sub_distrib, ← Finset.sum_div, sub_div, Finset.sum_const, Finset.card_univ, Fintype.card_fin, nsmul_eq_mul, mul_one, div_self (by positivity), div_div, mul_comm (Real.log 2)]
    push_cast
    apply sub_le_sub_left
    apply div_le_div_of_nonneg_right _ (by positivity)
    refine Finset.sum_le_sum fun i _ => (avgLog_bhatt S h0 (by simp)).trans (le_of_eq ?_)
    apply Finset.sum_congr _ fun _ _ => rfl
    ext j
    simp
  refine le_trans (le_of_eq ?_) (Finset.sum_le_sum fun bit _ => h1 bit)
  rw [Finset.sum_sub_distrib, ← Finset.sum_div]
  congr 1
  · simp
  · congr 1
    symm
    rw [Finset.sum_comm]
    apply Finset.sum_congr rfl
    intro i _
    simp_rw [Finset.sum_filter]
    rw [Finset.sum_comm]
    apply Finset.sum_congr rfl
    intro j _
    rw [← Finset.sum_filter, Finset.sum_const, nsmul_eq_mul]

theorem quad_integral (c a1 a2 b : ℝ) :
    Integrable (fun z : ℝ × ℝ => c + a1 * z.1 + a2 * z.2 + b * (z.1 ^ 2 + z.2 ^ 2)) stdN2 ∧ ∫ z : ℝ × ℝ, (c + a1 * z.1 + a2 * z.2 + b * (z.1 ^ 2 + z.2 ^ 2)) ∂stdN2 = c + 2 * b := by
  obtain ⟨m1, e1, v1⟩ := stdN2_fst_moments
  obtain ⟨m2, e2, v2⟩ := stdN2_snd_moments
  have i1 : Integrable (fun z : ℝ × ℝ => z.1) stdN2 := m1.integrable (by norm_num)
  have i2 : Integrable (fun z : ℝ × ℝ => z.2) stdN2 := m2.integrable (by norm_num)
  have q1 : Integrable (fun z : ℝ × ℝ => z.1 ^ 2) stdN2 := m1.integrable_sq
  have q2 : Integrable (fun z : ℝ × ℝ => z.2 ^ 2) stdN2 := m2.integrable_sq
  have w1 : ∫ z : ℝ × ℝ, z.1 ^ 2 ∂stdN2 = 1 := by
    have := variance_eq_sub m1
    rw [e1, v1] at this
    simpa using this.symm
  have w2 : ∫ z : ℝ × ℝ, z.2 ^ 2 ∂stdN2 = 1 := by
    have := variance_eq_sub m2
    rw [e2, v2] at this
    simpa using this.symm
  have j1 : Integrable (fun z : ℝ × ℝ => c + a1 * z.1) stdN2 := (integrable_const c).add (i1.const_mul a1)
  have j2 : Integrable (fun z : ℝ × ℝ => c + a1 * z.1 + a2 * z.2) stdN2 := j1.add (i2.const_mul a2)
  have j3 : Integrable (fun z : ℝ × ℝ => b * (z.1 ^ 2 + z.2 ^ 2)) stdN2 := (q1.add q2).const_mul b
  refine ⟨j2.add j3, ?_⟩
  rw [integral_add j2 j3, integral_add j1 (i2.const_mul a2), integral_add (integrable_const c) (i1.const_mul a1), integral_const_mul, integral_const_mul, integral_const_mul, integral_add q1 q2, e1, e2, w1, w2]
  simp
  ring

/-- Average of the logarithm of the ratio of the density of the channel to a centred Gaussian density. -/
theorem log_gauss_avg {N0 V : ℝ} (h0 : 0 < N0) (hV : 0 < V) (s : ℂ) :
    Integrable (fun z => Real.log (chDens N0 s (rcv N0 s z) / chDens V 0 (rcv N0 s z))) stdN2 ∧
    ∫ z, Real.log (chDens N0 s (rcv N0 s z) / chDens V 0 (rcv N0 s z)) ∂stdN2 = Real.log (V / N0) + (‖s‖ ^ 2 + N0) / V - 1 := by
  have hpi := Real.pi_pos
  obtain ⟨g, hg⟩ : ∃ g, g = Real.sqrt (N0 / 2) := ⟨_, rfl⟩
  have hg2 : g ^ 2 = N0 / 2 := by rw [hg, Real.sq_sqrt (by positivity)]
  have e : ∀ z : ℝ × ℝ, Real.log (chDens N0 s (rcv N0 s z) / chDens V 0 (rcv N0 s z)) =
      (Real.log (V / N0) + ‖s‖ ^ 2 / V) + (2 * g * s.re / V) * z.1 + (2 * g * s.im / V) * z.2 + (g ^ 2 / V - g ^ 2 / N0) * (z.1 ^ 2 + z.2 ^ 2) := by
    intro z
    have hr : chDens N0 s (rcv N0 s z) / chDens V 0 (rcv N0 s z) = (V / N0) * Real.exp (-‖rcv N0 s z - s‖ ^ 2 / N0 - -‖rcv N0 s z - 0‖ ^ 2 / V) := by
      unfold chDens
      rw [Real.exp_sub]
      have h1 := (Real.exp_pos (-‖rcv N0 s z - 0‖ ^ 2 / V)).ne'
      field_simp
    rw [hr, Real.log_mul (by positivity) (Real.exp_pos _).ne', Real.log_exp]
    have n1 : ‖rcv N0 s z - s‖ ^ 2 = g ^ 2 * (z.1 ^ 2 + z.2 ^ 2) := by
      simp only [← Complex.normSq_eq_norm_sq, Complex.normSq_apply, rcv, add_sub_cancel_left, ← hg]
      ring
    have n2 : ‖rcv N0 s z - 0‖ ^ 2 = ‖s‖ ^ 2 + 2 * g * (s.re * z.1 + s.im * z.2) + g ^ 2 * (z.1 ^ 2 + z.2 ^ 2) := by
      simp only [← Complex.normSq_eq_norm_sq, Complex.normSq_apply, rcv, sub_zero, Complex.add_re, Complex.add_im, ← hg]
      ring
    rw [n1, n2]
    ring
  simp only [e]
  obtain ⟨q1, q2⟩ := quad_integral (Real.log (V / N0) + ‖s‖ ^ 2 / V) (2 * g * s.re / V) (2 * g * s.im / V) (g ^ 2 / V - g ^ 2 / N0)
  refine ⟨q1, ?_⟩
  rw [q2, hg2]
  field_simp
  ring

/-- **C242** No constellation carries more than the capacity of the channel: with mean power `P` the mutual information is at most `log2 (1 + P / N0)`. -/
theorem C242_capacity {M : Nat} (hM : 0 < M) (S : Fin M → ℂ) {N0 : ℝ} (h0 : 0 < N0) : mutualInfo S N0 ≤ Real.logb 2 (1 + (∑ i, ‖S i‖ ^ 2) / M / N0) := by
  have hl2 : 0 < Real.log 2 := Real.log_pos (by norm_num)
  have hM' : (0 : ℝ) < M := by exact_mod_cast hM
  obtain ⟨P, hP⟩ : ∃ P, P = (∑ i, ‖S i‖ ^ 2) / M := ⟨_, rfl⟩
  have hP0 : 0 ≤ P := by rw [hP]; positivity
  obtain ⟨V, hV⟩ : ∃ V, V = N0 + P := ⟨_, rfl⟩
  have hV0 : 0 < V := by rw [hV]; linarith
  -- the ratio of the Gaussian density to the density of the received value
  obtain ⟨r, hr⟩ : ∃ r : ℂ → ℝ, r = fun y => chDens V 0 y / (sumDens S N0 Finset.univ y / M) := ⟨_, rfl⟩
  have hrm : Measurable r := by rw [hr]; exact (measurable_chDens V 0).div ((measurable_sumDens S N0 _).div_const _)
  have hU : ∀ y, 0 < sumDens S N0 Finset.univ y := fun y => sumDens_pos S h0 ⟨⟨0, hM⟩, Finset.mem_univ _⟩ y
  obtain ⟨gi, gI⟩ := chDens_integrable hV0 0
  have hri : ∀ i, Integrable (fun p => chDens N0 (S i) (mkC p) * r (mkC p)) (volume : Measure (ℝ × ℝ)) := by
    intro i
    refine (gi.const_mul (M : ℝ)).mono' (((measurable_chDens N0 _).comp measurable_mkC).mul (hrm.comp measurable_mkC)).aestronglyMeasurable (Filter.Eventually.of_forall fun p => ?_)
    rw [hr]
    have h1 := hU (mkC p)
    have h2 := chDens_pos h0 (S i) (mkC p)
    have h3 := chDens_pos hV0 0 (mkC p)
    have h4 : chDens N0 (S i) (mkC p) ≤ sumDens S N0 Finset.univ (mkC p) := Finset.single_le_sum (f := fun j => chDens N0 (S j) (mkC p)) (fun j _ => (chDens_pos h0 _ _).le) (Finset.mem_univ i)
    rw [Real.norm_of_nonneg (by positivity)]
    dsimp only
    rw [div_div_eq_mul_div, mul_div_assoc', div_le_iff₀ h1]
    nlinarith [mul_le_mul_of_nonneg_left h4 (mul_nonneg h3.le hM'.le)]
  have hsum : ∑ i, ∫ z, r (rcv N0 (S i) z) ∂stdN2 = M := by
    have h1 : ∀ i, ∫ z, r (rcv N0 (S i) z) ∂stdN2 = ∫ p : ℝ × ℝ, chDens N0 (S i) (mkC p) * r (mkC p) := fun i => (ch_integral h0 (S i) hrm).2
    simp only [h1]
    rw [← integral_finsetSum _ fun i _ => hri i]
    have h2 : ∀ p : ℝ × ℝ, ∑ i, chDens N0 (S i) (mkC p) * r (mkC p) = M * chDens V 0 (mkC p) := by
      intro p
      rw [← Finset.sum_mul, hr]
      have h3 := (hU (mkC p)).ne'
      have h4 : ∑ i, chDens N0 (S i) (mkC p) = sumDens S N0 Finset.univ (mkC p) := rfl
      rw [h4]
      field_simp
    simp only [h2]
    rw [integral_const_mul, gI, mul_one]
  have hterm : ∀ i, Real.log M - avgLog S N0 {i} i ≤ (Real.log (V / N0) + (‖S i‖ ^ 2 + N0) / V - 1) + (∫ z, r (rcv N0 (S i) z) ∂stdN2 - 1) := by
    intro i
    obtain ⟨a1, a2⟩ := log_gauss_avg h0 hV0 (S i)
    have b1 := (avgLog_eq S h0 (Finset.mem_singleton_self i)).1
    have c1 : Integrable (fun z => r (rcv N0 (S i) z)) stdN2 := (ch_integral h0 (S i) hrm).1 (hri i)
    have d1 : Integrable (fun z => r (rcv N0 (S i) z) - 1) stdN2 := c1.sub (integrable_const _)
    have h1 : ∫ z, (Real.log M - Real.log (sumDens S N0 Finset.univ (rcv N0 (S i) z) / sumDens S N0 {i} (rcv N0 (S i) z))) ∂stdN2 ≤
        ∫ z, (Real.log (chDens N0 (S i) (rcv N0 (S i) z) / chDens V 0 (rcv N0 (S i) z)) + (r (rcv N0 (S i) z) - 1)) ∂stdN2 := by
      refine integral_mono ((integrable_const _).sub b1) (a1.add d1) fun z => ?_
      dsimp only
      generalize rcv N0 (S i) z = y
      have h2 := hU y
      have h3 := chDens_pos h0 (S i) y
      have h4 := chDens_pos hV0 0 y
      have hry : 0 < r y := by rw [hr]; positivity
      have h5 := Real.log_le_sub_one_of_pos hry
      have h6 : sumDens S N0 {i} y = chDens N0 (S i) y := by simp [sumDens]
      have h7 : Real.log (r y) = Real.log (chDens V 0 y) - (Real.log (sumDens S N0 Finset.univ y) - Real.log M) := by
        rw [hr]
        dsimp only
        rw [Real.log_div h4.ne' (by positivity), Real.log_div h2.ne' hM'.ne']
      rw [h6, Real.log_div h2.ne' h3.ne', Real.log_div h3.ne' h4.ne']
      linarith
    rw [integral_sub (integrable_const _) b1, integral_add a1 d1, integral_sub c1 (integrable_const _), a2] at h1
    simpa [avgLog] using h1
  have htot := Finset.sum_le_sum fun (i : Fin M) (_ : i ∈ Finset.univ) => hterm i
  rw [Finset.sum_add_distrib, Finset.sum_sub_distrib, Finset.sum_sub_distrib, Finset.sum_sub_distrib, Finset.sum_add_distrib, hsum, ← Finset.sum_div, Finset.sum_add_distrib] at htot
  simp only [Finset.sum_const, Finset.card_univ, Fintype.card_fin, nsmul_eq_mul, mul_one] at htot
  have hS : ∑ i, ‖S i‖ ^ 2 = M * P := by rw [hP]; field_simp
  have hone : (∑ i, ‖S i‖ ^ 2 + M * N0) / V = M := by
    rw [hS, div_eq_iff hV0.ne', hV]
    ring
  rw [hone] at htot
  have hVN : V / N0 = 1 + P / N0 := by rw [hV]; field_simp
  rw [mutualInfo_eq S h0 hM, ← hP, ← hVN, Real.logb, Real.logb, div_div, mul_comm (Real.log 2), ← div_div, ← sub_div]
  apply div_le_div_of_nonneg_right _ hl2.le
  rw [sub_le_iff_le_add, ← sub_le_iff_le_add', le_div_iff₀ hM']
  linarith

/-- **C242** The average of `sim_mi_mc`, which scales the constellation to power one, is below the capacity at the SNR it is given. -/
theorem C242_sim {M n : Nat} (hn : 0 < n) (S : Fin M → ℂ) (hS : ∃ i, S i ≠ 0) (snrDb : ℝ) :
    ∫ d : Fin n → ℝ × ℝ, simMiMc (List.ofFn S) snrDb (List.ofFn d) ∂noiseLaw n ≤ Real.logb 2 (1 + (10 : ℝ) ^ (snrDb / 10)) := by
  obtain ⟨h1, -, h2, -⟩ := C120_mi hn S hS snrDb
  obtain ⟨i0, -⟩ := hS
  have h3 := C242_capacity i0.pos (fun i => S i / ((Real.sqrt ((∑ i, ‖S i‖ ^ 2) / M) : ℝ) : ℂ)) (N0 := (10 : ℝ) ^ (-snrDb / 10)) (Real.rpow_pos_of_pos (by norm_num) _)
  rw [h1, one_div, ← Real.rpow_neg (by norm_num), show -(-snrDb / 10) = snrDb / 10 by ring] at h3
  rw [h2]
  exact h3

/-- **C242** The average of the values of `theory.cal_gmi` lies between the bits per symbol less the sum over the pairs of symbols and the capacity. -/
theorem C242_theory {k n : Nat} (hn : 0 < n) (S : Fin (2 ^ k) → ℂ) (snrDb : ℝ) :
    ∃ g : (Fin n → ℝ × ℝ) → ℝ, (∀ d, theoryGmi k (List.ofFn S) snrDb (List.ofFn d) = .ok (g d)) ∧
      k - (∑ i, ∑ j, (Finset.univ.filter fun bit : Fin k => labelBit k j bit ≠ labelBit k i bit).card * Real.exp (-‖S i - S j‖ ^ 2 / (4 * (10 : ℝ) ^ (-snrDb / 10)))) / (2 ^ k * Real.log 2)
        ≤ ∫ d, g d ∂noiseLaw n ∧
      ∫ d, g d ∂noiseLaw n ≤ Real.logb 2 (1 + (∑ i, ‖S i‖ ^ 2) / 2 ^ k * (10 : ℝ) ^ (snrDb / 10)) := by
  obtain ⟨g, h1, -, h2, -, h3⟩ := C121_gmi hn S snrDb
  have h0 : (0 : ℝ) < (10 : ℝ) ^ (-snrDb / 10) := Real.rpow_pos_of_pos (by norm_num) _
  refine ⟨g, h1, ?_, ?_⟩
  · rw [h2]
    exact C242_gmi S h0
  · rw [h2]
    refine h3.trans ((C242_capacity (by positivity) S h0).trans (le_of_eq ?_))
    rw [div_eq_mul_inv _ ((10 : ℝ) ^ (-snrDb / 10)), ← Real.rpow_neg (by norm_num), show -(-snrDb / 10) = snrDb / 10 by ring]
    push_cast
    rfl

/-- **C242** The limits: without noise the symbols carry all their bits, in very strong noise nothing. -/
theorem C242_limits {M : Nat} (hM : 0 < M) (S : Fin M → ℂ) (hS : Function.Injective S) :
    Filter.Tendsto (fun N0 => mutualInfo S N0) (nhdsWithin 0 (Set.Ioi 0)) (nhds (Real.logb 2 M)) ∧ Filter.Tendsto (fun N0 => mutualInfo S N0) Filter.atTop (nhds 0) := by
  constructor
  · have h1 : Filter.Tendsto (fun N0 : ℝ => Real.logb 2 M - (∑ i, ∑ j with j ≠ i, Real.exp (-‖S i - S j‖ ^ 2 / (4 * N0))) / (M * Real.log 2)) (nhdsWithin 0 (Set.Ioi 0)) (nhds (Real.logb 2 M - 0 / (M * Real.log 2))) := by
      refine tendsto_const_nhds.sub (Filter.Tendsto.div_const ?_ _)
      have h2 : Filter.Tendsto (fun N0 : ℝ => ∑ i, ∑ j with j ≠ i, Real.exp (-‖S i - S j‖ ^ 2 / (4 * N0))) (nhdsWithin 0 (Set.Ioi 0)) (nhds (∑ i : Fin M, ∑ j : Fin M with j ≠ i, (0 : ℝ))) := by
        refine tendsto_finsetSum _ fun i _ => tendsto_finsetSum _ fun j hj => ?_
        have hne : j ≠ i := (Finset.mem_filter.1 hj).2
        have hd : 0 < ‖S i - S j‖ ^ 2 / 4 := by
          have : S i - S j ≠ 0 := sub_ne_zero.2 fun h => hne (hS h).symm
          positivity
        have e : ∀ N0 : ℝ, -‖S i - S j‖ ^ 2 / (4 * N0) = -(‖S i - S j‖ ^ 2 / 4 * N0⁻¹) := fun N0 => by
          rw [← div_div, div_eq_mul_inv (-‖S i - S j‖ ^ 2 / 4)]
          ring
        simp only [e]
        exact Real.tendsto_exp_neg_atTop_nhds_zero.comp (tendsto_inv_nhdsGT_zero.const_mul_atTop hd)
      simpa using h2
    rw [zero_div, sub_zero] at h1
    refine tendsto_of_tendsto_of_tendsto_of_le_of_le' h1 tendsto_const_nhds ?_ ?_
    · filter_upwards [self_mem_nhdsWithin] with N0 h0
      exact C242_mi hM S h0
    · filter_upwards [self_mem_nhdsWithin] with N0 h0
      exact (mutualInfo_bounds S h0 hM).2
  · have h1 : Filter.Tendsto (fun N0 : ℝ => Real.logb 2 (1 + (∑ i, ‖S i‖ ^ 2) / M / N0)) Filter.atTop (nhds 0) := by
      have h2 : Filter.Tendsto (fun N0 : ℝ => 1 + (∑ i, ‖S i‖ ^ 2) / M / N0) Filter.atTop (nhds (1 + 0)) := tendsto_const_nhds.add (tendsto_const_nhds.div_atTop Filter.tendsto_id)
      rw [add_zero] at h2
      have h3 := (Real.continuousAt_log (x := 1) (by norm_num)).tendsto.comp h2
      have h4 := h3.div_const (Real.log 2)
      rw [Real.log_one, zero_div] at h4
      exact h4
    refine tendsto_of_tendsto_of_tendsto_of_le_of_le' tendsto_const_nhds h1 ?_ ?_
    · filter_upwards [Filter.eventually_gt_atTop 0] with N0 h0
      exact (mutualInfo_bounds S h0 hM).1
    · filter_upwards [Filter.eventually_gt_atTop 0] with N0 h0
      exact C242_capacity hM S h0

/-- BPSK at `N0 = 1/10` carries one bit up to 1/1000. -/
example : 999 / 1000 ≤ mutualInfo (fun i : Fin 2 => if i = 0 then (1 : ℂ) else -1) (1 / 10) := by
  have h := C242_mi (by norm_num) (fun i : Fin 2 => if i = 0 then (1 : ℂ) else -1) (N0 := 1 / 10) (by norm_num)
  refine le_trans ?_ h
  have e : ∑ i : Fin 2, ∑ j : Fin 2 with j ≠ i, Real.exp (-‖(if i = 0 then (1 : ℂ) else -1) - (if j = 0 then (1 : ℂ) else -1)‖ ^ 2 / (4 * (1 / 10))) = 2 * Real.exp (-10) := by
    simp only [Finset.sum_filter, Fin.sum_univ_two]
    norm_num
    ring
  rw [e]
  have h1 : Real.exp (-10) < 1 / 2000 := by
    rw [Real.exp_neg, inv_eq_one_div]
    apply one_div_lt_one_div_of_lt (by norm_num)
    have h2 : Real.exp 10 = Real.exp 1 ^ 10 := by rw [← Real.exp_nat_mul]; norm_num
    have h3 : (27 / 10 : ℝ) < Real.exp 1 := by linarith [Real.exp_one_gt_d9]
    rw [h2]
    calc (2000 : ℝ) < (27 / 10) ^ 10 := by norm_num
      _ ≤ _ := by gcongr
  have h4 : (69 / 100 : ℝ) < Real.log 2 := by linarith [Real.log_two_gt_d9]
  have h5 : 2 * Real.exp (-10) / (((2 : ℕ) : ℝ) * Real.log 2) ≤ 1 / 1000 := by
    rw [div_le_iff₀ (by positivity)]
    push_cast
    linarith
  have h6 : Real.logb 2 ((2 : ℕ) : ℝ) = 1 := by
    push_cast
    exact Real.logb_self_eq_one (by norm_num)
  rw [h6]
  linarith

end Qampy
