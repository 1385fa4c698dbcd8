import Verif.Props.Capacity
import Verif.Lemmas.WhiteNoise

/-!
# C243: information rates never grow with the noise
-/

namespace Qampy

open MeasureTheory ProbabilityTheory

theorem charFunDual_stdN2 (l : StrongDual ℝ (ℝ × ℝ)) : charFunDual stdN2 l = Complex.exp (-(((l (1, 0)) ^ 2 / 2 + (l (0, 1)) ^ 2 / 2 : ℝ) : ℂ)) := by
  have h1 : ∀ l : StrongDual ℝ ℝ, charFunDual (gaussianReal 0 1) l = Complex.exp (-(((l 1) ^ 2 / 2 : ℝ) : ℂ)) := by
    intro l
    rw [charFunDual_eq_charFun_map_one, gaussianReal_map_continuousLinearMap, charFun_gaussianReal]
    congr 1
    simp [max_eq_left (sq_nonneg (l 1))]
  rw [stdN2, charFunDual_prod, h1, h1, ← Complex.exp_add]
  congr 1
  simp
  ring

/-- Two independent complex normal draws, combined. -/
def mix (a b : ℝ) (p : (ℝ × ℝ) × (ℝ × ℝ)) : ℝ × ℝ := (a * p.1.1 + b * p.2.1, a * p.1.2 + b * p.2.2)

theorem mix_preserving {a b : ℝ} (h : a ^ 2 + b ^ 2 = 1) : MeasurePreserving (mix a b) (stdN2.prod stdN2) stdN2 := by
  have hm : Measurable (mix a b) := by unfold mix; fun_prop
  refine ⟨hm, ?_⟩
  obtain ⟨L, hL⟩ : ∃ L : ((ℝ × ℝ) × (ℝ × ℝ)) →L[ℝ] (ℝ × ℝ), ∀ p, L p = mix a b p := by
    refine ⟨a • ContinuousLinearMap.fst ℝ (ℝ × ℝ) (ℝ × ℝ) + b • ContinuousLinearMap.snd ℝ (ℝ × ℝ) (ℝ × ℝ), fun p => ?_⟩
    simp [mix, Prod.ext_iff]
  have e : mix a b = L := by funext p; rw [hL]
  rw [e]
  apply Measure.ext_of_charFunDual
  funext l
  rw [charFunDual_map, charFunDual_prod, charFunDual_stdN2, charFunDual_stdN2, charFunDual_stdN2, ← Complex.exp_add]
  congr 1
  have k1 : ∀ x y : ℝ, l (a * x, a * y) = a * l (x, y) := fun x y => by
    have := l.map_smul a (x, y)
    simpa using this
  have k2 : ∀ x y : ℝ, l (b * x, b * y) = b * l (x, y) := fun x y => by
    have := l.map_smul b (x, y)
    simpa using this
  have f1 : ∀ x y : ℝ, L ((x, y), (0, 0)) = (a * x, a * y) := fun x y => by rw [hL]; simp [mix]
  have f2 : ∀ x y : ℝ, L ((0, 0), (x, y)) = (b * x, b * y) := fun x y => by rw [hL]; simp [mix]
  have z : (0 : ℝ × ℝ) = (0, 0) := rfl
  simp only [ContinuousLinearMap.comp_apply, ContinuousLinearMap.inl_apply, ContinuousLinearMap.inr_apply, z, f1, f2, k1, k2]
  rw [← neg_add, ← Complex.ofReal_add]
  congr 2
  linear_combination ((l (1, 0)) ^ 2 / 2 + (l (0, 1)) ^ 2 / 2) * h

/-- The symbols with the same label as symbol `i`. -/
def sameLabel {M : Nat} {κ : Type} [DecidableEq κ] (lab : Fin M → κ) (i : Fin M) : Finset (Fin M) := Finset.univ.filter fun j => lab j = lab i

theorem mem_sameLabel {M : Nat} {κ : Type} [DecidableEq κ] (lab : Fin M → κ) (i : Fin M) : i ∈ sameLabel lab i := by simp [sameLabel]

/-- Guessing the label from a shifted value with the densities of another noise power loses at least as much as the right densities do. -/
theorem gibbs_shift {M : Nat} (hM : 0 < M) {κ : Type} [Fintype κ] [DecidableEq κ] (lab : Fin M → κ) (S : Fin M → ℂ) {N0 N1 : ℝ} (h0 : 0 < N0) (h1 : 0 < N1) (t : ℂ)
    (hi : ∀ i, Integrable (fun z => Real.log (sumDens S N1 Finset.univ (rcv N0 (S i) z + t) / sumDens S N1 (sameLabel lab i) (rcv N0 (S i) z + t))) stdN2) :
    ∑ i, avgLog S N0 (sameLabel lab i) i ≤ ∑ i, ∫ z, Real.log (sumDens S N1 Finset.univ (rcv N0 (S i) z + t) / sumDens S N1 (sameLabel lab i) (rcv N0 (S i) z + t)) ∂stdN2 := by
  have hU : ∀ {N : ℝ}, 0 < N → ∀ y, 0 < sumDens S N Finset.univ y := fun h y => sumDens_pos S h ⟨⟨0, hM⟩, Finset.mem_univ _⟩ y
  have hA : ∀ {N : ℝ}, 0 < N → ∀ i y, 0 < sumDens S N (sameLabel lab i) y := fun h i y => sumDens_pos S h ⟨i, mem_sameLabel lab i⟩ y
  have hAU : ∀ {N : ℝ}, 0 < N → ∀ i y, sumDens S N (sameLabel lab i) y ≤ sumDens S N Finset.univ y := fun h i y =>
    Finset.sum_le_sum_of_subset_of_nonneg (Finset.subset_univ _) fun j _ _ => (chDens_pos h _ _).le
  obtain ⟨r, hr⟩ : ∃ r : Fin M → ℂ → ℝ, r = fun i y => sumDens S N0 Finset.univ y / sumDens S N0 (sameLabel lab i) y * (sumDens S N1 (sameLabel lab i) (y + t) / sumDens S N1 Finset.univ (y + t)) := ⟨_, rfl⟩
  have hsh : Measurable fun y : ℂ => y + t := measurable_id.add_const t
  have hrm : ∀ i, Measurable (r i) := by
    intro i
    rw [hr]
    exact ((measurable_sumDens S N0 _).div (measurable_sumDens S N0 _)).mul (((measurable_sumDens S N1 _).comp hsh).div ((measurable_sumDens S N1 _).comp hsh))
  have hr0 : ∀ i y, 0 < r i y := by
    intro i y
    rw [hr]
    exact mul_pos (div_pos (hU h0 y) (hA h0 i y)) (div_pos (hA h1 i _) (hU h1 _))
  obtain ⟨gi, gI⟩ := sumDens_integrable S h0 Finset.univ
  have hle : ∀ i y, chDens N0 (S i) y * r i y ≤ sumDens S N0 Finset.univ y := by
    intro i y
    have a1 : chDens N0 (S i) y ≤ sumDens S N0 (sameLabel lab i) y := Finset.single_le_sum (f := fun j => chDens N0 (S j) y) (fun j _ => (chDens_pos h0 _ _).le) (mem_sameLabel lab i)
    have a2 : sumDens S N1 (sameLabel lab i) (y + t) / sumDens S N1 Finset.univ (y + t) ≤ 1 := (div_le_one (hU h1 _)).2 (hAU h1 i _)
    have a3 : 0 ≤ sumDens S N1 (sameLabel lab i) (y + t) / sumDens S N1 Finset.univ (y + t) := (div_pos (hA h1 i _) (hU h1 _)).le
    have a4 : chDens N0 (S i) y * (sumDens S N0 Finset.univ y / sumDens S N0 (sameLabel lab i) y) ≤ sumDens S N0 Finset.univ y := by
      rw [mul_div_assoc', div_le_iff₀ (hA h0 i y), mul_comm]
      exact mul_le_mul_of_nonneg_left a1 (hU h0 y).le
    rw [hr]
    dsimp only
    rw [← mul_assoc]
    exact (mul_le_mul_of_nonneg_right a4 a3).trans (mul_le_of_le_one_right (hU h0 y).le a2)
  have hri : ∀ i, Integrable (fun p => chDens N0 (S i) (mkC p) * r i (mkC p)) (volume : Measure (ℝ × ℝ)) := by
    intro i
    refine gi.mono' (((measurable_chDens N0 _).comp measurable_mkC).mul ((hrm i).comp measurable_mkC)).aestronglyMeasurable (Filter.Eventually.of_forall fun p => ?_)
    rw [Real.norm_of_nonneg (mul_pos (chDens_pos h0 _ _) (hr0 i _)).le]
    exact hle i _
  have hpt : ∀ y, ∑ i, chDens N0 (S i) y * r i y = sumDens S N0 Finset.univ y := by
    intro y
    have hc : ∀ c : κ, ∑ i with lab i = c, chDens N0 (S i) y * r i y = sumDens S N0 Finset.univ y / sumDens S N1 Finset.univ (y + t) * ∑ i with lab i = c, chDens N1 (S i) (y + t) := by
      intro c
      rcases (Finset.univ.filter fun i => lab i = c).eq_empty_or_nonempty with h | ⟨i0, hi0⟩
      · rw [h]; simp
      have hs : ∀ i ∈ Finset.univ.filter (fun i => lab i = c), sameLabel lab i = Finset.univ.filter fun j => lab j = c := by
        intro i hi
        unfold sameLabel
        rw [(Finset.mem_filter.1 hi).2]
      have hne := (hA h0 i0 y).ne'
      rw [hs i0 hi0] at hne
      have hne2 := (hU h1 (y + t)).ne'
      calc _ = ∑ i with lab i = c, chDens N0 (S i) y * (sumDens S N0 Finset.univ y / sumDens S N0 (Finset.univ.filter fun j => lab j = c) y *
            (sumDens S N1 (Finset.univ.filter fun j => lab j = c) (y + t) / sumDens S N1 Finset.univ (y + t))) := by
            refine Finset.sum_congr rfl fun i hi => ?_
            rw [hr]
            dsimp only
            rw [hs i hi]
        _ = _ := by
            rw [← Finset.sum_mul]
            change sumDens S N0 (Finset.univ.filter fun j => lab j = c) y * _ = _ * sumDens S N1 (Finset.univ.filter fun j => lab j = c) (y + t)
            field_simp
    rw [← Finset.sum_fiberwise (s := Finset.univ) (g := lab), Finset.sum_congr rfl fun c _ => hc c, ← Finset.mul_sum, Finset.sum_fiberwise (s := Finset.univ) (g := lab)]
    exact div_mul_cancel₀ _ (hU h1 (y + t)).ne'
  have hsum : ∑ i, ∫ z, r i (rcv N0 (S i) z) ∂stdN2 = M := by
    rw [Finset.sum_congr rfl fun i _ => (ch_integral h0 (S i) (hrm i)).2, ← integral_finsetSum _ fun i _ => hri i]
    simp only [hpt]
    rw [gI, Finset.card_univ, Fintype.card_fin]
  have hterm : ∀ i, avgLog S N0 (sameLabel lab i) i - ∫ z, Real.log (sumDens S N1 Finset.univ (rcv N0 (S i) z + t) / sumDens S N1 (sameLabel lab i) (rcv N0 (S i) z + t)) ∂stdN2
      ≤ ∫ z, r i (rcv N0 (S i) z) ∂stdN2 - 1 := by
    intro i
    have b1 := (avgLog_eq S h0 (mem_sameLabel lab i)).1
    have c1 : Integrable (fun z => r i (rcv N0 (S i) z)) stdN2 := (ch_integral h0 (S i) (hrm i)).1 (hri i)
    have d1 : Integrable (fun z => r i (rcv N0 (S i) z) - 1) stdN2 := c1.sub (integrable_const _)
    have h2 : ∫ z, (Real.log (sumDens S N0 Finset.univ (rcv N0 (S i) z) / sumDens S N0 (sameLabel lab i) (rcv N0 (S i) z)) -
        Real.log (sumDens S N1 Finset.univ (rcv N0 (S i) z + t) / sumDens S N1 (sameLabel lab i) (rcv N0 (S i) z + t))) ∂stdN2 ≤ ∫ z, (r i (rcv N0 (S i) z) - 1) ∂stdN2 := by
      refine integral_mono (b1.sub (hi i)) d1 fun z => ?_
      dsimp only
      generalize rcv N0 (S i) z = y
      have e : Real.log (sumDens S N0 Finset.univ y / sumDens S N0 (sameLabel lab i) y) - Real.log (sumDens S N1 Finset.univ (y + t) / sumDens S N1 (sameLabel lab i) (y + t)) = Real.log (r i y) := by
        rw [hr]
        dsimp only
        rw [Real.log_mul (div_pos (hU h0 y) (hA h0 i y)).ne' (div_pos (hA h1 i _) (hU h1 _)).ne', Real.log_div (hU h1 _).ne' (hA h1 i _).ne', Real.log_div (hA h1 i _).ne' (hU h1 _).ne']
        ring
      rw [e]
      exact Real.log_le_sub_one_of_pos (hr0 i y)
    rw [integral_sub b1 (hi i), integral_sub c1 (integrable_const _)] at h2
    simpa [avgLog] using h2
  have htot := Finset.sum_le_sum fun (i : Fin M) (_ : i ∈ Finset.univ) => hterm i
  rw [Finset.sum_sub_distrib, Finset.sum_sub_distrib, hsum] at htot
  simp at htot
  linarith

/-- The loss grows with the noise power. -/
theorem loss_mono {M : Nat} (hM : 0 < M) {κ : Type} [Fintype κ] [DecidableEq κ] (lab : Fin M → κ) (S : Fin M → ℂ) {N0 N1 : ℝ} (h0 : 0 < N0) (h01 : N0 ≤ N1) :
    ∑ i, avgLog S N0 (sameLabel lab i) i ≤ ∑ i, avgLog S N1 (sameLabel lab i) i := by
  have h1 : 0 < N1 := h0.trans_le h01
  obtain ⟨a, ha⟩ : ∃ a, a = Real.sqrt (N0 / N1) := ⟨_, rfl⟩
  obtain ⟨b, hb⟩ : ∃ b, b = Real.sqrt (1 - N0 / N1) := ⟨_, rfl⟩
  have hq : N0 / N1 ≤ 1 := (div_le_one h1).2 h01
  have hab : a ^ 2 + b ^ 2 = 1 := by
    rw [ha, hb, Real.sq_sqrt (by positivity), Real.sq_sqrt (by linarith)]
    ring
  have hsa : Real.sqrt (N1 / 2) * a = Real.sqrt (N0 / 2) := by
    rw [ha, ← Real.sqrt_mul (by positivity)]
    congr 1
    field_simp
  have hmp := mix_preserving hab
  obtain ⟨t, ht⟩ : ∃ t : ℝ × ℝ → ℂ, t = fun w => ⟨Real.sqrt (N1 / 2) * b * w.1, Real.sqrt (N1 / 2) * b * w.2⟩ := ⟨_, rfl⟩
  have hrc : ∀ (s : ℂ) (p : (ℝ × ℝ) × (ℝ × ℝ)), rcv N1 s (mix a b p) = rcv N0 s p.1 + t p.2 := by
    intro s p
    rw [ht]
    unfold rcv mix
    apply Complex.ext
    · simp only [Complex.add_re, ← hsa]
      ring
    · simp only [Complex.add_im, ← hsa]
      ring
  obtain ⟨φ, hφ⟩ : ∃ φ : Fin M → ℂ → ℝ, φ = fun i y => Real.log (sumDens S N1 Finset.univ y / sumDens S N1 (sameLabel lab i) y) := ⟨_, rfl⟩
  have hφi : ∀ i, Integrable (fun p : (ℝ × ℝ) × (ℝ × ℝ) => φ i (rcv N0 (S i) p.1 + t p.2)) (stdN2.prod stdN2) := by
    intro i
    have h2 := hmp.integrable_comp_of_integrable (avgLog_eq S h1 (mem_sameLabel lab i)).1
    refine h2.congr (Filter.Eventually.of_forall fun p => ?_)
    simp only [Function.comp_apply, hrc, hφ]
  have hφe : ∀ i, avgLog S N1 (sameLabel lab i) i = ∫ w, ∫ z, φ i (rcv N0 (S i) z + t w) ∂stdN2 ∂stdN2 := by
    intro i
    have h2 : avgLog S N1 (sameLabel lab i) i = ∫ p, φ i (rcv N1 (S i) (mix a b p)) ∂(stdN2.prod stdN2) := by
      have h3 := integral_map (μ := stdN2.prod stdN2) (φ := mix a b) hmp.measurable.aemeasurable (f := fun z => φ i (rcv N1 (S i) z))
        (by rw [hmp.map_eq, hφ]; exact (avgLog_eq S h1 (mem_sameLabel lab i)).1.aestronglyMeasurable)
      rw [hmp.map_eq] at h3
      rw [← h3, hφ]
      rfl
    rw [h2]
    simp only [hrc]
    rw [integral_prod_symm _ (hφi i)]
  rw [Finset.sum_congr rfl fun i _ => hφe i, ← integral_finsetSum _ fun i _ => (hφi i).integral_prod_right]
  have hae : ∀ᵐ w ∂stdN2, ∀ i, Integrable (fun z => φ i (rcv N0 (S i) z + t w)) stdN2 := by
    rw [ae_all_iff]
    exact fun i => (hφi i).prod_left_ae
  have hc : ∑ i, avgLog S N0 (sameLabel lab i) i = ∫ _w : ℝ × ℝ, ∑ i, avgLog S N0 (sameLabel lab i) i ∂stdN2 := by simp
  rw [hc]
  refine integral_mono_ae (integrable_const _) (integrable_finsetSum _ fun i _ => (hφi i).integral_prod_right) ?_
  filter_upwards [hae] with w hw
  rw [hφ] at hw ⊢
  exact gibbs_shift hM lab S h0 h1 (t w) hw

/-- **C243** More noise never increases the mutual information. -/
theorem C243_mi {M : Nat} (hM : 0 < M) (S : Fin M → ℂ) {N0 N1 : ℝ} (h0 : 0 < N0) (h01 : N0 ≤ N1) : mutualInfo S N1 ≤ mutualInfo S N0 := by
  have hl2 : 0 < Real.log 2 := Real.log_pos (by norm_num)
  have h := loss_mono hM (fun i : Fin M => i) S h0 h01
  have e : ∀ i : Fin M, sameLabel (fun i : Fin M => i) i = {i} := fun i => by ext j; simp [sameLabel]
  simp only [e] at h
  rw [mutualInfo_eq S h0 hM, mutualInfo_eq S (h0.trans_le h01) hM]
  gcongr

/-- BPSK at noise power 1 and 2, and strictly: between noise power 1/10 and 100 the information falls from more than 0.999 to less than 0.02 bits. -/
example : mutualInfo (fun i : Fin 2 => if i = 0 then (1 : ℂ) else -1) 2 ≤ mutualInfo (fun i : Fin 2 => if i = 0 then (1 : ℂ) else -1) 1 ∧
    mutualInfo (fun i : Fin 2 => if i = 0 then (1 : ℂ) else -1) 100 < 2 / 100 := by
  refine ⟨C243_mi (by norm_num) _ (by norm_num) (by norm_num), (C242_capacity (by norm_num) _ (by norm_num)).trans_lt ?_⟩
  have e : 1 + (∑ i : Fin 2, ‖if i = 0 then (1 : ℂ) else -1‖ ^ 2) / ((2 : ℕ) : ℝ) / 100 = 1 + 1 / 100 := by
    rw [Fin.sum_univ_two]
    norm_num
  have h1 : Real.log (1 + 1 / 100) ≤ 1 / 100 := by linarith [Real.log_le_sub_one_of_pos (show (0 : ℝ) < 1 + 1 / 100 by norm_num)]
  have h2 : (69 / 100 : ℝ) < Real.log 2 := by linarith [Real.log_two_gt_d9]
  rw [e, Real.logb, div_lt_iff₀ (by linarith)]
  linarith

/-- **C243** More noise never increases the information of a bit of the label. -/
theorem C243_bit {M : Nat} (hM : 0 < M) (S : Fin M → ℂ) (b : Fin M → Bool) {N0 N1 : ℝ} (h0 : 0 < N0) (h01 : N0 ≤ N1) : bitInfo S b N1 ≤ bitInfo S b N0 := by
  have hl2 : 0 < Real.log 2 := Real.log_pos (by norm_num)
  have h := loss_mono hM b S h0 h01
  rw [bitInfo_eq S b h0, bitInfo_eq S b (h0.trans_le h01)]
  apply div_le_div_of_nonneg_right _ (Nat.cast_nonneg _)
  rw [Finset.sum_sub_distrib, Finset.sum_sub_distrib, ← Finset.sum_div, ← Finset.sum_div]
  apply sub_le_sub_left
  exact div_le_div_of_nonneg_right h hl2.le

/-- **C243** The average value of `sim_mi_mc` never falls with the SNR. -/
theorem C243_sim {M n : Nat} (hn : 0 < n) (S : Fin M → ℂ) (hS : ∃ i, S i ≠ 0) {snr1 snr2 : ℝ} (h : snr1 ≤ snr2) :
    ∫ d : Fin n → ℝ × ℝ, simMiMc (List.ofFn S) snr1 (List.ofFn d) ∂noiseLaw n ≤ ∫ d : Fin n → ℝ × ℝ, simMiMc (List.ofFn S) snr2 (List.ofFn d) ∂noiseLaw n := by
  obtain ⟨-, -, h1, -⟩ := C120_mi hn S hS snr1
  obtain ⟨-, -, h2, -⟩ := C120_mi hn S hS snr2
  obtain ⟨i0, -⟩ := hS
  rw [h1, h2]
  exact C243_mi i0.pos _ (Real.rpow_pos_of_pos (by norm_num) _) (Real.rpow_le_rpow_of_exponent_le (by norm_num) (by linarith))

/-- **C243** The average value of `theory.cal_gmi` never falls with the SNR. -/
theorem C243_gmi {k n : Nat} (hn : 0 < n) (S : Fin (2 ^ k) → ℂ) {snr1 snr2 : ℝ} (h : snr1 ≤ snr2) :
    ∃ g1 g2 : (Fin n → ℝ × ℝ) → ℝ, (∀ d, theoryGmi k (List.ofFn S) snr1 (List.ofFn d) = .ok (g1 d)) ∧ (∀ d, theoryGmi k (List.ofFn S) snr2 (List.ofFn d) = .ok (g2 d)) ∧
      ∫ d, g1 d ∂noiseLaw n ≤ ∫ d, g2 d ∂noiseLaw n := by
  obtain ⟨g1, a1, -, b1, -⟩ := C121_gmi hn S snr1
  obtain ⟨g2, a2, -, b2, -⟩ := C121_gmi hn S snr2
  refine ⟨g1, g2, a1, a2, ?_⟩
  rw [b1, b2]
  exact Finset.sum_le_sum fun bit _ => C243_bit (by positivity) S _ (Real.rpow_pos_of_pos (by norm_num) _) (Real.rpow_le_rpow_of_exponent_le (by norm_num) (by linarith))

end Qampy
