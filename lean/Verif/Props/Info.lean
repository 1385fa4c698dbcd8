import Verif.Props.Theory2

/-!
Monte-Carlo information rates (C120, C121): their averages over the noise are the mutual information of the channel and the sum of the bit level mutual informations.
-/

namespace Qampy

open MeasureTheory ProbabilityTheory

/-! ### The channel -/

/-- Density of the received value `y` for the transmitted symbol `s`, noise variance `N0`. -/
noncomputable def chDens (N0 : ℝ) (s y : ℂ) : ℝ := (Real.pi * N0)⁻¹ * Real.exp (-‖y - s‖ ^ 2 / N0)

/-- Received value for symbol `s` and normalised noise `z`. -/
noncomputable def rcv (N0 : ℝ) (s : ℂ) (z : ℝ × ℝ) : ℂ := s + ⟨Real.sqrt (N0 / 2) * z.1, Real.sqrt (N0 / 2) * z.2⟩

/-- A pair of reals as complex number. -/
def mkC (p : ℝ × ℝ) : ℂ := ⟨p.1, p.2⟩

theorem measurable_mkC : Measurable mkC := by
  have : mkC = fun p : ℝ × ℝ => (p.1 : ℂ) + (p.2 : ℂ) * Complex.I := by
    funext p
    apply Complex.ext <;> simp [mkC]
  rw [this]
  fun_prop

theorem chDens_pos {N0 : ℝ} (h : 0 < N0) (s y : ℂ) : 0 < chDens N0 s y := by
  unfold chDens
  have := Real.pi_pos
  positivity

theorem measurable_chDens (N0 : ℝ) (s : ℂ) : Measurable (chDens N0 s) := by
  unfold chDens
  fun_prop

theorem map_rcv {N0 : ℝ} (h : 0 < N0) (s : ℂ) :
    stdN2.map (fun z : ℝ × ℝ => (s.re + Real.sqrt (N0 / 2) * z.1, s.im + Real.sqrt (N0 / 2) * z.2)) = (volume : Measure (ℝ × ℝ)).withDensity (fun p => ENNReal.ofReal (chDens N0 s (mkC p))) := by
  have hv : (⟨N0 / 2, by positivity⟩ : NNReal) ≠ 0 := by
    intro he
    have h2 : N0 / 2 = 0 := congrArg NNReal.toReal he
    linarith
  obtain ⟨v, hvd⟩ : ∃ v : NNReal, v = ⟨N0 / 2, by positivity⟩ := ⟨_, rfl⟩
  have hvr : (v : ℝ) = N0 / 2 := by rw [hvd]; rfl
  rw [← hvd] at hv
  have h1 : ∀ a : ℝ, stdN.map (fun u => a + Real.sqrt (N0 / 2) * u) = gaussianReal a v := by
    intro a
    have e : (fun u => a + Real.sqrt (N0 / 2) * u) = (fun x => a + x) ∘ (Real.sqrt (N0 / 2) * ·) := rfl
    rw [e, ← Measure.map_map (by fun_prop) (by fun_prop), gaussianReal_map_const_mul, gaussianReal_map_const_add, mul_zero, zero_add, mul_one]
    congr 1
    apply NNReal.eq
    rw [hvr]
    exact Real.sq_sqrt (by positivity)
  have h2 : stdN2.map (fun z : ℝ × ℝ => (s.re + Real.sqrt (N0 / 2) * z.1, s.im + Real.sqrt (N0 / 2) * z.2)) = (gaussianReal s.re v).prod (gaussianReal s.im v) := by
    rw [← h1, ← h1, Measure.map_prod_map _ _ (by fun_prop) (by fun_prop)]
    rfl
  rw [h2, gaussianReal_of_var_ne_zero _ hv, gaussianReal_of_var_ne_zero _ hv, prod_withDensity (measurable_gaussianPDF _ _) (measurable_gaussianPDF _ _), ← Measure.volume_eq_prod]
  congr 1
  funext p
  rw [gaussianPDF, gaussianPDF, ← ENNReal.ofReal_mul (gaussianPDFReal_nonneg _ _ _)]
  congr 1
  unfold gaussianPDFReal chDens mkC
  rw [hvr]
  have hs : Real.sqrt (2 * Real.pi * (N0 / 2)) * Real.sqrt (2 * Real.pi * (N0 / 2)) = Real.pi * N0 := by
    rw [Real.mul_self_sqrt (by have := Real.pi_pos; positivity)]
    ring
  rw [mul_mul_mul_comm, ← mul_inv, hs, ← Real.exp_add]
  congr 2
  rw [← Complex.normSq_eq_norm_sq, Complex.normSq_apply]
  simp only [Complex.sub_re, Complex.sub_im]
  field_simp
  ring

/-- Averages over the noise as integrals with the channel density. -/
theorem ch_integral {N0 : ℝ} (h0 : 0 < N0) (s : ℂ) {h : ℂ → ℝ} (hm : Measurable h) :
    (Integrable (fun p => chDens N0 s (mkC p) * h (mkC p)) (volume : Measure (ℝ × ℝ)) → Integrable (fun z => h (rcv N0 s z)) stdN2) ∧
    ∫ z, h (rcv N0 s z) ∂stdN2 = ∫ p : ℝ × ℝ, chDens N0 s (mkC p) * h (mkC p) := by
  have hf : Measurable (fun z : ℝ × ℝ => (s.re + Real.sqrt (N0 / 2) * z.1, s.im + Real.sqrt (N0 / 2) * z.2)) := by fun_prop
  have hh : Measurable fun p => h (mkC p) := hm.comp measurable_mkC
  have hd : Measurable fun p : ℝ × ℝ => ENNReal.ofReal (chDens N0 s (mkC p)) := ENNReal.measurable_ofReal.comp ((measurable_chDens N0 s).comp measurable_mkC)
  have e : (fun z => h (rcv N0 s z)) = (fun p => h (mkC p)) ∘ fun z : ℝ × ℝ => (s.re + Real.sqrt (N0 / 2) * z.1, s.im + Real.sqrt (N0 / 2) * z.2) := by
    funext z
    rfl
  have htr : ∀ p : ℝ × ℝ, (ENNReal.ofReal (chDens N0 s (mkC p))).toReal = chDens N0 s (mkC p) := fun p => ENNReal.toReal_ofReal (chDens_pos h0 _ _).le
  constructor
  · intro hi
    rw [e, ← integrable_map_measure hh.aestronglyMeasurable hf.aemeasurable, map_rcv h0, integrable_withDensity_iff_integrable_smul' hd (Filter.Eventually.of_forall fun _ => ENNReal.ofReal_lt_top)]
    simp_rw [htr, smul_eq_mul]
    exact hi
  · rw [e]
    have h2 := integral_map (μ := stdN2) hf.aemeasurable (f := fun p => h (mkC p)) hh.aestronglyMeasurable
    refine Eq.trans h2.symm ?_
    rw [map_rcv h0, integral_withDensity_eq_integral_toReal_smul hd (Filter.Eventually.of_forall fun _ => ENNReal.ofReal_lt_top)]
    simp_rw [htr, smul_eq_mul]

theorem chDens_integrable {N0 : ℝ} (h0 : 0 < N0) (s : ℂ) : Integrable (fun p => chDens N0 s (mkC p)) (volume : Measure (ℝ × ℝ)) ∧ ∫ p : ℝ × ℝ, chDens N0 s (mkC p) = 1 := by
  have hf : Measurable (fun z : ℝ × ℝ => (s.re + Real.sqrt (N0 / 2) * z.1, s.im + Real.sqrt (N0 / 2) * z.2)) := by fun_prop
  have hd : Measurable fun p : ℝ × ℝ => ENNReal.ofReal (chDens N0 s (mkC p)) := ENNReal.measurable_ofReal.comp ((measurable_chDens N0 s).comp measurable_mkC)
  have hc := (ch_integral h0 s (h := fun _ => 1) measurable_const).2
  simp only [mul_one, integral_const, probReal_univ, smul_eq_mul] at hc
  refine ⟨?_, hc.symm⟩
  by_contra hni
  rw [integral_undef hni] at hc
  norm_num at hc

/-! ### Sums of densities -/

/-- Sum of the densities of a set of symbols. -/
noncomputable def sumDens {M : Nat} (S : Fin M → ℂ) (N0 : ℝ) (A : Finset (Fin M)) (y : ℂ) : ℝ := ∑ i ∈ A, chDens N0 (S i) y

theorem sumDens_pos {M : Nat} (S : Fin M → ℂ) {N0 : ℝ} (h0 : 0 < N0) {A : Finset (Fin M)} (hA : A.Nonempty) (y : ℂ) : 0 < sumDens S N0 A y :=
  Finset.sum_pos (fun _ _ => chDens_pos h0 _ _) hA

theorem measurable_sumDens {M : Nat} (S : Fin M → ℂ) (N0 : ℝ) (A : Finset (Fin M)) : Measurable (sumDens S N0 A) := by
  unfold sumDens
  exact Finset.measurable_sum _ fun i _ => measurable_chDens N0 (S i)

theorem sumDens_integrable {M : Nat} (S : Fin M → ℂ) {N0 : ℝ} (h0 : 0 < N0) (A : Finset (Fin M)) :
    Integrable (fun p => sumDens S N0 A (mkC p)) (volume : Measure (ℝ × ℝ)) ∧ ∫ p : ℝ × ℝ, sumDens S N0 A (mkC p) = A.card := by
  unfold sumDens
  refine ⟨integrable_finsetSum _ fun i _ => (chDens_integrable h0 (S i)).1, ?_⟩
  rw [integral_finsetSum _ fun i _ => (chDens_integrable h0 (S i)).1]
  simp_rw [(chDens_integrable h0 _).2]
  simp

/-- Logarithm of the ratio of the densities of all symbols and of a set with the transmitted symbol. -/
theorem log_ratio_integrable {M : Nat} (S : Fin M → ℂ) {N0 : ℝ} (h0 : 0 < N0) {A : Finset (Fin M)} {i : Fin M} (hi : i ∈ A) :
    Measurable (fun y => Real.log (sumDens S N0 Finset.univ y / sumDens S N0 A y)) ∧
    Integrable (fun p => chDens N0 (S i) (mkC p) * Real.log (sumDens S N0 Finset.univ (mkC p) / sumDens S N0 A (mkC p))) (volume : Measure (ℝ × ℝ)) := by
  have hm : Measurable (fun y => Real.log (sumDens S N0 Finset.univ y / sumDens S N0 A y)) := ((measurable_sumDens S N0 _).div (measurable_sumDens S N0 _)).log
  refine ⟨hm, ?_⟩
  apply (sumDens_integrable S h0 Finset.univ).1.mono' (by exact (((measurable_chDens N0 (S i)).comp measurable_mkC).mul (hm.comp measurable_mkC)).aestronglyMeasurable)
  apply Filter.Eventually.of_forall
  intro p
  have hA : 0 < sumDens S N0 A (mkC p) := sumDens_pos S h0 ⟨i, hi⟩ _
  have hle : sumDens S N0 A (mkC p) ≤ sumDens S N0 Finset.univ (mkC p) := Finset.sum_le_sum_of_subset_of_nonneg (Finset.subset_univ _) fun j _ _ => (chDens_pos h0 _ _).le
  have hci : chDens N0 (S i) (mkC p) ≤ sumDens S N0 A (mkC p) := Finset.single_le_sum (f := fun j => chDens N0 (S j) (mkC p)) (fun j _ => (chDens_pos h0 _ _).le) hi
  have hc := chDens_pos h0 (S i) (mkC p)
  have hl0 : 0 ≤ Real.log (sumDens S N0 Finset.univ (mkC p) / sumDens S N0 A (mkC p)) := Real.log_nonneg (by rw [le_div_iff₀ hA, one_mul]; exact hle)
  have hF : 0 < sumDens S N0 Finset.univ (mkC p) := lt_of_lt_of_le hA hle
  have hl1 : Real.log (sumDens S N0 Finset.univ (mkC p) / sumDens S N0 A (mkC p)) ≤ sumDens S N0 Finset.univ (mkC p) / sumDens S N0 A (mkC p) := Real.log_le_self (by positivity)
  rw [Real.norm_of_nonneg (mul_nonneg hc.le hl0)]
  calc _ ≤ chDens N0 (S i) (mkC p) * (sumDens S N0 Finset.univ (mkC p) / sumDens S N0 A (mkC p)) := by gcongr
    _ ≤ sumDens S N0 A (mkC p) * (sumDens S N0 Finset.univ (mkC p) / sumDens S N0 A (mkC p)) := by gcongr
    _ = sumDens S N0 Finset.univ (mkC p) := by field_simp

/-- Average of the logarithm for transmitted symbol `i`. -/
noncomputable def avgLog {M : Nat} (S : Fin M → ℂ) (N0 : ℝ) (A : Finset (Fin M)) (i : Fin M) : ℝ :=
  ∫ z, Real.log (sumDens S N0 Finset.univ (rcv N0 (S i) z) / sumDens S N0 A (rcv N0 (S i) z)) ∂stdN2

theorem avgLog_eq {M : Nat} (S : Fin M → ℂ) {N0 : ℝ} (h0 : 0 < N0) {A : Finset (Fin M)} {i : Fin M} (hi : i ∈ A) :
    Integrable (fun z => Real.log (sumDens S N0 Finset.univ (rcv N0 (S i) z) / sumDens S N0 A (rcv N0 (S i) z))) stdN2 ∧
    avgLog S N0 A i = ∫ p : ℝ × ℝ, chDens N0 (S i) (mkC p) * Real.log (sumDens S N0 Finset.univ (mkC p) / sumDens S N0 A (mkC p)) := by
  obtain ⟨h1, h2⟩ := log_ratio_integrable S h0 hi
  obtain ⟨h3, h4⟩ := ch_integral h0 (S i) h1
  exact ⟨h3 h2, h4⟩

theorem avgLog_nonneg {M : Nat} (S : Fin M → ℂ) {N0 : ℝ} (h0 : 0 < N0) {A : Finset (Fin M)} {i : Fin M} (hi : i ∈ A) : 0 ≤ avgLog S N0 A i := by
  unfold avgLog
  apply integral_nonneg
  intro z
  apply Real.log_nonneg
  rw [le_div_iff₀ (sumDens_pos S h0 ⟨i, hi⟩ _), one_mul]
  exact Finset.sum_le_sum_of_subset_of_nonneg (Finset.subset_univ _) fun j _ _ => (chDens_pos h0 _ _).le

/-- Information inequality for a set of symbols: `log (F / F_A)` is on average at most `log (M / |A|)`. -/
theorem avgLog_le {M : Nat} (S : Fin M → ℂ) {N0 : ℝ} (h0 : 0 < N0) {A : Finset (Fin M)} (hA : A.Nonempty) : ∑ i ∈ A, avgLog S N0 A i ≤ A.card * Real.log (M / A.card) := by
  have hcard : (0 : ℝ) < A.card := by exact_mod_cast hA.card_pos
  have hM : (0 : ℝ) < M := by
    obtain ⟨i, -⟩ := hA
    exact_mod_cast i.pos
  rw [Finset.sum_congr rfl (fun i hi => (avgLog_eq S h0 hi).2), ← integral_finsetSum _ (fun i hi => (log_ratio_integrable S h0 hi).2)]
  have hI1 := sumDens_integrable S h0 A
  have hI2 := sumDens_integrable S h0 Finset.univ
  have hub : Integrable (fun p : ℝ × ℝ => (Real.log (M / A.card) - 1) * sumDens S N0 A (mkC p) + A.card / M * sumDens S N0 Finset.univ (mkC p)) volume :=
    (hI1.1.const_mul _).add (hI2.1.const_mul _)
  calc _ ≤ ∫ p : ℝ × ℝ, ((Real.log (M / A.card) - 1) * sumDens S N0 A (mkC p) + A.card / M * sumDens S N0 Finset.univ (mkC p)) := by
        apply integral_mono (integrable_finsetSum _ fun i hi => (log_ratio_integrable S h0 hi).2) hub
        intro p
        dsimp only
        rw [← Finset.sum_mul]
        have hFA := sumDens_pos S h0 hA (mkC p)
        have hF : 0 < sumDens S N0 Finset.univ (mkC p) := sumDens_pos S h0 (hA.mono (Finset.subset_univ _)) (mkC p)
        have hx : 0 < A.card / M * (sumDens S N0 Finset.univ (mkC p) / sumDens S N0 A (mkC p)) := by positivity
        have hlog := Real.log_le_sub_one_of_pos hx
        rw [Real.log_mul (by positivity) (by positivity)] at hlog
        have hl2 : Real.log (A.card / M) = -Real.log (M / A.card) := by rw [← Real.log_inv, inv_div]
        rw [hl2] at hlog
        have he : sumDens S N0 A (mkC p) * (A.card / M * (sumDens S N0 Finset.univ (mkC p) / sumDens S N0 A (mkC p))) = A.card / M * sumDens S N0 Finset.univ (mkC p) := by field_simp
        show sumDens S N0 A (mkC p) * _ ≤ _
        nlinarith [mul_le_mul_of_nonneg_left hlog hFA.le]
    _ = _ := by
        rw [integral_add (hI1.1.const_mul _) (hI2.1.const_mul _), integral_const_mul, integral_const_mul, hI1.2, hI2.2, Finset.card_univ, Fintype.card_fin]
        field_simp
        ring

/-- Labels split the symbols: the information inequality for the bits of a labelling, at one received value. -/
theorem labels_pointwise {M nb : Nat} (lab : Fin M → Fin nb → Bool) (hinj : Function.Injective lab) (f : Fin M → ℝ) (hf : ∀ i, 0 < f i) :
    ∑ i, f i * Real.log ((∑ j, f j) / f i) ≤ ∑ i, f i * ∑ k, Real.log ((∑ j, f j) / ∑ j with lab j k = lab i k, f j) := by
  classical
  rcases Nat.eq_zero_or_pos M with h | hM
  · subst h
    simp
  have hne : (Finset.univ : Finset (Fin M)).Nonempty := ⟨⟨0, hM⟩, Finset.mem_univ _⟩
  obtain ⟨F, hF⟩ : ∃ F, F = ∑ j, f j := ⟨_, rfl⟩
  have hFp : 0 < F := by rw [hF]; exact Finset.sum_pos (fun i _ => hf i) hne
  obtain ⟨G, hG⟩ : ∃ G : Fin nb → Bool → ℝ, G = fun k b => (∑ j with lab j k = b, f j) / F := ⟨_, rfl⟩
  have hGnn : ∀ k b, 0 ≤ G k b := by
    intro k b
    rw [hG]
    exact div_nonneg (Finset.sum_nonneg fun j _ => (hf j).le) hFp.le
  have hGs : ∀ k, ∑ b, G k b = 1 := by
    intro k
    rw [hG]
    dsimp only
    rw [← Finset.sum_div, Finset.sum_fiberwise, ← hF]
    exact div_self hFp.ne'
  have hGp : ∀ i k, 0 < G k (lab i k) := by
    intro i k
    rw [hG]
    exact div_pos (Finset.sum_pos (fun j _ => hf j) ⟨i, by simp⟩) hFp
  have hprod : ∑ i, ∏ k, G k (lab i k) ≤ 1 := by
    calc ∑ i, ∏ k, G k (lab i k) = ∑ p ∈ Finset.univ.image lab, ∏ k, G k (p k) := by rw [Finset.sum_image fun a _ b _ h => hinj h]
      _ ≤ ∑ p : Fin nb → Bool, ∏ k, G k (p k) := Finset.sum_le_sum_of_subset_of_nonneg (Finset.subset_univ _) fun p _ _ => Finset.prod_nonneg fun k _ => hGnn k _
      _ = ∏ k, ∑ b, G k b := by rw [Finset.prod_univ_sum, Fintype.piFinset_univ]
      _ = 1 := Finset.prod_eq_one fun k _ => hGs k
  have hterm : ∀ i, f i - F * ∏ k, G k (lab i k) ≤ f i * (∑ k, Real.log (F / ∑ j with lab j k = lab i k, f j)) - f i * Real.log (F / f i) := by
    intro i
    have hX : 0 < F / f i * ∏ k, G k (lab i k) := mul_pos (div_pos hFp (hf i)) (Finset.prod_pos fun k _ => hGp i k)
    have h1 := Real.log_le_sub_one_of_pos hX
    rw [Real.log_mul (div_pos hFp (hf i)).ne' (Finset.prod_pos fun k _ => hGp i k).ne', Real.log_prod fun k _ => (hGp i k).ne'] at h1
    have h2 : ∀ k, Real.log (F / ∑ j with lab j k = lab i k, f j) = -Real.log (G k (lab i k)) := by
      intro k
      rw [hG, ← Real.log_inv, inv_div]
    simp_rw [h2]
    rw [Finset.sum_neg_distrib]
    have h3 := mul_le_mul_of_nonneg_left h1 (hf i).le
    have h4 : f i * (F / f i * ∏ k, G k (lab i k) - 1) = F * ∏ k, G k (lab i k) - f i := by
      have := (hf i).ne'
      field_simp
    rw [h4] at h3
    linarith
  rw [← hF]
  have h5 := Finset.sum_le_sum fun i (_ : i ∈ Finset.univ) => hterm i
  rw [Finset.sum_sub_distrib, Finset.sum_sub_distrib, ← Finset.mul_sum, ← hF] at h5
  have h6 : F * ∑ i, ∏ k, G k (lab i k) ≤ F * 1 := mul_le_mul_of_nonneg_left hprod hFp.le
  linarith

theorem labels_avg {M nb : Nat} (S : Fin M → ℂ) {N0 : ℝ} (h0 : 0 < N0) (lab : Fin M → Fin nb → Bool) (hinj : Function.Injective lab) :
    ∑ i, avgLog S N0 {i} i ≤ ∑ i, ∑ k, avgLog S N0 (Finset.univ.filter fun j => lab j k = lab i k) i := by
  have hmem : ∀ i k, i ∈ Finset.univ.filter fun j => lab j k = lab i k := by simp
  have e1 : ∀ i, avgLog S N0 {i} i = ∫ p : ℝ × ℝ, chDens N0 (S i) (mkC p) * Real.log (sumDens S N0 Finset.univ (mkC p) / sumDens S N0 {i} (mkC p)) := fun i => (avgLog_eq S h0 (Finset.mem_singleton_self i)).2
  have e2 : ∀ i k, avgLog S N0 (Finset.univ.filter fun j => lab j k = lab i k) i = ∫ p : ℝ × ℝ, chDens N0 (S i) (mkC p) * Real.log (sumDens S N0 Finset.univ (mkC p) / sumDens S N0 (Finset.univ.filter fun j => lab j k = lab i k) (mkC p)) := fun i k => (avgLog_eq S h0 (hmem i k)).2
  have i1 : ∀ i, Integrable (fun p => chDens N0 (S i) (mkC p) * Real.log (sumDens S N0 Finset.univ (mkC p) / sumDens S N0 {i} (mkC p))) (volume : Measure (ℝ × ℝ)) := fun i => (log_ratio_integrable S h0 (Finset.mem_singleton_self i)).2
  have i2 : ∀ i k, Integrable (fun p => chDens N0 (S i) (mkC p) * Real.log (sumDens S N0 Finset.univ (mkC p) / sumDens S N0 (Finset.univ.filter fun j => lab j k = lab i k) (mkC p))) (volume : Measure (ℝ × ℝ)) := fun i k => (log_ratio_integrable S h0 (hmem i k)).2
  simp_rw [e1, e2]
  rw [← integral_finsetSum _ fun i _ => i1 i]
  have e3 : ∀ i, ∑ k, ∫ p : ℝ × ℝ, chDens N0 (S i) (mkC p) * Real.log (sumDens S N0 Finset.univ (mkC p) / sumDens S N0 (Finset.univ.filter fun j => lab j k = lab i k) (mkC p)) =
      ∫ p : ℝ × ℝ, ∑ k, chDens N0 (S i) (mkC p) * Real.log (sumDens S N0 Finset.univ (mkC p) / sumDens S N0 (Finset.univ.filter fun j => lab j k = lab i k) (mkC p)) := fun i => (integral_finsetSum _ fun k _ => i2 i k).symm
  simp_rw [e3]
  rw [← integral_finsetSum _ fun i _ => integrable_finsetSum _ fun k _ => i2 i k]
  apply integral_mono (integrable_finsetSum _ fun i _ => i1 i) (integrable_finsetSum _ fun i _ => integrable_finsetSum _ fun k _ => i2 i k)
  intro p
  have h := labels_pointwise lab hinj (fun i => chDens N0 (S i) (mkC p)) fun i => chDens_pos h0 _ _
  dsimp only at h ⊢
  simp_rw [← Finset.mul_sum]
  simpa [sumDens] using h

/-! ### Information of the channel -/

/-- Mutual information, in bits, between an equally distributed symbol and the received value. -/
noncomputable def mutualInfo {M : Nat} (S : Fin M → ℂ) (N0 : ℝ) : ℝ :=
  (∑ i, ∫ z, Real.logb 2 (chDens N0 (S i) (rcv N0 (S i) z) / ((∑ j, chDens N0 (S j) (rcv N0 (S i) z)) / M)) ∂stdN2) / M

/-- Mutual information, in bits, between one bit `b` of the label of an equally distributed symbol and the received value. -/
noncomputable def bitInfo {M : Nat} (S : Fin M → ℂ) (b : Fin M → Bool) (N0 : ℝ) : ℝ :=
  (∑ i, ∫ z, Real.logb 2 (((∑ j with b j = b i, chDens N0 (S j) (rcv N0 (S i) z)) / (Finset.univ.filter fun j => b j = b i).card) / ((∑ j, chDens N0 (S j) (rcv N0 (S i) z)) / M)) ∂stdN2) / M

theorem info_term {M : Nat} (S : Fin M → ℂ) {N0 : ℝ} (h0 : 0 < N0) {A : Finset (Fin M)} {i : Fin M} (hi : i ∈ A) :
    ∫ z, Real.logb 2 ((sumDens S N0 A (rcv N0 (S i) z) / A.card) / (sumDens S N0 Finset.univ (rcv N0 (S i) z) / M)) ∂stdN2 = Real.logb 2 (M / A.card) - avgLog S N0 A i / Real.log 2 := by
  have hM : (0 : ℝ) < M := by exact_mod_cast i.pos
  have hA : (0 : ℝ) < A.card := by exact_mod_cast Finset.card_pos.2 ⟨i, hi⟩
  have e : ∀ z, Real.logb 2 ((sumDens S N0 A (rcv N0 (S i) z) / A.card) / (sumDens S N0 Finset.univ (rcv N0 (S i) z) / M)) =
      Real.logb 2 (M / A.card) - Real.log (sumDens S N0 Finset.univ (rcv N0 (S i) z) / sumDens S N0 A (rcv N0 (S i) z)) / Real.log 2 := by
    intro z
    have h1 := sumDens_pos S h0 ⟨i, hi⟩ (rcv N0 (S i) z)
    have h2 := sumDens_pos S h0 ⟨i, Finset.mem_univ i⟩ (rcv N0 (S i) z)
    rw [Real.logb, Real.logb, ← sub_div, ← Real.log_div (by positivity) (by positivity)]
    congr 2
    field_simp
  simp_rw [e]
  rw [integral_sub (integrable_const _) ((avgLog_eq S h0 hi).1.div_const _), integral_div]
  simp [avgLog]

theorem mutualInfo_eq {M : Nat} (S : Fin M → ℂ) {N0 : ℝ} (h0 : 0 < N0) (hM : 0 < M) : mutualInfo S N0 = Real.logb 2 M - (∑ i, avgLog S N0 {i} i) / Real.log 2 / M := by
  have hM' : (M : ℝ) ≠ 0 := by exact_mod_cast hM.ne'
  have h : ∀ i, ∫ z, Real.logb 2 (chDens N0 (S i) (rcv N0 (S i) z) / ((∑ j, chDens N0 (S j) (rcv N0 (S i) z)) / M)) ∂stdN2 = Real.logb 2 M - avgLog S N0 {i} i / Real.log 2 := by
    intro i
    have := info_term S h0 (Finset.mem_singleton_self i)
    simpa [sumDens] using this
  unfold mutualInfo
  simp_rw [h]
  rw [Finset.sum_sub_distrib, Finset.sum_const, Finset.card_univ, Fintype.card_fin, nsmul_eq_mul, sub_div, mul_div_cancel_left₀ _ hM', ← Finset.sum_div]

theorem bitInfo_eq {M : Nat} (S : Fin M → ℂ) (b : Fin M → Bool) {N0 : ℝ} (h0 : 0 < N0) :
    bitInfo S b N0 = (∑ i, (Real.logb 2 (M / (Finset.univ.filter fun j => b j = b i).card) - avgLog S N0 (Finset.univ.filter fun j => b j = b i) i / Real.log 2)) / M := by
  unfold bitInfo
  congr 1
  apply Finset.sum_congr rfl
  intro i _
  exact info_term S h0 (by simp)

theorem mutualInfo_bounds {M : Nat} (S : Fin M → ℂ) {N0 : ℝ} (h0 : 0 < N0) (hM : 0 < M) : 0 ≤ mutualInfo S N0 ∧ mutualInfo S N0 ≤ Real.logb 2 M := by
  have hM' : (0 : ℝ) < M := by exact_mod_cast hM
  have hl2 : 0 < Real.log 2 := Real.log_pos (by norm_num)
  rw [mutualInfo_eq S h0 hM]
  have h1 : ∀ i, avgLog S N0 {i} i ≤ Real.log M := by
    intro i
    have := avgLog_le S h0 (Finset.singleton_nonempty i)
    simpa using this
  have h2 : (∑ i, avgLog S N0 {i} i) ≤ M * Real.log M := by
    calc _ ≤ ∑ _i : Fin M, Real.log M := Finset.sum_le_sum fun i _ => h1 i
      _ = _ := by simp
  have h3 : 0 ≤ ∑ i, avgLog S N0 {i} i := Finset.sum_nonneg fun i _ => avgLog_nonneg S h0 (Finset.mem_singleton_self i)
  constructor
  · rw [sub_nonneg, div_div, div_le_iff₀ (by positivity), Real.logb]
    calc _ ≤ _ := h2
      _ = _ := by field_simp
  · have : 0 ≤ (∑ i, avgLog S N0 {i} i) / Real.log 2 / M := by positivity
    linarith

theorem bitInfo_nonneg {M : Nat} (S : Fin M → ℂ) (b : Fin M → Bool) {N0 : ℝ} (h0 : 0 < N0) : 0 ≤ bitInfo S b N0 := by
  rw [bitInfo_eq S b h0]
  apply div_nonneg _ (Nat.cast_nonneg _)
  have hl2 : 0 < Real.log 2 := Real.log_pos (by norm_num)
  rw [← Finset.sum_fiberwise (s := Finset.univ) (g := b)]
  apply Finset.sum_nonneg
  intro c _
  rcases (Finset.univ.filter fun j => b j = c).eq_empty_or_nonempty with h | h
  · rw [h]; simp
  have e : ∀ i ∈ Finset.univ.filter (fun j => b j = c), (Real.logb 2 (M / (Finset.univ.filter fun j => b j = b i).card) - avgLog S N0 (Finset.univ.filter fun j => b j = b i) i / Real.log 2) =
      Real.logb 2 (M / (Finset.univ.filter fun j => b j = c).card) - avgLog S N0 (Finset.univ.filter fun j => b j = c) i / Real.log 2 := by
    intro i hi
    rw [(Finset.mem_filter.1 hi).2]
  rw [Finset.sum_congr rfl e, Finset.sum_sub_distrib, Finset.sum_const, nsmul_eq_mul, ← Finset.sum_div, sub_nonneg, div_le_iff₀ hl2, Real.logb]
  have := avgLog_le S h0 h
  calc _ ≤ _ := this
    _ = _ := by field_simp

/-- All bits of a labelling by the `2 ^ nb` bit patterns together carry at most the information of the symbol. -/
theorem bitInfo_sum_le {nb : Nat} (S : Fin (2 ^ nb) → ℂ) {N0 : ℝ} (h0 : 0 < N0) (lab : Fin (2 ^ nb) → Fin nb → Bool) (hinj : Function.Injective lab)
    (hhalf : ∀ k c, (Finset.univ.filter fun j => lab j k = c).card * 2 = 2 ^ nb) : ∑ k, bitInfo S (fun i => lab i k) N0 ≤ mutualInfo S N0 := by
  have hl2 : 0 < Real.log 2 := Real.log_pos (by norm_num)
  have hM : (0 : ℝ) < ((2 ^ nb : ℕ) : ℝ) := by positivity
  have hb : ∀ k, bitInfo S (fun i => lab i k) N0 = 1 - (∑ i, avgLog S N0 (Finset.univ.filter fun j => lab j k = lab i k) i) / Real.log 2 / ((2 ^ nb : ℕ) : ℝ) := by
    intro k
    rw [bitInfo_eq S _ h0]
    have e : ∀ i, Real.logb 2 (((2 ^ nb : ℕ) : ℝ) / ((Finset.univ.filter fun j => lab j k = lab i k).card : ℝ)) = 1 := by
      intro i
      have h1 := hhalf k (lab i k)
      have h2 : ((2 ^ nb : ℕ) : ℝ) = ((Finset.univ.filter fun j => lab j k = lab i k).card : ℝ) * 2 := by exact_mod_cast h1.symm
      have h3 : (0 : ℝ) < ((Finset.univ.filter fun j => lab j k = lab i k).card : ℝ) := by
        rw [h2] at hM
        linarith
      rw [h2, mul_div_cancel_left₀ _ h3.ne']
      exact Real.logb_self_eq_one (by norm_num)
    simp_rw [e]
    rw [Finset.sum_sub_distrib, Finset.sum_const, Finset.card_univ, Fintype.card_fin, nsmul_eq_mul, mul_one, sub_div, div_self hM.ne', ← Finset.sum_div]
  simp_rw [hb]
  rw [Finset.sum_sub_distrib, mutualInfo_eq S h0 (by positivity), ← Finset.sum_div, ← Finset.sum_div, Finset.sum_comm]
  have h := labels_avg S h0 lab hinj
  have hlog : Real.logb 2 ((2 ^ nb : ℕ) : ℝ) = nb := by
    push_cast
    rw [Real.logb_pow, Real.logb_self_eq_one (by norm_num), mul_one]
  rw [hlog]
  simp only [Finset.sum_const, Finset.card_univ, Fintype.card_fin, nsmul_eq_mul, mul_one]
  gcongr

/-! ### Averages of the Monte-Carlo sums -/

theorem sum_map_ofFn {α : Type} {n : Nat} (g : Fin n → α) (f : α → ℝ) : ((List.ofFn g).map f).sum = ∑ k, f (g k) := by
  rw [List.map_ofFn, List.sum_ofFn]
  rfl

theorem noise_sum {n : Nat} (f : Fin n → ℝ × ℝ → ℝ) (hf : ∀ k, Integrable (f k) stdN2) :
    Integrable (fun d : Fin n → ℝ × ℝ => ∑ k, f k (d k)) (noiseLaw n) ∧ ∫ d, ∑ k, f k (d k) ∂noiseLaw n = ∑ k, ∫ z, f k z ∂stdN2 := by
  have hi : ∀ k, Integrable (fun d : Fin n → ℝ × ℝ => f k (d k)) (noiseLaw n) := fun k => (measurePreserving_eval (fun _ : Fin n => stdN2) k).integrable_comp_of_integrable (hf k)
  refine ⟨integrable_finsetSum _ fun k _ => hi k, ?_⟩
  rw [integral_finsetSum _ fun k _ => hi k]
  apply Finset.sum_congr rfl
  intro k _
  exact integral_comp_eval (μ := fun _ : Fin n => stdN2) (i := k) (hf k).aestronglyMeasurable

/-- The noise with conjugated values has the same law. -/
theorem conj_preserving : MeasurePreserving (fun z : ℝ × ℝ => (z.1, -z.2)) stdN2 stdN2 := by
  have h : MeasurePreserving (fun x : ℝ => -x) stdN stdN := ⟨by fun_prop, by
    have := gaussianReal_map_neg (μ := 0) (v := 1)
    rw [neg_zero] at this
    exact this⟩
  exact (MeasurePreserving.id stdN).prod h

/-- The sums of exponentials of the code are ratios of densities. -/
theorem sumDens_exp {M : Nat} (S : Fin M → ℂ) {N0 : ℝ} (A : Finset (Fin M)) (i : Fin M) (y : ℂ) :
    sumDens S N0 A y = chDens N0 (S i) y * ∑ j ∈ A, Real.exp (-(‖y - S j‖ ^ 2 - ‖y - S i‖ ^ 2) / N0) := by
  unfold sumDens
  rw [Finset.mul_sum]
  apply Finset.sum_congr rfl
  intro j _
  unfold chDens
  rw [mul_assoc, ← Real.exp_add]
  congr 2
  ring

theorem rcv_dist (N0 : ℝ) (s t : ℂ) (z : ℝ × ℝ) : ‖rcv N0 s (z.1, -z.2) - t‖ ^ 2 - ‖rcv N0 s (z.1, -z.2) - s‖ ^ 2 = ‖s - t‖ ^ 2 + 2 * ((s - t) * ((⟨z.1, z.2⟩ : ℂ) * (Real.sqrt (N0 / 2) : ℂ))).re := by
  simp only [← Complex.normSq_eq_norm_sq, Complex.normSq_apply, rcv, Complex.sub_re, Complex.sub_im, Complex.add_re, Complex.add_im, Complex.mul_re, Complex.mul_im, Complex.ofReal_re, Complex.ofReal_im]
  ring

theorem logb_exp_sum {M : Nat} (S : Fin M → ℂ) {N0 : ℝ} (h0 : 0 < N0) {A : Finset (Fin M)} {i : Fin M} (_hi : i ∈ A) (y : ℂ) :
    (∑ j, Real.exp (-(‖y - S j‖ ^ 2 - ‖y - S i‖ ^ 2) / N0)) / ∑ j ∈ A, Real.exp (-(‖y - S j‖ ^ 2 - ‖y - S i‖ ^ 2) / N0) = sumDens S N0 Finset.univ y / sumDens S N0 A y := by
  rw [sumDens_exp S A i, sumDens_exp S Finset.univ i, mul_div_mul_left _ _ (chDens_pos h0 _ _).ne']

/-- Average of one term of the Monte-Carlo sums, whose noise enters conjugated. -/
theorem mc_term {M : Nat} (S : Fin M → ℂ) {N0 : ℝ} (h0 : 0 < N0) {A : Finset (Fin M)} {i : Fin M} (hi : i ∈ A) (T : ℝ × ℝ → ℝ)
    (hT : ∀ z, T z = Real.logb 2 ((∑ j, Real.exp (-(‖S i - S j‖ ^ 2 + 2 * ((S i - S j) * ((⟨z.1, z.2⟩ : ℂ) * (Real.sqrt (N0 / 2) : ℂ))).re) / N0)) /
      ∑ j ∈ A, Real.exp (-(‖S i - S j‖ ^ 2 + 2 * ((S i - S j) * ((⟨z.1, z.2⟩ : ℂ) * (Real.sqrt (N0 / 2) : ℂ))).re) / N0))) :
    Integrable T stdN2 ∧ ∫ z, T z ∂stdN2 = avgLog S N0 A i / Real.log 2 := by
  obtain ⟨g, hg⟩ : ∃ g : ℝ × ℝ → ℝ, g = fun z => Real.log (sumDens S N0 Finset.univ (rcv N0 (S i) z) / sumDens S N0 A (rcv N0 (S i) z)) := ⟨_, rfl⟩
  have hgi : Integrable g stdN2 := by rw [hg]; exact (avgLog_eq S h0 hi).1
  have e : T = fun z => g (z.1, -z.2) / Real.log 2 := by
    funext z
    rw [hT]
    simp_rw [← rcv_dist]
    rw [logb_exp_sum S h0 hi, hg]
    rfl
  have hc : Integrable (fun z : ℝ × ℝ => g (z.1, -z.2)) stdN2 := conj_preserving.integrable_comp_of_integrable hgi
  have hint : ∫ z : ℝ × ℝ, g (z.1, -z.2) ∂stdN2 = ∫ z, g z ∂stdN2 := by
    have hemb : AEStronglyMeasurable g (stdN2.map fun z : ℝ × ℝ => (z.1, -z.2)) := by rw [conj_preserving.map_eq]; exact hgi.aestronglyMeasurable
    rw [← integral_map conj_preserving.measurable.aemeasurable hemb, conj_preserving.map_eq]
  rw [e]
  refine ⟨hc.div_const _, ?_⟩
  rw [integral_div, hint, hg]
  rfl

theorem calMiMc_avg {M n : Nat} (hM : 0 < M) (hn : 0 < n) (S : Fin M → ℂ) {N0 : ℝ} (h0 : 0 < N0) :
    Integrable (fun d : Fin n → ℝ × ℝ => calMiMc ((List.ofFn d).map fun d => (⟨d.1, d.2⟩ : ℂ) * (Real.sqrt (N0 / 2) : ℂ)) (List.ofFn S) N0) (noiseLaw n) ∧
    ∫ d : Fin n → ℝ × ℝ, calMiMc ((List.ofFn d).map fun d => (⟨d.1, d.2⟩ : ℂ) * (Real.sqrt (N0 / 2) : ℂ)) (List.ofFn S) N0 ∂noiseLaw n = mutualInfo S N0 := by
  have hn' : (n : ℝ) ≠ 0 := by exact_mod_cast hn.ne'
  obtain ⟨T, hTd⟩ : ∃ T : Fin M → ℝ × ℝ → ℝ, T = fun i z => Real.logb 2 (∑ j, Real.exp (-(‖S i - S j‖ ^ 2 + 2 * ((S i - S j) * ((⟨z.1, z.2⟩ : ℂ) * (Real.sqrt (N0 / 2) : ℂ))).re) / N0)) := ⟨_, rfl⟩
  have hT : ∀ i, Integrable (T i) stdN2 ∧ ∫ z, T i z ∂stdN2 = avgLog S N0 {i} i / Real.log 2 := by
    intro i
    apply mc_term S h0 (Finset.mem_singleton_self i)
    intro z
    rw [hTd]
    simp
  have e : (fun d : Fin n → ℝ × ℝ => calMiMc ((List.ofFn d).map fun d => (⟨d.1, d.2⟩ : ℂ) * (Real.sqrt (N0 / 2) : ℂ)) (List.ofFn S) N0) =
      fun d => Real.logb 2 M - (∑ l, ∑ i, T i (d l)) / M / n := by
    funext d
    unfold calMiMc
    simp only [List.map_map, List.length_map, List.length_ofFn, sum_map_ofFn, Function.comp_apply]
    rw [Finset.sum_comm, hTd]
  obtain ⟨h1, h2⟩ := noise_sum (n := n) (fun _ z => ∑ i, T i z) fun _ => integrable_finsetSum _ fun i _ => (hT i).1
  rw [e]
  refine ⟨(integrable_const _).sub ((h1.div_const _).div_const _), ?_⟩
  rw [integral_sub (integrable_const _) ((h1.div_const _).div_const _), integral_div, integral_div, h2, integral_finsetSum _ fun i _ => (hT i).1, mutualInfo_eq S h0 hM]
  simp_rw [(hT _).2]
  simp only [integral_const, probReal_univ, smul_eq_mul, one_mul, Finset.sum_const, Finset.card_univ, Fintype.card_fin, nsmul_eq_mul, ← Finset.sum_div]
  congr 1
  field_simp

/-- C120: the average of `sim_mi_mc` over the noise is exactly the mutual information of the channel for the symbols normalised to unit power, for any alphabet and number of noise
values, and this lies between zero and `log2 M` bits. -/
theorem C120_mi {M n : Nat} (hn : 0 < n) (S : Fin M → ℂ) (hS : ∃ i, S i ≠ 0) (snrDb : ℝ) :
    let P := Real.sqrt ((∑ i, ‖S i‖ ^ 2) / M)
    let N0 := (10 : ℝ) ^ (-snrDb / 10)
    (∑ i, ‖S i / (P : ℂ)‖ ^ 2) / M = 1 ∧
    Integrable (fun d : Fin n → ℝ × ℝ => simMiMc (List.ofFn S) snrDb (List.ofFn d)) (noiseLaw n) ∧
    ∫ d : Fin n → ℝ × ℝ, simMiMc (List.ofFn S) snrDb (List.ofFn d) ∂noiseLaw n = mutualInfo (fun i => S i / (P : ℂ)) N0 ∧
    0 ≤ mutualInfo (fun i => S i / (P : ℂ)) N0 ∧ mutualInfo (fun i => S i / (P : ℂ)) N0 ≤ Real.logb 2 M := by
  intro P N0
  obtain ⟨i0, hi0⟩ := hS
  have hM : 0 < M := i0.pos
  have hM' : (0 : ℝ) < M := by exact_mod_cast hM
  have h0 : 0 < N0 := Real.rpow_pos_of_pos (by norm_num) _
  have hsum : 0 < ∑ i, ‖S i‖ ^ 2 := Finset.sum_pos' (fun i _ => by positivity) ⟨i0, Finset.mem_univ _, by have := norm_pos_iff.2 hi0; positivity⟩
  have hP : P ^ 2 = (∑ i, ‖S i‖ ^ 2) / M := Real.sq_sqrt (by positivity)
  have e : ∀ d : Fin n → ℝ × ℝ, simMiMc (List.ofFn S) snrDb (List.ofFn d) = calMiMc ((List.ofFn d).map fun d => (⟨d.1, d.2⟩ : ℂ) * (Real.sqrt (N0 / 2) : ℂ)) (List.ofFn fun i => S i / (P : ℂ)) N0 := by
    intro d
    unfold simMiMc
    have hm : meanR ((List.ofFn S).map fun s => ‖s‖ ^ 2) = (∑ i, ‖S i‖ ^ 2) / M := by
      unfold meanR
      rw [sum_map_ofFn, List.length_map, List.length_ofFn]
    dsimp only
    rw [hm, List.map_ofFn (f := S)]
    rfl
  obtain ⟨h1, h2⟩ := calMiMc_avg hM hn (fun i => S i / (P : ℂ)) h0
  simp_rw [e]
  refine ⟨?_, h1, h2, mutualInfo_bounds _ h0 hM⟩
  have : ∀ i, ‖S i / (P : ℂ)‖ ^ 2 = ‖S i‖ ^ 2 / P ^ 2 := by
    intro i
    rw [norm_div, div_pow, Complex.norm_real, Real.norm_eq_abs, sq_abs]
  simp_rw [this]
  rw [← Finset.sum_div, hP]
  field_simp

/-- C120: the average of `cal_mi_mc_fast` for a transmitted sequence with all symbols equally often, received with independent noise of variance `N0`, is the same mutual
information. -/
theorem C120_fast {n : Nat} (hn : 0 < n) (coded : List ℂ) (hnd : coded.Nodup) (tx : Fin n → ℂ) (hbal : EquallyOften coded tx) (N0 : ℝ) (h0 : 0 < N0) :
    Integrable (fun w : Fin n → ℝ × ℝ => calMiMcFast (List.ofFn fun k => rcv N0 (tx k) (w k)) (List.ofFn tx) coded N0) (noiseLaw n) ∧
    ∫ w : Fin n → ℝ × ℝ, calMiMcFast (List.ofFn fun k => rcv N0 (tx k) (w k)) (List.ofFn tx) coded N0 ∂noiseLaw n = mutualInfo coded.get N0 := by
  have hn' : (0 : ℝ) < n := by exact_mod_cast hn
  have hM : 0 < coded.length := List.length_pos_of_mem (hbal.1 ⟨0, hn⟩)
  have hM' : (0 : ℝ) < coded.length := by exact_mod_cast hM
  have hidx : ∀ k, ∃ i : Fin coded.length, coded.get i = tx k := fun k => List.mem_iff_get.1 (hbal.1 k)
  choose a ha using hidx
  obtain ⟨g, hg⟩ : ∃ g : ℂ → ℝ × ℝ → ℝ, g = fun s z => Real.logb 2 (∑ j, Real.exp (-(‖rcv N0 s z - coded.get j‖ ^ 2 - ‖rcv N0 s z - s‖ ^ 2) / N0)) := ⟨_, rfl⟩
  have hgi : ∀ i, Integrable (g (coded.get i)) stdN2 ∧ ∫ z, g (coded.get i) z ∂stdN2 = avgLog coded.get N0 {i} i / Real.log 2 := by
    intro i
    have e : g (coded.get i) = fun z => Real.log (sumDens coded.get N0 Finset.univ (rcv N0 (coded.get i) z) / sumDens coded.get N0 {i} (rcv N0 (coded.get i) z)) / Real.log 2 := by
      funext z
      rw [hg, ← logb_exp_sum coded.get h0 (Finset.mem_singleton_self i)]
      simp [Real.logb]
    rw [e]
    refine ⟨(avgLog_eq coded.get h0 (Finset.mem_singleton_self i)).1.div_const _, ?_⟩
    rw [integral_div]
    rfl
  have hgt : ∀ k, Integrable (g (tx k)) stdN2 := fun k => by rw [← ha k]; exact (hgi (a k)).1
  have e : (fun w : Fin n → ℝ × ℝ => calMiMcFast (List.ofFn fun k => rcv N0 (tx k) (w k)) (List.ofFn tx) coded N0) = fun w => Real.logb 2 coded.length - (∑ k, g (tx k) (w k)) / n := by
    funext w
    unfold calMiMcFast
    dsimp only
    rw [zip_ofFn, sum_map_ofFn, List.length_ofFn, hg]
    congr 2
    apply Finset.sum_congr rfl
    intro k _
    dsimp only
    congr 1
    have h3 := sum_map_ofFn coded.get fun sj => Real.exp (-(‖rcv N0 (tx k) (w k) - sj‖ ^ 2 - ‖rcv N0 (tx k) (w k) - tx k‖ ^ 2) / N0)
    rw [List.ofFn_get] at h3
    exact h3
  obtain ⟨h1, h2⟩ := noise_sum (fun k => g (tx k)) hgt
  rw [e]
  refine ⟨(integrable_const _).sub (h1.div_const _), ?_⟩
  rw [integral_sub (integrable_const _) (h1.div_const _), integral_div, h2, mutualInfo_eq _ h0 hM]
  have hb := balanced_sum hnd hbal fun s => ∫ z, g s z ∂stdN2
  have hs : (coded.map fun s => ∫ z, g s z ∂stdN2).sum = (∑ i, avgLog coded.get N0 {i} i) / Real.log 2 := by
    conv_lhs => rw [← List.ofFn_get coded]
    rw [sum_map_ofFn, Finset.sum_div]
    exact Finset.sum_congr rfl fun i _ => (hgi i).2
  rw [hs] at hb
  simp only [integral_const, probReal_univ, smul_eq_mul, one_mul]
  congr 1
  rw [div_eq_div_iff hn'.ne' hM'.ne', hb]
  ring

/-- Any alphabet with a nonzero symbol, and any sequence repeating the alphabet, satisfies the hypotheses. -/
example : (∃ i, (![1, Complex.I, -1, -Complex.I] : Fin 4 → ℂ) i ≠ 0) ∧ ([1, -1] : List ℂ).Nodup ∧ EquallyOften ([1, -1] : List ℂ) (fun k : Fin ([1, -1] : List ℂ).length => ([1, -1] : List ℂ).get k) := by
  have hnd : ([1, -1] : List ℂ).Nodup := by
    have : (1 : ℂ) ≠ -1 := by
      intro h
      have := congrArg Complex.re h
      norm_num at this
    simp [this]
  exact ⟨⟨0, by simp⟩, hnd, balanced_get hnd⟩

/-! ### Bit information -/

theorem select_sum : ∀ (M : Nat) (S : Fin M → ℂ) (b : Fin M → Bool) (g : ℂ → ℝ), ((Np.select (List.ofFn S) (List.ofFn b)).map g).sum = ∑ i with b i = true, g (S i) := by
  intro M
  induction M with
  | zero => intro S b g; simp [Np.select]
  | succ M ih =>
    intro S b g
    rw [Finset.sum_filter, Fin.sum_univ_succ, ← Finset.sum_filter, List.ofFn_succ, List.ofFn_succ, ← ih (fun i => S i.succ) (fun i => b i.succ) g]
    cases h : b 0 <;> simp [Np.select]

/-- Bit `bit` of the label `l`, most significant first. -/
def labelBit (k : Nat) (l : Fin (2 ^ k)) (bit : Fin k) : Bool := (l : ℕ).testBit (k - 1 - bit)

theorem labelBit_injective (k : Nat) : Function.Injective (labelBit k) := by
  intro a b h
  apply Fin.ext
  apply Nat.eq_of_testBit_eq
  intro t
  by_cases ht : t < k
  · have := congrFun h ⟨k - 1 - t, by omega⟩
    simp only [labelBit] at this
    rwa [show k - 1 - (k - 1 - t) = t by omega] at this
  · rw [Nat.testBit_lt_two_pow (lt_of_lt_of_le a.2 (Nat.pow_le_pow_right (by norm_num) (by omega))), Nat.testBit_lt_two_pow (lt_of_lt_of_le b.2 (Nat.pow_le_pow_right (by norm_num) (by omega)))]

theorem bitmapColumn_ofFn {k : Nat} (S : Fin (2 ^ k) → ℂ) (bit : Fin k) :
    bitmapColumn k (List.ofFn S) bit = (Np.select (List.ofFn S) (List.ofFn fun l => !labelBit k l bit), Np.select (List.ofFn S) (List.ofFn fun l => labelBit k l bit)) := by
  have hcol : ((encoding k).map fun row => row.getD bit false) = List.ofFn fun l => labelBit k l bit := by
    apply List.ext_getElem
    · simp [encoding]
    · intro t h1 h2
      simp only [encoding, List.getElem_map, List.getElem_range, List.getElem_ofFn, labelBit]
      rw [List.getD_eq_getElem?_getD, encodingRow_getElem? _ _ _ bit.2]
      rfl
  unfold bitmapColumn
  dsimp only
  rw [hcol, List.map_ofFn]
  rfl

theorem bitmapMtx_ofFn {k : Nat} (S : Fin (2 ^ k) → ℂ) : bitmapMtx k (List.ofFn S) = .ok (List.ofFn fun bit : Fin k => bitmapColumn k (List.ofFn S) bit) := by
  obtain ⟨m, hm, hl, -⟩ := C17_bitmap k (List.ofFn S) (by simp)
  have key : ∀ (l : List Nat) (m : List (List ℂ × List ℂ)), (l.mapM fun bit =>
      let c := bitmapColumn k (List.ofFn S) bit
      if c.1.length = 2 ^ k / 2 ∧ c.2.length = 2 ^ k / 2 then (.ok c : Except PyErr _) else .error .value) = .ok m → m = l.map (bitmapColumn k (List.ofFn S)) := by
    intro l
    induction l with
    | nil =>
      intro m h
      cases h
      rfl
    | cons b l ih =>
      intro m h
      rw [List.mapM_cons] at h
      dsimp only at h
      split at h
      · dsimp only [bind, Except.bind] at h
        split at h
        · cases h
        · rename_i v hv
          cases h
          rw [ih _ hv]
          rfl
      · cases h
  rw [hm, key _ _ hm]
  congr 1
  apply List.ext_getElem <;> simp

/-- The value of `cal_gmi` as a mean over the noise values. -/
theorem gmi_terms {k n : Nat} (S : Fin (2 ^ k) → ℂ) (snrDb : ℝ) {N0 : ℝ} (hN0 : N0 = (10 : ℝ) ^ (-snrDb / 10)) (T : Fin k → Fin (2 ^ k) → ℝ × ℝ → ℝ)
    (hTd : T = fun bit i z => Real.logb 2 ((∑ j, Real.exp (-(‖S i - S j‖ ^ 2 + 2 * ((S i - S j) * ((⟨z.1, z.2⟩ : ℂ) * (Real.sqrt (N0 / 2) : ℂ))).re) / N0)) /
      ∑ j with labelBit k j bit = labelBit k i bit, Real.exp (-(‖S i - S j‖ ^ 2 + 2 * ((S i - S j) * ((⟨z.1, z.2⟩ : ℂ) * (Real.sqrt (N0 / 2) : ℂ))).re) / N0))) (d : Fin n → ℝ × ℝ) :
    theoryGmi k (List.ofFn S) snrDb (List.ofFn d) = .ok (k - (∑ l, ∑ bit, ∑ i, T bit i (d l)) / ((2 ^ k : ℕ) * n)) := by
  have h0 : 0 < N0 := by rw [hN0]; exact Real.rpow_pos_of_pos (by norm_num) _
  have hsnr : (10 : ℝ) ^ (snrDb / 10) = 1 / N0 := by
    rw [hN0, one_div, ← Real.rpow_neg (by norm_num)]
    congr 1
    ring
  have hz : ∀ z : ℝ × ℝ, ((Real.sqrt (1 / (1 / N0)) : ℝ) : ℂ) * (⟨z.1, z.2⟩ : ℂ) / (Real.sqrt 2 : ℂ) = (⟨z.1, z.2⟩ : ℂ) * (Real.sqrt (N0 / 2) : ℂ) := by
    intro z
    rw [one_div_one_div, Real.sqrt_div h0.le]
    push_cast
    ring
  have hexp : ∀ (s t w : ℂ), -(1 / N0) * (2 * (w * (s - t)).re + ‖s - t‖ ^ 2) = -(‖s - t‖ ^ 2 + 2 * ((s - t) * w).re) / N0 := by
    intro s t w
    rw [mul_comm w]
    ring
  unfold theoryGmi
  simp only [bitmapMtx_ofFn, hsnr, hz]
  congr 1
  unfold calGmiMc
  simp only [List.length_map, List.length_ofFn]
  congr 2
  rw [sum_map_ofFn, Finset.sum_comm]
  apply Finset.sum_congr rfl
  intro bit _
  simp only [List.map_cons, List.map_nil, List.sum_cons, List.sum_nil, add_zero, Bool.false_eq_true, if_false, if_true, List.map_map, sum_map_ofFn, Function.comp_apply]
  rw [← Finset.sum_add_distrib]
  apply Finset.sum_congr rfl
  intro l _
  rw [bitmapColumn_ofFn]
  dsimp only
  rw [select_sum, select_sum, ← Finset.sum_filter_add_sum_filter_not Finset.univ (fun i => (!labelBit k i bit) = true)]
  congr 1
  · apply Finset.sum_congr rfl
    intro i hi
    have hi' := (Finset.mem_filter.1 hi).2
    rw [hTd]
    dsimp only
    unfold calExpSum
    rw [sum_map_ofFn, select_sum]
    simp only [hexp]
    congr 3
    ext j
    simp only [Finset.mem_filter, Finset.mem_univ, true_and]
    cases h1 : labelBit k i bit <;> simp_all
  · apply Finset.sum_congr
    · ext j
      simp
    intro i hi
    have hi' := (Finset.mem_filter.1 hi).2
    rw [hTd]
    dsimp only
    unfold calExpSum
    rw [sum_map_ofFn, select_sum]
    simp only [hexp]
    congr 3
    ext j
    simp only [Finset.mem_filter, Finset.mem_univ, true_and]
    cases h1 : labelBit k i bit <;> simp_all

/-- C121: the average over the noise of the value computed by `cal_gmi` (`cal_gmi_mc`) is the sum of the mutual informations of the single bits of the label, each of which is not
negative and which together do not exceed the mutual information of the symbols. -/
theorem C121_gmi {k n : Nat} (hn : 0 < n) (S : Fin (2 ^ k) → ℂ) (snrDb : ℝ) :
    let N0 := (10 : ℝ) ^ (-snrDb / 10)
    ∃ g : (Fin n → ℝ × ℝ) → ℝ, (∀ d, theoryGmi k (List.ofFn S) snrDb (List.ofFn d) = .ok (g d)) ∧ Integrable g (noiseLaw n) ∧
      ∫ d, g d ∂noiseLaw n = ∑ bit : Fin k, bitInfo S (fun l => labelBit k l bit) N0 ∧
      (∀ bit : Fin k, 0 ≤ bitInfo S (fun l => labelBit k l bit) N0) ∧
      ∑ bit : Fin k, bitInfo S (fun l => labelBit k l bit) N0 ≤ mutualInfo S N0 := by
  intro N0
  have h0 : 0 < N0 := Real.rpow_pos_of_pos (by norm_num) _
  have hn' : (n : ℝ) ≠ 0 := by exact_mod_cast hn.ne'
  have hhalf : ∀ (bit : Fin k) c, (Finset.univ.filter fun j => labelBit k j bit = c).card * 2 = 2 ^ k := by
    intro bit c
    obtain ⟨m, hm, -, hcol⟩ := C17_bitmap k (List.ofFn S) (by simp)
    rw [bitmapMtx_ofFn] at hm
    cases hm
    obtain ⟨h1, h2, -⟩ := hcol bit (bitmapColumn k (List.ofFn S) bit) (by simp)
    rw [bitmapColumn_ofFn] at h1 h2
    have hlen : ∀ b : Fin (2 ^ k) → Bool, ((Np.select (List.ofFn S) (List.ofFn b)).length : ℝ) = ((Finset.univ.filter fun j => b j = true).card : ℝ) := by
      intro b
      have := select_sum _ S b fun _ => 1
      simpa using this
    have e : 2 ^ (k - 1) * 2 = 2 ^ k := by
      rw [← pow_succ]
      congr 1
      have := bit.2
      omega
    refine Eq.trans ?_ e
    congr 1
    cases c
    · have := hlen fun l => !labelBit k l bit
      dsimp only at h1
      rw [h1] at this
      have h3 : 2 ^ (k - 1) = (Finset.univ.filter fun j => (!labelBit k j bit) = true).card := by exact_mod_cast this
      rw [h3]
      congr 1
      ext j
      simp
    · have := hlen fun l => labelBit k l bit
      dsimp only at h2
      rw [h2] at this
      have h3 : 2 ^ (k - 1) = (Finset.univ.filter fun j => labelBit k j bit = true).card := by exact_mod_cast this
      exact h3.symm
  obtain ⟨T, hTd⟩ : ∃ T : Fin k → Fin (2 ^ k) → ℝ × ℝ → ℝ, T = fun bit i z => Real.logb 2 ((∑ j, Real.exp (-(‖S i - S j‖ ^ 2 + 2 * ((S i - S j) * ((⟨z.1, z.2⟩ : ℂ) * (Real.sqrt (N0 / 2) : ℂ))).re) / N0)) /
      ∑ j with labelBit k j bit = labelBit k i bit, Real.exp (-(‖S i - S j‖ ^ 2 + 2 * ((S i - S j) * ((⟨z.1, z.2⟩ : ℂ) * (Real.sqrt (N0 / 2) : ℂ))).re) / N0)) := ⟨_, rfl⟩
  have hT : ∀ bit i, Integrable (T bit i) stdN2 ∧ ∫ z, T bit i z ∂stdN2 = avgLog S N0 (Finset.univ.filter fun j => labelBit k j bit = labelBit k i bit) i / Real.log 2 := by
    intro bit i
    apply mc_term S h0 (by simp)
    intro z
    rw [hTd]
  have e : ∀ d : Fin n → ℝ × ℝ, theoryGmi k (List.ofFn S) snrDb (List.ofFn d) = .ok (k - (∑ l, ∑ bit, ∑ i, T bit i (d l)) / ((2 ^ k : ℕ) * n)) := gmi_terms S snrDb rfl T hTd
  refine ⟨_, e, ?_⟩
  obtain ⟨h1, h2⟩ := noise_sum (n := n) (fun _ z => ∑ bit, ∑ i, T bit i z) fun _ => integrable_finsetSum _ fun bit _ => integrable_finsetSum _ fun i _ => (hT bit i).1
  refine ⟨(integrable_const _).sub (h1.div_const _), ?_, fun bit => bitInfo_nonneg S _ h0, bitInfo_sum_le S h0 (labelBit k) (labelBit_injective k) hhalf⟩
  rw [integral_sub (integrable_const _) (h1.div_const _), integral_div, h2]
  have hint : ∫ z, ∑ bit, ∑ i, T bit i z ∂stdN2 = ∑ bit, ∑ i, avgLog S N0 (Finset.univ.filter fun j => labelBit k j bit = labelBit k i bit) i / Real.log 2 := by
    rw [integral_finsetSum _ fun bit _ => integrable_finsetSum _ fun i _ => (hT bit i).1]
    apply Finset.sum_congr rfl
    intro bit _
    rw [integral_finsetSum _ fun i _ => (hT bit i).1]
    exact Finset.sum_congr rfl fun i _ => (hT bit i).2
  simp_rw [hint]
  have hMp : (0 : ℝ) < ((2 ^ k : ℕ) : ℝ) := by positivity
  have hb : ∀ bit, bitInfo S (fun l => labelBit k l bit) N0 = 1 - (∑ i, avgLog S N0 (Finset.univ.filter fun j => labelBit k j bit = labelBit k i bit) i / Real.log 2) / ((2 ^ k : ℕ) : ℝ) := by
    intro bit
    rw [bitInfo_eq S _ h0]
    have e1 : ∀ i, Real.logb 2 (((2 ^ k : ℕ) : ℝ) / ((Finset.univ.filter fun j => labelBit k j bit = labelBit k i bit).card : ℝ)) = 1 := by
      intro i
      have h2 : ((2 ^ k : ℕ) : ℝ) = ((Finset.univ.filter fun j => labelBit k j bit = labelBit k i bit).card : ℝ) * 2 := by exact_mod_cast (hhalf bit (labelBit k i bit)).symm
      have h3 : (0 : ℝ) < ((Finset.univ.filter fun j => labelBit k j bit = labelBit k i bit).card : ℝ) := by
        rw [h2] at hMp
        linarith
      rw [h2, mul_div_cancel_left₀ _ h3.ne']
      exact Real.logb_self_eq_one (by norm_num)
    simp_rw [e1]
    rw [Finset.sum_sub_distrib, Finset.sum_const, Finset.card_univ, Fintype.card_fin, nsmul_eq_mul, mul_one, sub_div, div_self hMp.ne']
  simp_rw [hb]
  rw [Finset.sum_sub_distrib, ← Finset.sum_div]
  simp only [integral_const, probReal_univ, smul_eq_mul, one_mul, Finset.sum_const, Finset.card_univ, Fintype.card_fin, nsmul_eq_mul, mul_one]
  congr 1
  field_simp

/-- The Gray coded square constellations are of this form. -/
example (N : Nat) : ∃ S : Fin (2 ^ (2 * N)) → ℂ, List.ofFn S = qamCodedSymbols (2 * N) (Real.sqrt (scalingFactor (2 * N) : ℝ)) := by
  have h : (qamCodedSymbols (2 * N) (Real.sqrt (scalingFactor (2 * N) : ℝ))).length = 2 ^ (2 * N) := length_qamCoded _ _
  refine ⟨fun i => (qamCodedSymbols (2 * N) (Real.sqrt (scalingFactor (2 * N) : ℝ))).get (i.cast h.symm), ?_⟩
  apply List.ext_getElem <;> simp [h]

end Qampy
