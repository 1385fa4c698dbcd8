import Verif.Props.NoiseInvariance
import Verif.Props.RandomSignal
import Verif.Props.TheoryShape
import Mathlib.Probability.Moments.SubGaussian

/-!
# C235: error rates measured on random data

The average symbol error rate of C115 is the formula when every symbol is sent equally often. Signals made of random bits contain the symbols with random frequencies, and their power,
to which `change_snr` refers the noise, is random too. The bounds here need no assumption on the data.
-/

namespace Qampy

open MeasureTheory ProbabilityTheory

/-! ### The error function changes little -/

theorem erfc_ratio {a b : ℝ} (ha : 0 < a) (hab : a ≤ b) : erfc a - erfc b ≤ b / a - 1 := by
  have h1 : (∫ t in Set.Ioi a, Real.exp (-t ^ 2)) - ∫ t in Set.Ioi b, Real.exp (-t ^ 2) = ∫ t in a..b, Real.exp (-t ^ 2) :=
    intervalIntegral.integral_Ioi_sub_Ioi integrable_bell.integrableOn hab
  have hcont : Continuous fun t : ℝ => Real.exp (-t ^ 2) := by fun_prop
  have h2 : ∫ t in a..b, Real.exp (-t ^ 2) ≤ ∫ _ in a..b, Real.exp (-a ^ 2) := by
    refine intervalIntegral.integral_mono_on hab (hcont.intervalIntegrable _ _) (continuous_const.intervalIntegrable _ _) fun t ht => ?_
    exact Real.exp_le_exp.2 (neg_le_neg (pow_le_pow_left₀ ha.le ht.1 2))
  rw [intervalIntegral.integral_const, smul_eq_mul] at h2
  have h3 : a * Real.exp (-a ^ 2) ≤ 1 / 2 := by
    rw [Real.exp_neg, ← div_eq_mul_inv, div_le_iff₀ (Real.exp_pos _)]
    nlinarith [Real.add_one_le_exp (a ^ 2), sq_nonneg (a - 1)]
  have hpi : 1 ≤ Real.sqrt Real.pi := by
    rw [Real.le_sqrt (by norm_num) Real.pi_pos.le]
    linarith [Real.two_le_pi]
  have e : erfc a - erfc b = 2 / Real.sqrt Real.pi * ∫ t in a..b, Real.exp (-t ^ 2) := by
    unfold erfc
    rw [← mul_sub, h1]
  have h4 : (b - a) * Real.exp (-a ^ 2) ≤ (b / a - 1) / 2 := by
    have : (b - a) * Real.exp (-a ^ 2) = (b / a - 1) * (a * Real.exp (-a ^ 2)) := by field_simp
    rw [this]
    have h5 : 0 ≤ b / a - 1 := by rw [sub_nonneg, le_div_iff₀ ha]; linarith
    calc (b / a - 1) * (a * Real.exp (-a ^ 2)) ≤ (b / a - 1) * (1 / 2) := mul_le_mul_of_nonneg_left h3 h5
      _ = _ := by ring
  have h5 : 0 ≤ b / a - 1 := by rw [sub_nonneg, le_div_iff₀ ha]; linarith
  rw [e]
  calc 2 / Real.sqrt Real.pi * ∫ t in a..b, Real.exp (-t ^ 2) ≤ 2 / Real.sqrt Real.pi * ((b / a - 1) / 2) := mul_le_mul_of_nonneg_left (h2.trans h4) (by positivity)
    _ = (b / a - 1) / Real.sqrt Real.pi := by ring
    _ ≤ b / a - 1 := div_le_self h5 hpi

theorem qFunction_ratio {a b : ℝ} (ha : 0 < a) (hab : a ≤ b) : qFunction a - qFunction b ≤ (b / a - 1) / 2 ∧ qFunction b ≤ qFunction a := by
  have h2 : (0 : ℝ) < Real.sqrt 2 := by positivity
  have h := erfc_ratio (div_pos ha h2) (div_le_div_of_nonneg_right hab h2.le)
  rw [div_div_div_cancel_right₀ h2.ne'] at h
  unfold qFunction
  refine ⟨by linarith, ?_⟩
  have := erfc_strictAnti.antitone (div_le_div_of_nonneg_right hab h2.le)
  linarith

/-- The error probability of one decision for a power `P` near one instead of one. -/
theorem qFunction_power {x P d : ℝ} (hx : 0 < x) (hd0 : 0 ≤ d) (hd : d ≤ 1 / 2) (hP : |P - 1| ≤ d) : |qFunction (x / Real.sqrt P) - qFunction x| ≤ d / 2 := by
  obtain ⟨h1, h2⟩ := abs_le.1 hP
  have hP0 : 0 < P := by linarith
  have hs : 0 < Real.sqrt P := Real.sqrt_pos.2 hP0
  have hss : Real.sqrt P * Real.sqrt P = P := Real.mul_self_sqrt hP0.le
  rcases le_total P 1 with hle | hle
  · have hs1 : Real.sqrt P ≤ 1 := Real.sqrt_le_one.2 hle
    obtain ⟨r1, r2⟩ := qFunction_ratio hx (show x ≤ x / Real.sqrt P by rw [le_div_iff₀ hs]; nlinarith)
    rw [abs_sub_comm, abs_of_nonneg (by linarith)]
    refine r1.trans ?_
    rw [div_div, mul_comm, ← div_div, div_self hx.ne']
    have : 1 / Real.sqrt P ≤ 1 + d := by
      rw [div_le_iff₀ hs]
      have h3 : 1 ≤ ((1 + d) * Real.sqrt P) ^ 2 := by
        rw [mul_pow, sq (Real.sqrt P), hss]
        calc (1 : ℝ) ≤ (1 + d) ^ 2 * (1 - d) := by nlinarith [mul_nonneg hd0 (by nlinarith : (0 : ℝ) ≤ 1 - d - d ^ 2)]
          _ ≤ (1 + d) ^ 2 * P := mul_le_mul_of_nonneg_left (by linarith) (by positivity)
      exact (one_le_sq_iff₀ (by positivity)).1 h3
    linarith
  · have hs1 : 1 ≤ Real.sqrt P := by rw [Real.one_le_sqrt]; exact hle
    obtain ⟨r1, r2⟩ := qFunction_ratio (div_pos hx hs) (show x / Real.sqrt P ≤ x from div_le_self hx.le hs1)
    rw [abs_of_nonneg (by linarith)]
    refine r1.trans ?_
    rw [div_div_eq_mul_div, mul_comm, mul_div_assoc, div_self hx.ne']
    have : Real.sqrt P ≤ 1 + d := by
      rw [Real.sqrt_le_left (by linarith)]
      nlinarith
    linarith

theorem qFunction_half {x : ℝ} (hx : 0 ≤ x) : qFunction x ≤ 1 / 2 := by
  unfold qFunction
  have := erfc_le_one (div_nonneg hx (Real.sqrt_nonneg 2))
  linarith

/-! ### Hoeffding's inequality for independent values of any kind -/

theorem hoeffding_any {α : Type} [MeasurableSpace α] (μ : Measure α) [IsProbabilityMeasure μ] {n : Nat} (hn : 0 < n) (f : α → ℝ) (hm : Measurable f) (hb : ∀ v, f v ∈ Set.Icc (0 : ℝ) 1) (ε : ℝ) (hε : 0 ≤ ε) :
    (Measure.pi fun _ : Fin n => μ).real {w | ε ≤ (∑ k, f (w k)) / n - ∫ v, f v ∂μ} ≤ Real.exp (-(2 * n * ε ^ 2)) := by
  have hn' : (0 : ℝ) < n := by exact_mod_cast hn
  have heval : ∀ k : Fin n, ∫ w, f (w k) ∂(Measure.pi fun _ : Fin n => μ) = ∫ v, f v ∂μ := fun k =>
    integral_comp_eval (μ := fun _ : Fin n => μ) (i := k) hm.aestronglyMeasurable
  have hind : iIndepFun (fun (k : Fin n) (w : Fin n → α) => f (w k) - ∫ v, f v ∂μ) (Measure.pi fun _ : Fin n => μ) :=
    iIndepFun_pi (μ := fun _ : Fin n => μ) (X := fun _ v => f v - ∫ v, f v ∂μ) fun k => (hm.sub_const _).aemeasurable
  have hmk : ∀ k : Fin n, Measurable fun w : Fin n → α => f (w k) := fun k => hm.comp (measurable_pi_apply k)
  have hsub : ∀ k ∈ (Finset.univ : Finset (Fin n)), HasSubgaussianMGF (fun w : Fin n → α => f (w k) - ∫ v, f v ∂μ) ((‖(1 : ℝ) - 0‖₊ / 2) ^ 2) (Measure.pi fun _ : Fin n => μ) := by
    intro k _
    have := hasSubgaussianMGF_of_mem_Icc (μ := Measure.pi fun _ : Fin n => μ) (hmk k).aemeasurable (Filter.Eventually.of_forall fun w => hb (w k))
    rwa [heval k] at this
  have h := HasSubgaussianMGF.measure_sum_ge_le_of_iIndepFun hind hsub (ε := n * ε) (by positivity)
  have hset : {w : Fin n → α | ε ≤ (∑ k, f (w k)) / n - ∫ v, f v ∂μ} = {w | n * ε ≤ ∑ k, (f (w k) - ∫ v, f v ∂μ)} := by
    ext w
    simp only [Set.mem_ofPred_eq]
    rw [Finset.sum_sub_distrib, Finset.sum_const, Finset.card_univ, Fintype.card_fin, nsmul_eq_mul, ← mul_le_mul_iff_right₀ hn', mul_sub, mul_div_cancel₀ _ hn'.ne']
  rw [hset]
  refine h.trans (le_of_eq ?_)
  congr 1
  simp only [sub_zero, nnnorm_one, Finset.sum_const, Finset.card_univ, Fintype.card_fin, nsmul_eq_mul]
  push_cast
  field_simp

theorem hoeffding_any_abs {α : Type} [MeasurableSpace α] (μ : Measure α) [IsProbabilityMeasure μ] {n : Nat} (hn : 0 < n) (f : α → ℝ) (hm : Measurable f) (hb : ∀ v, f v ∈ Set.Icc (0 : ℝ) 1) (ε : ℝ) (hε : 0 ≤ ε) :
    (Measure.pi fun _ : Fin n => μ).real {w | ε ≤ |(∑ k, f (w k)) / n - ∫ v, f v ∂μ|} ≤ 2 * Real.exp (-(2 * n * ε ^ 2)) := by
  have hn' : (0 : ℝ) < n := by exact_mod_cast hn
  have h1 := hoeffding_any μ hn f hm hb ε hε
  have h2 := hoeffding_any μ hn (fun v => 1 - f v) (measurable_const.sub hm) (fun v => ⟨by linarith [(hb v).2], by linarith [(hb v).1]⟩) ε hε
  have hint : Integrable f μ := Integrable.of_mem_Icc 0 1 hm.aemeasurable (Filter.Eventually.of_forall hb)
  have hsub : {w : Fin n → α | ε ≤ |(∑ k, f (w k)) / n - ∫ v, f v ∂μ|} ⊆ {w | ε ≤ (∑ k, f (w k)) / n - ∫ v, f v ∂μ} ∪ {w | ε ≤ (∑ k, (1 - f (w k))) / n - ∫ v, (1 - f v) ∂μ} := by
    intro w hw
    simp only [Set.mem_ofPred_eq, Set.mem_union] at hw ⊢
    rcases le_abs.1 hw with h | h
    · exact Or.inl h
    · refine Or.inr ?_
      rw [integral_sub (integrable_const _) hint, Finset.sum_sub_distrib]
      simp only [Finset.sum_const, Finset.card_univ, Fintype.card_fin, nsmul_eq_mul, mul_one, integral_const, probReal_univ, smul_eq_mul]
      rw [sub_div, div_self hn'.ne']
      linarith
  refine (measureReal_mono hsub (measure_ne_top _ _)).trans ((measureReal_union_le _ _).trans ?_)
  linarith

/-- Two independent experiments, the first with finitely many outcomes. -/
theorem prod_bound {α β : Type} [Fintype α] [MeasurableSpace α] [MeasurableSingletonClass α] [MeasurableSpace β] (μ : Measure α) [IsProbabilityMeasure μ] (ν : Measure β) [IsProbabilityMeasure ν]
    (A : Set α) (S : Set (α × β)) {δ : ℝ} (hδ : 0 ≤ δ) (h : ∀ a ∉ A, ν.real {w | (a, w) ∈ S} ≤ δ) : (μ.prod ν).real S ≤ μ.real A + δ := by
  classical
  have hsub : S ⊆ A ×ˢ Set.univ ∪ ⋃ a : α, ({a} : Set α) ×ˢ (if a ∈ A then (∅ : Set β) else {w | (a, w) ∈ S}) := by
    rintro ⟨a, w⟩ hs
    by_cases ha : a ∈ A
    · exact Or.inl ⟨ha, trivial⟩
    · refine Or.inr (Set.mem_iUnion.2 ⟨a, rfl, ?_⟩)
      rw [if_neg ha]
      exact hs
  refine (measureReal_mono hsub (measure_ne_top _ _)).trans ((measureReal_union_le _ _).trans ?_)
  rw [measureReal_prod_prod, probReal_univ, mul_one]
  refine add_le_add_right ?_ _
  refine (measureReal_iUnion_fintype_le _).trans ?_
  have hle : ∀ a : α, (μ.prod ν).real (({a} : Set α) ×ˢ (if a ∈ A then (∅ : Set β) else {w | (a, w) ∈ S})) ≤ μ.real {a} * δ := by
    intro a
    rw [measureReal_prod_prod]
    refine mul_le_mul_of_nonneg_left ?_ measureReal_nonneg
    split_ifs with ha
    · simpa using hδ
    · exact h a ha
  refine (Finset.sum_le_sum fun a _ => hle a).trans ?_
  rw [← Finset.sum_mul]
  have : ∑ a : α, μ.real {a} = 1 := by
    rw [sum_measureReal_singleton, Finset.coe_univ, probReal_univ]
  rw [this, one_mul]

/-! ### The error rate for given data -/

/-- Error probability of a symbol with `u` and `v` neighbours in the two directions. -/
noncomputable def cellErr (u v q : ℝ) : ℝ := 1 - (1 - u * q) * (1 - v * q)

theorem nbrs_bounds (N i : Nat) : 0 ≤ nbrs N i ∧ nbrs N i ≤ 2 := by
  unfold nbrs
  split_ifs <;> norm_num

theorem cellErr_mem {u v q : ℝ} (hu : 0 ≤ u ∧ u ≤ 2) (hv : 0 ≤ v ∧ v ≤ 2) (hq : 0 ≤ q ∧ q ≤ 1 / 2) : cellErr u v q ∈ Set.Icc (0 : ℝ) 1 := by
  have h1 : 0 ≤ 1 - u * q := by nlinarith [mul_le_mul hu.2 hq.2 hq.1 (by norm_num : (0 : ℝ) ≤ 2)]
  have h2 : 0 ≤ 1 - v * q := by nlinarith [mul_le_mul hv.2 hq.2 hq.1 (by norm_num : (0 : ℝ) ≤ 2)]
  have h3 : 1 - u * q ≤ 1 := by linarith [mul_nonneg hu.1 hq.1]
  have h4 : 1 - v * q ≤ 1 := by linarith [mul_nonneg hv.1 hq.1]
  unfold cellErr
  exact ⟨by linarith [mul_le_one₀ h3 h2 h4], by linarith [mul_nonneg h1 h2]⟩

theorem cellErr_lip {u v q q' : ℝ} (hu : 0 ≤ u ∧ u ≤ 2) (hv : 0 ≤ v ∧ v ≤ 2) (hq : 0 ≤ q ∧ q ≤ 1 / 2) (hq' : 0 ≤ q' ∧ q' ≤ 1 / 2) : |cellErr u v q - cellErr u v q'| ≤ 4 * |q - q'| := by
  have h1 : 0 ≤ 1 - u * q' := by nlinarith [mul_le_mul hu.2 hq'.2 hq'.1 (by norm_num : (0 : ℝ) ≤ 2)]
  have h2 : 0 ≤ 1 - v * q := by nlinarith [mul_le_mul hv.2 hq.2 hq.1 (by norm_num : (0 : ℝ) ≤ 2)]
  have h3 : 1 - u * q' ≤ 1 := by linarith [mul_nonneg hu.1 hq'.1]
  have h4 : 1 - v * q ≤ 1 := by linarith [mul_nonneg hv.1 hq.1]
  have e : cellErr u v q - cellErr u v q' = ((1 - u * q') * v + u * (1 - v * q)) * (q - q') := by
    unfold cellErr
    ring
  rw [e, abs_mul]
  refine mul_le_mul_of_nonneg_right ?_ (abs_nonneg _)
  rw [abs_of_nonneg (add_nonneg (mul_nonneg h1 hv.1) (mul_nonneg hu.1 h2))]
  have h5 := mul_le_mul h3 hv.2 hv.1 (by norm_num : (0 : ℝ) ≤ 1)
  have h6 := mul_le_mul hu.2 h4 h2 (by norm_num : (0 : ℝ) ≤ 2)
  linarith

/-- The average error rate over the noise, for any data. -/
theorem ser_data {N n : Nat} {c : ℝ} (hc : 0 < c) (a b : Fin n → Nat) (ha : ∀ k, a k < 2 ^ N) (hb : ∀ k, b k < 2 ^ N) (snr fb P : ℝ) (hfb : 0 < fb) (hP0 : 0 < P)
    (tx : Fin n → ℂ) (htx : ∀ k, tx k = gridPt N c (a k) (b k)) (hP : (∑ k, ‖tx k‖ ^ 2) / n = P) :
    ∫ w, (((calSer (qamCodedSymbols (2 * N) c) ((changeSnr [List.ofFn tx] snr fb fb [List.ofFn fun k => (w k).1] [List.ofFn fun k => (w k).2]).getD 0 []) (List.ofFn tx)).getD 0 : ℚ) : ℝ) ∂noiseLaw n =
      (∑ k, cellErr (nbrs N (a k)) (nbrs N (b k)) (qFunction (Real.sqrt 2 / (c * (10 : ℝ) ^ (-snr / 20)) / Real.sqrt P))) / n := by
  obtain ⟨sg, hsg⟩ : ∃ sg : ℝ, sg = (10 : ℝ) ^ (-snr / 20) := ⟨_, rfl⟩
  have hsg0 : 0 < sg := by rw [hsg]; positivity
  have hp : meanR ([List.ofFn tx].flatten.map fun z => ‖z‖ ^ 2) = P := by
    unfold meanR
    rw [List.flatten_singleton, List.map_ofFn, List.sum_ofFn, List.length_ofFn, ← hP]
    rfl
  have hrx : ∀ w : Fin n → ℝ × ℝ, (changeSnr [List.ofFn tx] snr fb fb [List.ofFn fun k => (w k).1] [List.ofFn fun k => (w k).2]).getD 0 [] =
      addAwgn (List.ofFn tx) (Real.sqrt P * sg) (List.ofFn fun k => (w k).1) (List.ofFn fun k => (w k).2) := by
    intro w
    unfold changeSnr
    dsimp only
    rw [hp, div_self hfb.ne', Real.sqrt_one, mul_one, ← hsg]
    rfl
  have h := expected_ser hc (mul_pos (Real.sqrt_pos.2 hP0) hsg0) a b ha hb
  obtain rfl : tx = fun k => gridPt N c (a k) (b k) := funext htx
  simp_rw [hrx]
  rw [h, show Real.sqrt 2 / (c * (Real.sqrt P * sg)) = Real.sqrt 2 / (c * sg) / Real.sqrt P by rw [div_div]; congr 1; ring, hsg]
  rfl

/-- The formula is the average of the error probabilities of the symbols. -/
theorem ser_formula {N : Nat} (hN : 1 ≤ N) {c : ℝ} (hc : c = Real.sqrt (scalingFactor (2 * N) : ℝ)) (a b : Fin (qamCodedSymbols (2 * N) c).length → Nat) (ha : ∀ i, a i < 2 ^ N) (hb : ∀ i, b i < 2 ^ N)
    (hab : ∀ i, (qamCodedSymbols (2 * N) c).get i = gridPt N c (a i) (b i)) (snr : ℝ) :
    (∑ i, cellErr (nbrs N (a i)) (nbrs N (b i)) (qFunction (Real.sqrt 2 / (c * (10 : ℝ) ^ (-snr / 20))))) / (qamCodedSymbols (2 * N) c).length = serQam (dB2lin snr) (4 ^ N) := by
  have hc0 : 0 < c := by rw [hc]; exact Real.sqrt_pos.2 (by exact_mod_cast scalingFactor_pos (by omega))
  obtain ⟨coded, hcoded⟩ : ∃ coded, coded = qamCodedSymbols (2 * N) c := ⟨_, rfl⟩
  have hnd : coded.Nodup := by rw [hcoded]; exact nodup_qamCoded _ hc0.ne'
  have hlen : 0 < coded.length := by rw [hcoded, length_qamCoded]; positivity
  have hbal : EquallyOften coded coded.get := by
    refine ⟨fun k => List.get_mem _ _, fun z hz => ?_⟩
    obtain ⟨i, rfl⟩ := List.mem_iff_get.1 hz
    rw [show (Finset.univ.filter fun k => coded.get k = coded.get i) = {i} from ?_, Finset.card_singleton, one_mul]
    ext k
    simp only [Finset.mem_filter, Finset.mem_univ, true_and, Finset.mem_singleton]
    exact ⟨fun h => List.nodup_iff_injective_get.1 hnd h, fun h => by rw [h]⟩
  have hpow : (∑ k, ‖coded.get k‖ ^ 2) / coded.length = 1 := by
    have := (C226_alphabets (2 * N) (by omega)).1.2.2
    rw [← hc, ← hcoded] at this
    rw [← sum_get coded fun z => ‖z‖ ^ 2]
    exact this
  subst hcoded
  have h1 := (C115_ser hN hlen (qamCodedSymbols (2 * N) c).get (by rw [← hc]; exact hbal) snr 1 one_pos).2
  have h2 := ser_data hc0 a b ha hb snr 1 1 one_pos one_pos (qamCodedSymbols (2 * N) c).get hab hpow
  rw [Real.sqrt_one, div_one] at h2
  rw [← h2, ← h1, ← hc]

/-- Peak power of square QAM. -/
theorem qam_peak {N : Nat} (hN : 1 ≤ N) {c : ℝ} (hc : c = Real.sqrt (scalingFactor (2 * N) : ℝ)) {z : ℂ} (hz : z ∈ qamCodedSymbols (2 * N) c) : ‖z‖ ^ 2 ≤ 3 := by
  obtain ⟨i, hi, j, hj, rfl⟩ := (mem_coded_iff N c z).1 hz
  have hM : (2 : ℝ) ≤ 2 ^ N := by
    calc (2 : ℝ) = 2 ^ 1 := (pow_one _).symm
      _ ≤ 2 ^ N := pow_le_pow_right₀ (by norm_num) hN
  have h4 : (4 : ℝ) ^ N = 2 ^ N * 2 ^ N := by rw [← mul_pow]; norm_num
  have hc2 : c ^ 2 = 2 / 3 * (2 ^ N * 2 ^ N - 1) := by
    rw [hc, scaling_even, Real.sq_sqrt (by rw [h4]; nlinarith), h4]
  have hc0 : 0 < c ^ 2 := by rw [hc2]; nlinarith
  have bound : ∀ i : Nat, i < 2 ^ N → (2 * (i : ℝ) - (2 ^ N - 1)) ^ 2 ≤ (2 ^ N - 1) ^ 2 := by
    intro i hi
    have h1 : (i : ℝ) + 1 ≤ 2 ^ N := by exact_mod_cast hi
    have h0 : (0 : ℝ) ≤ i := Nat.cast_nonneg i
    apply sq_le_sq'
    · linarith
    · linarith
  rw [← Complex.normSq_eq_norm_sq, Complex.normSq_apply]
  unfold gridPt
  have e : (2 * (i : ℝ) - (2 ^ N - 1)) / c * ((2 * (i : ℝ) - (2 ^ N - 1)) / c) + (2 * (j : ℝ) - (2 ^ N - 1)) / c * ((2 * (j : ℝ) - (2 ^ N - 1)) / c) =
      ((2 * (i : ℝ) - (2 ^ N - 1)) ^ 2 + (2 * (j : ℝ) - (2 ^ N - 1)) ^ 2) / c ^ 2 := by
    rw [add_div]
    ring
  simp only
  rw [e, div_le_iff₀ hc0, hc2]
  have := bound i hi
  have := bound j hj
  nlinarith

/-- The probability, over the noise, of a large deviation for data with nearly the right power and nearly the right frequencies of the symbols. -/
theorem ser_given {N K : Nat} (hN : 1 ≤ N) (hK : 0 < K) {c : ℝ} (hc : c = Real.sqrt (scalingFactor (2 * N) : ℝ)) (snr fb ε : ℝ) (hfb : 0 < fb) (hε : 0 < ε) (hε3 : ε ≤ 3)
    (a b : Fin K → Nat) (ha : ∀ k, a k < 2 ^ N) (hb : ∀ k, b k < 2 ^ N) (tx : Fin K → ℂ) (htx : ∀ k, tx k = gridPt N c (a k) (b k))
    (hpow : |(∑ k, ‖tx k‖ ^ 2) / K - 1| ≤ ε / 6)
    (hfreq : |(∑ k, cellErr (nbrs N (a k)) (nbrs N (b k)) (qFunction (Real.sqrt 2 / (c * (10 : ℝ) ^ (-snr / 20))))) / K - serQam (dB2lin snr) (4 ^ N)| < ε / 3) :
    (noiseLaw K).real {w | ε ≤ |(((calSer (qamCodedSymbols (2 * N) c) ((changeSnr [List.ofFn tx] snr fb fb [List.ofFn fun k => (w k).1] [List.ofFn fun k => (w k).2]).getD 0 [])
      (List.ofFn tx)).getD 0 : ℚ) : ℝ) - serQam (dB2lin snr) (4 ^ N)|} ≤ 2 * Real.exp (-(2 * K * (ε / 3) ^ 2)) := by
  have hc0 : 0 < c := by rw [hc]; exact Real.sqrt_pos.2 (by exact_mod_cast scalingFactor_pos (by omega))
  have hK' : (0 : ℝ) < K := by exact_mod_cast hK
  have hne : qamCodedSymbols (2 * N) c ≠ [] := by
    intro h
    have := length_qamCoded (2 * N) c
    rw [h, List.length_nil] at this
    exact absurd this.symm (by positivity)
  obtain ⟨P, hP⟩ : ∃ P, P = (∑ k, ‖tx k‖ ^ 2) / K := ⟨_, rfl⟩
  obtain ⟨x, hx⟩ : ∃ x, x = Real.sqrt 2 / (c * (10 : ℝ) ^ (-snr / 20)) := ⟨_, rfl⟩
  have hx0 : 0 < x := by rw [hx]; positivity
  rw [← hP] at hpow
  rw [← hx] at hfreq
  have hP0 : 0 < P := by linarith [(abs_le.1 hpow).1]
  have hmean := ser_data hc0 a b ha hb snr fb P hfb hP0 tx htx hP.symm
  rw [← hx] at hmean
  have hq := qFunction_power hx0 (by linarith) (by linarith : ε / 6 ≤ 1 / 2) hpow
  have q1 : 0 ≤ qFunction x ∧ qFunction x ≤ 1 / 2 := ⟨(qFunction_pos _).le, qFunction_half hx0.le⟩
  have q2 : 0 ≤ qFunction (x / Real.sqrt P) ∧ qFunction (x / Real.sqrt P) ≤ 1 / 2 := ⟨(qFunction_pos _).le, qFunction_half (by positivity)⟩
  have hdiff : |(∑ k, cellErr (nbrs N (a k)) (nbrs N (b k)) (qFunction (x / Real.sqrt P))) / K - (∑ k, cellErr (nbrs N (a k)) (nbrs N (b k)) (qFunction x)) / K| ≤ ε / 3 := by
    rw [← sub_div, ← Finset.sum_sub_distrib, abs_div, abs_of_pos hK', div_le_iff₀ hK']
    refine (Finset.abs_sum_le_sum_abs _ _).trans ?_
    refine (Finset.sum_le_sum fun k _ => (cellErr_lip (nbrs_bounds N (a k)) (nbrs_bounds N (b k)) q2 q1).trans (by linarith : _ ≤ ε / 3)).trans ?_
    rw [Finset.sum_const, Finset.card_univ, Fintype.card_fin, nsmul_eq_mul, mul_comm]
  obtain ⟨h1, h2⟩ := C211_ser hK (qamCodedSymbols (2 * N) c) hne tx snr fb fb (ε / 3) (by linarith)
  rw [hmean] at h1 h2
  refine (measureReal_mono ?_ (measure_ne_top _ _)).trans ((measureReal_union_le _ _).trans ((add_le_add h1 h2).trans (le_of_eq (by ring))))
  intro w hw
  simp only [Set.mem_ofPred_eq, Set.mem_union] at hw ⊢
  by_contra hcon
  push Not at hcon
  obtain ⟨g1, g2⟩ := hcon
  have g3 := abs_le.1 hdiff
  have g4 := abs_lt.1 hfreq
  rcases le_abs.1 hw with h | h
  · linarith
  · linarith

/-! ### Random data -/

/-- The frequencies of the symbols and the power of random data. -/
theorem random_data {N K : Nat} (hN : 1 ≤ N) (hK : 0 < K) {c : ℝ} (hc : c = Real.sqrt (scalingFactor (2 * N) : ℝ)) [Nonempty (Fin (qamCodedSymbols (2 * N) c).length)] (snr ε : ℝ) (hε : 0 < ε)
    (a b : Fin (qamCodedSymbols (2 * N) c).length → Nat) (ha : ∀ i, a i < 2 ^ N) (hb : ∀ i, b i < 2 ^ N)
    (hab : ∀ i, (qamCodedSymbols (2 * N) c).get i = gridPt N c (a i) (b i)) :
    (Measure.pi fun _ : Fin K => fairLaw (Fin (qamCodedSymbols (2 * N) c).length)).real
      ({s | ε / 6 ≤ |(∑ k, ‖(qamCodedSymbols (2 * N) c).get (s k)‖ ^ 2) / K - 1|} ∪
        {s | ε / 3 ≤ |(∑ k, cellErr (nbrs N (a (s k))) (nbrs N (b (s k))) (qFunction (Real.sqrt 2 / (c * (10 : ℝ) ^ (-snr / 20))))) / K - serQam (dB2lin snr) (4 ^ N)|}) ≤
      2 * Real.exp (-(2 * K * (ε / 18) ^ 2)) + 2 * Real.exp (-(2 * K * (ε / 3) ^ 2)) := by
  have hc0 : 0 < c := by rw [hc]; exact Real.sqrt_pos.2 (by exact_mod_cast scalingFactor_pos (by omega))
  obtain ⟨x, hx⟩ : ∃ x, x = Real.sqrt 2 / (c * (10 : ℝ) ^ (-snr / 20)) := ⟨_, rfl⟩
  have hx0 : 0 < x := by rw [hx]; positivity
  have q1 : 0 ≤ qFunction x ∧ qFunction x ≤ 1 / 2 := ⟨(qFunction_pos _).le, qFunction_half hx0.le⟩
  have hform := ser_formula hN hc a b ha hb hab snr
  rw [← hx] at hform ⊢
  refine (measureReal_union_le _ _).trans (add_le_add ?_ ?_)
  · have h := hoeffding_any_abs (fairLaw (Fin (qamCodedSymbols (2 * N) c).length)) hK (fun i => ‖(qamCodedSymbols (2 * N) c).get i‖ ^ 2 / 3) (measurable_of_finite _)
      (fun i => ⟨by positivity, by rw [div_le_one (by norm_num)]; exact qam_peak hN hc (List.get_mem _ _)⟩) (ε / 18) (by linarith)
    have hmean : ∫ i, ‖(qamCodedSymbols (2 * N) c).get i‖ ^ 2 / 3 ∂fairLaw (Fin (qamCodedSymbols (2 * N) c).length) = 1 / 3 := by
      rw [integral_div, integral_fairLaw, ← sum_get (qamCodedSymbols (2 * N) c) fun z => ‖z‖ ^ 2]
      have := (C226_alphabets (2 * N) (by omega)).1.2.2
      rw [← hc] at this
      unfold alphabetPower at this
      rw [this]
    rw [hmean] at h
    refine (le_of_eq ?_).trans h
    congr 1
    ext s
    simp only [Set.mem_ofPred_eq]
    rw [← Finset.sum_div, show (∑ k, ‖(qamCodedSymbols (2 * N) c).get (s k)‖ ^ 2) / 3 / K - 1 / 3 = ((∑ k, ‖(qamCodedSymbols (2 * N) c).get (s k)‖ ^ 2) / K - 1) / 3 by ring, abs_div,
      abs_of_pos (by norm_num : (0 : ℝ) < 3), le_div_iff₀ (by norm_num : (0 : ℝ) < 3)]
    rw [show ε / 18 * 3 = ε / 6 by ring]
  · have h := hoeffding_any_abs (fairLaw (Fin (qamCodedSymbols (2 * N) c).length)) hK (fun i => cellErr (nbrs N (a i)) (nbrs N (b i)) (qFunction x)) (measurable_of_finite _)
      (fun i => cellErr_mem (nbrs_bounds _ _) (nbrs_bounds _ _) q1) (ε / 3) (by linarith)
    rw [integral_fairLaw, hform] at h
    exact h

/-- A bound on a probability over the noise that holds for data with nearly the right power and frequencies gives a bound over data and noise. -/
theorem random_core {N K : Nat} (hN : 1 ≤ N) (hK : 0 < K) {c : ℝ} (hc : c = Real.sqrt (scalingFactor (2 * N) : ℝ)) (snr ε : ℝ) (hε : 0 < ε) {β : Type} [MeasurableSpace β] (ν : Measure β) [IsProbabilityMeasure ν]
    (S : Set ((Fin (K * (2 * N)) → Bool) × β))
    (h : ∀ (bits : Fin (K * (2 * N)) → Bool) (a b : Fin K → Nat) (tx : Fin K → ℂ), modulate (2 * N) (qamCodedSymbols (2 * N) c) (List.ofFn bits) = List.ofFn tx → (∀ k, a k < 2 ^ N) → (∀ k, b k < 2 ^ N) →
      (∀ k, tx k = gridPt N c (a k) (b k)) → |(∑ k, ‖tx k‖ ^ 2) / K - 1| ≤ ε / 6 →
      |(∑ k, cellErr (nbrs N (a k)) (nbrs N (b k)) (qFunction (Real.sqrt 2 / (c * (10 : ℝ) ^ (-snr / 20))))) / K - serQam (dB2lin snr) (4 ^ N)| < ε / 3 →
      ν.real {w | (bits, w) ∈ S} ≤ 2 * Real.exp (-(2 * K * (ε / 3) ^ 2))) :
    ((bitLaw (K * (2 * N))).prod ν).real S ≤ 6 * Real.exp (-(K * ε ^ 2 / 162)) := by
  have hc0 : 0 < c := by rw [hc]; exact Real.sqrt_pos.2 (by exact_mod_cast scalingFactor_pos (by omega))
  have hlen : (qamCodedSymbols (2 * N) c).length = 2 ^ (2 * N) := length_qamCoded _ _
  have hne : Nonempty (Fin (qamCodedSymbols (2 * N) c).length) := ⟨⟨0, by rw [hlen]; positivity⟩⟩
  obtain ⟨s, hs, hmp⟩ := C226_symbols (N := K) (by omega : 1 ≤ 2 * N) hlen (nodup_qamCoded _ hc0.ne') hne
  have hgrid : ∀ i : Fin (qamCodedSymbols (2 * N) c).length, ∃ p : Nat × Nat, p.1 < 2 ^ N ∧ p.2 < 2 ^ N ∧ (qamCodedSymbols (2 * N) c).get i = gridPt N c p.1 p.2 := by
    intro i
    obtain ⟨u, hu, v, hv, e⟩ := (mem_coded_iff N c _).1 (List.get_mem (qamCodedSymbols (2 * N) c) i)
    exact ⟨(u, v), hu, hv, e⟩
  choose g hg1 hg2 hg3 using hgrid
  have hA := random_data hN hK hc snr ε hε (fun i => (g i).1) (fun i => (g i).2) hg1 hg2 hg3
  obtain ⟨A, hAdef⟩ : ∃ A : Set (Fin K → Fin (qamCodedSymbols (2 * N) c).length), A =
      {s | ε / 6 ≤ |(∑ k, ‖(qamCodedSymbols (2 * N) c).get (s k)‖ ^ 2) / K - 1|} ∪
        {s | ε / 3 ≤ |(∑ k, cellErr (nbrs N (g (s k)).1) (nbrs N (g (s k)).2) (qFunction (Real.sqrt 2 / (c * (10 : ℝ) ^ (-snr / 20))))) / K - serQam (dB2lin snr) (4 ^ N)|} := ⟨_, rfl⟩
  rw [← hAdef] at hA
  have hpre : (bitLaw (K * (2 * N))).real (s ⁻¹' A) = (Measure.pi fun _ : Fin K => fairLaw (Fin (qamCodedSymbols (2 * N) c).length)).real A := by
    rw [← hmp.map_eq, map_measureReal_apply hmp.measurable (Set.toFinite A).measurableSet]
  have hb := prod_bound (bitLaw (K * (2 * N))) ν (s ⁻¹' A) S (by positivity : 0 ≤ 2 * Real.exp (-(2 * K * (ε / 3) ^ 2))) (fun bits hbits => by
    rw [Set.mem_preimage, hAdef] at hbits
    simp only [Set.mem_union, Set.mem_ofPred_eq, not_or, not_le] at hbits
    exact h bits (fun k => (g (s bits k)).1) (fun k => (g (s bits k)).2) (fun k => (qamCodedSymbols (2 * N) c).get (s bits k)) (hs bits) (fun k => hg1 _) (fun k => hg2 _) (fun k => hg3 _)
      hbits.1.le hbits.2)
  rw [hpre] at hb
  have hK' : (0 : ℝ) ≤ K := Nat.cast_nonneg K
  have e1 : Real.exp (-(2 * K * (ε / 3) ^ 2)) ≤ Real.exp (-(K * ε ^ 2 / 162)) := by
    rw [Real.exp_le_exp, neg_le_neg_iff]
    nlinarith [mul_nonneg hK' (sq_nonneg ε)]
  have e2 : Real.exp (-(2 * K * (ε / 18) ^ 2)) = Real.exp (-(K * ε ^ 2 / 162)) := by
    congr 1
    ring
  rw [e2] at hA
  linarith

/-- **C235** Random data: `K` square QAM symbols of any order are made of independent fair bits (`SignalQAMGrayCoded` draws them, `modulate`), noise is added with `change_snr`, and
the symbol error rate is measured. It is `ε` or more away from the formula with probability at most `6 exp (-K ε² / 162)`, over data and noise. -/
theorem C235_random {N K : Nat} (hN : 1 ≤ N) (hK : 0 < K) (snr fb ε : ℝ) (hfb : 0 < fb) (hε : 0 < ε) (hε3 : ε ≤ 3) :
    let coded := qamCodedSymbols (2 * N) (Real.sqrt (scalingFactor (2 * N) : ℝ))
    let ser : (Fin (K * (2 * N)) → Bool) × (Fin K → ℝ × ℝ) → ℝ := fun p =>
      (((calSer coded ((changeSnr [modulate (2 * N) coded (List.ofFn p.1)] snr fb fb [List.ofFn fun k => (p.2 k).1] [List.ofFn fun k => (p.2 k).2]).getD 0 [])
        (modulate (2 * N) coded (List.ofFn p.1))).getD 0 : ℚ) : ℝ)
    ((bitLaw (K * (2 * N))).prod (noiseLaw K)).real {p | ε ≤ |ser p - serQam (dB2lin snr) (4 ^ N)|} ≤ 6 * Real.exp (-(K * ε ^ 2 / 162)) := by
  intro coded ser
  refine random_core hN hK rfl snr ε hε (noiseLaw K) _ ?_
  intro bits a b tx hmod ha hb htx hpow hfreq
  have := ser_given hN hK rfl snr fb ε hfb hε hε3 a b ha hb tx htx hpow hfreq
  simp only [Set.mem_ofPred_eq, ser, coded, hmod]
  exact this

/-- Over the dispersive link the error rate has the same distribution as over the direct one, for any data. -/
theorem fibre_event {K : Nat} (hK : 0 < K) (coded : List ℂ) (hne : coded ≠ []) (s : Fin K → ℂ) (n : Nat) (hn : 2 ≤ n) (fb beta D L wl snr ε F : ℝ) (hfb : 0 < fb) (hb : 0 < beta) (hb1 : beta ≤ 1) :
    (noiseLaw (n * K)).real {w | ε ≤ |(((calSer coded (List.ofFn (fibreRx s n fb beta D L wl snr w)) (List.ofFn s)).getD 0 : ℚ) : ℝ) - F|} =
    (noiseLaw K).real {w | ε ≤ |(((calSer coded ((changeSnr [List.ofFn s] snr fb fb [List.ofFn fun k => (w k).1] [List.ofFn fun k => (w k).2]).getD 0 []) (List.ofFn s)).getD 0 : ℚ) : ℝ) - F|} := by
  obtain ⟨-, hm, hlaw⟩ := C233_symbols hK s n hn fb beta D L wl snr hfb hb hb1
  have hms := measurable_ser coded hne s
  have hset : MeasurableSet {v : Fin K → ℂ | ε ≤ |(((calSer coded (List.ofFn v) (List.ofFn s)).getD 0 : ℚ) : ℝ) - F|} :=
    measurableSet_le measurable_const ((hms.sub_const _).abs)
  have q1 := map_measureReal_apply (μ := noiseLaw (n * K)) hm hset
  have q2 := map_measureReal_apply (μ := noiseLaw K) (measurable_directRx' s snr fb fb) hset
  rw [hlaw] at q1
  refine (q1.symm.trans q2).trans ?_
  congr 1
  ext w
  simp only [Set.mem_preimage, Set.mem_ofPred_eq]
  have hl : ((changeSnr [List.ofFn s] snr fb fb [List.ofFn fun k => (w k).1] [List.ofFn fun k => (w k).2]).getD 0 []).length = K := by
    simp [changeSnr, addAwgn]
  rw [show (List.ofFn fun m : Fin K => ((changeSnr [List.ofFn s] snr fb fb [List.ofFn fun k => (w k).1] [List.ofFn fun k => (w k).2]).getD 0 []).getD m 0) =
    (changeSnr [List.ofFn s] snr fb fb [List.ofFn fun k => (w k).1] [List.ofFn fun k => (w k).2]).getD 0 [] from ?_]
  apply List.ext_getElem
  · rw [List.length_ofFn, hl]
  · intro i h1 h2
    rw [List.getElem_ofFn, List.getD_eq_getElem?_getD, List.getElem?_eq_getElem h2, Option.getD_some]

/-- **C235** The same over a dispersive link: random data, root raised cosine shaping with `n` samples per symbol, dispersion of any amount, noise at the sampling rate,
compensation, matched filter, one sample per symbol. -/
theorem C235_fibre {N K : Nat} (hN : 1 ≤ N) (hK : 0 < K) (n : Nat) (hn : 2 ≤ n) (fb beta D L wl snr ε : ℝ) (hfb : 0 < fb) (hb : 0 < beta) (hb1 : beta ≤ 1) (hε : 0 < ε) (hε3 : ε ≤ 3) :
    let coded := qamCodedSymbols (2 * N) (Real.sqrt (scalingFactor (2 * N) : ℝ))
    let sym : (Fin (K * (2 * N)) → Bool) → Fin K → ℂ := fun b m => (modulate (2 * N) coded (List.ofFn b)).getD m 0
    let ser : (Fin (K * (2 * N)) → Bool) × (Fin (n * K) → ℝ × ℝ) → ℝ := fun p =>
      (((calSer coded (List.ofFn (fibreRx (sym p.1) n fb beta D L wl snr p.2)) (modulate (2 * N) coded (List.ofFn p.1))).getD 0 : ℚ) : ℝ)
    ((bitLaw (K * (2 * N))).prod (noiseLaw (n * K))).real {p | ε ≤ |ser p - serQam (dB2lin snr) (4 ^ N)|} ≤ 6 * Real.exp (-(K * ε ^ 2 / 162)) := by
  intro coded sym ser
  have hne : coded ≠ [] := by
    intro h
    have := length_qamCoded (2 * N) (Real.sqrt (scalingFactor (2 * N) : ℝ))
    rw [show qamCodedSymbols (2 * N) (Real.sqrt (scalingFactor (2 * N) : ℝ)) = [] from h, List.length_nil] at this
    exact absurd this.symm (by positivity)
  refine random_core hN hK rfl snr ε hε (noiseLaw (n * K)) _ ?_
  intro bits a b tx hmod ha hb' htx hpow hfreq
  have h1 := ser_given hN hK rfl snr fb ε hfb hε hε3 a b ha hb' tx htx hpow hfreq
  rw [← fibre_event hK coded hne tx n hn fb beta D L wl snr ε _ hfb hb hb1] at h1
  have hsym : sym bits = tx := by
    funext m
    simp only [sym, coded, hmod]
    rw [List.getD_eq_getElem?_getD, List.getElem?_eq_getElem (by simp), Option.getD_some, List.getElem_ofFn]
  simp only [Set.mem_ofPred_eq, ser, hsym, coded, hmod]
  exact h1

/-- **C235** QPSK: whatever the data, even one and the same symbol all the time, the error rate is on average exactly the value of the formula, and a single measurement is `ε` or
more away from it with probability at most `2 exp (-2 K ε²)`; also over the dispersive link. -/
theorem C235_qpsk {K : Nat} (hK : 0 < K) (tx : Fin K → ℂ) (htx : ∀ k, tx k ∈ qamCodedSymbols 2 (Real.sqrt (scalingFactor 2 : ℝ))) (snr fb ε : ℝ) (hfb : 0 < fb) (hε : 0 < ε) :
    let coded := qamCodedSymbols 2 (Real.sqrt (scalingFactor 2 : ℝ))
    let ser : (Fin K → ℝ × ℝ) → ℝ := fun w =>
      (((calSer coded ((changeSnr [List.ofFn tx] snr fb fb [List.ofFn fun k => (w k).1] [List.ofFn fun k => (w k).2]).getD 0 []) (List.ofFn tx)).getD 0 : ℚ) : ℝ)
    ∫ w, ser w ∂noiseLaw K = serQam (dB2lin snr) 4 ∧ (noiseLaw K).real {w | ε ≤ |ser w - serQam (dB2lin snr) 4|} ≤ 2 * Real.exp (-(2 * K * ε ^ 2)) ∧
    ∀ (n : Nat) (beta D L wl : ℝ), 2 ≤ n → 0 < beta → beta ≤ 1 →
      (noiseLaw (n * K)).real {w | ε ≤ |(((calSer coded (List.ofFn (fibreRx tx n fb beta D L wl snr w)) (List.ofFn tx)).getD 0 : ℚ) : ℝ) - serQam (dB2lin snr) 4|} ≤ 2 * Real.exp (-(2 * K * ε ^ 2)) := by
  intro coded ser
  obtain ⟨c, hc⟩ : ∃ c, c = Real.sqrt (scalingFactor 2 : ℝ) := ⟨_, rfl⟩
  have hcd : coded = qamCodedSymbols (2 * 1) c := by rw [hc]
  have hc2 : c ^ 2 = 2 := by
    have := scaling_even 1
    rw [Nat.mul_one] at this
    rw [hc, this, Real.sq_sqrt (by norm_num)]
    norm_num
  have hc0 : 0 < c := by rw [hc]; exact Real.sqrt_pos.2 (by exact_mod_cast scalingFactor_pos (by omega))
  have hK' : (0 : ℝ) < K := by exact_mod_cast hK
  have hgrid : ∀ z ∈ qamCodedSymbols (2 * 1) c, ∃ p : Nat × Nat, p.1 < 2 ^ 1 ∧ p.2 < 2 ^ 1 ∧ z = gridPt 1 c p.1 p.2 := by
    intro z hz
    obtain ⟨u, hu, v, hv, e⟩ := (mem_coded_iff 1 c _).1 hz
    exact ⟨(u, v), hu, hv, e⟩
  have hnb : ∀ i : Nat, i < 2 ^ 1 → nbrs 1 i = 1 := by
    intro i hi
    unfold nbrs
    interval_cases i <;> simp
  have hnorm : ∀ k, ‖tx k‖ ^ 2 = 1 := by
    intro k
    obtain ⟨p, h1, h2, h3⟩ := hgrid (tx k) (by rw [← hcd]; exact htx k)
    have hsq : ∀ i : Nat, i < 2 ^ 1 → (2 * (i : ℝ) - (2 ^ 1 - 1)) / c * ((2 * (i : ℝ) - (2 ^ 1 - 1)) / c) = 1 / 2 := by
      intro i hi
      rw [div_mul_div_comm, ← sq c, hc2]
      interval_cases i <;> norm_num
    rw [h3, ← Complex.normSq_eq_norm_sq, Complex.normSq_apply]
    unfold gridPt
    simp only
    rw [hsq _ h1, hsq _ h2]
    norm_num
  have hlen : 0 < (qamCodedSymbols (2 * 1) c).length := by rw [length_qamCoded]; norm_num
  choose g hg1 hg2 hg3 using fun i : Fin (qamCodedSymbols (2 * 1) c).length => hgrid _ (List.get_mem (qamCodedSymbols (2 * 1) c) i)
  have hform := ser_formula (N := 1) (le_refl 1) (by rw [hc]) (fun i => (g i).1) (fun i => (g i).2) hg1 hg2 hg3 snr
  simp only [hnb _ (hg1 _), hnb _ (hg2 _), Finset.sum_const, Finset.card_univ, Fintype.card_fin, nsmul_eq_mul] at hform
  rw [mul_div_assoc, mul_div_cancel₀ _ (by exact_mod_cast hlen.ne'), pow_one] at hform
  choose t ht1 ht2 ht3 using fun k => hgrid (tx k) (by rw [← hcd]; exact htx k)
  have hmean := ser_data hc0 (fun k => (t k).1) (fun k => (t k).2) ht1 ht2 snr fb 1 hfb one_pos tx ht3 (by simp [hnorm, hK.ne'])
  simp only [hnb _ (ht1 _), hnb _ (ht2 _), Finset.sum_const, Finset.card_univ, Fintype.card_fin, nsmul_eq_mul, Real.sqrt_one, div_one] at hmean
  rw [hform, mul_div_cancel_left₀ _ hK'.ne', ← hcd] at hmean
  have hne : coded ≠ [] := by
    intro h
    rw [← hcd, h] at hlen
    exact absurd hlen (by simp)
  obtain ⟨h1, h2⟩ := C211_ser hK coded hne tx snr fb fb ε hε.le
  rw [hmean] at h1 h2
  have hdev : (noiseLaw K).real {w | ε ≤ |ser w - serQam (dB2lin snr) 4|} ≤ 2 * Real.exp (-(2 * K * ε ^ 2)) := by
    refine (measureReal_mono ?_ (measure_ne_top _ _)).trans ((measureReal_union_le _ _).trans ((add_le_add h1 h2).trans (le_of_eq (by ring))))
    intro w hw
    simp only [Set.mem_ofPred_eq, Set.mem_union, ser] at hw ⊢
    rcases le_abs.1 hw with h | h
    · right; linarith
    · left; linarith
  refine ⟨hmean, hdev, fun n beta D L wl hn hb hb1 => ?_⟩
  rw [fibre_event hK coded hne tx n hn fb beta D L wl snr ε _ hfb hb hb1]
  exact hdev

/-- One million random 16-QAM symbols over 1000 km of fibre: a measured symbol error rate 0.05 or more away from the formula has probability at most `6 exp (-15)`. -/
example (snr : ℝ) :
    let coded := qamCodedSymbols (2 * 2) (Real.sqrt (scalingFactor (2 * 2) : ℝ))
    ((bitLaw (1000000 * (2 * 2))).prod (noiseLaw (4 * 1000000))).real {p | (1 / 20 : ℝ) ≤ |(((calSer coded
      (List.ofFn (fibreRx (fun m : Fin 1000000 => (modulate (2 * 2) coded (List.ofFn p.1)).getD m 0) 4 (20 * 10 ^ 9) (1 / 10) (17 / 10 ^ 6) (10 ^ 6) (1550 / 10 ^ 9) snr p.2))
      (modulate (2 * 2) coded (List.ofFn p.1))).getD 0 : ℚ) : ℝ) - serQam (dB2lin snr) (4 ^ 2)|} ≤ 6 * Real.exp (-15) := by
  intro coded
  refine (C235_fibre (N := 2) (K := 1000000) (by norm_num) (by norm_num) 4 (by norm_num) (20 * 10 ^ 9) (1 / 10) (17 / 10 ^ 6) (10 ^ 6) (1550 / 10 ^ 9) snr (1 / 20) (by norm_num) (by norm_num)
    (by norm_num) (by norm_num) (by norm_num)).trans ?_
  refine mul_le_mul_of_nonneg_left (Real.exp_le_exp.2 ?_) (by norm_num)
  norm_num

end Qampy
