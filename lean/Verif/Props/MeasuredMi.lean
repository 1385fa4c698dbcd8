import Verif.Props.Info
import Verif.Props.CalMi
import Mathlib.Probability.Moments.Variance
import Mathlib.Algebra.Order.Chebyshev
import Mathlib.Analysis.Complex.ExponentialBounds

/-!
C220: accuracy of the measured information rates. The spread of one term of the Monte-Carlo sums is bounded independently of the constellation and the noise power, because the ratio of
the densities has the mean `M`.
-/

namespace Qampy

open MeasureTheory ProbabilityTheory
open Complex (I)

theorem log_sq_le {L r : ℝ} (hL : 0 ≤ L) (hr : 1 ≤ r) : Real.log r ^ 2 ≤ L ^ 2 + (2 * L + 2) * (r / Real.exp L) := by
  have hl : 0 ≤ Real.log r := Real.log_nonneg hr
  have hp : 0 ≤ (2 * L + 2) * (r / Real.exp L) := by positivity
  rcases le_total (Real.log r) L with h | h
  · have := pow_le_pow_left₀ hl h 2
    linarith
  · obtain ⟨u, hu⟩ : ∃ u, u = Real.log r - L := ⟨_, rfl⟩
    have hu0 : 0 ≤ u := by linarith
    have e1 : r / Real.exp L = Real.exp u := by
      rw [hu, Real.exp_sub, Real.exp_log (by linarith)]
    have h2 := Real.quadratic_le_exp_of_nonneg hu0
    have e2 : Real.log r = L + u := by linarith
    rw [e1, e2]
    have h3 : (2 * L + 2) * (1 + u + u ^ 2 / 2) ≤ (2 * L + 2) * Real.exp u := mul_le_mul_of_nonneg_left h2 (by linarith)
    have h4 : 0 ≤ L * u ^ 2 := by positivity
    nlinarith

/-- The bound of the second moment of one term, in bits. -/
noncomputable def spreadBound (M : ℝ) : ℝ := ((Real.log M + 1) ^ 2 + 1) / Real.log 2 ^ 2

theorem ratio_second {M : Nat} (S : Fin M → ℂ) {N0 : ℝ} (h0 : 0 < N0) {A : Finset (Fin M)} {i : Fin M} (hi : i ∈ A) :
    MemLp (fun z => Real.log (sumDens S N0 Finset.univ (rcv N0 (S i) z) / sumDens S N0 A (rcv N0 (S i) z)) / Real.log 2) 2 stdN2 ∧
    ∫ z, (Real.log (sumDens S N0 Finset.univ (rcv N0 (S i) z) / sumDens S N0 A (rcv N0 (S i) z)) / Real.log 2) ^ 2 ∂stdN2 ≤ spreadBound M := by
  have hM : (1 : ℝ) ≤ M := by exact_mod_cast i.pos
  have hl2 : 0 < Real.log 2 := Real.log_pos (by norm_num)
  obtain ⟨L, hL⟩ : ∃ L, L = Real.log (M : ℝ) := ⟨_, rfl⟩
  have hL0 : 0 ≤ L := by rw [hL]; exact Real.log_nonneg hM
  have hexp : Real.exp L = M := by rw [hL, Real.exp_log (by linarith)]
  obtain ⟨Y, hY⟩ : ∃ Y : ℂ → ℝ, Y = fun y => sumDens S N0 Finset.univ y / chDens N0 (S i) y := ⟨_, rfl⟩
  have hYm : Measurable Y := by rw [hY]; exact (measurable_sumDens S N0 _).div (measurable_chDens N0 _)
  have hYe : ∀ p : ℝ × ℝ, chDens N0 (S i) (mkC p) * Y (mkC p) = sumDens S N0 Finset.univ (mkC p) := fun p => by
    rw [hY]
    exact mul_div_cancel₀ _ (chDens_pos h0 _ _).ne'
  obtain ⟨k1, k2⟩ := ch_integral h0 (S i) hYm
  simp only [hYe] at k1 k2
  have hYi : Integrable (fun z => Y (rcv N0 (S i) z)) stdN2 := k1 (sumDens_integrable S h0 Finset.univ).1
  rw [(sumDens_integrable S h0 Finset.univ).2, Finset.card_univ, Fintype.card_fin] at k2
  obtain ⟨f, hf⟩ : ∃ f : ℝ × ℝ → ℝ, f = fun z => Real.log (sumDens S N0 Finset.univ (rcv N0 (S i) z) / sumDens S N0 A (rcv N0 (S i) z)) / Real.log 2 := ⟨_, rfl⟩
  have hfi : Integrable f stdN2 := by rw [hf]; exact (avgLog_eq S h0 hi).1.div_const _
  obtain ⟨b, hb⟩ : ∃ b : ℝ × ℝ → ℝ, b = fun z => (L ^ 2 + (2 * L + 2) * (Y (rcv N0 (S i) z) / Real.exp L)) / Real.log 2 ^ 2 := ⟨_, rfl⟩
  have hbi : Integrable b stdN2 := by
    rw [hb]
    exact ((integrable_const _).add ((hYi.div_const _).const_mul _)).div_const _
  have hle : ∀ z, f z ^ 2 ≤ b z := by
    intro z
    rw [hf, hb]
    dsimp only
    rw [div_pow]
    refine div_le_div_of_nonneg_right ?_ (by positivity)
    obtain ⟨y, hy⟩ : ∃ y, y = rcv N0 (S i) z := ⟨_, rfl⟩
    rw [← hy]
    have hA : 0 < sumDens S N0 A y := sumDens_pos S h0 ⟨i, hi⟩ _
    have hU : sumDens S N0 A y ≤ sumDens S N0 Finset.univ y := Finset.sum_le_sum_of_subset_of_nonneg (Finset.subset_univ _) fun j _ _ => (chDens_pos h0 _ _).le
    have hci : chDens N0 (S i) y ≤ sumDens S N0 A y := Finset.single_le_sum (f := fun j => chDens N0 (S j) y) (fun j _ => (chDens_pos h0 _ _).le) hi
    have h1 : 1 ≤ sumDens S N0 Finset.univ y / sumDens S N0 A y := by rw [le_div_iff₀ hA, one_mul]; exact hU
    have h2 : sumDens S N0 Finset.univ y / sumDens S N0 A y ≤ Y y := by
      rw [hY]
      exact div_le_div_of_nonneg_left (by linarith) (chDens_pos h0 _ _) hci
    refine (log_sq_le hL0 h1).trans ?_
    gcongr
  have hfi2 : Integrable (fun z => f z ^ 2) stdN2 := hbi.mono' (hfi.aestronglyMeasurable.pow 2) (Filter.Eventually.of_forall fun z => by
    rw [Real.norm_of_nonneg (sq_nonneg _)]; exact hle z)
  have hmem : MemLp f 2 stdN2 := (memLp_two_iff_integrable_sq hfi.aestronglyMeasurable).2 hfi2
  rw [hf] at hmem
  refine ⟨hmem, ?_⟩
  have h3 : ∫ z, f z ^ 2 ∂stdN2 ≤ ∫ z, b z ∂stdN2 := integral_mono hfi2 hbi hle
  have h4 : ∫ z, b z ∂stdN2 = spreadBound M := by
    rw [hb, integral_div, integral_add (integrable_const _) ((hYi.div_const _).const_mul _), integral_const_mul, integral_div, k2, hexp, div_self (by positivity)]
    simp only [integral_const, probReal_univ, smul_eq_mul, one_mul, mul_one]
    unfold spreadBound
    rw [← hL]
    congr 1
    ring
  rw [h4, hf] at h3
  exact h3

/-- The same for the terms with conjugated noise. -/
theorem mc_second {M : Nat} (S : Fin M → ℂ) {N0 : ℝ} (h0 : 0 < N0) {A : Finset (Fin M)} {i : Fin M} (hi : i ∈ A) (T : ℝ × ℝ → ℝ)
    (hT : ∀ z, T z = Real.logb 2 ((∑ j, Real.exp (-(‖S i - S j‖ ^ 2 + 2 * ((S i - S j) * ((⟨z.1, z.2⟩ : ℂ) * (Real.sqrt (N0 / 2) : ℂ))).re) / N0)) /
      ∑ j ∈ A, Real.exp (-(‖S i - S j‖ ^ 2 + 2 * ((S i - S j) * ((⟨z.1, z.2⟩ : ℂ) * (Real.sqrt (N0 / 2) : ℂ))).re) / N0))) :
    MemLp T 2 stdN2 ∧ ∫ z, T z ^ 2 ∂stdN2 ≤ spreadBound M := by
  obtain ⟨g, hg⟩ : ∃ g : ℝ × ℝ → ℝ, g = fun z => Real.log (sumDens S N0 Finset.univ (rcv N0 (S i) z) / sumDens S N0 A (rcv N0 (S i) z)) / Real.log 2 := ⟨_, rfl⟩
  obtain ⟨h1, h2⟩ := ratio_second S h0 hi
  have e0 : g = fun z => Real.log (sumDens S N0 Finset.univ (rcv N0 (S i) z) / sumDens S N0 A (rcv N0 (S i) z)) / Real.log 2 := hg
  have h1' : MemLp g 2 stdN2 := by rw [hg]; exact h1
  have h2' : ∫ z, g z ^ 2 ∂stdN2 ≤ spreadBound M := by rw [hg]; exact h2
  have e : T = fun z => g (z.1, -z.2) := by
    funext z
    rw [hT]
    simp_rw [← rcv_dist]
    rw [logb_exp_sum S h0 hi, hg]
    rfl
  rw [e]
  refine ⟨h1'.comp_measurePreserving conj_preserving, ?_⟩
  have hg2 : Integrable (fun z => g z ^ 2) stdN2 := (memLp_two_iff_integrable_sq h1'.aestronglyMeasurable).1 h1'
  have hemb : AEStronglyMeasurable (fun z => g z ^ 2) (stdN2.map fun z : ℝ × ℝ => (z.1, -z.2)) := by rw [conj_preserving.map_eq]; exact hg2.aestronglyMeasurable
  have h3 := integral_map conj_preserving.measurable.aemeasurable hemb
  rw [conj_preserving.map_eq] at h3
  rw [← h3]
  exact h2'

/-- The mean of several terms has no larger second moment. -/
theorem avg_second {M : Nat} (hM : 0 < M) (T : Fin M → ℝ × ℝ → ℝ) (V : ℝ) (hT : ∀ i, MemLp (T i) 2 stdN2 ∧ ∫ z, T i z ^ 2 ∂stdN2 ≤ V) :
    MemLp (fun z => (∑ i, T i z) / M) 2 stdN2 ∧ ∫ z, ((∑ i, T i z) / M) ^ 2 ∂stdN2 ≤ V := by
  have hMr : (0 : ℝ) < M := by exact_mod_cast hM
  have hmem : MemLp (fun z => (∑ i, T i z) / M) 2 stdN2 := by
    have := (memLp_finsetSum Finset.univ fun i _ => (hT i).1).mul_const ((M : ℝ)⁻¹)
    simpa only [div_eq_mul_inv] using this
  refine ⟨hmem, ?_⟩
  have hsq : ∀ i, Integrable (fun z => T i z ^ 2) stdN2 := fun i => (memLp_two_iff_integrable_sq (hT i).1.aestronglyMeasurable).1 (hT i).1
  have h1 : ∀ z, ((∑ i, T i z) / M) ^ 2 ≤ (∑ i, T i z ^ 2) / M := by
    intro z
    have := sq_sum_le_card_mul_sum_sq (s := Finset.univ) (f := fun i => T i z)
    rw [Finset.card_univ, Fintype.card_fin] at this
    rw [div_pow, div_le_div_iff₀ (by positivity) hMr]
    nlinarith
  have h2 := integral_mono ((memLp_two_iff_integrable_sq hmem.aestronglyMeasurable).1 hmem) ((integrable_finsetSum Finset.univ fun i _ => hsq i).div_const (M : ℝ)) h1
  refine h2.trans ?_
  rw [integral_div, integral_finsetSum _ fun i _ => hsq i, div_le_iff₀ hMr]
  refine (Finset.sum_le_sum fun i _ => (hT i).2).trans (le_of_eq ?_)
  rw [Finset.sum_const, Finset.card_univ, Fintype.card_fin, nsmul_eq_mul, mul_comm]

/-- Chebyshev's inequality for a mean over independent noise values. -/
theorem mean_chebyshev {n : Nat} (hn : 0 < n) (f : Fin n → ℝ × ℝ → ℝ) (V c ε : ℝ) (hε : 0 < ε) (hf : ∀ k, MemLp (f k) 2 stdN2 ∧ ∫ z, f k z ^ 2 ∂stdN2 ≤ V)
    (X : (Fin n → ℝ × ℝ) → ℝ) (hX : X = fun w => c - (∑ k, f k (w k)) / n) :
    (noiseLaw n).real {w | ε ≤ |X w - ∫ w, X w ∂noiseLaw n|} ≤ V / (n * ε ^ 2) := by
  have hnr : (0 : ℝ) < n := by exact_mod_cast hn
  obtain ⟨g, hg⟩ : ∃ g : Fin n → (Fin n → ℝ × ℝ) → ℝ, g = fun k w => f k (w k) := ⟨_, rfl⟩
  have hgm : ∀ k, MemLp (g k) 2 (noiseLaw n) := fun k => by
    rw [hg]
    exact (hf k).1.comp_measurePreserving (measurePreserving_eval (fun _ : Fin n => stdN2) k)
  have hsum : MemLp (∑ k, g k) 2 (noiseLaw n) := memLp_finsetSum' _ fun k _ => hgm k
  have hXe : X = fun w => c - (∑ k, g k) w / n := by
    rw [hX, hg]
    funext w
    rw [Finset.sum_apply]
  have hXm : MemLp X 2 (noiseLaw n) := by
    rw [hXe]
    have := (memLp_const c).sub (hsum.mul_const ((n : ℝ)⁻¹))
    simp only [div_eq_mul_inv]
    exact this
  have hvark : ∀ k, Var[g k; noiseLaw n] ≤ V := by
    intro k
    refine (variance_le_expectation_sq (hgm k).aestronglyMeasurable).trans ?_
    have e : ∫ w, (g k ^ 2) w ∂noiseLaw n = ∫ z, f k z ^ 2 ∂stdN2 := by
      rw [hg]
      have hi : Integrable (fun z => f k z ^ 2) stdN2 := (memLp_two_iff_integrable_sq (hf k).1.aestronglyMeasurable).1 (hf k).1
      exact integral_comp_eval (μ := fun _ : Fin n => stdN2) (i := k) hi.aestronglyMeasurable
    rw [e]
    exact (hf k).2
  have hind : iIndepFun g (noiseLaw n) := by
    rw [hg]
    exact iIndepFun_pi fun k => (hf k).1.aestronglyMeasurable.aemeasurable
  have hvs : Var[∑ k, g k; noiseLaw n] ≤ n * V := by
    rw [IndepFun.variance_sum (fun k _ => hgm k) fun i _ j _ hij => hind.indepFun hij]
    refine (Finset.sum_le_sum fun k _ => hvark k).trans (le_of_eq ?_)
    rw [Finset.sum_const, Finset.card_univ, Fintype.card_fin, nsmul_eq_mul]
  have hvX : Var[X; noiseLaw n] ≤ V / n := by
    have e : Var[X; noiseLaw n] = (1 / (n : ℝ)) ^ 2 * Var[∑ k, g k; noiseLaw n] := by
      have e1 : X = fun w => c - (fun w => (1 / (n : ℝ)) * (∑ k, g k) w) w := by
        rw [hXe]
        funext w
        ring
      rw [e1, variance_const_sub, variance_const_mul]
      exact (hsum.const_mul _).aestronglyMeasurable
    rw [e]
    calc (1 / (n : ℝ)) ^ 2 * Var[∑ k, g k; noiseLaw n] ≤ (1 / (n : ℝ)) ^ 2 * (n * V) := mul_le_mul_of_nonneg_left hvs (by positivity)
      _ = V / n := by field_simp
  have h1 := meas_ge_le_variance_div_sq hXm hε
  have h2 : (noiseLaw n).real {w | ε ≤ |X w - ∫ w, X w ∂noiseLaw n|} ≤ Var[X; noiseLaw n] / ε ^ 2 := by
    refine (ENNReal.toReal_mono ENNReal.ofReal_ne_top h1).trans (le_of_eq ?_)
    exact ENNReal.toReal_ofReal (div_nonneg (variance_nonneg _ _) (sq_nonneg _))
  refine h2.trans ?_
  rw [← div_div]
  exact div_le_div_of_nonneg_right hvX (by positivity)

/-- C220: the value of `cal_mi` with `fast=True` for a sequence with all symbols equally often deviates from the mutual information of the channel by `ε` or more with at most the given
probability, which does not depend on the noise power and the shape of the constellation. -/
theorem C220_fast {n : Nat} (hn : 0 < n) (coded : List ℂ) (hnd : coded.Nodup) (tx : Fin n → ℂ) (hbal : EquallyOften coded tx) (N0 ε : ℝ) (h0 : 0 < N0) (hε : 0 < ε) :
    (noiseLaw n).real {w | ε ≤ |calMi (List.ofFn fun k => rcv N0 (tx k) (w k)) (List.ofFn tx) coded N0 true - mutualInfo coded.get N0|} ≤
      ((Real.log coded.length + 1) ^ 2 + 1) / Real.log 2 ^ 2 / (n * ε ^ 2) := by
  have hidx : ∀ k, ∃ i : Fin coded.length, coded.get i = tx k := fun k => List.mem_iff_get.1 (hbal.1 k)
  choose a ha using hidx
  obtain ⟨g, hg⟩ : ∃ g : ℂ → ℝ × ℝ → ℝ, g = fun s z => Real.logb 2 (∑ j, Real.exp (-(‖rcv N0 s z - coded.get j‖ ^ 2 - ‖rcv N0 s z - s‖ ^ 2) / N0)) := ⟨_, rfl⟩
  have hgi : ∀ i, MemLp (g (coded.get i)) 2 stdN2 ∧ ∫ z, g (coded.get i) z ^ 2 ∂stdN2 ≤ spreadBound coded.length := by
    intro i
    have e : g (coded.get i) = fun z => Real.log (sumDens coded.get N0 Finset.univ (rcv N0 (coded.get i) z) / sumDens coded.get N0 {i} (rcv N0 (coded.get i) z)) / Real.log 2 := by
      funext z
      rw [hg, ← logb_exp_sum coded.get h0 (Finset.mem_singleton_self i)]
      simp [Real.logb]
    rw [e]
    exact ratio_second coded.get h0 (Finset.mem_singleton_self i)
  have e : (fun w : Fin n → ℝ × ℝ => calMiMcFast (List.ofFn fun k => rcv N0 (tx k) (w k)) (List.ofFn tx) coded N0) = fun w => Real.logb 2 coded.length - (∑ k, g (tx k) (w k)) / n := by
    funext w
    unfold calMiMcFast
    dsimp only
    rw [zip_ofFn, sum_map_ofFn, List.length_ofFn, hg]
    congr 2
    apply Finset.sum_congr rfl
    intro k _
    dsimp only
    congr 1
    have h3 := sum_map_ofFn coded.get fun sj => Real.exp (-(‖rcv N0 (tx k) (w k) - sj‖ ^ 2 - ‖rcv N0 (tx k) (w k) - tx k‖ ^ 2) / N0)
    rw [List.ofFn_get] at h3
    exact h3
  have h1 := mean_chebyshev hn (fun k => g (tx k)) (spreadBound coded.length) _ ε hε (fun k => by rw [← ha k]; exact hgi (a k)) _ e
  rw [(C120_fast hn coded hnd tx hbal N0 h0).2] at h1
  exact h1

theorem calMiMc_accuracy {M n : Nat} (hM : 0 < M) (hn : 0 < n) (S : Fin M → ℂ) {N0 ε : ℝ} (h0 : 0 < N0) (hε : 0 < ε) :
    (noiseLaw n).real {d | ε ≤ |calMiMc ((List.ofFn d).map fun d => (⟨d.1, d.2⟩ : ℂ) * (Real.sqrt (N0 / 2) : ℂ)) (List.ofFn S) N0 - mutualInfo S N0|} ≤ spreadBound M / (n * ε ^ 2) := by
  obtain ⟨T, hTd⟩ : ∃ T : Fin M → ℝ × ℝ → ℝ, T = fun i z => Real.logb 2 (∑ j, Real.exp (-(‖S i - S j‖ ^ 2 + 2 * ((S i - S j) * ((⟨z.1, z.2⟩ : ℂ) * (Real.sqrt (N0 / 2) : ℂ))).re) / N0)) := ⟨_, rfl⟩
  have hT : ∀ i, MemLp (T i) 2 stdN2 ∧ ∫ z, T i z ^ 2 ∂stdN2 ≤ spreadBound M := by
    intro i
    apply mc_second S h0 (Finset.mem_singleton_self i)
    intro z
    rw [hTd]
    simp
  have e : (fun d : Fin n → ℝ × ℝ => calMiMc ((List.ofFn d).map fun d => (⟨d.1, d.2⟩ : ℂ) * (Real.sqrt (N0 / 2) : ℂ)) (List.ofFn S) N0) =
      fun d => Real.logb 2 M - (∑ l, (∑ i, T i (d l)) / M) / n := by
    funext d
    unfold calMiMc
    simp only [List.map_map, List.length_map, List.length_ofFn, sum_map_ofFn, Function.comp_apply]
    rw [Finset.sum_comm, hTd, ← Finset.sum_div]
  have h1 := mean_chebyshev hn (fun _ z => (∑ i, T i z) / M) (spreadBound M) _ ε hε (fun _ => avg_second hM T _ hT) _ e
  rw [(calMiMc_avg hM hn S h0).2] at h1
  exact h1

/-- C220: the same for `fast=False`, for any transmitted sequence. -/
theorem C220_slow {n : Nat} (hn : 0 < n) (coded : List ℂ) (hc : coded ≠ []) (tx : Fin n → ℂ) (N0 ε : ℝ) (h0 : 0 < N0) (hε : 0 < ε) :
    (noiseLaw n).real {w | ε ≤ |calMi (List.ofFn fun k => rcv N0 (tx k) (w k)) (List.ofFn tx) coded N0 false - mutualInfo coded.get N0|} ≤
      ((Real.log coded.length + 1) ^ 2 + 1) / Real.log 2 ^ 2 / (n * ε ^ 2) := by
  have h1 := calMiMc_accuracy (List.length_pos_iff.2 hc) hn coded.get h0 hε
  rw [List.ofFn_get] at h1
  have e : ∀ w : Fin n → ℝ × ℝ, calMi (List.ofFn fun k => rcv N0 (tx k) (w k)) (List.ofFn tx) coded N0 false =
      calMiMc ((List.ofFn w).map fun d => (⟨d.1, d.2⟩ : ℂ) * (Real.sqrt (N0 / 2) : ℂ)) coded N0 := by
    intro w
    unfold calMi
    rw [if_neg (by simp)]
    congr 1
    apply List.ext_getElem
    · simp
    · intro t h2 h3
      simp only [List.getElem_zipWith, List.getElem_ofFn, List.getElem_map, rcv, add_sub_cancel_left]
      apply Complex.ext <;> simp [mul_comm]
  simp_rw [e]
  exact h1

/-- C220: the same for the simulated mutual information `sim_mi_mc`. -/
theorem C220_sim {M n : Nat} (hn : 0 < n) (S : Fin M → ℂ) (hS : ∃ i, S i ≠ 0) (snrDb ε : ℝ) (hε : 0 < ε) :
    (noiseLaw n).real {d | ε ≤ |simMiMc (List.ofFn S) snrDb (List.ofFn d) -
        mutualInfo (fun i => S i / ((Real.sqrt ((∑ i, ‖S i‖ ^ 2) / M) : ℝ) : ℂ)) ((10 : ℝ) ^ (-snrDb / 10))|} ≤
      ((Real.log M + 1) ^ 2 + 1) / Real.log 2 ^ 2 / (n * ε ^ 2) := by
  obtain ⟨i0, hi0⟩ := hS
  have h1 := calMiMc_accuracy i0.pos hn (fun i => S i / ((Real.sqrt ((∑ i, ‖S i‖ ^ 2) / M) : ℝ) : ℂ)) (N0 := (10 : ℝ) ^ (-snrDb / 10)) (Real.rpow_pos_of_pos (by norm_num) _) hε
  have e : ∀ d : Fin n → ℝ × ℝ, simMiMc (List.ofFn S) snrDb (List.ofFn d) = calMiMc ((List.ofFn d).map fun d => (⟨d.1, d.2⟩ : ℂ) * (Real.sqrt ((10 : ℝ) ^ (-snrDb / 10) / 2) : ℂ))
      (List.ofFn fun i => S i / ((Real.sqrt ((∑ i, ‖S i‖ ^ 2) / M) : ℝ) : ℂ)) ((10 : ℝ) ^ (-snrDb / 10)) := by
    intro d
    unfold simMiMc
    have hm : meanR ((List.ofFn S).map fun s => ‖s‖ ^ 2) = (∑ i, ‖S i‖ ^ 2) / M := by
      unfold meanR
      rw [sum_map_ofFn, List.length_map, List.length_ofFn]
    dsimp only
    rw [hm, List.map_ofFn (f := S)]
    rfl
  simp_rw [e]
  exact h1

/-- C220: the generalised mutual information of `cal_gmi` deviates from the sum of the informations of the bits by `ε` or more with at most the given probability. -/
theorem C220_gmi {k n : Nat} (hn : 0 < n) (S : Fin (2 ^ k) → ℂ) (snrDb ε : ℝ) (hε : 0 < ε) :
    ∃ g : (Fin n → ℝ × ℝ) → ℝ, (∀ d, theoryGmi k (List.ofFn S) snrDb (List.ofFn d) = .ok (g d)) ∧
      (noiseLaw n).real {d | ε ≤ |g d - ∑ bit : Fin k, bitInfo S (fun l => labelBit k l bit) ((10 : ℝ) ^ (-snrDb / 10))|} ≤
        (k : ℝ) ^ 2 * (((k * Real.log 2 + 1) ^ 2 + 1) / Real.log 2 ^ 2) / (n * ε ^ 2) := by
  obtain ⟨g, hg, -, hint, -⟩ := C121_gmi hn S snrDb
  refine ⟨g, hg, ?_⟩
  obtain ⟨N0, hN0⟩ : ∃ N0, N0 = (10 : ℝ) ^ (-snrDb / 10) := ⟨_, rfl⟩
  have h0 : 0 < N0 := by rw [hN0]; exact Real.rpow_pos_of_pos (by norm_num) _
  rw [← hint]
  obtain ⟨T, hTd⟩ : ∃ T : Fin k → Fin (2 ^ k) → ℝ × ℝ → ℝ, T = fun bit i z => Real.logb 2 ((∑ j, Real.exp (-(‖S i - S j‖ ^ 2 + 2 * ((S i - S j) * ((⟨z.1, z.2⟩ : ℂ) * (Real.sqrt (N0 / 2) : ℂ))).re) / N0)) /
      ∑ j with labelBit k j bit = labelBit k i bit, Real.exp (-(‖S i - S j‖ ^ 2 + 2 * ((S i - S j) * ((⟨z.1, z.2⟩ : ℂ) * (Real.sqrt (N0 / 2) : ℂ))).re) / N0)) := ⟨_, rfl⟩
  have hT : ∀ bit i, MemLp (T bit i) 2 stdN2 ∧ ∫ z, T bit i z ^ 2 ∂stdN2 ≤ spreadBound (2 ^ k : ℕ) := by
    intro bit i
    apply mc_second S h0 (i := i) (A := Finset.univ.filter fun j => labelBit k j bit = labelBit k i bit) (by simp)
    intro z
    rw [hTd]
  have hA : ∀ bit, MemLp (fun z => (∑ i, T bit i z) / ((2 ^ k : ℕ) : ℝ)) 2 stdN2 ∧ ∫ z, ((∑ i, T bit i z) / ((2 ^ k : ℕ) : ℝ)) ^ 2 ∂stdN2 ≤ spreadBound (2 ^ k : ℕ) :=
    fun bit => avg_second (by positivity) (T bit) _ (hT bit)
  have hg' : g = fun d => (k : ℝ) - (∑ l, ∑ bit, (∑ i, T bit i (d l)) / ((2 ^ k : ℕ) : ℝ)) / n := by
    funext d
    have h1 := hg d
    rw [gmi_terms S snrDb hN0 T hTd d] at h1
    rw [← Except.ok.inj h1]
    simp_rw [← Finset.sum_div]
    rw [div_div]
  have hB : MemLp (fun z => ∑ bit, (∑ i, T bit i z) / ((2 ^ k : ℕ) : ℝ)) 2 stdN2 ∧
      ∫ z, (∑ bit, (∑ i, T bit i z) / ((2 ^ k : ℕ) : ℝ)) ^ 2 ∂stdN2 ≤ (k : ℝ) ^ 2 * spreadBound (2 ^ k : ℕ) := by
    rcases Nat.eq_zero_or_pos k with hk | hk
    · subst hk
      simp
    have hkr : (0 : ℝ) < k := by exact_mod_cast hk
    obtain ⟨h1, h2⟩ := avg_second hk (fun bit z => (∑ i, T bit i z) / ((2 ^ k : ℕ) : ℝ)) _ hA
    have e1 : (fun z => ∑ bit, (∑ i, T bit i z) / ((2 ^ k : ℕ) : ℝ)) = fun z => (k : ℝ) * ((∑ bit, (∑ i, T bit i z) / ((2 ^ k : ℕ) : ℝ)) / k) := by
      funext z
      rw [mul_div_cancel₀ _ hkr.ne']
    constructor
    · rw [e1]
      exact h1.const_mul _
    · have e2 : ∀ z, (∑ bit, (∑ i, T bit i z) / ((2 ^ k : ℕ) : ℝ)) ^ 2 = (k : ℝ) ^ 2 * ((∑ bit, (∑ i, T bit i z) / ((2 ^ k : ℕ) : ℝ)) / k) ^ 2 := by
        intro z
        rw [← mul_pow, mul_div_cancel₀ _ hkr.ne']
      simp_rw [e2]
      rw [integral_const_mul]
      exact mul_le_mul_of_nonneg_left h2 (by positivity)
  have h1 := mean_chebyshev hn (fun _ z => ∑ bit, (∑ i, T bit i z) / ((2 ^ k : ℕ) : ℝ)) _ (k : ℝ) ε hε (fun _ => hB) g hg'
  have e3 : spreadBound (2 ^ k : ℕ) = ((k * Real.log 2 + 1) ^ 2 + 1) / Real.log 2 ^ 2 := by
    unfold spreadBound
    rw [Nat.cast_pow, Real.log_pow, Nat.cast_ofNat]
  rw [e3] at h1
  exact h1

/-- With ten thousand symbols of BPSK the value is within a fifth of a bit of the mutual information with a probability of 97 percent, at every noise power. -/
example (N0 : ℝ) (h0 : 0 < N0) (tx : Fin 10000 → ℂ) :
    (noiseLaw 10000).real {w | (1 / 5 : ℝ) ≤ |calMi (List.ofFn fun k => rcv N0 (tx k) (w k)) (List.ofFn tx) [1, -1] N0 false - mutualInfo ([1, -1] : List ℂ).get N0|} ≤ 3 / 100 := by
  refine (C220_slow (by norm_num) [1, -1] (by simp) tx N0 (1 / 5) h0 (by norm_num)).trans ?_
  have hl := Real.log_two_gt_d9
  have hu := Real.log_two_lt_d9
  have e : (([1, -1] : List ℂ).length : ℝ) = 2 := by norm_num
  rw [e, div_div, div_le_iff₀ (by positivity)]
  norm_num
  nlinarith

/-- A sequence with all symbols equally often. -/
example : ([1, -1] : List ℂ).Nodup ∧ EquallyOften ([1, -1] : List ℂ) (fun k : Fin ([1, -1] : List ℂ).length => ([1, -1] : List ℂ).get k) := by
  have hnd : ([1, -1] : List ℂ).Nodup := by
    have : (1 : ℂ) ≠ -1 := by
      intro h
      have := congrArg Complex.re h
      norm_num at this
    simp [this]
  exact ⟨hnd, balanced_get hnd⟩

end Qampy
