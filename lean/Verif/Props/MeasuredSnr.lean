import Verif.Props.MeasuredLink
import Verif.Props.Stats
import Mathlib.MeasureTheory.Integral.Pi

/-!
C219: accuracy of the error vector magnitude and of the SNR estimate measured on a noisy link, with the alignment found by the metrics themselves.
-/

namespace Qampy

open MeasureTheory ProbabilityTheory
open Complex (I)

theorem exp_square_stdN {t : ℝ} (ht : t < 1) : ∫ x, Real.exp (t * (x ^ 2 / 2)) ∂stdN = 1 / Real.sqrt (1 - t) := by
  rw [integral_gaussianReal_eq_integral_smul one_ne_zero]
  have e : ∀ x : ℝ, gaussianPDFReal 0 1 x • Real.exp (t * (x ^ 2 / 2)) = (Real.sqrt (2 * Real.pi))⁻¹ * Real.exp (-((1 - t) / 2) * x ^ 2) := by
    intro x
    rw [gaussianPDFReal, smul_eq_mul, mul_assoc, ← Real.exp_add]
    congr 3
    · simp
    · push_cast; ring
  simp_rw [e]
  rw [integral_const_mul, integral_gaussian, ← Real.sqrt_inv, ← Real.sqrt_mul (by positivity), one_div, ← Real.sqrt_inv]
  congr 1
  have : 1 - t ≠ 0 := by linarith
  have := Real.pi_ne_zero
  field_simp

theorem exp_square_pair {t : ℝ} (ht : t < 1) :
    Integrable (fun z : ℝ × ℝ => Real.exp (t * ((z.1 ^ 2 + z.2 ^ 2) / 2))) stdN2 ∧ ∫ z, Real.exp (t * ((z.1 ^ 2 + z.2 ^ 2) / 2)) ∂stdN2 = 1 / (1 - t) := by
  have h1 : 0 < 1 - t := by linarith
  have e : ∫ z, Real.exp (t * ((z.1 ^ 2 + z.2 ^ 2) / 2)) ∂stdN2 = 1 / (1 - t) := by
    have h := integral_prod_mul (μ := stdN) (ν := stdN) (fun x => Real.exp (t * (x ^ 2 / 2))) (fun x => Real.exp (t * (x ^ 2 / 2)))
    rw [exp_square_stdN ht] at h
    rw [show (fun z : ℝ × ℝ => Real.exp (t * ((z.1 ^ 2 + z.2 ^ 2) / 2))) = fun z : ℝ × ℝ => Real.exp (t * (z.1 ^ 2 / 2)) * Real.exp (t * (z.2 ^ 2 / 2)) by
      funext z; rw [← Real.exp_add]; congr 1; ring]
    rw [h, div_mul_div_comm, one_mul, Real.mul_self_sqrt h1.le]
  refine ⟨?_, e⟩
  by_contra hcon
  rw [integral_undef hcon] at e
  exact absurd e.symm (by positivity)

/-- The energy of `n` noise samples: exponential moments. -/
theorem energy_mgf {n : Nat} {t : ℝ} (ht : t < 1) :
    Integrable (fun w : Fin n → ℝ × ℝ => Real.exp (t * ∑ k, ((w k).1 ^ 2 + (w k).2 ^ 2) / 2)) (noiseLaw n) ∧
    mgf (fun w : Fin n → ℝ × ℝ => ∑ k, ((w k).1 ^ 2 + (w k).2 ^ 2) / 2) (noiseLaw n) t = (1 / (1 - t)) ^ n := by
  have e : (fun w : Fin n → ℝ × ℝ => Real.exp (t * ∑ k, ((w k).1 ^ 2 + (w k).2 ^ 2) / 2)) = fun w => ∏ k, Real.exp (t * (((w k).1 ^ 2 + (w k).2 ^ 2) / 2)) := by
    funext w
    rw [Finset.mul_sum, Real.exp_sum]
  have h1 : ∫ w, ∏ k : Fin n, Real.exp (t * (((w k).1 ^ 2 + (w k).2 ^ 2) / 2)) ∂noiseLaw n = (1 / (1 - t)) ^ n := by
    have h := integral_fintype_prod_eq_pow (ι := Fin n) (μ := stdN2) (fun z : ℝ × ℝ => Real.exp (t * ((z.1 ^ 2 + z.2 ^ 2) / 2)))
    rw [(exp_square_pair ht).2, Fintype.card_fin] at h
    exact h
  constructor
  · rw [e]
    exact Integrable.fintype_prod (f := fun (_ : Fin n) (z : ℝ × ℝ) => Real.exp (t * ((z.1 ^ 2 + z.2 ^ 2) / 2))) fun _ => (exp_square_pair ht).1
  · unfold mgf
    rw [e, h1]

theorem energy_upper {n : Nat} {δ : ℝ} (hδ : 0 ≤ δ) :
    (noiseLaw n).real {w | (1 + δ) * n ≤ ∑ k, ((w k).1 ^ 2 + (w k).2 ^ 2) / 2} ≤ Real.exp (-(n * (δ - Real.log (1 + δ)))) := by
  have h1 : 0 < 1 + δ := by linarith
  have ht : δ / (1 + δ) < 1 := by rw [div_lt_one h1]; linarith
  obtain ⟨hi, hm⟩ := energy_mgf (n := n) ht
  refine (measure_ge_le_exp_mul_mgf ((1 + δ) * n) (by positivity) hi).trans (le_of_eq ?_)
  rw [hm, show 1 / (1 - δ / (1 + δ)) = 1 + δ by field_simp; ring, show -(δ / (1 + δ)) * ((1 + δ) * n) = -(n * δ) by field_simp,
    ← Real.exp_log (pow_pos h1 n), Real.log_pow, ← Real.exp_add]
  congr 1
  ring

theorem energy_lower {n : Nat} {δ : ℝ} (hδ : 0 ≤ δ) (hδ1 : δ < 1) :
    (noiseLaw n).real {w | ∑ k, ((w k).1 ^ 2 + (w k).2 ^ 2) / 2 ≤ (1 - δ) * n} ≤ Real.exp (-(n * (-Real.log (1 - δ) - δ))) := by
  have h1 : 0 < 1 - δ := by linarith
  have hp : 0 ≤ δ / (1 - δ) := by positivity
  obtain ⟨hi, hm⟩ := energy_mgf (n := n) (t := -(δ / (1 - δ))) (by linarith)
  refine (measure_le_le_exp_mul_mgf ((1 - δ) * n) (by linarith) hi).trans (le_of_eq ?_)
  have e : 1 / (1 - -(δ / (1 - δ))) = 1 - δ := by
    rw [sub_neg_eq_add, show 1 + δ / (1 - δ) = 1 / (1 - δ) by field_simp; ring, one_div_one_div]
  rw [hm, e, neg_neg, show δ / (1 - δ) * ((1 - δ) * n) = n * δ by field_simp,
    ← Real.exp_log (pow_pos h1 n), Real.log_pow, ← Real.exp_add]
  congr 1
  ring

/-- What `estimate_snr` returns for a sequence with a disturbance: the noise power is the mean power of the disturbance less that of its class means, and the
signal power differs from the transmitted power by at most the power of the class means, in terms of amplitudes. -/
theorem snr_parts {n : Nat} (gray : List ℂ) (hnd : gray.Nodup) (tx z : Fin n → ℂ) (htx : ∀ k, tx k ∈ gray) (hall : ∀ s ∈ gray, ∃ k, tx k = s) (T : ℝ)
    (hT : T = (∑ k, ‖(∑ j with tx j = tx k, z j) / ((Finset.univ.filter fun j => tx j = tx k).card : ℂ)‖ ^ 2) / n) :
    ∃ S N : ℝ, estimateSnr (List.ofFn fun k => tx k + z k) (List.ofFn tx) gray = some (S / N, S, N) ∧
      N = (∑ k, ‖z k‖ ^ 2) / n - T ∧
      (Real.sqrt ((∑ k, ‖tx k‖ ^ 2) / n) - Real.sqrt T) ^ 2 ≤ S ∧ S ≤ (Real.sqrt ((∑ k, ‖tx k‖ ^ 2) / n) + Real.sqrt T) ^ 2 := by
  have hm1 : ∀ s ∈ List.ofFn tx, s ∈ gray := by
    intro s hs
    obtain ⟨k, rfl⟩ := (List.mem_ofFn' _ _).1 hs
    exact htx k
  have hm2 : ∀ s ∈ gray, s ∈ List.ofFn tx := by
    intro s hs
    obtain ⟨k, hk⟩ := hall s hs
    exact (List.mem_ofFn' _ _).2 ⟨k, hk⟩
  obtain ⟨S, N, h1, h2, h3, -⟩ := C66_estimate_snr (List.ofFn fun k => tx k + z k) (List.ofFn tx) gray (by simp) hnd hm1 hm2
  obtain ⟨S', N', -, g2, g3, g4⟩ := C66_estimate_snr (List.ofFn z) (List.ofFn tx) gray (by simp) hnd hm1 hm2
  rw [zip_ofFn, sum_map_ofFn, List.length_ofFn] at h2 h3 g2 g3
  rw [sum_map_ofFn, List.length_ofFn] at g4
  obtain ⟨a, ha⟩ : ∃ a : Fin n → ℂ, a = fun k => (∑ j with tx j = tx k, z j) / ((Finset.univ.filter fun j => tx j = tx k).card : ℂ) := ⟨_, rfl⟩
  have hcm : ∀ k, classMean (List.ofFn fun k => tx k + z k) (List.ofFn tx) (tx k) = tx k + a k := by
    intro k
    have hc : ((Finset.univ.filter fun j => tx j = tx k).card : ℂ) ≠ 0 := by
      rw [Nat.cast_ne_zero, Finset.card_ne_zero]
      exact ⟨k, by simp⟩
    rw [classMean_ofFn, Finset.sum_add_distrib, add_div, ha]
    congr 1
    rw [Finset.sum_congr rfl fun j hj => (Finset.mem_filter.1 hj).2, Finset.sum_const, nsmul_eq_mul, mul_div_cancel_left₀ _ hc]
  have hcz : ∀ k, classMean (List.ofFn z) (List.ofFn tx) (tx k) = a k := by
    intro k
    rw [classMean_ofFn, ha]
  have hTa : T = (∑ k, ‖a k‖ ^ 2) / n := by rw [hT, ha]
  simp only [hcm] at h2 h3
  simp only [hcz] at g2 g3
  refine ⟨S, N, h1, ?_, ?_⟩
  · have : N = N' := by
      rw [h3, g3]
      congr 1
      refine Finset.sum_congr rfl fun k _ => ?_
      rw [add_sub_add_left_eq_sub]
    rw [this, hTa, ← g2, ← g4]
    ring
  · obtain ⟨P, hP⟩ : ∃ P, P = (∑ k, ‖tx k‖ ^ 2) / (n : ℝ) := ⟨_, rfl⟩
    rw [← hP]
    have hP0 : 0 ≤ P := by rw [hP]; positivity
    have hT0 : 0 ≤ T := by rw [hTa]; positivity
    have hcs : (∑ k, ‖tx k‖ * ‖a k‖) / n ≤ Real.sqrt P * Real.sqrt T := by
      rw [← Real.sqrt_mul hP0]
      refine Real.le_sqrt_of_sq_le ?_
      rw [div_pow, hP, hTa, div_mul_div_comm, ← sq]
      exact div_le_div_of_nonneg_right (Finset.sum_mul_sq_le_sq_mul_sq _ _ _) (by positivity)
    have hup : S ≤ P + T + 2 * ((∑ k, ‖tx k‖ * ‖a k‖) / n) := by
      rw [h2, hP, hTa, ← add_div, mul_div_assoc', ← add_div, Finset.mul_sum, ← Finset.sum_add_distrib, ← Finset.sum_add_distrib]
      refine div_le_div_of_nonneg_right (Finset.sum_le_sum fun k _ => ?_) (Nat.cast_nonneg n)
      have := norm_add_le (tx k) (a k)
      have h0 := norm_nonneg (tx k + a k)
      nlinarith
    have hlo : P + T - 2 * ((∑ k, ‖tx k‖ * ‖a k‖) / n) ≤ S := by
      rw [h2, hP, hTa, ← add_div, mul_div_assoc', ← sub_div, Finset.mul_sum, ← Finset.sum_add_distrib, ← Finset.sum_sub_distrib]
      refine div_le_div_of_nonneg_right (Finset.sum_le_sum fun k _ => ?_) (Nat.cast_nonneg n)
      have h5 : |‖tx k‖ - ‖a k‖| ≤ ‖tx k + a k‖ := by
        have := abs_norm_sub_norm_le (tx k) (-a k)
        rwa [norm_neg, sub_neg_eq_add] at this
      have h6 := sq_le_sq' (by linarith [abs_nonneg (‖tx k‖ - ‖a k‖), norm_nonneg (tx k + a k)]) h5
      rw [sq_abs] at h6
      nlinarith
    have e1 := Real.sq_sqrt hP0
    have e2 := Real.sq_sqrt hT0
    constructor
    · calc (Real.sqrt P - Real.sqrt T) ^ 2 = Real.sqrt P ^ 2 + Real.sqrt T ^ 2 - 2 * (Real.sqrt P * Real.sqrt T) := by ring
        _ ≤ S := by rw [e1, e2]; linarith
    · calc S ≤ Real.sqrt P ^ 2 + Real.sqrt T ^ 2 + 2 * (Real.sqrt P * Real.sqrt T) := by rw [e1, e2]; linarith
        _ = _ := by ring

/-- The noise energy and the energy of its class means. -/
theorem noise_good {Ω : Type*} [MeasurableSpace Ω] (μ : Measure Ω) [IsProbabilityMeasure μ] {n : Nat} (hn : 0 < n) (Z : Ω → Fin n → ℝ × ℝ) (hZ : MeasurePreserving Z μ (noiseLaw n))
    (gray : List ℂ) (hnd : gray.Nodup) (tx : Fin n → ℂ) (htx : ∀ k, tx k ∈ gray) (hall : ∀ s ∈ gray, ∃ k, tx k = s) (sg δ a : ℝ) (hsg : 0 < sg) (hδ : 0 ≤ δ) (hδ1 : δ < 1) (ha : 0 ≤ a)
    (z : Ω → Fin n → ℂ) (hz : z = fun w k => ⟨sg / Real.sqrt 2 * (Z w k).1, sg / Real.sqrt 2 * (Z w k).2⟩) :
    μ.real {w | ¬ ((1 - δ) * sg ^ 2 ≤ (∑ k, ‖z w k‖ ^ 2) / n ∧ (∑ k, ‖z w k‖ ^ 2) / n ≤ (1 + δ) * sg ^ 2 ∧
      (∑ k, ‖(∑ j with tx j = tx k, z w j) / ((Finset.univ.filter fun j => tx j = tx k).card : ℂ)‖ ^ 2) / n ≤ 2 * a * gray.length / n * sg ^ 2)} ≤
    Real.exp (-(n * (δ - Real.log (1 + δ)))) + Real.exp (-(n * (-Real.log (1 - δ) - δ))) + gray.length * (4 * Real.exp (-a)) := by
  have hn' : (0 : ℝ) < n := by exact_mod_cast hn
  have h2 : (sg / Real.sqrt 2) ^ 2 = sg ^ 2 / 2 := by rw [div_pow, Real.sq_sqrt (by norm_num)]
  have hE : ∀ w, ∑ k, ‖z w k‖ ^ 2 = sg ^ 2 * ∑ k, ((Z w k).1 ^ 2 + (Z w k).2 ^ 2) / 2 := by
    intro w
    rw [Finset.mul_sum]
    refine Finset.sum_congr rfl fun k _ => ?_
    rw [hz, ← Complex.normSq_eq_norm_sq, Complex.normSq_mk]
    calc _ = (sg / Real.sqrt 2) ^ 2 * ((Z w k).1 ^ 2 + (Z w k).2 ^ 2) := by ring
      _ = _ := by rw [h2]; ring
  obtain ⟨A, hA⟩ : ∃ A : Set Ω, A = Z ⁻¹' {w | (1 + δ) * n ≤ ∑ k, ((w k).1 ^ 2 + (w k).2 ^ 2) / 2} := ⟨_, rfl⟩
  obtain ⟨B, hB⟩ : ∃ B : Set Ω, B = Z ⁻¹' {w | ∑ k, ((w k).1 ^ 2 + (w k).2 ^ 2) / 2 ≤ (1 - δ) * n} := ⟨_, rfl⟩
  have transport : ∀ (s : Set (Fin n → ℝ × ℝ)) (b : ℝ), (noiseLaw n).real s ≤ b → μ.real (Z ⁻¹' s) ≤ b := by
    intro s b hs
    refine le_trans ?_ hs
    have h1 := Measure.le_map_apply (μ := μ) hZ.measurable.aemeasurable s
    rw [hZ.map_eq] at h1
    exact ENNReal.toReal_mono (measure_ne_top _ _) h1
  have hAle : μ.real A ≤ Real.exp (-(n * (δ - Real.log (1 + δ)))) := by rw [hA]; exact transport _ _ (energy_upper hδ)
  have hBle : μ.real B ≤ Real.exp (-(n * (-Real.log (1 - δ) - δ))) := by rw [hB]; exact transport _ _ (energy_lower hδ hδ1)
  -- the class means
  obtain ⟨cnt, hcnt⟩ : ∃ cnt : ℂ → ℝ, cnt = fun s => ((Finset.univ.filter fun j => tx j = s).card : ℝ) := ⟨_, rfl⟩
  have hpos : ∀ s ∈ gray, 0 < cnt s := by
    intro s hs
    obtain ⟨k, hk⟩ := hall s hs
    rw [hcnt]
    have : 0 < (Finset.univ.filter fun j => tx j = s).card := Finset.card_pos.2 ⟨k, by simp [hk]⟩
    exact Nat.cast_pos.2 this
  obtain ⟨C, hC⟩ : ∃ C : Fin gray.length → Set Ω, C = fun i => {w | Real.sqrt ((2 : ℝ) * a / cnt gray[i]) * sg <
    ‖∑ k, (⟨sg / Real.sqrt 2 * (Z w k).1, sg / Real.sqrt 2 * (Z w k).2⟩ : ℂ) * (if tx k = gray[i] then ((cnt gray[i])⁻¹ : ℂ) else 0)‖} := ⟨_, rfl⟩
  have hCle : ∀ i, μ.real (C i) ≤ 4 * Real.exp (-a) := by
    intro i
    have hp := hpos gray[i] (List.getElem_mem _)
    rw [hC]
    refine (weighted_tail μ Z hZ (fun k => if tx k = gray[i] then ((cnt gray[i])⁻¹ : ℂ) else 0) sg (1 / cnt gray[i]) _ ?_ (by positivity)).trans (le_of_eq ?_)
    · have e : ∀ k, ‖(if tx k = gray[i] then ((cnt gray[i])⁻¹ : ℂ) else 0)‖ ^ 2 = if tx k = gray[i] then (cnt gray[i])⁻¹ ^ 2 else 0 := by
        intro k
        split_ifs
        · rw [← Complex.ofReal_inv, Complex.norm_real, Real.norm_eq_abs, sq_abs]
        · simp
      simp_rw [e]
      rw [← Finset.sum_filter, Finset.sum_const, nsmul_eq_mul]
      have : ((Finset.univ.filter fun j => tx j = gray[i]).card : ℝ) = cnt gray[i] := by rw [hcnt]
      rw [this]
      refine le_of_eq ?_
      field_simp
    · congr 2
      rw [mul_pow, Real.sq_sqrt (by positivity)]
      field_simp
  have hCU : μ.real (⋃ i, C i) ≤ gray.length * (4 * Real.exp (-a)) := by
    refine (measureReal_iUnion_fintype_le _).trans ((Finset.sum_le_card_nsmul _ _ (4 * Real.exp (-a)) fun i _ => hCle i).trans (le_of_eq ?_))
    rw [Finset.card_univ, Fintype.card_fin, nsmul_eq_mul]
  refine (measureReal_mono (s₂ := A ∪ B ∪ ⋃ i, C i) ?_ (measure_ne_top _ _)).trans
    ((measureReal_union_le _ _).trans (add_le_add ((measureReal_union_le _ _).trans (add_le_add hAle hBle)) hCU))
  intro w hbad
  by_contra hgood
  refine hbad ?_
  simp only [Set.mem_union, not_or, Set.mem_iUnion, not_exists] at hgood
  obtain ⟨⟨g1, g2⟩, g3⟩ := hgood
  rw [hA, Set.mem_preimage, Set.mem_ofPred_eq, not_le] at g1
  rw [hB, Set.mem_preimage, Set.mem_ofPred_eq, not_le] at g2
  have hsg2 : 0 < sg ^ 2 := by positivity
  refine ⟨?_, ?_, ?_⟩
  · rw [hE, le_div_iff₀ hn']
    have := mul_le_mul_of_nonneg_left g2.le hsg2.le
    linarith
  · rw [hE, div_le_iff₀ hn']
    have := mul_le_mul_of_nonneg_left g1.le hsg2.le
    linarith
  · have hk : ∀ k, ‖(∑ j with tx j = tx k, z w j) / ((Finset.univ.filter fun j => tx j = tx k).card : ℂ)‖ ^ 2 ≤ 2 * a * sg ^ 2 * (1 / ((Finset.univ.filter fun j => tx j = tx k).card : ℝ)) := by
      intro k
      obtain ⟨i, hi, hik⟩ := List.getElem_of_mem (htx k)
      have h := g3 ⟨i, hi⟩
      rw [hC, Set.mem_ofPred_eq, not_lt] at h
      simp only [Fin.getElem_fin, hik] at h
      have hp : 0 < cnt (tx k) := hpos _ (htx k)
      have e : (∑ j with tx j = tx k, z w j) / ((Finset.univ.filter fun j => tx j = tx k).card : ℂ) =
          ∑ j, (⟨sg / Real.sqrt 2 * (Z w j).1, sg / Real.sqrt 2 * (Z w j).2⟩ : ℂ) * (if tx j = tx k then ((cnt (tx k))⁻¹ : ℂ) else 0) := by
        rw [Finset.sum_filter, Finset.sum_div]
        refine Finset.sum_congr rfl fun j _ => ?_
        rw [hz, hcnt]
        dsimp only
        split_ifs
        · rw [div_eq_mul_inv, Complex.ofReal_natCast]
        · simp
      rw [e]
      have h' := pow_le_pow_left₀ (norm_nonneg _) h 2
      refine h'.trans (le_of_eq ?_)
      rw [mul_pow, Real.sq_sqrt (by positivity), hcnt]
      ring
    refine (div_le_div_of_nonneg_right (Finset.sum_le_sum fun k _ => hk k) hn'.le).trans (le_of_eq ?_)
    rw [← Finset.mul_sum, fiber_inv hnd tx htx hall]
    ring

/-- The two metrics of a sequence whose disturbance has the expected energy. -/
theorem good_metrics {n : Nat} (hn : 0 < n) (gray : List ℂ) (hnd : gray.Nodup) (tx z : Fin n → ℂ) (htx : ∀ k, tx k ∈ gray) (hall : ∀ s ∈ gray, ∃ k, tx k = s) (sg δ κ ρ P : ℝ) (hP : 0 < P) (hρ0 : 0 < ρ)
    (hsg2 : sg ^ 2 = P / ρ) (hδ : 0 ≤ δ) (hκρ : κ ≤ ρ) (hδκ : δ + κ < 1) (hpow : ∑ k, ‖tx k‖ ^ 2 = n * P)
    (h : (1 - δ) * sg ^ 2 ≤ (∑ k, ‖z k‖ ^ 2) / n ∧ (∑ k, ‖z k‖ ^ 2) / n ≤ (1 + δ) * sg ^ 2 ∧
      (∑ k, ‖(∑ j with tx j = tx k, z j) / ((Finset.univ.filter fun j => tx j = tx k).card : ℂ)‖ ^ 2) / n ≤ κ * sg ^ 2) :
    ((1 - δ) * (P / ρ) ≤ evm (List.ofFn tx) (List.ofFn fun k => tx k + z k) ^ 2 ∧ evm (List.ofFn tx) (List.ofFn fun k => tx k + z k) ^ 2 ≤ (1 + δ) * (P / ρ)) ∧
    ∃ q, estimateSnr (List.ofFn fun k => tx k + z k) (List.ofFn tx) gray = some q ∧ (1 - Real.sqrt (κ / ρ)) ^ 2 / (1 + δ) * ρ ≤ q.1 ∧ q.1 ≤ (1 + Real.sqrt (κ / ρ)) ^ 2 / (1 - δ - κ) * ρ := by
  have hNr : (0 : ℝ) < n := by exact_mod_cast hn
  obtain ⟨k1, k2, k3⟩ := h
  obtain ⟨T, hT⟩ : ∃ T, T = (∑ k, ‖(∑ j with tx j = tx k, z j) / ((Finset.univ.filter fun j => tx j = tx k).card : ℂ)‖ ^ 2) / (n : ℝ) := ⟨_, rfl⟩
  rw [← hT] at k3
  obtain ⟨S, Nz, m0, m1, m2, m3⟩ := snr_parts gray hnd tx z htx hall T hT
  constructor
  · have e : evm (List.ofFn tx) (List.ofFn fun k => tx k + z k) ^ 2 = (∑ k, ‖z k‖ ^ 2) / n := by
      unfold evm
      rw [zip_ofFn, sum_map_ofFn, List.length_ofFn, Real.sq_sqrt (by positivity)]
      congr 1
      refine Finset.sum_congr rfl fun k _ => ?_
      rw [sub_add_cancel_left, norm_neg]
    rw [e, ← hsg2]
    exact ⟨k1, k2⟩
  · rw [hpow, mul_div_cancel_left₀ _ hNr.ne'] at m2 m3
    have hT0 : 0 ≤ T := by rw [hT]; positivity
    have hsgp : 0 < sg ^ 2 := by rw [hsg2]; positivity
    -- amplitude of the class means relative to the signal
    have hTP : Real.sqrt T ≤ Real.sqrt P * Real.sqrt (κ / ρ) := by
      rw [← Real.sqrt_mul hP.le]
      refine Real.sqrt_le_sqrt (k3.trans (le_of_eq ?_))
      rw [hsg2]
      ring
    have hrel : Real.sqrt (κ / ρ) ≤ 1 := by
      refine Real.sqrt_le_one.2 ?_
      rw [div_le_one hρ0]
      exact hκρ
    have hsP := Real.sqrt_nonneg P
    have hPP := Real.sq_sqrt hP.le
    have hSlo : P * (1 - Real.sqrt (κ / ρ)) ^ 2 ≤ S := by
      refine le_trans ?_ m2
      rw [← hPP, ← mul_pow, hPP]
      refine pow_le_pow_left₀ (mul_nonneg hsP (by linarith)) ?_ 2
      rw [mul_sub, mul_one]
      linarith
    have hSup : S ≤ P * (1 + Real.sqrt (κ / ρ)) ^ 2 := by
      refine m3.trans ?_
      rw [← hPP, ← mul_pow, hPP]
      refine pow_le_pow_left₀ (by positivity) ?_ 2
      rw [mul_add, mul_one]
      linarith
    have hNlo : (1 - δ - κ) * sg ^ 2 ≤ Nz := by
      rw [m1]
      linarith
    have hNup : Nz ≤ (1 + δ) * sg ^ 2 := by
      rw [m1]
      linarith
    have hN0 : 0 < Nz := lt_of_lt_of_le (mul_pos (by linarith) hsgp) hNlo
    have hd0 : 0 < 1 - δ - κ := by linarith
    refine ⟨_, m0, ?_⟩
    show _ ≤ S / Nz ∧ S / Nz ≤ _
    constructor
    · rw [le_div_iff₀ hN0]
      calc (1 - Real.sqrt (κ / ρ)) ^ 2 / (1 + δ) * ρ * Nz ≤ (1 - Real.sqrt (κ / ρ)) ^ 2 / (1 + δ) * ρ * ((1 + δ) * sg ^ 2) := mul_le_mul_of_nonneg_left hNup (by positivity)
        _ = P * (1 - Real.sqrt (κ / ρ)) ^ 2 := by rw [hsg2]; field_simp
        _ ≤ S := hSlo
    · rw [div_le_iff₀ hN0]
      calc S ≤ P * (1 + Real.sqrt (κ / ρ)) ^ 2 := hSup
        _ = (1 + Real.sqrt (κ / ρ)) ^ 2 / (1 - δ - κ) * ρ * ((1 - δ - κ) * sg ^ 2) := by rw [hsg2]; field_simp
        _ ≤ _ := mul_le_mul_of_nonneg_left hNlo (by positivity)

/-- **C219** One mode, synchronised: a sequence of `n` symbols of the mean power `P` with all symbols of the alphabet, after `change_snr`. -/
theorem C219_synced {n : Nat} (hn : 0 < n) (coded : List ℂ) (hnd : coded.Nodup) (tx : Fin n → ℂ) (htx : ∀ k, tx k ∈ coded) (hall : ∀ s ∈ coded, ∃ k, tx k = s) (snr fb fs δ a κ ρ P : ℝ) (hfs : 0 < fs) (hfb : 0 < fb)
    (hδ : 0 ≤ δ) (ha : 0 ≤ a) (hP : 0 < P) (hpow : ∑ k, ‖tx k‖ ^ 2 = n * P) (hρ : ρ = (10 : ℝ) ^ (snr / 10) * fb / fs) (hκ : κ = 2 * a * coded.length / n) (hκρ : κ ≤ ρ) (hδκ : δ + κ < 1) :
    (noiseLaw n).real {w | ¬ ∃ (rx : List ℂ) (q : ℝ × ℝ × ℝ), changeSnr [List.ofFn tx] snr fb fs [List.ofFn fun k => (w k).1] [List.ofFn fun k => (w k).2] = [rx] ∧
      ((1 - δ) * (P / ρ) ≤ evm (List.ofFn tx) rx ^ 2 ∧ evm (List.ofFn tx) rx ^ 2 ≤ (1 + δ) * (P / ρ)) ∧
      estimateSnr rx (List.ofFn tx) coded = some q ∧ (1 - Real.sqrt (κ / ρ)) ^ 2 / (1 + δ) * ρ ≤ q.1 ∧ q.1 ≤ (1 + Real.sqrt (κ / ρ)) ^ 2 / (1 - δ - κ) * ρ} ≤
    Real.exp (-(n * (δ - Real.log (1 + δ)))) + Real.exp (-(n * (-Real.log (1 - δ) - δ))) + coded.length * (4 * Real.exp (-a)) := by
  have hNr : (0 : ℝ) < n := by exact_mod_cast hn
  have hρ0 : 0 < ρ := by rw [hρ]; positivity
  have hκ0 : 0 ≤ κ := by rw [hκ]; positivity
  have hPs : meanR ([List.ofFn tx].flatten.map fun z => ‖z‖ ^ 2) = P := by
    unfold meanR
    rw [List.flatten_singleton, sum_map_ofFn, List.length_map, List.length_ofFn, hpow, mul_div_cancel_left₀ _ hNr.ne']
  obtain ⟨sg, hsg⟩ : ∃ sg, sg = Real.sqrt P * ((10 : ℝ) ^ (-snr / 20) * Real.sqrt (fs / fb)) := ⟨_, rfl⟩
  have hsg0 : 0 < sg := by rw [hsg]; positivity
  have hsg2 : sg ^ 2 = P / ρ := by
    rw [hsg, hρ, mul_pow, mul_pow, Real.sq_sqrt hP.le, Real.sq_sqrt (by positivity), ← Real.rpow_natCast ((10 : ℝ) ^ (-snr / 20)), ← Real.rpow_mul (by norm_num),
      show -snr / 20 * ((2 : ℕ) : ℝ) = -(snr / 10) by push_cast; ring, Real.rpow_neg (by norm_num)]
    have : (0 : ℝ) < 10 ^ (snr / 10) := by positivity
    field_simp
  obtain ⟨z, hz⟩ : ∃ z : (Fin n → ℝ × ℝ) → Fin n → ℂ, z = fun w k => ⟨sg / Real.sqrt 2 * (w k).1, sg / Real.sqrt 2 * (w k).2⟩ := ⟨_, rfl⟩
  refine (measureReal_mono ?_ (measure_ne_top _ _)).trans (noise_good (noiseLaw n) hn (fun w => w) (MeasurePreserving.id _) coded hnd tx htx hall sg δ a hsg0 hδ (by linarith) ha z hz)
  intro w hbad hgood
  refine hbad ?_
  rw [← hκ] at hgood
  obtain ⟨g1, q, g2, g3⟩ := good_metrics hn coded hnd tx (z w) htx hall sg δ κ ρ P hP hρ0 hsg2 hδ hκρ hδκ hpow hgood
  refine ⟨_, q, ?_, g1, g2, g3⟩
  have e : changeSnr [List.ofFn tx] snr fb fs [List.ofFn fun k => (w k).1] [List.ofFn fun k => (w k).2] =
      [addAwgn (List.ofFn tx) (Real.sqrt (meanR ([List.ofFn tx].flatten.map fun z => ‖z‖ ^ 2)) * ((10 : ℝ) ^ (-snr / 20) * Real.sqrt (fs / fb))) (List.ofFn fun k => (w k).1) (List.ofFn fun k => (w k).2)] := rfl
  rw [e, hPs, ← hsg, addAwgn_ofFn, hz]

/-- A hundred thousand BPSK symbols at 10 dB: the EVM is within 2.5% and the SNR estimate within 0.5 dB of the true value, except with probability below `10^(-6)`. -/
example (tx : Fin 100000 → ℂ) (htx : ∀ k, tx k ∈ ([1, -1] : List ℂ)) (hall : ∀ s ∈ ([1, -1] : List ℂ), ∃ k, tx k = s) :
    (noiseLaw 100000).real {w | ¬ ∃ (rx : List ℂ) (q : ℝ × ℝ × ℝ), changeSnr [List.ofFn tx] 10 1 1 [List.ofFn fun k => (w k).1] [List.ofFn fun k => (w k).2] = [rx] ∧
      (0.95 * (1 / 10) ≤ evm (List.ofFn tx) rx ^ 2 ∧ evm (List.ofFn tx) rx ^ 2 ≤ 1.05 * (1 / 10)) ∧
      estimateSnr rx (List.ofFn tx) [1, -1] = some q ∧ 9 ≤ q.1 ∧ q.1 ≤ 11} ≤ 1 / 1000000 := by
  have hone : ∀ k, ‖tx k‖ ^ 2 = 1 := by
    intro k
    have := htx k
    simp only [List.mem_cons, List.not_mem_nil, or_false] at this
    rcases this with h | h <;> rw [h] <;> simp
  have hnd : ([1, -1] : List ℂ).Nodup := by
    have : (1 : ℂ) ≠ -1 := by
      intro h
      have := congrArg Complex.re h
      norm_num at this
    simp [this]
  have hsq : Real.sqrt (0.0008 / 10) ≤ 0.01 := by
    rw [Real.sqrt_le_left (by norm_num)]
    norm_num
  have hsq0 := Real.sqrt_nonneg (0.0008 / 10)
  have hl1 : Real.log (1 + 0.05) ≤ 0.049 := by
    rw [Real.log_le_iff_le_exp (by norm_num)]
    exact le_trans (by norm_num) (Real.quadratic_le_exp_of_nonneg (show (0 : ℝ) ≤ 0.049 by norm_num))
  have hl2 : Real.log (1 - 0.05) ≤ -0.051 := by
    rw [Real.log_le_iff_le_exp (by norm_num)]
    exact le_trans (by norm_num) (Real.one_sub_div_pow_le_exp_neg (n := 100) (t := 0.051) (by norm_num))
  have he : Real.exp (-20) ≤ 1 / 2.5 ^ 20 := by
    rw [Real.exp_neg, ← one_div, show (20 : ℝ) = ((20 : ℕ) : ℝ) * 1 by norm_num, Real.exp_nat_mul]
    refine one_div_le_one_div_of_le (by norm_num) (pow_le_pow_left₀ (by norm_num) ?_ 20)
    exact le_trans (by norm_num) (Real.quadratic_le_exp_of_nonneg (zero_le_one' ℝ))
  have h := C219_synced (n := 100000) (by norm_num) [1, -1] hnd tx htx hall 10 1 1 0.05 20 0.0008 10 1 one_pos one_pos (by norm_num) (by norm_num) one_pos (by simp [hone])
    (by norm_num) (by norm_num) (by norm_num) (by norm_num)
  have hb : Real.exp (-(((100000 : ℕ) : ℝ) * (0.05 - Real.log (1 + 0.05)))) ≤ Real.exp (-20) := Real.exp_le_exp.2 (by push_cast; linarith)
  have hc : Real.exp (-(((100000 : ℕ) : ℝ) * (-Real.log (1 - 0.05) - 0.05))) ≤ Real.exp (-20) := Real.exp_le_exp.2 (by push_cast; linarith)
  refine (measureReal_mono ?_ (measure_ne_top _ _)).trans (h.trans ?_)
  · intro w hbad hgood
    refine hbad ?_
    obtain ⟨rx, q, h1, h2, h3, h4, h5⟩ := hgood
    refine ⟨rx, q, h1, ⟨by linarith [h2.1], by linarith [h2.2]⟩, h3, le_trans ?_ h4, h5.trans ?_⟩
    · have : (0.99 : ℝ) ^ 2 ≤ (1 - Real.sqrt (0.0008 / 10)) ^ 2 := pow_le_pow_left₀ (by norm_num) (by linarith) 2
      rw [div_mul_eq_mul_div, le_div_iff₀ (by norm_num)]
      linarith
    · have : (1 + Real.sqrt (0.0008 / 10)) ^ 2 ≤ (1.01 : ℝ) ^ 2 := pow_le_pow_left₀ (by linarith) (by linarith) 2
      rw [div_mul_eq_mul_div, div_le_iff₀ (by norm_num)]
      linarith
  · simp only [List.length_cons, List.length_nil]
    push_cast
    push_cast at hb hc
    have : (10 : ℝ) * (1 / 2.5 ^ 20) ≤ 1 / 1000000 := by norm_num
    linarith

/-- **C219** A signal of several modes of the power `P`, delayed, turned by quarter turns and its modes exchanged, with additive noise of the signal to noise ratio
`ρ = 10^(snr/10) fb / fs`: the squared error vector magnitude returned by `cal_evm` after its own alignment is within the fraction `δ` of `P / ρ`, and the estimate of `est_snr`
is between `(1 - √(κ/ρ))² / (1 + δ)` and `(1 + √(κ/ρ))² / (1 - δ - κ)` times `ρ` with `κ = 2 a M / N` for an alphabet of `M` symbols, for all modes, except with probability
`m (exp(-N (δ - log(1+δ))) + exp(-N (-log(1-δ) - δ)) + 4 M exp(-a)) + 4 m L (2 N - 1) exp(-η² ρ / (2 N P²))`. -/
theorem C219_accuracy (s : Nat → Nat → ℂ) (tau d r : Nat → Nat) (N L Lr : Nat) (hN : 0 < N) (hLr : 0 < Lr) (c0 η δ a κ ρ P fs fb snr : ℝ) (hc0 : 0 ≤ c0) (hη : 0 ≤ η) (hδ : 0 ≤ δ) (ha : 0 ≤ a) (hfs : 0 < fs)
    (hfb : 0 < fb) (hP : 0 < P) (coded : List ℂ) (hnd : coded.Nodup) (hturn : ∀ z ∈ coded, I * z ∈ coded) (hmem : ∀ i < L, ∀ m < N, s i m ∈ coded) (hall : ∀ i < L, ∀ z ∈ coded, ∃ m < N, s i m = z)
    (hpow : ∀ i < L, ∑ m ∈ Finset.range N, ‖s i m‖ ^ 2 = N * P)
    (htau : ∀ j < Lr, tau j < L) (hinj : ∀ j k, j < Lr → k < Lr → tau j = tau k → j = k) (hd : ∀ j < Lr, d j < N) (hr : ∀ j < Lr, r j < 4)
    (hside : ∀ j < Lr, ∀ i < L, ∀ k : Int, -(N : Int) < k → k < N → (i ≠ tau j ∨ ¬ k % N = d j % N) →
      ‖∑ m ∈ Finset.range N, (if 0 ≤ k + m ∧ k + m < N then delayed N (s (tau j)) (d j) (k + m).toNat else 0) * (starRingEnd ℂ) (s i m)‖ ≤ c0)
    (hpeak : ∀ j < Lr, c0 + 2 * η < max (∑ m ∈ Finset.Ico 0 (N - d j), ‖s (tau j) m‖ ^ 2) (∑ m ∈ Finset.Ico (N - d j) N, ‖s (tau j) m‖ ^ 2))
    (hρ : ρ = (10 : ℝ) ^ (snr / 10) * fb / fs) (hκ : κ = 2 * a * coded.length / N) (hκρ : κ ≤ ρ) (hδκ : δ + κ < 1)
    (tx sent : List (List ℂ)) (htx : tx = (List.range L).map fun i => (List.range N).map (s i))
    (hsent : sent = List.ofFn fun j : Fin Lr => List.ofFn fun n : Fin N => delayed N (s (tau j)) (d j) n * I ^ r j) :
    (linkLaw Lr N).real {w | ¬ ∃ (rx : List (List ℂ)) (evms : List ℝ) (snrs : List (ℝ × ℝ × ℝ)), simulateTransmission ⟨fs, fb, none⟩ (modeDraws w) { snr := some snr } sent = .ok rx ∧
      calEvmRows false tx rx = .ok evms ∧ estSnrRows coded false tx rx = .ok snrs ∧ evms.length = Lr ∧ snrs.length = Lr ∧
      (∀ e ∈ evms, (1 - δ) * (P / ρ) ≤ e ^ 2 ∧ e ^ 2 ≤ (1 + δ) * (P / ρ)) ∧
      ∀ q ∈ snrs, (1 - Real.sqrt (κ / ρ)) ^ 2 / (1 + δ) * ρ ≤ q.1 ∧ q.1 ≤ (1 + Real.sqrt (κ / ρ)) ^ 2 / (1 - δ - κ) * ρ} ≤
    Lr * (Real.exp (-(N * (δ - Real.log (1 + δ)))) + Real.exp (-(N * (-Real.log (1 - δ) - δ))) + coded.length * (4 * Real.exp (-a))) +
      Lr * L * (2 * N - 1 : ℕ) * (4 * Real.exp (-(η ^ 2 * ρ / (2 * (N * P ^ 2))))) := by
  have hNr : (0 : ℝ) < N := by exact_mod_cast hN
  have hLr' : (0 : ℝ) < Lr := by exact_mod_cast hLr
  have hρ0 : 0 < ρ := by rw [hρ]; positivity
  have hκ0 : 0 ≤ κ := by rw [hκ]; positivity
  obtain ⟨x, hx⟩ : ∃ x : Fin Lr → Fin N → ℂ, x = fun (j : Fin Lr) (n : Fin N) => delayed N (s (tau j)) (d j) n * I ^ r j := ⟨_, rfl⟩
  have hsentx : sent = List.ofFn fun j => List.ofFn (x j) := by rw [hsent, hx]
  have hturns : ∀ (q : Nat), ∀ z ∈ coded, z * I ^ q ∈ coded := by
    intro q
    induction q with
    | zero => intro z hz; rwa [pow_zero, mul_one]
    | succ q ih =>
      intro z hz
      have := hturn _ (ih z hz)
      rwa [mul_left_comm, ← pow_succ'] at this
  have hpos : ∀ j : Fin Lr, ∃ e : Fin N ≃ Fin N, ∀ k, x j k = s (tau j) (e k) * I ^ r j := by
    intro j
    obtain ⟨e, he⟩ := delay_equiv N hN (d j)
    refine ⟨e, fun k => ?_⟩
    rw [hx, he]
    rfl
  have hxm : ∀ j k, x j k ∈ coded := by
    intro j k
    obtain ⟨e, he⟩ := hpos j
    rw [he]
    exact hturns _ _ (hmem _ (htau j j.2) _ (e k).2)
  have hxa : ∀ j, ∀ z ∈ coded, ∃ k, x j k = z := by
    intro j z hz
    obtain ⟨e, he⟩ := hpos j
    obtain ⟨m, hm, hmz⟩ := hall _ (htau j j.2) _ (hturns (3 * r j) z hz)
    refine ⟨e.symm ⟨m, hm⟩, ?_⟩
    rw [he, Equiv.apply_symm_apply]
    show s (tau j) m * I ^ r j = z
    rw [hmz, mul_assoc, ← pow_add, show 3 * r j + r j = 4 * r j by ring, pow_mul, Complex.I_pow_four, one_pow, mul_one]
  have hEn : ∀ j, ∑ k, ‖x j k‖ ^ 2 = N * P := by
    intro j
    obtain ⟨e, he⟩ := hpos j
    rw [← hpow _ (htau j j.2), ← Fin.sum_univ_eq_sum_range fun m => ‖s (tau j) m‖ ^ 2,
      ← e.sum_comp fun k : Fin N => ‖s (tau j) k‖ ^ 2]
    refine Finset.sum_congr rfl fun k _ => ?_
    rw [he, norm_mul, norm_pow, Complex.norm_I, one_pow, mul_one]
  have hPs : meanR (sent.flatten.map fun z => ‖z‖ ^ 2) = P := by
    unfold meanR
    have e1 : (sent.flatten.map fun z => ‖z‖ ^ 2).sum = Lr * (N * P) := by
      rw [List.map_flatten, List.sum_flatten, hsentx, List.map_ofFn, List.map_ofFn, List.sum_ofFn]
      simp only [Function.comp_apply, List.map_ofFn, List.sum_ofFn]
      simp only [hEn]
      rw [Finset.sum_const, Finset.card_univ, Fintype.card_fin, nsmul_eq_mul]
    have e2 : (sent.flatten.map fun z => ‖z‖ ^ 2).length = Lr * N := by
      rw [List.length_map, List.length_flatten, hsentx, List.map_ofFn, List.sum_ofFn]
      simp
    rw [e1, e2]
    push_cast
    field_simp
  obtain ⟨sg, hsg⟩ : ∃ sg, sg = Real.sqrt P * ((10 : ℝ) ^ (-snr / 20) * Real.sqrt (fs / fb)) := ⟨_, rfl⟩
  have hsg0 : 0 < sg := by rw [hsg]; positivity
  have hsg2 : sg ^ 2 = P / ρ := by
    rw [hsg, hρ, mul_pow, mul_pow, Real.sq_sqrt hP.le, Real.sq_sqrt (by positivity), ← Real.rpow_natCast ((10 : ℝ) ^ (-snr / 20)), ← Real.rpow_mul (by norm_num),
      show -snr / 20 * ((2 : ℕ) : ℝ) = -(snr / 10) by push_cast; ring, Real.rpow_neg (by norm_num)]
    have : (0 : ℝ) < 10 ^ (snr / 10) := by positivity
    field_simp
  obtain ⟨z, hz⟩ : ∃ z : Fin Lr → LinkSpace Lr N → Fin N → ℂ, z = fun j w k => ⟨sg / Real.sqrt 2 * ((w j).2 k).1, sg / Real.sqrt 2 * ((w j).2 k).2⟩ := ⟨_, rfl⟩
  have hsim : ∀ w : LinkSpace Lr N, simulateTransmission ⟨fs, fb, none⟩ (modeDraws w) { snr := some snr } sent = .ok (List.ofFn fun j => List.ofFn fun k => x j k + z j w k) := by
    intro w
    rw [hsentx, simulate_awgn, ← hsentx, hPs, ← hsg]
    congr 1
    apply List.ext_getElem
    · rw [hsentx]; simp
    · intro j h1 h2
      have hj : j < Lr := by simpa using h2
      simp only [List.getElem_mapIdx, List.getElem_ofFn, hsentx]
      apply List.ext_getElem
      · simp
      · intro k h3 h4
        have hk : k < N := by simpa using h4
        simp only [List.getElem_mapIdx, List.getElem_ofFn, hz]
        unfold modeNoise
        rw [dif_pos ⟨hj, hk⟩]
  -- the two kinds of failures
  obtain ⟨Bd, hBd⟩ : ∃ Bd : Fin Lr → Set (LinkSpace Lr N), Bd = fun j => {w | ¬ ((1 - δ) * sg ^ 2 ≤ (∑ k, ‖z j w k‖ ^ 2) / N ∧ (∑ k, ‖z j w k‖ ^ 2) / N ≤ (1 + δ) * sg ^ 2 ∧
      (∑ k, ‖(∑ l with x j l = x j k, z j w l) / ((Finset.univ.filter fun l => x j l = x j k).card : ℂ)‖ ^ 2) / N ≤ 2 * a * coded.length / N * sg ^ 2)} := ⟨_, rfl⟩
  have hBdle : (linkLaw Lr N).real (⋃ j, Bd j) ≤ Lr * (Real.exp (-(N * (δ - Real.log (1 + δ)))) + Real.exp (-(N * (-Real.log (1 - δ) - δ))) + coded.length * (4 * Real.exp (-a))) := by
    refine (measureReal_iUnion_fintype_le _).trans ((Finset.sum_le_card_nsmul _ _ (Real.exp (-(N * (δ - Real.log (1 + δ)))) + Real.exp (-(N * (-Real.log (1 - δ) - δ))) + coded.length * (4 * Real.exp (-a)))
      fun j _ => ?_).trans (le_of_eq ?_))
    · have hmp : MeasurePreserving (fun w : LinkSpace Lr N => (w j).2) (linkLaw Lr N) (noiseLaw N) :=
        measurePreserving_snd.comp (measurePreserving_eval (fun _ : Fin Lr => (drawLaw N).prod (noiseLaw N)) j)
      rw [hBd]
      exact noise_good (linkLaw Lr N) hN (fun w => (w j).2) hmp coded hnd (x j) (hxm j) (hxa j) sg δ a hsg0 hδ (by linarith) ha (z j) (by rw [hz])
    · rw [Finset.card_univ, Fintype.card_fin, nsmul_eq_mul]
  obtain ⟨A, hA⟩ : ∃ A : Set (LinkSpace Lr N), A = {w | ¬ ∃ rx : List (List ℂ), simulateTransmission ⟨fs, fb, none⟩ (modeDraws w) { snr := some snr } sent = .ok rx ∧
      calSerRows coded false tx rx = calSerRows coded true sent rx ∧ calBerRows 0 coded false tx rx = calBerRows 0 coded true sent rx ∧
      calEvmRows false tx rx = calEvmRows true sent rx ∧ estSnrRows coded false tx rx = estSnrRows coded true sent rx} := ⟨_, rfl⟩
  have hAle : (linkLaw Lr N).real A ≤ Lr * L * (2 * N - 1 : ℕ) * (4 * Real.exp (-(η ^ 2 * ρ / (2 * (N * P ^ 2))))) := by
    have hnz : ∀ i < L, ∃ m < N, s i m ≠ 0 := by
      intro i hi
      by_contra hcon
      push Not at hcon
      have h1 := hpow i hi
      rw [Finset.sum_eq_zero fun m hm => by rw [hcon m (Finset.mem_range.1 hm)]; simp] at h1
      have : 0 < N * P := by positivity
      linarith
    have h1 := C216_alignment s tau d r N L Lr hN c0 η (N * P) fs fb snr hc0 hη hfs hfb htau hinj hd hr (fun i hi => (hpow i hi).le) hnz hside hpeak 0 coded tx sent htx hsent
    rw [hA]
    refine h1.trans (le_of_eq ?_)
    rw [hPs, hρ]
    congr 4
    field_simp
  refine (measureReal_mono (s₂ := (⋃ j, Bd j) ∪ A) ?_ (measure_ne_top _ _)).trans ((measureReal_union_le _ _).trans (add_le_add hBdle hAle))
  intro w hbad
  by_contra hgood
  refine hbad ?_
  rw [Set.mem_union, not_or, Set.mem_iUnion, not_exists] at hgood
  obtain ⟨hg1, hg2⟩ := hgood
  rw [hA, Set.mem_ofPred_eq, not_not] at hg2
  obtain ⟨rx, h1, -, -, h2, h3⟩ := hg2
  have hrx : rx = List.ofFn fun j => List.ofFn fun k => x j k + z j w k := by
    rw [hsim w] at h1
    exact (Except.ok.inj h1).symm
  have halign : alignRows true sent rx = .ok (sent, rx) := by
    have h := adjustOnly_same (fun (j n : Nat) => (sent.getD j []).getD n 0) (fun (j n : Nat) => (rx.getD j []).getD n 0) Lr N
    have back : ∀ (y : List (List ℂ)), y.length = Lr → (∀ z ∈ y, z.length = N) → ((List.range Lr).map fun j => (List.range N).map fun n => (y.getD j []).getD n 0) = y := by
      intro y hy1 hy2
      apply List.ext_getElem
      · simp [hy1]
      · intro j g1 g2
        have := hy2 y[j] (List.getElem_mem g2)
        simp only [List.getElem_map, List.getElem_range]
        apply List.ext_getElem
        · simp [this]
        · intro n g3 g4
          simp [g2, g4]
    have e1 : sent.length = Lr ∧ ∀ z ∈ sent, z.length = N := by
      rw [hsentx]
      refine ⟨by simp, fun z hz => ?_⟩
      obtain ⟨j, rfl⟩ := (List.mem_ofFn' _ _).1 hz
      simp
    have e2 : rx.length = Lr ∧ ∀ z ∈ rx, z.length = N := by
      rw [hrx]
      refine ⟨by simp, fun z hz => ?_⟩
      obtain ⟨j, rfl⟩ := (List.mem_ofFn' _ _).1 hz
      simp
    rw [back sent e1.1 e1.2, back rx e2.1 e2.2] at h
    rw [alignRows, if_pos rfl, h]
  have hgood : ∀ j, ((1 - δ) * (P / ρ) ≤ evm (List.ofFn (x j)) (List.ofFn fun k => x j k + z j w k) ^ 2 ∧ evm (List.ofFn (x j)) (List.ofFn fun k => x j k + z j w k) ^ 2 ≤ (1 + δ) * (P / ρ)) ∧
      ∃ q, estimateSnr (List.ofFn fun k => x j k + z j w k) (List.ofFn (x j)) coded = some q ∧ (1 - Real.sqrt (κ / ρ)) ^ 2 / (1 + δ) * ρ ≤ q.1 ∧ q.1 ≤ (1 + Real.sqrt (κ / ρ)) ^ 2 / (1 - δ - κ) * ρ := by
    intro j
    have h := hg1 j
    rw [hBd, Set.mem_ofPred_eq, not_not, ← hκ] at h
    exact good_metrics hN coded hnd (x j) (z j w) (hxm j) (hxa j) sg δ κ ρ P hP hρ0 hsg2 hδ hκρ hδκ (hEn j) h
  choose q hq1 hq2 using fun j => (hgood j).2
  have hrowsE : calEvmRows true sent rx = .ok (List.ofFn fun j => evm (List.ofFn (x j)) (List.ofFn fun k => x j k + z j w k)) := by
    rw [calEvmRows, halign]
    show Except.ok ((List.zip sent rx).map fun p => evm p.1 p.2) = Except.ok _
    rw [hsentx, hrx, zip_ofFn, List.map_ofFn]
    rfl
  have hrowsS : estSnrRows coded true sent rx = .ok (List.ofFn fun j => q j) := by
    rw [estSnrRows, halign]
    show ((List.range rx.length).mapM fun i => match sent[i]?, rx[i]? with
      | some a, some b => (estimateSnr b a coded).elim (Except.error PyErr.index) Except.ok
      | _, _ => Except.error PyErr.index) = Except.ok _
    rw [mapM_ok (g := fun i => if h : i < Lr then q ⟨i, h⟩ else (0, 0, 0))]
    · congr 1
      apply List.ext_getElem
      · rw [hrx]; simp
      · intro i g1 g2
        have hi : i < Lr := by simpa using g2
        simp [hi]
    · intro i hi
      have hi' : i < Lr := by
        rw [List.mem_range, hrx, List.length_ofFn] at hi
        exact hi
      rw [dif_pos hi', hsentx, hrx]
      simp only [List.getElem?_ofFn, hi', dif_pos, hq1]
      rfl
  refine ⟨rx, _, _, h1, h2.trans hrowsE, h3.trans hrowsS, by simp, by simp, fun e he => ?_, fun v hv => ?_⟩
  · obtain ⟨j, rfl⟩ := (List.mem_ofFn' _ _).1 he
    exact (hgood j).1
  · obtain ⟨j, rfl⟩ := (List.mem_ofFn' _ _).1 hv
    exact hq2 j

/-- The four symbols of QPSK, delayed by one symbol and turned by a quarter turn. -/
example (snr : ℝ) (h0 : 0 ≤ snr) : ∃ s : Nat → ℂ, ∀ tx sent coded : List _, (coded = qamCodedSymbols (2 * 1) (Real.sqrt (scalingFactor (2 * 1) : ℝ))) →
    (tx = (List.range 1).map fun _ => (List.range 4).map s) → (sent = List.ofFn fun _ : Fin 1 => List.ofFn fun n : Fin 4 => delayed 4 s 1 n * I ^ 1) →
    (linkLaw 1 4).real {w | ¬ ∃ (rx : List (List ℂ)) (evms : List ℝ) (snrs : List (ℝ × ℝ × ℝ)), simulateTransmission ⟨1, 1, none⟩ (modeDraws w) { snr := some snr } sent = .ok rx ∧
      calEvmRows false tx rx = .ok evms ∧ estSnrRows coded false tx rx = .ok snrs ∧ evms.length = 1 ∧ snrs.length = 1 ∧
      (∀ e ∈ evms, (1 - 1 / 2) * (1 / (10 : ℝ) ^ (snr / 10)) ≤ e ^ 2 ∧ e ^ 2 ≤ (1 + 1 / 2) * (1 / (10 : ℝ) ^ (snr / 10))) ∧
      ∀ q ∈ snrs, (1 - Real.sqrt (1 / 4 / (10 : ℝ) ^ (snr / 10))) ^ 2 / (1 + 1 / 2) * (10 : ℝ) ^ (snr / 10) ≤ q.1 ∧
        q.1 ≤ (1 + Real.sqrt (1 / 4 / (10 : ℝ) ^ (snr / 10))) ^ 2 / (1 - 1 / 2 - 1 / 4) * (10 : ℝ) ^ (snr / 10)} ≤
    ((1 : ℕ) : ℝ) * (Real.exp (-(((4 : ℕ) : ℝ) * (1 / 2 - Real.log (1 + 1 / 2)))) + Real.exp (-(((4 : ℕ) : ℝ) * (-Real.log (1 - 1 / 2) - 1 / 2))) + coded.length * (4 * Real.exp (-(1 / 8)))) +
      ((1 : ℕ) : ℝ) * ((1 : ℕ) : ℝ) * ((2 * 4 - 1 : ℕ) : ℝ) * (4 * Real.exp (-((1 / 4) ^ 2 * (10 : ℝ) ^ (snr / 10) / (2 * (((4 : ℕ) : ℝ) * 1 ^ 2))))) := by
  obtain ⟨s, hbal, hside, hpeak⟩ := qpsk_sequence
  refine ⟨s, fun tx sent coded hcoded htx hsent => ?_⟩
  rw [← hcoded] at hbal
  have hlen : coded.length = 4 := by rw [hcoded, length_qamCoded]; norm_num
  have h10 : (1 : ℝ) ≤ 10 ^ (snr / 10) := Real.one_le_rpow (by norm_num) (by positivity)
  refine C219_accuracy (fun _ => s) (fun j => j) (fun _ => 1) (fun _ => 1) 4 1 1 (by norm_num) (by norm_num) 2 (1 / 4) (1 / 2) (1 / 8) (1 / 4) ((10 : ℝ) ^ (snr / 10)) 1 1 1 snr (by norm_num) (by norm_num)
    (by norm_num) (by norm_num) one_pos one_pos one_pos coded ?_ ?_ ?_ ?_ ?_ (fun j hj => hj) (fun j k hj hk h => h) (fun _ _ => by norm_num) (fun _ _ => by norm_num)
    (fun j hj i hi k h1 h2 h3 => hside k h1 h2 (by
      rcases h3 with h3 | h3
      · omega
      · exact h3)) (fun _ _ => hpeak) (by ring) (by rw [hlen]; norm_num) (by linarith) (by norm_num) tx sent htx (by rw [hsent])
  · rw [hcoded]
    refine nodup_qamCoded _ ?_
    rw [scaling_even]
    exact (Real.sqrt_pos.2 (by norm_num)).ne'
  · rw [hcoded]
    exact coded_turn 1 le_rfl _
  · intro i _ m hm
    exact hbal.1 ⟨m, hm⟩
  · intro i _ z hz
    have h := hbal.2 z hz
    have hc : 0 < (Finset.univ.filter fun k : Fin 4 => s k = z).card := by
      rw [hlen] at h
      rcases Nat.eq_zero_or_pos (Finset.univ.filter fun k : Fin 4 => s k = z).card with h0 | h0
      · rw [h0] at h
        simp at h
      · exact h0
    obtain ⟨k, hk⟩ := Finset.card_pos.1 hc
    exact ⟨k, k.2, (Finset.mem_filter.1 hk).2⟩
  · intro i _
    have h := balanced_energy (Nb := 1) le_rfl (fun k : Fin 4 => s k) (by rw [← hcoded]; exact hbal)
    rw [mul_one, ← h, Fin.sum_univ_eq_sum_range fun m => ‖s m‖ ^ 2]

end Qampy
