import Verif.Props.RandomData

/-!
# C237: bit error rates measured on random data

C235 for the bit error rate: the bounds of C118 and C211 hold for signals made of random bits, up to a deviation that is exponentially unlikely in the number of symbols.
-/

namespace Qampy

open MeasureTheory ProbabilityTheory

/-! ### The formula -/

theorem qam_arg {N : Nat} (hN : 1 ≤ N) {c : ℝ} (hc : c = Real.sqrt (scalingFactor (2 * N) : ℝ)) (snr : ℝ) :
    Real.sqrt 2 / (c * (10 : ℝ) ^ (-snr / 20)) = Real.sqrt (3 * dB2lin snr / (4 ^ N - 1)) := by
  obtain ⟨sg, hsgdef⟩ : ∃ sg : ℝ, sg = (10 : ℝ) ^ (-snr / 20) := ⟨_, rfl⟩
  have hsg : 0 < sg := by rw [hsgdef]; positivity
  have hM : (4 : ℝ) ≤ 4 ^ N := by
    calc (4 : ℝ) = 4 ^ 1 := (pow_one _).symm
      _ ≤ 4 ^ N := pow_le_pow_right₀ (by norm_num) hN
  have hscale : (0 : ℝ) < 2 / 3 * (4 ^ N - 1) := by linarith
  have hc0 : 0 < c := by rw [hc, scaling_even]; exact Real.sqrt_pos.2 hscale
  have hc2 : c ^ 2 = 2 / 3 * (4 ^ N - 1) := by rw [hc, scaling_even, Real.sq_sqrt hscale.le]
  rw [← hsgdef]
  symm
  have h3 : (0 : ℝ) < 4 ^ N - 1 := by linarith
  rw [Real.sqrt_eq_iff_mul_self_eq (by
    have : 0 < dB2lin snr := by unfold dB2lin; positivity
    positivity) (by positivity)]
  have hsg2 : sg * sg * dB2lin snr = 1 := by
    rw [hsgdef]
    unfold dB2lin
    rw [← Real.rpow_add (by norm_num), ← Real.rpow_add (by norm_num)]
    rw [show -snr / 20 + -snr / 20 + snr / 10 = 0 from by ring, Real.rpow_zero]
  have h4 : (4 : ℝ) ^ N - 1 = 3 / 2 * c ^ 2 := by rw [hc2]; ring
  have hs2 : Real.sqrt 2 * Real.sqrt 2 = 2 := Real.mul_self_sqrt (by norm_num)
  rw [h4, div_mul_div_comm, hs2, div_eq_div_iff (by positivity) (by positivity)]
  calc 3 * dB2lin snr * (c * sg * (c * sg)) = 3 * c ^ 2 * (sg * sg * dB2lin snr) := by ring
    _ = 2 * (3 / 2 * c ^ 2) := by rw [hsg2]; ring

theorem berQam_form {N : Nat} (hN : 1 ≤ N) (snr : ℝ) :
    berQam (dB2lin snr) (4 ^ N) = 4 * (1 - 1 / 2 ^ N) * qFunction (Real.sqrt (3 * dB2lin snr / (4 ^ N - 1))) / (2 * N) := by
  have hNR : (1 : ℝ) ≤ N := by exact_mod_cast hN
  have h2N : (4 : ℝ) ^ N = 2 ^ N * 2 ^ N := by rw [← mul_pow]; norm_num
  have hsqrtM : Real.sqrt (4 ^ N) = 2 ^ N := by
    rw [show (4 : ℝ) ^ N = (2 ^ N) ^ 2 from by rw [← pow_mul, mul_comm, pow_mul]; norm_num, Real.sqrt_sq (by positivity)]
  have hlog1 : Real.logb 2 (2 ^ N) = N := by rw [Real.logb_pow, Real.logb_self_eq_one (by norm_num), mul_one]
  have hlog2 : Real.logb 2 (4 ^ N) = 2 * N := by
    rw [Real.logb_pow, show (4 : ℝ) = 2 ^ 2 by norm_num, Real.logb_pow, Real.logb_self_eq_one (by norm_num)]
    push_cast
    ring
  have hN0 : (N : ℝ) ≠ 0 := by linarith
  unfold berQam
  rw [hsqrtM, hlog1, hlog2]
  have e : 3 * (N : ℝ) / (((2 : ℝ) ^ N) ^ 2 - 1) * (2 * dB2lin snr / (2 * N)) = 3 * dB2lin snr / (4 ^ N - 1) := by
    rw [show ((2 : ℝ) ^ N) ^ 2 = 4 ^ N from by rw [h2N]; ring]
    field_simp
  rw [e]
  field_simp
  ring

/-! ### The error rate for given data -/

theorem nbrs2_bounds (N i : Nat) : 0 ≤ nbrs2 N i ∧ nbrs2 N i ≤ 2 := by
  unfold nbrs2
  split_ifs <;> norm_num

/-- The average bit error rate over the noise, for any data. -/
theorem ber_data {N n : Nat} (hN : 1 ≤ N) {c : ℝ} (hc : 0 < c) (a b : Fin n → Nat) (ha : ∀ k, a k < 2 ^ N) (hb : ∀ k, b k < 2 ^ N) (snr fb P : ℝ) (hfb : 0 < fb) (hP0 : 0 < P)
    (tx : Fin n → ℂ) (htx : ∀ k, tx k = gridPt N c (a k) (b k)) (hP : (∑ k, ‖tx k‖ ^ 2) / n = P) :
    let x := Real.sqrt 2 / (c * (10 : ℝ) ^ (-snr / 20)) / Real.sqrt P
    let avg := ∫ w, (((calBer (2 * N) (qamCodedSymbols (2 * N) c) ((changeSnr [List.ofFn tx] snr fb fb [List.ofFn fun k => (w k).1] [List.ofFn fun k => (w k).2]).getD 0 []) (List.ofFn tx)).getD 0 : ℚ) : ℝ) ∂noiseLaw n
    (∑ k, (nbrs N (a k) + nbrs N (b k))) / n * qFunction x / (2 * N) ≤ avg ∧
      avg ≤ ((∑ k, (nbrs N (a k) + nbrs N (b k))) / n * qFunction x + (N - 1) * ((∑ k, (nbrs2 N (a k) + nbrs2 N (b k))) / n * qFunction (3 * x))) / (2 * N) := by
  intro x avg
  obtain ⟨sg, hsg⟩ : ∃ sg : ℝ, sg = Real.sqrt P * (10 : ℝ) ^ (-snr / 20) := ⟨_, rfl⟩
  have hs : 0 < Real.sqrt P := Real.sqrt_pos.2 hP0
  have hsg0 : 0 < sg := by rw [hsg]; positivity
  have hp : meanR ([List.ofFn tx].flatten.map fun z => ‖z‖ ^ 2) = P := by
    unfold meanR
    rw [List.flatten_singleton, List.map_ofFn, List.sum_ofFn, List.length_ofFn, ← hP]
    rfl
  have hrx : ∀ w : Fin n → ℝ × ℝ, (changeSnr [List.ofFn tx] snr fb fb [List.ofFn fun k => (w k).1] [List.ofFn fun k => (w k).2]).getD 0 [] =
      addAwgn (List.ofFn tx) sg (List.ofFn fun k => (w k).1) (List.ofFn fun k => (w k).2) := by
    intro w
    unfold changeSnr
    dsimp only
    rw [hp, div_self hfb.ne', Real.sqrt_one, mul_one, ← hsg]
    rfl
  have hNR : (1 : ℝ) ≤ N := by exact_mod_cast hN
  have ht : 0 < sg / Real.sqrt 2 := by positivity
  have hx' : 1 / (c * (sg / Real.sqrt 2)) = x := by
    simp only [x]
    rw [hsg]
    field_simp
  obtain ⟨E, hE⟩ : ∃ E : Fin n → ℝ × ℝ → ℝ, ∀ k z, E k z = (rowErr (2 * N) (gridLabel N (a k) (b k)) (decIdx (qamCodedSymbols (2 * N) c) (gridPt N c (a k) (b k) + ⟨sg / Real.sqrt 2 * z.1, sg / Real.sqrt 2 * z.2⟩)) : ℝ) :=
    ⟨fun k z => _, fun k z => rfl⟩
  have hEk : ∀ k, Integrable (E k) stdN2 ∧ (nbrs N (a k) + nbrs N (b k)) * qFunction x ≤ ∫ z, E k z ∂stdN2 ∧
      ∫ z, E k z ∂stdN2 ≤ (nbrs N (a k) + nbrs N (b k)) * qFunction x + (N - 1) * ((nbrs2 N (a k) + nbrs2 N (b k)) * qFunction (3 * x)) := by
    intro k
    have h := expected_symbol_bits hN hc ht (ha k) (hb k)
    rw [hx'] at h
    rw [show E k = _ from funext (hE k)]
    exact h
  obtain rfl : tx = fun k => gridPt N c (a k) (b k) := funext htx
  have havg : avg = (∑ k, ∫ z, E k z ∂stdN2) / n / (2 * N) := by
    have h0 : ∀ w : Fin n → ℝ × ℝ, (((calBer (2 * N) (qamCodedSymbols (2 * N) c) ((changeSnr [List.ofFn fun k => gridPt N c (a k) (b k)] snr fb fb [List.ofFn fun k => (w k).1] [List.ofFn fun k => (w k).2]).getD 0 [])
        (List.ofFn fun k => gridPt N c (a k) (b k))).getD 0 : ℚ) : ℝ) = (∑ k, E k (w k)) / (n * (2 * N)) := by
      intro w
      rw [hrx, calBer_noise hc a b ha hb w, Option.getD_some]
      push_cast
      simp_rw [hE]
    show ∫ w, (((calBer (2 * N) (qamCodedSymbols (2 * N) c) _ _).getD 0 : ℚ) : ℝ) ∂noiseLaw n = _
    rw [integral_congr_ae (Filter.Eventually.of_forall h0), integral_div]
    have hint : ∀ k : Fin n, Integrable (fun w : Fin n → ℝ × ℝ => E k (w k)) (noiseLaw n) :=
      fun k => (measurePreserving_eval (fun _ : Fin n => stdN2) k).integrable_comp_of_integrable (hEk k).1
    rw [integral_finsetSum _ (fun k _ => hint k), div_div]
    congr 1
    apply Finset.sum_congr rfl
    intro k _
    exact integral_comp_eval (μ := fun _ : Fin n => stdN2) (i := k) (f := E k) (hEk k).1.aestronglyMeasurable
  rw [havg]
  constructor
  · have h1 : (∑ k, (nbrs N (a k) + nbrs N (b k)) * qFunction x) ≤ ∑ k, ∫ z, E k z ∂stdN2 := Finset.sum_le_sum fun k _ => (hEk k).2.1
    rw [← Finset.sum_mul] at h1
    calc _ = (∑ k, (nbrs N (a k) + nbrs N (b k))) * qFunction x / n / (2 * N) := by ring
      _ ≤ _ := by gcongr
  · have h1 : (∑ k, ∫ z, E k z ∂stdN2) ≤ ∑ k, ((nbrs N (a k) + nbrs N (b k)) * qFunction x + (N - 1) * ((nbrs2 N (a k) + nbrs2 N (b k)) * qFunction (3 * x))) :=
      Finset.sum_le_sum fun k _ => (hEk k).2.2
    rw [Finset.sum_add_distrib, ← Finset.sum_mul, ← Finset.mul_sum, ← Finset.sum_mul] at h1
    calc _ ≤ ((∑ k, (nbrs N (a k) + nbrs N (b k))) * qFunction x + (N - 1) * ((∑ k, (nbrs2 N (a k) + nbrs2 N (b k))) * qFunction (3 * x))) / n / (2 * N) := by gcongr
      _ = _ := by ring

/-- A bound that holds up to errors in a frequency and in a probability. -/
theorem prod_close {S T q Q d δ : ℝ} (hS : 0 ≤ S ∧ S ≤ 4) (hQ : 0 ≤ Q ∧ Q ≤ 1 / 2) (h1 : |q - Q| ≤ d / 2) (h2 : |S - T| ≤ δ) : |S * q - T * Q| ≤ 2 * d + δ / 2 := by
  have e : S * q - T * Q = S * (q - Q) + (S - T) * Q := by ring
  rw [e]
  refine (abs_add_le _ _).trans ?_
  rw [abs_mul, abs_mul, abs_of_nonneg hS.1, abs_of_nonneg hQ.1]
  have a1 := mul_le_mul hS.2 h1 (abs_nonneg _) (by norm_num : (0 : ℝ) ≤ 4)
  have a2 := mul_le_mul h2 hQ.2 hQ.1 ((abs_nonneg _).trans h2)
  linarith

/-- What errors beyond the neighbouring point add to the bit error rate at most, C118. -/
noncomputable def berFar (N : Nat) (snr : ℝ) : ℝ := 2 * (1 - 1 / N) * (1 - 2 / 2 ^ N) * qFunction (3 * Real.sqrt (3 * dB2lin snr / (4 ^ N - 1)))

theorem ber_given {N K : Nat} (hN : 1 ≤ N) (hK : 0 < K) {c : ℝ} (hc : c = Real.sqrt (scalingFactor (2 * N) : ℝ)) (snr fb ε : ℝ) (hfb : 0 < fb) (hε : 0 < ε) (hε3 : ε ≤ 3)
    (a b : Fin K → Nat) (ha : ∀ k, a k < 2 ^ N) (hb : ∀ k, b k < 2 ^ N) (tx : Fin K → ℂ) (htx : ∀ k, tx k = gridPt N c (a k) (b k))
    (hpow : |(∑ k, ‖tx k‖ ^ 2) / K - 1| ≤ ε / 6)
    (hf1 : |(∑ k, (nbrs N (a k) + nbrs N (b k))) / K - 4 * (1 - 1 / 2 ^ N)| ≤ 2 * ε) (hf2 : |(∑ k, (nbrs2 N (a k) + nbrs2 N (b k))) / K - 4 * (1 - 2 / 2 ^ N)| ≤ 2 * ε) :
    (noiseLaw K).real {w | (((calBer (2 * N) (qamCodedSymbols (2 * N) c) ((changeSnr [List.ofFn tx] snr fb fb [List.ofFn fun k => (w k).1] [List.ofFn fun k => (w k).2]).getD 0 [])
      (List.ofFn tx)).getD 0 : ℚ) : ℝ) ∉ Set.Ioo (berQam (dB2lin snr) (4 ^ N) - ε) (berQam (dB2lin snr) (4 ^ N) + berFar N snr + ε)} ≤ 2 * Real.exp (-(2 * K * (ε / 3) ^ 2)) := by
  have hc0 : 0 < c := by rw [hc]; exact Real.sqrt_pos.2 (by exact_mod_cast scalingFactor_pos (by omega))
  have hK' : (0 : ℝ) < K := by exact_mod_cast hK
  have hNR : (1 : ℝ) ≤ N := by exact_mod_cast hN
  obtain ⟨P, hP⟩ : ∃ P, P = (∑ k, ‖tx k‖ ^ 2) / K := ⟨_, rfl⟩
  obtain ⟨x, hx⟩ : ∃ x, x = Real.sqrt (3 * dB2lin snr / (4 ^ N - 1)) := ⟨_, rfl⟩
  have hx1 : Real.sqrt 2 / (c * (10 : ℝ) ^ (-snr / 20)) = x := by rw [hx]; exact qam_arg hN hc snr
  have hx0 : 0 < x := by rw [← hx1]; positivity
  rw [← hP] at hpow
  have hP0 : 0 < P := by linarith [(abs_le.1 hpow).1]
  obtain ⟨m1, m2⟩ := ber_data hN hc0 a b ha hb snr fb P hfb hP0 tx htx hP.symm
  rw [hx1] at m1 m2
  have mean4 : ∀ f : Nat → ℝ, (∀ i, 0 ≤ f i ∧ f i ≤ 2) → 0 ≤ (∑ k, (f (a k) + f (b k))) / K ∧ (∑ k, (f (a k) + f (b k))) / K ≤ 4 := by
    intro f hf
    refine ⟨div_nonneg (Finset.sum_nonneg fun k _ => add_nonneg (hf _).1 (hf _).1) hK'.le, ?_⟩
    rw [div_le_iff₀ hK']
    refine (Finset.sum_le_sum fun k _ => (add_le_add (hf (a k)).2 (hf (b k)).2)).trans ?_
    rw [Finset.sum_const, Finset.card_univ, Fintype.card_fin, nsmul_eq_mul]
    linarith
  have c1 := prod_close (mean4 _ (nbrs_bounds N)) ⟨(qFunction_pos _).le, qFunction_half hx0.le⟩ (qFunction_power hx0 (by linarith) (by linarith : ε / 6 ≤ 1 / 2) hpow) hf1
  have c2 := prod_close (mean4 _ (nbrs2_bounds N)) ⟨(qFunction_pos _).le, qFunction_half (by linarith : 0 ≤ 3 * x)⟩
    (qFunction_power (by linarith : 0 < 3 * x) (by linarith) (by linarith : ε / 6 ≤ 1 / 2) hpow) hf2
  rw [mul_div_assoc] at c2
  obtain ⟨A, hA⟩ : ∃ A, A = (∑ k, (nbrs N (a k) + nbrs N (b k))) / K * qFunction (x / Real.sqrt P) := ⟨_, rfl⟩
  obtain ⟨B, hB⟩ : ∃ B, B = (∑ k, (nbrs2 N (a k) + nbrs2 N (b k))) / K * qFunction (3 * (x / Real.sqrt P)) := ⟨_, rfl⟩
  obtain ⟨C, hC⟩ : ∃ C, C = 4 * (1 - 1 / 2 ^ N) * qFunction x := ⟨_, rfl⟩
  obtain ⟨D, hD⟩ : ∃ D, D = 4 * (1 - 2 / 2 ^ N) * qFunction (3 * x) := ⟨_, rfl⟩
  rw [← hA, ← hC] at c1
  rw [← hB, ← hD] at c2
  rw [← hA] at m1 m2
  rw [← hB] at m2
  obtain ⟨d1, d2⟩ := abs_le.1 c1
  obtain ⟨d3, d4⟩ := abs_le.1 c2
  have f1 : berQam (dB2lin snr) (4 ^ N) = C / (2 * N) := by rw [berQam_form hN, ← hx, hC]
  have f2 : berFar N snr = (N - 1) * D / (2 * N) := by
    unfold berFar
    rw [← hx, hD]
    field_simp
    ring
  have g1 : berQam (dB2lin snr) (4 ^ N) - 2 * ε / 3 ≤ A / (2 * N) := by
    rw [f1, sub_le_iff_le_add, div_le_iff₀ (by linarith), add_mul, div_mul_cancel₀ _ (by linarith)]
    nlinarith
  have g2 : (A + (N - 1) * B) / (2 * N) ≤ berQam (dB2lin snr) (4 ^ N) + berFar N snr + 2 * ε / 3 := by
    rw [f1, f2, ← add_div, div_le_iff₀ (by linarith), add_mul, div_mul_cancel₀ _ (by linarith)]
    nlinarith
  obtain ⟨h1, h2⟩ := C211_ber hK (show 0 < 2 * N by omega) _ (length_qamCoded (2 * N) c) tx snr fb fb (ε / 3) (by linarith)
  refine (measureReal_mono ?_ (measure_ne_top _ _)).trans ((measureReal_union_le _ _).trans ((add_le_add h1 h2).trans (le_of_eq (by ring))))
  intro w hw
  simp only [Set.mem_ofPred_eq, Set.mem_union, Set.mem_Ioo, not_and_or, not_lt] at hw ⊢
  rcases hw with h | h
  · left; linarith
  · right; linarith

/-! ### Random data -/

/-- A bound on a probability over the noise that holds outside an unlikely set of symbol sequences gives a bound over bits and noise. -/
theorem random_symbols {k K : Nat} (hk : 1 ≤ k) {coded : List ℂ} (hlen : coded.length = 2 ^ k) (hnd : coded.Nodup) [hne : Nonempty (Fin coded.length)] {β : Type} [MeasurableSpace β] (ν : Measure β)
    [IsProbabilityMeasure ν] (A : Set (Fin K → Fin coded.length)) (S : Set ((Fin (K * k) → Bool) × β)) {δ η : ℝ} (hη : 0 ≤ η) (hA : (Measure.pi fun _ : Fin K => fairLaw (Fin coded.length)).real A ≤ δ)
    (h : ∀ (bits : Fin (K * k) → Bool) (s : Fin K → Fin coded.length), s ∉ A → modulate k coded (List.ofFn bits) = (List.ofFn fun m => coded.get (s m)) → ν.real {w | (bits, w) ∈ S} ≤ η) :
    ((bitLaw (K * k)).prod ν).real S ≤ δ + η := by
  obtain ⟨s, hs, hmp⟩ := C226_symbols (N := K) hk hlen hnd hne
  have hpre : (bitLaw (K * k)).real (s ⁻¹' A) = (Measure.pi fun _ : Fin K => fairLaw (Fin coded.length)).real A := by
    rw [← hmp.map_eq, map_measureReal_apply hmp.measurable (Set.toFinite A).measurableSet]
  have hb := prod_bound (bitLaw (K * k)) ν (s ⁻¹' A) S hη (fun bits hbits => h bits (s bits) hbits (hs bits))
  rw [hpre] at hb
  linarith

/-- The mean of a function of the two coordinates over the points of the constellation. -/
theorem grid_mean {N : Nat} (hN : 1 ≤ N) {c : ℝ} (hc : c = Real.sqrt (scalingFactor (2 * N) : ℝ)) (f : Nat → ℝ) (a b : Fin (qamCodedSymbols (2 * N) c).length → Nat)
    (hab : ∀ i, (qamCodedSymbols (2 * N) c).get i = gridPt N c (a i) (b i)) :
    (∑ i, (f (a i) + f (b i))) / (qamCodedSymbols (2 * N) c).length = 2 * (∑ i ∈ Finset.range (2 ^ N), f i) / 2 ^ N := by
  have hc0 : 0 < c := by rw [hc]; exact Real.sqrt_pos.2 (by exact_mod_cast scalingFactor_pos (by omega))
  obtain ⟨G, hG⟩ : ∃ G : ℂ → ℝ, ∀ i j, G (gridPt N c i j) = f i + f j := by
    classical
    refine ⟨fun s => if h : ∃ p : Nat × Nat, s = gridPt N c p.1 p.2 then f h.choose.1 + f h.choose.2 else 0, ?_⟩
    intro i j
    have hex : ∃ p : Nat × Nat, gridPt N c i j = gridPt N c p.1 p.2 := ⟨(i, j), rfl⟩
    dsimp only
    rw [dif_pos hex]
    obtain ⟨e1, e2⟩ := gridPt_inj hc0 hex.choose_spec
    rw [← e1, ← e2]
  have h1 : ∑ i, (f (a i) + f (b i)) = ((qamCodedSymbols (2 * N) c).map G).sum := by
    rw [sum_get]
    refine Finset.sum_congr rfl fun i _ => ?_
    rw [hab, hG]
  have h2 : ∀ L : Nat, ∑ i ∈ Finset.range L, ∑ j ∈ Finset.range L, (f i + f j) = 2 * L * ∑ i ∈ Finset.range L, f i := by
    intro L
    simp_rw [Finset.sum_add_distrib]
    simp only [Finset.sum_const, Finset.card_range, nsmul_eq_mul, ← Finset.mul_sum]
    ring
  rw [h1, coded_sum_grid]
  simp_rw [hG]
  rw [h2, length_qamCoded]
  push_cast
  rw [two_mul N, pow_add]
  field_simp

/-- Frequencies and power of random data. -/
theorem random_bits_data {N K : Nat} (hN : 1 ≤ N) (hK : 0 < K) {c : ℝ} (hc : c = Real.sqrt (scalingFactor (2 * N) : ℝ)) [Nonempty (Fin (qamCodedSymbols (2 * N) c).length)] (ε : ℝ) (hε : 0 < ε)
    (a b : Fin (qamCodedSymbols (2 * N) c).length → Nat) (hab : ∀ i, (qamCodedSymbols (2 * N) c).get i = gridPt N c (a i) (b i)) :
    (Measure.pi fun _ : Fin K => fairLaw (Fin (qamCodedSymbols (2 * N) c).length)).real
      ({s | ε / 6 ≤ |(∑ k, ‖(qamCodedSymbols (2 * N) c).get (s k)‖ ^ 2) / K - 1|} ∪
        ({s | 2 * ε ≤ |(∑ k, (nbrs N (a (s k)) + nbrs N (b (s k)))) / K - 4 * (1 - 1 / 2 ^ N)|} ∪
          {s | 2 * ε ≤ |(∑ k, (nbrs2 N (a (s k)) + nbrs2 N (b (s k)))) / K - 4 * (1 - 2 / 2 ^ N)|})) ≤ 6 * Real.exp (-(K * ε ^ 2 / 162)) := by
  have hK' : (0 : ℝ) ≤ K := Nat.cast_nonneg K
  have key : ∀ (g : Fin (qamCodedSymbols (2 * N) c).length → ℝ) (B T d : ℝ), 0 < B → (∀ i, 0 ≤ g i ∧ g i ≤ B) → (∑ i, g i) / (qamCodedSymbols (2 * N) c).length = T → B * (ε / 18) ≤ d →
      (Measure.pi fun _ : Fin K => fairLaw (Fin (qamCodedSymbols (2 * N) c).length)).real {s | d ≤ |(∑ k, g (s k)) / K - T|} ≤ 2 * Real.exp (-(K * ε ^ 2 / 162)) := by
    intro g B T d hB hg hT hd
    have h := hoeffding_any_abs (fairLaw (Fin (qamCodedSymbols (2 * N) c).length)) hK (fun i => g i / B) (measurable_of_finite _)
      (fun i => ⟨div_nonneg (hg i).1 hB.le, by rw [div_le_one hB]; exact (hg i).2⟩) (ε / 18) (by linarith)
    rw [integral_div, integral_fairLaw, hT, show 2 * (K : ℝ) * (ε / 18) ^ 2 = K * ε ^ 2 / 162 by ring] at h
    refine (measureReal_mono ?_ (measure_ne_top _ _)).trans h
    intro s hs
    simp only [Set.mem_ofPred_eq] at hs ⊢
    rw [← Finset.sum_div, div_right_comm, ← sub_div, abs_div, abs_of_pos hB, le_div_iff₀ hB, mul_comm]
    exact hd.trans hs
  have h2p : (0 : ℝ) < 2 ^ N := by positivity
  have k1 := key (fun i => ‖(qamCodedSymbols (2 * N) c).get i‖ ^ 2) 3 1 (ε / 6) (by norm_num) (fun i => ⟨by positivity, qam_peak hN hc (List.get_mem _ _)⟩) (by
    have := (C226_alphabets (2 * N) (by omega)).1.2.2
    rw [← hc] at this
    rw [← sum_get (qamCodedSymbols (2 * N) c) fun z => ‖z‖ ^ 2]
    exact this) (by linarith)
  have k2 := key (fun i => nbrs N (a i) + nbrs N (b i)) 4 (4 * (1 - 1 / 2 ^ N)) (2 * ε) (by norm_num)
    (fun i => ⟨add_nonneg (nbrs_bounds _ _).1 (nbrs_bounds _ _).1, by linarith [(nbrs_bounds N (a i)).2, (nbrs_bounds N (b i)).2]⟩) (by
      rw [grid_mean hN hc _ a b hab, sum_nbrs]
      field_simp
      ring) (by linarith)
  have k3 := key (fun i => nbrs2 N (a i) + nbrs2 N (b i)) 4 (4 * (1 - 2 / 2 ^ N)) (2 * ε) (by norm_num)
    (fun i => ⟨add_nonneg (nbrs2_bounds _ _).1 (nbrs2_bounds _ _).1, by linarith [(nbrs2_bounds N (a i)).2, (nbrs2_bounds N (b i)).2]⟩) (by
      rw [grid_mean hN hc _ a b hab, sum_nbrs2 N hN]
      field_simp
      ring) (by linarith)
  refine (measureReal_union_le _ _).trans ?_
  refine (add_le_add k1 ((measureReal_union_le _ _).trans (add_le_add k2 k3))).trans (le_of_eq ?_)
  ring

/-- The same for bits: what holds for data with nearly the right power and frequencies. -/
theorem random_bits_core {N K : Nat} (hN : 1 ≤ N) (hK : 0 < K) {c : ℝ} (hc : c = Real.sqrt (scalingFactor (2 * N) : ℝ)) (ε : ℝ) (hε : 0 < ε) {β : Type} [MeasurableSpace β] (ν : Measure β) [IsProbabilityMeasure ν]
    (S : Set ((Fin (K * (2 * N)) → Bool) × β))
    (h : ∀ (bits : Fin (K * (2 * N)) → Bool) (a b : Fin K → Nat) (tx : Fin K → ℂ), modulate (2 * N) (qamCodedSymbols (2 * N) c) (List.ofFn bits) = List.ofFn tx → (∀ k, a k < 2 ^ N) → (∀ k, b k < 2 ^ N) →
      (∀ k, tx k = gridPt N c (a k) (b k)) → |(∑ k, ‖tx k‖ ^ 2) / K - 1| ≤ ε / 6 →
      |(∑ k, (nbrs N (a k) + nbrs N (b k))) / K - 4 * (1 - 1 / 2 ^ N)| ≤ 2 * ε → |(∑ k, (nbrs2 N (a k) + nbrs2 N (b k))) / K - 4 * (1 - 2 / 2 ^ N)| ≤ 2 * ε →
      ν.real {w | (bits, w) ∈ S} ≤ 2 * Real.exp (-(2 * K * (ε / 3) ^ 2))) :
    ((bitLaw (K * (2 * N))).prod ν).real S ≤ 8 * Real.exp (-(K * ε ^ 2 / 162)) := by
  have hc0 : 0 < c := by rw [hc]; exact Real.sqrt_pos.2 (by exact_mod_cast scalingFactor_pos (by omega))
  have hlen : (qamCodedSymbols (2 * N) c).length = 2 ^ (2 * N) := length_qamCoded _ _
  have hne : Nonempty (Fin (qamCodedSymbols (2 * N) c).length) := ⟨⟨0, by rw [hlen]; positivity⟩⟩
  have hgrid : ∀ i : Fin (qamCodedSymbols (2 * N) c).length, ∃ p : Nat × Nat, p.1 < 2 ^ N ∧ p.2 < 2 ^ N ∧ (qamCodedSymbols (2 * N) c).get i = gridPt N c p.1 p.2 := by
    intro i
    obtain ⟨u, hu, v, hv, e⟩ := (mem_coded_iff N c _).1 (List.get_mem (qamCodedSymbols (2 * N) c) i)
    exact ⟨(u, v), hu, hv, e⟩
  choose g hg1 hg2 hg3 using hgrid
  have hA := random_bits_data hN hK hc ε hε (fun i => (g i).1) (fun i => (g i).2) hg3
  have hb := random_symbols (by omega : 1 ≤ 2 * N) hlen (nodup_qamCoded _ hc0.ne') ν _ S (by positivity : 0 ≤ 2 * Real.exp (-(2 * K * (ε / 3) ^ 2))) hA (fun bits s hs hm => by
    simp only [Set.mem_union, Set.mem_ofPred_eq, not_or, not_le] at hs
    exact h bits (fun k => (g (s k)).1) (fun k => (g (s k)).2) _ hm (fun k => hg1 _) (fun k => hg2 _) (fun k => hg3 _) hs.1.le hs.2.1.le hs.2.2.le)
  have e1 : Real.exp (-(2 * K * (ε / 3) ^ 2)) ≤ Real.exp (-(K * ε ^ 2 / 162)) := by
    rw [Real.exp_le_exp, neg_le_neg_iff]
    nlinarith [mul_nonneg (Nat.cast_nonneg (α := ℝ) K) (sq_nonneg ε)]
  linarith

/-- **C237** Random data: `K` Gray coded square QAM symbols of any order are made of independent fair bits, noise is added with `change_snr`, and the bit error rate is measured. With
probability at least `1 - 8 exp (-K ε² / 162)`, over data and noise, it is larger than the formula minus `ε` and smaller than the formula plus the term for errors beyond the neighbouring point plus `ε`. -/
theorem C237_ber {N K : Nat} (hN : 1 ≤ N) (hK : 0 < K) (snr fb ε : ℝ) (hfb : 0 < fb) (hε : 0 < ε) (hε3 : ε ≤ 3) :
    let coded := qamCodedSymbols (2 * N) (Real.sqrt (scalingFactor (2 * N) : ℝ))
    let ber : (Fin (K * (2 * N)) → Bool) × (Fin K → ℝ × ℝ) → ℝ := fun p =>
      (((calBer (2 * N) coded ((changeSnr [modulate (2 * N) coded (List.ofFn p.1)] snr fb fb [List.ofFn fun k => (p.2 k).1] [List.ofFn fun k => (p.2 k).2]).getD 0 [])
        (modulate (2 * N) coded (List.ofFn p.1))).getD 0 : ℚ) : ℝ)
    ((bitLaw (K * (2 * N))).prod (noiseLaw K)).real {p | ber p ∉ Set.Ioo (berQam (dB2lin snr) (4 ^ N) - ε)
      (berQam (dB2lin snr) (4 ^ N) + 2 * (1 - 1 / N) * (1 - 2 / 2 ^ N) * qFunction (3 * Real.sqrt (3 * dB2lin snr / (4 ^ N - 1))) + ε)} ≤ 8 * Real.exp (-(K * ε ^ 2 / 162)) := by
  intro coded ber
  refine random_bits_core hN hK rfl ε hε (noiseLaw K) _ ?_
  intro bits a b tx hmod ha hb htx hpow hf1 hf2
  have := ber_given hN hK rfl snr fb ε hfb hε hε3 a b ha hb tx htx hpow hf1 hf2
  simp only [Set.mem_ofPred_eq, ber, coded, hmod]
  exact this

theorem measurable_ber {L k : Nat} {coded : List ℂ} (hlen : coded.length = 2 ^ k) (s : Fin L → ℂ) : Measurable fun v : Fin L → ℂ => (((calBer k coded (List.ofFn v) (List.ofFn s)).getD 0 : ℚ) : ℝ) := by
  have hne : coded ≠ [] := by
    intro h
    rw [h, List.length_nil] at hlen
    exact absurd hlen.symm (by positivity)
  have e : (fun v : Fin L → ℂ => (((calBer k coded (List.ofFn v) (List.ofFn s)).getD 0 : ℚ) : ℝ)) =
      fun v => (∑ m, (rowErr k (decIdx coded (s m)) (decIdx coded (v m)) : ℝ)) / (L * k) := by
    funext v
    rw [calBer_ofFn hlen, Option.getD_some]
    push_cast
    rfl
  rw [e]
  refine Measurable.div_const (Finset.measurable_sum _ fun m _ => ?_) _
  exact (measurable_from_top (f := fun j : Nat => (rowErr k (decIdx coded (s m)) j : ℝ))).comp ((measurable_decIdx hne).comp (measurable_pi_apply m))

/-- Over the dispersive link the bit error rate has the same distribution as over the direct one, for any data. -/
theorem fibre_ber {K k : Nat} (hK : 0 < K) {coded : List ℂ} (hlen : coded.length = 2 ^ k) (s : Fin K → ℂ) (n : Nat) (hn : 2 ≤ n) (fb beta D L wl snr : ℝ) (I : Set ℝ) (hI : MeasurableSet I) (hfb : 0 < fb)
    (hb : 0 < beta) (hb1 : beta ≤ 1) :
    (noiseLaw (n * K)).real {w | (((calBer k coded (List.ofFn (fibreRx s n fb beta D L wl snr w)) (List.ofFn s)).getD 0 : ℚ) : ℝ) ∉ I} =
    (noiseLaw K).real {w | (((calBer k coded ((changeSnr [List.ofFn s] snr fb fb [List.ofFn fun k => (w k).1] [List.ofFn fun k => (w k).2]).getD 0 []) (List.ofFn s)).getD 0 : ℚ) : ℝ) ∉ I} := by
  obtain ⟨-, hm, hlaw⟩ := C233_symbols hK s n hn fb beta D L wl snr hfb hb hb1
  have hset : MeasurableSet {v : Fin K → ℂ | (((calBer k coded (List.ofFn v) (List.ofFn s)).getD 0 : ℚ) : ℝ) ∉ I} := (measurable_ber hlen s) hI.compl
  have q1 := map_measureReal_apply (μ := noiseLaw (n * K)) hm hset
  have q2 := map_measureReal_apply (μ := noiseLaw K) (measurable_directRx' s snr fb fb) hset
  rw [hlaw] at q1
  refine (q1.symm.trans q2).trans ?_
  congr 1
  ext w
  simp only [Set.mem_preimage, Set.mem_ofPred_eq]
  have hl : ((changeSnr [List.ofFn s] snr fb fb [List.ofFn fun k => (w k).1] [List.ofFn fun k => (w k).2]).getD 0 []).length = K := by
    simp [changeSnr, addAwgn]
  rw [show (List.ofFn fun m : Fin K => ((changeSnr [List.ofFn s] snr fb fb [List.ofFn fun k => (w k).1] [List.ofFn fun k => (w k).2]).getD 0 []).getD m 0) =
    (changeSnr [List.ofFn s] snr fb fb [List.ofFn fun k => (w k).1] [List.ofFn fun k => (w k).2]).getD 0 [] from ?_]
  apply List.ext_getElem
  · rw [List.length_ofFn, hl]
  · intro i h1 h2
    rw [List.getElem_ofFn, List.getD_eq_getElem?_getD, List.getElem?_eq_getElem h2, Option.getD_some]

/-- **C237** The same over a dispersive link with root raised cosine shaping, noise at the sampling rate, compensation, matched filter and one sample per symbol. -/
theorem C237_fibre {N K : Nat} (hN : 1 ≤ N) (hK : 0 < K) (n : Nat) (hn : 2 ≤ n) (fb beta D L wl snr ε : ℝ) (hfb : 0 < fb) (hb : 0 < beta) (hb1 : beta ≤ 1) (hε : 0 < ε) (hε3 : ε ≤ 3) :
    let coded := qamCodedSymbols (2 * N) (Real.sqrt (scalingFactor (2 * N) : ℝ))
    let sym : (Fin (K * (2 * N)) → Bool) → Fin K → ℂ := fun b m => (modulate (2 * N) coded (List.ofFn b)).getD m 0
    let ber : (Fin (K * (2 * N)) → Bool) × (Fin (n * K) → ℝ × ℝ) → ℝ := fun p =>
      (((calBer (2 * N) coded (List.ofFn (fibreRx (sym p.1) n fb beta D L wl snr p.2)) (modulate (2 * N) coded (List.ofFn p.1))).getD 0 : ℚ) : ℝ)
    ((bitLaw (K * (2 * N))).prod (noiseLaw (n * K))).real {p | ber p ∉ Set.Ioo (berQam (dB2lin snr) (4 ^ N) - ε)
      (berQam (dB2lin snr) (4 ^ N) + 2 * (1 - 1 / N) * (1 - 2 / 2 ^ N) * qFunction (3 * Real.sqrt (3 * dB2lin snr / (4 ^ N - 1))) + ε)} ≤ 8 * Real.exp (-(K * ε ^ 2 / 162)) := by
  intro coded sym ber
  refine random_bits_core hN hK rfl ε hε (noiseLaw (n * K)) _ ?_
  intro bits a b tx hmod ha hb' htx hpow hf1 hf2
  have h1 := ber_given hN hK rfl snr fb ε hfb hε hε3 a b ha hb' tx htx hpow hf1 hf2
  rw [← fibre_ber hK (length_qamCoded _ _) tx n hn fb beta D L wl snr _ measurableSet_Ioo hfb hb hb1] at h1
  have hsym : sym bits = tx := by
    funext m
    simp only [sym, coded, hmod]
    rw [List.getD_eq_getElem?_getD, List.getElem?_eq_getElem (by simp), Option.getD_some, List.getElem_ofFn]
  simp only [Set.mem_ofPred_eq, ber, hsym, coded, hmod]
  exact h1

/-- **C237** Enough symbols: to be within `ε` with probability at least `1 - δ`, `162 log (8 / δ) / ε²` symbols suffice, for every order of the constellation and every signal to noise ratio. -/
theorem C237_symbols {N K : Nat} (hN : 1 ≤ N) (hK : 0 < K) (snr fb ε δ : ℝ) (hfb : 0 < fb) (hε : 0 < ε) (hε3 : ε ≤ 3) (hδ : 0 < δ) (hmany : 162 * Real.log (8 / δ) / ε ^ 2 ≤ K) :
    let coded := qamCodedSymbols (2 * N) (Real.sqrt (scalingFactor (2 * N) : ℝ))
    ((bitLaw (K * (2 * N))).prod (noiseLaw K)).real {p |
      (((calBer (2 * N) coded ((changeSnr [modulate (2 * N) coded (List.ofFn p.1)] snr fb fb [List.ofFn fun k => (p.2 k).1] [List.ofFn fun k => (p.2 k).2]).getD 0 [])
        (modulate (2 * N) coded (List.ofFn p.1))).getD 0 : ℚ) : ℝ) ∉ Set.Ioo (berQam (dB2lin snr) (4 ^ N) - ε)
      (berQam (dB2lin snr) (4 ^ N) + 2 * (1 - 1 / N) * (1 - 2 / 2 ^ N) * qFunction (3 * Real.sqrt (3 * dB2lin snr / (4 ^ N - 1))) + ε)} ≤ δ := by
  intro coded
  refine (C237_ber hN hK snr fb ε hfb hε hε3).trans ?_
  rw [div_le_iff₀ (by positivity)] at hmany
  have h1 : Real.exp (-(K * ε ^ 2 / 162)) ≤ Real.exp (-Real.log (8 / δ)) := by
    rw [Real.exp_le_exp]
    linarith
  rw [Real.exp_neg (Real.log _), Real.exp_log (by positivity), inv_div] at h1
  linarith

/-- One million random QPSK symbols over 1000 km of fibre: the far term vanishes, so a measured bit error rate 0.05 or more away from the formula has probability at most `8 exp (-15)`. -/
example (snr : ℝ) :
    let coded := qamCodedSymbols (2 * 1) (Real.sqrt (scalingFactor (2 * 1) : ℝ))
    ((bitLaw (1000000 * (2 * 1))).prod (noiseLaw (4 * 1000000))).real {p | (((calBer (2 * 1) coded
      (List.ofFn (fibreRx (fun m : Fin 1000000 => (modulate (2 * 1) coded (List.ofFn p.1)).getD m 0) 4 (20 * 10 ^ 9) (1 / 10) (17 / 10 ^ 6) (10 ^ 6) (1550 / 10 ^ 9) snr p.2))
      (modulate (2 * 1) coded (List.ofFn p.1))).getD 0 : ℚ) : ℝ) ∉ Set.Ioo (berQam (dB2lin snr) (4 ^ 1) - 1 / 20) (berQam (dB2lin snr) (4 ^ 1) + 1 / 20)} ≤ 8 * Real.exp (-15) := by
  intro coded
  have h := C237_fibre (N := 1) (K := 1000000) (by norm_num) (by norm_num) 4 (by norm_num) (20 * 10 ^ 9) (1 / 10) (17 / 10 ^ 6) (10 ^ 6) (1550 / 10 ^ 9) snr (1 / 20) (by norm_num) (by norm_num)
    (by norm_num) (by norm_num) (by norm_num)
  simp only [Nat.cast_one, div_one, sub_self, mul_zero, zero_mul, add_zero] at h
  refine h.trans ?_
  refine mul_le_mul_of_nonneg_left (Real.exp_le_exp.2 ?_) (by norm_num)
  norm_num

end Qampy
