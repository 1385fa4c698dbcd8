import Verif.Props.Theory2
import Verif.Props.Theory3
import Mathlib.Probability.Moments.SubGaussian

/-!
C211: how far measured error rates are from their averages.
-/

namespace Qampy

open MeasureTheory ProbabilityTheory
open Complex (I)

/-- Hoeffding's bound for an average of `n` functions with values between zero and one of the independent noise values, above the mean. -/
theorem hoeffding_upper {n : Nat} (hn : 0 < n) (f : Fin n → ℝ × ℝ → ℝ) (hm : ∀ k, Measurable (f k)) (hb : ∀ k v, f k v ∈ Set.Icc (0 : ℝ) 1)
    (ε : ℝ) (hε : 0 ≤ ε) :
    (noiseLaw n).real {w | ε ≤ (∑ k, f k (w k)) / n - ∫ w', (∑ k, f k (w' k)) / n ∂noiseLaw n} ≤ Real.exp (-(2 * n * ε ^ 2)) := by
  have hn' : (0 : ℝ) < n := by exact_mod_cast hn
  have hind : iIndepFun (fun (k : Fin n) (w : Fin n → ℝ × ℝ) => f k (w k) - ∫ w', f k (w' k) ∂noiseLaw n) (noiseLaw n) := by
    exact iIndepFun_pi (μ := fun _ : Fin n => stdN2) (X := fun k v => f k v - ∫ w', f k (w' k) ∂noiseLaw n) fun k => ((hm k).sub_const _).aemeasurable
  have hmk : ∀ k : Fin n, Measurable fun w : Fin n → ℝ × ℝ => f k (w k) := fun k => (hm k).comp (measurable_pi_apply k)
  have hsub : ∀ k ∈ (Finset.univ : Finset (Fin n)), HasSubgaussianMGF (fun w : Fin n → ℝ × ℝ => f k (w k) - ∫ w', f k (w' k) ∂noiseLaw n) ((‖(1 : ℝ) - 0‖₊ / 2) ^ 2) (noiseLaw n) :=
    fun k _ => hasSubgaussianMGF_of_mem_Icc (hmk k).aemeasurable (Filter.Eventually.of_forall fun w => hb k (w k))
  have hint : ∀ k : Fin n, Integrable (fun w : Fin n → ℝ × ℝ => f k (w k)) (noiseLaw n) := fun k =>
    Integrable.of_mem_Icc 0 1 (hmk k).aemeasurable (Filter.Eventually.of_forall fun w => hb k (w k))
  have h := HasSubgaussianMGF.measure_sum_ge_le_of_iIndepFun hind hsub (ε := n * ε) (by positivity)
  have hset : {w : Fin n → ℝ × ℝ | ε ≤ (∑ k, f k (w k)) / n - ∫ w', (∑ k, f k (w' k)) / n ∂noiseLaw n} =
      {w | n * ε ≤ ∑ k, (f k (w k) - ∫ w', f k (w' k) ∂noiseLaw n)} := by
    ext w
    simp only [Set.mem_ofPred_eq]
    rw [integral_div, integral_finsetSum _ (fun k _ => hint k), Finset.sum_sub_distrib, ← sub_div, le_div_iff₀ hn', mul_comm]
  rw [hset]
  refine h.trans (le_of_eq ?_)
  congr 1
  simp only [sub_zero, nnnorm_one, Finset.sum_const, Finset.card_univ, Fintype.card_fin, nsmul_eq_mul]
  push_cast
  field_simp

/-- The same below the mean. -/
theorem hoeffding_lower {n : Nat} (hn : 0 < n) (f : Fin n → ℝ × ℝ → ℝ) (hm : ∀ k, Measurable (f k)) (hb : ∀ k v, f k v ∈ Set.Icc (0 : ℝ) 1)
    (ε : ℝ) (hε : 0 ≤ ε) :
    (noiseLaw n).real {w | ε ≤ (∫ w', (∑ k, f k (w' k)) / n ∂noiseLaw n) - (∑ k, f k (w k)) / n} ≤ Real.exp (-(2 * n * ε ^ 2)) := by
  have hn' : (0 : ℝ) < n := by exact_mod_cast hn
  have hmk : ∀ k : Fin n, Measurable fun w : Fin n → ℝ × ℝ => f k (w k) := fun k => (hm k).comp (measurable_pi_apply k)
  have hint : ∀ k : Fin n, Integrable (fun w : Fin n → ℝ × ℝ => f k (w k)) (noiseLaw n) := fun k =>
    Integrable.of_mem_Icc 0 1 (hmk k).aemeasurable (Filter.Eventually.of_forall fun w => hb k (w k))
  have h := hoeffding_upper hn (fun k v => 1 - f k v) (fun k => measurable_const.sub (hm k))
    (fun k v => ⟨by linarith [(hb k v).2], by linarith [(hb k v).1]⟩) ε hε
  refine (le_of_eq ?_).trans h
  congr 1
  ext w
  have e : ∀ w : Fin n → ℝ × ℝ, (∑ k, (1 - f k (w k))) / (n : ℝ) = 1 - (∑ k, f k (w k)) / n := by
    intro w
    rw [Finset.sum_sub_distrib]
    simp only [Finset.sum_const, Finset.card_univ, Fintype.card_fin, nsmul_eq_mul, mul_one]
    field_simp
  simp only [Set.mem_ofPred_eq, e]
  have hi : Integrable (fun w : Fin n → ℝ × ℝ => (∑ k, f k (w k)) / (n : ℝ)) (noiseLaw n) := (integrable_finsetSum _ fun k _ => hint k).div_const _
  rw [integral_sub (integrable_const _) hi]
  simp only [integral_const, probReal_univ, smul_eq_mul, mul_one]
  constructor <;> intro h <;> linarith

/-- A quantity `X` measured with the noise values `w` is more than `ε` away from `m`. -/
theorem hoeffding_abs {n : Nat} (hn : 0 < n) (f : Fin n → ℝ × ℝ → ℝ) (hm : ∀ k, Measurable (f k)) (hb : ∀ k v, f k v ∈ Set.Icc (0 : ℝ) 1)
    (X : (Fin n → ℝ × ℝ) → ℝ) (hX : ∀ w, X w = (∑ k, f k (w k)) / n) (ε : ℝ) (hε : 0 ≤ ε) :
    (noiseLaw n).real {w | X w ≤ ∫ w', X w' ∂noiseLaw n - ε} ≤ Real.exp (-(2 * n * ε ^ 2)) ∧
    (noiseLaw n).real {w | ∫ w', X w' ∂noiseLaw n + ε ≤ X w} ≤ Real.exp (-(2 * n * ε ^ 2)) := by
  obtain rfl : X = fun w => (∑ k, f k (w k)) / n := funext hX
  constructor
  · refine (le_of_eq ?_).trans (hoeffding_lower hn f hm hb ε hε)
    congr 1
    ext w
    simp only [Set.mem_ofPred_eq]
    constructor <;> intro h <;> linarith
  · refine (le_of_eq ?_).trans (hoeffding_upper hn f hm hb ε hε)
    congr 1
    ext w
    simp only [Set.mem_ofPred_eq]
    constructor <;> intro h <;> linarith

/-- The received samples of one mode after `change_snr`. -/
theorem changeSnr_ofFn {n : Nat} (tx : Fin n → ℂ) (snrDb fb fs : ℝ) :
    ∃ sg : ℝ, ∀ w : Fin n → ℝ × ℝ, (changeSnr [List.ofFn tx] snrDb fb fs [List.ofFn fun k => (w k).1] [List.ofFn fun k => (w k).2]).getD 0 [] =
      List.ofFn fun k => tx k + ⟨sg / Real.sqrt 2 * (w k).1, sg / Real.sqrt 2 * (w k).2⟩ := by
  refine ⟨Real.sqrt (meanR ([List.ofFn tx].flatten.map fun z => ‖z‖ ^ 2)) * ((10 : ℝ) ^ (-snrDb / 20) * Real.sqrt (fs / fb)), fun w => ?_⟩
  rw [← addAwgn_ofFn]
  rfl

theorem measurable_rcv (s : ℂ) (t : ℝ) : Measurable fun v : ℝ × ℝ => s + (⟨t * v.1, t * v.2⟩ : ℂ) := by
  have : (fun v : ℝ × ℝ => s + (⟨t * v.1, t * v.2⟩ : ℂ)) = fun v : ℝ × ℝ => s + (((t * v.1 : ℝ) : ℂ) + ((t * v.2 : ℝ) : ℂ) * I) := by
    funext v
    congr 1
    apply Complex.ext <;> simp
  rw [this]
  fun_prop

theorem calSer_ofFn_any {n : Nat} {coded : List ℂ} (hne : coded ≠ []) (rx tx : Fin n → ℂ) :
    calSer coded (List.ofFn rx) (List.ofFn tx) = some ((∑ k, if coded.getD (decIdx coded (rx k)) 0 - tx k ≠ 0 then 1 else 0 : ℚ) / n) := by
  choose r h1 h2 h3 using fun y => decIdx_spec hne y
  unfold calSer makeDecision
  rw [mapM_ofFn n rx (fun x => detSymbolArgmin x coded) (fun k => r (rx k)) fun k => h1 _]
  simp only [Option.map_some, List.length_ofFn]
  rw [zip_ofFn, countP_ofFn]
  push_cast
  congr 2
  refine Finset.sum_congr rfl fun k _ => ?_
  rw [List.getD_eq_getElem?_getD, h3]
  simp

/-- **C211** The symbol error rate measured with one noise sequence is further than `ε` below (above) its average over all noise sequences with
probability at most `exp (-2 n ε²)`, for every alphabet, every transmitted sequence of `n` symbols, every SNR and oversampling. -/
theorem C211_ser {n : Nat} (hn : 0 < n) (coded : List ℂ) (hne : coded ≠ []) (tx : Fin n → ℂ) (snrDb fb fs ε : ℝ) (hε : 0 ≤ ε) :
    let ser : (Fin n → ℝ × ℝ) → ℝ := fun w => (((calSer coded
      ((changeSnr [List.ofFn tx] snrDb fb fs [List.ofFn fun k => (w k).1] [List.ofFn fun k => (w k).2]).getD 0 []) (List.ofFn tx)).getD 0 : ℚ) : ℝ)
    let avg := ∫ w, ser w ∂noiseLaw n
    (noiseLaw n).real {w | ser w ≤ avg - ε} ≤ Real.exp (-(2 * n * ε ^ 2)) ∧ (noiseLaw n).real {w | avg + ε ≤ ser w} ≤ Real.exp (-(2 * n * ε ^ 2)) := by
  obtain ⟨sg, hsg⟩ := changeSnr_ofFn tx snrDb fb fs
  intro ser avg
  refine hoeffding_abs hn (fun k v => if coded.getD (decIdx coded (tx k + ⟨sg / Real.sqrt 2 * v.1, sg / Real.sqrt 2 * v.2⟩)) 0 - tx k ≠ 0 then 1 else 0)
    (fun k => ?_) (fun k v => ?_) ser (fun w => ?_) ε hε
  · exact (measurable_from_top (f := fun j : Nat => if coded.getD j 0 - tx k ≠ 0 then (1 : ℝ) else 0)).comp
      ((measurable_decIdx hne).comp (measurable_rcv (tx k) _))
  · split_ifs <;> simp
  · show (((calSer coded ((changeSnr [List.ofFn tx] snrDb fb fs [List.ofFn fun k => (w k).1] [List.ofFn fun k => (w k).2]).getD 0 []) (List.ofFn tx)).getD 0 : ℚ) : ℝ) = _
    rw [hsg, calSer_ofFn_any hne, Option.getD_some]
    push_cast
    congr 1
    refine Finset.sum_congr rfl fun k _ => ?_
    split_ifs <;> simp

/-- **C211** The same for the bit error rate, with any alphabet of `2^k` symbols. -/
theorem C211_ber {n k : Nat} (hn : 0 < n) (hk : 0 < k) (coded : List ℂ) (hlen : coded.length = 2 ^ k) (tx : Fin n → ℂ) (snrDb fb fs ε : ℝ) (hε : 0 ≤ ε) :
    let ber : (Fin n → ℝ × ℝ) → ℝ := fun w => (((calBer k coded
      ((changeSnr [List.ofFn tx] snrDb fb fs [List.ofFn fun k => (w k).1] [List.ofFn fun k => (w k).2]).getD 0 []) (List.ofFn tx)).getD 0 : ℚ) : ℝ)
    let avg := ∫ w, ber w ∂noiseLaw n
    (noiseLaw n).real {w | ber w ≤ avg - ε} ≤ Real.exp (-(2 * n * ε ^ 2)) ∧ (noiseLaw n).real {w | avg + ε ≤ ber w} ≤ Real.exp (-(2 * n * ε ^ 2)) := by
  obtain ⟨sg, hsg⟩ := changeSnr_ofFn tx snrDb fb fs
  have hne : coded ≠ [] := by
    intro h
    rw [h, List.length_nil] at hlen
    exact absurd hlen.symm (by positivity)
  have hk' : (0 : ℝ) < k := by exact_mod_cast hk
  intro ber avg
  refine hoeffding_abs hn (fun m v => (rowErr k (decIdx coded (tx m)) (decIdx coded (tx m + ⟨sg / Real.sqrt 2 * v.1, sg / Real.sqrt 2 * v.2⟩)) : ℝ) / k)
    (fun m => ?_) (fun m v => ?_) ber (fun w => ?_) ε hε
  · exact (measurable_from_top (f := fun j : Nat => (rowErr k (decIdx coded (tx m)) j : ℝ) / k)).comp
      ((measurable_decIdx hne).comp (measurable_rcv (tx m) _))
  · refine ⟨by positivity, ?_⟩
    rw [div_le_one hk', rowErr_eq]
    exact_mod_cast hd_le k _ _
  · show (((calBer k coded ((changeSnr [List.ofFn tx] snrDb fb fs [List.ofFn fun k => (w k).1] [List.ofFn fun k => (w k).2]).getD 0 []) (List.ofFn tx)).getD 0 : ℚ) : ℝ) = _
    rw [hsg, calBer_ofFn hlen, Option.getD_some, ← Finset.sum_div, div_div]
    push_cast
    rw [mul_comm (k : ℝ)]

theorem real_union_two {n : Nat} (X : (Fin n → ℝ × ℝ) → ℝ) (m ε : ℝ) :
    (noiseLaw n).real {w | ε ≤ |X w - m|} ≤ (noiseLaw n).real {w | X w ≤ m - ε} + (noiseLaw n).real {w | m + ε ≤ X w} := by
  refine (measureReal_mono ?_ (measure_ne_top _ _)).trans (measureReal_union_le _ _)
  intro w hw
  simp only [Set.mem_ofPred_eq, Set.mem_union] at hw ⊢
  rcases le_abs.1 hw with h | h
  · right; linarith
  · left; linarith

/-- **C211** Square QAM with equally frequent symbols: the measured symbol error rate is `ε` or more away from the formula with probability at most
`2 exp (-2 n ε²)`; so `log (2/δ) / (2 ε²)` symbols are enough for the accuracy `ε` with probability `1 - δ`. -/
theorem C211_qam {N n : Nat} (hN : 1 ≤ N) (hn : 0 < n) (tx : Fin n → ℂ)
    (hbal : EquallyOften (qamCodedSymbols (2 * N) (Real.sqrt (scalingFactor (2 * N) : ℝ))) tx) (snrDb fb ε : ℝ) (hfb : 0 < fb) (hε : 0 < ε) :
    let ser : (Fin n → ℝ × ℝ) → ℝ := fun w => (((calSer (qamCodedSymbols (2 * N) (Real.sqrt (scalingFactor (2 * N) : ℝ)))
      ((changeSnr [List.ofFn tx] snrDb fb fb [List.ofFn fun k => (w k).1] [List.ofFn fun k => (w k).2]).getD 0 []) (List.ofFn tx)).getD 0 : ℚ) : ℝ)
    (noiseLaw n).real {w | ε ≤ |ser w - serQam (dB2lin snrDb) (4 ^ N)|} ≤ 2 * Real.exp (-(2 * n * ε ^ 2)) ∧
    ∀ δ : ℝ, 0 < δ → Real.log (2 / δ) / (2 * ε ^ 2) ≤ n → (noiseLaw n).real {w | ε ≤ |ser w - serQam (dB2lin snrDb) (4 ^ N)|} ≤ δ := by
  intro ser
  have hne : qamCodedSymbols (2 * N) (Real.sqrt (scalingFactor (2 * N) : ℝ)) ≠ [] := by
    intro h
    have := length_qamCoded (2 * N) (Real.sqrt (scalingFactor (2 * N) : ℝ))
    rw [h, List.length_nil] at this
    exact absurd this.symm (by positivity)
  obtain ⟨h1, h2⟩ := C211_ser hn _ hne tx snrDb fb fb ε hε.le
  rw [(C115_ser hN hn tx hbal snrDb fb hfb).2] at h1 h2
  have h : (noiseLaw n).real {w | ε ≤ |ser w - serQam (dB2lin snrDb) (4 ^ N)|} ≤ 2 * Real.exp (-(2 * n * ε ^ 2)) := by
    refine (real_union_two ser _ ε).trans ?_
    have : ∀ a b c : ℝ, a ≤ c → b ≤ c → a + b ≤ 2 * c := fun a b c ha hb => by linarith
    exact this _ _ _ h1 h2
  refine ⟨h, fun δ hδ hnn => h.trans ?_⟩
  have h3 : Real.log (2 / δ) ≤ 2 * n * ε ^ 2 := by
    rw [div_le_iff₀ (by positivity)] at hnn
    linarith
  have h4 : Real.exp (-(2 * n * ε ^ 2)) ≤ δ / 2 := by
    rw [show δ / 2 = Real.exp (-Real.log (2 / δ)) by rw [Real.exp_neg, Real.exp_log (by positivity), inv_div]]
    exact Real.exp_le_exp.2 (by linarith)
  linarith

/-- **C211** Gray coded square QAM: a measured bit error rate below the formula minus `ε`, or above the formula plus `ε` plus the weight of the errors
that skip a neighbour, has probability at most `exp (-2 n ε²)` each. -/
theorem C211_qam_ber {N n : Nat} (hN : 1 ≤ N) (hn : 0 < n) (tx : Fin n → ℂ)
    (hbal : EquallyOften (qamCodedSymbols (2 * N) (Real.sqrt (scalingFactor (2 * N) : ℝ))) tx) (snrDb fb ε : ℝ) (hfb : 0 < fb) (hε : 0 ≤ ε) :
    let ber : (Fin n → ℝ × ℝ) → ℝ := fun w => (((calBer (2 * N) (qamCodedSymbols (2 * N) (Real.sqrt (scalingFactor (2 * N) : ℝ)))
      ((changeSnr [List.ofFn tx] snrDb fb fb [List.ofFn fun k => (w k).1] [List.ofFn fun k => (w k).2]).getD 0 []) (List.ofFn tx)).getD 0 : ℚ) : ℝ)
    (noiseLaw n).real {w | ber w ≤ berQam (dB2lin snrDb) (4 ^ N) - ε} ≤ Real.exp (-(2 * n * ε ^ 2)) ∧
    (noiseLaw n).real {w | berQam (dB2lin snrDb) (4 ^ N) + 2 * (1 - 1 / N) * (1 - 2 / 2 ^ N) * qFunction (3 * Real.sqrt (3 * dB2lin snrDb / (4 ^ N - 1))) + ε ≤ ber w} ≤
      Real.exp (-(2 * n * ε ^ 2)) := by
  intro ber
  obtain ⟨h1, h2⟩ := C211_ber hn (show 0 < 2 * N by omega) _ (length_qamCoded (2 * N) (Real.sqrt (scalingFactor (2 * N) : ℝ))) tx snrDb fb fb ε hε
  obtain ⟨-, g1, g2, -⟩ := C118_ber hN hn tx hbal snrDb fb hfb
  constructor
  · refine (measureReal_mono ?_ (measure_ne_top _ _)).trans h1
    intro w hw
    simp only [Set.mem_ofPred_eq] at hw ⊢
    exact hw.trans (by linarith)
  · refine (measureReal_mono ?_ (measure_ne_top _ _)).trans h2
    intro w hw
    simp only [Set.mem_ofPred_eq] at hw ⊢
    exact le_trans (by linarith) hw

/-- Ten thousand repetitions of the sixteen symbols: the symbol error rate is within 0.01 of the formula except with probability below `2 exp (-32)`. -/
example (tx : Fin 160000 → ℂ) (hbal : EquallyOften (qamCodedSymbols (2 * 2) (Real.sqrt (scalingFactor (2 * 2) : ℝ))) tx) (snrDb : ℝ) :
    (noiseLaw 160000).real {w | (0.01 : ℝ) ≤ |(((calSer (qamCodedSymbols (2 * 2) (Real.sqrt (scalingFactor (2 * 2) : ℝ)))
      ((changeSnr [List.ofFn tx] snrDb 1 1 [List.ofFn fun k => (w k).1] [List.ofFn fun k => (w k).2]).getD 0 []) (List.ofFn tx)).getD 0 : ℚ) : ℝ) -
        serQam (dB2lin snrDb) (4 ^ 2)|} ≤ 2 * Real.exp (-32) := by
  have := (C211_qam (N := 2) (by norm_num) (by norm_num) tx hbal snrDb 1 0.01 one_pos (by norm_num)).1
  refine this.trans (le_of_eq ?_)
  congr 2
  norm_num

/-- The hypothesis on the sequence is met, e.g. by the constellation itself. -/
example : EquallyOften (qamCodedSymbols (2 * 2) (Real.sqrt (scalingFactor (2 * 2) : ℝ)))
    (fun k : Fin (qamCodedSymbols (2 * 2) (Real.sqrt (scalingFactor (2 * 2) : ℝ))).length => (qamCodedSymbols (2 * 2) (Real.sqrt (scalingFactor (2 * 2) : ℝ))).get k) := by
  refine balanced_get (nodup_qamCoded _ ?_)
  rw [scaling_even]
  exact (Real.sqrt_pos.2 (by norm_num)).ne'

end Qampy
