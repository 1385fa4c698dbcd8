import Verif.Model.RandomSignal
import Verif.Props.Hybrid
import Mathlib.Probability.Distributions.Uniform
import Mathlib.Probability.ProbabilityMassFunction.Integrals
import Mathlib.Probability.Moments.Variance
import Mathlib.MeasureTheory.Constructions.Pi

/-!
C226: the symbols of a signal made of random bits.
-/

namespace Qampy

open MeasureTheory ProbabilityTheory

/-- All values of a finite type equally likely. -/
noncomputable abbrev fairLaw (α : Type) [Fintype α] [Nonempty α] [MeasurableSpace α] : Measure α := (PMF.uniformOfFintype α).toMeasure

/-- `n` independent fair bits. -/
noncomputable abbrev bitLaw (n : Nat) : Measure (Fin n → Bool) := Measure.pi fun _ => fairLaw Bool

theorem fairLaw_singleton {α : Type} [Fintype α] [Nonempty α] [MeasurableSpace α] [MeasurableSingletonClass α] (a : α) : fairLaw α {a} = (Fintype.card α : ENNReal)⁻¹ := by
  rw [PMF.toMeasure_apply_singleton _ _ (measurableSet_singleton a), PMF.uniformOfFintype_apply]

/-- The symbol numbers of one mode. -/
theorem modulate_index {k N : Nat} (hk : 1 ≤ k) {coded : List ℂ} (hl : coded.length = 2 ^ k) (b : Fin (N * k) → Bool) :
    ∃ s : Fin N → Fin coded.length, modulate k coded (List.ofFn b) = List.ofFn fun n => coded.get (s n) := by
  have hN : (List.ofFn b).length / k = N := by rw [List.length_ofFn]; exact Nat.mul_div_cancel _ hk
  obtain ⟨h1, -⟩ := chunks_spec k N (List.ofFn b) (by rw [List.length_ofFn])
  obtain ⟨u, hu⟩ : ∃ u, u = (chunks k N (List.ofFn b)).map bitsToIdx := ⟨_, rfl⟩
  have hul : u.length = N := by rw [hu, List.length_map, length_chunks]
  have hlt : ∀ i ∈ u, i < coded.length := by
    intro i hi
    rw [hu] at hi
    obtain ⟨c, hc, rfl⟩ := List.mem_map.1 hi
    have := bitsToIdx_lt c
    rwa [h1 c hc, ← hl] at this
  obtain ⟨g1, g2⟩ := gather_length coded u hlt
  refine ⟨fun n => ⟨u[n.1]'(by omega), hlt _ (List.getElem_mem _)⟩, ?_⟩
  unfold modulate
  rw [hN, ← hu]
  apply List.ext_getElem?
  intro j
  rw [g2, List.getElem?_ofFn]
  by_cases hj : j < N
  · rw [dif_pos hj, List.getElem?_eq_getElem (by omega : j < u.length)]
    simp [hlt _ (List.getElem_mem _)]
  · rw [dif_neg hj, List.getElem?_eq_none (by omega)]
    rfl

/-- C226: for every order and length, the symbols of a mode made of independent fair bits are independent and every symbol of the alphabet is equally likely. -/
theorem C226_symbols {k N : Nat} (hk : 1 ≤ k) {coded : List ℂ} (hl : coded.length = 2 ^ k) (hnd : coded.Nodup) (hne : Nonempty (Fin coded.length)) :
    ∃ s : (Fin (N * k) → Bool) → Fin N → Fin coded.length, (∀ b, modulate k coded (List.ofFn b) = List.ofFn fun n => coded.get (s b n)) ∧
      MeasurePreserving s (bitLaw (N * k)) (Measure.pi fun _ => fairLaw (Fin coded.length)) := by
  choose s hs using fun b : Fin (N * k) → Bool => modulate_index (N := N) hk hl b
  have hinj : Function.Injective s := by
    intro b b' h
    have h1 : modulate k coded (List.ofFn b) = modulate k coded (List.ofFn b') := by rw [hs, hs, h]
    have h2 := C15_demodulate_modulate k coded hl hnd (List.ofFn b)
    rw [h1, C15_demodulate_modulate k coded hl hnd (List.ofFn b')] at h2
    simp only [List.length_ofFn, Nat.mul_div_cancel _ hk, Option.some.injEq] at h2
    rw [List.take_of_length_le (by rw [List.length_ofFn]), List.take_of_length_le (by rw [List.length_ofFn])] at h2
    exact (List.ofFn_injective h2).symm
  have hcard : Fintype.card (Fin (N * k) → Bool) = Fintype.card (Fin N → Fin coded.length) := by
    simp [hl, ← pow_mul, Nat.mul_comm]
  have hbij : Function.Bijective s := (Fintype.bijective_iff_injective_and_card s).2 ⟨hinj, hcard⟩
  refine ⟨s, hs, measurable_of_finite s, ?_⟩
  apply Measure.ext_of_singleton
  intro t
  obtain ⟨b, rfl⟩ := hbij.2 t
  rw [Measure.map_apply (measurable_of_finite s) (measurableSet_singleton _), show s ⁻¹' {s b} = {b} by ext c; simp [hinj.eq_iff], Measure.pi_singleton, Measure.pi_singleton]
  simp only [fairLaw_singleton, Finset.prod_const, Finset.card_univ, Fintype.card_fin, Fintype.card_bool]
  rw [hl, ← ENNReal.inv_pow, ← ENNReal.inv_pow]
  congr 1
  push_cast
  rw [← pow_mul, Nat.mul_comm]

/-- C226 for a signal of several modes: all symbols of all modes are independent and every symbol of the alphabet is equally likely. -/
theorem C226_signal {k N m : Nat} (hk : 1 ≤ k) {coded : List ℂ} (hl : coded.length = 2 ^ k) (hnd : coded.Nodup) (hne : Nonempty (Fin coded.length)) :
    ∃ s : (Fin m → Fin (N * k) → Bool) → Fin m → Fin N → Fin coded.length,
      (∀ b, signalNew k N m coded b = List.ofFn fun l => List.ofFn fun n => coded.get (s b l n)) ∧
      MeasurePreserving s (Measure.pi fun _ => bitLaw (N * k)) (Measure.pi fun _ => Measure.pi fun _ => fairLaw (Fin coded.length)) := by
  obtain ⟨s, hs, hmp⟩ := C226_symbols (N := N) hk hl hnd hne
  refine ⟨fun b l => s (b l), fun b => ?_, measurePreserving_pi _ _ fun _ => hmp⟩
  unfold signalNew
  simp only [hs]

/-- C226: the probability that a signal of `m` modes and `N` symbols is a given one is `M^{-mN}`, whatever the symbols are. -/
theorem C226_given {k N m : Nat} (hk : 1 ≤ k) {coded : List ℂ} (hl : coded.length = 2 ^ k) (hnd : coded.Nodup) (x : Fin m → Fin N → ℂ) (hx : ∀ l n, x l n ∈ coded) :
    (Measure.pi fun _ : Fin m => bitLaw (N * k)) {b | signalNew k N m coded b = List.ofFn fun l => List.ofFn (x l)} = ((2 : ENNReal) ^ (m * (N * k)))⁻¹ := by
  have hne : Nonempty (Fin coded.length) := ⟨⟨0, by rw [hl]; positivity⟩⟩
  obtain ⟨s, hs, hmp⟩ := C226_signal (N := N) (m := m) hk hl hnd hne
  have hi : ∀ l n, ∃ i : Fin coded.length, coded.get i = x l n := fun l n => List.mem_iff_get.1 (hx l n)
  choose a ha using hi
  have hset : {b | signalNew k N m coded b = List.ofFn fun l => List.ofFn (x l)} = s ⁻¹' {a} := by
    ext b
    simp only [Set.mem_ofPred_eq, Set.mem_preimage, Set.mem_singleton_iff]
    rw [hs]
    constructor
    · intro h
      have h1 := List.ofFn_injective h
      funext l n
      have h2 := congrFun (List.ofFn_injective (congrFun h1 l)) n
      rw [← ha] at h2
      exact List.nodup_iff_injective_get.1 hnd h2
    · rintro h
      simp only [h, ha]
  rw [hset, hmp.measure_preimage (measurableSet_singleton _).nullMeasurableSet, Measure.pi_singleton]
  simp only [Measure.pi_singleton, fairLaw_singleton, Finset.prod_const, Finset.card_univ, Fintype.card_fin]
  rw [hl, ← ENNReal.inv_pow, ← ENNReal.inv_pow]
  congr 1
  push_cast
  rw [← pow_mul, ← pow_mul]
  congr 1
  ring

/-- Mean of a function over equally likely values. -/
theorem integral_fairLaw {n : Nat} [Nonempty (Fin n)] (f : Fin n → ℝ) : ∫ i, f i ∂fairLaw (Fin n) = (∑ i, f i) / n := by
  rw [PMF.integral_eq_sum]
  simp only [PMF.uniformOfFintype_apply, Fintype.card_fin, ENNReal.toReal_inv, ENNReal.toReal_natCast, smul_eq_mul]
  rw [← Finset.mul_sum, div_eq_inv_mul]

/-- The mean power of `N` symbols. -/
noncomputable def powerOf (E : List ℂ) : ℝ := (E.map fun z => ‖z‖ ^ 2).sum / E.length

/-- The spread of the powers in an alphabet, `Σ(|c|²-1)²/M`. -/
noncomputable def powerSpread (S : List ℂ) : ℝ := (S.map fun s => (‖s‖ ^ 2 - 1) ^ 2).sum / S.length

theorem sum_get (S : List ℂ) (f : ℂ → ℝ) : (S.map f).sum = ∑ i : Fin S.length, f (S.get i) := by
  rw [← List.sum_ofFn]
  congr 1
  conv_lhs => rw [← List.ofFn_get S, List.map_ofFn]
  rfl

/-- The mean power of independent equally likely symbols: expectation and deviation. -/
theorem power_mean {S : List ℂ} [Nonempty (Fin S.length)] (h1 : alphabetPower S = 1) {N : Nat} (hN : 0 < N) :
    ∫ a, (∑ n : Fin N, ‖S.get (a n)‖ ^ 2) / N ∂(Measure.pi fun _ : Fin N => fairLaw (Fin S.length)) = 1 ∧
      ∀ ε : ℝ, 0 < ε → (Measure.pi fun _ : Fin N => fairLaw (Fin S.length)).real {a | ε ≤ |(∑ n : Fin N, ‖S.get (a n)‖ ^ 2) / N - 1|} ≤ powerSpread S / (N * ε ^ 2) := by
  have hNr : (0 : ℝ) < N := by exact_mod_cast hN
  obtain ⟨P, hP⟩ : ∃ P : Measure (Fin N → Fin S.length), P = Measure.pi fun _ : Fin N => fairLaw (Fin S.length) := ⟨_, rfl⟩
  have : IsProbabilityMeasure P := by rw [hP]; infer_instance
  rw [← hP]
  obtain ⟨f, hf⟩ : ∃ f : Fin S.length → ℝ, f = fun i => ‖S.get i‖ ^ 2 := ⟨_, rfl⟩
  obtain ⟨g, hg⟩ : ∃ g : Fin N → (Fin N → Fin S.length) → ℝ, g = fun n a => f (a n) := ⟨_, rfl⟩
  have hlp : ∀ F : (Fin N → Fin S.length) → ℝ, MemLp F 2 P := fun F => MemLp.of_discrete
  have hint : ∀ F : (Fin N → Fin S.length) → ℝ, Integrable F P := fun F => Integrable.of_finite
  have hEf : ∫ i, f i ∂fairLaw (Fin S.length) = 1 := by
    rw [integral_fairLaw, hf, ← sum_get S fun z => ‖z‖ ^ 2]
    exact h1
  have heval : ∀ (n : Fin N) (F : Fin S.length → ℝ), ∫ a, F (a n) ∂P = ∫ i, F i ∂fairLaw (Fin S.length) := by
    intro n F
    rw [hP]
    exact integral_comp_eval (μ := fun _ : Fin N => fairLaw (Fin S.length)) (i := n) (measurable_of_finite F).aestronglyMeasurable
  have hE : ∫ a, (∑ n : Fin N, ‖S.get (a n)‖ ^ 2) / N ∂P = 1 := by
    rw [integral_div, integral_finsetSum _ fun n _ => hint _]
    rw [Finset.sum_congr rfl fun n _ => (heval n fun i => ‖S.get i‖ ^ 2).trans (by rw [← hf, hEf])]
    rw [Finset.sum_const, Finset.card_univ, Fintype.card_fin, nsmul_one]
    exact div_self hNr.ne'
  refine ⟨hE, fun ε hε => ?_⟩
  have hvar : ∀ n, Var[g n; P] = powerSpread S := by
    intro n
    have hm : ∫ a, g n a ∂P = 1 := by rw [hg]; exact (heval n f).trans hEf
    rw [variance_eq_integral (measurable_of_finite _).aemeasurable, hm, hg]
    rw [show ∫ a, (f (a n) - 1) ^ 2 ∂P = ∫ i, (f i - 1) ^ 2 ∂fairLaw (Fin S.length) from heval n fun i => (f i - 1) ^ 2, integral_fairLaw, hf]
    unfold powerSpread
    rw [sum_get S fun z => (‖z‖ ^ 2 - 1) ^ 2]
  have hind : iIndepFun g P := by
    rw [hg, hP]
    exact iIndepFun_pi fun n => (measurable_of_finite f).aemeasurable
  have hvs : Var[∑ n, g n; P] = N * powerSpread S := by
    rw [IndepFun.variance_sum (fun n _ => hlp _) fun i _ j _ hij => hind.indepFun hij, Finset.sum_congr rfl fun n _ => hvar n, Finset.sum_const, Finset.card_univ, Fintype.card_fin, nsmul_eq_mul]
  obtain ⟨X, hX⟩ : ∃ X : (Fin N → Fin S.length) → ℝ, X = fun a => (∑ n : Fin N, ‖S.get (a n)‖ ^ 2) / N := ⟨_, rfl⟩
  have hvX : Var[X; P] = powerSpread S / N := by
    have e1 : X = fun a => (1 / (N : ℝ)) * (∑ n, g n) a := by
      rw [hX, hg, hf]
      funext a
      rw [Finset.sum_apply]
      ring
    rw [e1, variance_const_mul, hvs]
    field_simp
  have hc := meas_ge_le_variance_div_sq (hlp X) hε
  rw [hvX, hX, hE] at hc
  have hnn : 0 ≤ powerSpread S / (N * ε ^ 2) := by
    refine div_nonneg (div_nonneg (List.sum_nonneg ?_) (Nat.cast_nonneg _)) (by positivity)
    intro x hx
    obtain ⟨s, -, rfl⟩ := List.mem_map.1 hx
    positivity
  rw [div_div] at hc
  exact ENNReal.toReal_le_of_le_ofReal hnn hc

/-- C226: the mean power of a mode made of random bits is one in expectation, for every order, and the probability that `N` symbols have a mean power
off by `ε` is at most `Σ(|c|²-1)²/M / (Nε²)`. -/
theorem C226_power {k N : Nat} (hk : 1 ≤ k) (hN : 0 < N) {coded : List ℂ} (hl : coded.length = 2 ^ k) (hnd : coded.Nodup) (h1 : alphabetPower coded = 1) :
    ∫ b, powerOf (modulate k coded (List.ofFn b)) ∂bitLaw (N * k) = 1 ∧
      ∀ ε : ℝ, 0 < ε → (bitLaw (N * k)).real {b | ε ≤ |powerOf (modulate k coded (List.ofFn b)) - 1|} ≤ powerSpread coded / (N * ε ^ 2) := by
  have hne : Nonempty (Fin coded.length) := ⟨⟨0, by rw [hl]; positivity⟩⟩
  obtain ⟨s, hs, hmp⟩ := C226_symbols (N := N) hk hl hnd hne
  obtain ⟨p1, p2⟩ := power_mean h1 hN
  have hpow : ∀ b, powerOf (modulate k coded (List.ofFn b)) = (∑ n : Fin N, ‖coded.get (s b n)‖ ^ 2) / N := by
    intro b
    rw [hs]
    unfold powerOf
    rw [List.map_ofFn, List.sum_ofFn, List.length_ofFn]
    rfl
  simp only [hpow]
  obtain ⟨F, hF⟩ : ∃ F : (Fin N → Fin coded.length) → ℝ, F = fun a => (∑ n : Fin N, ‖coded.get (a n)‖ ^ 2) / N := ⟨_, rfl⟩
  have hb : ∀ b, (∑ n : Fin N, ‖coded.get (s b n)‖ ^ 2) / (N : ℝ) = F (s b) := fun b => by rw [hF]
  simp only [hb]
  constructor
  · rw [← p1, ← hmp.map_eq, integral_map hmp.aemeasurable (measurable_of_finite _).aestronglyMeasurable, hF]
  · intro ε hε
    refine le_trans (le_of_eq ?_) (p2 ε hε)
    subst hF
    unfold Measure.real
    rw [← hmp.measure_preimage (Set.toFinite _).measurableSet.nullMeasurableSet]
    rfl

/-- A bound of the powers bounds their spread. -/
theorem C226_spread {S : List ℂ} (h1 : alphabetPower S = 1) {B : ℝ} (hB : ∀ s ∈ S, ‖s‖ ^ 2 ≤ B) : powerSpread S ≤ B - 1 := by
  have hS : (0 : ℝ) < S.length := by
    rcases Nat.eq_zero_or_pos S.length with h | h
    · unfold alphabetPower at h1
      rw [h] at h1
      simp at h1
    · exact_mod_cast h
  have hp : (S.map fun s => ‖s‖ ^ 2).sum = S.length := by
    unfold alphabetPower at h1
    field_simp at h1
    linarith
  unfold powerSpread
  rw [div_le_iff₀ hS, sum_get S fun z => (‖z‖ ^ 2 - 1) ^ 2]
  rw [sum_get S fun z => ‖z‖ ^ 2] at hp
  have : ∑ i : Fin S.length, (‖S.get i‖ ^ 2 - 1) ^ 2 ≤ ∑ i : Fin S.length, ((B - 2) * ‖S.get i‖ ^ 2 + 1) := by
    refine Finset.sum_le_sum fun i _ => ?_
    nlinarith [hB _ (List.get_mem S i), sq_nonneg ‖S.get i‖]
  rw [Finset.sum_add_distrib, ← Finset.mul_sum, hp, Finset.sum_const, Finset.card_univ, Fintype.card_fin, nsmul_one] at this
  linarith

/-- The alphabets of the QAM and PSK signals meet the hypotheses of C226, and the mean power of PSK symbols does not spread. -/
theorem C226_alphabets (k : Nat) (hk : 1 ≤ k) :
    ((qamCodedSymbols k (Real.sqrt (scalingFactor k : ℝ))).length = 2 ^ k ∧ (qamCodedSymbols k (Real.sqrt (scalingFactor k : ℝ))).Nodup ∧
      alphabetPower (qamCodedSymbols k (Real.sqrt (scalingFactor k : ℝ))) = 1) ∧
    (pskCodedSymbols k).length = 2 ^ k ∧ (pskCodedSymbols k).Nodup ∧ alphabetPower (pskCodedSymbols k) = 1 ∧ powerSpread (pskCodedSymbols k) = 0 := by
  have h0 : (0 : ℝ) < Real.sqrt (scalingFactor k : ℝ) := Real.sqrt_pos.2 (by exact_mod_cast scalingFactor_pos hk)
  refine ⟨⟨length_qamCoded _ _, nodup_qamCoded k h0.ne', Alphabet.power (Or.inl ⟨k, hk, rfl⟩)⟩, length_pskCoded k, nodup_pskCoded k, Alphabet.power (Or.inr ⟨k, hk, rfl⟩), ?_⟩
  unfold powerSpread
  rw [List.map_congr_left (g := fun _ => (0 : ℝ)) (fun z hz => by rw [norm_pskCoded hz]; norm_num)]
  simp

/-- C226 for the signals as they are created: two modes of 1000 symbols of 16-QAM are a given array with probability `2^{-8000}`. -/
example (x : Fin 2 → Fin 1000 → ℂ) (hx : ∀ l n, x l n ∈ qamCodedSymbols 4 (Real.sqrt (scalingFactor 4 : ℝ))) :
    (Measure.pi fun _ : Fin 2 => bitLaw (1000 * 4)) {b | signalNew 4 1000 2 (qamCodedSymbols 4 (Real.sqrt (scalingFactor 4 : ℝ))) b = List.ofFn fun l => List.ofFn (x l)} = ((2 : ENNReal) ^ 8000)⁻¹ :=
  C226_given (by norm_num) (C226_alphabets 4 (by norm_num)).1.1 (C226_alphabets 4 (by norm_num)).1.2.1 x hx

/-- The mean power of 100 QPSK symbols is one in expectation. -/
example : ∫ b, powerOf (modulate 2 (pskCodedSymbols 2) (List.ofFn b)) ∂bitLaw (100 * 2) = 1 :=
  (C226_power (by norm_num) (by norm_num) (C226_alphabets 2 (by norm_num)).2.1 (C226_alphabets 2 (by norm_num)).2.2.1 (C226_alphabets 2 (by norm_num)).2.2.2.1).1

end Qampy
