import Verif.Props.Info
import Verif.Props.Transmission
import Mathlib.Probability.Moments.Variance
import Mathlib.Probability.Independence.Basic
import Mathlib.MeasureTheory.Integral.Pi
import Mathlib.MeasureTheory.Measure.CharacteristicFunction.Basic

/-!
Statistics of random quantities: bias of the SNR estimate (C122), law of the phase noise (C123).
-/

namespace Qampy

open MeasureTheory ProbabilityTheory

/-! ### SNR estimate -/

theorem stdN_moments : MemLp (fun x : ℝ => x) 2 stdN ∧ ∫ x, x ∂stdN = 0 ∧ ∫ x, x ^ 2 ∂stdN = 1 := by
  have h1 : MemLp (fun x : ℝ => x) 2 stdN := memLp_id_gaussianReal (μ := 0) (v := 1) 2
  have h2 : ∫ x, x ∂stdN = 0 := integral_id_gaussianReal (μ := 0) (v := 1)
  refine ⟨h1, h2, ?_⟩
  have h3 := variance_eq_sub (μ := stdN) h1
  have h4 : Var[fun x : ℝ => x; stdN] = 1 := by
    have := variance_id_gaussianReal (μ := 0) (v := 1)
    exact_mod_cast this
  rw [h4, h2] at h3
  simp only [Pi.pow_apply] at h3
  linarith

theorem stdN2_fst_moments : MemLp (fun z : ℝ × ℝ => z.1) 2 stdN2 ∧ ∫ z, z.1 ∂stdN2 = 0 ∧ Var[fun z : ℝ × ℝ => z.1; stdN2] = 1 := by
  obtain ⟨h1, h2, h3⟩ := stdN_moments
  have hmp : MeasurePreserving (Prod.fst : ℝ × ℝ → ℝ) stdN2 stdN := measurePreserving_fst
  have hm : MemLp (fun z : ℝ × ℝ => z.1) 2 stdN2 := h1.comp_measurePreserving hmp
  have e : ∀ f : ℝ → ℝ, AEStronglyMeasurable f stdN → ∫ z : ℝ × ℝ, f z.1 ∂stdN2 = ∫ x, f x ∂stdN := by
    intro f hf
    rw [← hmp.map_eq] at hf ⊢
    exact (integral_map hmp.measurable.aemeasurable hf).symm
  have hz : ∫ z, z.1 ∂stdN2 = 0 := by
    rw [e (fun x => x) h1.aestronglyMeasurable, h2]
  refine ⟨hm, hz, ?_⟩
  rw [variance_eq_sub hm, hz]
  simp only [Pi.pow_apply]
  rw [e (fun x => x ^ 2) (by fun_prop), h3]
  norm_num

theorem stdN2_snd_moments : MemLp (fun z : ℝ × ℝ => z.2) 2 stdN2 ∧ ∫ z, z.2 ∂stdN2 = 0 ∧ Var[fun z : ℝ × ℝ => z.2; stdN2] = 1 := by
  obtain ⟨h1, h2, h3⟩ := stdN_moments
  have hmp : MeasurePreserving (Prod.snd : ℝ × ℝ → ℝ) stdN2 stdN := measurePreserving_snd
  have hm : MemLp (fun z : ℝ × ℝ => z.2) 2 stdN2 := h1.comp_measurePreserving hmp
  have e : ∀ f : ℝ → ℝ, AEStronglyMeasurable f stdN → ∫ z : ℝ × ℝ, f z.2 ∂stdN2 = ∫ x, f x ∂stdN := by
    intro f hf
    rw [← hmp.map_eq] at hf ⊢
    exact (integral_map hmp.measurable.aemeasurable hf).symm
  have hz : ∫ z, z.2 ∂stdN2 = 0 := by
    rw [e (fun x => x) h1.aestronglyMeasurable, h2]
  refine ⟨hm, hz, ?_⟩
  rw [variance_eq_sub hm, hz]
  simp only [Pi.pow_apply]
  rw [e (fun x => x ^ 2) (by fun_prop), h3]
  norm_num

/-- Second moment of a mean of independent noise values with offset. -/
theorem mean_square {n : Nat} (A : Finset (Fin n)) (hA : A.Nonempty) (c : ℝ × ℝ → ℝ) (hc : MemLp c 2 stdN2 ∧ ∫ z, c z ∂stdN2 = 0 ∧ Var[c; stdN2] = 1) (a sg : ℝ) :
    Integrable (fun w : Fin n → ℝ × ℝ => ((∑ j ∈ A, (a + sg * c (w j))) / A.card) ^ 2) (noiseLaw n) ∧
    ∫ w, ((∑ j ∈ A, (a + sg * c (w j))) / A.card) ^ 2 ∂noiseLaw n = a ^ 2 + sg ^ 2 / A.card := by
  obtain ⟨h1, h2, h3⟩ := hc
  have hK : (0 : ℝ) < A.card := by exact_mod_cast hA.card_pos
  obtain ⟨X, hX⟩ : ∃ X : Fin n → (Fin n → ℝ × ℝ) → ℝ, X = fun j w => c (w j) := ⟨_, rfl⟩
  have hmp : ∀ j, MeasurePreserving (fun w : Fin n → ℝ × ℝ => w j) (noiseLaw n) stdN2 := fun j => measurePreserving_eval (fun _ : Fin n => stdN2) j
  have hXm : ∀ j, MemLp (X j) 2 (noiseLaw n) := by
    intro j
    rw [hX]
    exact h1.comp_measurePreserving (hmp j)
  have hXi : ∀ j, ∫ w, X j w ∂noiseLaw n = 0 := by
    intro j
    rw [hX, ← h2]
    exact integral_comp_eval (μ := fun _ : Fin n => stdN2) (i := j) h1.aestronglyMeasurable
  have hXv : ∀ j, Var[X j; noiseLaw n] = 1 := by
    intro j
    rw [variance_eq_sub (hXm j), hXi j, ← h3, variance_eq_sub h1, h2, hX]
    congr 1
    exact integral_comp_eval (μ := fun _ : Fin n => stdN2) (i := j) (f := fun z => c z ^ 2) (h1.integrable_sq.aestronglyMeasurable)
  have hind : iIndepFun X (noiseLaw n) := by
    rw [hX]
    exact iIndepFun_pi (fun _ => h1.aestronglyMeasurable.aemeasurable)
  obtain ⟨Y, hY⟩ : ∃ Y : (Fin n → ℝ × ℝ) → ℝ, Y = ∑ j ∈ A, X j := ⟨_, rfl⟩
  have hYm : MemLp Y 2 (noiseLaw n) := by rw [hY]; exact memLp_finsetSum' A fun j _ => hXm j
  have hYv : Var[Y; noiseLaw n] = A.card := by
    rw [hY, IndepFun.variance_sum (fun j _ => hXm j) (fun i _ j _ hij => hind.indepFun hij)]
    simp [hXv]
  have hYi : ∫ w, Y w ∂noiseLaw n = 0 := by
    rw [hY]
    simp only [Finset.sum_apply]
    rw [integral_finsetSum _ fun j _ => (hXm j).integrable (by norm_num)]
    simp [hXi]
  have hY2 : ∫ w, Y w ^ 2 ∂noiseLaw n = A.card := by
    have := variance_eq_sub hYm
    rw [hYv, hYi] at this
    simp only [Pi.pow_apply] at this
    linarith
  have e : (fun w : Fin n → ℝ × ℝ => ((∑ j ∈ A, (a + sg * c (w j))) / A.card) ^ 2) = fun w => a ^ 2 + 2 * a * sg / A.card * Y w + sg ^ 2 / (A.card : ℝ) ^ 2 * Y w ^ 2 := by
    funext w
    have hYw : Y w = ∑ j ∈ A, c (w j) := by rw [hY, hX]; simp
    rw [Finset.sum_add_distrib, ← Finset.mul_sum, ← hYw, Finset.sum_const, nsmul_eq_mul]
    field_simp
    ring
  have i1 : Integrable (fun w => 2 * a * sg / A.card * Y w) (noiseLaw n) := (hYm.integrable (by norm_num)).const_mul _
  have i2 : Integrable (fun w => sg ^ 2 / (A.card : ℝ) ^ 2 * Y w ^ 2) (noiseLaw n) := hYm.integrable_sq.const_mul _
  have i3 : Integrable (fun w => a ^ 2 + 2 * a * sg / A.card * Y w) (noiseLaw n) := (integrable_const _).add i1
  rw [e]
  refine ⟨i3.add i2, ?_⟩
  rw [integral_add i3 i2, integral_add (integrable_const _) i1, integral_const_mul, integral_const_mul, hYi, hY2]
  simp only [integral_const, probReal_univ, smul_eq_mul, one_mul]
  field_simp
  ring

theorem classMean_ofFn {n : Nat} (rx tx : Fin n → ℂ) (s : ℂ) :
    classMean (List.ofFn rx) (List.ofFn tx) s = (∑ j with tx j = s, rx j) / ((Finset.univ.filter fun j => tx j = s).card : ℂ) := by
  unfold classMean
  rw [zip_ofFn, List.map_ofFn, List.sum_ofFn]
  congr 1
  · rw [Finset.sum_filter]
    rfl
  · rw [List.count, countP_ofFn, Finset.card_filter]
    simp

theorem fiber_inv {n : Nat} {gray : List ℂ} (hnd : gray.Nodup) (tx : Fin n → ℂ) (htx : ∀ k, tx k ∈ gray) (hall : ∀ s ∈ gray, ∃ k, tx k = s) :
    ∑ k, (1 : ℝ) / ((Finset.univ.filter fun j => tx j = tx k).card : ℝ) = gray.length := by
  classical
  rw [← Finset.sum_fiberwise_of_maps_to (g := tx) (t := gray.toFinset) (fun k _ => List.mem_toFinset.2 (htx k))]
  have e : ∀ s ∈ gray.toFinset, ∑ k with tx k = s, (1 : ℝ) / ((Finset.univ.filter fun j => tx j = tx k).card : ℝ) = 1 := by
    intro s hs
    have e2 : ∀ k ∈ Finset.univ.filter (fun k => tx k = s), (1 : ℝ) / ((Finset.univ.filter fun j => tx j = tx k).card : ℝ) = 1 / ((Finset.univ.filter fun j => tx j = s).card : ℝ) := by
      intro k hk
      rw [(Finset.mem_filter.1 hk).2]
    rw [Finset.sum_congr rfl e2, Finset.sum_const, nsmul_eq_mul, mul_one_div]
    apply div_self
    obtain ⟨k, hk⟩ := hall s (List.mem_toFinset.1 hs)
    have : 0 < (Finset.univ.filter fun j => tx j = s).card := Finset.card_pos.2 ⟨k, by simp [hk]⟩
    exact_mod_cast this.ne'
  rw [Finset.sum_congr rfl e, Finset.sum_const, List.toFinset_card_of_nodup hnd]
  simp

/-- C122: bias of the SNR estimate. For a transmitted sequence of `n` symbols in which all `M` symbols of the alphabet occur, received with independent noise of variance `N0`,
`estimate_snr` always returns numbers, its noise power is on average `N0 * (1 - M / n)` and its signal power on average the power of the sequence plus `N0 * M / n`. -/
theorem C122_bias {n : Nat} (gray : List ℂ) (hnd : gray.Nodup) (tx : Fin n → ℂ) (htx : ∀ k, tx k ∈ gray) (hall : ∀ s ∈ gray, ∃ k, tx k = s) (hne : gray ≠ []) (N0 : ℝ) (h0 : 0 ≤ N0) :
    ∃ S N : (Fin n → ℝ × ℝ) → ℝ, (∀ w, estimateSnr (List.ofFn fun k => rcv N0 (tx k) (w k)) (List.ofFn tx) gray = some (S w / N w, S w, N w)) ∧
      Integrable S (noiseLaw n) ∧ Integrable N (noiseLaw n) ∧
      ∫ w, N w ∂noiseLaw n = N0 * (1 - gray.length / n) ∧ ∫ w, S w ∂noiseLaw n = (∑ k, ‖tx k‖ ^ 2) / n + N0 * gray.length / n := by
  have hn : 0 < n := by
    obtain ⟨s, l, rfl⟩ := List.exists_cons_of_ne_nil hne
    obtain ⟨k, -⟩ := hall s (by simp)
    exact k.pos
  have hn' : (0 : ℝ) < n := by exact_mod_cast hn
  obtain ⟨sg, hsg⟩ : ∃ sg, sg = Real.sqrt (N0 / 2) := ⟨_, rfl⟩
  have hsg2 : sg ^ 2 = N0 / 2 := by rw [hsg]; exact Real.sq_sqrt (by positivity)
  have hspec : ∀ w : Fin n → ℝ × ℝ, ∃ S N : ℝ, estimateSnr (List.ofFn fun k => rcv N0 (tx k) (w k)) (List.ofFn tx) gray = some (S / N, S, N) ∧
      S = (∑ k, ‖(∑ j with tx j = tx k, rcv N0 (tx j) (w j)) / ((Finset.univ.filter fun j => tx j = tx k).card : ℂ)‖ ^ 2) / n ∧ S + N = (∑ k, ‖rcv N0 (tx k) (w k)‖ ^ 2) / n := by
    intro w
    obtain ⟨S, N, h1, h2, -, h4⟩ := C66_estimate_snr (List.ofFn fun k => rcv N0 (tx k) (w k)) (List.ofFn tx) gray (by simp) hnd
      (by
        intro s hs
        obtain ⟨k, rfl⟩ := (List.mem_ofFn' _ _).1 hs
        exact htx k)
      (by
        intro s hs
        obtain ⟨k, hk⟩ := hall s hs
        exact (List.mem_ofFn' _ _).2 ⟨k, hk⟩)
    refine ⟨S, N, h1, ?_, ?_⟩
    · rw [h2, zip_ofFn, sum_map_ofFn, List.length_ofFn]
      simp_rw [classMean_ofFn]
    · rw [h4, sum_map_ofFn, List.length_ofFn]
  choose S N hS1 hS2 hS3 using hspec
  refine ⟨S, N, hS1, ?_⟩
  have hterm : ∀ k, Integrable (fun w : Fin n → ℝ × ℝ => ‖(∑ j with tx j = tx k, rcv N0 (tx j) (w j)) / ((Finset.univ.filter fun j => tx j = tx k).card : ℂ)‖ ^ 2) (noiseLaw n) ∧
      ∫ w : Fin n → ℝ × ℝ, ‖(∑ j with tx j = tx k, rcv N0 (tx j) (w j)) / ((Finset.univ.filter fun j => tx j = tx k).card : ℂ)‖ ^ 2 ∂noiseLaw n = ‖tx k‖ ^ 2 + N0 * (1 / ((Finset.univ.filter fun j => tx j = tx k).card : ℝ)) := by
    intro k
    obtain ⟨A, hA⟩ : ∃ A, A = Finset.univ.filter fun j => tx j = tx k := ⟨_, rfl⟩
    have hAne : A.Nonempty := ⟨k, by rw [hA]; simp⟩
    obtain ⟨a1, a2⟩ := mean_square A hAne _ stdN2_fst_moments (tx k).re sg
    obtain ⟨b1, b2⟩ := mean_square A hAne _ stdN2_snd_moments (tx k).im sg
    have e : ∀ w : Fin n → ℝ × ℝ, ‖(∑ j with tx j = tx k, rcv N0 (tx j) (w j)) / ((Finset.univ.filter fun j => tx j = tx k).card : ℂ)‖ ^ 2 =
        ((∑ j ∈ A, ((tx k).re + sg * (w j).1)) / A.card) ^ 2 + ((∑ j ∈ A, ((tx k).im + sg * (w j).2)) / A.card) ^ 2 := by
      intro w
      rw [← hA]
      have e1 : ∑ j ∈ A, rcv N0 (tx j) (w j) = ⟨∑ j ∈ A, ((tx k).re + sg * (w j).1), ∑ j ∈ A, ((tx k).im + sg * (w j).2)⟩ := by
        apply Complex.ext
        · rw [Complex.re_sum]
          apply Finset.sum_congr rfl
          intro j hj
          rw [hA] at hj
          simp [rcv, (Finset.mem_filter.1 hj).2, hsg]
        · rw [Complex.im_sum]
          apply Finset.sum_congr rfl
          intro j hj
          rw [hA] at hj
          simp [rcv, (Finset.mem_filter.1 hj).2, hsg]
      rw [e1, ← Complex.normSq_eq_norm_sq, Complex.normSq_div, Complex.normSq_natCast, Complex.normSq_mk, div_pow, div_pow]
      ring
    simp_rw [e]
    refine ⟨a1.add b1, ?_⟩
    rw [integral_add a1 b1, a2, b2, hsg2, ← hA, ← Complex.normSq_eq_norm_sq, Complex.normSq_apply]
    ring
  have hpow : ∀ k, Integrable (fun w : Fin n → ℝ × ℝ => ‖rcv N0 (tx k) (w k)‖ ^ 2) (noiseLaw n) ∧ ∫ w : Fin n → ℝ × ℝ, ‖rcv N0 (tx k) (w k)‖ ^ 2 ∂noiseLaw n = ‖tx k‖ ^ 2 + N0 := by
    intro k
    obtain ⟨a1, a2⟩ := mean_square {k} (Finset.singleton_nonempty k) _ stdN2_fst_moments (tx k).re sg
    obtain ⟨b1, b2⟩ := mean_square {k} (Finset.singleton_nonempty k) _ stdN2_snd_moments (tx k).im sg
    have e : ∀ w : Fin n → ℝ × ℝ, ‖rcv N0 (tx k) (w k)‖ ^ 2 = ((∑ j ∈ {k}, ((tx k).re + sg * (w j).1)) / (Finset.card {k} : ℝ)) ^ 2 + ((∑ j ∈ {k}, ((tx k).im + sg * (w j).2)) / (Finset.card {k} : ℝ)) ^ 2 := by
      intro w
      rw [← Complex.normSq_eq_norm_sq, Complex.normSq_apply]
      simp [rcv, hsg]
      ring
    simp_rw [e]
    refine ⟨a1.add b1, ?_⟩
    rw [integral_add a1 b1, a2, b2, hsg2, ← Complex.normSq_eq_norm_sq, Complex.normSq_apply]
    simp
    ring
  have hSint : Integrable S (noiseLaw n) := by
    have : S = fun w => (∑ k, ‖(∑ j with tx j = tx k, rcv N0 (tx j) (w j)) / ((Finset.univ.filter fun j => tx j = tx k).card : ℂ)‖ ^ 2) / n := funext hS2
    rw [this]
    exact (integrable_finsetSum _ fun k _ => (hterm k).1).div_const _
  have hTint : Integrable (fun w => (∑ k, ‖rcv N0 (tx k) (w k)‖ ^ 2) / (n : ℝ)) (noiseLaw n) := (integrable_finsetSum _ fun k _ => (hpow k).1).div_const _
  have hNe : N = fun w => (∑ k, ‖rcv N0 (tx k) (w k)‖ ^ 2) / n - S w := by
    funext w
    rw [← hS3 w]
    ring
  have hES : ∫ w, S w ∂noiseLaw n = (∑ k, ‖tx k‖ ^ 2) / n + N0 * gray.length / n := by
    simp_rw [hS2]
    rw [integral_div, integral_finsetSum _ fun k _ => (hterm k).1]
    simp_rw [(hterm _).2]
    rw [Finset.sum_add_distrib, ← Finset.mul_sum, fiber_inv hnd tx htx hall, add_div]
  have hET : ∫ w, (∑ k, ‖rcv N0 (tx k) (w k)‖ ^ 2) / (n : ℝ) ∂noiseLaw n = (∑ k, ‖tx k‖ ^ 2) / n + N0 := by
    rw [integral_div, integral_finsetSum _ fun k _ => (hpow k).1]
    simp_rw [(hpow _).2]
    rw [Finset.sum_add_distrib, Finset.sum_const, Finset.card_univ, Fintype.card_fin, nsmul_eq_mul, add_div, mul_div_cancel_left₀ _ hn'.ne']
  refine ⟨hSint, ?_, ?_, hES⟩
  · rw [hNe]
    exact hTint.sub hSint
  · rw [hNe, integral_sub hTint hSint, hET, hES]
    ring

/-- The hypotheses hold for a sequence that repeats the alphabet. -/
example : ([1, -1] : List ℂ).Nodup ∧ (∀ k : Fin 4, (![1, -1, -1, 1] : Fin 4 → ℂ) k ∈ ([1, -1] : List ℂ)) ∧ ∀ s ∈ ([1, -1] : List ℂ), ∃ k : Fin 4, (![1, -1, -1, 1] : Fin 4 → ℂ) k = s := by
  refine ⟨?_, ?_, ?_⟩
  · have : (1 : ℂ) ≠ -1 := by
      intro h
      have := congrArg Complex.re h
      norm_num at this
    simp [this]
  · intro k
    fin_cases k <;> simp
  · intro s hs
    rcases List.mem_cons.1 hs with rfl | hs
    · exact ⟨0, rfl⟩
    · rw [List.mem_singleton.1 hs]
      exact ⟨1, rfl⟩

/-! ### Phase noise -/

/-- The law of the `n` normal draws of `phase_noise`. -/
noncomputable abbrev drawLaw (n : Nat) : Measure (Fin n → ℝ) := Measure.pi fun _ => stdN

/-- The draws as the model takes them. -/
def drawFun {n : Nat} (w : Fin n → ℝ) (j : Nat) : ℝ := if h : j < n then w ⟨j, h⟩ else 0

theorem phaseNoise_getElem (df fs : ℝ) {n m : Nat} (w : Fin n → ℝ) (hm : m < n) :
    (phaseNoiseRow df fs (drawFun w) n)[m]? = some (Real.sqrt (2 * Real.pi * df / fs) * ∑ j : Fin n, if (j : ℕ) ≤ m then w j else 0) := by
  unfold phaseNoiseRow
  rw [getElem?_cumsumGo _ _ _ (by simpa using hm), zero_add]
  congr 1
  have e : ∀ j ∈ Finset.range (m + 1), ((List.range n).map fun j => Real.sqrt (2 * Real.pi * df / fs) * drawFun w j).getD j 0 = Real.sqrt (2 * Real.pi * df / fs) * drawFun w j := by
    intro j hj
    have hj' : j < n := by have := Finset.mem_range.1 hj; omega
    simp [List.getD_eq_getElem?_getD, hj']
  rw [Finset.sum_congr rfl e, ← Finset.mul_sum]
  congr 1
  have e2 : ∀ j : Fin n, (if (j : ℕ) ≤ m then w j else 0) = (fun j : ℕ => if j ≤ m then drawFun w j else 0) j := by
    intro j
    simp [drawFun]
  simp_rw [e2]
  rw [Fin.sum_univ_eq_sum_range (fun j : ℕ => if j ≤ m then drawFun w j else 0) n, ← Finset.sum_filter]
  apply Finset.sum_congr _ fun _ _ => rfl
  ext j
  simp
  omega

/-- Characteristic function of a sum of some of the draws. -/
theorem draw_char {n : Nat} (A : Finset (Fin n)) (t : ℝ) : ∫ w, Complex.exp (Complex.I * ((t * ∑ j ∈ A, w j : ℝ) : ℂ)) ∂drawLaw n = Complex.exp (((-(t ^ 2 * A.card / 2) : ℝ)) : ℂ) := by
  have hg : ∫ x : ℝ, Complex.exp (Complex.I * ((t * x : ℝ) : ℂ)) ∂stdN = Complex.exp (((-(t ^ 2 / 2) : ℝ)) : ℂ) := by
    have h := charFun_gaussianReal (μ := 0) (v := 1) t
    rw [charFun_apply_real] at h
    rw [show (((-(t ^ 2 / 2) : ℝ)) : ℂ) = t * ((0 : ℝ) : ℂ) * Complex.I - ((1 : NNReal) : ℝ) * t ^ 2 / 2 by push_cast; ring, ← h]
    congr 1
    funext x
    congr 1
    push_cast
    ring
  have e : ∀ w : Fin n → ℝ, Complex.exp (Complex.I * ((t * ∑ j ∈ A, w j : ℝ) : ℂ)) = ∏ j, (if j ∈ A then Complex.exp (Complex.I * ((t * w j : ℝ) : ℂ)) else 1) := by
    intro w
    rw [Finset.prod_ite_mem, Finset.univ_inter, ← Complex.exp_sum]
    congr 1
    push_cast
    rw [Finset.mul_sum, Finset.mul_sum]
  simp_rw [e]
  rw [integral_fintype_prod_eq_prod (μ := fun _ : Fin n => stdN) (f := fun j x => if j ∈ A then Complex.exp (Complex.I * ((t * x : ℝ) : ℂ)) else 1)]
  have e2 : ∀ j : Fin n, (∫ x : ℝ, (if j ∈ A then Complex.exp (Complex.I * ((t * x : ℝ) : ℂ)) else 1) ∂stdN) = if j ∈ A then Complex.exp (((-(t ^ 2 / 2) : ℝ)) : ℂ) else 1 := by
    intro j
    by_cases hj : j ∈ A
    · simp only [hj, if_true]
      exact hg
    · simp [hj]
  simp_rw [e2]
  rw [Finset.prod_ite_mem, Finset.univ_inter, Finset.prod_const, ← Complex.exp_nat_mul]
  congr 1
  push_cast
  ring

/-- C123: the phase noise is a Wiener process: between two samples `l` and `m ≥ l` the phase changes by a normally distributed amount of variance `2 π df (m - l) / fs`. -/
theorem C123_wiener {n : Nat} (df fs : ℝ) (hdf : 0 ≤ df) (hfs : 0 < fs) (l m : Nat) (hlm : l ≤ m) (hm : m < n) :
    ∃ P Q : (Fin n → ℝ) → ℝ, (∀ w, (phaseNoiseRow df fs (drawFun w) n)[l]? = some (P w)) ∧ (∀ w, (phaseNoiseRow df fs (drawFun w) n)[m]? = some (Q w)) ∧
      (drawLaw n).map (fun w => Q w - P w) = gaussianReal 0 (Real.toNNReal (2 * Real.pi * df * ((m : ℝ) - l) / fs)) ∧
      (drawLaw n).map Q = gaussianReal 0 (Real.toNNReal (2 * Real.pi * df * (m + 1) / fs)) := by
  obtain ⟨sg, hsg⟩ : ∃ sg, sg = Real.sqrt (2 * Real.pi * df / fs) := ⟨_, rfl⟩
  have hpi := Real.pi_pos
  have hsg2 : sg ^ 2 = 2 * Real.pi * df / fs := by rw [hsg]; exact Real.sq_sqrt (by positivity)
  refine ⟨fun w => sg * ∑ j : Fin n, (if (j : ℕ) ≤ l then w j else 0), fun w => sg * ∑ j : Fin n, (if (j : ℕ) ≤ m then w j else 0), ?_, ?_, ?_⟩
  · intro w
    rw [hsg]
    exact phaseNoise_getElem df fs w (by omega)
  · intro w
    rw [hsg]
    exact phaseNoise_getElem df fs w hm
  have key : ∀ (A : Finset (Fin n)) (v : ℝ), 0 ≤ v → sg ^ 2 * A.card = v → (drawLaw n).map (fun w => sg * ∑ j ∈ A, w j) = gaussianReal 0 (Real.toNNReal v) := by
    intro A v hv hA
    have hmeas : Measurable fun w : Fin n → ℝ => sg * ∑ j ∈ A, w j := by fun_prop
    have : IsProbabilityMeasure ((drawLaw n).map fun w => sg * ∑ j ∈ A, w j) := Measure.isProbabilityMeasure_map hmeas.aemeasurable
    apply Measure.ext_of_charFun
    funext t
    rw [charFun_apply_real, charFun_gaussianReal, integral_map hmeas.aemeasurable (by fun_prop)]
    have h := draw_char A (t * sg)
    have e : ∀ w : Fin n → ℝ, Complex.exp (t * ((sg * ∑ j ∈ A, w j : ℝ) : ℂ) * Complex.I) = Complex.exp (Complex.I * ((t * sg * ∑ j ∈ A, w j : ℝ) : ℂ)) := by
      intro w
      congr 1
      push_cast
      ring
    simp_rw [e]
    rw [h]
    congr 1
    rw [Real.coe_toNNReal _ hv, ← hA]
    push_cast
    ring
  have hcard : ∀ a b : Nat, a ≤ b → b ≤ n → (Finset.univ.filter fun j : Fin n => a ≤ (j : ℕ) ∧ (j : ℕ) < b).card = b - a := by
    intro a b hab hb
    have : (Finset.univ.filter fun j : Fin n => a ≤ (j : ℕ) ∧ (j : ℕ) < b).map Fin.valEmbedding = Finset.Ico a b := by
      ext j
      simp only [Finset.mem_map, Finset.mem_filter, Finset.mem_univ, true_and, Fin.valEmbedding_apply, Finset.mem_Ico]
      constructor
      · rintro ⟨x, hx, rfl⟩
        exact hx
      · intro hj
        exact ⟨⟨j, by omega⟩, hj, rfl⟩
    rw [← Finset.card_map Fin.valEmbedding, this, Nat.card_Ico]
  have hdiff : (0 : ℝ) ≤ (m : ℝ) - l := by
    have : (l : ℝ) ≤ m := by exact_mod_cast hlm
    linarith
  constructor
  · rw [← key (Finset.univ.filter fun j : Fin n => l + 1 ≤ (j : ℕ) ∧ (j : ℕ) < m + 1) _ (by positivity)]
    · congr 1
      funext w
      rw [← mul_sub, ← Finset.sum_sub_distrib, Finset.sum_filter]
      congr 1
      apply Finset.sum_congr rfl
      intro j _
      by_cases h1 : (j : ℕ) ≤ l
      · rw [if_pos h1, if_pos (by omega), if_neg (by omega), sub_self]
      · by_cases h2 : (j : ℕ) ≤ m
        · rw [if_neg h1, if_pos h2, if_pos (by omega), sub_zero]
        · rw [if_neg h1, if_neg h2, if_neg (by omega), sub_zero]
    · rw [hcard _ _ (by omega) (by omega), hsg2, Nat.cast_sub (by omega)]
      push_cast
      ring
  · rw [← key (Finset.univ.filter fun j : Fin n => 0 ≤ (j : ℕ) ∧ (j : ℕ) < m + 1) _ (by positivity)]
    · congr 1
      funext w
      rw [Finset.sum_filter]
      congr 1
      apply Finset.sum_congr rfl
      intro j _
      congr 1
      apply propext
      omega
    · rw [hcard _ _ (by omega) (by omega), hsg2]
      push_cast
      ring

/-- C123: the coherence of a carrier with phase noise decays exponentially with the distance of the samples (Lorentzian line of full width `df`), the moduli are unchanged. -/
theorem C123_coherence {n : Nat} (x : Fin n → ℂ) (df fs : ℝ) (hdf : 0 ≤ df) (hfs : 0 < fs) (l m : Fin n) :
    ∃ y : (Fin n → ℝ) → Fin n → ℂ, (∀ w, applyPhaseNoise [List.ofFn x] df fs (fun _ => drawFun w) = [List.ofFn (y w)]) ∧ (∀ w k, ‖y w k‖ = ‖x k‖) ∧
      ∫ w, y w m * (starRingEnd ℂ) (y w l) ∂drawLaw n = x m * (starRingEnd ℂ) (x l) * (Real.exp (-(Real.pi * df * |(m : ℝ) - l| / fs)) : ℂ) := by
  have hpi := Real.pi_pos
  obtain ⟨sg, hsg⟩ : ∃ sg, sg = Real.sqrt (2 * Real.pi * df / fs) := ⟨_, rfl⟩
  have hsg2 : sg ^ 2 = 2 * Real.pi * df / fs := by rw [hsg]; exact Real.sq_sqrt (by positivity)
  obtain ⟨ph, hph⟩ : ∃ ph : (Fin n → ℝ) → Fin n → ℝ, ph = fun (w : Fin n → ℝ) (k : Fin n) => sg * ∑ j : Fin n, if (j : ℕ) ≤ k then w j else 0 := ⟨_, rfl⟩
  refine ⟨fun w k => x k * Complex.exp (Complex.I * (ph w k : ℂ)), ?_, ?_, ?_⟩
  · intro w
    unfold applyPhaseNoise
    rw [List.mapIdx_cons, List.mapIdx_nil]
    congr 1
    have hrow : phaseNoiseRow df fs (drawFun w) (List.ofFn x).length = List.ofFn (ph w) := by
      apply List.ext_getElem?
      intro k
      by_cases hk : k < n
      · rw [List.length_ofFn, phaseNoise_getElem df fs w hk, List.getElem?_ofFn, dif_pos hk, hph, hsg]
      · rw [List.getElem?_eq_none (by simp [phaseNoiseRow]; omega), List.getElem?_eq_none (by simp; omega)]
    rw [hrow, zipWith_ofFn]
  · intro w k
    rw [norm_mul, mul_comm Complex.I, Complex.norm_exp_ofReal_mul_I, mul_one]
  · have hcomm : ∀ w, x m * Complex.exp (Complex.I * (ph w m : ℂ)) * (starRingEnd ℂ) (x l * Complex.exp (Complex.I * (ph w l : ℂ))) = x m * (starRingEnd ℂ) (x l) * Complex.exp (Complex.I * ((ph w m - ph w l : ℝ) : ℂ)) := by
      intro w
      rw [map_mul, ← Complex.exp_conj, map_mul, Complex.conj_I, Complex.conj_ofReal, mul_mul_mul_comm, ← Complex.exp_add]
      congr 2
      push_cast
      ring
    dsimp only
    simp_rw [hcomm]
    rw [integral_const_mul]
    congr 1
    have hcard : ∀ a b : Nat, a ≤ b → b < n → (Finset.univ.filter fun j : Fin n => a < (j : ℕ) ∧ (j : ℕ) ≤ b).card = b - a := by
      intro a b hab hb
      have : (Finset.univ.filter fun j : Fin n => a < (j : ℕ) ∧ (j : ℕ) ≤ b).map Fin.valEmbedding = Finset.Ioc a b := by
        ext j
        simp only [Finset.mem_map, Finset.mem_filter, Finset.mem_univ, true_and, Fin.valEmbedding_apply, Finset.mem_Ioc]
        constructor
        · rintro ⟨x, hx, rfl⟩
          exact hx
        · intro hj
          exact ⟨⟨j, by omega⟩, hj, rfl⟩
      rw [← Finset.card_map Fin.valEmbedding, this, Nat.card_Ioc]
    have hphd : ∀ (w : Fin n → ℝ) (a b : Fin n), a ≤ b → ph w b - ph w a = sg * ∑ j ∈ Finset.univ.filter (fun j : Fin n => (a : ℕ) < (j : ℕ) ∧ (j : ℕ) ≤ b), w j := by
      intro w a b hab
      have hab' : (a : ℕ) ≤ b := hab
      rw [hph]
      dsimp only
      rw [← mul_sub, ← Finset.sum_sub_distrib, Finset.sum_filter]
      congr 1
      apply Finset.sum_congr rfl
      intro j _
      by_cases h1 : (j : ℕ) ≤ a
      · rw [if_pos h1, if_pos (by omega), if_neg (by omega), sub_self]
      · by_cases h2 : (j : ℕ) ≤ b
        · rw [if_neg h1, if_pos h2, if_pos (by omega), sub_zero]
        · rw [if_neg h1, if_neg h2, if_neg (by omega), sub_zero]
    rcases le_total l m with h | h
    · have h' : (l : ℕ) ≤ m := h
      have hr : ((l : ℕ) : ℝ) ≤ (m : ℕ) := by exact_mod_cast h'
      simp_rw [hphd _ l m h]
      rw [draw_char, hcard _ _ h' m.2, hsg2, abs_of_nonneg (by linarith), Nat.cast_sub h', Complex.ofReal_exp]
      congr 2
      field_simp
    · have h' : (m : ℕ) ≤ l := h
      have hr : ((m : ℕ) : ℝ) ≤ (l : ℕ) := by exact_mod_cast h'
      have e : ∀ w, ph w m - ph w l = (-sg) * ∑ j ∈ Finset.univ.filter (fun j : Fin n => (m : ℕ) < (j : ℕ) ∧ (j : ℕ) ≤ l), w j := by
        intro w
        rw [neg_mul, ← hphd w m l h]
        ring
      simp_rw [e]
      rw [draw_char, hcard _ _ h' l.2, neg_sq, hsg2, abs_of_nonpos (by linarith), Nat.cast_sub h', Complex.ofReal_exp]
      congr 2
      field_simp
      ring

/-- A 100 kHz linewidth at 20 GHz sampling rate. -/
example : (0 : ℝ) ≤ 100000 ∧ (0 : ℝ) < 20000000000 ∧ (3 : Nat) ≤ 7 ∧ (7 : Nat) < 10 := by norm_num

end Qampy
