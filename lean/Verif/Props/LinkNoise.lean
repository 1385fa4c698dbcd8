import Verif.Props.Sampling
import Verif.Props.Stats
import Verif.Props.SearchQam
import Mathlib.Analysis.SpecialFunctions.PolarCoord
import Mathlib.Analysis.Real.Pi.Bounds

/-!
C212: a link with laser phase noise and additive noise, received with the blind phase search, is error free with a probability that is bounded explicitly.
-/

namespace Qampy

open MeasureTheory ProbabilityTheory
open Complex (I)

/-- Tail of a centred normal variable. -/
theorem gauss_tail {Ω : Type*} [MeasurableSpace Ω] (P : Measure Ω) (X : Ω → ℝ) (v : NNReal) (hX : P.map X = gaussianReal 0 v) (hm : AEMeasurable X P)
    (Δ : ℝ) (hΔ : 0 ≤ Δ) : P.real {w | Δ ≤ |X w|} ≤ 2 * Real.exp (-Δ ^ 2 / (2 * v)) := by
  have key : ∀ Y : Ω → ℝ, P.map Y = gaussianReal 0 v → AEMeasurable Y P → P.real {w | Δ ≤ Y w} ≤ Real.exp (-Δ ^ 2 / (2 * v)) := by
    intro Y hY hmY
    have hs : HasSubgaussianMGF Y v P := by
      refine ⟨fun t => ?_, fun t => ?_⟩
      · have := integrable_exp_mul_gaussianReal (μ := 0) (v := v) t
        rw [← hY] at this
        exact this.comp_aemeasurable hmY
      · rw [mgf_gaussianReal hY]
        simp
    exact hs.measure_ge_le hΔ
  have hneg : P.map (fun w => -X w) = gaussianReal 0 v := by
    have := AEMeasurable.map_map_of_aemeasurable (f := X) (g := fun x : ℝ => -x) (μ := P) (by fun_prop) hm
    have h2 := gaussianReal_map_neg (μ := 0) (v := v)
    rw [← hX, this] at h2
    rw [show (fun w => -X w) = (fun x : ℝ => -x) ∘ X from rfl, h2, neg_zero]
  have : IsProbabilityMeasure (P.map X) := by rw [hX]; infer_instance
  have : IsFiniteMeasure P := by
    refine ⟨?_⟩
    rw [← Set.preimage_univ (f := X), ← Measure.map_apply_of_aemeasurable hm MeasurableSet.univ]
    exact measure_lt_top _ _
  have hsub : {w | Δ ≤ |X w|} ⊆ {w | Δ ≤ X w} ∪ {w | Δ ≤ -X w} := by
    intro w hw
    rw [Set.mem_ofPred_eq, le_abs] at hw
    exact hw
  refine (measureReal_mono hsub (measure_ne_top _ _)).trans ((measureReal_union_le _ _).trans ?_)
  have := key X hX hm
  have := key (fun w => -X w) hneg hm.neg
  linarith

/-- The amplitude of a complex normal variable has a Rayleigh distribution. -/
theorem rayleigh_tail (R : ℝ) (hR : 0 ≤ R) : stdN2.real {v : ℝ × ℝ | R ^ 2 < v.1 ^ 2 + v.2 ^ 2} = Real.exp (-R ^ 2 / 2) := by
  have hpi := Real.pi_pos
  have hd : stdN2 = (volume : Measure (ℝ × ℝ)).withDensity fun z => gaussianPDF 0 1 z.1 * gaussianPDF 0 1 z.2 := by
    show (gaussianReal 0 1).prod (gaussianReal 0 1) = _
    rw [gaussianReal_of_var_ne_zero 0 one_ne_zero, prod_withDensity (measurable_gaussianPDF 0 1) (measurable_gaussianPDF 0 1)]
    rfl
  have hS : MeasurableSet {v : ℝ × ℝ | R ^ 2 < v.1 ^ 2 + v.2 ^ 2} := measurableSet_lt (by fun_prop) (by fun_prop)
  have hval : stdN2 {v : ℝ × ℝ | R ^ 2 < v.1 ^ 2 + v.2 ^ 2} = ENNReal.ofReal (Real.exp (-R ^ 2 / 2)) := by
    rw [hd, withDensity_apply _ hS, ← lintegral_indicator hS, ← lintegral_comp_polarCoord_symm]
    have e : ∀ p ∈ polarCoord.target, ENNReal.ofReal p.1 • ({v : ℝ × ℝ | R ^ 2 < v.1 ^ 2 + v.2 ^ 2}.indicator (fun z : ℝ × ℝ => gaussianPDF 0 1 z.1 * gaussianPDF 0 1 z.2) (polarCoord.symm p)) =
        (Set.Ioi R).indicator (fun r : ℝ => ENNReal.ofReal (r * Real.exp (-r ^ 2 / 2) / (2 * Real.pi))) p.1 := by
      rintro ⟨r, φ⟩ hp
      have hr : 0 < r := by
        rw [polarCoord_target] at hp
        exact hp.1
      have hsq : (r * Real.cos φ) ^ 2 + (r * Real.sin φ) ^ 2 = r ^ 2 := by
        rw [mul_pow, mul_pow, ← mul_add, Real.cos_sq_add_sin_sq, mul_one]
      rw [polarCoord_symm_apply]
      by_cases h : R < r
      · rw [Set.indicator_of_mem, Set.indicator_of_mem (show r ∈ Set.Ioi R from h)]
        · show ENNReal.ofReal r * (ENNReal.ofReal _ * ENNReal.ofReal _) = _
          rw [← ENNReal.ofReal_mul (gaussianPDFReal_nonneg _ _ _), ← ENNReal.ofReal_mul hr.le]
          congr 1
          unfold gaussianPDFReal
          have : Real.exp (-(r * Real.cos φ - 0) ^ 2 / (2 * ((1 : NNReal) : ℝ))) * Real.exp (-(r * Real.sin φ - 0) ^ 2 / (2 * ((1 : NNReal) : ℝ))) = Real.exp (-r ^ 2 / 2) := by
            rw [← Real.exp_add, ← hsq]
            congr 1
            push_cast
            ring
          have h2 : (√(2 * Real.pi * ((1 : NNReal) : ℝ)))⁻¹ * (√(2 * Real.pi * ((1 : NNReal) : ℝ)))⁻¹ = (2 * Real.pi)⁻¹ := by
            rw [← mul_inv, Real.mul_self_sqrt (by push_cast; positivity)]
            push_cast
            rw [mul_one]
          rw [mul_mul_mul_comm, this, h2]
          field_simp
        · show R ^ 2 < (r * Real.cos φ) ^ 2 + (r * Real.sin φ) ^ 2
          rw [hsq]
          exact pow_lt_pow_left₀ h hR two_ne_zero
      · rw [Set.indicator_of_notMem, Set.indicator_of_notMem (show r ∉ Set.Ioi R from h), smul_zero]
        show ¬ R ^ 2 < (r * Real.cos φ) ^ 2 + (r * Real.sin φ) ^ 2
        rw [hsq, not_lt]
        exact pow_le_pow_left₀ hr.le (not_lt.1 h) 2
    rw [setLIntegral_congr_fun (by rw [polarCoord_target]; measurability) e, polarCoord_target, Measure.volume_eq_prod, setLIntegral_prod]
    · simp only [setLIntegral_const, Real.volume_Ioo]
      rw [lintegral_mul_const', ← lintegral_indicator measurableSet_Ioi, Set.indicator_indicator, lintegral_indicator (measurableSet_Ioi.inter measurableSet_Ioi),
        Set.Ioi_inter_Ioi, max_eq_right hR]
      · have hint : IntegrableOn (fun r : ℝ => r * Real.exp (-r ^ 2 / 2) / (2 * Real.pi)) (Set.Ioi R) ∧ ∫ r in Set.Ioi R, r * Real.exp (-r ^ 2 / 2) / (2 * Real.pi) = Real.exp (-R ^ 2 / 2) / (2 * Real.pi) := by
          have hder : ∀ x : ℝ, HasDerivAt (fun r : ℝ => -Real.exp (-r ^ 2 / 2) / (2 * Real.pi)) (x * Real.exp (-x ^ 2 / 2) / (2 * Real.pi)) x := by
            intro x
            have h1 : HasDerivAt (fun r : ℝ => -r ^ 2 / 2) (-x) x := by
              have := ((hasDerivAt_pow 2 x).neg).div_const 2
              refine this.congr_deriv ?_
              push_cast
              rw [pow_one]
              ring
            have := (h1.exp.neg).div_const (2 * Real.pi)
            refine this.congr_deriv ?_
            ring
          have hlim : Filter.Tendsto (fun r : ℝ => -Real.exp (-r ^ 2 / 2) / (2 * Real.pi)) Filter.atTop (nhds 0) := by
            have h1 : Filter.Tendsto (fun r : ℝ => -r ^ 2 / 2) Filter.atTop Filter.atBot := by
              have : (fun r : ℝ => -r ^ 2 / 2) = fun r : ℝ => -(r ^ 2 / 2) := by funext r; ring
              rw [this]
              exact Filter.tendsto_neg_atTop_atBot.comp ((Filter.tendsto_pow_atTop two_ne_zero).atTop_div_const two_pos)
            have := ((Real.tendsto_exp_atBot.comp h1).neg).div_const (2 * Real.pi)
            simpa using this
          refine ⟨integrableOn_Ioi_deriv_of_nonneg' (fun x _ => hder x) (fun x hx => ?_) hlim, ?_⟩
          · have : 0 < x := lt_of_le_of_lt hR hx
            positivity
          · rw [integral_Ioi_of_hasDerivAt_of_nonneg' (fun x _ => hder x) (fun x hx => ?_) hlim]
            · ring
            · have : 0 < x := lt_of_le_of_lt hR hx
              positivity
        rw [← ofReal_integral_eq_lintegral_ofReal hint.1, hint.2, ← ENNReal.ofReal_mul (by positivity)]
        · congr 1
          field_simp
          ring
        · refine (ae_restrict_iff' measurableSet_Ioi).2 (Filter.Eventually.of_forall fun x hx => ?_)
          have : 0 < x := lt_of_le_of_lt hR hx
          show 0 ≤ x * Real.exp (-x ^ 2 / 2) / (2 * Real.pi)
          positivity
      · exact ENNReal.ofReal_ne_top
    · refine Measurable.aemeasurable ?_
      refine Measurable.comp (g := (Set.Ioi R).indicator (fun r : ℝ => ENNReal.ofReal (r * Real.exp (-r ^ 2 / 2) / (2 * Real.pi)))) ?_ measurable_fst
      exact Measurable.indicator (by fun_prop) measurableSet_Ioi
  rw [measureReal_def, hval, ENNReal.toReal_ofReal (Real.exp_pos _).le]

/-- Tail of the amplitude of the noise that `add_awgn` adds to one sample. -/
theorem noise_tail {Ω : Type*} [MeasurableSpace Ω] (μ : Measure Ω) [IsProbabilityMeasure μ] (Z : Ω → ℝ × ℝ) (hmp : MeasurePreserving Z μ stdN2) (sg ε : ℝ) (hε : 0 ≤ ε) :
    μ.real {w | ε < ‖(⟨sg / Real.sqrt 2 * (Z w).1, sg / Real.sqrt 2 * (Z w).2⟩ : ℂ)‖} ≤ Real.exp (-(ε ^ 2 / sg ^ 2)) := by
  by_cases h0 : sg = 0
  · rw [h0, zero_pow two_ne_zero, div_zero, neg_zero, Real.exp_zero]
    exact measureReal_le_one
  · have hsgpos : 0 < sg ^ 2 := by positivity
    have hset : {w | ε < ‖(⟨sg / Real.sqrt 2 * (Z w).1, sg / Real.sqrt 2 * (Z w).2⟩ : ℂ)‖} =
        Z ⁻¹' {v : ℝ × ℝ | (Real.sqrt (2 * ε ^ 2 / sg ^ 2)) ^ 2 < v.1 ^ 2 + v.2 ^ 2} := by
      ext w
      rw [Set.mem_ofPred_eq, Set.mem_preimage, Set.mem_ofPred_eq, Real.sq_sqrt (by positivity), div_lt_iff₀ hsgpos, ← pow_lt_pow_iff_left₀ hε (norm_nonneg _) two_ne_zero,
        Complex.sq_norm, Complex.normSq_mk]
      have hs2 : (Real.sqrt 2) * Real.sqrt 2 = 2 := Real.mul_self_sqrt (by norm_num)
      have : sg / √2 * (Z w).1 * (sg / √2 * (Z w).1) + sg / √2 * (Z w).2 * (sg / √2 * (Z w).2) = ((Z w).1 ^ 2 + (Z w).2 ^ 2) * sg ^ 2 / 2 := by
        have h3 : sg / √2 * (sg / √2) = sg ^ 2 / 2 := by rw [div_mul_div_comm, hs2, sq]
        linear_combination ((Z w).1 ^ 2 + (Z w).2 ^ 2) * h3
      rw [this, lt_div_iff₀ two_pos, mul_comm (ε ^ 2)]
    have hS : MeasurableSet {v : ℝ × ℝ | (Real.sqrt (2 * ε ^ 2 / sg ^ 2)) ^ 2 < v.1 ^ 2 + v.2 ^ 2} := measurableSet_lt (by fun_prop) (by fun_prop)
    rw [hset, hmp.measureReal_preimage hS.nullMeasurableSet, rayleigh_tail _ (Real.sqrt_nonneg _), Real.sq_sqrt (by positivity)]
    apply le_of_eq
    congr 1
    field_simp

/-- The accumulated phase of sample `k`. -/
noncomputable def linkPhase {n : Nat} (df fs : ℝ) (w : Fin n → ℝ) (k : Nat) : ℝ := (phaseNoiseRow df fs (drawFun w) n).getD k 0

/-- The two draws of a sample as the model of `simulate_transmission` takes them. -/
noncomputable def linkDraws {n : Nat} (w : (Fin n → ℝ) × (Fin n → ℝ × ℝ)) : TxDraws :=
  { ph := fun _ => drawFun w.1, re := fun _ => drawFun fun k => (w.2 k).1, im := fun _ => drawFun fun k => (w.2 k).2 }

theorem length_phaseNoiseRow (df fs : ℝ) (f : Nat → ℝ) (n : Nat) : (phaseNoiseRow df fs f n).length = n := by
  unfold phaseNoiseRow
  rw [length_cumsumGo]
  simp

theorem drawFun_range {n : Nat} (w : Fin n → ℝ) : (List.range n).map (drawFun w) = List.ofFn w := by
  apply List.ext_getElem
  · simp
  · intro i h1 h2
    simp only [List.length_map, List.length_range] at h1
    simp [drawFun, h1]

theorem applyPhaseNoise_ofFn {n : Nat} (x : Fin n → ℂ) (df fs : ℝ) (w : Fin n → ℝ) :
    applyPhaseNoise [List.ofFn x] df fs (fun _ => drawFun w) = [List.ofFn fun k : Fin n => x k * Complex.exp (I * (linkPhase df fs w k : ℂ))] := by
  unfold applyPhaseNoise
  rw [List.mapIdx_cons, List.mapIdx_nil]
  congr 1
  apply List.ext_getElem
  · simp [length_phaseNoiseRow]
  · intro i h1 h2
    simp only [List.length_ofFn] at h2
    simp only [List.getElem_zipWith, List.getElem_ofFn]
    unfold linkPhase
    rw [List.getD_eq_getElem _ _ (by rw [length_phaseNoiseRow]; exact h2)]
    congr 4
    simp

/-- What `simulate_transmission` returns with phase noise and additive noise. -/
theorem simulate_link {n : Nat} (x : Fin n → ℂ) (df fs fb snr : ℝ) (w : (Fin n → ℝ) × (Fin n → ℝ × ℝ)) :
    simulateTransmission ⟨fs, fb, none⟩ (linkDraws w) { snr := some snr, lwdth := some df } [List.ofFn x] =
      .ok [List.ofFn fun k : Fin n => x k * Complex.exp (I * (linkPhase df fs w.1 k : ℂ)) +
        (⟨Real.sqrt (meanR ((List.ofFn x).map fun z => ‖z‖ ^ 2)) * ((10 : ℝ) ^ (-snr / 20) * Real.sqrt (fs / fb)) / Real.sqrt 2 * (w.2 k).1,
          Real.sqrt (meanR ((List.ofFn x).map fun z => ‖z‖ ^ 2)) * ((10 : ℝ) ^ (-snr / 20) * Real.sqrt (fs / fb)) / Real.sqrt 2 * (w.2 k).2⟩ : ℂ)] := by
  have h0 : simulateTransmission ⟨fs, fb, none⟩ (linkDraws w) { snr := some snr, lwdth := some df } [List.ofFn x] =
      .ok (changeSnr (applyPhaseNoise [List.ofFn x] df fs (fun _ => drawFun w.1)) snr fb fs
        ((applyPhaseNoise [List.ofFn x] df fs (fun _ => drawFun w.1)).mapIdx fun l r => (List.range r.length).map ((linkDraws w).re l))
        ((applyPhaseNoise [List.ofFn x] df fs (fun _ => drawFun w.1)).mapIdx fun l r => (List.range r.length).map ((linkDraws w).im l))) := rfl
  rw [h0, applyPhaseNoise_ofFn]
  have hp : ([List.ofFn fun k : Fin n => x k * Complex.exp (I * (linkPhase df fs w.1 k : ℂ))].flatten.map fun z => ‖z‖ ^ 2) = (List.ofFn x).map fun z => ‖z‖ ^ 2 := by
    simp only [List.flatten_cons, List.flatten_nil, List.append_nil, List.map_ofFn]
    congr 1
    funext k
    simp only [Function.comp]
    rw [norm_mul, norm_exp_I, mul_one]
  simp only [List.mapIdx_cons, List.mapIdx_nil, List.length_ofFn, linkDraws, drawFun_range]
  unfold changeSnr
  simp only [hp]
  rw [List.zip_cons_cons, List.zipWith_cons_cons]
  simp only [List.zip_nil_left, List.zipWith_nil_left]
  rw [addAwgn_ofFn]

/-- **C212** A QAM signal with laser phase noise and additive noise, received with the blind phase search: the probability that the phase search
fails, slips or leaves a symbol error is at most `2 n N exp(-Δ² fs / (4 π df N)) + n exp(-ε² 10^(snr/10) fb / (P fs))`, for every drift `Δ` within a window and
every noise amplitude `ε` that the search tolerates. -/
theorem C212_link {n : Nat} (s : Nat → ℂ) (k : Nat) (scale : ℝ) (M N : Nat) (A Δ ε ρ df fs fb snr : ℝ)
    (hk : k = 2 ∨ 4 ≤ k) (hs : 0 < scale) (hN : 1 ≤ N) (hM : 1 ≤ M) (hA : ∀ z ∈ (symbolsQam k).map (toComplex scale), ‖z‖ ≤ A) (hρ : 0 ≤ ρ)
    (hmem : ∀ j, j < n → s j ∈ (symbolsQam k).map (toComplex scale)) (hw : AnchoredWindows s (toComplex scale (1, 1)) n N ρ)
    (hdf : 0 < df) (hfs : 0 < fs) (hfb : 0 < fb) (hΔ : 0 ≤ Δ) (hε : 0 ≤ ε)
    (h100 : 2 * A + ε ≤ 10) (h1000 : 2 * N * (A * (Real.pi / (4 * M) + Δ) + ε) ^ 2 < 1000)
    (hslip : 2 * searchBound A (√2 / scale) Δ ε ρ M + Δ + Real.pi / 4 < √2) (hb : A * searchBound A (√2 / scale) Δ ε ρ M + ε < 1 / scale) (hlen : 2 * N < n) :
    ((drawLaw n).prod (noiseLaw n)).real {w | ¬ ∃ (E out : List ℂ) (ph : List ℝ) (r : Nat) (dec : List (ℂ × ℝ × Nat)),
      simulateTransmission ⟨fs, fb, none⟩ (linkDraws w) { snr := some snr, lwdth := some df } [List.ofFn fun j : Fin n => s j] = .ok [E] ∧
      bps E M ((symbolsQam k).map (toComplex scale)) N = some (out, ph) ∧ r < 4 ∧
      makeDecision ((out.drop N).take (n - 2 * N)) ((symbolsQam k).map (toComplex scale)) = some dec ∧
      dec.map (·.1) = (List.range (n - 2 * N)).map (fun j => I ^ r * s (N + j)) ∧
      calSer ((symbolsQam k).map (toComplex scale)) ((out.drop N).take (n - 2 * N)) ((List.range (n - 2 * N)).map fun j => I ^ r * s (N + j)) = some 0} ≤
    2 * n * N * Real.exp (-(Δ ^ 2 * fs / (4 * Real.pi * df * N))) +
      n * Real.exp (-(ε ^ 2 * (10 : ℝ) ^ (snr / 10) * fb / (meanR ((List.ofFn fun j : Fin n => s j).map fun z => ‖z‖ ^ 2) * fs))) := by
  have hpi := Real.pi_pos
  have hN' : (1 : ℝ) ≤ N := by exact_mod_cast hN
  obtain ⟨P, hP⟩ : ∃ P, P = meanR ((List.ofFn fun j : Fin n => s j).map fun z => ‖z‖ ^ 2) := ⟨_, rfl⟩
  obtain ⟨sg, hsg⟩ : ∃ sg, sg = Real.sqrt P * ((10 : ℝ) ^ (-snr / 20) * Real.sqrt (fs / fb)) := ⟨_, rfl⟩
  obtain ⟨μ, hμ⟩ : ∃ μ, μ = (drawLaw n).prod (noiseLaw n) := ⟨_, rfl⟩
  rw [← hμ, ← hP]
  have hprob : IsProbabilityMeasure μ := by rw [hμ]; infer_instance
  have hP0 : 0 ≤ P := by
    rw [hP]
    unfold meanR
    refine div_nonneg (List.sum_nonneg ?_) (Nat.cast_nonneg _)
    intro x hx
    obtain ⟨z, -, rfl⟩ := List.mem_map.1 hx
    positivity
  have hsg2 : sg ^ 2 = P * fs / ((10 : ℝ) ^ (snr / 10) * fb) := by
    rw [hsg, mul_pow, mul_pow, Real.sq_sqrt hP0, Real.sq_sqrt (by positivity), ← Real.rpow_natCast ((10 : ℝ) ^ (-snr / 20)), ← Real.rpow_mul (by norm_num),
      show -snr / 20 * ((2 : ℕ) : ℝ) = -(snr / 10) by push_cast; ring, Real.rpow_neg (by norm_num)]
    have : (0 : ℝ) < 10 ^ (snr / 10) := by positivity
    field_simp
  -- drift
  have hdrift : ∀ p : Fin n × Fin N, μ.real {w | ((p.1 : ℕ) + ((p.2 : ℕ) + 1) < n) ∧ Δ < |linkPhase df fs w.1 ((p.1 : ℕ) + ((p.2 : ℕ) + 1)) - linkPhase df fs w.1 p.1|} ≤
      2 * Real.exp (-(Δ ^ 2 * fs / (4 * Real.pi * df * N))) := by
    rintro ⟨l, d⟩
    simp only
    by_cases hm : (l : ℕ) + ((d : ℕ) + 1) < n
    · obtain ⟨F, G, hF, hG, hlaw, -⟩ := C123_wiener (n := n) df fs hdf.le hfs l (l + (d + 1)) (by omega) hm
      have eF : ∀ w, linkPhase df fs w l = F w := fun w => by
        unfold linkPhase; rw [List.getD_eq_getElem?_getD, hF, Option.getD_some]
      have eG : ∀ w, linkPhase df fs w (l + (d + 1)) = G w := fun w => by
        unfold linkPhase; rw [List.getD_eq_getElem?_getD, hG, Option.getD_some]
      have hme : AEMeasurable (fun w => G w - F w) (drawLaw n) := by
        by_contra hc
        rw [Measure.map_of_not_aemeasurable hc] at hlaw
        exact absurd hlaw.symm (IsProbabilityMeasure.ne_zero _)
      have hfst : (μ.map Prod.fst) = drawLaw n := by rw [hμ]; exact Measure.fst_prod
      have hmap : μ.map (fun w => G w.1 - F w.1) = gaussianReal 0 (Real.toNNReal (2 * Real.pi * df * (((l : ℕ) + ((d : ℕ) + 1) : ℕ) - (l : ℕ) : ℝ) / fs)) := by
        rw [← hlaw, ← hfst, AEMeasurable.map_map_of_aemeasurable (by rw [hfst]; exact hme) measurable_fst.aemeasurable]
        rfl
      have ht := gauss_tail μ (fun w => G w.1 - F w.1) _ hmap
        ((hfst.symm ▸ hme : AEMeasurable (fun w => G w - F w) (μ.map Prod.fst)).comp_measurable measurable_fst) Δ hΔ
      refine (measureReal_mono ?_ (measure_ne_top _ _)).trans (ht.trans ?_)
      · intro w hw
        rw [Set.mem_ofPred_eq, eF, eG] at hw
        exact hw.2.le
      · have hd1 : ((((l : ℕ) + ((d : ℕ) + 1) : ℕ) : ℝ) - (l : ℕ)) = (d : ℕ) + 1 := by push_cast; ring
        have hdN : ((d : ℕ) : ℝ) + 1 ≤ N := by exact_mod_cast d.2
        have hd0 : (0 : ℝ) < ((d : ℕ) : ℝ) + 1 := by positivity
        rw [hd1, Real.coe_toNNReal _ (by positivity)]
        refine mul_le_mul_of_nonneg_left (Real.exp_le_exp.2 ?_) two_pos.le
        rw [neg_div, neg_le_neg_iff]
        have e1 : Δ ^ 2 / (2 * (2 * Real.pi * df * (((d : ℕ) : ℝ) + 1) / fs)) = Δ ^ 2 * fs / (4 * Real.pi * df * (((d : ℕ) : ℝ) + 1)) := by
          field_simp
          ring
        rw [e1]
        exact div_le_div_of_nonneg_left (by positivity) (by positivity) (mul_le_mul_of_nonneg_left hdN (by positivity))
    · have : {w : (Fin n → ℝ) × (Fin n → ℝ × ℝ) | ((l : ℕ) + ((d : ℕ) + 1) < n) ∧ Δ < |linkPhase df fs w.1 ((l : ℕ) + ((d : ℕ) + 1)) - linkPhase df fs w.1 l|} = ∅ := by
        ext w
        simp [hm]
      rw [this, measureReal_empty]
      positivity
  -- noise
  have hnoise : ∀ j : Fin n, μ.real {w | ε < ‖(⟨sg / Real.sqrt 2 * (w.2 j).1, sg / Real.sqrt 2 * (w.2 j).2⟩ : ℂ)‖} ≤ Real.exp (-(ε ^ 2 * (10 : ℝ) ^ (snr / 10) * fb / (P * fs))) := by
    intro j
    have hmp : MeasurePreserving (fun w : (Fin n → ℝ) × (Fin n → ℝ × ℝ) => w.2 j) μ stdN2 := by
      rw [hμ]
      exact (measurePreserving_eval (fun _ : Fin n => stdN2) j).comp measurePreserving_snd
    refine (noise_tail μ _ hmp sg ε hε).trans (le_of_eq ?_)
    rw [hsg2]
    congr 2
    have h10 : (0 : ℝ) < 10 ^ (snr / 10) := by positivity
    rw [div_div_eq_mul_div, mul_assoc]
  -- union
  obtain ⟨B1, hB1⟩ : ∃ B : Fin n × Fin N → Set ((Fin n → ℝ) × (Fin n → ℝ × ℝ)), B = fun p => {w | ((p.1 : ℕ) + ((p.2 : ℕ) + 1) < n) ∧ Δ < |linkPhase df fs w.1 ((p.1 : ℕ) + ((p.2 : ℕ) + 1)) - linkPhase df fs w.1 p.1|} := ⟨_, rfl⟩
  obtain ⟨B2, hB2⟩ : ∃ B : Fin n → Set ((Fin n → ℝ) × (Fin n → ℝ × ℝ)), B = fun j => {w | ε < ‖(⟨sg / Real.sqrt 2 * (w.2 j).1, sg / Real.sqrt 2 * (w.2 j).2⟩ : ℂ)‖} := ⟨_, rfl⟩
  have hU1 : μ.real (⋃ p, B1 p) ≤ 2 * n * N * Real.exp (-(Δ ^ 2 * fs / (4 * Real.pi * df * N))) := by
    refine (measureReal_iUnion_fintype_le _).trans ((Finset.sum_le_card_nsmul _ _ (2 * Real.exp (-(Δ ^ 2 * fs / (4 * Real.pi * df * N)))) fun p _ => ?_).trans (le_of_eq ?_))
    · rw [hB1]; exact hdrift p
    · rw [Finset.card_univ, Fintype.card_prod, Fintype.card_fin, Fintype.card_fin, nsmul_eq_mul]
      push_cast
      ring
  have hU2 : μ.real (⋃ j, B2 j) ≤ n * Real.exp (-(ε ^ 2 * (10 : ℝ) ^ (snr / 10) * fb / (P * fs))) := by
    refine (measureReal_iUnion_fintype_le _).trans ((Finset.sum_le_card_nsmul _ _ (Real.exp (-(ε ^ 2 * (10 : ℝ) ^ (snr / 10) * fb / (P * fs)))) fun j _ => ?_).trans (le_of_eq ?_))
    · rw [hB2]; exact hnoise j
    · rw [Finset.card_univ, Fintype.card_fin, nsmul_eq_mul]
  refine (measureReal_mono (s₂ := (⋃ p, B1 p) ∪ ⋃ j, B2 j) ?_ (measure_ne_top _ _)).trans ((measureReal_union_le _ _).trans (add_le_add hU1 hU2))
  intro w hbad
  by_contra hgood
  refine hbad ?_
  rw [Set.mem_union, not_or, Set.mem_iUnion, Set.mem_iUnion, not_exists, not_exists] at hgood
  obtain ⟨hg1, hg2⟩ := hgood
  rw [hB1] at hg1
  rw [hB2] at hg2
  have hstep : ∀ i j : Nat, i < n → j < n → i ≤ j → j ≤ i + N → |linkPhase df fs w.1 j - linkPhase df fs w.1 i| ≤ Δ := by
    intro i j hi hj hij hjN
    rcases Nat.eq_or_lt_of_le hij with rfl | hlt
    · rw [sub_self, abs_zero]; exact hΔ
    · have := hg1 (⟨i, hi⟩, ⟨j - i - 1, by omega⟩)
      simp only [Set.mem_ofPred_eq, not_and, not_lt] at this
      have e : i + (j - i - 1 + 1) = j := by omega
      rw [e] at this
      exact this hj
  obtain ⟨E, hE⟩ : ∃ E : List ℂ, E = List.ofFn fun k : Fin n => s k * Complex.exp (I * (linkPhase df fs w.1 k : ℂ)) + (⟨sg / Real.sqrt 2 * (w.2 k).1, sg / Real.sqrt 2 * (w.2 k).2⟩ : ℂ) := ⟨_, rfl⟩
  have hElen : E.length = n := by rw [hE, List.length_ofFn]
  obtain ⟨out, ph, r, dec, h1, h2, h3, h4, h5⟩ := C191_qam E k scale M N s (linkPhase df fs w.1) A Δ ε ρ hk hs hN hM hA hρ (by rw [hElen]; exact hw) {
      mem := fun j hj => hmem j (by rw [hElen] at hj; exact hj)
      drift := by
        intro i j hi hj h1 h2
        rw [hElen] at hi hj
        rcases Nat.le_total i j with h | h
        · rw [abs_sub_comm]
          exact hstep i j hi hj h h2
        · exact hstep j i hj hi h h1
      noise := by
        intro j hj
        rw [hElen] at hj
        have := hg2 ⟨j, hj⟩
        rw [Set.mem_ofPred_eq, not_lt] at this
        have e : E.getD j 0 = s j * Complex.exp (I * (linkPhase df fs w.1 j : ℂ)) + (⟨sg / Real.sqrt 2 * (w.2 ⟨j, hj⟩).1, sg / Real.sqrt 2 * (w.2 ⟨j, hj⟩).2⟩ : ℂ) := by
          rw [List.getD_eq_getElem _ _ (by rw [hElen]; exact hj)]
          simp only [hE, List.getElem_ofFn]
        rw [e, add_sub_cancel_left]
        exact this } h100 h1000 hslip hb (by rw [hElen]; exact hlen)
  rw [hElen] at h3 h4 h5
  refine ⟨E, out, ph, r, dec, ?_, h1, h2, h3, h4, h5⟩
  rw [simulate_link, hE, hsg, hP]

/-- A link over 1000 symbols of QPSK with a linewidth of one millionth of the symbol rate, 40 dB SNR, 32 test angles and windows of 4 symbols to both sides fails with a
probability of less than `9000 exp (-49)`. -/
example : ((drawLaw 1000).prod (noiseLaw 1000)).real {w | ¬ ∃ (E out : List ℂ) (ph : List ℝ) (r : Nat) (dec : List (ℂ × ℝ × Nat)),
      simulateTransmission ⟨1, 1, none⟩ (linkDraws w) { snr := some 40, lwdth := some (1 / 1000000) }
        [List.ofFn fun j : Fin 1000 => if (j : ℕ) % 2 = 0 then toComplex 1 (1, 1) else toComplex 1 (-1, 1)] = .ok [E] ∧
      bps E 32 ((symbolsQam 2).map (toComplex 1)) 4 = some (out, ph) ∧ r < 4 ∧
      makeDecision ((out.drop 4).take (1000 - 2 * 4)) ((symbolsQam 2).map (toComplex 1)) = some dec ∧
      dec.map (·.1) = (List.range (1000 - 2 * 4)).map (fun j => I ^ r * if (4 + j) % 2 = 0 then toComplex 1 (1, 1) else toComplex 1 (-1, 1)) ∧
      calSer ((symbolsQam 2).map (toComplex 1)) ((out.drop 4).take (1000 - 2 * 4))
        ((List.range (1000 - 2 * 4)).map fun j => I ^ r * if (4 + j) % 2 = 0 then toComplex 1 (1, 1) else toComplex 1 (-1, 1)) = some 0} ≤ 9000 * Real.exp (-49) := by
  have hpi := Real.pi_lt_d2
  have hpi0 := Real.pi_pos
  have hroot : (1.414 : ℝ) < √2 := by
    rw [Real.lt_sqrt (by norm_num)]; norm_num
  have hsq : √2 * √2 = 2 := Real.mul_self_sqrt (by norm_num)
  have hroot2 : √2 < (1.415 : ℝ) := by
    rw [Real.sqrt_lt' (by norm_num)]; norm_num
  have hnorm : ∀ p ∈ symbolsQam 2, ‖toComplex 1 p‖ ^ 2 = 2 := by
    rintro ⟨a, b⟩ hp
    have h2 : ∀ p ∈ symbolsQam 2, sqNorm p = 2 := by decide
    rw [normSq_toComplex, h2 _ hp]
    norm_num
  have hA : ∀ z ∈ (symbolsQam 2).map (toComplex 1), ‖z‖ ≤ √2 := by
    intro z hz
    obtain ⟨p, hp, rfl⟩ := List.mem_map.1 hz
    exact Real.le_sqrt_of_sq_le (hnorm p hp).le
  have hmem : ∀ j : Nat, (if j % 2 = 0 then toComplex 1 (1, 1) else toComplex 1 (-1, 1)) ∈ (symbolsQam 2).map (toComplex 1) := by
    intro j
    split_ifs
    · exact List.mem_map_of_mem (by decide)
    · exact List.mem_map_of_mem (by decide)
  have hP : meanR ((List.ofFn fun j : Fin 1000 => if (j : ℕ) % 2 = 0 then toComplex 1 (1, 1) else toComplex 1 (-1, 1)).map fun z => ‖z‖ ^ 2) = 2 := by
    have : ((List.ofFn fun j : Fin 1000 => if (j : ℕ) % 2 = 0 then toComplex 1 (1, 1) else toComplex 1 (-1, 1)).map fun z => ‖z‖ ^ 2) = List.replicate 1000 2 := by
      rw [List.eq_replicate_iff]
      refine ⟨by rw [List.length_map, List.length_ofFn], ?_⟩
      intro b hb
      obtain ⟨z, hz, rfl⟩ := List.mem_map.1 hb
      obtain ⟨j, rfl⟩ := List.mem_ofFn.1 hz
      obtain ⟨p, hp, h⟩ := List.mem_map.1 (hmem j)
      rw [← h]
      exact hnorm p hp
    rw [this]
    unfold meanR
    rw [List.sum_replicate, List.length_replicate]
    norm_num
  have hB : searchBound √2 (√2 / 1) 0.05 0.1 1 32 ≤ 0.267 := by
    unfold searchBound
    rw [div_one]
    have : (1 * (√2 * (Real.pi / (4 * (32 : ℕ)) + 0.05) + 0.1) + 0.1) / √2 ≤ 0.217 := by
      rw [div_le_iff₀ (by positivity)]
      push_cast
      nlinarith
    linarith
  have h := C212_link (n := 1000) (fun j => if j % 2 = 0 then toComplex 1 (1, 1) else toComplex 1 (-1, 1)) 2 1 32 4 √2 0.05 0.1 1 (1 / 1000000) 1 1 40
    (Or.inl rfl) one_pos (by norm_num) (by norm_num) hA zero_le_one (fun j _ => hmem j) (by
      intro t h1 h2
      refine ⟨Finset.Ioc (t - 4) (t + 4), subset_rfl, ?_, ?_, ?_⟩
      · intro j _
        by_cases hj : j % 2 = 0
        · exact ⟨0, by simp [hj]⟩
        · refine ⟨1, ?_⟩
          simp only [hj, if_false, zpow_one]
          apply Complex.ext <;> simp [toComplex]
      · rw [Nat.card_Ioc]
        omega
      · rw [Nat.card_Ioc, show t + 4 - (t - 4) = 8 by omega]
        norm_num) (by norm_num) one_pos one_pos (by norm_num) (by norm_num) (by linarith) (by
      have : √2 * (Real.pi / (4 * (32 : ℕ)) + 0.05) + 0.1 ≤ 1 := by push_cast; nlinarith
      have h0 : 0 ≤ √2 * (Real.pi / (4 * (32 : ℕ)) + 0.05) + 0.1 := by positivity
      push_cast at this h0 ⊢
      nlinarith) (by linarith) (by nlinarith) (by norm_num)
  rw [hP] at h
  refine h.trans ?_
  have e1 : Real.exp (-((0.05 : ℝ) ^ 2 * 1 / (4 * Real.pi * (1 / 1000000) * (4 : ℕ)))) ≤ Real.exp (-49) := by
    refine Real.exp_le_exp.2 (neg_le_neg ?_)
    rw [le_div_iff₀ (by positivity)]
    push_cast
    linarith
  have e2 : Real.exp (-((0.1 : ℝ) ^ 2 * 10 ^ ((40 : ℝ) / 10) * 1 / (2 * 1))) ≤ Real.exp (-49) := by
    refine Real.exp_le_exp.2 (neg_le_neg ?_)
    rw [show (40 : ℝ) / 10 = (4 : ℕ) by norm_num, Real.rpow_natCast]
    norm_num
  push_cast at e1 e2 ⊢
  linarith

end Qampy
