import Verif.Props.LinkNoise
import Verif.Props.PilotCpeNoise

/-!
C213: a signal with pilots after a link with laser phase noise and additive noise, received with the pilot based phase recovery: probability of an error.
-/

namespace Qampy

open MeasureTheory ProbabilityTheory
open Complex (I)

/-- The draws of all modes: phase noise, and the two parts of the additive noise. -/
abbrev LinkSpace (m n : Nat) : Type := Fin m → (Fin n → ℝ) × (Fin n → ℝ × ℝ)

/-- All draws are independent and standard normal. -/
noncomputable abbrev linkLaw (m n : Nat) : Measure (LinkSpace m n) := Measure.pi fun _ => (drawLaw n).prod (noiseLaw n)

/-- The draws as the model of `simulate_transmission` takes them. -/
noncomputable def modeDraws {m n : Nat} (w : LinkSpace m n) : TxDraws :=
  { ph := fun l => if h : l < m then drawFun (w ⟨l, h⟩).1 else fun _ => 0
    re := fun l => if h : l < m then drawFun fun k => ((w ⟨l, h⟩).2 k).1 else fun _ => 0
    im := fun l => if h : l < m then drawFun fun k => ((w ⟨l, h⟩).2 k).2 else fun _ => 0 }

/-- The phase noise of a sample. -/
noncomputable def modePhase {m n : Nat} (df fs : ℝ) (w : LinkSpace m n) (l j : Nat) : ℝ := if h : l < m then linkPhase df fs (w ⟨l, h⟩).1 j else 0

/-- The additive noise of a sample, of strength `sg`. -/
noncomputable def modeNoise {m n : Nat} (sg : ℝ) (w : LinkSpace m n) (l j : Nat) : ℂ :=
  if h : l < m ∧ j < n then ⟨sg / Real.sqrt 2 * ((w ⟨l, h.1⟩).2 ⟨j, h.2⟩).1, sg / Real.sqrt 2 * ((w ⟨l, h.1⟩).2 ⟨j, h.2⟩).2⟩ else 0

theorem applyPhaseNoise_modes {m n : Nat} (x : Fin m → Fin n → ℂ) (df fs : ℝ) (w : LinkSpace m n) :
    applyPhaseNoise (List.ofFn fun l => List.ofFn (x l)) df fs (modeDraws w).ph =
      List.ofFn fun l : Fin m => List.ofFn fun k : Fin n => x l k * Complex.exp (I * (modePhase df fs w l k : ℂ)) := by
  unfold applyPhaseNoise
  apply List.ext_getElem
  · simp
  · intro l h1 h2
    simp only [List.length_ofFn] at h2
    rw [List.getElem_mapIdx, List.getElem_ofFn, List.getElem_ofFn]
    have h := applyPhaseNoise_ofFn (x ⟨l, h2⟩) df fs (w ⟨l, h2⟩).1
    unfold applyPhaseNoise at h
    rw [List.mapIdx_cons, List.mapIdx_nil, List.cons.injEq] at h
    have e : (modeDraws w).ph l = drawFun (w ⟨l, h2⟩).1 := by
      simp [modeDraws, h2]
    rw [e, h.1]
    congr 1
    funext k
    simp [modePhase, h2]

/-- What `simulate_transmission` returns for several modes with phase noise and additive noise. -/
theorem simulate_modes {m n : Nat} (x : Fin m → Fin n → ℂ) (df fs fb snr : ℝ) (w : LinkSpace m n) :
    simulateTransmission ⟨fs, fb, none⟩ (modeDraws w) { snr := some snr, lwdth := some df } (List.ofFn fun l => List.ofFn (x l)) =
      .ok ((List.ofFn fun l => List.ofFn (x l)).mapIdx fun l r => r.mapIdx fun j z => z * Complex.exp (I * (modePhase df fs w l j : ℂ)) +
        modeNoise (Real.sqrt (meanR ((List.ofFn fun l => List.ofFn (x l)).flatten.map fun z => ‖z‖ ^ 2)) * ((10 : ℝ) ^ (-snr / 20) * Real.sqrt (fs / fb))) w l j) := by
  have h0 : simulateTransmission ⟨fs, fb, none⟩ (modeDraws w) { snr := some snr, lwdth := some df } (List.ofFn fun l => List.ofFn (x l)) =
      .ok (changeSnr (applyPhaseNoise (List.ofFn fun l => List.ofFn (x l)) df fs (modeDraws w).ph) snr fb fs
        ((applyPhaseNoise (List.ofFn fun l => List.ofFn (x l)) df fs (modeDraws w).ph).mapIdx fun l r => (List.range r.length).map ((modeDraws w).re l))
        ((applyPhaseNoise (List.ofFn fun l => List.ofFn (x l)) df fs (modeDraws w).ph).mapIdx fun l r => (List.range r.length).map ((modeDraws w).im l))) := rfl
  rw [h0, applyPhaseNoise_modes]
  have hp : ((List.ofFn fun l : Fin m => List.ofFn fun k : Fin n => x l k * Complex.exp (I * (modePhase df fs w l k : ℂ))).flatten.map fun z => ‖z‖ ^ 2) =
      (List.ofFn fun l => List.ofFn (x l)).flatten.map fun z => ‖z‖ ^ 2 := by
    rw [List.map_flatten, List.map_flatten, List.map_ofFn, List.map_ofFn]
    congr 2
    funext l
    simp only [Function.comp, List.map_ofFn]
    congr 1
    funext k
    simp only [Function.comp]
    rw [norm_mul, norm_exp_I, mul_one]
  congr 1
  unfold changeSnr
  simp only [hp]
  obtain ⟨sg, hsg⟩ : ∃ sg, sg = Real.sqrt (meanR ((List.ofFn fun l => List.ofFn (x l)).flatten.map fun z => ‖z‖ ^ 2)) * ((10 : ℝ) ^ (-snr / 20) * Real.sqrt (fs / fb)) := ⟨_, rfl⟩
  rw [← hsg]
  apply List.ext_getElem
  · simp
  · intro l h1 h2
    simp only [List.length_mapIdx, List.length_ofFn] at h2
    simp only [List.getElem_zipWith, List.getElem_zip, List.getElem_mapIdx, List.getElem_ofFn, List.length_ofFn]
    have e1 : (modeDraws w).re l = drawFun fun k => ((w ⟨l, h2⟩).2 k).1 := by simp [modeDraws, h2]
    have e2 : (modeDraws w).im l = drawFun fun k => ((w ⟨l, h2⟩).2 k).2 := by simp [modeDraws, h2]
    rw [e1, e2, drawFun_range, drawFun_range, addAwgn_ofFn]
    apply List.ext_getElem
    · simp
    · intro j h3 h4
      simp only [List.length_ofFn] at h3
      simp only [List.getElem_ofFn, List.getElem_mapIdx]
      congr 1
      simp [modeNoise, h2, h3]

/-- Tail of the phase that has accumulated up to a sample. -/
theorem phase_tail {Ω : Type*} [MeasurableSpace Ω] (μ : Measure Ω) {n : Nat} (Z : Ω → Fin n → ℝ) (hmp : MeasurePreserving Z μ (drawLaw n))
    (df fs d : ℝ) (hdf : 0 < df) (hfs : 0 < fs) (hd : 0 ≤ d) (k : Nat) (hk : k < n) :
    μ.real {w | d < |linkPhase df fs (Z w) k|} ≤ 2 * Real.exp (-(d ^ 2 * fs / (4 * Real.pi * df * n))) := by
  have hpi := Real.pi_pos
  obtain ⟨F, G, hF, hG, -, hlaw⟩ := C123_wiener (n := n) df fs hdf.le hfs k k le_rfl hk
  have eG : ∀ w, linkPhase df fs w k = G w := fun w => by
    unfold linkPhase; rw [List.getD_eq_getElem?_getD, hG, Option.getD_some]
  have hme : AEMeasurable G (drawLaw n) := by
    by_contra hc
    rw [Measure.map_of_not_aemeasurable hc] at hlaw
    exact absurd hlaw.symm (IsProbabilityMeasure.ne_zero _)
  have hmap : μ.map (fun w => G (Z w)) = gaussianReal 0 (Real.toNNReal (2 * Real.pi * df * (k + 1) / fs)) := by
    rw [← hlaw, ← hmp.map_eq, AEMeasurable.map_map_of_aemeasurable (by rw [hmp.map_eq]; exact hme) hmp.measurable.aemeasurable]
    rfl
  have hm2 : AEMeasurable (fun w => G (Z w)) μ := (hmp.map_eq.symm ▸ hme : AEMeasurable G (μ.map Z)).comp_measurable hmp.measurable
  have : IsProbabilityMeasure μ := by
    refine ⟨?_⟩
    rw [← Set.preimage_univ (f := Z), ← Measure.map_apply hmp.measurable MeasurableSet.univ, hmp.map_eq]
    exact measure_univ
  refine (measureReal_mono ?_ (measure_ne_top _ _)).trans ((gauss_tail μ _ _ hmap hm2 d hd).trans ?_)
  · intro w hw
    rw [Set.mem_ofPred_eq, eG] at hw
    exact hw.le
  · have hkn : (k : ℝ) + 1 ≤ n := by exact_mod_cast hk
    rw [Real.coe_toNNReal _ (by positivity)]
    refine mul_le_mul_of_nonneg_left (Real.exp_le_exp.2 ?_) two_pos.le
    rw [neg_div, neg_le_neg_iff]
    have e1 : d ^ 2 / (2 * (2 * Real.pi * df * ((k : ℝ) + 1) / fs)) = d ^ 2 * fs / (4 * Real.pi * df * ((k : ℝ) + 1)) := by
      field_simp
      ring
    rw [e1]
    exact div_le_div_of_nonneg_left (by positivity) (by positivity) (mul_le_mul_of_nonneg_left hkn (by positivity))

/-- **C213** A signal with pilots in `m` modes, sent with laser phase noise and additive noise and received with `pilot_based_cpe_new`: the probability that
the recovery fails or that any symbol is not nearest to the transmitted one is at most
`m n (2 exp(-d² fs / (4 π df n)) + exp(-W² 10^(snr/10) fb / (P fs)))`, for every phase excursion `d` and noise amplitude `W` that the recovery tolerates. -/
theorem C213_pilot_link {m n : Nat} (S : List ℂ) (D R W a d df fs fb snr : ℝ) (hD : ∀ a ∈ S, ∀ b ∈ S, a ≠ b → D ≤ ‖a - b‖) (hR : ∀ a ∈ S, ‖a‖ ≤ R)
    (x : Fin m → Fin n → ℂ) (pilots : List (List ℂ)) (pilotIdx : List Nat) (frameLen numAverage ratio nframes f0 : Nat) (maxBlocks : Option Nat)
    (hS : ∀ l k, x l k ∈ S) (hs : PilotSetup (List.ofFn fun l => List.ofFn (x l)) pilots n pilotIdx frameLen nframes) (hN : 1 < numAverage) (hr : 1 ≤ ratio)
    (h0 : f0 ≤ nframes) (h1 : f0 * frameLen ≤ n) (hcount : oddAverage numAverage ≤ f0 * ((min (maxBlocks.getD pilotIdx.length) pilotIdx.length + ratio - 1) / ratio))
    (hmax : ∀ m, maxBlocks = some m → pilotIdx.length ≤ m ∨ nframes ≤ 1)
    (ha : ∀ (l : Fin m) (i f : Nat) (h : i + f * frameLen < n), i ∈ pilotIdx → f < nframes → a ≤ ‖x l ⟨i + f * frameLen, h⟩‖)
    (ha0 : 0 < a) (hW0 : 0 ≤ W) (hWa : W < a) (hd : 0 ≤ d) (hdf : 0 < df) (hfs : 0 < fs) (hfb : 0 < fb)
    (hsum : d + Real.arcsin (W / a) < Real.pi / 2) (hmargin : (2 * d + Real.arcsin (W / a)) * R + W < D / 2) :
    (linkLaw m n).real {w | ¬ ∃ (E : List (List ℂ)) (out : List (List ℂ × List ℝ)),
      simulateTransmission ⟨fs, fb, none⟩ (modeDraws w) { snr := some snr, lwdth := some df } (List.ofFn fun l => List.ofFn (x l)) = .ok E ∧
      pilotBasedCpe E pilots n pilotIdx frameLen numAverage ratio maxBlocks nframes = .ok out ∧ out.length = m ∧
      ∀ (l : Fin m) (c : List ℂ × List ℝ), out[(l : ℕ)]? = some c → c.1.length = min (frameLen * nframes) n ∧
        ∀ (k : Fin n) (y : ℂ), c.1[(k : ℕ)]? = some y → ∀ s ∈ S, s ≠ x l k → ‖y - x l k‖ < ‖y - s‖} ≤
    m * n * (2 * Real.exp (-(d ^ 2 * fs / (4 * Real.pi * df * n))) +
      Real.exp (-(W ^ 2 * (10 : ℝ) ^ (snr / 10) * fb / (meanR ((List.ofFn fun l => List.ofFn (x l)).flatten.map fun z => ‖z‖ ^ 2) * fs)))) := by
  have hpi := Real.pi_pos
  obtain ⟨P, hP⟩ : ∃ P, P = meanR ((List.ofFn fun l => List.ofFn (x l)).flatten.map fun z => ‖z‖ ^ 2) := ⟨_, rfl⟩
  obtain ⟨sg, hsg⟩ : ∃ sg, sg = Real.sqrt P * ((10 : ℝ) ^ (-snr / 20) * Real.sqrt (fs / fb)) := ⟨_, rfl⟩
  obtain ⟨μ, hμ⟩ : ∃ μ, μ = linkLaw m n := ⟨_, rfl⟩
  rw [← hμ, ← hP]
  have hprob : IsProbabilityMeasure μ := by rw [hμ]; infer_instance
  have hP0 : 0 ≤ P := by
    rw [hP]
    unfold meanR
    refine div_nonneg (List.sum_nonneg ?_) (Nat.cast_nonneg _)
    intro x hx
    obtain ⟨z, -, rfl⟩ := List.mem_map.1 hx
    positivity
  have hsg2 : sg ^ 2 = P * fs / ((10 : ℝ) ^ (snr / 10) * fb) := by
    rw [hsg, mul_pow, mul_pow, Real.sq_sqrt hP0, Real.sq_sqrt (by positivity), ← Real.rpow_natCast ((10 : ℝ) ^ (-snr / 20)), ← Real.rpow_mul (by norm_num),
      show -snr / 20 * ((2 : ℕ) : ℝ) = -(snr / 10) by push_cast; ring, Real.rpow_neg (by norm_num)]
    have : (0 : ℝ) < 10 ^ (snr / 10) := by positivity
    field_simp
  have hl : ∀ l : Fin m, MeasurePreserving (fun w : LinkSpace m n => w l) μ ((drawLaw n).prod (noiseLaw n)) := fun l => by
    rw [hμ]
    exact measurePreserving_eval (fun _ : Fin m => (drawLaw n).prod (noiseLaw n)) l
  have hphase : ∀ (l : Fin m) (k : Fin n), μ.real {w | d < |linkPhase df fs (w l).1 k|} ≤ 2 * Real.exp (-(d ^ 2 * fs / (4 * Real.pi * df * n))) := fun l k =>
    phase_tail μ (fun w : LinkSpace m n => (w l).1) (measurePreserving_fst.comp (hl l)) df fs d hdf hfs hd k k.2
  have hnoise : ∀ (l : Fin m) (k : Fin n), μ.real {w | W < ‖(⟨sg / Real.sqrt 2 * ((w l).2 k).1, sg / Real.sqrt 2 * ((w l).2 k).2⟩ : ℂ)‖} ≤
      Real.exp (-(W ^ 2 * (10 : ℝ) ^ (snr / 10) * fb / (P * fs))) := fun l k => by
    refine (noise_tail μ (fun w : LinkSpace m n => (w l).2 k) ((measurePreserving_eval (fun _ : Fin n => stdN2) k).comp (measurePreserving_snd.comp (hl l))) sg W hW0).trans
      (le_of_eq ?_)
    rw [hsg2]
    congr 2
    rw [div_div_eq_mul_div, mul_assoc]
  obtain ⟨B, hB⟩ : ∃ B : Fin m × Fin n → Set (LinkSpace m n), B = fun p => {w | d < |linkPhase df fs (w p.1).1 p.2|} ∪
    {w | W < ‖(⟨sg / Real.sqrt 2 * ((w p.1).2 p.2).1, sg / Real.sqrt 2 * ((w p.1).2 p.2).2⟩ : ℂ)‖} := ⟨_, rfl⟩
  have hU : μ.real (⋃ p, B p) ≤ m * n * (2 * Real.exp (-(d ^ 2 * fs / (4 * Real.pi * df * n))) + Real.exp (-(W ^ 2 * (10 : ℝ) ^ (snr / 10) * fb / (P * fs)))) := by
    refine (measureReal_iUnion_fintype_le _).trans ((Finset.sum_le_card_nsmul _ _ (2 * Real.exp (-(d ^ 2 * fs / (4 * Real.pi * df * n))) +
      Real.exp (-(W ^ 2 * (10 : ℝ) ^ (snr / 10) * fb / (P * fs)))) fun p _ => ?_).trans (le_of_eq ?_))
    · rw [hB]
      exact (measureReal_union_le _ _).trans (add_le_add (hphase p.1 p.2) (hnoise p.1 p.2))
    · rw [Finset.card_univ, Fintype.card_prod, Fintype.card_fin, Fintype.card_fin, nsmul_eq_mul]
      push_cast
      ring
  refine (measureReal_mono (s₂ := ⋃ p, B p) ?_ (measure_ne_top _ _)).trans hU
  intro w hbad
  by_contra hgood
  refine hbad ?_
  rw [Set.mem_iUnion, not_exists] at hgood
  have hg1 : ∀ l j : Nat, |modePhase df fs w l j - 0| ≤ d := by
    intro l j
    rw [sub_zero]
    unfold modePhase
    split_ifs with h
    · by_cases hj : j < n
      · have := hgood (⟨l, h⟩, ⟨j, hj⟩)
        rw [hB, Set.mem_union, not_or, Set.mem_ofPred_eq, not_lt] at this
        exact this.1
      · unfold linkPhase
        rw [List.getD_eq_default _ _ (by rw [length_phaseNoiseRow]; omega), abs_zero]
        exact hd
    · rw [abs_zero]; exact hd
  have hg2 : ∀ l j : Nat, ‖modeNoise sg w l j‖ ≤ W := by
    intro l j
    unfold modeNoise
    split_ifs with h
    · have := hgood (⟨l, h.1⟩, ⟨j, h.2⟩)
      rw [hB, Set.mem_union, not_or, Set.mem_ofPred_eq, Set.mem_ofPred_eq, not_lt, not_lt] at this
      exact this.2
    · rw [norm_zero]; exact hW0
  obtain ⟨out, o1, o2, o3⟩ := C204_decisions S D R W hD hR (List.ofFn fun l => List.ofFn (x l)) pilots (fun _ => 0) (modePhase df fs w) (modeNoise sg w) d (W / a) n pilotIdx
    frameLen numAverage ratio nframes f0 maxBlocks (by
      intro r hr z hz
      obtain ⟨l, rfl⟩ := List.mem_ofFn.1 hr
      obtain ⟨k, rfl⟩ := List.mem_ofFn.1 hz
      exact hS l k) hs hN hr h0 h1 hcount hmax hg1 (by positivity) ((div_lt_one ha0).2 hWa) hsum (by
      intro l r i f z hr hi hf hz
      obtain ⟨hl, rfl⟩ := List.getElem?_eq_some_iff.1 hr
      obtain ⟨hk, rfl⟩ := List.getElem?_eq_some_iff.1 hz
      simp only [List.length_ofFn, List.getElem_ofFn] at hl hk ⊢
      have := ha ⟨l, hl⟩ i f hk hi hf
      calc ‖modeNoise sg w l (i + f * frameLen)‖ ≤ W := hg2 _ _
        _ = W / a * a := by field_simp
        _ ≤ W / a * ‖x ⟨l, hl⟩ ⟨i + f * frameLen, hk⟩‖ := mul_le_mul_of_nonneg_left this (by positivity)) hg2 hmargin
  refine ⟨_, out, simulate_modes x df fs fb snr w, ?_, by rw [o2, List.length_ofFn], ?_⟩
  · rw [← hP, ← hsg]
    exact o1
  · intro l c hc
    have hrow : (List.ofFn fun l => List.ofFn (x l))[(l : ℕ)]? = some (List.ofFn (x l)) := by simp
    obtain ⟨c1, c2⟩ := o3 l _ c hrow hc
    refine ⟨c1, fun k y hy => c2 k (x l k) y (by simp) hy⟩

/-- Two modes of two frames with two pilots each, a linewidth of a millionth of the symbol rate and 30 dB SNR: a failure is less likely than `48 exp (-89)`. -/
example : (linkLaw 2 8).real {w | ¬ ∃ (E : List (List ℂ)) (out : List (List ℂ × List ℝ)),
      simulateTransmission ⟨1, 1, none⟩ (modeDraws w) { snr := some 30, lwdth := some (1 / 1000000) }
        (List.ofFn fun _ : Fin 2 => List.ofFn fun k : Fin 8 => if (k : ℕ) % 2 = 0 then (1 : ℂ) else -1) = .ok E ∧
      pilotBasedCpe E [[1, 1], [1, 1]] 8 [0, 2] 4 3 1 none 2 = .ok out ∧ out.length = 2 ∧
      ∀ (l : Fin 2) (c : List ℂ × List ℝ), out[(l : ℕ)]? = some c → c.1.length = min (4 * 2) 8 ∧
        ∀ (k : Fin 8) (y : ℂ), c.1[(k : ℕ)]? = some y → ∀ s ∈ [(1 : ℂ), -1], s ≠ (if (k : ℕ) % 2 = 0 then (1 : ℂ) else -1) →
          ‖y - if (k : ℕ) % 2 = 0 then (1 : ℂ) else -1‖ < ‖y - s‖} ≤ 48 * Real.exp (-89) := by
  have hpi := Real.pi_lt_d2
  have hpi0 := Real.pi_gt_three
  have harc : Real.arcsin (0.3 / 1) ≤ 0.35 := by
    rw [Real.arcsin_le_iff_le_sin' (by constructor <;> linarith)]
    have := Real.sin_gt_sub_cube (x := 0.35) (by norm_num)
    norm_num at this ⊢
    linarith
  have hnorm : ∀ k : Nat, ‖(if k % 2 = 0 then (1 : ℂ) else -1)‖ = 1 := by
    intro k
    split_ifs <;> simp
  have hP : meanR ((List.ofFn fun _ : Fin 2 => List.ofFn fun k : Fin 8 => if (k : ℕ) % 2 = 0 then (1 : ℂ) else -1).flatten.map fun z => ‖z‖ ^ 2) = 1 := by
    simp [meanR, List.ofFn_succ]
    norm_num
  have h := C213_pilot_link (m := 2) (n := 8) [1, -1] 2 1 0.3 1 0.1 (1 / 1000000) 1 1 30 (by
      intro a ha b hb hab
      simp only [List.mem_cons, List.not_mem_nil, or_false] at ha hb
      rcases ha with rfl | rfl <;> rcases hb with rfl | rfl
      · exact absurd rfl hab
      · norm_num
      · norm_num
      · exact absurd rfl hab) (by simp) (fun _ k => if (k : ℕ) % 2 = 0 then (1 : ℂ) else -1) [[1, 1], [1, 1]] [0, 2] 4 3 1 2 2 none (by
      intro l k
      split_ifs <;> simp) (by
      refine ⟨by simp, ?_, by simp, by simp, by simp, by simp, ?_⟩
      · intro r hr
        obtain ⟨l, rfl⟩ := List.mem_ofFn.1 hr
        simp
      · intro l r p hr hp f j i q hf hj hq hi
        obtain ⟨hl, rfl⟩ := List.getElem?_eq_some_iff.1 hr
        simp only [List.length_ofFn] at hl
        have hq1 : q = 1 := by
          have hp' : p ∈ [[(1 : ℂ), 1], [1, 1]] := List.mem_of_getElem? hp
          have hp2 : p = [1, 1] := by simpa using hp'
          rw [hp2] at hq
          have := List.mem_of_getElem? hq
          simpa using this
        have hi1 : i = 0 ∨ i = 2 := by
          have := List.mem_of_getElem? hj
          simpa using this
        rw [hq1, List.getElem_ofFn, List.getElem?_ofFn, dif_pos (by omega)]
        have : (i + f * 4) % 2 = 0 := by omega
        simp [this]) (by norm_num) le_rfl le_rfl le_rfl (by decide) (by simp) (by
      intro l i f h _ _
      exact (hnorm _).ge) one_pos (by norm_num) (by norm_num) (by norm_num) (by norm_num) one_pos one_pos (by linarith) (by linarith)
  rw [hP] at h
  refine h.trans ?_
  have e1 : Real.exp (-((0.1 : ℝ) ^ 2 * 1 / (4 * Real.pi * (1 / 1000000) * (8 : ℕ)))) ≤ Real.exp (-89) := by
    refine Real.exp_le_exp.2 (neg_le_neg ?_)
    rw [le_div_iff₀ (by positivity)]
    push_cast
    linarith
  have e2 : Real.exp (-((0.3 : ℝ) ^ 2 * 10 ^ ((30 : ℝ) / 10) * 1 / (1 * 1))) ≤ Real.exp (-89) := by
    refine Real.exp_le_exp.2 (neg_le_neg ?_)
    rw [show (30 : ℝ) / 10 = (3 : ℕ) by norm_num, Real.rpow_natCast]
    norm_num
  push_cast at e1 e2 ⊢
  linarith

end Qampy
