import Verif.Props.CarrierLink
import Verif.Props.Locked

/-!
C215: decision directed training on a signal with additive noise of a given SNR: probability that any decision during or after the training is wrong.
-/

namespace Qampy

open MeasureTheory ProbabilityTheory
open Complex (I)

/-- What `simulate_transmission` returns for several modes with additive noise. -/
theorem simulate_awgn {m n : Nat} (x : Fin m → Fin n → ℂ) (fs fb snr : ℝ) (w : LinkSpace m n) :
    simulateTransmission ⟨fs, fb, none⟩ (modeDraws w) { snr := some snr } (List.ofFn fun l => List.ofFn (x l)) =
      .ok ((List.ofFn fun l => List.ofFn (x l)).mapIdx fun l r => r.mapIdx fun j z => z +
        modeNoise (Real.sqrt (meanR ((List.ofFn fun l => List.ofFn (x l)).flatten.map fun z => ‖z‖ ^ 2)) * ((10 : ℝ) ^ (-snr / 20) * Real.sqrt (fs / fb))) w l j) := by
  have h0 : simulateTransmission ⟨fs, fb, none⟩ (modeDraws w) { snr := some snr } (List.ofFn fun l => List.ofFn (x l)) =
      .ok (changeSnr (List.ofFn fun l => List.ofFn (x l)) snr fb fs
        ((List.ofFn fun l => List.ofFn (x l)).mapIdx fun l r => (List.range r.length).map ((modeDraws w).re l))
        ((List.ofFn fun l => List.ofFn (x l)).mapIdx fun l r => (List.range r.length).map ((modeDraws w).im l))) := rfl
  rw [h0]
  congr 1
  unfold changeSnr
  simp only
  obtain ⟨sg, hsg⟩ : ∃ sg, sg = Real.sqrt (meanR ((List.ofFn fun l => List.ofFn (x l)).flatten.map fun z => ‖z‖ ^ 2)) * ((10 : ℝ) ^ (-snr / 20) * Real.sqrt (fs / fb)) := ⟨_, rfl⟩
  rw [← hsg]
  apply List.ext_getElem
  · simp
  · intro l h1 h2
    simp only [List.length_mapIdx, List.length_ofFn] at h2
    simp only [List.getElem_zipWith, List.getElem_zip, List.getElem_mapIdx, List.getElem_ofFn, List.length_ofFn]
    have e1 : (modeDraws w).re l = drawFun fun k => ((w ⟨l, h2⟩).2 k).1 := by simp [modeDraws, h2]
    have e2 : (modeDraws w).im l = drawFun fun k => ((w ⟨l, h2⟩).2 k).2 := by simp [modeDraws, h2]
    rw [e1, e2, drawFun_range, drawFun_range, addAwgn_ofFn]
    apply List.ext_getElem
    · simp
    · intro j h3 h4
      simp only [List.length_ofFn] at h3
      simp only [List.getElem_ofFn, List.getElem_mapIdx]
      congr 1
      simp [modeNoise, h2, h3]

/-- Sum of the moduli of the taps. -/
noncomputable def tapSum (v : List (List ℂ)) (p ntaps : Nat) : ℝ := ∑ k ∈ Finset.range p, ∑ t ∈ Finset.range ntaps, ‖val2 v k t‖

theorem firOutput_noise (E F v : List (List ℂ)) (p ntaps os i : Nat) (ε : ℝ) (h : ∀ k j, ‖val2 E k j - val2 F k j‖ ≤ ε) :
    ‖firOutput E v p ntaps os i - firOutput F v p ntaps os i‖ ≤ ε * tapSum v p ntaps := by
  unfold firOutput tapSum
  rw [← Finset.sum_sub_distrib, Finset.mul_sum]
  refine (norm_sum_le _ _).trans (Finset.sum_le_sum fun k _ => ?_)
  rw [← Finset.sum_sub_distrib, Finset.mul_sum]
  refine (norm_sum_le _ _).trans (Finset.sum_le_sum fun t _ => ?_)
  rw [← mul_sub, norm_mul, mul_comm]
  exact mul_le_mul_of_nonneg_right (h _ _) (norm_nonneg _)

theorem windowEnergy_le (E : List (List ℂ)) (p ntaps os i : Nat) (b : ℝ) (h : ∀ k j, ‖val2 E k j‖ ≤ b) : windowEnergy E p ntaps os i ≤ p * ntaps * b ^ 2 := by
  unfold windowEnergy
  have : ∀ k ∈ Finset.range p, ∑ t ∈ Finset.range ntaps, ‖val2 E k (i * os + t)‖ ^ 2 ≤ ntaps * b ^ 2 := by
    intro k _
    refine (Finset.sum_le_card_nsmul _ _ (b ^ 2) fun t _ => pow_le_pow_left₀ (norm_nonneg _) (h _ _) 2).trans (le_of_eq ?_)
    rw [Finset.card_range, nsmul_eq_mul]
  refine (Finset.sum_le_card_nsmul _ _ _ this).trans (le_of_eq ?_)
  rw [Finset.card_range, nsmul_eq_mul]
  ring

/-- **C215** A received signal (any mixing, oversampling and intersymbol interference) that some taps `v` equalise exactly gets additive noise of a given SNR, and the equaliser is trained with "sbd" from taps within
the distance `D` of `v`. If the noise `ε` per sample is tolerable, then except with probability `p L exp(-ε² 10^(snr/10) fb / (P fs))` the blind decisions are all right: the training is exactly
that with the known symbols ("sbd_data"), and, for a fixed step size, the trained taps decide every symbol right. -/
theorem C215_training {adaptive : Bool} {p L trSyms nIter os ntaps : Nat} (x : Fin p → Fin L → ℂ) {alphabets sent : List (List ℂ)} {wx : List (List (List ℂ))} {modes : List Nat}
    {v : Nat → List (List ℂ)} {A a V D B mu ε fs fb snr : ℝ} {errf errd : ℂ → List ℂ → Nat → Option ℂ} (hmeth : errorFct "sbd" = some errf) (hdata : errorFct "sbd_data" = some errd)
    (hwlen : wx.length = p) (hw : ∀ w ∈ wx, Rect w p ntaps) (hm : ∀ m ∈ modes, m < p) (hnd : modes.Nodup) (hT : trSyms = 0 ∨ (trSyms - 1) * os + ntaps ≤ L)
    (hx : ∀ l k, ‖x l k‖ ≤ a) (hA : 0 < A) (hmu : 0 < mu) (hε : 0 ≤ ε) (ha : 0 ≤ a) (hfs : 0 < fs) (hfb : 0 < fb) (hstep : A * (mu * (p * ntaps * (a + ε) ^ 2)) ≤ 1)
    (hsymlen : alphabets.length = p) (hsent : ∀ row ∈ sent, ∀ s ∈ row, |s.re| ≤ A ∧ |s.im| ≤ A)
    (hzf : ∀ m ∈ modes, ∃ alph tx, alphabets[m]? = some alph ∧ sent[m]? = some tx ∧ (∀ y ∈ alph, ∀ z ∈ alph, y ≠ z → 2 * B < ‖y - z‖) ∧
      (∀ i < trSyms, ∃ s ∈ alph, tx[i]? = some s ∧ firOutput (List.ofFn fun l => List.ofFn (x l)) (v m) p ntaps os i = s) ∧
      tapSum (v m) p ntaps ≤ V ∧ ∀ w, wx[m]? = some w → tapDist w (v m) p ntaps ≤ D)
    (hbudget : Real.sqrt ((D + 2 * A * mu * (nIter * (trSyms * (ε * V) ^ 2))) * (p * ntaps * (a + ε) ^ 2)) + ε * V ≤ B) (hnear : B ^ 2 < 1000) :
    (linkLaw p L).real {w | ¬ ∃ (E : List (List ℂ)) (r : TrainResult ℂ),
      simulateTransmission ⟨fs, fb, none⟩ (modeDraws w) { snr := some snr } (List.ofFn fun l => List.ofFn (x l)) = .ok E ∧
      trainEqualiser errf adaptStep adaptive E trSyms nIter os mu wx ntaps modes alphabets = some r ∧
      trainEqualiser errd adaptStep adaptive E trSyms nIter os mu wx ntaps modes sent = some r ∧
      (adaptive = false → ∀ m ∈ modes, ∃ w' alph tx, r.wx[m]? = some w' ∧ alphabets[m]? = some alph ∧ sent[m]? = some tx ∧
        ∀ i < trSyms, ∀ s, tx[i]? = some s → (detSymbol (firOutput E w' p ntaps os i) alph).1 = s)} ≤
    p * L * Real.exp (-(ε ^ 2 * (10 : ℝ) ^ (snr / 10) * fb / (meanR ((List.ofFn fun l => List.ofFn (x l)).flatten.map fun z => ‖z‖ ^ 2) * fs))) := by
  obtain ⟨P, hP⟩ : ∃ P, P = meanR ((List.ofFn fun l => List.ofFn (x l)).flatten.map fun z => ‖z‖ ^ 2) := ⟨_, rfl⟩
  obtain ⟨sg, hsg⟩ : ∃ sg, sg = Real.sqrt P * ((10 : ℝ) ^ (-snr / 20) * Real.sqrt (fs / fb)) := ⟨_, rfl⟩
  obtain ⟨μ, hμ⟩ : ∃ μ, μ = linkLaw p L := ⟨_, rfl⟩
  rw [← hμ, ← hP]
  have hprob : IsProbabilityMeasure μ := by rw [hμ]; infer_instance
  have hP0 : 0 ≤ P := by
    rw [hP]
    unfold meanR
    refine div_nonneg (List.sum_nonneg ?_) (Nat.cast_nonneg _)
    intro x hx
    obtain ⟨z, -, rfl⟩ := List.mem_map.1 hx
    positivity
  have hsg2 : sg ^ 2 = P * fs / ((10 : ℝ) ^ (snr / 10) * fb) := by
    rw [hsg, mul_pow, mul_pow, Real.sq_sqrt hP0, Real.sq_sqrt (by positivity), ← Real.rpow_natCast ((10 : ℝ) ^ (-snr / 20)), ← Real.rpow_mul (by norm_num),
      show -snr / 20 * ((2 : ℕ) : ℝ) = -(snr / 10) by push_cast; ring, Real.rpow_neg (by norm_num)]
    have : (0 : ℝ) < 10 ^ (snr / 10) := by positivity
    field_simp
  have hl : ∀ l : Fin p, MeasurePreserving (fun w : LinkSpace p L => w l) μ ((drawLaw L).prod (noiseLaw L)) := fun l => by
    rw [hμ]
    exact measurePreserving_eval (fun _ : Fin p => (drawLaw L).prod (noiseLaw L)) l
  have hnoise : ∀ (l : Fin p) (k : Fin L), μ.real {w | ε < ‖(⟨sg / Real.sqrt 2 * ((w l).2 k).1, sg / Real.sqrt 2 * ((w l).2 k).2⟩ : ℂ)‖} ≤
      Real.exp (-(ε ^ 2 * (10 : ℝ) ^ (snr / 10) * fb / (P * fs))) := fun l k => by
    refine (noise_tail μ (fun w : LinkSpace p L => (w l).2 k) ((measurePreserving_eval (fun _ : Fin L => stdN2) k).comp (measurePreserving_snd.comp (hl l))) sg ε hε).trans
      (le_of_eq ?_)
    rw [hsg2]
    congr 2
    rw [div_div_eq_mul_div, mul_assoc]
  obtain ⟨Bd, hBd⟩ : ∃ B : Fin p × Fin L → Set (LinkSpace p L), B = fun q =>
    {w | ε < ‖(⟨sg / Real.sqrt 2 * ((w q.1).2 q.2).1, sg / Real.sqrt 2 * ((w q.1).2 q.2).2⟩ : ℂ)‖} := ⟨_, rfl⟩
  have hU : μ.real (⋃ q, Bd q) ≤ p * L * Real.exp (-(ε ^ 2 * (10 : ℝ) ^ (snr / 10) * fb / (P * fs))) := by
    refine (measureReal_iUnion_fintype_le _).trans ((Finset.sum_le_card_nsmul _ _ (Real.exp (-(ε ^ 2 * (10 : ℝ) ^ (snr / 10) * fb / (P * fs)))) fun q _ => ?_).trans (le_of_eq ?_))
    · rw [hBd]
      exact hnoise q.1 q.2
    · rw [Finset.card_univ, Fintype.card_prod, Fintype.card_fin, Fintype.card_fin, nsmul_eq_mul]
      push_cast
      ring
  refine (measureReal_mono (s₂ := ⋃ q, Bd q) ?_ (measure_ne_top _ _)).trans hU
  intro w hbad
  by_contra hgood
  refine hbad ?_
  rw [Set.mem_iUnion, not_exists] at hgood
  have hg2 : ∀ l j : Nat, ‖modeNoise sg w l j‖ ≤ ε := by
    intro l j
    unfold modeNoise
    split_ifs with h
    · have := hgood (⟨l, h.1⟩, ⟨j, h.2⟩)
      rw [hBd, Set.mem_ofPred_eq, not_lt] at this
      exact this
    · rw [norm_zero]; exact hε
  obtain ⟨E0, hE0⟩ : ∃ E0, E0 = (List.ofFn fun l => List.ofFn (x l)) := ⟨_, rfl⟩
  obtain ⟨E, hE⟩ : ∃ E, E = (E0.mapIdx fun l r => r.mapIdx fun j z => z + modeNoise sg w l j) := ⟨_, rfl⟩
  have hsim := simulate_awgn x fs fb snr w
  rw [← hP, ← hsg, ← hE0, ← hE] at hsim
  have hrect : Rect E p L := by
    refine ⟨by rw [hE, hE0]; simp, ?_⟩
    intro r hr
    rw [hE] at hr
    obtain ⟨l, hl, rfl⟩ := List.mem_mapIdx.1 hr
    simp only [List.length_mapIdx, hE0, List.getElem_ofFn, List.length_ofFn]
  have hval : ∀ k j, ‖val2 E k j - val2 E0 k j‖ ≤ ε ∧ ‖val2 E0 k j‖ ≤ a := by
    intro k j
    unfold val2 at2
    rw [hE, List.getElem?_mapIdx, hE0, List.getElem?_ofFn]
    by_cases hk : k < p
    · rw [dif_pos hk]
      simp only [Option.map_some, Option.bind_some, List.getElem?_mapIdx, List.getElem?_ofFn]
      by_cases hj : j < L
      · rw [dif_pos hj]
        simp only [Option.map_some, Option.getD_some, add_sub_cancel_left]
        exact ⟨hg2 _ _, hx _ _⟩
      · rw [dif_neg hj]
        simp only [Option.map_none, Option.getD_none, sub_zero, norm_zero]
        exact ⟨hε, ha⟩
    · rw [dif_neg hk]
      simp only [Option.map_none, Option.bind_none, Option.getD_none, sub_zero, norm_zero]
      exact ⟨hε, ha⟩
  have hwin : ∀ i < trSyms, windowEnergy E p ntaps os i ≤ p * ntaps * (a + ε) ^ 2 := by
    intro i _
    refine windowEnergy_le E p ntaps os i (a + ε) fun k j => ?_
    have e : val2 E k j = val2 E0 k j + (val2 E k j - val2 E0 k j) := by ring
    rw [e]
    exact (norm_add_le _ _).trans (add_le_add (hval k j).2 (hval k j).1)
  have hlock : ∀ m ∈ modes, ∃ alph tx, alphabets[m]? = some alph ∧ sent[m]? = some tx ∧
      ∀ w, wx[m]? = some w → LockedMode E (v m) w p ntaps os trSyms nIter alph tx A (p * ntaps * (a + ε) ^ 2) mu (ε * V) B := by
    intro m hmm
    obtain ⟨alph, tx, g1, g2, g3, g4, g5, g6⟩ := hzf m hmm
    refine ⟨alph, tx, g1, g2, fun w0 hw0 => ?_⟩
    have hdev : ∀ i < trSyms, ‖tx.getD i 0 - firOutput E (v m) p ntaps os i‖ ≤ ε * V := by
      intro i hi
      obtain ⟨s, -, h2, h3⟩ := g4 i hi
      rw [List.getD_eq_getElem?_getD, h2, Option.getD_some, ← h3, ← hE0, norm_sub_rev]
      exact (firOutput_noise E E0 (v m) p ntaps os i ε fun k j => (hval k j).1).trans (mul_le_mul_of_nonneg_left g5 hε)
    refine ⟨fun i hi => ?_, ?_, hnear, g3⟩
    · obtain ⟨s, h1, h2, h3⟩ := g4 i hi
      have h4 := hsent tx (List.mem_of_getElem? g2) s (List.mem_of_getElem? h2)
      have h5 := hdev i hi
      rw [List.getD_eq_getElem?_getD, h2, Option.getD_some] at h5
      exact ⟨s, h2, h1, h4.1, h4.2, h5⟩
    · refine le_trans (add_le_add_left (Real.sqrt_le_sqrt ?_) _) hbudget
      refine mul_le_mul_of_nonneg_right ?_ (by positivity)
      refine add_le_add (g6 w0 hw0) (mul_le_mul_of_nonneg_left (mul_le_mul_of_nonneg_left ?_ (Nat.cast_nonneg _)) (by positivity))
      refine (Finset.sum_le_card_nsmul _ _ ((ε * V) ^ 2) fun i hi => pow_le_pow_left₀ (norm_nonneg _) (hdev i (Finset.mem_range.1 hi)) 2).trans (le_of_eq ?_)
      rw [Finset.card_range, nsmul_eq_mul]
  have hwx : ∀ m ∈ modes, m < wx.length := fun m hmm => by rw [hwlen]; exact hm m hmm
  have heq := C209_locked (adaptive := adaptive) (v := v) (ν := fun _ => ε * V) (B := fun _ => B) hmeth hdata hrect hw hnd hT hwin hA hmu hstep hlock hwx
  obtain ⟨r, hr, -⟩ := C27_in_bounds (errf := errf) (adapt := adaptStep) (adaptive := adaptive) (nIter := nIter) (mu := mu) hrect hwlen hw hsymlen hm hT (by
    intro s hs i _ y
    have e : errf = sbdError := by
      have : sbdError = errf := by simpa [errorFct] using hmeth
      exact this.symm
    rw [e]
    exact ⟨_, rfl⟩)
  refine ⟨E, r, by rw [← hE0]; exact hsim, hr, by rw [← heq]; exact hr, fun had m hmm => ?_⟩
  subst had
  obtain ⟨w0, w', errs, alph, tx, -, k2, -, k4, k5, -, k7⟩ := C209_energy (v := v) (ν := fun _ => ε * V) (B := fun _ => B) hmeth hrect hw hm hnd hT hwin hA hmu hstep hsent hlock hwx hr m hmm
  exact ⟨w', alph, tx, k2, k4, k5, k7⟩

/-- Four symbols of ±1±i through a channel with gain 1/2 at 40 dB: the taps `[[2.01]]` start near `[[2]]`, and the training is right except with probability 4 exp(-ε² 10^4 / P). -/
example (sg : Fin 4 → Bool × Bool) : ∃ errf errd, errorFct "sbd" = some errf ∧ errorFct "sbd_data" = some errd ∧
    (linkLaw 1 4).real {w | ¬ ∃ (E : List (List ℂ)) (r : TrainResult ℂ),
      simulateTransmission ⟨1, 1, none⟩ (modeDraws w) { snr := some 40 } (List.ofFn fun _ : Fin 1 => List.ofFn fun k => (⟨if (sg k).1 then 1 / 2 else -1 / 2, if (sg k).2 then 1 / 2 else -1 / 2⟩ : ℂ)) = .ok E ∧
      trainEqualiser errf adaptStep false E 4 2 1 (1 / 4) [[[2.01]]] 1 [0] [[⟨1, 1⟩, ⟨1, -1⟩, ⟨-1, 1⟩, ⟨-1, -1⟩]] = some r ∧
      trainEqualiser errd adaptStep false E 4 2 1 (1 / 4) [[[2.01]]] 1 [0] [List.ofFn fun k => (⟨if (sg k).1 then 1 else -1, if (sg k).2 then 1 else -1⟩ : ℂ)] = some r ∧
      (false = false → ∀ m ∈ [0], ∃ w' alph tx, r.wx[m]? = some w' ∧ ([[⟨1, 1⟩, ⟨1, -1⟩, ⟨-1, 1⟩, ⟨-1, -1⟩]] : List (List ℂ))[m]? = some alph ∧
        [List.ofFn fun k => (⟨if (sg k).1 then 1 else -1, if (sg k).2 then 1 else -1⟩ : ℂ)][m]? = some tx ∧
        ∀ i < 4, ∀ s, tx[i]? = some s → (detSymbol (firOutput E w' 1 1 1 i) alph).1 = s)} ≤
      (1 : ℕ) * (4 : ℕ) * Real.exp (-((1 / 8) ^ 2 * (10 : ℝ) ^ ((40 : ℝ) / 10) * 1 / (meanR ((List.ofFn fun _ : Fin 1 => List.ofFn fun k =>
        (⟨if (sg k).1 then 1 / 2 else -1 / 2, if (sg k).2 then 1 / 2 else -1 / 2⟩ : ℂ)).flatten.map fun z => ‖z‖ ^ 2) * 1))) := by
  refine ⟨sbdError, sbdDataError, rfl, rfl, ?_⟩
  refine C215_training (v := fun _ => [[2]]) (A := 1) (a := 3 / 4) (V := 2) (D := 1 / 5000) (B := 0.9) (fun _ k => ⟨if (sg k).1 then 1 / 2 else -1 / 2, if (sg k).2 then 1 / 2 else -1 / 2⟩) rfl rfl rfl
    (by simp [Rect]) (by simp) (by simp) (by norm_num) ?_ (by norm_num) (by norm_num) (by norm_num) (by norm_num) (by norm_num) (by norm_num) (by norm_num) rfl ?_ ?_ ?_ (by norm_num)
  · intro l k
    rw [Complex.norm_eq_sqrt_sq_add_sq]
    refine Real.sqrt_le_iff.2 ⟨by norm_num, ?_⟩
    split_ifs <;> norm_num
  · intro row hr s hs
    rw [List.mem_singleton] at hr
    subst hr
    obtain ⟨k, rfl⟩ := (List.mem_ofFn' _ _).1 hs
    dsimp only
    constructor <;> split_ifs <;> norm_num
  · intro m hm
    rw [List.mem_singleton] at hm
    subst hm
    refine ⟨_, _, rfl, rfl, ?_, ?_, ?_, ?_⟩
    · have far : ∀ z : ℂ, 4 ≤ z.re ^ 2 + z.im ^ 2 → 2 * 0.9 < ‖z‖ := by
        intro z hz
        rw [Complex.norm_eq_sqrt_sq_add_sq]
        exact Real.lt_sqrt_of_sq_lt (by norm_num; linarith)
      intro y hy z hz hyz
      simp only [List.mem_cons, List.not_mem_nil, or_false] at hy hz
      rcases hy with rfl | rfl | rfl | rfl <;> rcases hz with rfl | rfl | rfl | rfl <;> first | exact absurd rfl hyz | (apply far; simp; norm_num)
    · intro i hi
      refine ⟨⟨if (sg ⟨i, hi⟩).1 then 1 else -1, if (sg ⟨i, hi⟩).2 then 1 else -1⟩, ?_, ?_, ?_⟩
      · split_ifs <;> simp
      · rw [List.getElem?_ofFn, dif_pos hi]
      · simp only [firOutput, Finset.sum_range_one, val2, at2]
        simp only [List.getElem?_ofFn, Option.bind_some, add_zero, mul_one, List.getElem?_cons_zero, Option.getD_some]
        simp only [Nat.lt_one_iff, dite_true, Option.bind_some, List.getElem?_ofFn, dif_pos hi, Option.getD_some]
        apply Complex.ext <;> simp <;> split_ifs <;> norm_num
    · simp [tapSum, val2, at2]
    · intro w hw
      simp at hw
      subst hw
      simp only [tapDist, Finset.sum_range_one, val2, at2]
      simp
      have : (2.01 - 2 : ℂ) = ((0.01 : ℝ) : ℂ) := by push_cast; norm_num
      rw [this]
      rw [Complex.norm_real]
      norm_num
  · have : Real.sqrt ((1 / 5000 + 2 * 1 * (1 / 4) * ((2 : ℕ) * ((4 : ℕ) * (1 / 8 * 2) ^ 2))) * ((1 : ℕ) * (1 : ℕ) * (3 / 4 + 1 / 8) ^ 2)) ≤ 0.65 := by
      refine Real.sqrt_le_iff.2 ⟨by norm_num, by norm_num⟩
    linarith

end Qampy
