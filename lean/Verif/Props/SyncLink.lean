import Verif.Props.TrainLink
import Verif.Props.Metrics

/-!
C216: probability that the alignment of a noisy signal, on which all metrics rely, goes wrong.
-/

namespace Qampy

open MeasureTheory ProbabilityTheory
open Complex (I)

theorem subgaussian_mono {Ω : Type*} [MeasurableSpace Ω] {P : Measure Ω} {X : Ω → ℝ} {c e : NNReal} (h : HasSubgaussianMGF X c P) (hce : c ≤ e) : HasSubgaussianMGF X e P := by
  refine ⟨h.1, fun t => (h.2 t).trans (Real.exp_le_exp.2 ?_)⟩
  have : (c : ℝ) ≤ e := by exact_mod_cast hce
  have := mul_le_mul_of_nonneg_right this (sq_nonneg t)
  linarith

theorem subgaussian_stdN : HasSubgaussianMGF (fun u : ℝ => u) 1 stdN := by
  refine ⟨fun t => integrable_exp_mul_gaussianReal (μ := 0) (v := 1) t, fun t => ?_⟩
  rw [mgf_gaussianReal (p := stdN) (X := fun u : ℝ => u) (Measure.map_id (μ := stdN))]
  simp

theorem subgaussian_pair (a b : ℝ) : HasSubgaussianMGF (fun z : ℝ × ℝ => a * z.1 + b * z.2) (Real.toNNReal (a ^ 2 + b ^ 2)) stdN2 := by
  have h1 : HasSubgaussianMGF (fun z : ℝ × ℝ => z.1) 1 stdN2 :=
    HasSubgaussianMGF.of_map (Y := Prod.fst) (X := fun u : ℝ => u) measurable_fst.aemeasurable (by
      rw [(measurePreserving_fst (μ := stdN) (ν := stdN)).map_eq]; exact subgaussian_stdN)
  have h2 : HasSubgaussianMGF (fun z : ℝ × ℝ => z.2) 1 stdN2 :=
    HasSubgaussianMGF.of_map (Y := Prod.snd) (X := fun u : ℝ => u) measurable_snd.aemeasurable (by
      rw [(measurePreserving_snd (μ := stdN) (ν := stdN)).map_eq]; exact subgaussian_stdN)
  have hind : IndepFun (fun z : ℝ × ℝ => a * z.1) (fun z : ℝ × ℝ => b * z.2) stdN2 := indepFun_prod (X := fun u => a * u) (Y := fun u => b * u) (by fun_prop) (by fun_prop)
  refine subgaussian_mono ((h1.const_mul a).add_of_indepFun (h2.const_mul b) hind) (le_of_eq ?_)
  apply NNReal.eq
  rw [Real.coe_toNNReal _ (by positivity), NNReal.coe_add]
  change a ^ 2 * 1 + b ^ 2 * 1 = _
  ring

theorem subgaussian_sum {n : Nat} (a b : Fin n → ℝ) (E : ℝ) (hE : ∑ k, (a k ^ 2 + b k ^ 2) ≤ E) :
    HasSubgaussianMGF (fun w : Fin n → ℝ × ℝ => ∑ k, (a k * (w k).1 + b k * (w k).2)) (Real.toNNReal E) (noiseLaw n) := by
  have hind : iIndepFun (fun (k : Fin n) (w : Fin n → ℝ × ℝ) => a k * (w k).1 + b k * (w k).2) (noiseLaw n) :=
    iIndepFun_pi (X := fun (k : Fin n) (z : ℝ × ℝ) => a k * z.1 + b k * z.2) fun k => (by fun_prop)
  have hk : ∀ k ∈ (Finset.univ : Finset (Fin n)), HasSubgaussianMGF (fun w : Fin n → ℝ × ℝ => a k * (w k).1 + b k * (w k).2) (Real.toNNReal (a k ^ 2 + b k ^ 2)) (noiseLaw n) := fun k _ =>
    HasSubgaussianMGF.of_map (Y := fun w : Fin n → ℝ × ℝ => w k) (X := fun z : ℝ × ℝ => a k * z.1 + b k * z.2) (measurable_pi_apply k).aemeasurable (by
      rw [(measurePreserving_eval (fun _ : Fin n => stdN2) k).map_eq]; exact subgaussian_pair _ _)
  refine subgaussian_mono (HasSubgaussianMGF.sum_of_iIndepFun hind hk) ?_
  rw [← Real.toNNReal_sum_of_nonneg fun k _ => by positivity]
  exact Real.toNNReal_le_toNNReal hE

/-- Tail of a weighted sum of noise samples. -/
theorem weighted_tail {Ω : Type*} [MeasurableSpace Ω] (μ : Measure Ω) {n : Nat} (Z : Ω → Fin n → ℝ × ℝ) (hZ : MeasurePreserving Z μ (noiseLaw n)) (c : Fin n → ℂ) (sg E η : ℝ) (hE : ∑ k, ‖c k‖ ^ 2 ≤ E) (hη : 0 ≤ η) :
    μ.real {w | η < ‖∑ k, (⟨sg / Real.sqrt 2 * (Z w k).1, sg / Real.sqrt 2 * (Z w k).2⟩ : ℂ) * c k‖} ≤ 4 * Real.exp (-(η ^ 2 / (2 * (sg ^ 2 * E)))) := by
  have hE0 : 0 ≤ E := (Finset.sum_nonneg fun k _ => sq_nonneg ‖c k‖).trans hE
  have h2 : (sg / Real.sqrt 2) ^ 2 = sg ^ 2 / 2 := by rw [div_pow, Real.sq_sqrt (by norm_num)]
  have hprob : IsProbabilityMeasure μ := by
    refine ⟨?_⟩
    have := hZ.measure_preimage (s := Set.univ) MeasurableSet.univ.nullMeasurableSet
    rw [Set.preimage_univ] at this
    rw [this, measure_univ]
  -- one part
  have key : ∀ a b : Fin n → ℝ, (∀ k, a k ^ 2 + b k ^ 2 = sg ^ 2 / 2 * ‖c k‖ ^ 2) →
      μ.real {w | η / Real.sqrt 2 ≤ |∑ k, (a k * (Z w k).1 + b k * (Z w k).2)|} ≤ 2 * Real.exp (-(η ^ 2 / (2 * (sg ^ 2 * E)))) := by
    intro a b hab
    have hs : ∑ k, (a k ^ 2 + b k ^ 2) ≤ sg ^ 2 / 2 * E := by
      rw [Finset.sum_congr rfl fun k _ => hab k, ← Finset.mul_sum]
      exact mul_le_mul_of_nonneg_left hE (by positivity)
    have hsub : HasSubgaussianMGF (fun w => ∑ k, (a k * (Z w k).1 + b k * (Z w k).2)) (Real.toNNReal (sg ^ 2 / 2 * E)) μ :=
      HasSubgaussianMGF.of_map (Y := Z) (X := fun w : Fin n → ℝ × ℝ => ∑ k, (a k * (w k).1 + b k * (w k).2)) hZ.measurable.aemeasurable (by
        rw [hZ.map_eq]; exact subgaussian_sum a b _ hs)
    have hpos : 0 ≤ η / Real.sqrt 2 := by positivity
    have e : -(η / Real.sqrt 2) ^ 2 / (2 * (Real.toNNReal (sg ^ 2 / 2 * E) : ℝ)) = -(η ^ 2 / (2 * (sg ^ 2 * E))) := by
      rw [Real.coe_toNNReal _ (by positivity), div_pow, Real.sq_sqrt (by norm_num), show 2 * (sg ^ 2 / 2 * E) = sg ^ 2 * E by ring, neg_div, div_div]
    have t1 := hsub.measure_ge_le hpos
    have t2 := hsub.neg.measure_ge_le hpos
    rw [e] at t1 t2
    have hsubset : {w | η / Real.sqrt 2 ≤ |∑ k, (a k * (Z w k).1 + b k * (Z w k).2)|} ⊆
        {w | η / Real.sqrt 2 ≤ ∑ k, (a k * (Z w k).1 + b k * (Z w k).2)} ∪ {w | η / Real.sqrt 2 ≤ (-fun w => ∑ k, (a k * (Z w k).1 + b k * (Z w k).2)) w} := by
      intro w hw
      rw [Set.mem_ofPred_eq, le_abs] at hw
      exact hw
    refine (measureReal_mono hsubset (measure_ne_top _ _)).trans ((measureReal_union_le _ _).trans ?_)
    linarith
  have k1 := key (fun k => sg / Real.sqrt 2 * (c k).re) (fun k => -(sg / Real.sqrt 2 * (c k).im)) fun k => by
    rw [neg_sq, mul_pow, mul_pow, h2, ← mul_add, Complex.sq_norm, Complex.normSq_apply]; ring
  have k2 := key (fun k => sg / Real.sqrt 2 * (c k).im) (fun k => sg / Real.sqrt 2 * (c k).re) fun k => by
    rw [mul_pow, mul_pow, h2, ← mul_add, Complex.sq_norm, Complex.normSq_apply]; ring
  have hsubset : {w | η < ‖∑ k, (⟨sg / Real.sqrt 2 * (Z w k).1, sg / Real.sqrt 2 * (Z w k).2⟩ : ℂ) * c k‖} ⊆
      {w | η / Real.sqrt 2 ≤ |∑ k, (sg / Real.sqrt 2 * (c k).re * (Z w k).1 + -(sg / Real.sqrt 2 * (c k).im) * (Z w k).2)|} ∪
      {w | η / Real.sqrt 2 ≤ |∑ k, (sg / Real.sqrt 2 * (c k).im * (Z w k).1 + sg / Real.sqrt 2 * (c k).re * (Z w k).2)|} := by
    intro w hw
    rw [Set.mem_ofPred_eq] at hw
    by_contra hno
    rw [Set.mem_union, not_or, Set.mem_ofPred_eq, Set.mem_ofPred_eq, not_le, not_le] at hno
    obtain ⟨z, hz⟩ : ∃ z, z = ∑ k, (⟨sg / Real.sqrt 2 * (Z w k).1, sg / Real.sqrt 2 * (Z w k).2⟩ : ℂ) * c k := ⟨_, rfl⟩
    have hre : z.re = ∑ k, (sg / Real.sqrt 2 * (c k).re * (Z w k).1 + -(sg / Real.sqrt 2 * (c k).im) * (Z w k).2) := by
      rw [hz, Complex.re_sum]
      refine Finset.sum_congr rfl fun k _ => ?_
      rw [Complex.mul_re]
      ring
    have him : z.im = ∑ k, (sg / Real.sqrt 2 * (c k).im * (Z w k).1 + sg / Real.sqrt 2 * (c k).re * (Z w k).2) := by
      rw [hz, Complex.im_sum]
      refine Finset.sum_congr rfl fun k _ => ?_
      rw [Complex.mul_im]
      ring
    rw [← hre, ← him] at hno
    rw [← hz, Complex.norm_eq_sqrt_sq_add_sq] at hw
    have h3 := sq_lt_sq' (by linarith [abs_nonneg z.re]) hno.1
    have h4 := sq_lt_sq' (by linarith [abs_nonneg z.im]) hno.2
    rw [sq_abs, div_pow, Real.sq_sqrt (by norm_num)] at h3 h4
    have h5 := Real.lt_sqrt hη |>.1 hw
    linarith
  refine (measureReal_mono hsubset (measure_ne_top _ _)).trans ((measureReal_union_le _ _).trans ?_)
  linarith

/-- The samples of a correlation, sorted by the first factor instead of the second. -/
theorem shift_sum {R : Type*} [CommSemiring R] (N : Nat) (k : Int) (f g : Nat → R) :
    ∑ m ∈ Finset.range N, (if 0 ≤ k + m ∧ k + m < N then f (k + m).toNat else 0) * g m =
    ∑ n ∈ Finset.range N, f n * (if 0 ≤ (n : Int) - k ∧ (n : Int) - k < N then g ((n : Int) - k).toNat else 0) := by
  simp only [ite_mul, zero_mul, mul_ite, mul_zero]
  rw [← Finset.sum_filter, ← Finset.sum_filter]
  refine Finset.sum_nbij' (fun m => (k + m).toNat) (fun n => ((n : Int) - k).toNat) ?_ ?_ ?_ ?_ ?_
  · intro m hm
    simp only [Finset.mem_filter, Finset.mem_range] at hm ⊢
    omega
  · intro m hm
    simp only [Finset.mem_filter, Finset.mem_range] at hm ⊢
    omega
  · intro m hm
    simp only [Finset.mem_filter, Finset.mem_range] at hm
    omega
  · intro m hm
    simp only [Finset.mem_filter, Finset.mem_range] at hm
    omega
  · intro m hm
    simp only [Finset.mem_filter, Finset.mem_range] at hm
    congr 2
    omega

/-- **C216** Let the received modes be transmitted modes in any order, delayed and turned, with noise added by `simulate_transmission`. All metrics are then those with respect to the symbols really sent, except with probability
`4 Lr L (2N - 1) exp(-η² 10^(snr/10) fb / (2 P fs E))`. The margin `η` of the correlations is of the order of the energy `E` of the sequences, so that the probability falls exponentially with the number of symbols at any SNR:
symbol errors do not disturb the alignment. -/
theorem C216_alignment (s : Nat → Nat → ℂ) (tau d r : Nat → Nat) (N L Lr : Nat) (hN : 0 < N) (c0 η E fs fb snr : ℝ) (hc0 : 0 ≤ c0) (hη : 0 ≤ η) (hfs : 0 < fs) (hfb : 0 < fb)
    (htau : ∀ j < Lr, tau j < L) (hinj : ∀ j k, j < Lr → k < Lr → tau j = tau k → j = k) (hd : ∀ j < Lr, d j < N) (hr : ∀ j < Lr, r j < 4)
    (hE : ∀ i < L, ∑ m ∈ Finset.range N, ‖s i m‖ ^ 2 ≤ E) (hnz : ∀ i < L, ∃ m < N, s i m ≠ 0)
    (hside : ∀ j < Lr, ∀ i < L, ∀ k : Int, -(N : Int) < k → k < N → (i ≠ tau j ∨ ¬ k % N = d j % N) →
      ‖∑ m ∈ Finset.range N, (if 0 ≤ k + m ∧ k + m < N then delayed N (s (tau j)) (d j) (k + m).toNat else 0) * (starRingEnd ℂ) (s i m)‖ ≤ c0)
    (hpeak : ∀ j < Lr, c0 + 2 * η < max (∑ m ∈ Finset.Ico 0 (N - d j), ‖s (tau j) m‖ ^ 2) (∑ m ∈ Finset.Ico (N - d j) N, ‖s (tau j) m‖ ^ 2))
    (nbits : Nat) (coded : List ℂ) (tx sent : List (List ℂ)) (htx : tx = (List.range L).map fun i => (List.range N).map (s i))
    (hsent : sent = List.ofFn fun j : Fin Lr => List.ofFn fun n : Fin N => delayed N (s (tau j)) (d j) n * I ^ r j) :
    (linkLaw Lr N).real {w | ¬ ∃ rx : List (List ℂ), simulateTransmission ⟨fs, fb, none⟩ (modeDraws w) { snr := some snr } sent = .ok rx ∧
      calSerRows coded false tx rx = calSerRows coded true sent rx ∧ calBerRows nbits coded false tx rx = calBerRows nbits coded true sent rx ∧
      calEvmRows false tx rx = calEvmRows true sent rx ∧ estSnrRows coded false tx rx = estSnrRows coded true sent rx} ≤
    Lr * L * (2 * N - 1 : ℕ) * (4 * Real.exp (-(η ^ 2 * (10 : ℝ) ^ (snr / 10) * fb / (2 * (meanR (sent.flatten.map fun z => ‖z‖ ^ 2) * fs * E))))) := by
  obtain ⟨P, hP⟩ : ∃ P, P = meanR (sent.flatten.map fun z => ‖z‖ ^ 2) := ⟨_, rfl⟩
  obtain ⟨sg, hsg⟩ : ∃ sg, sg = Real.sqrt P * ((10 : ℝ) ^ (-snr / 20) * Real.sqrt (fs / fb)) := ⟨_, rfl⟩
  obtain ⟨μ, hμ⟩ : ∃ μ, μ = linkLaw Lr N := ⟨_, rfl⟩
  rw [← hμ, ← hP]
  have hprob : IsProbabilityMeasure μ := by rw [hμ]; infer_instance
  have hP0 : 0 ≤ P := by
    rw [hP]
    unfold meanR
    refine div_nonneg (List.sum_nonneg ?_) (Nat.cast_nonneg _)
    intro x hx
    obtain ⟨z, -, rfl⟩ := List.mem_map.1 hx
    positivity
  have hsg2 : sg ^ 2 = P * fs / ((10 : ℝ) ^ (snr / 10) * fb) := by
    rw [hsg, mul_pow, mul_pow, Real.sq_sqrt hP0, Real.sq_sqrt (by positivity), ← Real.rpow_natCast ((10 : ℝ) ^ (-snr / 20)), ← Real.rpow_mul (by norm_num),
      show -snr / 20 * ((2 : ℕ) : ℝ) = -(snr / 10) by push_cast; ring, Real.rpow_neg (by norm_num)]
    have : (0 : ℝ) < 10 ^ (snr / 10) := by positivity
    field_simp
  have hl : ∀ l : Fin Lr, MeasurePreserving (fun w : LinkSpace Lr N => w l) μ ((drawLaw N).prod (noiseLaw N)) := fun l => by
    rw [hμ]
    exact measurePreserving_eval (fun _ : Fin Lr => (drawLaw N).prod (noiseLaw N)) l
  -- the weights of the noise samples in a correlation
  obtain ⟨c, hc⟩ : ∃ c : Nat → Int → Nat → ℂ, c = fun (i : Nat) (k : Int) (n : Nat) => if 0 ≤ (n : Int) - k ∧ (n : Int) - k < N then (starRingEnd ℂ) (s i ((n : Int) - k).toNat) else 0 := ⟨_, rfl⟩
  have hcE : ∀ i < L, ∀ k : Int, ∑ n : Fin N, ‖c i k n‖ ^ 2 ≤ E := by
    intro i hi k
    refine le_trans ?_ (hE i hi)
    have h := shift_sum (R := ℝ) N k (fun _ => 1) (fun m => ‖s i m‖ ^ 2)
    rw [Fin.sum_univ_eq_sum_range fun n => ‖c i k n‖ ^ 2]
    have e : ∑ n ∈ Finset.range N, ‖c i k n‖ ^ 2 = ∑ n ∈ Finset.range N, 1 * (if 0 ≤ (n : Int) - k ∧ (n : Int) - k < N then ‖s i ((n : Int) - k).toNat‖ ^ 2 else 0) := by
      refine Finset.sum_congr rfl fun n _ => ?_
      rw [hc, one_mul]
      dsimp only
      split_ifs
      · rw [RCLike.norm_conj]
      · simp
    rw [e, ← h]
    refine Finset.sum_le_sum fun m _ => ?_
    split_ifs
    · rw [one_mul]
    · rw [zero_mul]; positivity
  have htail : ∀ (j : Fin Lr) (i : Fin L) (k : Int), μ.real {w | η < ‖∑ n : Fin N, (⟨sg / Real.sqrt 2 * ((w j).2 n).1, sg / Real.sqrt 2 * ((w j).2 n).2⟩ : ℂ) * c i k n‖} ≤
      4 * Real.exp (-(η ^ 2 * (10 : ℝ) ^ (snr / 10) * fb / (2 * (P * fs * E)))) := fun j i k => by
    refine (weighted_tail μ (fun w : LinkSpace Lr N => (w j).2) (measurePreserving_snd.comp (hl j)) (fun n => c i k n) sg E η (hcE i i.2 k) hη).trans (le_of_eq ?_)
    rw [hsg2]
    congr 3
    rw [div_mul_eq_mul_div, mul_div_assoc', div_div_eq_mul_div, mul_assoc (η ^ 2)]
  obtain ⟨Bd, hBd⟩ : ∃ B : Fin Lr × Fin L × Fin (2 * N - 1) → Set (LinkSpace Lr N), B = fun q =>
    {w | η < ‖∑ n : Fin N, (⟨sg / Real.sqrt 2 * ((w q.1).2 n).1, sg / Real.sqrt 2 * ((w q.1).2 n).2⟩ : ℂ) * c q.2.1 ((q.2.2 : Int) - (N - 1)) n‖} := ⟨_, rfl⟩
  have hU : μ.real (⋃ q, Bd q) ≤ Lr * L * (2 * N - 1 : ℕ) * (4 * Real.exp (-(η ^ 2 * (10 : ℝ) ^ (snr / 10) * fb / (2 * (P * fs * E))))) := by
    refine (measureReal_iUnion_fintype_le _).trans ((Finset.sum_le_card_nsmul _ _ (4 * Real.exp (-(η ^ 2 * (10 : ℝ) ^ (snr / 10) * fb / (2 * (P * fs * E))))) fun q _ => ?_).trans (le_of_eq ?_))
    · rw [hBd]
      exact htail q.1 q.2.1 _
    · rw [Finset.card_univ, Fintype.card_prod, Fintype.card_prod, Fintype.card_fin, Fintype.card_fin, Fintype.card_fin, nsmul_eq_mul]
      rw [Nat.cast_mul, Nat.cast_mul, ← mul_assoc (Lr : ℝ)]
  refine (measureReal_mono (s₂ := ⋃ q, Bd q) ?_ (measure_ne_top _ _)).trans hU
  intro w hbad
  by_contra hgood
  refine hbad ?_
  rw [Set.mem_iUnion, not_exists] at hgood
  have hcorr : ∀ j < Lr, ∀ i < L, ∀ k : Int, -(N : Int) < k → k < N →
      ‖∑ m ∈ Finset.range N, (if 0 ≤ k + m ∧ k + m < N then modeNoise sg w j (k + m).toNat else 0) * (starRingEnd ℂ) (s i m)‖ ≤ η := by
    intro j hj i hi k hk1 hk2
    have h := hgood (⟨j, hj⟩, ⟨i, hi⟩, ⟨(k + (N - 1)).toNat, by omega⟩)
    rw [hBd, Set.mem_ofPred_eq, not_lt] at h
    have ek : (((k + (N - 1)).toNat : Nat) : Int) - (N - 1) = k := by omega
    dsimp only at h
    rw [ek] at h
    rw [shift_sum N k (fun n => modeNoise sg w j n) (fun m => (starRingEnd ℂ) (s i m)), ← Fin.sum_univ_eq_sum_range fun n => modeNoise sg w j n * (if 0 ≤ (n : Int) - k ∧ (n : Int) - k < N then (starRingEnd ℂ) (s i ((n : Int) - k).toNat) else 0)]
    refine le_trans (le_of_eq ?_) h
    congr 1
    refine Finset.sum_congr rfl fun n _ => ?_
    rw [hc]
    congr 1
    unfold modeNoise
    rw [dif_pos ⟨hj, n.2⟩]
  have hsent' : sent = (List.range Lr).map fun j => (List.range N).map fun n => delayed N (s (tau j)) (d j) n * I ^ r j := by
    rw [hsent]
    apply List.ext_getElem
    · simp
    · intro j h1 h2
      simp only [List.getElem_ofFn, List.getElem_map, List.getElem_range]
      apply List.ext_getElem
      · simp
      · intro n h3 h4
        simp
  obtain ⟨rx, hrx⟩ : ∃ rx, rx = (List.range Lr).map fun j => (List.range N).map fun n => delayed N (s (tau j)) (d j) n * I ^ r j + modeNoise sg w j n := ⟨_, rfl⟩
  have hsim := simulate_awgn (fun (j : Fin Lr) (n : Fin N) => delayed N (s (tau j)) (d j) n * I ^ r j) fs fb snr w
  rw [← hsent, ← hP, ← hsg] at hsim
  have hrx' : (sent.mapIdx fun l row => row.mapIdx fun j z => z + modeNoise sg w l j) = rx := by
    rw [hrx, hsent']
    apply List.ext_getElem
    · simp
    · intro j h1 h2
      simp only [List.getElem_mapIdx, List.getElem_map, List.getElem_range]
      apply List.ext_getElem
      · simp
      · intro n h3 h4
        simp
  rw [hrx'] at hsim
  have h1 : alignRows false tx rx = .ok (sent, rx) := by
    rw [alignRows, htx, hrx, hsent']
    simp only [Bool.false_eq_true, if_false]
    exact align_corr s (modeNoise sg w) tau d r N L Lr hN c0 η hc0 hη htau hinj hd hr hcorr hnz hside hpeak
  have h2 : alignRows true sent rx = .ok (sent, rx) := by
    rw [alignRows, if_pos rfl, hsent', hrx]
    exact adjustOnly_same (fun j n => delayed N (s (tau j)) (d j) n * Complex.I ^ r j) (fun j n => delayed N (s (tau j)) (d j) n * Complex.I ^ r j + modeNoise sg w j n) Lr N
  refine ⟨rx, hsim, ?_, ?_, ?_, ?_⟩
  · rw [calSerRows, calSerRows, h1, h2]
  · rw [calBerRows, calBerRows, h1, h2]
  · rw [calEvmRows, calEvmRows, h1, h2]
  · rw [estSnrRows, estSnrRows, h1, h2]

/-- Two exchanged modes of two symbols, delayed by one symbol and turned by one and by three quarter turns, at 30 dB. -/
example : ∃ s : Nat → Nat → ℂ, s 0 1 ≠ s 1 1 ∧ ∀ tx sent : List (List ℂ), (tx = (List.range 2).map fun i => (List.range 2).map (s i)) →
    (sent = List.ofFn fun j : Fin 2 => List.ofFn fun n : Fin 2 => delayed 2 (s (1 - j)) 1 n * I ^ (2 * (j : Nat) + 1)) →
    (linkLaw 2 2).real {w | ¬ ∃ rx : List (List ℂ), simulateTransmission ⟨1, 1, none⟩ (modeDraws w) { snr := some 30 } sent = .ok rx ∧
      calSerRows [1, Complex.I, -1, -Complex.I, 3, 3 * Complex.I, -3, -(3 * Complex.I)] false tx rx = calSerRows [1, Complex.I, -1, -Complex.I, 3, 3 * Complex.I, -3, -(3 * Complex.I)] true sent rx ∧
      calBerRows 3 [1, Complex.I, -1, -Complex.I, 3, 3 * Complex.I, -3, -(3 * Complex.I)] false tx rx = calBerRows 3 [1, Complex.I, -1, -Complex.I, 3, 3 * Complex.I, -3, -(3 * Complex.I)] true sent rx ∧
      calEvmRows false tx rx = calEvmRows true sent rx ∧
      estSnrRows [1, Complex.I, -1, -Complex.I, 3, 3 * Complex.I, -3, -(3 * Complex.I)] false tx rx = estSnrRows [1, Complex.I, -1, -Complex.I, 3, 3 * Complex.I, -3, -(3 * Complex.I)] true sent rx} ≤
    (2 : ℕ) * (2 : ℕ) * (2 * 2 - 1 : ℕ) * (4 * Real.exp (-((1 / 4) ^ 2 * (10 : ℝ) ^ ((30 : ℝ) / 10) * 1 / (2 * (meanR (sent.flatten.map fun z => ‖z‖ ^ 2) * 1 * 10))))) := by
  refine ⟨fun i m => if i = 0 then (if m = 0 then -3 else -1) else (if m = 0 then -1 else 3), by norm_num, fun tx sent htx hsent => ?_⟩
  refine C216_alignment _ (fun j => 1 - j) (fun _ => 1) (fun j => 2 * j + 1) 2 2 2 (by norm_num) 8 (1 / 4) 10 1 1 30 (by norm_num) (by norm_num) (by norm_num) (by norm_num)
    (by intro j hj; omega) (by intro j k hj hk h; omega) (by intro j hj; omega) (by intro j hj; omega) ?_ ?_ ?_ ?_ 3 _ _ _ htx hsent
  · intro i hi
    interval_cases i <;> norm_num [Finset.sum_range_succ]
  · intro i hi
    refine ⟨0, by norm_num, ?_⟩
    interval_cases i <;> norm_num
  · intro j hj i hi k hk1 hk2 hne
    have hk : k = -1 ∨ k = 0 ∨ k = 1 := by omega
    interval_cases j <;> interval_cases i <;> rcases hk with rfl | rfl | rfl <;> first | (exfalso; revert hne; decide) | norm_num [Finset.sum_range_succ, delayed, map_ofNat]
  · intro j hj
    interval_cases j <;> norm_num [Finset.sum_Ico_eq_sum_range]

end Qampy
