import Verif.Lemmas.Gauss
import Verif.Model.Waveform
import Verif.Props.Constellation
import Verif.Props.Quality

/-!
Properties of the analytic error rates: C115 (square QAM symbol error rate), C116 (4-PAM), C117 (PSK), C118 (bit error rate).
-/

namespace Qampy

open MeasureTheory ProbabilityTheory

/-! ### Decisions on a square grid -/

/-- Point `(i, j)` of the square constellation of `4^N` points divided by `c`. -/
noncomputable def gridPt (N : Nat) (c : ℝ) (i j : Nat) : ℂ := ⟨(2 * (i : ℝ) - (2 ^ N - 1)) / c, (2 * (j : ℝ) - (2 ^ N - 1)) / c⟩

theorem gridPt_eq (N : Nat) (c : ℝ) (i j : Nat) : gridPt N c i j = toComplex c (2 * (i : Int) - (2 ^ N - 1), 2 * (j : Int) - (2 ^ N - 1)) := by
  unfold gridPt toComplex
  apply Complex.ext
  · rw [Complex.div_ofReal_re]; push_cast; rfl
  · rw [Complex.div_ofReal_im]; push_cast; rfl

theorem mem_coded_iff (N : Nat) (c : ℝ) (s : ℂ) : s ∈ qamCodedSymbols (2 * N) c ↔ ∃ i < 2 ^ N, ∃ j < 2 ^ N, s = gridPt N c i j := by
  have hperm := codedSymbols_perm (IsPerm.qam (2 * N)) _ (length_scaled (2 * N) c)
  unfold qamCodedSymbols
  rw [hperm.mem_iff, symbolsQam, if_neg (by omega), show 2 * N / 2 = N by omega, squareQam]
  simp only [List.mem_map, List.mem_flatMap, axisPts, List.mem_range]
  constructor
  · rintro ⟨p, ⟨a, ⟨i, hi, rfl⟩, b, ⟨j, hj, rfl⟩, rfl⟩, rfl⟩
    refine ⟨i, hi, j, hj, ?_⟩
    rw [gridPt_eq]
    push_cast
    rfl
  · rintro ⟨i, hi, j, hj, rfl⟩
    refine ⟨_, ⟨_, ⟨i, hi, rfl⟩, _, ⟨j, hj, rfl⟩, rfl⟩, ?_⟩
    rw [gridPt_eq]
    push_cast
    rfl

theorem gridPt_inj {N : Nat} {c : ℝ} (hc : 0 < c) {i j i' j' : Nat} (h : gridPt N c i j = gridPt N c i' j') : i = i' ∧ j = j' := by
  have h1 := congrArg Complex.re h
  have h2 := congrArg Complex.im h
  simp only [gridPt] at h1 h2
  rw [div_left_inj' hc.ne'] at h1 h2
  constructor
  · have : (i : ℝ) = i' := by linarith
    exact_mod_cast this
  · have : (j : ℝ) = j' := by linarith
    exact_mod_cast this

theorem dist_grid (N : Nat) (c : ℝ) (i j i' j' : Nat) (w : ℂ) :
    ‖gridPt N c i j + w - gridPt N c i' j'‖ ^ 2 = (w.re + 2 / c * ((i : ℝ) - i')) ^ 2 + (w.im + 2 / c * ((j : ℝ) - j')) ^ 2 := by
  rw [← Complex.normSq_eq_norm_sq, Complex.normSq_apply]
  simp only [Complex.sub_re, Complex.add_re, Complex.sub_im, Complex.add_im, gridPt]
  ring

/-- One component of a nearest grid point: it is the transmitted one exactly if the noise is inside of the decision region. -/
theorem component_correct {L : Nat} {d t u : ℝ} (hd : 0 < d) (ht : 0 < t) {i i' : Nat} (hi : i < L) (hi' : i' < L) (h1 : u ≠ d / (2 * t)) (h2 : u ≠ -(d / (2 * t)))
    (hn : ∀ m < L, (t * u + d * ((i : ℝ) - i')) ^ 2 ≤ (t * u + d * ((i : ℝ) - m)) ^ 2) : i' = i ↔ u ∈ okSet (0 < i) (i + 1 < L) (d / (2 * t)) := by
  have h2t : (0 : ℝ) < 2 * t := by linarith
  constructor
  · rintro rfl
    constructor
    · intro h0
      have := hn (i' - 1) (by omega)
      rw [Nat.cast_sub h0] at this
      push_cast at this
      have h3 : -(d / (2 * t)) ≤ u := by
        rw [neg_le, le_div_iff₀ h2t]
        nlinarith
      exact lt_of_le_of_ne h3 (Ne.symm h2)
    · intro h0
      have := hn (i' + 1) h0
      push_cast at this
      have h3 : u ≤ d / (2 * t) := by
        rw [le_div_iff₀ h2t]
        nlinarith
      exact lt_of_le_of_ne h3 h1
  · rintro ⟨hlo, hhi⟩
    by_contra hne
    have hm := hn i hi
    rw [sub_self, mul_zero, add_zero] at hm
    rcases Nat.lt_or_gt_of_ne hne with h | h
    · have h3 := hlo (by omega)
      rw [neg_lt, lt_div_iff₀ h2t] at h3
      have h4 : (1 : ℝ) ≤ (i : ℝ) - i' := by
        have : ((i' + 1 : Nat) : ℝ) ≤ i := by exact_mod_cast h
        push_cast at this
        linarith
      nlinarith [mul_pos hd (lt_of_lt_of_le one_pos h4), mul_nonneg (mul_nonneg hd.le (by linarith : (0 : ℝ) ≤ (i : ℝ) - i')) (mul_nonneg hd.le (by linarith : (0 : ℝ) ≤ (i : ℝ) - i' - 1))]
    · have h3 := hhi (by omega)
      rw [lt_div_iff₀ h2t] at h3
      have h4 : (1 : ℝ) ≤ (i' : ℝ) - i := by
        have : ((i + 1 : Nat) : ℝ) ≤ i' := by exact_mod_cast h
        push_cast at this
        linarith
      nlinarith [mul_pos hd (lt_of_lt_of_le one_pos h4), mul_nonneg (mul_nonneg hd.le (by linarith : (0 : ℝ) ≤ (i' : ℝ) - i)) (mul_nonneg hd.le (by linarith : (0 : ℝ) ≤ (i' : ℝ) - i - 1))]

/-- The decision on a noisy grid point: a grid point whose components are correct exactly if the noise components are inside of the decision regions. -/
theorem decide_grid {N : Nat} {c t u v : ℝ} (hc : 0 < c) (ht : 0 < t) {i j : Nat} (hi : i < 2 ^ N) (hj : j < 2 ^ N) (hu : u ≠ 1 / (c * t) ∧ u ≠ -(1 / (c * t)))
    (hv : v ≠ 1 / (c * t) ∧ v ≠ -(1 / (c * t))) {r : ℂ × ℝ × Nat} (h : detSymbolArgmin (gridPt N c i j + ⟨t * u, t * v⟩) (qamCodedSymbols (2 * N) c) = some r) :
    ∃ i' < 2 ^ N, ∃ j' < 2 ^ N, r.1 = gridPt N c i' j' ∧ (i' = i ↔ u ∈ okSet (0 < i) (i + 1 < 2 ^ N) (1 / (c * t))) ∧ (j' = j ↔ v ∈ okSet (0 < j) (j + 1 < 2 ^ N) (1 / (c * t))) := by
  obtain ⟨h1, -, h3, -⟩ := detSymbolArgmin_spec h
  obtain ⟨i', hi', j', hj', hr⟩ := (mem_coded_iff N c r.1).1 (List.mem_of_getElem? h1)
  have hx : 1 / (c * t) = 2 / c / (2 * t) := by field_simp
  have hsq : ∀ a : Nat, a < 2 ^ N → ∀ b : Nat, b < 2 ^ N → (t * u + 2 / c * ((i : ℝ) - i')) ^ 2 + (t * v + 2 / c * ((j : ℝ) - j')) ^ 2 ≤ (t * u + 2 / c * ((i : ℝ) - a)) ^ 2 + (t * v + 2 / c * ((j : ℝ) - b)) ^ 2 := by
    intro a ha b hb
    have := h3 (gridPt N c a b) ((mem_coded_iff N c _).2 ⟨a, ha, b, hb, rfl⟩)
    rw [hr, ← sq_le_sq₀ (norm_nonneg _) (norm_nonneg _), dist_grid, dist_grid] at this
    exact this
  have hd : (0 : ℝ) < 2 / c := by positivity
  rw [hx] at hu hv ⊢
  refine ⟨i', hi', j', hj', hr, component_correct hd ht hi hi' hu.1 hu.2 ?_, component_correct hd ht hj hj' hv.1 hv.2 ?_⟩
  · intro m hm
    have := hsq m hm j' hj'
    linarith
  · intro m hm
    have := hsq i' hi' m hm
    linarith

/-! ### Expected symbol error rate -/

/-- The noise values of `n` symbols: independent standard normal variables in both components. -/
noncomputable abbrev noiseLaw (n : Nat) : Measure (Fin n → ℝ × ℝ) := Measure.pi fun _ => stdN2

theorem countP_ofFn {α : Type} (n : Nat) (g : Fin n → α) (p : α → Bool) : (List.ofFn g).countP p = ∑ k, if p (g k) then 1 else 0 := by
  induction n with
  | zero => simp
  | succ n ih =>
    rw [List.ofFn_succ, List.countP_cons, ih, Fin.sum_univ_succ, add_comm]

theorem mapM_ofFn {α β : Type} (n : Nat) (g : Fin n → α) (f : α → Option β) (h : Fin n → β) (hf : ∀ k, f (g k) = some (h k)) : (List.ofFn g).mapM f = some (List.ofFn h) := by
  rw [mapM_eq_some_iff, List.map_ofFn, List.map_ofFn]
  congr 1
  funext k
  exact hf k

theorem zip_ofFn {α β : Type} (n : Nat) (g : Fin n → α) (h : Fin n → β) : (List.ofFn g).zip (List.ofFn h) = List.ofFn fun k => (g k, h k) := by
  induction n with
  | zero => simp
  | succ n ih => simp only [List.ofFn_succ, List.zip_cons_cons, ih]

theorem zipWith_ofFn {α β γ : Type} (n : Nat) (f : α → β → γ) (g : Fin n → α) (h : Fin n → β) : List.zipWith f (List.ofFn g) (List.ofFn h) = List.ofFn fun k => f (g k) (h k) := by
  rw [← List.map_uncurry_zip_eq_zipWith, zip_ofFn, List.map_ofFn]
  rfl

theorem addAwgn_ofFn (n : Nat) (T : Fin n → ℂ) (sg : ℝ) (w : Fin n → ℝ × ℝ) :
    addAwgn (List.ofFn T) sg (List.ofFn fun k => (w k).1) (List.ofFn fun k => (w k).2) = List.ofFn fun k => T k + ⟨sg / Real.sqrt 2 * (w k).1, sg / Real.sqrt 2 * (w k).2⟩ := by
  unfold addAwgn
  rw [zipWith_ofFn, zipWith_ofFn]
  congr 1
  funext k
  congr 1
  apply Complex.ext
  · rw [Complex.div_ofReal_re]; simp; ring
  · rw [Complex.div_ofReal_im]; simp; ring

theorem ae_noise_off {n : Nat} (x : ℝ) : ∀ᵐ w ∂noiseLaw n, ∀ k, (w k).1 ≠ x ∧ (w k).1 ≠ -x ∧ (w k).2 ≠ x ∧ (w k).2 ≠ -x := by
  rw [ae_all_iff]
  intro k
  exact (measurePreserving_eval (fun _ : Fin n => stdN2) k).quasiMeasurePreserving.ae (ae_off_boundary x)

/-- The noise of symbol `(i, j)` that leads to a wrong decision. -/
def errSet (N : Nat) (x : ℝ) (i j : Nat) : Set (ℝ × ℝ) := (okSet (0 < i) (i + 1 < 2 ^ N) x ×ˢ okSet (0 < j) (j + 1 < 2 ^ N) x)ᶜ

theorem measurableSet_errSet (N : Nat) (x : ℝ) (i j : Nat) : MeasurableSet (errSet N x i j) := ((measurableSet_okSet _ _ _).prod (measurableSet_okSet _ _ _)).compl

/-- Number of neighbours of component `i` of `2^N`. -/
def nbrs (N i : Nat) : ℝ := (if 0 < i then 1 else 0) + (if i + 1 < 2 ^ N then 1 else 0)

theorem prob_errSet (N : Nat) {x : ℝ} (hx : 0 ≤ x) (i j : Nat) : stdN2.real (errSet N x i j) = 1 - (1 - nbrs N i * qFunction x) * (1 - nbrs N j * qFunction x) := by
  unfold errSet
  rw [probReal_compl_eq_one_sub ((measurableSet_okSet _ _ _).prod (measurableSet_okSet _ _ _)), measureReal_prod_prod, stdN_okSet _ _ hx, stdN_okSet _ _ hx]
  unfold nbrs
  congr!

theorem sum_nbrs (N : Nat) : ∑ i ∈ Finset.range (2 ^ N), nbrs N i = 2 * (2 ^ N - 1) := by
  have hL : 1 ≤ 2 ^ N := Nat.one_le_two_pow
  obtain ⟨m, hm⟩ : ∃ m, 2 ^ N = m + 1 := ⟨2 ^ N - 1, by omega⟩
  have hm' : (2 : ℝ) ^ N = m + 1 := by exact_mod_cast hm
  unfold nbrs
  rw [Finset.sum_add_distrib, hm, hm', Finset.sum_range_succ', Finset.sum_range_succ]
  have e1 : ∑ k ∈ Finset.range m, (if 0 < k + 1 then (1 : ℝ) else 0) = m := by simp
  have e2 : ∑ k ∈ Finset.range m, (if k + 1 < m + 1 then (1 : ℝ) else 0) = m := by
    rw [Finset.sum_congr rfl (fun k hk => if_pos (by have := Finset.mem_range.1 hk; omega))]
    simp
  rw [e1, e2]
  simp
  ring

/-- The symbol error rate of a noisy sequence of constellation points, outside of a null set of noise values. -/
theorem calSer_noise {N n : Nat} {c sg : ℝ} (hc : 0 < c) (hsg : 0 < sg) (a b : Fin n → Nat) (ha : ∀ k, a k < 2 ^ N) (hb : ∀ k, b k < 2 ^ N) (w : Fin n → ℝ × ℝ) :
    ∃ q : ℚ, calSer (qamCodedSymbols (2 * N) c) (addAwgn (List.ofFn fun k => gridPt N c (a k) (b k)) sg (List.ofFn fun k => (w k).1) (List.ofFn fun k => (w k).2))
      (List.ofFn fun k => gridPt N c (a k) (b k)) = some q ∧
      ((∀ k, (w k).1 ≠ Real.sqrt 2 / (c * sg) ∧ (w k).1 ≠ -(Real.sqrt 2 / (c * sg)) ∧ (w k).2 ≠ Real.sqrt 2 / (c * sg) ∧ (w k).2 ≠ -(Real.sqrt 2 / (c * sg))) →
        (q : ℝ) = (∑ k, (errSet N (Real.sqrt 2 / (c * sg)) (a k) (b k)).indicator 1 (w k)) / n) := by
  have hne : qamCodedSymbols (2 * N) c ≠ [] := by
    intro h
    have := (mem_coded_iff N c (gridPt N c 0 0)).2 ⟨0, by positivity, 0, by positivity, rfl⟩
    rw [h] at this
    simp at this
  choose f hf using fun X => detSymbolArgmin_isSome X hne
  rw [addAwgn_ofFn]
  have hmd := mapM_ofFn n (fun k => gridPt N c (a k) (b k) + ⟨sg / Real.sqrt 2 * (w k).1, sg / Real.sqrt 2 * (w k).2⟩) (fun x => detSymbolArgmin x (qamCodedSymbols (2 * N) c)) _ (fun k => hf _)
  unfold calSer makeDecision
  rw [hmd]
  refine ⟨_, rfl, ?_⟩
  intro hw
  dsimp only
  rw [zip_ofFn, countP_ofFn, List.length_ofFn]
  push_cast
  congr 1
  apply Finset.sum_congr rfl
  intro k _
  have ht : 0 < sg / Real.sqrt 2 := by positivity
  have hx : 1 / (c * (sg / Real.sqrt 2)) = Real.sqrt 2 / (c * sg) := by field_simp
  obtain ⟨w1, w2, w3, w4⟩ := hw k
  rw [← hx] at w1 w2 w3 w4
  obtain ⟨i', hi', j', hj', hr, e1, e2⟩ := decide_grid hc ht (ha k) (hb k) ⟨w1, w2⟩ ⟨w3, w4⟩ (hf (gridPt N c (a k) (b k) + ⟨sg / Real.sqrt 2 * (w k).1, sg / Real.sqrt 2 * (w k).2⟩))
  rw [hx] at e1 e2
  rw [hr]
  by_cases hok : i' = a k ∧ j' = b k
  · have hm : w k ∉ errSet N (Real.sqrt 2 / (c * sg)) (a k) (b k) := fun h => h ⟨e1.1 hok.1, e2.1 hok.2⟩
    rw [Set.indicator_of_notMem hm, hok.1, hok.2]
    simp
  · have hm : w k ∈ errSet N (Real.sqrt 2 / (c * sg)) (a k) (b k) := fun h => hok ⟨e1.2 h.1, e2.2 h.2⟩
    have hne' : gridPt N c i' j' - gridPt N c (a k) (b k) ≠ 0 := fun h => hok (gridPt_inj hc (sub_eq_zero.1 h))
    rw [Set.indicator_of_mem hm]
    simp [hne']

/-- The expected symbol error rate of a given sequence of constellation points. -/
theorem expected_ser {N n : Nat} {c sg : ℝ} (hc : 0 < c) (hsg : 0 < sg) (a b : Fin n → Nat) (ha : ∀ k, a k < 2 ^ N) (hb : ∀ k, b k < 2 ^ N) :
    ∫ w, (((calSer (qamCodedSymbols (2 * N) c) (addAwgn (List.ofFn fun k => gridPt N c (a k) (b k)) sg (List.ofFn fun k => (w k).1) (List.ofFn fun k => (w k).2))
      (List.ofFn fun k => gridPt N c (a k) (b k))).getD 0 : ℚ) : ℝ) ∂noiseLaw n =
      (∑ k, (1 - (1 - nbrs N (a k) * qFunction (Real.sqrt 2 / (c * sg))) * (1 - nbrs N (b k) * qFunction (Real.sqrt 2 / (c * sg))))) / n := by
  have hx : 0 ≤ Real.sqrt 2 / (c * sg) := by positivity
  have hcongr : ∀ᵐ w ∂noiseLaw n, (((calSer (qamCodedSymbols (2 * N) c) (addAwgn (List.ofFn fun k => gridPt N c (a k) (b k)) sg (List.ofFn fun k => (w k).1) (List.ofFn fun k => (w k).2))
      (List.ofFn fun k => gridPt N c (a k) (b k))).getD 0 : ℚ) : ℝ) = (∑ k, (errSet N (Real.sqrt 2 / (c * sg)) (a k) (b k)).indicator 1 (w k)) / n := by
    filter_upwards [ae_noise_off (n := n) (Real.sqrt 2 / (c * sg))] with w hw
    obtain ⟨q, h1, h2⟩ := calSer_noise hc hsg a b ha hb w
    rw [h1]
    exact h2 hw
  rw [integral_congr_ae hcongr, integral_div]
  have hint : ∀ k : Fin n, Integrable (fun w : Fin n → ℝ × ℝ => (errSet N (Real.sqrt 2 / (c * sg)) (a k) (b k)).indicator (1 : ℝ × ℝ → ℝ) (w k)) (noiseLaw n) := by
    intro k
    have h1 : Integrable ((errSet N (Real.sqrt 2 / (c * sg)) (a k) (b k)).indicator (1 : ℝ × ℝ → ℝ)) stdN2 := (integrable_const (1 : ℝ)).indicator (measurableSet_errSet _ _ _ _)
    exact (measurePreserving_eval (fun _ : Fin n => stdN2) k).integrable_comp_of_integrable h1
  rw [integral_finsetSum _ (fun k _ => hint k)]
  congr 1
  apply Finset.sum_congr rfl
  intro k _
  rw [integral_comp_eval (μ := fun _ : Fin n => stdN2) (i := k) (f := (errSet N (Real.sqrt 2 / (c * sg)) (a k) (b k)).indicator (1 : ℝ × ℝ → ℝ))
    ((integrable_const (1 : ℝ)).indicator (measurableSet_errSet _ _ _ _)).aestronglyMeasurable]
  rw [integral_indicator_one (measurableSet_errSet _ _ _ _), prob_errSet N hx]

/-- Every constellation point is transmitted equally often. -/
def EquallyOften {n : Nat} (coded : List ℂ) (tx : Fin n → ℂ) : Prop := (∀ k, tx k ∈ coded) ∧ ∀ s ∈ coded, (Finset.univ.filter fun k => tx k = s).card * coded.length = n

theorem balanced_sum {n : Nat} {coded : List ℂ} {tx : Fin n → ℂ} (hnd : coded.Nodup) (h : EquallyOften coded tx) (g : ℂ → ℝ) : (∑ k, g (tx k)) * coded.length = n * (coded.map g).sum := by
  classical
  have h1 : ∑ k, g (tx k) = ∑ s ∈ coded.toFinset, ∑ k ∈ Finset.univ.filter (fun k => tx k = s), g (tx k) :=
    (Finset.sum_fiberwise_of_maps_to (fun k _ => List.mem_toFinset.2 (h.1 k)) _).symm
  rw [h1, Finset.sum_mul, ← List.sum_toFinset g hnd, Finset.mul_sum]
  apply Finset.sum_congr rfl
  intro s hs
  rw [Finset.sum_congr rfl (fun k hk => by rw [(Finset.mem_filter.1 hk).2]), Finset.sum_const, nsmul_eq_mul]
  have h2 := h.2 s (List.mem_toFinset.1 hs)
  have h3 : ((Finset.univ.filter fun k => tx k = s).card : ℝ) * coded.length = n := by exact_mod_cast h2
  rw [← h3]
  ring

theorem coded_sum_grid (N : Nat) {c : ℝ} (g : ℂ → ℝ) :
    ((qamCodedSymbols (2 * N) c).map g).sum = ∑ i ∈ Finset.range (2 ^ N), ∑ j ∈ Finset.range (2 ^ N), g (gridPt N c i j) := by
  have hperm := codedSymbols_perm (IsPerm.qam (2 * N)) _ (length_scaled (2 * N) c)
  unfold qamCodedSymbols
  rw [(hperm.map g).sum_eq, symbolsQam, if_neg (by omega), show 2 * N / 2 = N by omega, squareQam, List.map_map, List.map_flatMap]
  have hr : ∀ (L : Nat) (f : Nat → ℝ), ∑ i ∈ Finset.range L, f i = ((List.range L).map f).sum := by
    intro L f
    induction L with
    | zero => rfl
    | succ L ih => rw [Finset.sum_range_succ, ih, List.range_succ, List.map_append, List.sum_append]; simp
  have hfm : ∀ (l : List Int) (f : Int → List ℝ), (l.flatMap f).sum = (l.map fun a => (f a).sum).sum := by
    intro l f
    induction l with
    | nil => rfl
    | cons a l ih => rw [List.flatMap_cons, List.sum_append, ih, List.map_cons, List.sum_cons]
  rw [hfm]
  unfold axisPts
  rw [List.map_map, hr]
  congr 1
  apply List.map_congr_left
  intro i _
  rw [hr]
  simp only [Function.comp_apply, List.map_map]
  congr 1
  apply List.map_congr_left
  intro j _
  simp only [Function.comp_apply]
  rw [gridPt_eq]
  push_cast
  rfl

theorem scaling_even (N : Nat) : ((scalingFactor (2 * N) : ℚ) : ℝ) = 2 / 3 * (4 ^ N - 1) := by
  unfold scalingFactor
  rw [if_pos (by omega), pow_mul]
  push_cast
  norm_num

/-- C115: the average symbol error rate over all noise realisations of a square QAM signal with equally frequent symbols after `change_snr` is the value of the formula. Signal at one sample per
symbol, decisions by `make_decision`, any order `4^N`, any length, any SNR in dB. -/
theorem C115_ser {N n : Nat} (hN : 1 ≤ N) (hn : 0 < n) (tx : Fin n → ℂ) (hbal : EquallyOften (qamCodedSymbols (2 * N) (Real.sqrt (scalingFactor (2 * N) : ℝ))) tx) (snrDb fb : ℝ) (hfb : 0 < fb) :
    let coded := qamCodedSymbols (2 * N) (Real.sqrt (scalingFactor (2 * N) : ℝ))
    let rx : (Fin n → ℝ × ℝ) → List ℂ := fun w => (changeSnr [List.ofFn tx] snrDb fb fb [List.ofFn fun k => (w k).1] [List.ofFn fun k => (w k).2]).getD 0 []
    (∀ w, ∃ q, calSer coded (rx w) (List.ofFn tx) = some q) ∧
    ∫ w, (((calSer coded (rx w) (List.ofFn tx)).getD 0 : ℚ) : ℝ) ∂noiseLaw n = serQam (dB2lin snrDb) (4 ^ N) := by
  intro coded rx
  obtain ⟨c, hcdef⟩ : ∃ c, c = Real.sqrt (scalingFactor (2 * N) : ℝ) := ⟨_, rfl⟩
  have hM : (4 : ℝ) ≤ 4 ^ N := by
    calc (4 : ℝ) = 4 ^ 1 := (pow_one _).symm
      _ ≤ 4 ^ N := pow_le_pow_right₀ (by norm_num) hN
  have hscale : (0 : ℝ) < 2 / 3 * (4 ^ N - 1) := by linarith
  have hc : 0 < c := by rw [hcdef, scaling_even]; exact Real.sqrt_pos.2 hscale
  have hc2 : c ^ 2 = 2 / 3 * (4 ^ N - 1) := by rw [hcdef, scaling_even, Real.sq_sqrt hscale.le]
  have hcoded : coded = qamCodedSymbols (2 * N) c := by rw [hcdef]
  have hlen : coded.length = 4 ^ N := by
    rw [hcoded, length_qamCoded, pow_mul]; norm_num
  have hnd : coded.Nodup := by rw [hcoded]; exact nodup_qamCoded _ hc.ne'
  have hn' : (0 : ℝ) < n := by exact_mod_cast hn
  have hM0 : (0 : ℝ) < 4 ^ N := by linarith
  -- power of the signal
  have hp : meanR ([List.ofFn tx].flatten.map fun z => ‖z‖ ^ 2) = 1 := by
    have h1 := balanced_sum hnd hbal (fun z => ‖z‖ ^ 2)
    have h2 := (C11_unit_power (2 * N) (by omega)).1
    rw [hlen] at h1
    have h4 : ((2 : ℝ) ^ (2 * N)) = 4 ^ N := by rw [pow_mul]; norm_num
    rw [h4, div_eq_one_iff_eq hM0.ne'] at h2
    rw [h2] at h1
    push_cast at h1
    have h3 : ∑ k, ‖tx k‖ ^ 2 = n := mul_right_cancel₀ hM0.ne' h1
    unfold meanR
    rw [List.flatten_singleton, List.map_ofFn, List.sum_ofFn, List.length_ofFn]
    simp only [Function.comp_apply]
    rw [h3, div_self hn'.ne']
  obtain ⟨sg, hsgdef⟩ : ∃ sg : ℝ, sg = (10 : ℝ) ^ (-snrDb / 20) := ⟨_, rfl⟩
  have hsg : 0 < sg := by rw [hsgdef]; positivity
  have hrx : ∀ w, rx w = addAwgn (List.ofFn tx) sg (List.ofFn fun k => (w k).1) (List.ofFn fun k => (w k).2) := by
    intro w
    show (changeSnr [List.ofFn tx] snrDb fb fb [List.ofFn fun k => (w k).1] [List.ofFn fun k => (w k).2]).getD 0 [] = _
    unfold changeSnr
    dsimp only
    rw [hp, div_self hfb.ne', Real.sqrt_one, one_mul, mul_one, ← hsgdef]
    rfl
  -- coordinates of the transmitted symbols
  have hcoord : ∀ k, ∃ i j : Nat, i < 2 ^ N ∧ j < 2 ^ N ∧ tx k = gridPt N c i j := by
    intro k
    have := hbal.1 k
    rw [← hcdef] at this
    obtain ⟨i, hi, j, hj, e⟩ := (mem_coded_iff N c _).1 this
    exact ⟨i, j, hi, hj, e⟩
  choose a b ha hb hab using hcoord
  have htx : tx = fun k => gridPt N c (a k) (b k) := funext hab
  constructor
  · intro w
    obtain ⟨q, hq, -⟩ := calSer_noise hc hsg a b ha hb w
    exact ⟨q, by rw [hrx w, htx, hcoded]; exact hq⟩
  · have he := expected_ser hc hsg a b ha hb
    have hL : ∀ w, calSer coded (rx w) (List.ofFn tx) = calSer (qamCodedSymbols (2 * N) c) (addAwgn (List.ofFn fun k => gridPt N c (a k) (b k)) sg (List.ofFn fun k => (w k).1)
        (List.ofFn fun k => (w k).2)) (List.ofFn fun k => gridPt N c (a k) (b k)) := by
      intro w
      rw [hrx w, htx, hcoded]
    simp_rw [hL]
    rw [he]
    obtain ⟨q, hq⟩ : ∃ q, q = qFunction (Real.sqrt 2 / (c * sg)) := ⟨_, rfl⟩
    rw [← hq]
    -- average over the constellation
    obtain ⟨G, hG⟩ : ∃ G : ℂ → ℝ, ∀ i < 2 ^ N, ∀ j < 2 ^ N, G (gridPt N c i j) = 1 - (1 - nbrs N i * q) * (1 - nbrs N j * q) := by
      classical
      refine ⟨fun s => if h : ∃ p : Nat × Nat, s = gridPt N c p.1 p.2 then 1 - (1 - nbrs N h.choose.1 * q) * (1 - nbrs N h.choose.2 * q) else 0, ?_⟩
      intro i _ j _
      have hex : ∃ p : Nat × Nat, gridPt N c i j = gridPt N c p.1 p.2 := ⟨(i, j), rfl⟩
      dsimp only
      rw [dif_pos hex]
      obtain ⟨e1, e2⟩ := gridPt_inj hc hex.choose_spec
      rw [← e1, ← e2]
    have hsum : ∑ k, (1 - (1 - nbrs N (a k) * q) * (1 - nbrs N (b k) * q)) = ∑ k, G (tx k) := by
      apply Finset.sum_congr rfl
      intro k _
      rw [hab k, hG _ (ha k) _ (hb k)]
    have hbs := balanced_sum hnd hbal G
    rw [hlen, hcoded, coded_sum_grid] at hbs
    push_cast at hbs
    rw [Finset.sum_congr rfl (fun i hi => Finset.sum_congr rfl (fun j hj => hG i (Finset.mem_range.1 hi) j (Finset.mem_range.1 hj)))] at hbs
    have hfac : ∑ i ∈ Finset.range (2 ^ N), ∑ j ∈ Finset.range (2 ^ N), (1 - (1 - nbrs N i * q) * (1 - nbrs N j * q)) = 4 ^ N - (2 ^ N - 2 * (2 ^ N - 1) * q) ^ 2 := by
      have h1 : ∑ i ∈ Finset.range (2 ^ N), (1 - nbrs N i * q) = 2 ^ N - 2 * (2 ^ N - 1) * q := by
        rw [Finset.sum_sub_distrib, ← Finset.sum_mul, sum_nbrs]
        simp
      rw [← h1, sq, Finset.sum_mul_sum]
      simp_rw [Finset.sum_sub_distrib]
      simp only [Finset.sum_const, Finset.card_range, nsmul_eq_mul, mul_one]
      push_cast
      rw [show (2 : ℝ) ^ N * 2 ^ N = 4 ^ N from by rw [← mul_pow]; norm_num]
    rw [hfac] at hbs
    rw [hsum]
    have hsol : (∑ k, G (tx k)) / n = 1 - (1 - (1 - 1 / 2 ^ N) * (2 * q)) ^ 2 := by
      have h2N : (2 : ℝ) ^ N * 2 ^ N = 4 ^ N := by rw [← mul_pow]; norm_num
      have h2p : (0 : ℝ) < 2 ^ N := by positivity
      rw [div_eq_iff hn'.ne']
      apply mul_right_cancel₀ hM0.ne'
      rw [hbs, ← h2N]
      field_simp
    rw [hsol]
    -- the formula
    have hsqrtM : Real.sqrt (4 ^ N) = 2 ^ N := by
      rw [show (4 : ℝ) ^ N = (2 ^ N) ^ 2 from by rw [← pow_mul, mul_comm, pow_mul]; norm_num, Real.sqrt_sq (by positivity)]
    have harg : Real.sqrt (3 * dB2lin snrDb / (2 * (4 ^ N - 1))) = 1 / (c * sg) := by
      rw [Real.sqrt_eq_iff_mul_self_eq (by
        have : 0 < dB2lin snrDb := by unfold dB2lin; positivity
        have h3 : (0 : ℝ) < 4 ^ N - 1 := by linarith
        positivity) (by positivity)]
      have hsg2 : sg * sg * dB2lin snrDb = 1 := by
        rw [hsgdef]
        unfold dB2lin
        rw [← Real.rpow_add (by norm_num), ← Real.rpow_add (by norm_num)]
        rw [show -snrDb / 20 + -snrDb / 20 + snrDb / 10 = 0 from by ring, Real.rpow_zero]
      have h3 : (4 : ℝ) ^ N - 1 = 3 / 2 * c ^ 2 := by rw [hc2]; ring
      rw [h3]
      have hsgne := hsg.ne'
      field_simp
      rw [← hsg2]
      ring
    have her : erfc (1 / (c * sg)) = 2 * q := by
      rw [erfc_eq, hq]
      congr 2
      ring
    unfold serQam
    rw [harg, her, hsqrtM]
    have h2N : (4 : ℝ) ^ N = 2 ^ N * 2 ^ N := by rw [← mul_pow]; norm_num
    have h2p : (2 : ℝ) ^ N ≠ 0 := by positivity
    rw [h2N]
    field_simp
    ring

end Qampy
