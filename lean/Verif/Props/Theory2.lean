import Verif.Props.Theory
import Verif.Lemmas.Prbs

/-!
Bit error rate of square QAM (C118): the formula is a lower bound, exact up to errors that skip a neighbour.
-/

namespace Qampy

open MeasureTheory ProbabilityTheory

/-! ### Measurability of decisions -/

/-- Index of the decision of `make_decision`. -/
noncomputable def decIdx (coded : List ℂ) (y : ℂ) : Nat := ((detSymbolArgmin y coded).map (·.2.2)).getD 0

theorem decIdx_spec {coded : List ℂ} (hne : coded ≠ []) (y : ℂ) : ∃ r, detSymbolArgmin y coded = some r ∧ decIdx coded y = r.2.2 ∧ coded[decIdx coded y]? = some r.1 := by
  obtain ⟨r, hr⟩ := detSymbolArgmin_isSome y hne
  have h : decIdx coded y = r.2.2 := by unfold decIdx; rw [hr]; rfl
  exact ⟨r, hr, h, by rw [h]; exact (detSymbolArgmin_spec hr).1⟩

theorem decIdx_eq_iff {coded : List ℂ} (hne : coded ≠ []) (y : ℂ) (m : Nat) :
    decIdx coded y = m ↔ ∃ s, coded[m]? = some s ∧ (∀ s' ∈ coded, ‖y - s‖ ≤ ‖y - s'‖) ∧ ∀ i < m, ∀ s', coded[i]? = some s' → ‖y - s‖ < ‖y - s'‖ := by
  obtain ⟨r, hr, h1, h2⟩ := decIdx_spec hne y
  obtain ⟨g1, -, g3, g4⟩ := detSymbolArgmin_spec hr
  constructor
  · rintro rfl
    refine ⟨r.1, h2, g3, ?_⟩
    intro i hi s' hs'
    exact g4 i (by rw [← h1]; exact hi) s' hs'
  · rintro ⟨s, e1, e2, e3⟩
    rcases Nat.lt_trichotomy (decIdx coded y) m with h | h | h
    · have := e3 _ h r.1 h2
      exact absurd (g3 s (List.mem_of_getElem? e1)) (not_le.2 this)
    · exact h
    · rw [h1] at h
      have := g4 m h s e1
      exact absurd (e2 r.1 (List.mem_of_getElem? g1)) (not_le.2 this)

theorem measurable_decIdx {coded : List ℂ} (hne : coded ≠ []) : Measurable (decIdx coded) := by
  apply measurable_to_countable'
  intro m
  rcases hm : coded[m]? with _ | s
  · have : decIdx coded ⁻¹' {m} = ∅ := by
      ext y
      simp only [Set.mem_preimage, Set.mem_singleton_iff, Set.mem_empty_iff_false, iff_false]
      intro h
      obtain ⟨s, h1, -⟩ := (decIdx_eq_iff hne y m).1 h
      rw [hm] at h1
      cases h1
    rw [this]
    exact MeasurableSet.empty
  · have : decIdx coded ⁻¹' {m} = (⋂ s' ∈ {s' | s' ∈ coded}, {y : ℂ | ‖y - s‖ ≤ ‖y - s'‖}) ∩ ⋂ i ∈ {i | i < m}, ⋂ s' ∈ {s' | coded[i]? = some s'}, {y : ℂ | ‖y - s‖ < ‖y - s'‖} := by
      ext y
      simp only [Set.mem_preimage, Set.mem_singleton_iff, decIdx_eq_iff hne, hm, Option.some.injEq, exists_eq_left', Set.mem_inter_iff, Set.mem_iInter, Set.mem_ofPred_eq]
    rw [this]
    have hmeas : ∀ s : ℂ, Measurable fun y : ℂ => ‖y - s‖ := fun s => (measurable_id.sub_const s).norm
    apply MeasurableSet.inter
    · exact MeasurableSet.biInter (List.finite_toSet coded).countable fun s' _ => measurableSet_le (hmeas s) (hmeas s')
    · refine MeasurableSet.biInter (Set.finite_lt_nat m).countable fun i _ => ?_
      refine MeasurableSet.biInter ?_ fun s' _ => measurableSet_lt (hmeas s) (hmeas s')
      exact (Set.Subsingleton.finite fun a ha b hb => by
        simp only [Set.mem_ofPred_eq] at ha hb
        rw [ha] at hb
        exact Option.some.inj hb).countable

/-! ### Bit errors of labels -/

/-- Number of different bits among the lowest `n`. -/
def hd (n x y : Nat) : Nat := (List.range n).countP fun t => x.testBit t ^^ y.testBit t

theorem hd_le (n x y : Nat) : hd n x y ≤ n := by
  unfold hd
  exact List.countP_le_length.trans (by simp)

theorem hd_self (n x : Nat) : hd n x x = 0 := by
  unfold hd
  rw [List.countP_eq_zero]
  simp

theorem hd_pos {n x y : Nat} (hx : x < 2 ^ n) (hy : y < 2 ^ n) (h : x ≠ y) : 1 ≤ hd n x y := by
  by_contra hc
  have h0 : hd n x y = 0 := by omega
  unfold hd at h0
  rw [List.countP_eq_zero] at h0
  apply h
  apply Nat.eq_of_testBit_eq
  intro t
  by_cases ht : t < n
  · have := h0 t (List.mem_range.2 ht)
    simpa using this
  · rw [Nat.testBit_lt_two_pow (lt_of_lt_of_le hx (Nat.pow_le_pow_right (by norm_num) (by omega))), Nat.testBit_lt_two_pow (lt_of_lt_of_le hy (Nat.pow_le_pow_right (by norm_num) (by omega)))]

theorem hd_two_pow {n x y m : Nat} (h : x ^^^ y = 2 ^ m) : hd n x y ≤ 1 := by
  unfold hd
  have e : (List.range n).countP (fun t => x.testBit t ^^ y.testBit t) = (List.range n).count m := by
    rw [List.count]
    apply List.countP_congr
    intro t _
    rw [← Nat.testBit_xor, h, Nat.testBit_two_pow]
    rw [decide_eq_true_eq, beq_iff_eq]
    exact eq_comm
  rw [e]
  exact List.nodup_iff_count_le_one.1 List.nodup_range m

/-- Number of different bits in the encodings of two labels. -/
def rowErr (k l' l : Nat) : Nat := ((encodingRow k l').zip (encodingRow k l)).countP fun p => p.1 ^^ p.2

theorem rowErr_eq (k l' l : Nat) : rowErr k l' l = hd k l' l := by
  have hz : ∀ (l1 l2 : List Bool), l1.length = l2.length → l1.reverse.zip l2.reverse = (l1.zip l2).reverse := by
    intro l1 l2 h
    unfold List.zip
    rw [List.reverse_zipWith h]
  have hb : ∀ (x t : Nat), decide (x &&& 1 <<< t > 0) = x.testBit t := by
    intro x t
    rw [Bool.eq_iff_iff, decide_eq_true_eq, ← and_one_shift]
    exact Nat.pos_iff_ne_zero
  unfold rowErr hd encodingRow
  rw [hz _ _ (by simp), List.countP_reverse, List.zip_map', List.countP_map]
  apply List.countP_congr
  intro t _
  simp only [Function.comp_apply, hb]

theorem hd_add (a b x y : Nat) : hd (a + b) x y = hd b x y + hd a (x >>> b) (y >>> b) := by
  unfold hd
  rw [Nat.add_comm a b, List.range_add, List.countP_append, List.countP_map]
  congr 1
  apply List.countP_congr
  intro t _
  simp only [Function.comp_apply, Nat.testBit_shiftRight]

theorem hd_mod (b x y x' y' : Nat) (hx : ∀ t < b, x.testBit t = x'.testBit t) (hy : ∀ t < b, y.testBit t = y'.testBit t) : hd b x y = hd b x' y' := by
  unfold hd
  apply List.countP_congr
  intro t ht
  rw [hx t (List.mem_range.1 ht), hy t (List.mem_range.1 ht)]

/-- The label of a grid point. -/
def gridLabel (N i j : Nat) : Nat := (bin2gray i <<< N) ||| bin2gray j

theorem rowErr_grid {N i j i' j' : Nat} (hj : j < 2 ^ N) (hj' : j' < 2 ^ N) :
    rowErr (2 * N) (gridLabel N i' j') (gridLabel N i j) = hd N (bin2gray i') (bin2gray i) + hd N (bin2gray j') (bin2gray j) := by
  have low : ∀ i j t : Nat, t < N → (gridLabel N i j).testBit t = (bin2gray j).testBit t := by
    intro i j t ht
    unfold gridLabel
    rw [Nat.testBit_or, Nat.testBit_shiftLeft]
    simp [Nat.not_le.2 ht]
  have high : ∀ i j : Nat, j < 2 ^ N → gridLabel N i j >>> N = bin2gray i := by
    intro i j hj
    apply Nat.eq_of_testBit_eq
    intro t
    unfold gridLabel
    rw [Nat.testBit_shiftRight, Nat.testBit_or, Nat.testBit_shiftLeft,
      Nat.testBit_lt_two_pow (lt_of_lt_of_le (bin2gray_lt hj) (Nat.pow_le_pow_right (by norm_num) (by omega)))]
    simp
  rw [rowErr_eq, two_mul, hd_add, high i' j' hj', high i j hj, hd_mod N _ _ (bin2gray j') (bin2gray j) (low i' j') (low i j)]
  omega

/-- Labels and points correspond. -/
theorem coded_label {N : Nat} {c : ℝ} {i j : Nat} (hi : i < 2 ^ N) (hj : j < 2 ^ N) : (qamCodedSymbols (2 * N) c)[gridLabel N i j]? = some (gridPt N c i j) := by
  have hg : (grayCodeQam (2 * N))[i * 2 ^ N + j]? = some (gridLabel N i j) := by
    simp only [grayCodeQam]
    rw [show 2 * N / 2 = N by omega, show 2 * N - N = N by omega]
    exact getElem?_flatMap_range _ _ (fun i j => (bin2gray i <<< N) ||| bin2gray j) i j hi hj
  rw [C13_label_of_point _ _ _ _ hg, symbolsQam, if_neg (by omega), show 2 * N / 2 = N by omega, C10_square_qam_order N i j hi hj, gridPt_eq]
  rfl

theorem coded_label_unique {N : Nat} {c : ℝ} (hc : 0 < c) {i j l : Nat} (hi : i < 2 ^ N) (hj : j < 2 ^ N) (h : (qamCodedSymbols (2 * N) c)[l]? = some (gridPt N c i j)) : l = gridLabel N i j := by
  have hnd := nodup_qamCoded (2 * N) (scale := c) hc.ne'
  have h2 := coded_label (c := c) hi hj
  obtain ⟨p1, p2⟩ := List.getElem?_eq_some_iff.1 h
  obtain ⟨p3, p4⟩ := List.getElem?_eq_some_iff.1 h2
  exact (List.Nodup.getElem_inj_iff hnd).1 (p2.trans p4.symm)

theorem gray_hd_bounds {N i i' : Nat} (hN : 1 ≤ N) (hi : i < 2 ^ N) (hi' : i' < 2 ^ N) :
    (i' = i → hd N (bin2gray i') (bin2gray i) = 0) ∧ (i' ≠ i → 1 ≤ hd N (bin2gray i') (bin2gray i)) ∧ ((i' = i + 1 ∨ i = i' + 1) → hd N (bin2gray i') (bin2gray i) ≤ 1) ∧
      hd N (bin2gray i') (bin2gray i) ≤ 1 + (N - 1) := by
  refine ⟨?_, ?_, ?_, ?_⟩
  · rintro rfl; exact hd_self _ _
  · intro h
    exact hd_pos (bin2gray_lt hi') (bin2gray_lt hi) (fun he => h (bin2gray_inj he))
  · rintro (rfl | rfl)
    · obtain ⟨m, hm⟩ := gray_succ i
      rw [Nat.xor_comm] at hm
      exact hd_two_pow hm
    · obtain ⟨m, hm⟩ := gray_succ i'
      exact hd_two_pow hm
  · have := hd_le N (bin2gray i') (bin2gray i)
    omega

/-! ### Errors of one component -/

/-- Indicator of the noise of a component that leads to a wrong decision of it. -/
noncomputable def errInd (N i : Nat) (x u : ℝ) : ℝ := (okSet (0 < i) (i + 1 < 2 ^ N) x)ᶜ.indicator 1 u

/-- Indicator of the noise of a component with which the decision may skip the neighbour. -/
noncomputable def farInd (N i : Nat) (x u : ℝ) : ℝ := (okSet (1 < i) (i + 2 < 2 ^ N) (3 * x))ᶜ.indicator 1 u

theorem component_far {L : Nat} {d t u : ℝ} (hd : 0 < d) (ht : 0 < t) {i i' : Nat} (hi : i < L) (hi' : i' < L)
    (hn : ∀ m < L, (t * u + d * ((i : ℝ) - i')) ^ 2 ≤ (t * u + d * ((i : ℝ) - m)) ^ 2) (hok : u ∈ okSet (1 < i) (i + 2 < L) (3 * (d / (2 * t)))) : i' ≤ i + 1 ∧ i ≤ i' + 1 := by
  have h2t : (0 : ℝ) < 2 * t := by linarith
  have e3 : 3 * (d / (2 * t)) = 3 * d / (2 * t) := by ring
  rw [e3] at hok
  constructor
  · by_contra hc
    have h1 := hok.2 (by omega)
    rw [lt_div_iff₀ h2t] at h1
    have := hn (i' - 1) (by omega)
    rw [Nat.cast_sub (by omega)] at this
    push_cast at this
    have h4 : (2 : ℝ) ≤ (i' : ℝ) - i := by
      have : ((i + 2 : Nat) : ℝ) ≤ i' := by exact_mod_cast (by omega : i + 2 ≤ i')
      push_cast at this
      linarith
    nlinarith [mul_nonneg (mul_nonneg hd.le hd.le) (by linarith : (0 : ℝ) ≤ (i' : ℝ) - i - 2)]
  · by_contra hc
    have h1 := hok.1 (by omega)
    rw [neg_lt, lt_div_iff₀ h2t] at h1
    have := hn (i' + 1) (by omega)
    push_cast at this
    have h4 : (2 : ℝ) ≤ (i : ℝ) - i' := by
      have : ((i' + 2 : Nat) : ℝ) ≤ i := by exact_mod_cast (by omega : i' + 2 ≤ i)
      push_cast at this
      linarith
    nlinarith [mul_nonneg (mul_nonneg hd.le hd.le) (by linarith : (0 : ℝ) ≤ (i : ℝ) - i' - 2)]

theorem component_bits {N : Nat} (hN : 1 ≤ N) {d t u : ℝ} (hd0 : 0 < d) (ht : 0 < t) {i i' : Nat} (hi : i < 2 ^ N) (hi' : i' < 2 ^ N) (h1 : u ≠ d / (2 * t)) (h2 : u ≠ -(d / (2 * t)))
    (hn : ∀ m : Nat, m < 2 ^ N → (t * u + d * ((i : ℝ) - i')) ^ 2 ≤ (t * u + d * ((i : ℝ) - m)) ^ 2) :
    errInd N i (d / (2 * t)) u ≤ hd N (bin2gray i) (bin2gray i') ∧
      (hd N (bin2gray i) (bin2gray i') : ℝ) ≤ errInd N i (d / (2 * t)) u + (N - 1) * farInd N i (d / (2 * t)) u := by
  obtain ⟨g1, g2, g3, g4⟩ := gray_hd_bounds hN hi' hi
  have hN' : (0 : ℝ) ≤ (N : ℝ) - 1 := by
    have : ((1 : Nat) : ℝ) ≤ N := by exact_mod_cast hN
    push_cast at this
    linarith
  have hfar0 : 0 ≤ farInd N i (d / (2 * t)) u := Set.indicator_nonneg (fun _ _ => zero_le_one) _
  have hcorr := component_correct hd0 ht hi hi' h1 h2 hn
  by_cases he : i' = i
  · have hm : u ∉ (okSet (0 < i) (i + 1 < 2 ^ N) (d / (2 * t)))ᶜ := fun h => h (hcorr.1 he)
    rw [g1 he.symm, errInd, Set.indicator_of_notMem hm]
    push_cast
    exact ⟨le_refl _, by nlinarith⟩
  · have hm : u ∈ (okSet (0 < i) (i + 1 < 2 ^ N) (d / (2 * t)))ᶜ := fun h => he (hcorr.2 h)
    rw [errInd, Set.indicator_of_mem hm, Pi.one_apply]
    refine ⟨by exact_mod_cast g2 (fun h => he h.symm), ?_⟩
    by_cases hf : u ∈ okSet (1 < i) (i + 2 < 2 ^ N) (3 * (d / (2 * t)))
    · obtain ⟨k1, k2⟩ := component_far hd0 ht hi hi' hn hf
      have : hd N (bin2gray i) (bin2gray i') ≤ 1 := g3 (by omega)
      have h3 : (hd N (bin2gray i) (bin2gray i') : ℝ) ≤ 1 := by exact_mod_cast this
      nlinarith
    · rw [farInd, Set.indicator_of_mem hf, Pi.one_apply, mul_one]
      have h3 : (hd N (bin2gray i) (bin2gray i') : ℝ) ≤ ((1 + (N - 1) : Nat) : ℝ) := by exact_mod_cast g4
      rw [Nat.cast_add, Nat.cast_sub hN] at h3
      push_cast at h3
      linarith

/-- Bit errors of one symbol. -/
theorem symbol_bits {N : Nat} (hN : 1 ≤ N) {c t u v : ℝ} (hc : 0 < c) (ht : 0 < t) {i j : Nat} (hi : i < 2 ^ N) (hj : j < 2 ^ N) (hu : u ≠ 1 / (c * t) ∧ u ≠ -(1 / (c * t)))
    (hv : v ≠ 1 / (c * t) ∧ v ≠ -(1 / (c * t))) :
    errInd N i (1 / (c * t)) u + errInd N j (1 / (c * t)) v ≤ rowErr (2 * N) (gridLabel N i j) (decIdx (qamCodedSymbols (2 * N) c) (gridPt N c i j + ⟨t * u, t * v⟩)) ∧
      (rowErr (2 * N) (gridLabel N i j) (decIdx (qamCodedSymbols (2 * N) c) (gridPt N c i j + ⟨t * u, t * v⟩)) : ℝ) ≤
        errInd N i (1 / (c * t)) u + errInd N j (1 / (c * t)) v + (N - 1) * (farInd N i (1 / (c * t)) u + farInd N j (1 / (c * t)) v) := by
  have hne : qamCodedSymbols (2 * N) c ≠ [] := by
    intro h
    have := coded_label (c := c) hi hj
    rw [h] at this
    simp at this
  obtain ⟨r, hr0, -, hr⟩ := decIdx_spec hne (gridPt N c i j + ⟨t * u, t * v⟩)
  obtain ⟨h1, -, h3, -⟩ := detSymbolArgmin_spec hr0
  obtain ⟨i', hi', j', hj', hr'⟩ := (mem_coded_iff N c r.1).1 (List.mem_of_getElem? h1)
  rw [hr'] at hr
  rw [coded_label_unique hc hi' hj' hr, rowErr_grid hj' hj]
  have hx : 1 / (c * t) = 2 / c / (2 * t) := by field_simp
  have hsq : ∀ a : Nat, a < 2 ^ N → ∀ b : Nat, b < 2 ^ N → (t * u + 2 / c * ((i : ℝ) - i')) ^ 2 + (t * v + 2 / c * ((j : ℝ) - j')) ^ 2 ≤ (t * u + 2 / c * ((i : ℝ) - a)) ^ 2 + (t * v + 2 / c * ((j : ℝ) - b)) ^ 2 := by
    intro a ha b hb
    have := h3 (gridPt N c a b) ((mem_coded_iff N c _).2 ⟨a, ha, b, hb, rfl⟩)
    rw [hr', ← sq_le_sq₀ (norm_nonneg _) (norm_nonneg _), dist_grid, dist_grid] at this
    exact this
  have hd0 : (0 : ℝ) < 2 / c := by positivity
  rw [hx] at hu hv ⊢
  obtain ⟨p1, p2⟩ := component_bits hN hd0 ht hi hi' hu.1 hu.2 (fun m hm => by have := hsq m hm j' hj'; linarith)
  obtain ⟨p3, p4⟩ := component_bits hN hd0 ht hj hj' hv.1 hv.2 (fun m hm => by have := hsq i' hi' m hm; linarith)
  push_cast
  constructor <;> linarith

/-! ### The bit error rate as a sum over the symbols -/

theorem bit_errors_sum (k : Nat) : ∀ (n : Nat) (I J : Fin n → Nat),
    ((((List.ofFn J).map (encodingRow k)).flatten).zip (((List.ofFn I).map (encodingRow k)).flatten)).countP (fun p => p.1 ^^ p.2) = ∑ m, rowErr k (J m) (I m) := by
  intro n
  induction n with
  | zero => intro I J; simp
  | succ n ih =>
    intro I J
    rw [List.ofFn_succ, List.ofFn_succ, List.map_cons, List.map_cons, List.flatten_cons, List.flatten_cons, List.zip_append (by rw [length_encodingRow, length_encodingRow]),
      List.countP_append, ih, Fin.sum_univ_succ]
    rfl

theorem length_rows (k : Nat) (l : List Nat) : ((l.map (encodingRow k)).flatten).length = l.length * k := by
  induction l with
  | nil => simp
  | cons a l ih => rw [List.map_cons, List.flatten_cons, List.length_append, ih, length_encodingRow, List.length_cons]; ring

theorem calBer_ofFn {k n : Nat} {coded : List ℂ} (hlen : coded.length = 2 ^ k) (rx tx : Fin n → ℂ) :
    calBer k coded (List.ofFn rx) (List.ofFn tx) = some (((∑ m, rowErr k (decIdx coded (tx m)) (decIdx coded (rx m)) : Nat) : ℚ) / ((n * k : Nat) : ℚ)) := by
  have hne : coded ≠ [] := by
    intro h
    rw [h] at hlen
    have : 0 < 2 ^ k := by positivity
    simp at hlen
    omega
  have hdem : ∀ y : Fin n → ℂ, demodulate k coded (List.ofFn y) = some (((List.ofFn fun m => decIdx coded (y m)).map (encodingRow k)).flatten) := by
    intro y
    choose r hr using fun m => decIdx_spec hne (y m)
    unfold demodulate makeDecision
    rw [mapM_ofFn n y _ r (fun m => (hr m).1), Option.map_some, List.map_ofFn]
    have e : ((fun x : ℂ × ℝ × Nat => x.2.2) ∘ r) = fun m => decIdx coded (y m) := by
      funext m
      exact (hr m).2.1.symm
    rw [e]
    unfold demodulateIdx
    rw [gather_encoding]
    intro i hi
    obtain ⟨m, rfl⟩ := (List.mem_ofFn' _ _).1 hi
    rw [← hlen]
    exact (List.getElem?_eq_some_iff.1 (hr m).2.2).1
  unfold calBer
  rw [hdem, hdem]
  dsimp only
  rw [bit_errors_sum, length_rows, List.length_ofFn]

/-- Bit error rate of noisy grid points. -/
theorem calBer_noise {N n : Nat} {c sg : ℝ} (hc : 0 < c) (a b : Fin n → Nat) (ha : ∀ k, a k < 2 ^ N) (hb : ∀ k, b k < 2 ^ N) (w : Fin n → ℝ × ℝ) :
    calBer (2 * N) (qamCodedSymbols (2 * N) c) (addAwgn (List.ofFn fun k => gridPt N c (a k) (b k)) sg (List.ofFn fun k => (w k).1) (List.ofFn fun k => (w k).2))
      (List.ofFn fun k => gridPt N c (a k) (b k)) =
    some (((∑ k, rowErr (2 * N) (gridLabel N (a k) (b k)) (decIdx (qamCodedSymbols (2 * N) c) (gridPt N c (a k) (b k) + ⟨sg / Real.sqrt 2 * (w k).1, sg / Real.sqrt 2 * (w k).2⟩)) : Nat) : ℚ) /
      ((n * (2 * N) : Nat) : ℚ)) := by
  rw [addAwgn_ofFn, calBer_ofFn (length_qamCoded _ _)]
  have e : ∀ k, decIdx (qamCodedSymbols (2 * N) c) (gridPt N c (a k) (b k)) = gridLabel N (a k) (b k) := by
    intro k
    have hl := coded_label (c := c) (ha k) (hb k)
    have hne : qamCodedSymbols (2 * N) c ≠ [] := by
      intro h
      rw [h] at hl
      simp at hl
    rw [decIdx_eq_iff hne]
    refine ⟨_, hl, fun s' _ => by rw [sub_self, norm_zero]; exact norm_nonneg _, ?_⟩
    intro i hi s' hs'
    rw [sub_self, norm_zero, norm_pos_iff, sub_ne_zero]
    intro heq
    rw [← heq] at hs'
    have := coded_label_unique hc (ha k) (hb k) hs'
    omega
  simp_rw [e]

/-! ### Expected bit error rate -/

/-- Second order neighbours of a point on one axis. -/
noncomputable def nbrs2 (N i : Nat) : ℝ := (if 1 < i then 1 else 0) + (if i + 2 < 2 ^ N then 1 else 0)

theorem sum_nbrs2 (N : Nat) (hN : 1 ≤ N) : ∑ i ∈ Finset.range (2 ^ N), nbrs2 N i = 2 * (2 ^ N - 2) := by
  have h2 : 2 ≤ 2 ^ N := by
    calc 2 = 2 ^ 1 := rfl
      _ ≤ 2 ^ N := Nat.pow_le_pow_right (by norm_num) hN
  obtain ⟨m, hm⟩ : ∃ m, 2 ^ N = m + 2 := ⟨2 ^ N - 2, by omega⟩
  have hmR : (2 : ℝ) ^ N = m + 2 := by exact_mod_cast hm
  unfold nbrs2
  rw [Finset.sum_add_distrib, hm, hmR]
  have h3 : ∑ i ∈ Finset.range (m + 2), (if 1 < i then (1 : ℝ) else 0) = m := by
    rw [Finset.sum_range_succ', Finset.sum_range_succ']
    simp
  have h4 : ∑ i ∈ Finset.range (m + 2), (if i + 2 < m + 2 then (1 : ℝ) else 0) = m := by
    rw [Finset.sum_range_succ, Finset.sum_range_succ, Finset.sum_congr rfl (fun i hi => if_pos (by have := Finset.mem_range.1 hi; omega))]
    simp
  rw [h3, h4]
  ring

theorem integral_fst_ind (A : Set ℝ) (hA : MeasurableSet A) : Integrable (fun z : ℝ × ℝ => A.indicator (1 : ℝ → ℝ) z.1) stdN2 ∧ ∫ z : ℝ × ℝ, A.indicator (1 : ℝ → ℝ) z.1 ∂stdN2 = stdN.real A := by
  have e : (fun z : ℝ × ℝ => A.indicator (1 : ℝ → ℝ) z.1) = (Prod.fst ⁻¹' A).indicator 1 := by
    funext z
    rfl
  rw [e]
  refine ⟨(integrable_const (1 : ℝ)).indicator (measurable_fst hA), ?_⟩
  rw [integral_indicator_one (measurable_fst hA)]
  exact (measurePreserving_fst (μ := stdN) (ν := stdN)).measureReal_preimage hA.nullMeasurableSet

theorem integral_snd_ind (A : Set ℝ) (hA : MeasurableSet A) : Integrable (fun z : ℝ × ℝ => A.indicator (1 : ℝ → ℝ) z.2) stdN2 ∧ ∫ z : ℝ × ℝ, A.indicator (1 : ℝ → ℝ) z.2 ∂stdN2 = stdN.real A := by
  have e : (fun z : ℝ × ℝ => A.indicator (1 : ℝ → ℝ) z.2) = (Prod.snd ⁻¹' A).indicator 1 := by
    funext z
    rfl
  rw [e]
  refine ⟨(integrable_const (1 : ℝ)).indicator (measurable_snd hA), ?_⟩
  rw [integral_indicator_one (measurable_snd hA)]
  exact (measurePreserving_snd (μ := stdN) (ν := stdN)).measureReal_preimage hA.nullMeasurableSet

theorem stdN_errInd (N i : Nat) {x : ℝ} (hx : 0 ≤ x) : stdN.real (okSet (0 < i) (i + 1 < 2 ^ N) x)ᶜ = nbrs N i * qFunction x := by
  rw [probReal_compl_eq_one_sub (measurableSet_okSet _ _ _), stdN_okSet _ _ hx]
  unfold nbrs
  rw [sub_sub_cancel]
  congr

theorem stdN_farInd (N i : Nat) {x : ℝ} (hx : 0 ≤ x) : stdN.real (okSet (1 < i) (i + 2 < 2 ^ N) (3 * x))ᶜ = nbrs2 N i * qFunction (3 * x) := by
  rw [probReal_compl_eq_one_sub (measurableSet_okSet _ _ _), stdN_okSet _ _ (by linarith)]
  unfold nbrs2
  rw [sub_sub_cancel]
  congr

/-- Expected number of bit errors of one symbol. -/
theorem expected_symbol_bits {N : Nat} (hN : 1 ≤ N) {c t : ℝ} (hc : 0 < c) (ht : 0 < t) {i j : Nat} (hi : i < 2 ^ N) (hj : j < 2 ^ N) :
    let e : ℝ × ℝ → ℝ := fun z => rowErr (2 * N) (gridLabel N i j) (decIdx (qamCodedSymbols (2 * N) c) (gridPt N c i j + ⟨t * z.1, t * z.2⟩))
    Integrable e stdN2 ∧ (nbrs N i + nbrs N j) * qFunction (1 / (c * t)) ≤ ∫ z, e z ∂stdN2 ∧
      ∫ z, e z ∂stdN2 ≤ (nbrs N i + nbrs N j) * qFunction (1 / (c * t)) + (N - 1) * ((nbrs2 N i + nbrs2 N j) * qFunction (3 * (1 / (c * t)))) := by
  intro e
  obtain ⟨x, hxdef⟩ : ∃ x, x = 1 / (c * t) := ⟨_, rfl⟩
  have hx : 0 ≤ x := by rw [hxdef]; positivity
  have hne : qamCodedSymbols (2 * N) c ≠ [] := by
    intro h
    have := coded_label (c := c) hi hj
    rw [h] at this
    simp at this
  have hme : Measurable e := by
    have h1 : Measurable fun z : ℝ × ℝ => gridPt N c i j + (⟨t * z.1, t * z.2⟩ : ℂ) := by
      apply Measurable.const_add
      have : (fun z : ℝ × ℝ => (⟨t * z.1, t * z.2⟩ : ℂ)) = fun z : ℝ × ℝ => ((t * z.1 : ℝ) : ℂ) + ((t * z.2 : ℝ) : ℂ) * Complex.I := by
        funext z
        apply Complex.ext <;> simp
      rw [this]
      fun_prop
    exact (measurable_from_nat (f := fun m => (rowErr (2 * N) (gridLabel N i j) m : ℝ))).comp ((measurable_decIdx hne).comp h1)
  have hint : Integrable e stdN2 := by
    refine Integrable.of_bound hme.aestronglyMeasurable (2 * N : ℝ) (Filter.Eventually.of_forall fun z => ?_)
    have : rowErr (2 * N) (gridLabel N i j) (decIdx (qamCodedSymbols (2 * N) c) (gridPt N c i j + ⟨t * z.1, t * z.2⟩)) ≤ 2 * N := by rw [rowErr_eq]; exact hd_le _ _ _
    rw [Real.norm_of_nonneg (Nat.cast_nonneg _)]
    exact_mod_cast this
  have hae : ∀ᵐ z ∂stdN2, errInd N i x z.1 + errInd N j x z.2 ≤ e z ∧ e z ≤ errInd N i x z.1 + errInd N j x z.2 + (N - 1) * (farInd N i x z.1 + farInd N j x z.2) := by
    filter_upwards [ae_off_boundary x] with z hz
    rw [hxdef] at hz ⊢
    exact symbol_bits hN hc ht hi hj ⟨hz.1, hz.2.1⟩ ⟨hz.2.2.1, hz.2.2.2⟩
  obtain ⟨a1, a2⟩ := integral_fst_ind _ (measurableSet_okSet (0 < i) (i + 1 < 2 ^ N) x).compl
  obtain ⟨b1, b2⟩ := integral_snd_ind _ (measurableSet_okSet (0 < j) (j + 1 < 2 ^ N) x).compl
  obtain ⟨f1, f2⟩ := integral_fst_ind _ (measurableSet_okSet (1 < i) (i + 2 < 2 ^ N) (3 * x)).compl
  obtain ⟨g1, g2⟩ := integral_snd_ind _ (measurableSet_okSet (1 < j) (j + 2 < 2 ^ N) (3 * x)).compl
  rw [stdN_errInd N _ hx] at a2 b2
  rw [stdN_farInd N _ hx] at f2 g2
  rw [← hxdef]
  refine ⟨hint, ?_, ?_⟩
  · have h := integral_mono_ae (a1.add b1) hint (hae.mono fun z hz => hz.1)
    simp only [Pi.add_apply] at h
    rw [integral_add a1 b1, a2, b2] at h
    linarith
  · have h := integral_mono_ae hint ((a1.add b1).add ((f1.add g1).const_mul ((N : ℝ) - 1))) (hae.mono fun z hz => hz.2)
    have hs := integral_add (a1.add b1) ((f1.add g1).const_mul ((N : ℝ) - 1))
    have hs1 := integral_add a1 b1
    have hs2 := integral_const_mul ((N : ℝ) - 1) (fun z : ℝ × ℝ => (okSet (1 < i) (i + 2 < 2 ^ N) (3 * x))ᶜ.indicator (1 : ℝ → ℝ) z.1 + (okSet (1 < j) (j + 2 < 2 ^ N) (3 * x))ᶜ.indicator (1 : ℝ → ℝ) z.2) (μ := stdN2)
    have hs3 := integral_add f1 g1
    simp only [Pi.add_apply] at h hs
    rw [hs, hs1, hs2, hs3, a2, b2, f2, g2] at h
    linarith

/-- Setting of the error rate theorems: the signal after `change_snr` in coordinates. -/
theorem qam_setup {N n : Nat} (hN : 1 ≤ N) (hn : 0 < n) (tx : Fin n → ℂ) (hbal : EquallyOften (qamCodedSymbols (2 * N) (Real.sqrt (scalingFactor (2 * N) : ℝ))) tx) (snrDb fb : ℝ) (hfb : 0 < fb) :
    ∃ (c sg : ℝ) (a b : Fin n → Nat), 0 < c ∧ 0 < sg ∧ c = Real.sqrt (scalingFactor (2 * N) : ℝ) ∧ Real.sqrt 2 / (c * sg) = Real.sqrt (3 * dB2lin snrDb / (4 ^ N - 1)) ∧
      (∀ k, a k < 2 ^ N) ∧ (∀ k, b k < 2 ^ N) ∧ tx = (fun k => gridPt N c (a k) (b k)) ∧
      (∀ w : Fin n → ℝ × ℝ, (changeSnr [List.ofFn tx] snrDb fb fb [List.ofFn fun k => (w k).1] [List.ofFn fun k => (w k).2]).getD 0 [] =
        addAwgn (List.ofFn tx) sg (List.ofFn fun k => (w k).1) (List.ofFn fun k => (w k).2)) ∧
      ∀ F : Nat → Nat → ℝ, (∑ k, F (a k) (b k)) / n = (∑ i ∈ Finset.range (2 ^ N), ∑ j ∈ Finset.range (2 ^ N), F i j) / 4 ^ N := by
  obtain ⟨c, hcdef⟩ : ∃ c, c = Real.sqrt (scalingFactor (2 * N) : ℝ) := ⟨_, rfl⟩
  have hM : (4 : ℝ) ≤ 4 ^ N := by
    calc (4 : ℝ) = 4 ^ 1 := (pow_one _).symm
      _ ≤ 4 ^ N := pow_le_pow_right₀ (by norm_num) hN
  have hscale : (0 : ℝ) < 2 / 3 * (4 ^ N - 1) := by linarith
  have hc : 0 < c := by rw [hcdef, scaling_even]; exact Real.sqrt_pos.2 hscale
  have hc2 : c ^ 2 = 2 / 3 * (4 ^ N - 1) := by rw [hcdef, scaling_even, Real.sq_sqrt hscale.le]
  rw [← hcdef] at hbal
  have hlen : (qamCodedSymbols (2 * N) c).length = 4 ^ N := by
    rw [length_qamCoded, pow_mul]; norm_num
  have hnd : (qamCodedSymbols (2 * N) c).Nodup := nodup_qamCoded _ hc.ne'
  have hn' : (0 : ℝ) < n := by exact_mod_cast hn
  have hM0 : (0 : ℝ) < 4 ^ N := by linarith
  have hp : meanR ([List.ofFn tx].flatten.map fun z => ‖z‖ ^ 2) = 1 := by
    have h1 := balanced_sum hnd hbal (fun z => ‖z‖ ^ 2)
    have h2 := (C11_unit_power (2 * N) (by omega)).1
    rw [hlen] at h1
    have h4 : ((2 : ℝ) ^ (2 * N)) = 4 ^ N := by rw [pow_mul]; norm_num
    rw [h4, div_eq_one_iff_eq hM0.ne', ← hcdef] at h2
    rw [h2] at h1
    push_cast at h1
    have h3 : ∑ k, ‖tx k‖ ^ 2 = n := mul_right_cancel₀ hM0.ne' h1
    unfold meanR
    rw [List.flatten_singleton, List.map_ofFn, List.sum_ofFn, List.length_ofFn]
    simp only [Function.comp_apply]
    rw [h3, div_self hn'.ne']
  obtain ⟨sg, hsgdef⟩ : ∃ sg : ℝ, sg = (10 : ℝ) ^ (-snrDb / 20) := ⟨_, rfl⟩
  have hsg : 0 < sg := by rw [hsgdef]; positivity
  have hcoord : ∀ k, ∃ i j : Nat, i < 2 ^ N ∧ j < 2 ^ N ∧ tx k = gridPt N c i j := by
    intro k
    obtain ⟨i, hi, j, hj, e⟩ := (mem_coded_iff N c _).1 (hbal.1 k)
    exact ⟨i, j, hi, hj, e⟩
  choose a b ha hb hab using hcoord
  refine ⟨c, sg, a, b, hc, hsg, hcdef, ?_, ha, hb, funext hab, ?_, ?_⟩
  · symm
    have h3 : (0 : ℝ) < 4 ^ N - 1 := by linarith
    rw [Real.sqrt_eq_iff_mul_self_eq (by
      have : 0 < dB2lin snrDb := by unfold dB2lin; positivity
      positivity) (by positivity)]
    have hsg2 : sg * sg * dB2lin snrDb = 1 := by
      rw [hsgdef]
      unfold dB2lin
      rw [← Real.rpow_add (by norm_num), ← Real.rpow_add (by norm_num)]
      rw [show -snrDb / 20 + -snrDb / 20 + snrDb / 10 = 0 from by ring, Real.rpow_zero]
    have h4 : (4 : ℝ) ^ N - 1 = 3 / 2 * c ^ 2 := by rw [hc2]; ring
    have hs2 : Real.sqrt 2 * Real.sqrt 2 = 2 := Real.mul_self_sqrt (by norm_num)
    have hsgne := hsg.ne'
    rw [h4, div_mul_div_comm, hs2, div_eq_div_iff (by positivity) (by positivity)]
    calc 3 * dB2lin snrDb * (c * sg * (c * sg)) = 3 * c ^ 2 * (sg * sg * dB2lin snrDb) := by ring
      _ = 2 * (3 / 2 * c ^ 2) := by rw [hsg2]; ring
  · intro w
    unfold changeSnr
    dsimp only
    rw [hp, div_self hfb.ne', Real.sqrt_one, one_mul, mul_one, ← hsgdef]
    rfl
  · intro F
    obtain ⟨G, hG⟩ : ∃ G : ℂ → ℝ, ∀ i j, G (gridPt N c i j) = F i j := by
      classical
      refine ⟨fun s => if h : ∃ p : Nat × Nat, s = gridPt N c p.1 p.2 then F h.choose.1 h.choose.2 else 0, ?_⟩
      intro i j
      have hex : ∃ p : Nat × Nat, gridPt N c i j = gridPt N c p.1 p.2 := ⟨(i, j), rfl⟩
      dsimp only
      rw [dif_pos hex]
      obtain ⟨e1, e2⟩ := gridPt_inj hc hex.choose_spec
      rw [← e1, ← e2]
    have hbs := balanced_sum hnd hbal G
    rw [hlen, coded_sum_grid] at hbs
    push_cast at hbs
    simp_rw [hab, hG] at hbs
    rw [div_eq_div_iff hn'.ne' hM0.ne', hbs]
    ring

/-- C118: the average bit error rate over all noise realisations of a Gray coded square QAM signal with equally frequent symbols after `change_snr` is at least the value of the formula, and at most
the formula plus a term for errors beyond the neighbouring point. For QPSK it is the formula. -/
theorem C118_ber {N n : Nat} (hN : 1 ≤ N) (hn : 0 < n) (tx : Fin n → ℂ) (hbal : EquallyOften (qamCodedSymbols (2 * N) (Real.sqrt (scalingFactor (2 * N) : ℝ))) tx) (snrDb fb : ℝ) (hfb : 0 < fb) :
    let coded := qamCodedSymbols (2 * N) (Real.sqrt (scalingFactor (2 * N) : ℝ))
    let rx : (Fin n → ℝ × ℝ) → List ℂ := fun w => (changeSnr [List.ofFn tx] snrDb fb fb [List.ofFn fun k => (w k).1] [List.ofFn fun k => (w k).2]).getD 0 []
    let avg := ∫ w, (((calBer (2 * N) coded (rx w) (List.ofFn tx)).getD 0 : ℚ) : ℝ) ∂noiseLaw n
    (∀ w, ∃ q, calBer (2 * N) coded (rx w) (List.ofFn tx) = some q) ∧
    berQam (dB2lin snrDb) (4 ^ N) ≤ avg ∧
    avg ≤ berQam (dB2lin snrDb) (4 ^ N) + 2 * (1 - 1 / N) * (1 - 2 / 2 ^ N) * qFunction (3 * Real.sqrt (3 * dB2lin snrDb / (4 ^ N - 1))) ∧
    (N = 1 → avg = berQam (dB2lin snrDb) (4 ^ N)) := by
  intro coded rx avg
  obtain ⟨c, sg, a, b, hc, hsg, hcdef, hx, ha, hb, htx, hrx, hF⟩ := qam_setup hN hn tx hbal snrDb fb hfb
  have hNR : (1 : ℝ) ≤ N := by exact_mod_cast hN
  have hn' : (0 : ℝ) < n := by exact_mod_cast hn
  have ht : 0 < sg / Real.sqrt 2 := by positivity
  have hx' : 1 / (c * (sg / Real.sqrt 2)) = Real.sqrt (3 * dB2lin snrDb / (4 ^ N - 1)) := by rw [← hx]; field_simp
  have hval : ∀ w, calBer (2 * N) coded (rx w) (List.ofFn tx) =
      some (((∑ k, rowErr (2 * N) (gridLabel N (a k) (b k)) (decIdx (qamCodedSymbols (2 * N) c) (gridPt N c (a k) (b k) + ⟨sg / Real.sqrt 2 * (w k).1, sg / Real.sqrt 2 * (w k).2⟩)) : Nat) : ℚ) /
        ((n * (2 * N) : Nat) : ℚ)) := by
    intro w
    show calBer (2 * N) (qamCodedSymbols (2 * N) (Real.sqrt (scalingFactor (2 * N) : ℝ))) ((changeSnr [List.ofFn tx] snrDb fb fb [List.ofFn fun k => (w k).1] [List.ofFn fun k => (w k).2]).getD 0 []) _ = _
    rw [hrx w, ← hcdef, htx]
    exact calBer_noise hc a b ha hb w
  obtain ⟨x, hxd⟩ : ∃ x, x = Real.sqrt (3 * dB2lin snrDb / (4 ^ N - 1)) := ⟨_, rfl⟩
  rw [← hxd] at hx' ⊢
  -- the average as a sum over the symbols
  obtain ⟨E, hE⟩ : ∃ E : Fin n → ℝ × ℝ → ℝ, ∀ k z, E k z = (rowErr (2 * N) (gridLabel N (a k) (b k)) (decIdx (qamCodedSymbols (2 * N) c) (gridPt N c (a k) (b k) + ⟨sg / Real.sqrt 2 * z.1, sg / Real.sqrt 2 * z.2⟩)) : ℝ) :=
    ⟨fun k z => _, fun k z => rfl⟩
  have hEk : ∀ k, Integrable (E k) stdN2 ∧ (nbrs N (a k) + nbrs N (b k)) * qFunction x ≤ ∫ z, E k z ∂stdN2 ∧
      ∫ z, E k z ∂stdN2 ≤ (nbrs N (a k) + nbrs N (b k)) * qFunction x + (N - 1) * ((nbrs2 N (a k) + nbrs2 N (b k)) * qFunction (3 * x)) := by
    intro k
    have h := expected_symbol_bits hN hc ht (ha k) (hb k)
    rw [hx'] at h
    rw [show E k = _ from funext (hE k)]
    exact h
  have havg : avg = (∑ k, ∫ z, E k z ∂stdN2) / n / (2 * N) := by
    have h0 : ∀ w : Fin n → ℝ × ℝ, (((calBer (2 * N) coded (rx w) (List.ofFn tx)).getD 0 : ℚ) : ℝ) = (∑ k, E k (w k)) / (n * (2 * N)) := by
      intro w
      rw [hval, Option.getD_some]
      push_cast
      simp_rw [hE]
    show ∫ w, (((calBer (2 * N) coded (rx w) (List.ofFn tx)).getD 0 : ℚ) : ℝ) ∂noiseLaw n = _
    rw [integral_congr_ae (Filter.Eventually.of_forall h0), integral_div]
    have hint : ∀ k : Fin n, Integrable (fun w : Fin n → ℝ × ℝ => E k (w k)) (noiseLaw n) :=
      fun k => (measurePreserving_eval (fun _ : Fin n => stdN2) k).integrable_comp_of_integrable (hEk k).1
    rw [integral_finsetSum _ (fun k _ => hint k), div_div]
    congr 1
    apply Finset.sum_congr rfl
    intro k _
    exact integral_comp_eval (μ := fun _ : Fin n => stdN2) (i := k) (f := E k) (hEk k).1.aestronglyMeasurable
  have hsum2 : ∀ f : Nat → ℝ, ∑ i ∈ Finset.range (2 ^ N), ∑ j ∈ Finset.range (2 ^ N), (f i + f j) = 2 * 2 ^ N * ∑ i ∈ Finset.range (2 ^ N), f i := by
    intro f
    simp_rw [Finset.sum_add_distrib]
    simp only [Finset.sum_const, Finset.card_range, nsmul_eq_mul, ← Finset.mul_sum]
    push_cast
    ring
  have h2N : (4 : ℝ) ^ N = 2 ^ N * 2 ^ N := by rw [← mul_pow]; norm_num
  have h2p : (0 : ℝ) < 2 ^ N := by positivity
  have hav1 : (∑ k, (nbrs N (a k) + nbrs N (b k))) / n = 4 * (1 - 1 / 2 ^ N) := by
    rw [hF (fun i j => nbrs N i + nbrs N j), hsum2, sum_nbrs, h2N]
    field_simp
    ring
  have hav2 : (∑ k, (nbrs2 N (a k) + nbrs2 N (b k))) / n = 4 * (1 - 2 / 2 ^ N) := by
    rw [hF (fun i j => nbrs2 N i + nbrs2 N j), hsum2, sum_nbrs2 N hN, h2N]
    field_simp
    ring
  -- the formula
  have hform : berQam (dB2lin snrDb) (4 ^ N) = 2 * (1 - 1 / 2 ^ N) / N * qFunction x := by
    have hsqrtM : Real.sqrt (4 ^ N) = 2 ^ N := by
      rw [show (4 : ℝ) ^ N = (2 ^ N) ^ 2 from by rw [← pow_mul, mul_comm, pow_mul]; norm_num, Real.sqrt_sq (by positivity)]
    have hlog1 : Real.logb 2 (2 ^ N) = N := by rw [Real.logb_pow, Real.logb_self_eq_one (by norm_num), mul_one]
    have hlog2 : Real.logb 2 (4 ^ N) = 2 * N := by
      rw [Real.logb_pow, show (4 : ℝ) = 2 ^ 2 by norm_num, Real.logb_pow, Real.logb_self_eq_one (by norm_num)]
      push_cast
      ring
    unfold berQam
    rw [hsqrtM, hlog1, hlog2, hxd]
    congr 3
    rw [show ((2 : ℝ) ^ N) ^ 2 = 4 ^ N from by rw [h2N]; ring]
    have hN0 : (N : ℝ) ≠ 0 := by linarith
    field_simp
  have hlow : berQam (dB2lin snrDb) (4 ^ N) ≤ avg := by
    rw [hform, havg]
    have h1 : (∑ k, (nbrs N (a k) + nbrs N (b k)) * qFunction x) ≤ ∑ k, ∫ z, E k z ∂stdN2 := Finset.sum_le_sum fun k _ => (hEk k).2.1
    rw [← Finset.sum_mul] at h1
    calc 2 * (1 - 1 / 2 ^ N) / N * qFunction x = (∑ k, (nbrs N (a k) + nbrs N (b k))) / n * qFunction x / (2 * N) := by rw [hav1]; field_simp; ring
      _ = (∑ k, (nbrs N (a k) + nbrs N (b k))) * qFunction x / n / (2 * N) := by ring
      _ ≤ _ := by gcongr
  have hup : avg ≤ berQam (dB2lin snrDb) (4 ^ N) + 2 * (1 - 1 / N) * (1 - 2 / 2 ^ N) * qFunction (3 * x) := by
    rw [hform, havg]
    have h1 : (∑ k, ∫ z, E k z ∂stdN2) ≤ ∑ k, ((nbrs N (a k) + nbrs N (b k)) * qFunction x + (N - 1) * ((nbrs2 N (a k) + nbrs2 N (b k)) * qFunction (3 * x))) :=
      Finset.sum_le_sum fun k _ => (hEk k).2.2
    rw [Finset.sum_add_distrib, ← Finset.sum_mul, ← Finset.mul_sum, ← Finset.sum_mul] at h1
    calc _ ≤ ((∑ k, (nbrs N (a k) + nbrs N (b k))) * qFunction x + (N - 1) * ((∑ k, (nbrs2 N (a k) + nbrs2 N (b k))) * qFunction (3 * x))) / n / (2 * N) := by gcongr
      _ = ((∑ k, (nbrs N (a k) + nbrs N (b k))) / n * qFunction x + (N - 1) * ((∑ k, (nbrs2 N (a k) + nbrs2 N (b k))) / n * qFunction (3 * x))) / (2 * N) := by ring
      _ = _ := by rw [hav1, hav2]; field_simp; ring
  refine ⟨fun w => ⟨_, hval w⟩, hlow, hup, ?_⟩
  rintro rfl
  apply le_antisymm _ hlow
  refine hup.trans (le_of_eq ?_)
  norm_num

/-- C118: `ber_vs_evm_qam` is `ber_vs_es_over_n0_qam` at the SNR belonging to the EVM in dB. -/
theorem C118_evm (snrDb M : ℝ) : berEvm (-snrDb) M = berQam (dB2lin snrDb) M := by
  unfold berEvm berQam dB2lin
  congr 4
  rw [neg_div, Real.rpow_neg (by norm_num)]
  have : (0 : ℝ) < 10 ^ (snrDb / 10) := by positivity
  by_cases h : Real.logb 2 M = 0
  · rw [h]; simp
  · field_simp

/-- Every point once: a balanced sequence. -/
theorem balanced_get {coded : List ℂ} (hnd : coded.Nodup) : EquallyOften coded (fun k : Fin coded.length => coded.get k) := by
  refine ⟨fun k => List.get_mem _ _, ?_⟩
  intro s hs
  obtain ⟨k, hk⟩ := List.get_of_mem hs
  have : (Finset.univ.filter fun m : Fin coded.length => coded.get m = s) = {k} := by
    ext m
    rw [Finset.mem_filter, Finset.mem_singleton, ← hk, hnd.get_inj_iff]
    simp
  rw [this]
  simp

/-- Case of C115 and C118: 16-QAM, every point once. -/
example : ∃ tx : Fin 16 → ℂ, EquallyOften (qamCodedSymbols (2 * 2) (Real.sqrt (scalingFactor (2 * 2) : ℝ))) tx := by
  have hc : Real.sqrt (scalingFactor (2 * 2) : ℝ) ≠ 0 := by
    rw [scaling_even]
    exact (Real.sqrt_pos.2 (by norm_num)).ne'
  have hl : (qamCodedSymbols (2 * 2) (Real.sqrt (scalingFactor (2 * 2) : ℝ))).length = 16 := length_qamCoded _ _
  have h := balanced_get (nodup_qamCoded (2 * 2) hc)
  rw [← hl]
  exact ⟨_, h⟩

end Qampy
