import Verif.Model.RoundedBps
import Verif.Props.Rounded
import Verif.Props.RoundedEq
import Verif.Props.Decisions
import Verif.Props.SearchAccuracy

/-!
C200: the blind phase search with rounded arithmetic.
-/

namespace Qampy

open Complex (I)

theorem detSymbolBy_spec (dist : ℂ → ℂ → ℝ) (X : ℂ) : ∀ (l : List ℂ) (s : ℂ) (d : ℝ), (detSymbolBy dist X l s d).2 ≤ d ∧ (∀ c ∈ l, (detSymbolBy dist X l s d).2 ≤ dist X c) ∧
    ((detSymbolBy dist X l s d).2 = d ∨ ∃ c ∈ l, (detSymbolBy dist X l s d).2 = dist X c) := by
  intro l
  induction l with
  | nil => intro s d; exact ⟨le_rfl, by simp, Or.inl rfl⟩
  | cons a l ih =>
    intro s d
    unfold detSymbolBy
    split_ifs with h
    · obtain ⟨h1, h2, h3⟩ := ih a (dist X a)
      refine ⟨h1.trans h.le, ?_, ?_⟩
      · intro c hc
        rcases List.mem_cons.1 hc with rfl | hc
        · exact h1
        · exact h2 c hc
      · right
        rcases h3 with h3 | ⟨c, hc, h3⟩
        · exact ⟨a, by simp, h3⟩
        · exact ⟨c, by simp [hc], h3⟩
    · obtain ⟨h1, h2, h3⟩ := ih s d
      refine ⟨h1, ?_, ?_⟩
      · intro c hc
        rcases List.mem_cons.1 hc with rfl | hc
        · exact h1.trans (not_lt.1 h)
        · exact h2 c hc
      · rcases h3 with h3 | ⟨c, hc, h3⟩
        · exact Or.inl h3
        · exact Or.inr ⟨c, by simp [hc], h3⟩

/-- The capped distance: at most 100, at most every distance, and one of them. -/
theorem clipped_spec (dist : ℂ → ℂ → ℝ) (X : ℂ) (l : List ℂ) : min 100 (detSymbolBy dist X l 1 1000).2 ≤ 100 ∧ (∀ c ∈ l, min 100 (detSymbolBy dist X l 1 1000).2 ≤ dist X c) ∧
    (min 100 (detSymbolBy dist X l 1 1000).2 = 100 ∨ ∃ c ∈ l, min 100 (detSymbolBy dist X l 1 1000).2 = dist X c) := by
  obtain ⟨h1, h2, h3⟩ := detSymbolBy_spec dist X l 1 1000
  refine ⟨min_le_left _ _, fun c hc => (min_le_right _ _).trans (h2 c hc), ?_⟩
  rcases min_choice (100 : ℝ) (detSymbolBy dist X l 1 1000).2 with h | h
  · exact Or.inl h
  · rw [h]
    rcases h3 with h3 | h3
    · rw [h3] at h
      exact absurd (min_le_left (100 : ℝ) 1000) (by rw [h]; norm_num)
    · exact Or.inr h3

theorem scaled_growth {κ h r : ℝ} (hκ : 1 ≤ κ ^ 2) (hh : 0 ≤ h) (hr : 0 ≤ r) (hr10 : r ≤ 10) : κ ^ 2 * (r + h) ^ 2 ≤ r ^ 2 + (κ ^ 2 * (10 + h) ^ 2 - 100) := by
  have h1 : 0 ≤ (10 - r) * (κ ^ 2 * (10 + r + 2 * h) - (10 + r)) := by
    apply mul_nonneg (by linarith)
    have : 1 * (10 + r + 2 * h) ≤ κ ^ 2 * (10 + r + 2 * h) := mul_le_mul_of_nonneg_right hκ (by linarith)
    linarith
  nlinarith

/-- Rounding of one capped distance. -/
theorem clipped_close {dist : ℂ → ℂ → ℝ} {lo hi κ h : ℝ} (hd : DistOk dist lo hi) (hκ0 : 1 ≤ κ) (hκ1 : hi ≤ κ ^ 2) (hκ2 : 1 ≤ κ ^ 2 * lo) {x y : ℂ} (hxy : ‖x - y‖ ≤ h) (symbols : List ℂ) :
    |min 100 (detSymbolBy dist x symbols 1 1000).2 - min 100 (detDist y symbols)| ≤ κ ^ 2 * (10 + h) ^ 2 - 100 := by
  have hh : 0 ≤ h := (norm_nonneg _).trans hxy
  have hκ : 1 ≤ κ ^ 2 := one_le_pow₀ hκ0
  rw [C187_search, ← (C181_exact y symbols).1]
  obtain ⟨a1, a2, a3⟩ := clipped_spec (fun X s => ‖X - s‖ ^ 2) y symbols
  obtain ⟨b1, b2, b3⟩ := clipped_spec dist x symbols
  generalize min 100 (detSymbolBy (fun X s => ‖X - s‖ ^ 2) y symbols 1 1000).2 = a at *
  generalize min 100 (detSymbolBy dist x symbols 1 1000).2 = b at *
  have he : 0 ≤ κ ^ 2 * (10 + h) ^ 2 - 100 := by
    have := scaled_growth hκ hh le_rfl (by norm_num : (0 : ℝ) ≤ 10)
    have : 0 ≤ κ ^ 2 * (0 + h) ^ 2 := by positivity
    linarith
  rw [abs_le]
  constructor
  · rcases b3 with hb | ⟨c, hc, hb⟩
    · linarith
    · have h1 := a2 c hc
      have h2 := hd.lower x c
      rw [← hb] at h2
      have hb0 : 0 ≤ b := (mul_nonneg hd.lo_pos.le (sq_nonneg _)).trans h2
      obtain ⟨ρ, hρ⟩ : ∃ ρ, ρ = √b := ⟨_, rfl⟩
      have hρ0 : 0 ≤ ρ := by rw [hρ]; exact Real.sqrt_nonneg _
      have hρ2 : ρ ^ 2 = b := by rw [hρ]; exact Real.sq_sqrt hb0
      have hρ10 : ρ ≤ 10 := by
        by_contra hc
        have : (10 : ℝ) ^ 2 < ρ ^ 2 := pow_lt_pow_left₀ (not_le.1 hc) (by norm_num) (by norm_num)
        linarith
      have hr : ‖x - c‖ ≤ κ * ρ := by
        apply le_of_sq_le_sq _ (by positivity)
        rw [mul_pow, hρ2]
        have h3 := mul_le_mul_of_nonneg_left h2 (sq_nonneg κ)
        have h4 := mul_le_mul_of_nonneg_right hκ2 (sq_nonneg ‖x - c‖)
        linarith
      have ht : ‖y - c‖ ≤ κ * (ρ + h) := by
        have h5 : ‖y - c‖ ≤ ‖x - y‖ + ‖x - c‖ := by
          rw [norm_sub_rev x y]
          exact norm_sub_le_norm_sub_add_norm_sub _ _ _
        have h6 : 1 * h ≤ κ * h := mul_le_mul_of_nonneg_right hκ0 hh
        linarith
      have h7 := pow_le_pow_left₀ (norm_nonneg _) ht 2
      rw [mul_pow] at h7
      have h8 := scaled_growth hκ hh hρ0 hρ10
      linarith
  · rcases a3 with ha | ⟨c, hc, ha⟩
    · linarith
    · have h1 := b2 c hc
      have h2 := hd.upper x c
      have hr10 : ‖y - c‖ ≤ 10 := by
        by_contra hc
        have : (10 : ℝ) ^ 2 < ‖y - c‖ ^ 2 := pow_lt_pow_left₀ (not_le.1 hc) (by norm_num) (by norm_num)
        linarith
      have h5 : ‖x - c‖ ≤ ‖y - c‖ + h := by
        have := norm_sub_le_norm_sub_add_norm_sub x y c
        linarith
      have h6 := pow_le_pow_left₀ (norm_nonneg _) h5 2
      have h7 := mul_le_mul_of_nonneg_right hκ1 (sq_nonneg ‖x - c‖)
      have h8 := mul_le_mul_of_nonneg_left h6 (sq_nonneg κ)
      have h9 := scaled_growth hκ hh (norm_nonneg (y - c)) hr10
      linarith

/-- Rounding of a turned sample. -/
theorem turned_round {fl : ℝ → ℝ} {u v : ℝ} (h : Rounds fl u) {c w e : ℂ} (hw : ‖w‖ = 1) (hc : ‖c - w‖ ≤ v) : ‖mulFl fl e c - e * w‖ ≤ (mulErr u * (1 + v) + v) * ‖e‖ := by
  have h1 := mulFl_err h e c
  have h2 : ‖c‖ ≤ 1 + v := by
    have := norm_le_norm_add_norm_sub' c w
    linarith
  have h3 : ‖e * c - e * w‖ ≤ ‖e‖ * v := by
    rw [← mul_sub, norm_mul]
    exact mul_le_mul_of_nonneg_left hc (norm_nonneg _)
  have hm : 0 ≤ mulErr u := by
    have := h.nonneg
    unfold mulErr
    positivity
  have h4 : mulErr u * (‖e‖ * ‖c‖) ≤ mulErr u * (‖e‖ * (1 + v)) := mul_le_mul_of_nonneg_left (mul_le_mul_of_nonneg_left h2 (norm_nonneg _)) hm
  have h5 := norm_sub_le_norm_sub_add_norm_sub (mulFl fl e c) (e * c) (e * w)
  linarith

theorem bpsDistsFl_spec (fl : ℝ → ℝ) (comp : ℝ → ℂ) (E : List ℂ) (angles : List (List ℝ)) (symbols : List ℂ) (M : Nat)
    (hrows : ∀ r ∈ angles, r.length = M) (hlen : angles.length = 1 ∨ angles.length = E.length) :
    ∃ d, bpsDistsFl fl comp E angles symbols = some d ∧ d.length = E.length ∧ (∀ r ∈ d, r.length = M) ∧
      ∀ i k, i < E.length → k < M → mval d i k = min 100 (detSymbolBy (distSqFl fl) (mulFl fl (E.getD i 0) (comp (angleAt angles i k))) symbols 1 1000).2 := by
  have hrow : ∀ i, i < E.length → ∃ row, angles[if 1 < angles.length then i else 0]? = some row ∧ row.length = M ∧
      ∀ k, row.getD k 0 = angleAt angles i k := by
    intro i hi
    have hlt : (if 1 < angles.length then i else 0) < angles.length := by
      split_ifs with h <;> omega
    refine ⟨_, List.getElem?_eq_getElem hlt, hrows _ (List.getElem_mem hlt), ?_⟩
    intro k
    unfold angleAt
    have : (if angles.length = 1 then 0 else i) = (if 1 < angles.length then i else 0) := by
      split_ifs <;> omega
    rw [this]
    congr 1
    simp [List.getD, List.getElem?_eq_getElem hlt]
  let f : Nat → List ℝ := fun i => (List.range M).map fun k =>
    min 100 (detSymbolBy (distSqFl fl) (mulFl fl (E.getD i 0) (comp (angleAt angles i k))) symbols 1 1000).2
  have hm : bpsDistsFl fl comp E angles symbols = some ((List.range E.length).map f) := by
    unfold bpsDistsFl
    refine mapM_range_some _ f _ fun i hi => ?_
    obtain ⟨row, h1, h2, h3⟩ := hrow i hi
    simp only [List.getElem?_eq_getElem hi, Option.bind_eq_bind, Option.bind_some, h1,
      Option.some.injEq, f]
    conv_lhs => rw [row_eq_map row M h2]
    rw [List.map_map]
    refine List.map_congr_left fun k _ => ?_
    simp only [Function.comp, h3]
    rw [show E.getD i 0 = E[i] by simp [List.getD, List.getElem?_eq_getElem hi], min_def]
    split_ifs <;> first | rfl | linarith
  refine ⟨_, hm, by simp, ?_, ?_⟩
  · intro r hr
    obtain ⟨i, _, rfl⟩ := List.mem_map.1 hr
    simp [f]
  · intro i k hi hk
    simp [mval, f, List.getD, List.getElem?_map, List.getElem?_range hi, List.getElem?_range hk]

/-- The rounding errors of the arithmetic, of the test phasors and of the samples: `u` for one operation, `v` for `exp`, all samples at most `B`; `h` bounds the error of a turned sample and `κ` that of the
distances. -/
structure BpsRounding (fl : ℝ → ℝ) (comp : ℝ → ℂ) (E : List ℂ) (u v B κ h : ℝ) : Prop where
  rounds : Rounds fl u
  u_lt : u < 1
  phasor : ∀ φ : ℝ, ‖comp φ - Complex.exp (I * (φ : ℂ))‖ ≤ v
  bound : ∀ e ∈ E, ‖e‖ ≤ B
  turned : (mulErr u * (1 + v) + v) * B ≤ h
  one_le : 1 ≤ κ
  upper : (1 + u) ^ 4 ≤ κ ^ 2
  lower : 1 ≤ κ ^ 2 * (1 - u) ^ 4

/-- The error of the cost of a window that ends at `i`: that of the `2N` distances and that of the running sums from the start of the signal. -/
noncomputable def bpsSlack (u κ h : ℝ) (N i : Nat) : ℝ := 2 * N * (κ ^ 2 * (10 + h) ^ 2 - 100) + 2 * ((1 + u) ^ (i + 1) - 1) * (100 * i)

theorem winCostFl_close {fl : ℝ → ℝ} {comp : ℝ → ℂ} {E symbols : List ℂ} {angles : List (List ℝ)} {M N : Nat} {u v B κ h : ℝ} (hb : BpsRounding fl comp E u v B κ h)
    (hrows : ∀ r ∈ angles, r.length = M) (hlen : angles.length = 1 ∨ angles.length = E.length) (hne : E ≠ []) {D : Nat → Nat → ℝ}
    (hD : ∀ i k, i < E.length → k < M → IsNearestSq symbols (E.getD i 0 * Complex.exp (I * (angleAt angles i k : ℝ))) (D i k)) (hD100 : ∀ i k, i < E.length → k < M → D i k ≤ 100) :
    ∃ d, bpsDistsFl fl comp E angles symbols = some d ∧ d.length = E.length ∧ (∀ r ∈ d, r.length = M) ∧
      ∀ t k, N ≤ t → t + N < E.length → k < M → |winCostFl fl d (2 * N) (t + N) k - windowCost D N t k| ≤ bpsSlack u κ h N (t + N) := by
  obtain ⟨d, h1, h2, h3, h4⟩ := bpsDistsFl_spec fl comp E angles symbols M hrows hlen
  refine ⟨d, h1, h2, h3, ?_⟩
  intro t k hNt htN hk
  have hv : 0 ≤ v := (norm_nonneg _).trans (hb.phasor 0)
  have hB : 0 ≤ B := by
    obtain ⟨e, he⟩ := List.exists_mem_of_ne_nil _ hne
    exact (norm_nonneg e).trans (hb.bound e he)
  have hu := hb.rounds.nonneg
  have hclose : ∀ j, j < E.length → |mval d j k - D j k| ≤ κ ^ 2 * (10 + h) ^ 2 - 100 := by
    intro j hj
    rw [h4 j k hj hk]
    have hn := hD j k hj hk
    have hD' : D j k = min 100 (detDist (E.getD j 0 * Complex.exp (I * (angleAt angles j k : ℝ))) symbols) := by
      rw [detDist_eq symbols _ _ hn (by linarith [hD100 j k hj hk]), min_eq_right (hD100 j k hj hk)]
    rw [hD']
    refine clipped_close (C181_distance hb.rounds hb.u_lt) hb.one_le hb.upper hb.lower ?_ symbols
    refine (turned_round hb.rounds (norm_exp_I _) (hb.phasor _)).trans (le_trans ?_ hb.turned)
    refine mul_le_mul_of_nonneg_left ?_ ?_
    · have : E.getD j 0 = E[j] := by simp [List.getD, List.getElem?_eq_getElem hj]
      rw [this]
      exact hb.bound _ (List.getElem_mem _)
    · unfold mulErr
      positivity
  have h100 : ∀ j, j < E.length → |mval d j k| ≤ 100 := by
    intro j hj
    have h5 := (clipped_spec (distSqFl fl) (mulFl fl (E.getD j 0) (comp (angleAt angles j k))) symbols)
    rw [← h4 j k hj hk] at h5
    obtain ⟨c1, -, c3⟩ := h5
    rw [abs_le]
    refine ⟨?_, c1⟩
    rcases c3 with c3 | ⟨c, -, c3⟩
    · linarith
    · have hdo := C181_distance hb.rounds hb.u_lt
      have := hdo.lower (mulFl fl (E.getD j 0) (comp (angleAt angles j k))) c
      have : 0 ≤ (1 - u) ^ 4 * ‖mulFl fl (E.getD j 0) (comp (angleAt angles j k)) - c‖ ^ 2 := mul_nonneg hdo.lo_pos.le (sq_nonneg _)
      linarith
  have hw := window_err hb.rounds (fun j => mval d j k) (show t + N - 2 * N ≤ t + N by omega)
  rw [show t + N - 2 * N = t - N by omega] at hw
  have hsum : ∑ j ∈ Finset.Ioc 0 (t + N), |mval d j k| ≤ 100 * ((t + N : ℕ) : ℝ) := by
    refine (Finset.sum_le_card_nsmul _ _ 100 fun j hj => ?_).trans ?_
    · rw [Finset.mem_Ioc] at hj
      exact h100 j (by omega)
    · rw [Nat.card_Ioc, nsmul_eq_mul]
      simp only [Nat.sub_zero]
      linarith
  have hdiff : |∑ j ∈ Finset.Ioc (t - N) (t + N), mval d j k - windowCost D N t k| ≤ 2 * N * (κ ^ 2 * (10 + h) ^ 2 - 100) := by
    unfold windowCost
    rw [← Finset.sum_sub_distrib]
    refine (Finset.abs_sum_le_sum_abs _ _).trans ?_
    refine (Finset.sum_le_card_nsmul _ _ (κ ^ 2 * (10 + h) ^ 2 - 100) fun j hj => ?_).trans ?_
    · rw [Finset.mem_Ioc] at hj
      exact hclose j (by omega)
    · rw [Nat.card_Ioc, nsmul_eq_mul, show t + N - (t - N) = 2 * N by omega]
      push_cast
      exact le_rfl
  have hpow : 0 ≤ 2 * ((1 + u) ^ (t + N + 1) - 1) := by
    have : (1 : ℝ) ≤ (1 + u) ^ (t + N + 1) := one_le_pow₀ (by linarith)
    linarith
  have h6 := mul_le_mul_of_nonneg_left hsum hpow
  have e : winCostFl fl d (2 * N) (t + N) k = fl (runSum fl (fun j => mval d j k) (t + N) - runSum fl (fun j => mval d j k) (t - N)) := by
    unfold winCostFl
    rw [show t + N - 2 * N = t - N by omega]
  rw [e]
  unfold bpsSlack
  have h7 := abs_sub_le (fl (runSum fl (fun j => mval d j k) (t + N) - runSum fl (fun j => mval d j k) (t - N))) (∑ j ∈ Finset.Ioc (t - N) (t + N), mval d j k) (windowCost D N t k)
  push_cast at h6 h7 hw ⊢
  linarith

/-- C200: with rounded arithmetic the search selects at every position with a complete window an angle whose cost (sum of the exact squared distances to the nearest symbols) is the smallest, up to twice the
rounding error. -/
theorem C200_near {fl : ℝ → ℝ} {comp : ℝ → ℂ} {E symbols : List ℂ} {angles : List (List ℝ)} {M N : Nat} {u v B κ h : ℝ} (hb : BpsRounding fl comp E u v B κ h) (hN : 1 ≤ N)
    (hrows : ∀ r ∈ angles, r.length = M) (hlen : angles.length = 1 ∨ angles.length = E.length) (hne : E ≠ []) {D : Nat → Nat → ℝ}
    (hD : ∀ i k, i < E.length → k < M → IsNearestSq symbols (E.getD i 0 * Complex.exp (I * (angleAt angles i k : ℝ))) (D i k)) (hD100 : ∀ i k, i < E.length → k < M → D i k ≤ 100) :
    ∃ idx, bpsIdxFl fl comp E angles symbols N = some idx ∧ idx.length = E.length ∧
      ∀ t, N ≤ t → t + N < E.length → (∃ k < M, windowCost D N t k + bpsSlack u κ h N (t + N) < 1000) →
        ∃ k < M, idx[t]? = some k ∧ ∀ k' < M, windowCost D N t k ≤ windowCost D N t k' + 2 * bpsSlack u κ h N (t + N) := by
  obtain ⟨d, h1, h2, h3, h4⟩ := winCostFl_close (N := N) hb hrows hlen hne hD hD100
  obtain ⟨idx, g1, g2, g3⟩ := selectAngleIndexFl_spec fl d M (2 * N) h3
  refine ⟨idx, by unfold bpsIdxFl; rw [h1]; exact g1, by rw [g2, h2], ?_⟩
  rintro t hNt htN ⟨k0, hk0, hlt⟩
  have hidx := g3 t (by rw [h2]; omega)
  rw [show 2 * N / 2 = N by omega, h2, if_pos (by omega)] at hidx
  have c0 := abs_le.1 (h4 t k0 hNt htN hk0)
  obtain ⟨j, hj, hs⟩ := scanBest_eq_argmin ((List.range M).map (winCostFl fl d (2 * N) (t + N))) 1000 0 0
    ⟨_, List.mem_map.2 ⟨k0, List.mem_range.2 hk0, rfl⟩, by linarith⟩
  obtain ⟨hjl, p1, -⟩ := (argmin_map_range _ _ _).1 hj
  refine ⟨j, hjl, by rw [hidx, hs, zero_add], ?_⟩
  intro k' hk'
  have c1 := abs_le.1 (h4 t j hNt htN hjl)
  have c2 := abs_le.1 (h4 t k' hNt htN hk')
  have := p1 k' hk'
  linarith

/-- C200: if the best angle is better than all others by more than that, rounded and exact search select the same angle. -/
theorem C200_gap {fl : ℝ → ℝ} {comp : ℝ → ℂ} {E symbols : List ℂ} {angles : List (List ℝ)} {M N : Nat} {u v B κ h : ℝ} (hb : BpsRounding fl comp E u v B κ h) (hN : 1 ≤ N)
    (hrows : ∀ r ∈ angles, r.length = M) (hlen : angles.length = 1 ∨ angles.length = E.length) (hne : E ≠ []) {D : Nat → Nat → ℝ}
    (hD : ∀ i k, i < E.length → k < M → IsNearestSq symbols (E.getD i 0 * Complex.exp (I * (angleAt angles i k : ℝ))) (D i k)) (hD100 : ∀ i k, i < E.length → k < M → D i k ≤ 100)
    (h1000 : ∀ t, N ≤ t → t + N < E.length → ∃ k < M, windowCost D N t k < 1000) :
    ∃ idx idx', bpsIdxFl fl comp E angles symbols N = some idx ∧ bpsIdx E angles symbols N = some idx' ∧
      ∀ t k0, N ≤ t → t + N < E.length → k0 < M → windowCost D N t k0 + bpsSlack u κ h N (t + N) < 1000 →
        (∀ k < M, k ≠ k0 → windowCost D N t k0 + 2 * bpsSlack u κ h N (t + N) < windowCost D N t k) → idx[t]? = some k0 ∧ idx'[t]? = some k0 := by
  obtain ⟨idx, g1, g2, g3⟩ := C200_near hb hN hrows hlen hne hD hD100
  obtain ⟨idx', f1, f2, f3⟩ := C33_compiled E angles symbols N M hN hrows hlen D hD hD100 h1000
  refine ⟨idx, idx', g1, f1, ?_⟩
  intro t k0 hNt htN hk0 hlt hgap
  obtain ⟨k, hk, e1, e2⟩ := g3 t hNt htN ⟨k0, hk0, hlt⟩
  obtain ⟨k', e3, e4, -⟩ := f3 t (by omega)
  obtain ⟨hk', e5, -⟩ := e4 ⟨hNt, htN⟩
  have hs : 0 ≤ bpsSlack u κ h N (t + N) := by
    have hu := hb.rounds.nonneg
    obtain ⟨d, -, -, -, h4⟩ := winCostFl_close (N := N) hb hrows hlen hne hD hD100
    exact (abs_nonneg _).trans (h4 t k0 hNt htN hk0)
  constructor
  · rw [e1]
    congr 1
    by_contra hne'
    have := hgap k hk hne'
    have := e2 k0 hk0
    linarith
  · rw [e3]
    congr 1
    by_contra hne'
    have := hgap k' hk' hne'
    have := e5 k0 hk0
    linarith

/-- C200: fit of the rounded search. For any alphabet that a quarter turn maps onto itself, whatever the phase of the signal is, the test angle selected with rounded arithmetic brings the samples of the
window to constellation points as close as with exact arithmetic, up to the rounding error. -/
theorem C200_fit {fl : ℝ → ℝ} {comp : ℝ → ℂ} {E symbols : List ℂ} {M N : Nat} {u v B κ r : ℝ} {s : Nat → ℂ} {θ : Nat → ℝ} {A Δ ε : ℝ} (hb : BpsRounding fl comp E u v B κ r) (hN : 1 ≤ N) (hM : 1 ≤ M)
    (hI : ∀ z ∈ symbols, I * z ∈ symbols) (hA : ∀ z ∈ symbols, ‖z‖ ≤ A) (h0 : symbols ≠ []) (hne : E ≠ []) (h : DriftingSignal E symbols s θ N Δ ε) (h100 : 2 * A + ε ≤ 10)
    (h1000 : ∀ t, t + N < E.length → 2 * N * (A * (Real.pi / (4 * M) + Δ) + ε) ^ 2 + bpsSlack u κ r N (t + N) < 1000) :
    ∃ idx, bpsIdxFl fl comp E [testAngles M] symbols N = some idx ∧ idx.length = E.length ∧
      ∀ t, N ≤ t → t + N < E.length → ∃ k < M, idx[t]? = some k ∧ ∃ f : Nat → ℂ, (∀ j, f j ∈ symbols) ∧
        ∑ j ∈ Finset.Ioc (t - N) (t + N), ‖E.getD j 0 * Complex.exp (I * ((testAngles M).getD k 0 : ℂ)) - f j‖ ^ 2 ≤
          2 * N * (A * (Real.pi / (4 * M) + Δ) + ε) ^ 2 + 2 * bpsSlack u κ r N (t + N) := by
  have hA0 : 0 ≤ A := by
    obtain ⟨z, hz⟩ := List.exists_mem_of_ne_nil _ h0
    exact (norm_nonneg z).trans (hA z hz)
  choose D hD using fun (i k : Nat) =>
    exists_nearestSq symbols h0 (E.getD i 0 * Complex.exp (I * (angleAt [testAngles M] i k : ℝ)))
  have hD100 : ∀ i k, i < E.length → k < M → D i k ≤ 100 := by
    intro i k hi _
    have hs := h.mem i hi
    have h1 := (turned_dist (E.getD i 0) (s i) (θ i) (angleAt [testAngles M] i k) ε 0 (h.noise i hi)).1
    rw [zpow_zero, one_mul] at h1
    have h2 : ‖Complex.exp (I * ((θ i + angleAt [testAngles M] i k : ℝ) : ℂ)) - 1‖ ≤ 2 := by
      refine (norm_sub_le _ _).trans ?_
      rw [norm_exp_I, norm_one]; norm_num
    have h3 : ‖E.getD i 0 * Complex.exp (I * (angleAt [testAngles M] i k : ℝ)) - s i‖ ≤ 10 := by
      have := mul_le_mul (hA _ hs) h2 (norm_nonneg _) hA0
      linarith
    refine ((hD i k).1 _ hs).trans ?_
    have := norm_nonneg (E.getD i 0 * Complex.exp (I * (angleAt [testAngles M] i k : ℝ)) - s i)
    nlinarith
  have hbest : ∀ t, N ≤ t → t + N < E.length → ∃ k, k < M ∧
      windowCost D N t k ≤ 2 * N * (A * (Real.pi / (4 * M) + Δ) + ε) ^ 2 := by
    intro t hNt htN
    obtain ⟨m, q, hm, hq⟩ := testAngles_cover (θ t) M hM
    refine ⟨m, hm, ?_⟩
    unfold windowCost
    have hcard : (Finset.Ioc (t - N) (t + N)).card = 2 * N := by rw [Nat.card_Ioc]; omega
    have : ∀ j ∈ Finset.Ioc (t - N) (t + N), D j m ≤ (A * (Real.pi / (4 * M) + Δ) + ε) ^ 2 := by
      intro j hj
      rw [Finset.mem_Ioc] at hj
      have hjE : j < E.length := by omega
      have hs := h.mem j hjE
      refine ((hD j m).1 _ (closed_zpow hI q _ hs)).trans ?_
      rw [angleAt_one, testAngles_getD M m hm]
      have h1 := (turned_dist (E.getD j 0) (s j) (θ j) (-Real.pi / 4 + m * (Real.pi / 2 / M)) ε q (h.noise j hjE)).1
      have h2 : ‖Complex.exp (I * ((θ j + (-Real.pi / 4 + m * (Real.pi / 2 / M)) : ℝ) : ℂ)) - I ^ q‖ ≤ Real.pi / (4 * M) + Δ := by
        rw [← exp_quarter_zero]
        refine (norm_exp_sub_exp_le _ _).trans ?_
        have hd := h.drift j t hjE (by omega) (by omega) (by omega)
        calc _ = |(θ t + (-Real.pi / 4 + m * (Real.pi / 2 / M)) - Real.pi / 2 * q) + (θ j - θ t)| := by congr 1; ring
          _ ≤ _ := (abs_add_le _ _).trans (add_le_add hq hd)
      have h3 := mul_le_mul (hA _ hs) h2 (norm_nonneg _) hA0
      exact pow_le_pow_left₀ (norm_nonneg _) (by linarith) 2
    refine (Finset.sum_le_card_nsmul _ _ _ this).trans ?_
    rw [hcard, nsmul_eq_mul]
    push_cast
    exact le_rfl
  obtain ⟨idx, h1, h2, h3⟩ := C200_near (angles := [testAngles M]) (M := M) hb hN (by simp [testAngles]) (Or.inl rfl) hne (fun i k _ _ => hD i k) hD100
  refine ⟨idx, h1, h2, ?_⟩
  intro t hNt htN
  obtain ⟨m, hm, hc⟩ := hbest t hNt htN
  obtain ⟨k, hk, hi, hmin⟩ := h3 t hNt htN ⟨m, hm, lt_of_le_of_lt (by linarith) (h1000 t htN)⟩
  refine ⟨k, hk, hi, ?_⟩
  choose f hf1 hf2 using fun j => (hD j k).2
  refine ⟨f, hf1, ?_⟩
  have e : ∑ j ∈ Finset.Ioc (t - N) (t + N), ‖E.getD j 0 * Complex.exp (I * ((testAngles M).getD k 0 : ℂ)) - f j‖ ^ 2 = windowCost D N t k := by
    unfold windowCost
    refine Finset.sum_congr rfl fun j _ => ?_
    rw [hf2 j, angleAt_one]
  rw [e]
  have := hmin m hm
  linarith

theorem single_rounding {E : List ℂ} (hE : ∀ e ∈ E, ‖e‖ ≤ 2) : BpsRounding (flP 24) (fun φ => Complex.exp (I * (φ : ℂ))) E (2 ^ (-(24 : ℕ) : ℤ)) 0 2 (1 + 1 / 2 ^ 20) (1 / 2 ^ 20) where
  rounds := flP_rounds 24
  u_lt := by norm_num
  phasor := fun φ => by simp
  bound := hE
  turned := by unfold mulErr; norm_num
  one_le := by norm_num
  upper := by norm_num
  lower := by norm_num

/-- Single precision, three samples of drifting QPSK with noise: the turned samples of the window are close to symbols. -/
example : ∃ idx, bpsIdxFl (flP 24) (fun φ => Complex.exp (I * (φ : ℂ))) [Complex.exp (I * ((1 / 7 : ℝ) : ℂ)), I * Complex.exp (I * ((1 / 7 + 1 / 100 : ℝ) : ℂ)) + 1 / 50,
    -Complex.exp (I * ((1 / 7 + 2 / 100 : ℝ) : ℂ))] [testAngles 8] [1, I, -1, -I] 1 = some idx ∧ ∃ k < 8, idx[1]? = some k ∧ ∃ f : Nat → ℂ, (∀ j, f j ∈ [1, I, -1, -I]) ∧
      ∑ j ∈ Finset.Ioc 0 2, ‖[Complex.exp (I * ((1 / 7 : ℝ) : ℂ)), I * Complex.exp (I * ((1 / 7 + 1 / 100 : ℝ) : ℂ)) + 1 / 50, -Complex.exp (I * ((1 / 7 + 2 / 100 : ℝ) : ℂ))].getD j 0 *
        Complex.exp (I * ((testAngles 8).getD k 0 : ℂ)) - f j‖ ^ 2 ≤ 1 / 18 := by
  have hpi := Real.pi_le_four
  have hpi0 := Real.pi_pos
  have hsq : (Real.pi / 32 + 1 / 100 + 1 / 50) ^ 2 ≤ (16 / 100) ^ 2 := pow_le_pow_left₀ (by positivity) (by linarith) 2
  have hs : bpsSlack (2 ^ (-(24 : ℕ) : ℤ)) (1 + 1 / 2 ^ 20) (1 / 2 ^ 20) 1 2 ≤ 1 / 1000 := by unfold bpsSlack; norm_num
  have hE : ∀ e ∈ [Complex.exp (I * ((1 / 7 : ℝ) : ℂ)), I * Complex.exp (I * ((1 / 7 + 1 / 100 : ℝ) : ℂ)) + 1 / 50, -Complex.exp (I * ((1 / 7 + 2 / 100 : ℝ) : ℂ))], ‖e‖ ≤ 2 := by
    intro e he
    simp only [List.mem_cons, List.not_mem_nil, or_false] at he
    rcases he with rfl | rfl | rfl
    · rw [norm_exp_I]; norm_num
    · refine (norm_add_le _ _).trans ?_
      rw [norm_mul, norm_exp_I, Complex.norm_I]
      norm_num
    · rw [norm_neg, norm_exp_I]; norm_num
  have hturn : ∀ z ∈ [1, I, -1, -I], I * z ∈ [1, I, -1, -I] := by simp
  have hnorm : ∀ z ∈ [1, I, -1, -I], ‖z‖ ≤ 1 := by simp
  have h1000 : ∀ t : Nat, t + 1 < 3 → 2 * (1 : ℕ) * ((1 : ℝ) * (Real.pi / (4 * (8 : ℕ)) + 1 / 100) + 1 / 50) ^ 2 + bpsSlack (2 ^ (-(24 : ℕ) : ℤ)) (1 + 1 / 2 ^ 20) (1 / 2 ^ 20) 1 (t + 1) < 1000 := by
    intro t ht
    have ht : t = 0 ∨ t = 1 := by omega
    have hs0 : bpsSlack (2 ^ (-(24 : ℕ) : ℤ)) (1 + 1 / 2 ^ 20) (1 / 2 ^ 20) 1 1 ≤ 1 / 1000 := by unfold bpsSlack; norm_num
    rcases ht with rfl | rfl <;> (norm_num at hsq hs hs0 ⊢; linarith)
  obtain ⟨idx, h1, -, h2⟩ := C200_fit (single_rounding hE) (N := 1) (M := 8) (A := 1) le_rfl (by norm_num) hturn hnorm (by simp) (by simp) drifting_three (by norm_num) h1000
  refine ⟨idx, h1, ?_⟩
  obtain ⟨k, hk, hi, f, hf, hsum⟩ := h2 1 le_rfl (by simp)
  refine ⟨k, hk, hi, f, hf, hsum.trans ?_⟩
  norm_num at hsq hs ⊢
  linarith

/-- Single precision, half a turn against none: both searches select none. -/
example : ∃ idx idx', bpsIdxFl (flP 24) (fun φ => Complex.exp (I * (φ : ℂ))) [1, 1, 1] [[Real.pi, 0]] [1, I] 1 = some idx ∧ bpsIdx [1, 1, 1] [[Real.pi, 0]] [1, I] 1 = some idx' ∧ idx[1]? = some 1 ∧ idx'[1]? = some 1 := by
  have hE : ∀ e ∈ ([1, 1, 1] : List ℂ), ‖e‖ ≤ 2 := by simp
  have hcost : ∀ k, windowCost (fun _ k => if k = 0 then 2 else 0) 1 1 k = if k = 0 then 4 else 0 := by
    intro k
    unfold windowCost
    rw [Finset.sum_const, Nat.card_Ioc]
    split_ifs <;> norm_num
  have hnear : ∀ i k, i < ([1, 1, 1] : List ℂ).length → k < 2 → IsNearestSq [1, I] (([1, 1, 1] : List ℂ).getD i 0 * Complex.exp (I * (angleAt [[Real.pi, 0]] i k : ℝ))) (if k = 0 then 2 else 0) := by
    intro i k hi hk
    have he : ([1, 1, 1] : List ℂ).getD i 0 = 1 := by
      have : i = 0 ∨ i = 1 ∨ i = 2 := by simp at hi; omega
      rcases this with rfl | rfl | rfl <;> rfl
    rw [he, one_mul]
    have hk : k = 0 ∨ k = 1 := by omega
    rcases hk with rfl | rfl
    · have hp : Complex.exp (I * ((angleAt [[Real.pi, 0]] i 0 : ℝ) : ℂ)) = -1 := by
        rw [angleAt_one, mul_comm]; simp [Complex.exp_pi_mul_I]
      rw [hp]
      have hI : ‖(-1 : ℂ) - I‖ ^ 2 = 2 := by rw [← Complex.normSq_eq_norm_sq]; simp [Complex.normSq_apply]; norm_num
      refine ⟨?_, I, by simp, by simp [hI]⟩
      intro s hs
      simp only [List.mem_cons, List.not_mem_nil, or_false] at hs
      rcases hs with rfl | rfl
      · norm_num
      · simp [hI]
    · have hp : Complex.exp (I * ((angleAt [[Real.pi, 0]] i 1 : ℝ) : ℂ)) = 1 := by
        rw [angleAt_one]; simp
      rw [hp]
      exact ⟨fun s _ => by simp, 1, by simp, by simp⟩
  have hcap : ∀ i k : Nat, i < ([1, 1, 1] : List ℂ).length → k < 2 → (if k = 0 then (2 : ℝ) else 0) ≤ 100 := by
    intro i k _ _
    split_ifs <;> norm_num
  obtain ⟨idx, idx', h1, h2, h3⟩ := C200_gap (single_rounding hE) (angles := [[Real.pi, 0]]) (symbols := [1, I]) (M := 2) (N := 1) le_rfl (by simp) (Or.inl rfl) (by simp)
    (D := fun _ k => if k = 0 then 2 else 0) hnear hcap (fun t ht1 ht2 => ⟨1, by norm_num, by
      obtain rfl : t = 1 := by simp at ht2; omega
      rw [hcost]; norm_num⟩)
  refine ⟨idx, idx', h1, h2, ?_⟩
  refine h3 1 1 le_rfl (by simp) (by norm_num) ?_ ?_
  · rw [hcost]; unfold bpsSlack; norm_num
  · intro k hk hne
    obtain rfl : k = 0 := by omega
    rw [hcost, hcost]; unfold bpsSlack; norm_num

end Qampy
