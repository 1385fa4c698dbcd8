import Verif.Model.Phase
import Verif.Lemmas.Equaliser
import Verif.Lemmas.Np
import Verif.Lemmas.Constellation
import Verif.Tactics
import Mathlib.Algebra.Order.Floor.Ring
import Mathlib.Algebra.BigOperators.Intervals

/-! Lemmas about the phase recovery model. -/

namespace Qampy

open Complex (I)

/-! ### Unwrapping -/

/-- The correction is a multiple of the period. -/
theorem unwrapCorr_mul (dd : ℝ) : ∃ k : ℤ, unwrapCorr dd = 2 * Real.pi * k := by
  unfold unwrapCorr npMod
  simp only
  split_ifs with h1 h2
  · exact ⟨0, by simp⟩
  · refine ⟨1 - ⌊(dd + Real.pi) / (2 * Real.pi)⌋, ?_⟩
    have := h2.1
    push_cast
    linarith
  · refine ⟨- ⌊(dd + Real.pi) / (2 * Real.pi)⌋, ?_⟩
    push_cast
    ring

/-- A corrected step is at most half a period. -/
theorem unwrapCorr_bound (dd : ℝ) : |dd + unwrapCorr dd| ≤ Real.pi := by
  have hp := Real.pi_pos
  unfold unwrapCorr npMod
  simp only
  have h2 : (0 : ℝ) < 2 * Real.pi := by linarith
  have hfl := Int.floor_le ((dd + Real.pi) / (2 * Real.pi))
  have hlt := Int.lt_floor_add_one ((dd + Real.pi) / (2 * Real.pi))
  rw [le_div_iff₀ h2] at hfl
  rw [div_lt_iff₀ h2] at hlt
  split_ifs with h1 h2'
  · simpa using h1.le
  · rw [abs_le]; constructor <;> linarith
  · rw [abs_le]; constructor <;> nlinarith

theorem unwrapCorr_small {dd : ℝ} (h : |dd| < Real.pi) : unwrapCorr dd = 0 := by
  unfold unwrapCorr
  simp [h]

theorem length_unwrapGo (c prev : ℝ) (l : List ℝ) : (unwrapGo c prev l).length = l.length := by
  induction l generalizing c prev with
  | nil => rfl
  | cons x l ih => simp [unwrapGo, ih]

@[simp] theorem length_unwrap (l : List ℝ) : (unwrap l).length = l.length := by
  cases l <;> simp [unwrap, length_unwrapGo]

theorem unwrapGo_mul (c prev : ℝ) (l : List ℝ) (hc : ∃ k : ℤ, c = 2 * Real.pi * k) (i : Nat) (x : ℝ) (hx : l[i]? = some x) :
    ∃ k : ℤ, (unwrapGo c prev l)[i]? = some (x + 2 * Real.pi * k) := by
  induction l generalizing c prev i with
  | nil => simp at hx
  | cons y l ih =>
    obtain ⟨k0, hk0⟩ := hc
    obtain ⟨k1, hk1⟩ := unwrapCorr_mul (y - prev)
    have hc' : ∃ k : ℤ, c + unwrapCorr (y - prev) = 2 * Real.pi * k := ⟨k0 + k1, by push_cast; rw [hk0, hk1]; ring⟩
    cases i with
    | zero =>
      obtain ⟨k, hk⟩ := hc'
      simp only [List.getElem?_cons_zero, Option.some.injEq] at hx
      subst hx
      exact ⟨k, by simp [unwrapGo, hk]⟩
    | succ i => simpa [unwrapGo] using ih _ _ hc' i (by simpa using hx)

/-- Every element of the unwrapped list differs from the original one by a multiple of the period. -/
theorem unwrap_mul (l : List ℝ) (i : Nat) (x : ℝ) (hx : l[i]? = some x) :
    ∃ k : ℤ, (unwrap l)[i]? = some (x + 2 * Real.pi * k) := by
  cases l with
  | nil => simp at hx
  | cons y l =>
    cases i with
    | zero => exact ⟨0, by simpa [unwrap] using hx⟩
    | succ i => simpa [unwrap] using unwrapGo_mul 0 y l ⟨0, by simp⟩ i x (by simpa using hx)

theorem unwrapGo_of_small (c prev : ℝ) (l : List ℝ) (h : List.IsChain (fun a b => |b - a| < Real.pi) (prev :: l)) :
    unwrapGo c prev l = l.map (· + c) := by
  induction l generalizing c prev with
  | nil => rfl
  | cons x l ih =>
    rw [List.isChain_cons_cons] at h
    simp [unwrapGo, unwrapCorr_small h.1, ih _ _ h.2]

/-- Lists with small steps are left as they are. -/
theorem unwrap_of_small (l : List ℝ) (h : l.IsChain (fun a b => |b - a| < Real.pi)) : unwrap l = l := by
  cases l with
  | nil => rfl
  | cons x l => simp [unwrap, unwrapGo_of_small 0 x l h]

/-- Consecutive elements of the unwrapped list differ by at most half a period. -/
theorem unwrapGo_chain (c prev : ℝ) (l : List ℝ) :
    List.IsChain (fun a b => |b - a| ≤ Real.pi) ((prev + c) :: unwrapGo c prev l) := by
  induction l generalizing c prev with
  | nil => simp [unwrapGo]
  | cons x l ih =>
    rw [unwrapGo, List.isChain_cons_cons]
    refine ⟨?_, ih _ _⟩
    have := unwrapCorr_bound (x - prev)
    rwa [show x + (c + unwrapCorr (x - prev)) - (prev + c) = x - prev + unwrapCorr (x - prev) by ring]

theorem unwrap_chain (l : List ℝ) : (unwrap l).IsChain (fun a b => |b - a| ≤ Real.pi) := by
  cases l with
  | nil => simp [unwrap]
  | cons x l => simpa [unwrap] using unwrapGo_chain 0 x l

/-! ### Running sums -/

@[simp] theorem length_cumsumGo (c : ℝ) (l : List ℝ) : (cumsumGo c l).length = l.length := by
  induction l generalizing c with
  | nil => rfl
  | cons x l ih => simp [cumsumGo, ih]

theorem getElem?_cumsumGo (c : ℝ) (l : List ℝ) (i : Nat) (hi : i < l.length) :
    (cumsumGo c l)[i]? = some (c + ∑ j ∈ Finset.range (i + 1), l.getD j 0) := by
  induction l generalizing c i with
  | nil => simp at hi
  | cons x l ih =>
    cases i with
    | zero => simp [cumsumGo]
    | succ i =>
      simp only [cumsumGo, List.getElem?_cons_succ]
      rw [ih _ _ (by simpa using hi), Finset.sum_range_succ' _ (i + 1)]
      simp only [List.getD_cons_succ, List.getD_cons_zero, Option.some.injEq]
      ring

/-- `moving_average`: length and values. -/
theorem movingAverage_spec (sig : List ℝ) (N : Nat) (hN : 1 ≤ N) :
    ∃ out, movingAverage sig N = some out ∧ out.length = sig.length + 1 - N ∧
      ∀ i, i + N ≤ sig.length → out[i]? = some ((∑ j ∈ Finset.range N, sig.getD (i + j) 0) / N) := by
  unfold movingAverage
  rw [if_neg (by omega)]
  refine ⟨_, rfl, ?_, ?_⟩
  · simp
  · intro i hi
    have h1 : (cumsumGo 0 (0 :: sig))[N + i]? = some (∑ j ∈ Finset.range (N + i), sig.getD j 0) := by
      rw [getElem?_cumsumGo _ _ _ (by simp; omega), Finset.sum_range_succ']
      simp
    have h2 : (cumsumGo 0 (0 :: sig))[i]? = some (∑ j ∈ Finset.range i, sig.getD j 0) := by
      rw [getElem?_cumsumGo _ _ _ (by simp; omega), Finset.sum_range_succ']
      simp
    rw [List.getElem?_zipWith, List.getElem?_drop, List.getElem?_take_of_lt (by simp; omega), h1, h2]
    simp only [Option.some.injEq]
    rw [show N + i = i + N by omega, Finset.sum_range_add]
    ring

/-! ### Angle selection -/

/-- Element `[j][k]` of a matrix, zero outside. -/
def mval (x : List (List ℝ)) (j k : Nat) : ℝ := (x.getD j []).getD k 0

theorem row_eq_map (r : List ℝ) (M : Nat) (h : r.length = M) : r = (List.range M).map fun k => r.getD k 0 := by
  apply List.ext_getElem?
  intro i
  by_cases hi : i < M
  · simp [hi, List.getElem?_eq_getElem (h ▸ hi : i < r.length)]
  · simp [List.getElem?_eq_none (by omega : r.length ≤ i), hi]

theorem zipWith_map_range (f : ℝ → ℝ → ℝ) (a b : Nat → ℝ) (M : Nat) :
    List.zipWith f ((List.range M).map a) ((List.range M).map b) = (List.range M).map fun k => f (a k) (b k) := by
  rw [List.zipWith_map, List.zipWith_self]

/-- Cost of column `k` in the window of `N` rows that ends with row `i`. -/
def winCost (x : List (List ℝ)) (N i k : Nat) : ℝ := ∑ j ∈ Finset.Ioc (i - N) i, mval x j k

theorem selStep_spec (x : List (List ℝ)) (M N : Nat) (hM : ∀ r ∈ x, r.length = M) (i : Nat) (h1 : 1 ≤ i) (hi : i < x.length)
    (csum : List (List ℝ)) (idx : List Nat) (hcl : csum.length = x.length)
    (hc : ∀ r, r < i → csum[r]? = some ((List.range M).map fun k => ∑ j ∈ Finset.Ioc 0 r, mval x j k))
    (hil : idx.length = x.length)
    (hidx : ∀ t, t < x.length → idx[t]? = some (if N ≤ t + N / 2 ∧ 1 ≤ t + N / 2 ∧ t + N / 2 < i then
      scanBest ((List.range M).map (winCost x N (t + N / 2))) 0 0 1000 else 0)) :
    ∃ csum' idx', selStep x N (csum, idx) i = some (csum', idx') ∧ csum'.length = x.length ∧
      (∀ r, r < i + 1 → csum'[r]? = some ((List.range M).map fun k => ∑ j ∈ Finset.Ioc 0 r, mval x j k)) ∧
      idx'.length = x.length ∧
      (∀ t, t < x.length → idx'[t]? = some (if N ≤ t + N / 2 ∧ 1 ≤ t + N / 2 ∧ t + N / 2 < i + 1 then
        scanBest ((List.range M).map (winCost x N (t + N / 2))) 0 0 1000 else 0)) := by
  have hxi : x[i]? = some ((List.range M).map fun k => mval x i k) := by
    rw [List.getElem?_eq_getElem hi]
    congr 1
    have h := row_eq_map x[i] M (hM _ (List.getElem_mem hi))
    have h2 : x.getD i [] = x[i] := by simp [List.getD, List.getElem?_eq_getElem hi]
    unfold mval
    rw [h2]
    exact h
  have hrow : List.zipWith (· + ·) ((List.range M).map fun k => ∑ j ∈ Finset.Ioc 0 (i - 1), mval x j k)
      ((List.range M).map fun k => mval x i k) = (List.range M).map fun k => ∑ j ∈ Finset.Ioc 0 i, mval x j k := by
    rw [zipWith_map_range]
    refine List.map_congr_left fun k _ => ?_
    obtain ⟨m, rfl⟩ : ∃ m, i = m + 1 := ⟨i - 1, by omega⟩
    rw [Finset.sum_Ioc_succ_top (by omega)]
    simp
  have hset : ∀ r, r < i + 1 → (csum.set i ((List.range M).map fun k => ∑ j ∈ Finset.Ioc 0 i, mval x j k))[r]? =
      some ((List.range M).map fun k => ∑ j ∈ Finset.Ioc 0 r, mval x j k) := by
    intro r hr
    by_cases h : r = i
    · subst h
      rw [List.getElem?_set_self (by omega)]
    · rw [List.getElem?_set_ne (by omega), hc r (by omega)]
  unfold selStep
  simp only [hc (i - 1) (by omega), hxi, Option.bind_eq_bind, Option.bind_some, hrow]
  by_cases hN : i < N
  · rw [if_pos hN]
    refine ⟨_, _, rfl, by simpa using hcl, hset, hil, ?_⟩
    intro t ht
    rw [hidx t ht]
    congr 1
    by_cases h : t + N / 2 < i
    · have : ¬ N ≤ t + N / 2 := by omega
      simp [this]
    · have : ¬ (N ≤ t + N / 2 ∧ 1 ≤ t + N / 2 ∧ t + N / 2 < i + 1) := by omega
      have h2 : ¬ (N ≤ t + N / 2 ∧ 1 ≤ t + N / 2 ∧ t + N / 2 < i) := by omega
      rw [if_neg this, if_neg h2]
  · rw [if_neg hN]
    have hcur : idx[i - N / 2]? = some 0 := by
      rw [hidx _ (by omega), if_neg (by omega)]
    simp only [hset (i - N) (by omega), hcur, Option.bind_some]
    refine ⟨_, _, rfl, by simpa using hcl, hset, by simpa using hil, ?_⟩
    intro t ht
    have hw : List.zipWith (· - ·) ((List.range M).map fun k => ∑ j ∈ Finset.Ioc 0 i, mval x j k)
        ((List.range M).map fun k => ∑ j ∈ Finset.Ioc 0 (i - N), mval x j k) = (List.range M).map (winCost x N i) := by
      rw [zipWith_map_range]
      refine List.map_congr_left fun k _ => ?_
      unfold winCost
      rw [← Finset.sum_Ioc_consecutive (fun j => mval x j k) (Nat.zero_le (i - N)) (Nat.sub_le i N)]
      ring
    rw [hw]
    by_cases h : t = i - N / 2
    · subst h
      rw [List.getElem?_set_self (by omega), if_pos (by omega), show i - N / 2 + N / 2 = i by omega]
    · rw [List.getElem?_set_ne (by omega), hidx t ht]
      congr 1
      have : (N ≤ t + N / 2 ∧ 1 ≤ t + N / 2 ∧ t + N / 2 < i) ↔ (N ≤ t + N / 2 ∧ 1 ≤ t + N / 2 ∧ t + N / 2 < i + 1) := by omega
      simp only [this]

/-- The result of `select_angle_index` in closed form. -/
theorem selectAngleIndex_spec (x : List (List ℝ)) (M N : Nat) (hM : ∀ r ∈ x, r.length = M) :
    ∃ idx, selectAngleIndex x N = some idx ∧ idx.length = x.length ∧
      ∀ t, t < x.length → idx[t]? = some (if N ≤ t + N / 2 ∧ 1 ≤ t + N / 2 ∧ t + N / 2 < x.length then
        scanBest ((List.range M).map (winCost x N (t + N / 2))) 0 0 1000 else 0) := by
  have key : ∀ n, n ≤ x.length - 1 → ∃ csum idx, (List.range' 1 n).foldlM (selStep x N)
      (x.map fun r => r.map fun _ => (0 : ℝ), List.replicate x.length 0) = some (csum, idx) ∧ csum.length = x.length ∧
      (∀ r, r < n + 1 → r < x.length → csum[r]? = some ((List.range M).map fun k => ∑ j ∈ Finset.Ioc 0 r, mval x j k)) ∧
      idx.length = x.length ∧
      (∀ t, t < x.length → idx[t]? = some (if N ≤ t + N / 2 ∧ 1 ≤ t + N / 2 ∧ t + N / 2 < n + 1 then
        scanBest ((List.range M).map (winCost x N (t + N / 2))) 0 0 1000 else 0)) := by
    intro n
    induction n with
    | zero =>
      intro _
      refine ⟨_, _, rfl, by simp, ?_, by simp, ?_⟩
      · intro r hr hrx
        obtain rfl : r = 0 := by omega
        rw [List.getElem?_map, List.getElem?_eq_getElem hrx]
        simp only [Option.map_some, Option.some.injEq]
        rw [row_eq_map x[0] M (hM _ (List.getElem_mem hrx)), List.map_map]
        exact List.map_congr_left fun k _ => by simp
      · intro t ht
        have : ¬ (N ≤ t + N / 2 ∧ 1 ≤ t + N / 2 ∧ t + N / 2 < 0 + 1) := by omega
        rw [if_neg this]
        simp [ht]
    | succ n ih =>
      intro hn
      obtain ⟨csum, idx, h1, h2, h3, h4, h5⟩ := ih (by omega)
      obtain ⟨csum', idx', g1, g2, g3, g4, g5⟩ := selStep_spec x M N hM (n + 1) (by omega) (by omega) csum idx h2
        (fun r hr => h3 r hr (by omega)) h4 h5
      refine ⟨csum', idx', ?_, g2, fun r hr _ => g3 r hr, g4, g5⟩
      rw [List.range'_concat, List.foldlM_append, h1]
      simp only [Option.bind_eq_bind, Option.bind_some, List.foldlM_cons, List.foldlM_nil, one_mul]
      rw [show 1 + n = n + 1 by omega, g1]
      rfl
  obtain ⟨csum, idx, h1, h2, h3, h4, h5⟩ := key (x.length - 1) le_rfl
  refine ⟨idx, ?_, h4, ?_⟩
  · unfold selectAngleIndex
    rw [h1]
    rfl
  · intro t ht
    rw [h5 t ht]
    congr 1
    have : (N ≤ t + N / 2 ∧ 1 ≤ t + N / 2 ∧ t + N / 2 < x.length - 1 + 1) ↔
        (N ≤ t + N / 2 ∧ 1 ≤ t + N / 2 ∧ t + N / 2 < x.length) := by omega
    simp only [this]

theorem scanBest_eq_argminGo (l : List ℝ) (i j : Nat) (b : ℝ) : scanBest l i j b = Np.argminGo l i j b := by
  induction l generalizing i j b with
  | nil => rfl
  | cons a l ih => simp only [scanBest, Np.argminGo, ih]

theorem scanBest_eq_argmin (l : List ℝ) (B : ℝ) (k : Nat) (cur : Nat) (h : ∃ a ∈ l, a < B) :
    ∃ j, Np.argmin l = some j ∧ scanBest l k cur B = k + j := by
  have shift : ∀ (l : List ℝ) (i j d : Nat) (b : ℝ), Np.argminGo l (i + d) (j + d) b = Np.argminGo l i j b + d := by
    intro l
    induction l with
    | nil => intros; rfl
    | cons a l ih =>
      intro i j d b
      simp only [Np.argminGo]
      split_ifs
      · rw [show i + d + 1 = i + 1 + d by omega, ih]
      · rw [show i + d + 1 = i + 1 + d by omega, ih]
  -- entries not below `B` in front do not matter
  have go : ∀ (l : List ℝ) (k cur : Nat) (b : ℝ), B ≤ b → (∃ a ∈ l, a < B) → ∀ i j,
      ∃ m, Np.argminGo l i j b = i + m ∧ scanBest l k cur B = k + m := by
    intro l
    induction l with
    | nil => intro k cur b _ ⟨a, ha, _⟩; simp at ha
    | cons a l ih =>
      intro k cur b hb hex i j
      by_cases haB : a < B
      · have hab : a < b := lt_of_lt_of_le haB hb
        simp only [Np.argminGo, scanBest, if_pos haB, if_pos hab, scanBest_eq_argminGo]
        refine ⟨Np.argminGo l 1 0 a, ?_, ?_⟩
        · have := shift l 1 0 i a
          rw [show 1 + i = i + 1 by omega, show 0 + i = i by omega] at this
          omega
        · have := shift l 1 0 k a
          rw [show 1 + k = k + 1 by omega, show 0 + k = k by omega] at this
          omega
      · have hex' : ∃ a ∈ l, a < B := by
          obtain ⟨c, hc, hcB⟩ := hex
          rcases List.mem_cons.1 hc with rfl | hc
          · exact absurd hcB haB
          · exact ⟨c, hc, hcB⟩
        simp only [Np.argminGo, scanBest, if_neg haB]
        split_ifs with hab
        · obtain ⟨m, h1, h2⟩ := ih (k + 1) cur a (not_lt.1 haB) hex' (i + 1) i
          exact ⟨m + 1, by omega, by omega⟩
        · obtain ⟨m, h1, h2⟩ := ih (k + 1) cur b hb hex' (i + 1) j
          exact ⟨m + 1, by omega, by omega⟩
  cases l with
  | nil => obtain ⟨a, ha, _⟩ := h; simp at ha
  | cons a l =>
    by_cases haB : a < B
    · refine ⟨_, rfl, ?_⟩
      simp only [scanBest, if_pos haB, scanBest_eq_argminGo]
      have := shift l 1 0 k a
      rw [show 1 + k = k + 1 by omega, show 0 + k = k by omega] at this
      omega
    · have hex' : ∃ a ∈ l, a < B := by
        obtain ⟨c, hc, hcB⟩ := h
        rcases List.mem_cons.1 hc with rfl | hc
        · exact absurd hcB haB
        · exact ⟨c, hc, hcB⟩
      obtain ⟨m, h1, h2⟩ := go l (k + 1) cur a (not_lt.1 haB) hex' 1 0
      refine ⟨1 + m, ?_, ?_⟩
      · simp only [Np.argmin, h1]
      · simp only [scanBest, if_neg haB, h2]
        omega

/-- The chosen index is within the list (or the start value). -/
theorem scanBest_lt (l : List ℝ) (k cur : Nat) (B : ℝ) (h : cur < k + l.length) : scanBest l k cur B < k + l.length := by
  induction l generalizing k cur B with
  | nil => simpa [scanBest] using h
  | cons a l ih =>
    simp only [scanBest, List.length_cons] at h ⊢
    split_ifs
    · have := ih (k + 1) k a (by omega); omega
    · by_cases h2 : cur < k + 1 + l.length
      · have := ih (k + 1) cur B h2; omega
      · omega

theorem argmin_map_range (f : Nat → ℝ) (M j : Nat) :
    Np.argmin ((List.range M).map f) = some j ↔ j < M ∧ (∀ k, k < M → f j ≤ f k) ∧ ∀ k, k < j → f j < f k := by
  constructor
  · intro h
    have hl := Np.argmin_lt h
    simp only [List.length_map, List.length_range] at hl
    obtain ⟨m, h1, h2, h3⟩ := Np.argmin_spec h
    simp only [List.getElem?_map, List.getElem?_range hl, Option.map_some, Option.some.injEq] at h1
    subst h1
    refine ⟨hl, fun k hk => h2 _ (List.mem_map.2 ⟨k, List.mem_range.2 hk, rfl⟩), fun k hk => h3 k hk _ ?_⟩
    simp [List.getElem?_range (by omega : k < M)]
  · rintro ⟨hj, h1, h2⟩
    refine Np.argmin_eq_of (m := f j) (by simp [List.getElem?_range hj]) ?_ ?_
    · intro x hx
      obtain ⟨k, hk, rfl⟩ := List.mem_map.1 hx
      exact h1 k (List.mem_range.1 hk)
    · intro i hi x hx
      simp only [List.getElem?_map, List.getElem?_range (by omega : i < M), Option.map_some, Option.some.injEq] at hx
      exact hx ▸ h2 i hi

theorem mapM_range_some {β : Type _} (f : Nat → Option β) (g : Nat → β) (n : Nat) (h : ∀ i, i < n → f i = some (g i)) :
    (List.range n).mapM f = some ((List.range n).map g) := by
  rw [mapM_eq_some_iff, List.map_map]
  exact List.map_congr_left fun i hi => h i (List.mem_range.1 hi)

/-! ### Distances -/

theorem cabsq_eq (z : ℂ) : cabsq z = ‖z‖ ^ 2 := by
  rw [cabsq, ← Complex.normSq_eq_norm_sq, Complex.normSq_apply]
  ring

theorem detDist_go (X : ℂ) (symbs : List ℂ) (d : ℝ) :
    let r := symbs.foldl (fun d0 s => if cabsq (X - s) < d0 then cabsq (X - s) else d0) d
    r ≤ d ∧ (∀ s ∈ symbs, r ≤ ‖X - s‖ ^ 2) ∧ (r = d ∨ ∃ s ∈ symbs, r = ‖X - s‖ ^ 2) := by
  induction symbs generalizing d with
  | nil => simp
  | cons s l ih =>
    simp only [List.foldl_cons, cabsq_eq] at ih ⊢
    split_ifs with h
    · obtain ⟨h1, h2, h3⟩ := ih (‖X - s‖ ^ 2)
      refine ⟨by linarith, ?_, ?_⟩
      · intro c hc
        rcases List.mem_cons.1 hc with rfl | hc
        · exact h1
        · exact h2 c hc
      · rcases h3 with h3 | ⟨c, hc, h3⟩
        · exact Or.inr ⟨s, by simp, h3⟩
        · exact Or.inr ⟨c, by simp [hc], h3⟩
    · obtain ⟨h1, h2, h3⟩ := ih d
      refine ⟨h1, ?_, ?_⟩
      · intro c hc
        rcases List.mem_cons.1 hc with rfl | hc
        · linarith
        · exact h2 c hc
      · rcases h3 with h3 | ⟨c, hc, h3⟩
        · exact Or.inl h3
        · exact Or.inr ⟨c, by simp [hc], h3⟩

end Qampy
