import Verif.Model.Rounded
import Verif.Lemmas.Phase

/-!
C179: the running sums of the blind phase search with rounded arithmetic. C180: the moving average with rounded arithmetic.
-/

namespace Qampy

/-- The standard model of rounding: relative error at most `u`. -/
structure Rounds (fl : ℝ → ℝ) (u : ℝ) : Prop where
  nonneg : 0 ≤ u
  err : ∀ x, |fl x - x| ≤ u * |x|

theorem Rounds.zero {fl : ℝ → ℝ} {u : ℝ} (h : Rounds fl u) : fl 0 = 0 := by
  have := h.err 0
  simpa using this

theorem rounds_id : Rounds (fun x => x) 0 := ⟨le_rfl, fun x => by simp⟩

/-! ### Rounding to `p` bits -/

theorem rne_err (x : ℝ) : |(rne x : ℝ) - x| ≤ 1 / 2 := by
  have h1 := Int.floor_le x
  have h2 := Int.lt_floor_add_one x
  unfold rne
  rw [abs_le]
  split_ifs <;> push_cast <;> constructor <;> linarith

theorem rne_int (n : ℤ) : rne (n : ℝ) = n := by
  unfold rne
  rw [Int.floor_intCast, sub_self, if_pos (by norm_num)]

theorem flP_rounds (p : Nat) : Rounds (flP p) (2 ^ (-(p : ℤ))) := by
  refine ⟨by positivity, fun x => ?_⟩
  unfold flP
  by_cases hx : x = 0
  · simp [hx]
  · rw [if_neg hx]
    have hpos : (0 : ℝ) < 2 ^ lastBit p x := by positivity
    have e : (rne (x / 2 ^ lastBit p x) : ℝ) * 2 ^ lastBit p x - x = ((rne (x / 2 ^ lastBit p x) : ℝ) - x / 2 ^ lastBit p x) * 2 ^ lastBit p x := by
      field_simp
    rw [e, abs_mul, abs_of_pos hpos]
    have h1 := rne_err (x / 2 ^ lastBit p x)
    have h2 : ((2 : ℕ) : ℝ) ^ Int.log 2 |x| ≤ |x| := Int.zpow_log_le_self (by norm_num) (abs_pos.2 hx)
    have h3 : (2 : ℝ) ^ lastBit p x = 2 * (2 ^ (-(p : ℤ)) * 2 ^ Int.log 2 |x|) := by
      unfold lastBit
      rw [show Int.log 2 |x| + 1 - (p : ℤ) = 1 + (-(p : ℤ) + Int.log 2 |x|) by ring, zpow_add₀ (by norm_num), zpow_add₀ (by norm_num), zpow_one]
    have hp : (0 : ℝ) < 2 ^ (-(p : ℤ)) := by positivity
    calc |(rne (x / 2 ^ lastBit p x) : ℝ) - x / 2 ^ lastBit p x| * 2 ^ lastBit p x ≤ 1 / 2 * 2 ^ lastBit p x := mul_le_mul_of_nonneg_right h1 hpos.le
      _ = 2 ^ (-(p : ℤ)) * 2 ^ Int.log 2 |x| := by rw [h3]; ring
      _ ≤ 2 ^ (-(p : ℤ)) * |x| := mul_le_mul_of_nonneg_left (by exact_mod_cast h2) hp.le

/-- Numbers with at most `p` bits are not changed. -/
theorem flP_exact {p : Nat} (n : ℤ) (e : ℤ) (hn : |n| < 2 ^ p) : flP p ((n : ℝ) * 2 ^ e) = (n : ℝ) * 2 ^ e := by
  unfold flP
  by_cases hx : (n : ℝ) * 2 ^ e = 0
  · rw [if_pos hx, hx]
  · rw [if_neg hx]
    obtain ⟨x, hxx⟩ : ∃ x : ℝ, x = (n : ℝ) * 2 ^ e := ⟨_, rfl⟩
    rw [← hxx] at hx ⊢
    have hlt : |x| < ((2 : ℕ) : ℝ) ^ ((p : ℤ) + e) := by
      rw [hxx, abs_mul, abs_of_pos (by positivity : (0 : ℝ) < 2 ^ e)]
      push_cast
      rw [zpow_add₀ (by norm_num)]
      apply mul_lt_mul_of_pos_right _ (by positivity)
      rw [zpow_natCast]
      exact_mod_cast hn
    have hlog : Int.log 2 |x| < (p : ℤ) + e := (Int.lt_zpow_iff_log_lt (by norm_num) (abs_pos.2 hx)).1 hlt
    obtain ⟨b, hb⟩ : ∃ b, b = lastBit p x := ⟨_, rfl⟩
    obtain ⟨d, hd⟩ : ∃ d : Nat, e = b + d := ⟨(e - b).toNat, by rw [hb]; unfold lastBit; omega⟩
    rw [← hb]
    have hint : x / 2 ^ b = ((n * 2 ^ d : ℤ) : ℝ) := by
      rw [div_eq_iff (by positivity), hxx, hd, zpow_add₀ (by norm_num), zpow_natCast]
      push_cast
      ring
    rw [hint, rne_int, ← hint]
    field_simp

theorem flP_nat {p : Nat} (n : Nat) (hn : n ≤ 2 ^ p) (hp : 1 ≤ p) : flP p (n : ℝ) = n := by
  rcases Nat.lt_or_ge n (2 ^ p) with h | h
  · have := flP_exact (p := p) (n : ℤ) 0 (by rw [abs_of_nonneg (by omega)]; exact_mod_cast h)
    simpa using this
  · obtain rfl : n = 2 ^ p := le_antisymm hn h
    have h1 : (1 : ℤ) < 2 ^ p := one_lt_pow₀ (by norm_num) (by omega)
    have := flP_exact (p := p) 1 (p : ℤ) (by simpa using h1)
    simpa using this

/-- The first integer that needs one bit more is rounded down: adding one changes nothing. -/
theorem flP_stuck {p : Nat} (hp : 2 ≤ p) : flP p ((2 : ℝ) ^ p + 1) = 2 ^ p := by
  have h2 : (2 : ℝ) ≤ 2 ^ p := by
    calc (2 : ℝ) = 2 ^ 1 := by norm_num
      _ ≤ 2 ^ p := pow_le_pow_right₀ (by norm_num) (by omega)
  have hx : (2 : ℝ) ^ p + 1 ≠ 0 := by positivity
  have hlog : Int.log 2 |(2 : ℝ) ^ p + 1| = p := by
    rw [abs_of_pos (by positivity)]
    apply le_antisymm
    · have : Int.log 2 ((2 : ℝ) ^ p + 1) < (p : ℤ) + 1 := by
        rw [← Int.lt_zpow_iff_log_lt (by norm_num) (by positivity)]
        push_cast
        rw [zpow_add₀ (by norm_num), zpow_natCast, zpow_one]
        linarith
      omega
    · rw [← Int.zpow_le_iff_le_log (by norm_num) (by positivity)]
      push_cast
      rw [zpow_natCast]
      linarith
  have hb : lastBit p ((2 : ℝ) ^ p + 1) = 1 := by
    unfold lastBit
    rw [hlog]
    ring
  obtain ⟨q, rfl⟩ : ∃ q, p = q + 2 := ⟨p - 2, by omega⟩
  have hdiv : ((2 : ℝ) ^ (q + 2) + 1) / 2 = ((2 ^ (q + 1) : ℤ) : ℝ) + 1 / 2 := by
    push_cast
    rw [show q + 2 = (q + 1) + 1 by omega, pow_succ]
    ring
  have hfl : ⌊((2 ^ (q + 1) : ℤ) : ℝ) + 1 / 2⌋ = 2 ^ (q + 1) := by
    rw [Int.floor_intCast_add, show ⌊(1 / 2 : ℝ)⌋ = 0 by rw [Int.floor_eq_zero_iff]; constructor <;> norm_num]
    ring
  have hr : rne (((2 : ℝ) ^ (q + 2) + 1) / 2) = 2 ^ (q + 1) := by
    unfold rne
    rw [hdiv, hfl, add_sub_cancel_left, if_neg (lt_irrefl _), if_neg (lt_irrefl _), if_pos]
    rw [pow_succ]
    simp
  unfold flP
  rw [if_neg hx, hb, zpow_one, hr]
  push_cast
  rw [show q + 2 = (q + 1) + 1 by omega, pow_succ (2 : ℝ) (q + 1)]

/-! ### Running sums -/

/-- Running sum of `f 1, f 2, ...` with rounded additions. -/
noncomputable def runSum (fl : ℝ → ℝ) (f : Nat → ℝ) : Nat → ℝ
  | 0 => 0
  | n + 1 => fl (runSum fl f n + f (n + 1))

theorem runSum_err {fl : ℝ → ℝ} {u : ℝ} (h : Rounds fl u) (f : Nat → ℝ) (n : Nat) :
    |runSum fl f n - ∑ j ∈ Finset.Ioc 0 n, f j| ≤ ((1 + u) ^ n - 1) * ∑ j ∈ Finset.Ioc 0 n, |f j| := by
  have hu := h.nonneg
  induction n with
  | zero => simp [runSum]
  | succ n ih =>
    rw [Finset.sum_Ioc_succ_top (by omega), Finset.sum_Ioc_succ_top (by omega)]
    have hle : |∑ j ∈ Finset.Ioc 0 n, f j| ≤ ∑ j ∈ Finset.Ioc 0 n, |f j| := Finset.abs_sum_le_sum_abs _ _
    have hA : 0 ≤ ∑ j ∈ Finset.Ioc 0 n, |f j| := Finset.sum_nonneg fun _ _ => abs_nonneg _
    generalize ∑ j ∈ Finset.Ioc 0 n, f j = c at *
    generalize ∑ j ∈ Finset.Ioc 0 n, |f j| = A at *
    show |fl (runSum fl f n + f (n + 1)) - (c + f (n + 1))| ≤ _
    generalize runSum fl f n = s at *
    generalize f (n + 1) = x at *
    have h1 := h.err (s + x)
    have h2 : |s + x| ≤ |s - c| + (A + |x|) := by
      calc |s + x| = |(s - c) + (c + x)| := by ring_nf
        _ ≤ |s - c| + |c + x| := abs_add_le _ _
        _ ≤ |s - c| + (|c| + |x|) := by linarith [abs_add_le c x]
        _ ≤ _ := by linarith
    have h3 : |fl (s + x) - (c + x)| ≤ |fl (s + x) - (s + x)| + |s - c| := by
      calc |fl (s + x) - (c + x)| = |(fl (s + x) - (s + x)) + (s - c)| := by ring_nf
        _ ≤ _ := abs_add_le _ _
    have hx := abs_nonneg x
    have hpow : 1 ≤ (1 + u) ^ n := one_le_pow₀ (by linarith)
    have h4 : u * |s + x| ≤ u * (|s - c| + (A + |x|)) := mul_le_mul_of_nonneg_left h2 hu
    have h5 : (1 + u) * |s - c| ≤ (1 + u) * (((1 + u) ^ n - 1) * A) := mul_le_mul_of_nonneg_left ih (by linarith)
    have h6 : 0 ≤ ((1 + u) ^ n - 1) * (1 + u) * |x| := by
      apply mul_nonneg (mul_nonneg _ _) hx <;> linarith
    rw [pow_succ]
    nlinarith

/-- A difference of two running sums, rounded once more. -/
theorem window_err {fl : ℝ → ℝ} {u : ℝ} (h : Rounds fl u) (f : Nat → ℝ) {m n : Nat} (hmn : m ≤ n) :
    |fl (runSum fl f n - runSum fl f m) - ∑ j ∈ Finset.Ioc m n, f j| ≤ 2 * ((1 + u) ^ (n + 1) - 1) * ∑ j ∈ Finset.Ioc 0 n, |f j| := by
  have hu := h.nonneg
  have e1 := runSum_err h f n
  have e2 := runSum_err h f m
  have hsplit := Finset.sum_Ioc_consecutive f (Nat.zero_le m) hmn
  have hAm : ∑ j ∈ Finset.Ioc 0 m, |f j| ≤ ∑ j ∈ Finset.Ioc 0 n, |f j| :=
    Finset.sum_le_sum_of_subset_of_nonneg (Finset.Ioc_subset_Ioc_right hmn) fun _ _ _ => abs_nonneg _
  have hw : |∑ j ∈ Finset.Ioc m n, f j| ≤ ∑ j ∈ Finset.Ioc 0 n, |f j| :=
    (Finset.abs_sum_le_sum_abs _ _).trans (Finset.sum_le_sum_of_subset_of_nonneg (Finset.Ioc_subset_Ioc_left (Nat.zero_le _)) fun _ _ _ => abs_nonneg _)
  have hA0 : 0 ≤ ∑ j ∈ Finset.Ioc 0 m, |f j| := Finset.sum_nonneg fun _ _ => abs_nonneg _
  generalize ∑ j ∈ Finset.Ioc m n, f j = w at *
  generalize ∑ j ∈ Finset.Ioc 0 n, f j = cn at *
  generalize ∑ j ∈ Finset.Ioc 0 m, f j = cm at *
  generalize ∑ j ∈ Finset.Ioc 0 n, |f j| = A at *
  generalize ∑ j ∈ Finset.Ioc 0 m, |f j| = B at *
  generalize runSum fl f n = s at *
  generalize runSum fl f m = t at *
  have hpm : 1 ≤ (1 + u) ^ m := one_le_pow₀ (by linarith)
  have hpn : (1 + u) ^ m ≤ (1 + u) ^ n := pow_le_pow_right₀ (by linarith) hmn
  have e3 : |t - cm| ≤ ((1 + u) ^ n - 1) * A := e2.trans (by nlinarith)
  have e4 : |(s - t) - w| ≤ 2 * (((1 + u) ^ n - 1) * A) := by
    calc |(s - t) - w| = |(s - cn) - (t - cm)| := by congr 1; rw [← hsplit]; ring
      _ ≤ |s - cn| + |t - cm| := abs_sub _ _
      _ ≤ _ := by linarith
  have e5 := h.err (s - t)
  have e6 : |s - t| ≤ 2 * (((1 + u) ^ n - 1) * A) + A := by
    calc |s - t| = |((s - t) - w) + w| := by ring_nf
      _ ≤ |(s - t) - w| + |w| := abs_add_le _ _
      _ ≤ _ := by linarith
  have e7 : |fl (s - t) - w| ≤ |fl (s - t) - (s - t)| + |(s - t) - w| := by
    calc |fl (s - t) - w| = |(fl (s - t) - (s - t)) + ((s - t) - w)| := by ring_nf
      _ ≤ _ := abs_add_le _ _
  have e8 : u * |s - t| ≤ u * (2 * (((1 + u) ^ n - 1) * A) + A) := mul_le_mul_of_nonneg_left e6 hu
  have e9 : 0 ≤ u * A := mul_nonneg hu (by linarith)
  rw [pow_succ]
  nlinarith

/-- Computed cost of column `k` in the window of `N` rows that ends with row `i`. -/
noncomputable def winCostFl (fl : ℝ → ℝ) (x : List (List ℝ)) (N i k : Nat) : ℝ := fl (runSum fl (fun j => mval x j k) i - runSum fl (fun j => mval x j k) (i - N))

theorem selStepFl_spec (fl : ℝ → ℝ) (x : List (List ℝ)) (M N : Nat) (hM : ∀ r ∈ x, r.length = M) (i : Nat) (h1 : 1 ≤ i) (hi : i < x.length)
    (csum : List (List ℝ)) (idx : List Nat) (hcl : csum.length = x.length)
    (hc : ∀ r, r < i → csum[r]? = some ((List.range M).map fun k => runSum fl (fun j => mval x j k) r))
    (hil : idx.length = x.length)
    (hidx : ∀ t, t < x.length → idx[t]? = some (if N ≤ t + N / 2 ∧ 1 ≤ t + N / 2 ∧ t + N / 2 < i then
      scanBest ((List.range M).map (winCostFl fl x N (t + N / 2))) 0 0 1000 else 0)) :
    ∃ csum' idx', selStepFl fl x N (csum, idx) i = some (csum', idx') ∧ csum'.length = x.length ∧
      (∀ r, r < i + 1 → csum'[r]? = some ((List.range M).map fun k => runSum fl (fun j => mval x j k) r)) ∧
      idx'.length = x.length ∧
      (∀ t, t < x.length → idx'[t]? = some (if N ≤ t + N / 2 ∧ 1 ≤ t + N / 2 ∧ t + N / 2 < i + 1 then
        scanBest ((List.range M).map (winCostFl fl x N (t + N / 2))) 0 0 1000 else 0)) := by
  have hxi : x[i]? = some ((List.range M).map fun k => mval x i k) := by
    rw [List.getElem?_eq_getElem hi]
    congr 1
    have h := row_eq_map x[i] M (hM _ (List.getElem_mem hi))
    have h2 : x.getD i [] = x[i] := by simp [List.getD, List.getElem?_eq_getElem hi]
    unfold mval
    rw [h2]
    exact h
  have hrow : List.zipWith (fun a b => fl (a + b)) ((List.range M).map fun k => runSum fl (fun j => mval x j k) (i - 1))
      ((List.range M).map fun k => mval x i k) = (List.range M).map fun k => runSum fl (fun j => mval x j k) i := by
    rw [zipWith_map_range]
    refine List.map_congr_left fun k _ => ?_
    obtain ⟨m, rfl⟩ : ∃ m, i = m + 1 := ⟨i - 1, by omega⟩
    rfl
  have hset : ∀ r, r < i + 1 → (csum.set i ((List.range M).map fun k => runSum fl (fun j => mval x j k) i))[r]? =
      some ((List.range M).map fun k => runSum fl (fun j => mval x j k) r) := by
    intro r hr
    by_cases h : r = i
    · subst h
      rw [List.getElem?_set_self (by omega)]
    · rw [List.getElem?_set_ne (by omega), hc r (by omega)]
  unfold selStepFl
  simp only [hc (i - 1) (by omega), hxi, Option.bind_eq_bind, Option.bind_some, hrow]
  by_cases hN : i < N
  · rw [if_pos hN]
    refine ⟨_, _, rfl, by simpa using hcl, hset, hil, ?_⟩
    intro t ht
    rw [hidx t ht]
    congr 1
    by_cases h : t + N / 2 < i
    · have : ¬ N ≤ t + N / 2 := by omega
      simp [this]
    · have : ¬ (N ≤ t + N / 2 ∧ 1 ≤ t + N / 2 ∧ t + N / 2 < i + 1) := by omega
      have h2 : ¬ (N ≤ t + N / 2 ∧ 1 ≤ t + N / 2 ∧ t + N / 2 < i) := by omega
      rw [if_neg this, if_neg h2]
  · rw [if_neg hN]
    have hcur : idx[i - N / 2]? = some 0 := by
      rw [hidx _ (by omega), if_neg (by omega)]
    simp only [hset (i - N) (by omega), hcur, Option.bind_some]
    refine ⟨_, _, rfl, by simpa using hcl, hset, by simpa using hil, ?_⟩
    intro t ht
    have hw : List.zipWith (fun a b => fl (a - b)) ((List.range M).map fun k => runSum fl (fun j => mval x j k) i)
        ((List.range M).map fun k => runSum fl (fun j => mval x j k) (i - N)) = (List.range M).map (winCostFl fl x N i) := by
      rw [zipWith_map_range]
      rfl
    rw [hw]
    by_cases h : t = i - N / 2
    · subst h
      rw [List.getElem?_set_self (by omega), if_pos (by omega), show i - N / 2 + N / 2 = i by omega]
    · rw [List.getElem?_set_ne (by omega), hidx t ht]
      congr 1
      have : (N ≤ t + N / 2 ∧ 1 ≤ t + N / 2 ∧ t + N / 2 < i) ↔ (N ≤ t + N / 2 ∧ 1 ≤ t + N / 2 ∧ t + N / 2 < i + 1) := by omega
      simp only [this]

/-- The result of the rounded `select_angle_index` in closed form. -/
theorem selectAngleIndexFl_spec (fl : ℝ → ℝ) (x : List (List ℝ)) (M N : Nat) (hM : ∀ r ∈ x, r.length = M) :
    ∃ idx, selectAngleIndexFl fl x N = some idx ∧ idx.length = x.length ∧
      ∀ t, t < x.length → idx[t]? = some (if N ≤ t + N / 2 ∧ 1 ≤ t + N / 2 ∧ t + N / 2 < x.length then
        scanBest ((List.range M).map (winCostFl fl x N (t + N / 2))) 0 0 1000 else 0) := by
  have key : ∀ n, n ≤ x.length - 1 → ∃ csum idx, (List.range' 1 n).foldlM (selStepFl fl x N)
      (x.map fun r => r.map fun _ => (0 : ℝ), List.replicate x.length 0) = some (csum, idx) ∧ csum.length = x.length ∧
      (∀ r, r < n + 1 → r < x.length → csum[r]? = some ((List.range M).map fun k => runSum fl (fun j => mval x j k) r)) ∧
      idx.length = x.length ∧
      (∀ t, t < x.length → idx[t]? = some (if N ≤ t + N / 2 ∧ 1 ≤ t + N / 2 ∧ t + N / 2 < n + 1 then
        scanBest ((List.range M).map (winCostFl fl x N (t + N / 2))) 0 0 1000 else 0)) := by
    intro n
    induction n with
    | zero =>
      intro _
      refine ⟨_, _, rfl, by simp, ?_, by simp, ?_⟩
      · intro r hr hrx
        obtain rfl : r = 0 := by omega
        rw [List.getElem?_map, List.getElem?_eq_getElem hrx]
        simp only [Option.map_some, Option.some.injEq]
        rw [row_eq_map x[0] M (hM _ (List.getElem_mem hrx)), List.map_map]
        exact List.map_congr_left fun k _ => by simp [runSum]
      · intro t ht
        have : ¬ (N ≤ t + N / 2 ∧ 1 ≤ t + N / 2 ∧ t + N / 2 < 0 + 1) := by omega
        rw [if_neg this]
        simp [ht]
    | succ n ih =>
      intro hn
      obtain ⟨csum, idx, h1, h2, h3, h4, h5⟩ := ih (by omega)
      obtain ⟨csum', idx', g1, g2, g3, g4, g5⟩ := selStepFl_spec fl x M N hM (n + 1) (by omega) (by omega) csum idx h2
        (fun r hr => h3 r hr (by omega)) h4 h5
      refine ⟨csum', idx', ?_, g2, fun r hr _ => g3 r hr, g4, g5⟩
      rw [List.range'_concat, List.foldlM_append, h1]
      simp only [Option.bind_eq_bind, Option.bind_some, List.foldlM_cons, List.foldlM_nil, one_mul]
      rw [show 1 + n = n + 1 by omega, g1]
      rfl
  obtain ⟨csum, idx, h1, h2, h3, h4, h5⟩ := key (x.length - 1) le_rfl
  refine ⟨idx, ?_, h4, ?_⟩
  · unfold selectAngleIndexFl
    rw [h1]
    rfl
  · intro t ht
    rw [h5 t ht]
    congr 1
    have : (N ≤ t + N / 2 ∧ 1 ≤ t + N / 2 ∧ t + N / 2 < x.length - 1 + 1) ↔
        (N ≤ t + N / 2 ∧ 1 ≤ t + N / 2 ∧ t + N / 2 < x.length) := by omega
    simp only [this]


/-- C179: without rounding this is the search of C12. -/
theorem C179_exact : selectAngleIndexFl (fun x => x) = selectAngleIndex := rfl

theorem scanBest_min (M : Nat) (c : Nat → ℝ) {k0 : Nat} (hk : k0 < M) (h1 : c k0 < 1000) (h2 : ∀ k < M, k ≠ k0 → c k0 < c k) : scanBest ((List.range M).map c) 0 0 1000 = k0 := by
  obtain ⟨j, hj, hs⟩ := scanBest_eq_argmin ((List.range M).map c) 1000 0 0 ⟨_, List.mem_map.2 ⟨k0, List.mem_range.2 hk, rfl⟩, h1⟩
  rw [hs, zero_add]
  obtain ⟨hjl, p1, -⟩ := (argmin_map_range _ _ _).1 hj
  by_contra hne
  have := h2 j hjl hne
  have := p1 k0 hk
  linarith

/-- C179: with rounded arithmetic the search finds the angle with the smallest cost in the window if all other costs are larger by more than the rounding errors: `2((1+u)^(i+1) - 1)` times the sum of all
distances from the start of the signal, for both angles. The error grows with the position `i` in the signal. -/
theorem C179_gap {fl : ℝ → ℝ} {u : ℝ} (h : Rounds fl u) (x : List (List ℝ)) (M N : Nat) (hM : ∀ r ∈ x, r.length = M) (hN : 1 ≤ N) {i k0 : Nat} (hi : N ≤ i) (hix : i < x.length) (hk0 : k0 < M)
    (hcost : (∑ j ∈ Finset.Ioc (i - N) i, mval x j k0) + 2 * ((1 + u) ^ (i + 1) - 1) * (∑ j ∈ Finset.Ioc 0 i, |mval x j k0|) < 1000)
    (hgap : ∀ k < M, k ≠ k0 → (∑ j ∈ Finset.Ioc (i - N) i, mval x j k0) + 2 * ((1 + u) ^ (i + 1) - 1) * ((∑ j ∈ Finset.Ioc 0 i, |mval x j k0|) + ∑ j ∈ Finset.Ioc 0 i, |mval x j k|) <
      ∑ j ∈ Finset.Ioc (i - N) i, mval x j k) :
    ∃ idx, selectAngleIndexFl fl x N = some idx ∧ idx.length = x.length ∧ idx[i - N / 2]? = some k0 := by
  obtain ⟨idx, h1, h2, h3⟩ := selectAngleIndexFl_spec fl x M N hM
  refine ⟨idx, h1, h2, ?_⟩
  rw [h3 _ (by omega), show i - N / 2 + N / 2 = i by omega, if_pos (by omega)]
  congr 1
  have herr : ∀ k, |winCostFl fl x N i k - ∑ j ∈ Finset.Ioc (i - N) i, mval x j k| ≤ 2 * ((1 + u) ^ (i + 1) - 1) * ∑ j ∈ Finset.Ioc 0 i, |mval x j k| := fun k =>
    window_err h (fun j => mval x j k) (Nat.sub_le i N)
  have e0 := (abs_le.1 (herr k0)).2
  apply scanBest_min _ _ hk0
  · linarith
  · intro k hk hne
    have e1 := (abs_le.1 (herr k)).1
    have e2 := hgap k hk hne
    linarith

example : ∃ idx, selectAngleIndexFl (flP 24) [[5, 5], [3, 1], [3, 1], [3, 1]] 2 = some idx ∧ idx.length = 4 ∧ idx[3 - 2 / 2]? = some 1 := by
  have hI : Finset.Ioc (3 - 2) 3 = {2, 3} := by decide
  have hJ : Finset.Ioc 0 3 = {1, 2, 3} := by decide
  refine C179_gap (flP_rounds 24) [[5, 5], [3, 1], [3, 1], [3, 1]] 2 2 (by simp) (by norm_num) (i := 3) (k0 := 1) (by norm_num) (by simp) (by norm_num) ?_ ?_
  · rw [hI, hJ]
    simp [mval]
    norm_num
  · intro k hk hne
    obtain rfl : k = 0 := by omega
    rw [hI, hJ]
    simp [mval]
    norm_num

/-- The full claim: in single precision the search finds an angle whose cost is at most half of the cost of any other angle. -/
def C179_statement : Prop :=
  ∀ (x : List (List ℝ)) (M N i k0 : Nat), (∀ r ∈ x, r.length = M) → (∀ r ∈ x, ∀ d ∈ r, 0 ≤ d ∧ d ≤ 1) → 1 ≤ N → N ≤ i → i < x.length → k0 < M →
    0 < ∑ j ∈ Finset.Ioc (i - N) i, mval x j k0 → (∑ j ∈ Finset.Ioc (i - N) i, mval x j k0 < 1000) →
    (∀ k < M, k ≠ k0 → 2 * ∑ j ∈ Finset.Ioc (i - N) i, mval x j k0 ≤ ∑ j ∈ Finset.Ioc (i - N) i, mval x j k) →
    ∃ idx, selectAngleIndexFl (flP 24) x N = some idx ∧ idx[i - N / 2]? = some k0

/-- Adding ones gets stuck when the sum needs more than `p` bits. -/
theorem runSum_stuck {p : Nat} (hp : 2 ≤ p) (f : Nat → ℝ) (n : Nat) (hf : ∀ j, 1 ≤ j → j ≤ n → f j = 1) : runSum (flP p) f n = ((min n (2 ^ p) : Nat) : ℝ) := by
  induction n with
  | zero => simp [runSum]
  | succ n ih =>
    show flP p (runSum (flP p) f n + f (n + 1)) = _
    rw [ih fun j h1 h2 => hf j h1 (by omega), hf (n + 1) (by omega) le_rfl]
    rcases Nat.lt_or_ge n (2 ^ p) with h | h
    · rw [Nat.min_eq_left h.le, Nat.min_eq_left h]
      have := flP_nat (p := p) (n + 1) h (by omega)
      push_cast at this ⊢
      exact this
    · rw [Nat.min_eq_right h, Nat.min_eq_right (by omega)]
      push_cast
      exact flP_stuck hp

/-- Distances of two test angles: one for the first, and for the second zero in a first part of the signal and one half after it. -/
noncomputable def longDists (L A : Nat) : List (List ℝ) := (List.range L).map fun j => [1, if j ≤ A then 0 else 1 / 2]

theorem mval_longDists {L A j : Nat} (hj : j < L) : mval (longDists L A) j 0 = 1 ∧ mval (longDists L A) j 1 = if j ≤ A then 0 else 1 / 2 := by
  have : (longDists L A).getD j [] = [1, if j ≤ A then 0 else 1 / 2] := by
    unfold longDists
    rw [List.getD_eq_getElem?_getD, List.getElem?_map, List.getElem?_range hj]
    rfl
  unfold mval
  rw [this]
  exact ⟨rfl, rfl⟩

theorem runSum_zero {fl : ℝ → ℝ} (h0 : fl 0 = 0) (f : Nat → ℝ) (n : Nat) (hf : ∀ j, 1 ≤ j → j ≤ n → f j = 0) : runSum fl f n = 0 := by
  induction n with
  | zero => rfl
  | succ n ih =>
    show fl (runSum fl f n + f (n + 1)) = 0
    rw [ih fun j h1 h2 => hf j h1 (by omega), hf (n + 1) (by omega) le_rfl, add_zero, h0]

/-- C179: with `p` bits the angle of half the cost is not found from position `2^p + 2` on: the running sum of the other angle does not grow any more, its computed cost is zero. -/
theorem C179_stuck {p : Nat} (hp : 3 ≤ p) :
    (∑ j ∈ Finset.Ioc (2 ^ p + 3 - 2) (2 ^ p + 3), mval (longDists (2 ^ p + 4) (2 ^ p)) j 0 = 2) ∧ (∑ j ∈ Finset.Ioc (2 ^ p + 3 - 2) (2 ^ p + 3), mval (longDists (2 ^ p + 4) (2 ^ p)) j 1 = 1) ∧
      ∃ idx, selectAngleIndexFl (flP p) (longDists (2 ^ p + 4) (2 ^ p)) 2 = some idx ∧ idx[2 ^ p + 3 - 2 / 2]? = some 0 := by
  obtain ⟨P, hP⟩ : ∃ P, P = 2 ^ p := ⟨_, rfl⟩
  have hP8 : 8 ≤ P := by rw [hP]; calc 8 = 2 ^ 3 := by norm_num
                                _ ≤ 2 ^ p := Nat.pow_le_pow_right (by norm_num) hp
  rw [← hP]
  have hI : Finset.Ioc (P + 3 - 2) (P + 3) = {P + 2, P + 3} := by
    ext j
    simp only [Finset.mem_Ioc, Finset.mem_insert, Finset.mem_singleton]
    omega
  have hne : P + 2 ≠ P + 3 := by omega
  obtain ⟨a2, b2⟩ := mval_longDists (L := P + 4) (A := P) (j := P + 2) (by omega)
  obtain ⟨a3, b3⟩ := mval_longDists (L := P + 4) (A := P) (j := P + 3) (by omega)
  rw [if_neg (by omega)] at b2 b3
  refine ⟨?_, ?_, ?_⟩
  · rw [hI, Finset.sum_pair hne, a2, a3]; norm_num
  · rw [hI, Finset.sum_pair hne, b2, b3]; norm_num
  · have hM : ∀ r ∈ longDists (P + 4) P, r.length = 2 := by
      intro r hr
      unfold longDists at hr
      obtain ⟨j, -, rfl⟩ := List.mem_map.1 hr
      rfl
    have hlen : (longDists (P + 4) P).length = P + 4 := by unfold longDists; simp
    obtain ⟨idx, h1, -, h3⟩ := selectAngleIndexFl_spec (flP p) (longDists (P + 4) P) 2 2 hM
    refine ⟨idx, h1, ?_⟩
    rw [h3 _ (by rw [hlen]; omega), if_pos (by rw [hlen]; omega)]
    congr 1
    rw [show P + 3 - 2 / 2 + 2 / 2 = P + 3 by omega]
    have hz : flP p 0 = 0 := (flP_rounds p).zero
    have c0 : winCostFl (flP p) (longDists (P + 4) P) 2 (P + 3) 0 = 0 := by
      unfold winCostFl
      rw [runSum_stuck (by omega) _ (P + 3) fun j h1 h2 => (mval_longDists (by omega)).1, runSum_stuck (by omega) _ (P + 3 - 2) fun j h1 h2 => (mval_longDists (by omega)).1, ← hP,
        Nat.min_eq_right (by omega), Nat.min_eq_right (by omega), sub_self, hz]
    have s0 : runSum (flP p) (fun j => mval (longDists (P + 4) P) j 1) P = 0 :=
      runSum_zero hz _ _ fun j h1 h2 => by rw [(mval_longDists (by omega)).2, if_pos h2]
    have hhalf : ∀ n : Nat, n < 8 → flP p ((n : ℝ) / 2) = (n : ℝ) / 2 := by
      intro n hn
      have := flP_exact (p := p) (n : ℤ) (-1) (by rw [abs_of_nonneg (by omega)]; have : (8 : ℤ) ≤ 2 ^ p := by exact_mod_cast hP ▸ hP8
                                                  omega)
      rw [zpow_neg_one, Int.cast_natCast] at this
      rwa [div_eq_mul_inv]
    have step : ∀ n, P ≤ n → n < P + 3 → ∀ m : Nat, m < 7 → runSum (flP p) (fun j => mval (longDists (P + 4) P) j 1) n = (m : ℝ) / 2 →
        runSum (flP p) (fun j => mval (longDists (P + 4) P) j 1) (n + 1) = ((m + 1 : Nat) : ℝ) / 2 := by
      intro n hn1 hn2 m hm h
      show flP p (runSum (flP p) (fun j => mval (longDists (P + 4) P) j 1) n + mval (longDists (P + 4) P) (n + 1) 1) = _
      rw [h, (mval_longDists (by omega)).2, if_neg (by omega), ← hhalf (m + 1) (by omega)]
      congr 1
      push_cast
      ring
    have s1 := step P le_rfl (by omega) 0 (by omega) (by rw [s0]; norm_num)
    have s2 := step (P + 1) (by omega) (by omega) 1 (by omega) s1
    have s3 := step (P + 2) (by omega) (by omega) 2 (by omega) s2
    have c1 : winCostFl (flP p) (longDists (P + 4) P) 2 (P + 3) 1 = 1 := by
      unfold winCostFl
      rw [show P + 3 - 2 = P + 1 by omega, s1, s3]
      have := hhalf 2 (by omega)
      norm_num at this ⊢
      exact this
    rw [show List.range 2 = [0, 1] from rfl, List.map_cons, List.map_cons, List.map_nil, c0, c1]
    norm_num [scanBest]

/-- C179 fails for long signals. -/
theorem C179_false : ¬ C179_statement := by
  intro hc
  obtain ⟨h0, h1, idx, h2, h3⟩ := C179_stuck (p := 24) (by norm_num)
  obtain ⟨P, hP⟩ : ∃ P : Nat, P = 2 ^ 24 := ⟨_, rfl⟩
  rw [← hP] at h0 h1 h2 h3
  obtain ⟨idx', h4, h5⟩ := hc (longDists (P + 4) P) 2 2 (P + 3) 1 (by
      intro r hr
      unfold longDists at hr
      obtain ⟨j, -, rfl⟩ := List.mem_map.1 hr
      rfl) (by
      intro r hr d hd
      unfold longDists at hr
      obtain ⟨j, -, rfl⟩ := List.mem_map.1 hr
      simp only [List.mem_cons, List.not_mem_nil, or_false] at hd
      rcases hd with rfl | rfl
      · norm_num
      · split_ifs <;> norm_num) (by norm_num) (by omega) (by unfold longDists; simp) (by norm_num) (by rw [h1]; norm_num) (by rw [h1]; norm_num) (by
      intro k hk hne
      obtain rfl : k = 0 := by omega
      rw [h0, h1]
      norm_num)
  rw [h2] at h4
  injection h4 with h4
  rw [← h4, h3] at h5
  simp at h5

/-! ### Moving average -/

theorem getElem?_cumsumFl (fl : ℝ → ℝ) (l : List ℝ) : ∀ (f : Nat → ℝ) (m i : Nat), (∀ j < l.length, f (m + 1 + j) = l.getD j 0) → i < l.length →
    (cumsumFl fl (runSum fl f m) l)[i]? = some (runSum fl f (m + 1 + i)) := by
  induction l with
  | nil => intro f m i _ h; simp at h
  | cons a l ih =>
    intro f m i hf hi
    have h0 : fl (runSum fl f m + a) = runSum fl f (m + 1) := by
      show _ = fl (runSum fl f m + f (m + 1))
      have := hf 0 (by simp)
      rw [Nat.add_zero] at this
      rw [this]
      rfl
    unfold cumsumFl
    rw [h0]
    rcases i with _ | i
    · rfl
    · rw [List.getElem?_cons_succ, ih f (m + 1) i (fun j hj => by
        have := hf (j + 1) (by simpa using hj)
        rw [List.getD_cons_succ] at this
        rw [← this]
        congr 1
        omega) (by simpa using hi)]
      congr 2
      omega

theorem length_cumsumFl (fl : ℝ → ℝ) (l : List ℝ) : ∀ c, (cumsumFl fl c l).length = l.length := by
  induction l with
  | nil => intro c; rfl
  | cons a l ih => intro c; unfold cumsumFl; simp [ih]

/-- The computed moving average in closed form. -/
theorem movingAverageFl_spec (fl : ℝ → ℝ) (sig : List ℝ) (N : Nat) (hN : 1 ≤ N) :
    ∃ out, movingAverageFl fl sig N = some out ∧ out.length = sig.length + 1 - N ∧
      ∀ i, i + N ≤ sig.length → out[i]? = some (fl (fl (runSum fl (fun j => sig.getD (j - 1) 0) (i + N) - runSum fl (fun j => sig.getD (j - 1) 0) i) / N)) := by
  unfold movingAverageFl
  rw [if_neg (by omega)]
  refine ⟨_, rfl, ?_, ?_⟩
  · simp [length_cumsumFl]
  · intro i hi
    have hget : ∀ k, k ≤ sig.length → (0 :: cumsumFl fl 0 sig)[k]? = some (runSum fl (fun j => sig.getD (j - 1) 0) k) := by
      intro k hk
      rcases k with _ | k
      · rfl
      · rw [List.getElem?_cons_succ]
        have := getElem?_cumsumFl fl sig (fun j => sig.getD (j - 1) 0) 0 k (fun j _ => by rw [show 0 + 1 + j - 1 = j by omega]) (by omega)
        rw [show 0 + 1 + k = k + 1 by omega] at this
        exact this
    rw [List.getElem?_zipWith, List.getElem?_drop, List.getElem?_take_of_lt (by simp [length_cumsumFl]; omega), hget _ (by omega), hget _ (by omega), Nat.add_comm N i]

theorem sum_Ioc_shift (g : Nat → ℝ) (i N : Nat) : ∑ j ∈ Finset.Ioc i (i + N), g (j - 1) = ∑ j ∈ Finset.range N, g (i + j) := by
  induction N with
  | zero => simp
  | succ N ih => rw [← Nat.add_assoc, Finset.sum_Ioc_succ_top (by omega), Finset.sum_range_succ, ih, Nat.add_sub_cancel]

/-- C180: with rounded arithmetic every output of the moving average is the mean of its window up to `2((1+u)^(i+N+2) - 1)/N` times the sum of all values from the start of the signal. -/
theorem C180_accuracy {fl : ℝ → ℝ} {u : ℝ} (h : Rounds fl u) (sig : List ℝ) (N : Nat) (hN : 1 ≤ N) :
    ∃ out, movingAverageFl fl sig N = some out ∧ out.length = sig.length + 1 - N ∧ ∀ i, i + N ≤ sig.length → ∃ y, out[i]? = some y ∧
      |y - (∑ j ∈ Finset.range N, sig.getD (i + j) 0) / N| ≤ 2 * ((1 + u) ^ (i + N + 2) - 1) * (∑ j ∈ Finset.range (i + N), |sig.getD j 0|) / N := by
  obtain ⟨out, h1, h2, h3⟩ := movingAverageFl_spec fl sig N hN
  refine ⟨out, h1, h2, fun i hi => ⟨_, h3 i hi, ?_⟩⟩
  have hu := h.nonneg
  have hw := window_err h (fun j => sig.getD (j - 1) 0) (Nat.le_add_right i N)
  have hN0 : (0 : ℝ) < N := by exact_mod_cast hN
  have r1 : ∑ j ∈ Finset.Ioc i (i + N), sig.getD (j - 1) 0 = ∑ j ∈ Finset.range N, sig.getD (i + j) 0 := by
    exact sum_Ioc_shift (fun j => sig.getD j 0) i N
  have r2 : ∑ j ∈ Finset.Ioc 0 (i + N), |sig.getD (j - 1) 0| = ∑ j ∈ Finset.range (i + N), |sig.getD j 0| := by
    have := sum_Ioc_shift (fun j => |sig.getD j 0|) 0 (i + N)
    simpa using this
  have hle : |∑ j ∈ Finset.range N, sig.getD (i + j) 0| ≤ ∑ j ∈ Finset.range (i + N), |sig.getD j 0| := by
    rw [← r1, ← r2]
    exact (Finset.abs_sum_le_sum_abs _ _).trans (Finset.sum_le_sum_of_subset_of_nonneg (Finset.Ioc_subset_Ioc_left (Nat.zero_le _)) fun _ _ _ => abs_nonneg _)
  rw [r1, r2] at hw
  generalize ∑ j ∈ Finset.range N, sig.getD (i + j) 0 = w at *
  generalize ∑ j ∈ Finset.range (i + N), |sig.getD j 0| = A at *
  generalize fl (runSum fl (fun j => sig.getD (j - 1) 0) (i + N) - runSum fl (fun j => sig.getD (j - 1) 0) i) = d at *
  have e1 := h.err (d / N)
  have hA : 0 ≤ A := (abs_nonneg _).trans hle
  have e2 : |d| ≤ 2 * ((1 + u) ^ (i + N + 1) - 1) * A + A := by
    calc |d| = |(d - w) + w| := by ring_nf
      _ ≤ |d - w| + |w| := abs_add_le _ _
      _ ≤ _ := by linarith
  have e3 : |fl (d / N) - w / N| ≤ |fl (d / N) - d / N| + |d - w| / N := by
    calc |fl (d / N) - w / N| = |(fl (d / N) - d / N) + (d - w) / N| := by congr 1; ring
      _ ≤ |fl (d / N) - d / N| + |(d - w) / N| := abs_add_le _ _
      _ = _ := by rw [abs_div (d - w), abs_of_pos hN0]
  rw [abs_div, abs_of_pos hN0] at e1
  refine e3.trans ?_
  rw [le_div_iff₀ hN0, add_mul, div_mul_cancel₀ _ hN0.ne']
  have e4 : |fl (d / N) - d / N| * N ≤ u * |d| := by
    calc |fl (d / N) - d / N| * N ≤ u * (|d| / N) * N := mul_le_mul_of_nonneg_right e1 hN0.le
      _ = u * |d| := by field_simp
  have e5 : u * |d| ≤ u * (2 * ((1 + u) ^ (i + N + 1) - 1) * A + A) := mul_le_mul_of_nonneg_left e2 hu
  have e6 : 0 ≤ u * A := mul_nonneg hu hA
  rw [show i + N + 2 = (i + N + 1) + 1 by omega, pow_succ (1 + u) (i + N + 1)]
  nlinarith

example : ∃ out, movingAverageFl (flP 53) [1, 2, 4] 2 = some out ∧ out.length = 2 ∧ ∃ y, out[1]? = some y ∧ |y - 3| ≤ 1 / 2 ^ 47 := by
  obtain ⟨out, h1, h2, h3⟩ := C180_accuracy (flP_rounds 53) [1, 2, 4] 2 (by norm_num)
  obtain ⟨y, h4, h5⟩ := h3 1 (by simp)
  refine ⟨out, h1, h2, y, h4, ?_⟩
  norm_num [Finset.sum_range_succ] at h5 ⊢
  linarith

/-- The full claim: in single precision the moving average of a constant signal is that constant, up to a relative error of one half. -/
def C180_statement : Prop :=
  ∀ (c : ℝ) (L N i : Nat) (out : List ℝ) (y : ℝ), 0 < c → 1 ≤ N → i + N ≤ L → movingAverageFl (flP 24) (List.replicate L c) N = some out → out[i]? = some y → |y - c| ≤ c / 2

/-- C180: with `p` bits the moving average of ones is zero from sample `2^p` on. -/
theorem C180_stuck {p N i L : Nat} (hp : 2 ≤ p) (hN : 1 ≤ N) (hi : 2 ^ p ≤ i) (hL : i + N ≤ L) : ∃ out, movingAverageFl (flP p) (List.replicate L 1) N = some out ∧ out[i]? = some 0 := by
  obtain ⟨out, h1, -, h3⟩ := movingAverageFl_spec (flP p) (List.replicate L 1) N hN
  refine ⟨out, h1, ?_⟩
  have hone : ∀ n, n ≤ L → ∀ j, 1 ≤ j → j ≤ n → (List.replicate L (1 : ℝ)).getD (j - 1) 0 = 1 := by
    intro n hn j h1 h2
    rw [List.getD_eq_getElem?_getD, List.getElem?_replicate, if_pos (by omega)]
    rfl
  have hz : flP p 0 = 0 := (flP_rounds p).zero
  rw [h3 i (by simpa using hL), runSum_stuck hp _ _ (hone (i + N) hL), runSum_stuck hp _ _ (hone i (by omega)), Nat.min_eq_right (by omega), Nat.min_eq_right hi, sub_self, hz, zero_div, hz]

/-- C180 fails for long signals. -/
theorem C180_false : ¬ C180_statement := by
  intro hc
  obtain ⟨out, h1, h2⟩ := C180_stuck (p := 24) (N := 1) (i := 2 ^ 24) (L := 2 ^ 24 + 1) (by norm_num) le_rfl le_rfl le_rfl
  have := hc 1 (2 ^ 24 + 1) 1 (2 ^ 24) out 0 one_pos le_rfl le_rfl h1 h2
  norm_num at this

end Qampy
