import Verif.Model.Double
import Mathlib.Algebra.Order.Field.Power

/-!
# C240: the symbol rates that lose one of three samples per symbol
-/

namespace Qampy

/-- A positive number of double precision. -/
def IsDouble (x : ℚ) : Prop := ∃ (m : ℕ) (e : ℤ), 0 < m ∧ m < 2 ^ 53 ∧ x = m * 2 ^ e

theorem log_eq_of {q : ℚ} {e : ℤ} (h1 : (2 : ℚ) ^ e ≤ q) (h2 : q < 2 ^ (e + 1)) : Int.log 2 q = e := by
  have hq : 0 < q := lt_of_lt_of_le (by positivity) h1
  have a := (Int.zpow_le_iff_le_log (b := 2) (by norm_num) hq (x := e)).1 (by exact_mod_cast h1)
  have b := (Int.lt_zpow_iff_log_lt (b := 2) (by norm_num) hq (x := e + 1)).1 (by exact_mod_cast h2)
  omega

theorem fl64_eq {q : ℚ} {e : ℤ} (h1 : (2 : ℚ) ^ e ≤ q) (h2 : q < 2 ^ (e + 1)) : fl64 q = roundHalfEven (q / 2 ^ (e - 52)) * 2 ^ (e - 52) := by
  unfold fl64
  rw [log_eq_of h1 h2]

theorem rhe_int (z : ℤ) : roundHalfEven z = z := by
  unfold roundHalfEven
  rw [Int.floor_intCast, sub_self, if_pos (by norm_num)]

theorem rhe_err (q : ℚ) : |(roundHalfEven q : ℚ) - q| ≤ 1 / 2 := by
  have h1 := Int.floor_le q
  have h2 := Int.lt_floor_add_one q
  unfold roundHalfEven
  rw [abs_le]
  split_ifs <;> push_cast <;> constructor <;> linarith

theorem rhe_below {q : ℚ} {f : ℤ} (h1 : (f : ℚ) ≤ q) (h2 : q < f + 1 / 2) : roundHalfEven q = f := by
  have hf : ⌊q⌋ = f := Int.floor_eq_iff.2 ⟨h1, by linarith⟩
  unfold roundHalfEven
  rw [hf, if_pos (by linarith)]

theorem rhe_tie {q : ℚ} {f : ℤ} (h1 : q = f + 1 / 2) (h2 : f % 2 = 0) : roundHalfEven q = f := by
  have hf : ⌊q⌋ = f := Int.floor_eq_iff.2 ⟨by rw [h1]; linarith, by rw [h1]; linarith⟩
  unfold roundHalfEven
  rw [hf, if_neg (by rw [h1]; norm_num), if_neg (by rw [h1]; norm_num), if_pos h2]

/-- Numbers of double precision are not changed by rounding. -/
theorem fl64_double {x : ℚ} (h : IsDouble x) : fl64 x = x := by
  obtain ⟨m, e, h0, hm, rfl⟩ := h
  have hpos : (0 : ℚ) < m * 2 ^ e := by positivity
  obtain ⟨l, hl⟩ : ∃ l, l = Int.log 2 ((m : ℚ) * 2 ^ e) := ⟨_, rfl⟩
  have h1 : ((2 : ℕ) : ℚ) ^ l ≤ m * 2 ^ e := by rw [hl]; exact Int.zpow_log_le_self (by norm_num) hpos
  have hle : l - 52 ≤ e := by
    by_contra hc
    push Not at hc
    have h2 : (m : ℚ) * 2 ^ e < 2 ^ (53 + e) := by
      rw [zpow_add₀ (by norm_num)]
      have : (m : ℚ) < 2 ^ (53 : ℤ) := by exact_mod_cast hm
      exact mul_lt_mul_of_pos_right this (by positivity)
    have h3 : (2 : ℚ) ^ (53 + e) ≤ 2 ^ l := zpow_le_zpow_right₀ (by norm_num) (by omega)
    push_cast at h1
    linarith
  unfold fl64
  rw [← hl]
  obtain ⟨k, hk⟩ : ∃ k : ℕ, e = (l - 52) + k := ⟨(e - (l - 52)).toNat, by omega⟩
  have h4 : (m : ℚ) * 2 ^ e / 2 ^ (l - 52) = ((m * 2 ^ k : ℤ) : ℚ) := by
    rw [hk, zpow_add₀ (by norm_num), zpow_natCast]
    have : (2 : ℚ) ^ (l - 52) ≠ 0 := by positivity
    push_cast
    field_simp
  rw [h4, rhe_int, ← h4, div_mul_cancel₀ _ (by positivity)]

/-- The relative error of rounding. -/
theorem fl64_err {x : ℚ} (hx : 0 < x) : |fl64 x - x| ≤ x / 2 ^ 53 := by
  obtain ⟨l, hl⟩ : ∃ l, l = Int.log 2 x := ⟨_, rfl⟩
  have h1 : ((2 : ℕ) : ℚ) ^ l ≤ x := by rw [hl]; exact Int.zpow_log_le_self (by norm_num) hx
  push_cast at h1
  unfold fl64
  rw [← hl]
  have hp : (0 : ℚ) < 2 ^ (l - 52) := by positivity
  have h2 := rhe_err (x / 2 ^ (l - 52))
  have h3 : (roundHalfEven (x / 2 ^ (l - 52)) : ℚ) * 2 ^ (l - 52) - x = ((roundHalfEven (x / 2 ^ (l - 52)) : ℚ) - x / 2 ^ (l - 52)) * 2 ^ (l - 52) := by
    rw [sub_mul, div_mul_cancel₀ _ hp.ne']
  rw [h3, abs_mul, abs_of_pos hp]
  have h4 : (2 : ℚ) ^ (l - 52) = 2 ^ l / 2 ^ 52 := by
    rw [zpow_sub₀ (by norm_num)]
    norm_num
  rw [h4] at h2 ⊢
  calc _ ≤ 1 / 2 * ((2 : ℚ) ^ l / 2 ^ 52) := mul_le_mul_of_nonneg_right h2 (by positivity)
    _ = 2 ^ l / 2 ^ 53 := by ring
    _ ≤ x / 2 ^ 53 := div_le_div_of_nonneg_right h1 (by norm_num)

theorem os_close (n : ℕ) (fb : ℚ) (hn : 1 ≤ n) (hn2 : n ≤ 2 ^ 50) (hfb : 0 < fb) : |fl64 (recreateFs n fb / fb) - n| < 1 / 2 := by
  have hn0 : (1 : ℚ) ≤ n := by exact_mod_cast hn
  have hn1 : (n : ℚ) ≤ 2 ^ 50 := by exact_mod_cast hn2
  have h1 := fl64_err (x := n * fb) (by positivity)
  have h2 : |recreateFs n fb / fb - n| ≤ n / 2 ^ 53 := by
    have : recreateFs n fb / fb - n = (fl64 (n * fb) - n * fb) / fb := by
      unfold recreateFs
      field_simp
    rw [this, abs_div, abs_of_pos hfb, div_le_iff₀ hfb]
    calc _ ≤ _ := h1
      _ = _ := by ring
  have h3 := abs_le.1 h2
  have hx : 0 < recreateFs n fb / fb := by
    have : (n : ℚ) / 2 ^ 53 < n := by
      rw [div_lt_iff₀ (by norm_num)]
      nlinarith
    linarith
  have h4 := abs_le.1 (fl64_err hx)
  rw [abs_lt]
  constructor <;> nlinarith

/-- **C240** If the quotient were rounded to the nearest integer instead of truncated, the ratio of a signal created for `n` samples per symbol would be `n` for every symbol rate. -/
theorem C240_rounded (n : ℕ) (fb : ℚ) (hn : 1 ≤ n) (hn2 : n ≤ 2 ^ 50) (hfb : 0 < fb) : round (fl64 (recreateFs n fb / fb)) = n := by
  have h := abs_lt.1 (os_close n fb hn hn2 hfb)
  rw [round_eq, Int.floor_eq_iff]
  push_cast
  exact ⟨by linarith, by linarith⟩

/-- One symbol rate in eight with a significand between 4/3 and 2 (every one whose last bits are 110) has two samples per symbol when it should have three: a signal recreated with the
new symbol rate from one with three samples per symbol, or resampled to three times the symbol rate. -/
theorem three_two (m : ℕ) (e : ℤ) (h8 : m % 8 = 6) (h1 : 2 ^ 54 ≤ 3 * m) (h2 : m < 2 ^ 53) : osDouble (recreateFs 3 (m * 2 ^ e)) (m * 2 ^ e) = 2 := by
  obtain ⟨a, rfl⟩ : ∃ a, m = 8 * a + 6 := ⟨m / 8, by omega⟩
  have hm1 : (2 : ℚ) ^ 54 ≤ 3 * ((8 * a + 6 : ℕ) : ℚ) := by exact_mod_cast h1
  have hm2 : ((8 * a + 6 : ℕ) : ℚ) < 2 ^ 53 := by exact_mod_cast h2
  have he : (0 : ℚ) < 2 ^ e := by positivity
  obtain ⟨M, hM⟩ : ∃ M : ℚ, M = ((8 * a + 6 : ℕ) : ℚ) := ⟨_, rfl⟩
  have hMa : M = 8 * a + 6 := by rw [hM]; push_cast; ring
  rw [← hM] at hm1 hm2 ⊢
  have hfs : recreateFs 3 (M * 2 ^ e) = (3 * M - 2) * 2 ^ e := by
    unfold recreateFs
    have e54 : (2 : ℚ) ^ (e + 54) = 2 ^ e * 2 ^ 54 := by rw [zpow_add₀ (by norm_num)]; norm_num
    have e55 : (2 : ℚ) ^ (e + 54 + 1) = 2 ^ e * 2 ^ 55 := by rw [add_assoc, zpow_add₀ (by norm_num)]; norm_num
    have e2 : (2 : ℚ) ^ (e + 54 - 52) = 2 ^ e * 4 := by rw [show e + 54 - 52 = e + 2 by ring, zpow_add₀ (by norm_num)]; norm_num
    have l1 := mul_le_mul_of_nonneg_left hm1 he.le
    have l2 := mul_lt_mul_of_pos_left hm2 he
    have hc : ((3 : ℕ) : ℚ) = 3 := by norm_num
    rw [fl64_eq (e := e + 54) (by rw [e54, hc]; linarith) (by rw [e55, hc]; linarith), e2,
      rhe_tie (f := 6 * a + 4) (by
        rw [hMa]
        push_cast
        field_simp
        ring) (by omega), hMa]
    push_cast
    ring
  have hM0 : 0 < M := by linarith
  have hq : (3 * M - 2) * 2 ^ e / (M * 2 ^ e) = 3 - 2 / M := by
    field_simp
  have hd1 : 2 / M * 2 ^ 51 ≤ 3 / 4 := by
    rw [div_mul_eq_mul_div, div_le_iff₀ hM0]
    linarith
  have hd2 : 1 / 2 < 2 / M * 2 ^ 51 := by
    rw [div_mul_eq_mul_div, lt_div_iff₀ hM0]
    linarith
  have e51 : (2 : ℚ) ^ ((1 : ℤ) - 52) = 1 / 2 ^ 51 := by norm_num
  unfold osDouble
  rw [hfs, hq, fl64_eq (e := 1) (by norm_num at hd1 ⊢; linarith) (by norm_num at hd2 ⊢; linarith), e51,
    rhe_below (f := 3 * 2 ^ 51 - 1) (by
      rw [div_div_eq_mul_div, div_one, sub_mul]
      push_cast
      linarith) (by
      rw [div_div_eq_mul_div, div_one, sub_mul]
      push_cast
      linarith), Int.floor_eq_iff]
  norm_num

theorem rhe_ge {q : ℚ} {z : ℤ} (h : (z : ℚ) ≤ q) : z ≤ roundHalfEven q := by
  have hf : z ≤ ⌊q⌋ := Int.le_floor.2 h
  unfold roundHalfEven
  split_ifs <;> omega

theorem rhe_up {q : ℚ} {f : ℤ} (h1 : (f : ℚ) + 1 / 2 < q) (h2 : q < f + 1) : roundHalfEven q = f + 1 := by
  have hf : ⌊q⌋ = f := Int.floor_eq_iff.2 ⟨by linarith, h2⟩
  unfold roundHalfEven
  rw [hf, if_neg (by linarith), if_pos (by linarith)]

/-- If the product is rounded down by at most one unit of the last place of the symbol rate, the quotient rounds to 3 or more. -/
theorem quotient_three (M d : ℚ) (e : ℤ) (hM1 : 2 ^ 52 < M) (hd : -1 ≤ d) (hd2 : d ≤ 2) : ⌊fl64 ((3 * M + d) * 2 ^ e / (M * 2 ^ e))⌋ = 3 := by
  have he : (0 : ℚ) < 2 ^ e := by positivity
  have hM0 : 0 < M := by linarith
  have hq : (3 * M + d) * 2 ^ e / (M * 2 ^ e) = 3 + d / M := by
    field_simp
  have hd3 : -(1 / 2) < d / M * 2 ^ 51 := by
    rw [div_mul_eq_mul_div, lt_div_iff₀ hM0]
    linarith
  have hd4 : d / M * 2 ^ 51 < 1 := by
    rw [div_mul_eq_mul_div, div_lt_iff₀ hM0]
    linarith
  have e51 : (2 : ℚ) ^ ((1 : ℤ) - 52) = 1 / 2 ^ 51 := by norm_num
  have hr1 : (3 * 2 ^ 51 : ℤ) ≤ roundHalfEven ((3 + d / M) / (1 / 2 ^ 51)) := by
    rw [div_div_eq_mul_div, div_one, add_mul]
    by_cases hs : 0 ≤ d / M * 2 ^ 51
    · apply rhe_ge
      push_cast
      linarith
    · push Not at hs
      rw [rhe_up (f := 3 * 2 ^ 51 - 1) (by push_cast; linarith) (by push_cast; linarith)]
      norm_num
  have hr2 := abs_le.1 (rhe_err ((3 + d / M) / (1 / 2 ^ 51)))
  rw [div_div_eq_mul_div, div_one, add_mul] at hr1 hr2
  rw [hq, fl64_eq (e := 1) (by norm_num at hd3 ⊢; linarith) (by norm_num at hd4 ⊢; linarith), e51, div_div_eq_mul_div, div_one, add_mul, Int.floor_eq_iff]
  have hr3 : ((3 * 2 ^ 51 : ℤ) : ℚ) ≤ (roundHalfEven (3 * 2 ^ 51 + d / M * 2 ^ 51) : ℚ) := by exact_mod_cast hr1
  push_cast at hr3
  push_cast
  constructor
  · rw [mul_one_div, le_div_iff₀ (by norm_num)]
    linarith
  · rw [mul_one_div, div_lt_iff₀ (by norm_num)]
    linarith [hr2.2]

theorem fs_three (m : ℕ) (e : ℤ) (l : ℕ) (h1 : 2 ^ (52 + l) ≤ 3 * m) (h2 : 3 * m < 2 ^ (52 + l + 1)) : recreateFs 3 (m * 2 ^ e) = (roundHalfEven ((3 * m : ℕ) / 2 ^ l : ℚ) * 2 ^ l) * 2 ^ e := by
  have he : (0 : ℚ) < 2 ^ e := by positivity
  have g1 : (2 : ℚ) ^ (52 + l) ≤ ((3 * m : ℕ) : ℚ) := by exact_mod_cast h1
  have g2 : ((3 * m : ℕ) : ℚ) < (2 : ℚ) ^ (52 + l + 1) := by exact_mod_cast h2
  have hp : ((3 : ℕ) : ℚ) * (m * 2 ^ e) = ((3 * m : ℕ) : ℚ) * 2 ^ e := by push_cast; ring
  have e1 : (2 : ℚ) ^ (e + (52 + l : ℕ)) = 2 ^ (52 + l) * 2 ^ e := by rw [zpow_add₀ (by norm_num), zpow_natCast, mul_comm]
  have e2 : (2 : ℚ) ^ (e + (52 + l : ℕ) + 1) = 2 ^ (52 + l + 1) * 2 ^ e := by
    rw [add_assoc, show ((52 + l : ℕ) : ℤ) + 1 = ((52 + l + 1 : ℕ) : ℤ) by push_cast; ring, zpow_add₀ (by norm_num), zpow_natCast, mul_comm]
  have e3 : (2 : ℚ) ^ (e + (52 + l : ℕ) - 52) = 2 ^ l * 2 ^ e := by
    rw [show e + ((52 + l : ℕ) : ℤ) - 52 = e + (l : ℕ) by push_cast; ring, zpow_add₀ (by norm_num), zpow_natCast, mul_comm]
  unfold recreateFs
  rw [hp, fl64_eq (e := e + (52 + l : ℕ)) (by rw [e1]; exact mul_le_mul_of_nonneg_right g1 he.le) (by rw [e2]; exact mul_lt_mul_of_pos_right g2 he), e3, mul_div_mul_right _ _ he.ne', mul_assoc]

/-- **C240** The symbol rates for which a signal made for three samples per symbol has the ratio two, exactly: those with a significand of at least 4/3 whose last bits are 110. All others have
the ratio three. -/
theorem C240_three (m : ℕ) (e : ℤ) (h1 : 2 ^ 52 ≤ m) (h2 : m < 2 ^ 53) :
    osDouble (recreateFs 3 (m * 2 ^ e)) (m * 2 ^ e) = if m % 8 = 6 ∧ 2 ^ 54 ≤ 3 * m then 2 else 3 := by
  split_ifs with h
  · exact three_two m e h.1 h.2 h2
  unfold osDouble
  have key : ∀ z : ℤ, (z : ℚ) = ((3 * m : ℕ) : ℚ) - 1 ∨ (z : ℚ) = ((3 * m : ℕ) : ℚ) ∨ (z : ℚ) = ((3 * m : ℕ) : ℚ) + 1 ∨ (z : ℚ) = ((3 * m : ℕ) : ℚ) + 2 → 2 ^ 52 < m →
      ⌊fl64 ((z : ℚ) * 2 ^ e / (m * 2 ^ e))⌋ = 3 := by
    intro z hz hm
    have hM : (2 : ℚ) ^ 52 < m := by exact_mod_cast hm
    have hz' : (z : ℚ) = 3 * (m : ℚ) + (z - 3 * m) := by ring
    rw [hz']
    refine quotient_three m _ e hM ?_ ?_ <;> push_cast at hz <;> rcases hz with hz | hz | hz | hz <;> linarith
  by_cases hm : m = 2 ^ 52
  · subst hm
    rw [fs_three (2 ^ 52) e 1 (by norm_num) (by norm_num)]
    have : (((3 * 2 ^ 52 : ℕ) : ℚ) / 2 ^ 1) = ((3 * 2 ^ 51 : ℤ) : ℚ) := by norm_num
    rw [this, rhe_int]
    have h3 : ((3 * 2 ^ 51 : ℤ) : ℚ) * 2 ^ 1 * 2 ^ e / (((2 ^ 52 : ℕ) : ℚ) * 2 ^ e) = 3 := by
      have he : (2 : ℚ) ^ e ≠ 0 := by positivity
      rw [mul_div_mul_right _ _ he]
      norm_num
    rw [h3, fl64_double ⟨3, 0, by norm_num, by norm_num, by norm_num⟩]
    norm_num
  have hm' : 2 ^ 52 < m := by omega
  by_cases h3 : 2 ^ 54 ≤ 3 * m
  · -- the product is rounded to a multiple of four
    rw [fs_three m e 2 (by omega) (by omega)]
    obtain ⟨j, r, hj, hr⟩ : ∃ j r : ℕ, 3 * m = 4 * j + r ∧ r < 4 := ⟨3 * m / 4, 3 * m % 4, by omega, by omega⟩
    have hq : (((3 * m : ℕ) : ℚ) / 2 ^ 2) = (j : ℤ) + (r : ℚ) / 4 := by rw [hj]; push_cast; ring
    have hcast : ∀ z : ℤ, (z : ℚ) * 2 ^ 2 = ((z * 4 : ℤ) : ℚ) := fun z => by push_cast; ring
    rw [hq, hcast]
    apply key _ _ hm'
    interval_cases r
    · rw [rhe_below (f := j) (by norm_num) (by norm_num)]
      right; left
      rw [hj]; push_cast; ring
    · rw [rhe_below (f := j) (by norm_num) (by norm_num)]
      left
      rw [hj]; push_cast; ring
    · have hodd : (j : ℤ) % 2 ≠ 0 := by
        intro h0
        exact h ⟨by omega, h3⟩
      have hup : roundHalfEven ((j : ℤ) + ((2 : ℕ) : ℚ) / 4) = j + 1 := by
        have hf : ⌊((j : ℤ) : ℚ) + ((2 : ℕ) : ℚ) / 4⌋ = j := Int.floor_eq_iff.2 ⟨by norm_num, by norm_num⟩
        unfold roundHalfEven
        rw [hf, if_neg (by push_cast; norm_num), if_neg (by push_cast; norm_num), if_neg hodd]
      rw [hup]
      right; right; right
      rw [hj]; push_cast; ring
    · rw [rhe_up (f := j) (by norm_num) (by norm_num)]
      right; right; left
      rw [hj]; push_cast; ring
  · rw [fs_three m e 1 (by omega) (by omega)]
    obtain ⟨j, r, hj, hr⟩ : ∃ j r : ℕ, 3 * m = 2 * j + r ∧ r < 2 := ⟨3 * m / 2, 3 * m % 2, by omega, by omega⟩
    have hq : (((3 * m : ℕ) : ℚ) / 2 ^ 1) = (j : ℤ) + (r : ℚ) / 2 := by rw [hj]; push_cast; ring
    have hcast : ∀ z : ℤ, (z : ℚ) * 2 ^ 1 = ((z * 2 : ℤ) : ℚ) := fun z => by push_cast; ring
    rw [hq, hcast]
    apply key _ _ hm'
    interval_cases r
    · rw [rhe_below (f := j) (by norm_num) (by norm_num)]
      right; left
      rw [hj]; push_cast; ring
    · by_cases hev : (j : ℤ) % 2 = 0
      · rw [rhe_tie (f := j) (by norm_num) hev]
        left
        rw [hj]; push_cast; ring
      · have hup : roundHalfEven ((j : ℤ) + ((1 : ℕ) : ℚ) / 2) = j + 1 := by
          have hf : ⌊((j : ℤ) : ℚ) + ((1 : ℕ) : ℚ) / 2⌋ = j := Int.floor_eq_iff.2 ⟨by norm_num, by norm_num⟩
          unfold roundHalfEven
          rw [hf, if_neg (by push_cast; norm_num), if_neg (by push_cast; norm_num), if_neg hev]
        rw [hup]
        right; right; left
        rw [hj]; push_cast; ring

/-- The symbol rates 0.35 (ratio two) and 0.3 (ratio three) as doubles. -/
example : osDouble (recreateFs 3 ((6305039478318694 : ℕ) * 2 ^ (-54 : ℤ))) ((6305039478318694 : ℕ) * 2 ^ (-54 : ℤ)) = 2 ∧
    osDouble (recreateFs 3 ((5404319552844595 : ℕ) * 2 ^ (-54 : ℤ))) ((5404319552844595 : ℕ) * 2 ^ (-54 : ℤ)) = 3 := by
  constructor
  · rw [C240_three _ _ (by norm_num) (by norm_num), if_pos (by norm_num)]
  · rw [C240_three _ _ (by norm_num) (by norm_num), if_neg (by norm_num)]

/-- The first of them is the double nearest to 0.35. -/
example : fl64 (35 / 100) = (6305039478318694 : ℕ) * 2 ^ (-54 : ℤ) := by
  rw [fl64_eq (e := -2) (by norm_num) (by norm_num), rhe_below (f := 6305039478318694) (by norm_num) (by norm_num)]
  norm_num

/-- **C240** The consequence for frames: of such a signal with `F` frames at three samples per symbol `nframes` counts half as many again. -/
theorem C240_frames (m : ℕ) (e : ℤ) (h8 : m % 8 = 6) (h1 : 2 ^ 54 ≤ 3 * m) (h2 : m < 2 ^ 53) (F frameLen : ℕ) (hf : 1 ≤ frameLen) :
    nFrames (3 * F * frameLen) (osDouble (recreateFs 3 (m * 2 ^ e)) (m * 2 ^ e)).toNat frameLen = .ok (F + F / 2) := by
  rw [three_two m e h8 h1 h2]
  unfold nFrames
  rw [show (2 : ℤ).toNat = 2 from rfl, if_neg (by omega), Nat.mul_div_mul_right _ _ hf]
  congr 1
  omega

end Qampy
