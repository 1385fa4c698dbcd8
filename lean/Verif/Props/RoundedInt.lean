import Verif.Model.RoundedInt
import Verif.Props.Rounded

/-!
C183: the oversampling factor of a signal in floating point. C184: the length of `linspacestep`.
-/

namespace Qampy

/-- Rounding of a number whose leading bit is known. -/
theorem flP_of_log {p : Nat} {x : ℝ} (e : ℤ) (h1 : (2 : ℝ) ^ e ≤ |x|) (h2 : |x| < 2 ^ (e + 1)) : flP p x = (rne (x / 2 ^ (e + 1 - p)) : ℝ) * 2 ^ (e + 1 - p) := by
  have hpos : 0 < |x| := lt_of_lt_of_le (by positivity) h1
  have hlog : Int.log 2 |x| = e := by
    apply le_antisymm
    · have : Int.log 2 |x| < e + 1 := by
        rw [← Int.lt_zpow_iff_log_lt (by norm_num) hpos]
        exact_mod_cast h2
      omega
    · rw [← Int.zpow_le_iff_le_log (by norm_num) hpos]
      exact_mod_cast h1
  unfold flP lastBit
  rw [if_neg (abs_pos.1 hpos), hlog]

/-- Rounding commutes with powers of two. -/
theorem flP_scale {p : Nat} (j : ℤ) (x : ℝ) : flP p (2 ^ j * x) = 2 ^ j * flP p x := by
  by_cases hx : x = 0
  · simp [hx, flP]
  · have hp : 0 < |x| := abs_pos.2 hx
    have h1 : (2 : ℝ) ^ Int.log 2 |x| ≤ |x| := by exact_mod_cast Int.zpow_log_le_self (b := 2) (by norm_num) hp
    have h2 : |x| < (2 : ℝ) ^ (Int.log 2 |x| + 1) := by exact_mod_cast Int.lt_zpow_succ_log_self (b := 2) (by norm_num) |x|
    have hj : (0 : ℝ) < 2 ^ j := by positivity
    have ha : |2 ^ j * x| = 2 ^ j * |x| := by rw [abs_mul, abs_of_pos hj]
    rw [flP_of_log _ h1 h2, flP_of_log (j + Int.log 2 |x|) (by rw [ha, zpow_add₀ (by norm_num)]; exact mul_le_mul_of_nonneg_left h1 hj.le)
      (by rw [ha, add_assoc, zpow_add₀ (by norm_num)]; exact mul_lt_mul_of_pos_left h2 hj)]
    rw [show j + Int.log 2 |x| + 1 - (p : ℤ) = j + (Int.log 2 |x| + 1 - p) by ring, zpow_add₀ (by norm_num), mul_div_mul_left _ _ hj.ne']
    ring

/-- C183: if the product of the oversampling factor and the symbol rate needs no rounding, the factor is found. -/
theorem C183_exact_product {p k : Nat} {fb : ℝ} (hfb : 0 < fb) (hp : 1 ≤ p) (hk : k ≤ 2 ^ p) (h : flP p (k * fb) = k * fb) : osFl (flP p) (rateFor (flP p) k fb) fb = k := by
  unfold osFl rateFor
  rw [h, mul_div_assoc, div_self hfb.ne', mul_one, flP_nat k hk hp]
  exact Int.floor_natCast k

/-- C183: powers of two, for every symbol rate that is a floating point number. -/
theorem C183_power_of_two {p j : Nat} {fb : ℝ} (hfb : 0 < fb) (hj : j ≤ p) (hp : 1 ≤ p) (hrep : flP p fb = fb) : osFl (flP p) (rateFor (flP p) (2 ^ j) fb) fb = 2 ^ j := by
  have h := C183_exact_product (k := 2 ^ j) hfb hp (Nat.pow_le_pow_right (by norm_num) hj) (by
    have := flP_scale (p := p) j fb
    rw [hrep, zpow_natCast] at this
    push_cast
    exact this)
  rw [h]
  push_cast
  rfl

/-- C183: symbol rates that are whole numbers (of hertz), any factor, as long as the sampling rate is below `2^p`. -/
theorem C183_whole {p k b : Nat} (hb : 0 < b) (hp : 1 ≤ p) (h : k * b ≤ 2 ^ p) : osFl (flP p) (rateFor (flP p) k b) b = k := by
  refine C183_exact_product (by exact_mod_cast hb) hp ((Nat.le_mul_of_pos_right k hb).trans h) ?_
  have := flP_nat (k * b) h hp
  push_cast at this
  exact this

/-- C183: for every symbol rate and every rounding function the factor is found or it is one too small. -/
theorem C183_bound {fl : ℝ → ℝ} {u : ℝ} (h : Rounds fl u) {k : Nat} {fb : ℝ} (hfb : 0 < fb) (hk : k * (2 * u + u ^ 2) < 1) :
    osFl fl (rateFor fl k fb) fb = k ∨ osFl fl (rateFor fl k fb) fb = k - 1 := by
  have hu := h.nonneg
  have hk0 : (0 : ℝ) ≤ k := Nat.cast_nonneg k
  have e1 := h.err (k * fb)
  rw [abs_of_nonneg (by positivity : (0 : ℝ) ≤ (k : ℝ) * fb)] at e1
  have e2 : |rateFor fl k fb / fb - k| ≤ u * k := by
    have : rateFor fl k fb / fb - k = (fl (k * fb) - k * fb) / fb := by unfold rateFor; field_simp
    rw [this, abs_div, abs_of_pos hfb, div_le_iff₀ hfb]
    linarith
  have e3 := h.err (rateFor fl k fb / fb)
  have e4 : |rateFor fl k fb / fb| ≤ (1 + u) * k := by
    have := abs_sub_abs_le_abs_sub (rateFor fl k fb / fb) k
    rw [abs_of_nonneg hk0] at this
    linarith
  have e5 : |fl (rateFor fl k fb / fb) - k| ≤ k * (2 * u + u ^ 2) := by
    calc |fl (rateFor fl k fb / fb) - k| ≤ |fl (rateFor fl k fb / fb) - rateFor fl k fb / fb| + |rateFor fl k fb / fb - k| := abs_sub_le _ _ _
      _ ≤ u * ((1 + u) * k) + u * k := add_le_add (e3.trans (mul_le_mul_of_nonneg_left e4 hu)) e2
      _ = _ := by ring
  have e6 := abs_lt.1 (lt_of_le_of_lt e5 hk)
  unfold osFl
  generalize fl (rateFor fl k fb / fb) = q at *
  rcases le_or_gt (k : ℝ) q with hq | hq
  · left
    rw [Int.floor_eq_iff]
    push_cast
    exact ⟨hq, by linarith⟩
  · right
    rw [Int.floor_eq_iff]
    push_cast
    exact ⟨by linarith, by linarith⟩

/-- C183: rounding to the nearest integer instead of truncation would always find the factor. -/
theorem C183_round {fl : ℝ → ℝ} {u : ℝ} (h : Rounds fl u) {k : Nat} {fb : ℝ} (hfb : 0 < fb) (hk : k * (2 * u + u ^ 2) < 1 / 2) : rne (fl (rateFor fl k fb / fb)) = k := by
  have hu := h.nonneg
  have hk0 : (0 : ℝ) ≤ k := Nat.cast_nonneg k
  have e1 := h.err (k * fb)
  rw [abs_of_nonneg (by positivity : (0 : ℝ) ≤ (k : ℝ) * fb)] at e1
  have e2 : |rateFor fl k fb / fb - k| ≤ u * k := by
    have : rateFor fl k fb / fb - k = (fl (k * fb) - k * fb) / fb := by unfold rateFor; field_simp
    rw [this, abs_div, abs_of_pos hfb, div_le_iff₀ hfb]
    linarith
  have e3 := h.err (rateFor fl k fb / fb)
  have e4 : |rateFor fl k fb / fb| ≤ (1 + u) * k := by
    have := abs_sub_abs_le_abs_sub (rateFor fl k fb / fb) k
    rw [abs_of_nonneg hk0] at this
    linarith
  have e5 : |fl (rateFor fl k fb / fb) - k| < 1 / 2 := by
    refine lt_of_le_of_lt ?_ hk
    calc |fl (rateFor fl k fb / fb) - k| ≤ |fl (rateFor fl k fb / fb) - rateFor fl k fb / fb| + |rateFor fl k fb / fb - k| := abs_sub_le _ _ _
      _ ≤ u * ((1 + u) * k) + u * k := add_le_add (e3.trans (mul_le_mul_of_nonneg_left e4 hu)) e2
      _ = _ := by ring
  have e6 := abs_lt.1 e5
  have e7 := abs_le.1 (rne_err (fl (rateFor fl k fb / fb)))
  generalize fl (rateFor fl k fb / fb) = q at *
  have h1 : ((rne q : ℤ) : ℝ) < (k : ℝ) + 1 := by linarith
  have h2 : (k : ℝ) < ((rne q : ℤ) : ℝ) + 1 := by linarith
  have h3 : rne q < (k : ℤ) + 1 := by exact_mod_cast h1
  have h4 : (k : ℤ) < rne q + 1 := by exact_mod_cast h2
  omega

/-- The full claim, in double precision: a signal with sampling rate `k*fb` has `k` samples per symbol, for symbol rates that are floating point numbers. -/
def C183_statement : Prop := ∀ (k : Nat) (fb : ℝ), 0 < fb → flP 53 fb = fb → 1 ≤ k → k ≤ 64 → osFl (flP 53) (rateFor (flP 53) k fb) fb = k

theorem rne_eq {x : ℝ} {n : ℤ} (h1 : (n : ℝ) - 1 / 2 < x) (h2 : x < n + 1 / 2) : rne x = n := by
  have e := abs_le.1 (rne_err x)
  have h3 : ((rne x : ℤ) : ℝ) < (n : ℝ) + 1 := by linarith
  have h4 : (n : ℝ) < ((rne x : ℤ) : ℝ) + 1 := by linarith
  have h5 : rne x < n + 1 := by exact_mod_cast h3
  have h6 : n < rne x + 1 := by exact_mod_cast h4
  omega

/-- Halfway between two integers the even one is taken. -/
theorem rne_tie {n : ℤ} (hn : n % 2 = 0) : rne ((n : ℝ) + 1 / 2) = n := by
  have hf : ⌊(n : ℝ) + 1 / 2⌋ = n := by
    rw [Int.floor_eq_iff]
    constructor <;> linarith
  unfold rne
  rw [hf, add_sub_cancel_left, if_neg (lt_irrefl _), if_neg (lt_irrefl _), if_pos hn]

/-- Halfway between two integers, from below the even one. -/
theorem rne_tie_up {n : ℤ} (hn : n % 2 = 1) : rne ((n : ℝ) + 1 / 2) = n + 1 := by
  have hf : ⌊(n : ℝ) + 1 / 2⌋ = n := by
    rw [Int.floor_eq_iff]
    constructor <;> linarith
  unfold rne
  rw [hf, add_sub_cancel_left, if_neg (lt_irrefl _), if_neg (lt_irrefl _), if_neg (by omega)]

/-- The double precision number 0.7. -/
noncomputable def double07 : ℝ := 6305039478318694 * 2 ^ (-53 : ℤ)

/-- C183 fails: with symbol rate 0.7 and three samples per symbol the signal reports two. -/
theorem C183_seven_tenths : flP 53 (7 / 10) = double07 ∧ osFl (flP 53) (rateFor (flP 53) 3 double07) double07 = 2 := by
  constructor
  · rw [flP_of_log (-1) (by rw [abs_of_pos] <;> norm_num) (by rw [abs_of_pos] <;> norm_num), rne_eq (n := 6305039478318694) (by norm_num) (by norm_num)]
    unfold double07
    norm_num
  · have h1 : rateFor (flP 53) 3 double07 = 4728779608739020 * 2 ^ (-51 : ℤ) := by
      unfold rateFor double07
      rw [flP_of_log 1 (by rw [abs_of_pos] <;> norm_num) (by rw [abs_of_pos] <;> norm_num)]
      have : ((3 : ℕ) * (6305039478318694 * 2 ^ (-53 : ℤ)) / 2 ^ ((1 : ℤ) + 1 - (53 : ℕ)) : ℝ) = ((4728779608739020 : ℤ) : ℝ) + 1 / 2 := by norm_num
      rw [this, rne_tie (by norm_num)]
      norm_num
    unfold osFl
    rw [h1]
    have h2 : flP 53 (4728779608739020 * 2 ^ (-51 : ℤ) / double07) = 6755399441055743 * 2 ^ (-51 : ℤ) := by
      unfold double07
      rw [flP_of_log 1 (by rw [abs_of_pos] <;> norm_num) (by rw [abs_of_pos] <;> norm_num), rne_eq (n := 6755399441055743) (by norm_num) (by norm_num)]
      norm_num
    rw [h2, Int.floor_eq_iff]
    norm_num

theorem C183_false : ¬ C183_statement := by
  intro h
  have h1 : flP 53 double07 = double07 := by
    have := flP_exact (p := 53) 6305039478318694 (-53) (by norm_num)
    unfold double07
    exact_mod_cast this
  have := h 3 double07 (by unfold double07; positivity) h1 (by norm_num) (by norm_num)
  rw [C183_seven_tenths.2] at this
  norm_num at this

/-- Three samples per symbol at 24 GHz. -/
example : osFl (flP 53) (rateFor (flP 53) 3 24000000000) 24000000000 = 3 := by
  have := C183_whole (p := 53) (k := 3) (b := 24000000000) (by norm_num) (by norm_num) (by norm_num)
  exact_mod_cast this

example : osFl (flP 53) (rateFor (flP 53) 2 double07) double07 = 2 := by
  have h1 : flP 53 double07 = double07 := by
    have := flP_exact (p := 53) 6305039478318694 (-53) (by norm_num)
    unfold double07
    exact_mod_cast this
  have := C183_power_of_two (p := 53) (j := 1) (fb := double07) (by unfold double07; positivity) (by norm_num) (by norm_num) h1
  simpa using this

example : osFl (flP 53) (rateFor (flP 53) 3 double07) double07 = 3 ∨ osFl (flP 53) (rateFor (flP 53) 3 double07) double07 = 2 := by
  have := C183_bound (flP_rounds 53) (k := 3) (fb := double07) (by unfold double07; positivity) (by norm_num)
  exact_mod_cast this

/-! ### C184 -/

/-- C184: without rounding the array has `N` elements, for every step other than zero. -/
theorem C184_exact (start step : ℝ) (hs : step ≠ 0) (N : Nat) : linspacestepLen (fun x => x) start step N = N := by
  unfold linspacestepLen arangeLen
  rw [add_sub_cancel_left, mul_div_assoc, div_self hs, mul_one, Int.ceil_natCast]
  rfl

/-- C184: if the end `start + N*step` and the product need no rounding, the length is right. -/
theorem C184_whole {p : Nat} {start step : ℝ} (hs : step ≠ 0) {N : Nat} (hp : 1 ≤ p) (hN : N ≤ 2 ^ p) (h1 : flP p (N * step) = N * step) (h2 : flP p (start + N * step) = start + N * step) :
    linspacestepLen (flP p) start step N = N := by
  unfold linspacestepLen arangeLen
  rw [h1, h2, add_sub_cancel_left, h1, mul_div_assoc, div_self hs, mul_one, flP_nat N hN hp, Int.ceil_natCast]
  rfl

/-- The full claim, in double precision. -/
def C184_statement : Prop := ∀ (start step : ℝ) (N : Nat), 0 < step → flP 53 start = start → flP 53 step = step → N ≤ 2 ^ 20 → linspacestepLen (flP 53) start step N = N

/-- The double precision number 0.1. -/
noncomputable def double01 : ℝ := 3602879701896397 * 2 ^ (-55 : ℤ)

/-- C184 fails: three steps of 0.1 from 1 on give four values. -/
theorem C184_tenth : flP 53 (1 / 10) = double01 ∧ linspacestepLen (flP 53) 1 double01 3 = 4 := by
  constructor
  · rw [flP_of_log (-4) (by rw [abs_of_pos] <;> norm_num) (by rw [abs_of_pos] <;> norm_num), rne_eq (n := 7205759403792794) (by norm_num) (by norm_num)]
    unfold double01
    norm_num
  · have h1 : flP 53 ((3 : ℕ) * double01) = 5404319552844596 * 2 ^ (-54 : ℤ) := by
      unfold double01
      rw [flP_of_log (-2) (by rw [abs_of_pos] <;> norm_num) (by rw [abs_of_pos] <;> norm_num)]
      have : ((3 : ℕ) * (3602879701896397 * 2 ^ (-55 : ℤ)) / 2 ^ ((-2 : ℤ) + 1 - (53 : ℕ)) : ℝ) = ((5404319552844595 : ℤ) : ℝ) + 1 / 2 := by norm_num
      rw [this, rne_tie_up (by norm_num)]
      norm_num
    have h2 : flP 53 (1 + 5404319552844596 * 2 ^ (-54 : ℤ)) = 5854679515581645 * 2 ^ (-52 : ℤ) := by
      have := flP_exact (p := 53) 5854679515581645 (-52) (by norm_num)
      rw [show (1 + 5404319552844596 * 2 ^ (-54 : ℤ) : ℝ) = ((5854679515581645 : ℤ) : ℝ) * 2 ^ (-52 : ℤ) by norm_num, this]
      norm_num
    have h3 : flP 53 (5854679515581645 * 2 ^ (-52 : ℤ) - 1) = 1351079888211149 * 2 ^ (-52 : ℤ) := by
      have := flP_exact (p := 53) 1351079888211149 (-52) (by norm_num)
      rw [show (5854679515581645 * 2 ^ (-52 : ℤ) - 1 : ℝ) = ((1351079888211149 : ℤ) : ℝ) * 2 ^ (-52 : ℤ) by norm_num, this]
      norm_num
    have h4 : flP 53 (1351079888211149 * 2 ^ (-52 : ℤ) / double01) = 6755399441055745 * 2 ^ (-51 : ℤ) := by
      unfold double01
      rw [flP_of_log 1 (by rw [abs_of_pos] <;> norm_num) (by rw [abs_of_pos] <;> norm_num), rne_eq (n := 6755399441055745) (by norm_num) (by norm_num)]
      norm_num
    unfold linspacestepLen arangeLen
    rw [h1, h2, h3, h4]
    have : ⌈(6755399441055745 * 2 ^ (-51 : ℤ) : ℝ)⌉ = 4 := by
      rw [Int.ceil_eq_iff]
      norm_num
    rw [this]
    rfl

theorem C184_false : ¬ C184_statement := by
  intro h
  have h1 : flP 53 double01 = double01 := by
    have := flP_exact (p := 53) 3602879701896397 (-55) (by norm_num)
    unfold double01
    exact_mod_cast this
  have h0 : flP 53 1 = 1 := by simpa using flP_nat (p := 53) 1 (by norm_num) (by norm_num)
  have := h 1 double01 3 (by unfold double01; positivity) h0 h1 (by norm_num)
  rw [C184_tenth.2] at this
  norm_num at this

/-- Steps of one half. -/
example : linspacestepLen (flP 53) 1 (1 / 2) 3 = 3 := by
  refine C184_whole (by norm_num) (by norm_num) (by norm_num) ?_ ?_
  · have := flP_exact (p := 53) 3 (-1) (by norm_num)
    norm_num at this ⊢
    exact this
  · have := flP_exact (p := 53) 5 (-1) (by norm_num)
    norm_num at this ⊢
    exact this

end Qampy
