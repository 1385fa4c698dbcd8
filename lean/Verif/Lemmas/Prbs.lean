import Verif.Lemmas.PrbsCheck
import Mathlib.Data.Nat.Count
import Mathlib.NumberTheory.LucasLehmer
import Mathlib.Tactic.NormNum.Prime

/-! Helper lemmas on the shift registers. -/

namespace Qampy

/-- The fed back bit. -/
def fbBit (taps : List Nat) (n sr : Nat) : Bool := taps.foldl (fun b t => b ^^ sr.testBit (n - t)) false

theorem and_one_shift (s k : Nat) : (s &&& (1 <<< k) ≠ 0) ↔ s.testBit k = true := by
  rw [Nat.one_shiftLeft, Nat.and_two_pow]
  cases s.testBit k <;> simp

theorem feedback_eq (taps : List Nat) (n sr : Nat) : feedback taps n sr = (fbBit taps n sr).toNat := by
  suffices h : ∀ (b : Bool), taps.foldl (fun xor t => if sr &&& (1 <<< (n - t)) ≠ 0 then xor ^^^ 1 else xor) b.toNat
      = (taps.foldl (fun b t => b ^^ sr.testBit (n - t)) b).toNat from h false
  induction taps with
  | nil => intro b; rfl
  | cons t ts ih =>
    intro b
    simp only [List.foldl_cons]
    rw [← ih]
    congr 1
    by_cases h : sr.testBit (n - t) = true
    · rw [if_pos ((and_one_shift _ _).2 h), h]
      cases b <;> rfl
    · rw [if_neg (fun hh => h ((and_one_shift _ _).1 hh))]
      simp only [Bool.not_eq_true] at h
      rw [h]; simp

theorem fbBit_xor (taps : List Nat) (n x y : Nat) : fbBit taps n (x ^^^ y) = (fbBit taps n x ^^ fbBit taps n y) := by
  suffices h : ∀ (a b c : Bool), c = (a ^^ b) →
      taps.foldl (fun b t => b ^^ (x ^^^ y).testBit (n - t)) c
      = ((taps.foldl (fun b t => b ^^ x.testBit (n - t)) a) ^^ (taps.foldl (fun b t => b ^^ y.testBit (n - t)) b)) from
    h false false false rfl
  induction taps with
  | nil => intro a b c h; simpa using h
  | cons t ts ih =>
    intro a b c h
    simp only [List.foldl_cons]
    apply ih
    rw [h, Nat.testBit_xor]
    cases a <;> cases b <;> cases x.testBit (n - t) <;> cases y.testBit (n - t) <;> rfl

theorem testBit_lfsrStep (taps : List Nat) (n s j : Nat) (hn : 0 < n) (hs : s < 2 ^ n) :
    (lfsrStep taps n s).testBit j = if j = n - 1 then fbBit taps n s else s.testBit (j + 1) := by
  have hlt : s >>> 1 < 2 ^ (n - 1) := by
    rw [Nat.shiftRight_eq_div_pow]
    obtain ⟨k, rfl⟩ := Nat.exists_eq_succ_of_ne_zero hn.ne'
    rw [pow_succ] at hs; simp; omega
  have hadd : lfsrStep taps n s = 2 ^ (n - 1) * (fbBit taps n s).toNat + s >>> 1 := by
    rw [lfsrStep, feedback_eq, Nat.shiftLeft_eq]; ring
  rw [hadd, Nat.testBit_two_pow_mul_add _ hlt]
  rcases Nat.lt_trichotomy j (n - 1) with h | h | h
  · rw [if_pos h, if_neg (by omega), Nat.testBit_shiftRight, Nat.add_comm]
  · subst h
    rw [if_neg (by omega), if_pos rfl, Nat.sub_self]
    cases fbBit taps n s <;> rfl
  · rw [if_neg (by omega), if_neg (by omega)]
    have h1 : s.testBit (j + 1) = false :=
      Nat.testBit_lt_two_pow (lt_of_lt_of_le hs (Nat.pow_le_pow_right (by norm_num) (by omega)))
    rw [h1]
    apply Nat.testBit_lt_two_pow
    calc (fbBit taps n s).toNat < 2 ^ 1 := by cases fbBit taps n s <;> decide
      _ ≤ 2 ^ (j - (n - 1)) := Nat.pow_le_pow_right (by norm_num) (by omega)

theorem linear_lfsrStep (taps : List Nat) (n : Nat) (hn : 0 < n) : Gf2.Linear n (lfsrStep taps n) where
  lt s hs := by
    apply Nat.lt_pow_two_of_testBit
    intro j hj
    rw [testBit_lfsrStep _ _ _ _ hn hs, if_neg (by omega)]
    exact Nat.testBit_lt_two_pow (lt_of_lt_of_le hs (Nat.pow_le_pow_right (by norm_num) (by omega)))
  add x y hx hy := by
    apply Nat.eq_of_testBit_eq
    intro j
    rw [Nat.testBit_xor, testBit_lfsrStep _ _ _ _ hn (Nat.xor_lt_two_pow hx hy), testBit_lfsrStep _ _ _ _ hn hx,
      testBit_lfsrStep _ _ _ _ hn hy]
    split
    · exact fbBit_xor _ _ _ _
    · rw [Nat.testBit_xor]

theorem length_prbsExt (taps : List Nat) (n N s : Nat) : (prbsExt taps n N s).length = N := by
  induction N generalizing s with
  | zero => rfl
  | succ N ih => simp [prbsExt, ih]

theorem prbsExt_getElem? (taps : List Nat) (n N s i : Nat) (hi : i < N) :
    (prbsExt taps n N s)[i]? = some (fbBit taps n ((lfsrStep taps n)^[i] s)).toNat := by
  induction N generalizing s i with
  | zero => omega
  | succ N ih =>
    cases i with
    | zero => simp [prbsExt, feedback_eq]
    | succ i =>
      simp only [prbsExt, List.getElem?_cons_succ]
      rw [ih _ i (by omega)]
      rfl

theorem iterate_lt (taps : List Nat) (n : Nat) (hn : 0 < n) (s i : Nat) (hs : s < 2 ^ n) :
    (lfsrStep taps n)^[i] s < 2 ^ n := (Gf2.iterate_app_cols (linear_lfsrStep taps n hn) i s hs).2

/-- The register contents in terms of the seed bits and the earlier outputs. -/
theorem testBit_iterate (taps : List Nat) (n : Nat) (s : Nat) (hs : s < 2 ^ n) (i j : Nat) (hj : j < n) :
    ((lfsrStep taps n)^[i] s).testBit j
      = if i + j < n then s.testBit (i + j) else fbBit taps n ((lfsrStep taps n)^[i + j - n] s) := by
  have hn : 0 < n := by omega
  induction i generalizing j with
  | zero => rw [if_pos (by omega)]; simp
  | succ i ih =>
    rw [Function.iterate_succ_apply', testBit_lfsrStep _ _ _ _ hn (iterate_lt taps n hn s i hs)]
    by_cases h : j = n - 1
    · rw [if_pos h, if_neg (by omega)]
      congr 2; omega
    · rw [if_neg h, ih (j + 1) (by omega)]
      have e : i + (j + 1) = i + 1 + j := by omega
      rw [e]

/-- After at least `n` steps the register holds the last `n` outputs. -/
theorem testBit_iterate_full (taps : List Nat) (n : Nat) (s : Nat) (hs : s < 2 ^ n) (i j : Nat) (hj : j < n) :
    ((lfsrStep taps n)^[n + i] s).testBit j = fbBit taps n ((lfsrStep taps n)^[i + j] s) := by
  rw [testBit_iterate taps n s hs _ _ hj, if_neg (by omega)]
  congr 2; omega

theorem prime_2147483647 : Nat.Prime 2147483647 := by
  have : (mersenne 31).Prime := lucas_lehmer_sufficiency _ (by norm_num) (by norm_num)
  simpa [mersenne] using this

theorem qlist_spec (n : Nat) (hn : n = 7 ∨ n = 15 ∨ n = 23 ∨ n = 31) (q : Nat) (hq : q.Prime)
    (hd : q ∣ 2 ^ n - 1) : q ∈ qlist n := by
  rcases hn with rfl | rfl | rfl | rfl
  · have h : (2 : Nat) ^ 7 - 1 = 127 := by norm_num
    rw [h] at hd
    simp [qlist, (Nat.prime_dvd_prime_iff_eq hq (by norm_num)).1 hd]
  · have h : (2 : Nat) ^ 15 - 1 = 7 * (31 * 151) := by norm_num
    rw [h, hq.dvd_mul, hq.dvd_mul, Nat.prime_dvd_prime_iff_eq hq (by norm_num),
      Nat.prime_dvd_prime_iff_eq hq (by norm_num), Nat.prime_dvd_prime_iff_eq hq (by norm_num)] at hd
    simpa [qlist] using hd
  · have h : (2 : Nat) ^ 23 - 1 = 47 * 178481 := by norm_num
    rw [h, hq.dvd_mul, Nat.prime_dvd_prime_iff_eq hq (by norm_num),
      Nat.prime_dvd_prime_iff_eq hq (by norm_num)] at hd
    simpa [qlist] using hd
  · have h : (2 : Nat) ^ 31 - 1 = 2147483647 := by norm_num
    rw [h] at hd
    simp [qlist, (Nat.prime_dvd_prime_iff_eq hq prime_2147483647).1 hd]

theorem tapdict_cases {n : Nat} {taps : List Nat} (h : tapdict n = some taps) :
    (n = 7 ∧ taps = [7, 6]) ∨ (n = 15 ∧ taps = [15, 14]) ∨ (n = 23 ∧ taps = [23, 18]) ∨
      (n = 31 ∧ taps = [31, 28]) := by
  simp only [tapdict] at h
  split at h <;> simp_all

theorem minimalPeriod_lfsr {n : Nat} {taps : List Nat} (h : tapdict n = some taps) {s : Nat} (hs : s < 2 ^ n)
    (h0 : s ≠ 0) : Function.minimalPeriod (lfsrStep taps n) s = 2 ^ n - 1 := by
  rcases tapdict_cases h with ⟨rfl, rfl⟩ | ⟨rfl, rfl⟩ | ⟨rfl, rfl⟩ | ⟨rfl, rfl⟩
  · exact Gf2.orbit (by norm_num) (linear_lfsrStep _ _ (by norm_num)) check7 (qlist_spec 7 (by simp)) hs h0
  · exact Gf2.orbit (by norm_num) (linear_lfsrStep _ _ (by norm_num)) check15 (qlist_spec 15 (by simp)) hs h0
  · exact Gf2.orbit (by norm_num) (linear_lfsrStep _ _ (by norm_num)) check23 (qlist_spec 23 (by simp)) hs h0
  · exact Gf2.orbit (by norm_num) (linear_lfsrStep _ _ (by norm_num)) check31 (qlist_spec 31 (by simp)) hs h0

/-- The states reached from a nonzero seed in one period are exactly the nonzero numbers. -/
theorem image_orbit {n : Nat} {f : Nat → Nat} (hf : Gf2.Linear n f) {s : Nat} (hs : s < 2 ^ n)
    (h0 : s ≠ 0) (hper : Function.minimalPeriod f s = 2 ^ n - 1) (k : Nat) :
    (Finset.range (2 ^ n - 1)).image (fun i => f^[k + i] s) = Finset.Ico 1 (2 ^ n) ∧
    Set.InjOn (fun i => f^[k + i] s) (Finset.range (2 ^ n - 1)) := by
  have hpos : 0 < 2 ^ n - 1 := by
    have : 1 ≤ s := Nat.one_le_iff_ne_zero.2 h0
    omega
  have hinj : Set.InjOn (fun i => f^[k + i] s) (Finset.range (2 ^ n - 1)) := by
    intro i hi j hj hij
    simp only [Finset.coe_range, Set.mem_Iio] at hi hj
    have hij' : f^[k + i] s = f^[k + j] s := hij
    rw [← Function.iterate_mod_minimalPeriod_eq, ← Function.iterate_mod_minimalPeriod_eq (n := k + j),
      Function.iterate_eq_iterate_iff_of_lt_minimalPeriod (Nat.mod_lt _ (by omega)) (Nat.mod_lt _ (by omega)),
      hper] at hij'
    have h2 : i ≡ j [MOD 2 ^ n - 1] := Nat.ModEq.add_left_cancel' k hij'
    exact Nat.ModEq.eq_of_lt_of_lt h2 hi hj
  refine ⟨?_, hinj⟩
  apply Finset.eq_of_subset_of_card_le
  · intro v hv
    obtain ⟨i, -, rfl⟩ := Finset.mem_image.1 hv
    rw [Finset.mem_Ico]
    refine ⟨Nat.one_le_iff_ne_zero.2 ?_, (Gf2.iterate_app_cols hf _ s hs).2⟩
    intro hz
    have hfix : ∀ j, f^[j] 0 = 0 := by
      intro j
      induction j with
      | zero => rfl
      | succ j ih => rw [Function.iterate_succ_apply, hf.zero, ih]
    have h1 : f^[(2 ^ n - 1) * (k + i)] s = s := by
      rw [← hper]
      exact (Function.isPeriodicPt_minimalPeriod f s).mul_const (k + i)
    have hle : k + i ≤ (2 ^ n - 1) * (k + i) := Nat.le_mul_of_pos_left _ hpos
    obtain ⟨d, hd⟩ := Nat.exists_eq_add_of_le' hle
    rw [hd, Function.iterate_add_apply, hz, hfix] at h1
    exact h0 h1.symm
  · rw [Finset.card_image_of_injOn hinj]
    simp

/-! The binary value of a list of bits. -/

theorem bool2binGo_spec (x : List Bool) (i y : Nat) (hy : y < 2 ^ i) :
    bool2binGo x i y < 2 ^ (i + x.length) ∧
    ∀ j, (bool2binGo x i y).testBit j = if j < i then y.testBit j else x.getD (j - i) false := by
  induction x generalizing i y with
  | nil =>
    refine ⟨by simpa [bool2binGo] using hy, fun j => ?_⟩
    simp only [bool2binGo]
    split
    · rfl
    · rw [Nat.testBit_lt_two_pow (lt_of_lt_of_le hy (Nat.pow_le_pow_right (by norm_num) (by omega)))]
      simp
  | cons b x ih =>
    have e : y + (b.toNat <<< i) = 2 ^ i * b.toNat + y := by rw [Nat.shiftLeft_eq]; ring
    have hlt : y + (b.toNat <<< i) < 2 ^ (i + 1) := by
      rw [e, pow_succ]
      cases b <;> simp <;> omega
    obtain ⟨h1, h2⟩ := ih (i + 1) _ hlt
    simp only [bool2binGo]
    refine ⟨by rw [List.length_cons]; convert h1 using 2; omega, fun j => ?_⟩
    rw [h2]
    rcases Nat.lt_trichotomy j i with h | h | h
    · rw [if_pos (by omega), if_pos h, e, Nat.testBit_two_pow_mul_add _ hy, if_pos h]
    · subst h
      rw [if_pos (by omega), if_neg (by omega), e, Nat.testBit_two_pow_mul_add _ hy, if_neg (by omega)]
      cases b <;> simp
    · rw [if_neg (by omega), if_neg (by omega)]
      have : j - i = (j - (i + 1)) + 1 := by omega
      rw [this, List.getD_cons_succ]

theorem count_true_add_false (l : List Bool) : l.count true + l.count false = l.length := by
  induction l with
  | nil => rfl
  | cons b l ih => cases b <;> simp <;> omega

theorem count_range (p : Nat → Bool) (m : Nat) :
    ((List.range m).map p).count true = ((Finset.range m).filter (fun i => p i = true)).card := by
  induction m with
  | zero => simp
  | succ m ih =>
    rw [List.range_succ, List.map_append, List.count_append, ih, Finset.range_add_one, Finset.filter_insert]
    by_cases h : p m = true
    · rw [if_pos h, Finset.card_insert_of_notMem (by simp)]; simp [h]
    · rw [if_neg h]; simp [h]

end Qampy
