import Verif.Lemmas.Prbs

/-! The Galois (internal XOR) register. -/

namespace Qampy

theorem masks_cases {n mask : Nat} (h : masks n = some mask) :
    (n = 7 ∧ mask = 193) ∨ (n = 15 ∧ mask = 49153) ∨ (n = 23 ∧ mask = 8650753) ∨ (n = 31 ∧ mask = 2415919105) := by
  simp only [masks] at h
  split at h <;> simp_all

theorem mask_log2 {n mask : Nat} (h : masks n = some mask) :
    0 < n ∧ Nat.log2 mask = n ∧ 2 ^ n ≤ mask ∧ mask < 2 ^ (n + 1) := by
  have key : 0 < n ∧ 2 ^ n ≤ mask ∧ mask < 2 ^ (n + 1) := by
    rcases masks_cases h with ⟨rfl, rfl⟩ | ⟨rfl, rfl⟩ | ⟨rfl, rfl⟩ | ⟨rfl, rfl⟩ <;> norm_num
  refine ⟨key.1, ?_, key.2.1, key.2.2⟩
  have hm : mask ≠ 0 := by
    have : 0 < 2 ^ n := by positivity
    omega
  exact (Nat.log2_eq_iff hm).2 key.2

theorem lfsrIntStep_eq {n mask : Nat} (h : masks n = some mask) {s : Nat} (hs : s < 2 ^ n) :
    (lfsrIntStep mask s).1 = (s.testBit (n - 1)).toNat ∧
    (lfsrIntStep mask s).2 = (2 * s) ^^^ (if s.testBit (n - 1) then mask else 0) := by
  obtain ⟨hn, hlog, -, -⟩ := mask_log2 h
  obtain ⟨k, rfl⟩ := Nat.exists_eq_succ_of_ne_zero hn.ne'
  have hx : (s <<< 1) >>> (k + 1) = (s.testBit k).toNat := by
    rw [Nat.shiftLeft_eq, Nat.shiftRight_eq_div_pow, pow_one, pow_succ, Nat.mul_div_mul_right _ _ (by norm_num),
      Nat.testBit_eq_decide_div_mod_eq]
    have hlt : s / 2 ^ k < 2 := by
      rw [Nat.div_lt_iff_lt_mul (by positivity), mul_comm]
      rw [Nat.succ_eq_add_one, pow_succ] at hs
      exact hs
    generalize s / 2 ^ k = d at hlt
    interval_cases d <;> rfl
  simp only [lfsrIntStep, hlog, Nat.succ_eq_add_one, hx, Nat.add_sub_cancel]
  refine ⟨trivial, ?_⟩
  have e : s <<< 1 = 2 * s := by rw [Nat.shiftLeft_eq]; ring
  cases s.testBit k <;> simp [e]

theorem linear_lfsrInt {n mask : Nat} (h : masks n = some mask) :
    Gf2.Linear n (fun s => (lfsrIntStep mask s).2) where
  lt s hs := by
    obtain ⟨hn, -, h1, h2⟩ := mask_log2 h
    obtain ⟨k, rfl⟩ := Nat.exists_eq_succ_of_ne_zero hn.ne'
    simp only [(lfsrIntStep_eq h hs).2]
    have h2s : 2 * s < 2 ^ (k + 1 + 1) := by rw [pow_succ]; omega
    apply Nat.lt_pow_two_of_testBit
    intro j hj
    simp only [Nat.succ_eq_add_one, Nat.add_sub_cancel] at hj ⊢
    rw [Nat.testBit_xor]
    rcases Nat.eq_or_lt_of_le hj with hj | hj
    · subst hj
      have e1 : (2 * s).testBit (k + 1) = s.testBit k := by
        rw [Nat.testBit_succ, Nat.mul_div_cancel_left _ (by norm_num)]
      have e2 : mask.testBit (k + 1) = true := by
        rw [Nat.testBit_eq_decide_div_mod_eq]
        have : mask / 2 ^ (k + 1) = 1 := by
          apply Nat.div_eq_of_lt_le
          · simpa using h1
          · rw [show (1 + 1) * 2 ^ (k + 1) = 2 ^ (k + 1 + 1) by ring]; exact h2
        simp [this]
      rw [e1]
      cases s.testBit k <;> simp [e2]
    · rw [Nat.testBit_lt_two_pow (lt_of_lt_of_le h2s (Nat.pow_le_pow_right (by norm_num) hj))]
      have : mask.testBit j = false :=
        Nat.testBit_lt_two_pow (lt_of_lt_of_le h2 (Nat.pow_le_pow_right (by norm_num) hj))
      cases s.testBit k <;> simp [this]
  add x y hx hy := by
    simp only [(lfsrIntStep_eq h hx).2, (lfsrIntStep_eq h hy).2, (lfsrIntStep_eq h (Nat.xor_lt_two_pow hx hy)).2,
      Nat.testBit_xor]
    have e : 2 * (x ^^^ y) = (2 * x) ^^^ (2 * y) := by
      have := Nat.shiftLeft_xor_distrib (a := x) (b := y) (i := 1)
      simpa [Nat.shiftLeft_eq, mul_comm] using this
    rw [e]
    cases x.testBit (n - 1) <;> cases y.testBit (n - 1) <;> simp
    · ac_rfl
    · ac_rfl
    · rw [Nat.xor_assoc (2 * x), Nat.xor_comm mask, Nat.xor_assoc (2 * y), Nat.xor_self, Nat.xor_zero]

theorem minimalPeriod_lfsrInt {n mask : Nat} (h : masks n = some mask) {s : Nat} (hs : s < 2 ^ n)
    (h0 : s ≠ 0) : Function.minimalPeriod (fun s => (lfsrIntStep mask s).2) s = 2 ^ n - 1 := by
  have hl := linear_lfsrInt h
  rcases masks_cases h with ⟨rfl, rfl⟩ | ⟨rfl, rfl⟩ | ⟨rfl, rfl⟩ | ⟨rfl, rfl⟩
  · exact Gf2.orbit (by norm_num) hl gcheck7 (qlist_spec 7 (by simp)) hs h0
  · exact Gf2.orbit (by norm_num) hl gcheck15 (qlist_spec 15 (by simp)) hs h0
  · exact Gf2.orbit (by norm_num) hl gcheck23 (qlist_spec 23 (by simp)) hs h0
  · exact Gf2.orbit (by norm_num) hl gcheck31 (qlist_spec 31 (by simp)) hs h0

end Qampy
