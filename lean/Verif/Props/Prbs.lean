import Verif.Lemmas.Galois

/-!
Properties C07, C08, C09, C71, C72: pseudo random bit sequences.
-/

namespace Qampy

/-! ### Helpers -/

theorem makePrbs_int {n : Nat} {taps : List Nat} (h : tapdict n = some taps) (N s : Nat) :
    makePrbsExtXOR n N (.int s) = .ok ((prbsExt taps n N s).map (· != 0)) := by
  simp only [makePrbsExtXOR, h]
  rfl

theorem out_getElem? (taps : List Nat) (n N s i : Nat) (hi : i < N) :
    ((prbsExt taps n N s).map (· != 0))[i]? = some (fbBit taps n ((lfsrStep taps n)^[i] s)) := by
  rw [List.getElem?_map, prbsExt_getElem? _ _ _ _ _ hi]
  cases fbBit taps n ((lfsrStep taps n)^[i] s) <;> rfl

theorem tapdict_some {n : Nat} (hn : n ∈ [7, 15, 23, 31]) : ∃ taps, tapdict n = some taps ∧ 0 < n := by
  simp at hn
  rcases hn with rfl | rfl | rfl | rfl <;> exact ⟨_, rfl, by norm_num⟩

/-! ### C07 -/

/-- **C07**: for each supported order `n` and every nonzero `n`-bit seed the bits returned by
`make_prbs_extXOR` repeat with period `2^n-1`; and for every smaller shift `d` already one of the first `n` bits
differs from the bit `d` places later, so `d` is not a period of any output of at least `n+d` bits. -/
theorem C07_prbs_period (n : Nat) (hn : n ∈ [7, 15, 23, 31]) (seed : Nat) (h0 : seed ≠ 0) (hs : seed < 2 ^ n)
    (N : Nat) :
    ∃ out, makePrbsExtXOR n N (.int seed) = .ok out ∧ out.length = N ∧
      (∀ i, i + (2 ^ n - 1) < N → out[i + (2 ^ n - 1)]? = out[i]?) ∧
      (∀ d, 0 < d → d < 2 ^ n - 1 → n + d ≤ N → ∃ i < n, out[i + d]? ≠ out[i]?) := by
  obtain ⟨taps, ht, hn0⟩ := tapdict_some hn
  have hper := minimalPeriod_lfsr ht hs h0
  refine ⟨_, makePrbs_int ht N seed, by simp [length_prbsExt], ?_, ?_⟩
  · intro i hi
    rw [out_getElem? _ _ _ _ _ hi, out_getElem? _ _ _ _ _ (by omega)]
    congr 2
    rw [← hper, Function.iterate_add_apply, Function.iterate_minimalPeriod]
  · intro d hd hdm hN
    by_contra hcon
    push Not at hcon
    have hst : (lfsrStep taps n)^[n + d] seed = (lfsrStep taps n)^[n + 0] seed := by
      apply Nat.eq_of_testBit_eq
      intro j
      by_cases hj : j < n
      · rw [testBit_iterate_full _ _ _ hs _ _ hj, testBit_iterate_full _ _ _ hs _ _ hj]
        have := hcon j hj
        rw [out_getElem? _ _ _ _ _ (by omega), out_getElem? _ _ _ _ _ (by omega)] at this
        simpa [Nat.add_comm] using this
      · have hb : ∀ k, ((lfsrStep taps n)^[k] seed).testBit j = false := fun k =>
          Nat.testBit_lt_two_pow (lt_of_lt_of_le (iterate_lt taps n hn0 seed k hs)
            (Nat.pow_le_pow_right (by norm_num) (by omega)))
        rw [hb, hb]
    have hinj := (image_orbit (linear_lfsrStep taps n hn0) hs h0 hper n).2
    have := hinj (by simp; omega) (by simp; omega) hst
    omega

example : (7 : Nat) ∈ [7, 15, 23, 31] ∧ (1 : Nat) ≠ 0 ∧ 1 < 2 ^ 7 ∧ 7 + 5 ≤ 20 := by decide

/-! ### C08 -/

/-- **C08** (windows): in one period of `2^n-1` bits, read cyclically, every `n`-bit pattern other
than all zeros occurs at exactly one position. -/
theorem C08_prbs_windows (n : Nat) (hn : n ∈ [7, 15, 23, 31]) (seed : Nat) (h0 : seed ≠ 0) (hs : seed < 2 ^ n)
    (w : List Bool) (hw : w.length = n) (hnz : true ∈ w) :
    ∃ out, makePrbsExtXOR n (2 ^ n - 1) (.int seed) = .ok out ∧
      ∃! p, p < 2 ^ n - 1 ∧ ∀ j, j < n → out[(p + j) % (2 ^ n - 1)]? = w[j]? := by
  obtain ⟨taps, ht, hn0⟩ := tapdict_some hn
  have hper := minimalPeriod_lfsr ht hs h0
  have hm : 0 < 2 ^ n - 1 := by have := Nat.one_le_iff_ne_zero.2 h0; omega
  refine ⟨_, makePrbs_int ht _ seed, ?_⟩
  have hget : ∀ p j, ((prbsExt taps n (2 ^ n - 1) seed).map (· != 0))[(p + j) % (2 ^ n - 1)]?
      = some (fbBit taps n ((lfsrStep taps n)^[p + j] seed)) := by
    intro p j
    rw [out_getElem? _ _ _ _ _ (Nat.mod_lt _ hm)]
    congr 2
    rw [← hper, Function.iterate_mod_minimalPeriod_eq]
  obtain ⟨hv1, hv2⟩ := bool2binGo_spec w 0 0 (by norm_num)
  set v := bool2binGo w 0 0 with hv
  rw [Nat.zero_add, hw] at hv1
  have hvbit : ∀ j, v.testBit j = w.getD j false := by intro j; rw [hv2]; simp
  -- windows are states
  have hwin : ∀ p, (∀ j, j < n → ((prbsExt taps n (2 ^ n - 1) seed).map (· != 0))[(p + j) % (2 ^ n - 1)]? = w[j]?)
      ↔ (lfsrStep taps n)^[n + p] seed = v := by
    intro p
    constructor
    · intro h
      apply Nat.eq_of_testBit_eq
      intro j
      by_cases hj : j < n
      · rw [testBit_iterate_full _ _ _ hs _ _ hj, hvbit, List.getD_eq_getElem?_getD, ← h j hj, hget]
        rfl
      · rw [Nat.testBit_lt_two_pow (lt_of_lt_of_le (iterate_lt taps n hn0 seed _ hs)
            (Nat.pow_le_pow_right (by norm_num) (by omega))),
          Nat.testBit_lt_two_pow (lt_of_lt_of_le hv1 (Nat.pow_le_pow_right (by norm_num) (by omega)))]
    · intro h j hj
      rw [hget, ← testBit_iterate_full _ _ _ hs _ _ hj, h, hvbit, List.getD_eq_getElem?_getD,
        List.getElem?_eq_getElem (by omega)]
      rfl
  have hvne : v ≠ 0 := by
    intro hz
    obtain ⟨j, hj⟩ := List.getElem?_of_mem hnz
    have := hvbit j
    rw [hz, List.getD_eq_getElem?_getD, hj] at this
    simp at this
  obtain ⟨himg, hinj⟩ := image_orbit (linear_lfsrStep taps n hn0) hs h0 hper n
  have hvmem : v ∈ Finset.Ico 1 (2 ^ n) := by
    rw [Finset.mem_Ico]; exact ⟨Nat.one_le_iff_ne_zero.2 hvne, hv1⟩
  rw [← himg] at hvmem
  obtain ⟨p, hp, hpv⟩ := Finset.mem_image.1 hvmem
  refine ⟨p, ⟨Finset.mem_range.1 hp, (hwin p).2 hpv⟩, ?_⟩
  rintro q ⟨hq, hqw⟩
  have := (hwin q).1 hqw
  exact hinj (by simpa using hq) (by simpa using hp) (this.trans hpv.symm)

/-- **C08** (balance): one period has `2^(n-1)` ones and `2^(n-1)-1` zeros. -/
theorem C08_prbs_balance (n : Nat) (hn : n ∈ [7, 15, 23, 31]) (seed : Nat) (h0 : seed ≠ 0) (hs : seed < 2 ^ n) :
    ∃ out, makePrbsExtXOR n (2 ^ n - 1) (.int seed) = .ok out ∧
      out.count true = 2 ^ (n - 1) ∧ out.count false = 2 ^ (n - 1) - 1 := by
  obtain ⟨taps, ht, hn0⟩ := tapdict_some hn
  have hper := minimalPeriod_lfsr ht hs h0
  obtain ⟨k, rfl⟩ := Nat.exists_eq_succ_of_ne_zero hn0.ne'
  simp only [Nat.succ_eq_add_one, Nat.add_sub_cancel] at *
  set f := lfsrStep taps (k + 1) with hf
  have hlist : (prbsExt taps (k + 1) (2 ^ (k + 1) - 1) seed).map (· != 0)
      = (List.range (2 ^ (k + 1) - 1)).map (fun i => (f^[1 + i] seed).testBit k) := by
    apply List.ext_getElem?
    intro i
    by_cases hi : i < 2 ^ (k + 1) - 1
    · rw [out_getElem? _ _ _ _ _ hi, List.getElem?_map, List.getElem?_range hi]
      simp only [Option.map_some]
      rw [Nat.add_comm 1 i, Function.iterate_succ_apply', hf,
        testBit_lfsrStep _ _ _ _ hn0 (iterate_lt taps _ hn0 seed i hs)]
      simp
    · rw [List.getElem?_eq_none (by simp [length_prbsExt]; omega), List.getElem?_eq_none (by simp; omega)]
  have hones : ((prbsExt taps (k + 1) (2 ^ (k + 1) - 1) seed).map (· != 0)).count true = 2 ^ k := by
    rw [hlist, count_range]
    obtain ⟨himg, hinj⟩ := image_orbit (linear_lfsrStep taps (k + 1) hn0) hs h0 hper 1
    rw [← Finset.card_image_of_injOn (hinj.mono (by
      intro x hx
      simp at hx ⊢
      exact hx.1))]
    have : ((Finset.range (2 ^ (k + 1) - 1)).filter (fun i => (f^[1 + i] seed).testBit k = true)).image
        (fun i => f^[1 + i] seed) = Finset.Ico (2 ^ k) (2 ^ (k + 1)) := by
      ext v
      have hmem : ∀ v, v ∈ (Finset.range (2 ^ (k + 1) - 1)).image (fun i => f^[1 + i] seed) ↔
          v ∈ Finset.Ico 1 (2 ^ (k + 1)) := by intro v; rw [himg]
      simp only [Finset.mem_image, Finset.mem_filter, Finset.mem_range, Finset.mem_Ico] at hmem ⊢
      have htop : ∀ u, u < 2 ^ (k + 1) → (u.testBit k = true ↔ 2 ^ k ≤ u) := by
        intro u hu
        constructor
        · intro hb
          exact Nat.ge_two_pow_of_testBit hb
        · intro hle
          rw [Nat.testBit_eq_decide_div_mod_eq]
          have : u / 2 ^ k = 1 := by
            apply Nat.div_eq_of_lt_le
            · simpa using hle
            · rw [show (1 + 1) * 2 ^ k = 2 ^ (k + 1) by ring]; exact hu
          simp [this]
      constructor
      · rintro ⟨i, ⟨hi, hb⟩, rfl⟩
        have := ((hmem _).1 ⟨i, hi, rfl⟩).2
        exact ⟨(htop _ this).1 hb, this⟩
      · rintro ⟨h1, h2⟩
        have hpos : 0 < 2 ^ k := by positivity
        obtain ⟨i, hi, rfl⟩ := (hmem v).2 ⟨by omega, h2⟩
        exact ⟨i, ⟨hi, (htop _ h2).2 h1⟩, rfl⟩
    rw [this, Nat.card_Ico, pow_succ]; omega
  refine ⟨_, makePrbs_int ht _ seed, hones, ?_⟩
  have htot := count_true_add_false ((prbsExt taps (k + 1) (2 ^ (k + 1) - 1) seed).map (· != 0))
  have hlen : ((prbsExt taps (k + 1) (2 ^ (k + 1) - 1) seed).map (· != 0)).length = 2 ^ (k + 1) - 1 := by
    simp [length_prbsExt]
  have hp : 2 ^ (k + 1) = 2 * 2 ^ k := by ring
  omega

example : true ∈ [false, false, true, false, false, true, true] ∧
    [false, false, true, false, false, true, true].length = 7 := by decide

/-! ### C09 -/

/-- **C09** (prefix): asking for `N` bits gives the first `N` bits of any longer request, for every seed. -/
theorem C09_prbs_prefix (n : Nat) (hn : n ∈ [7, 15, 23, 31]) (seed N N' : Nat) (h : N ≤ N') :
    ∃ out out', makePrbsExtXOR n N (.int seed) = .ok out ∧ makePrbsExtXOR n N' (.int seed) = .ok out' ∧
      out.length = N ∧ out'.length = N' ∧ out = out'.take N := by
  obtain ⟨taps, ht, hn0⟩ := tapdict_some hn
  refine ⟨_, _, makePrbs_int ht N seed, makePrbs_int ht N' seed, by simp [length_prbsExt],
    by simp [length_prbsExt], ?_⟩
  apply List.ext_getElem?
  intro i
  by_cases hi : i < N
  · rw [out_getElem? _ _ _ _ _ hi, List.getElem?_take, if_pos hi, out_getElem? _ _ _ _ _ (by omega)]
  · rw [List.getElem?_eq_none (by simp [length_prbsExt]; omega), List.getElem?_take, if_neg hi]

/-- Feedback positions of the four polynomials as published for PRBS7/15/23/31 (ITU-T O.150):
`x^7+x^6+1`, `x^15+x^14+1`, `x^23+x^18+1`, `x^31+x^28+1`. -/
def prbsLag : Nat → Nat
  | 7 => 6
  | 15 => 14
  | 23 => 18
  | _ => 28

/-- **C09** (recurrence): with the seed bits (least significant first) put in front of the output, every output bit
is the exclusive or of the bits `n` and `prbsLag n` places earlier. -/
theorem C09_prbs_recurrence (n : Nat) (hn : n ∈ [7, 15, 23, 31]) (seed : Nat) (hs : seed < 2 ^ n) (N : Nat) :
    ∃ out, makePrbsExtXOR n N (.int seed) = .ok out ∧
      let a := (List.range n).map seed.testBit ++ out
      ∀ i, i < N → a.getD (n + i) false = (a.getD (n + i - n) false ^^ a.getD (n + i - prbsLag n) false) := by
  obtain ⟨taps, ht, hn0⟩ := tapdict_some hn
  refine ⟨_, makePrbs_int ht N seed, ?_⟩
  intro a i hi
  have hal : ∀ k, a.getD (n + k) false = (((prbsExt taps n N seed).map (· != 0))[k]?).getD false := by
    intro k
    simp only [a, List.getD_eq_getElem?_getD]
    rw [List.getElem?_append_right (by simp)]
    simp
  have hstate : ∀ j, j < n → a.getD (i + j) false = ((lfsrStep taps n)^[i] seed).testBit j := by
    intro j hj
    rw [testBit_iterate taps n seed hs i j hj]
    by_cases h : i + j < n
    · rw [if_pos h]
      simp only [a, List.getD_eq_getElem?_getD]
      rw [List.getElem?_append_left (by simpa using h), List.getElem?_map, List.getElem?_range h]
      rfl
    · rw [if_neg h]
      have : i + j = n + (i + j - n) := by omega
      rw [this, hal, out_getElem? _ _ _ _ _ (by omega)]
      simp
  rw [hal, out_getElem? _ _ _ _ _ hi]
  have e1 : n + i - n = i + 0 := by omega
  rw [e1, hstate 0 hn0]
  have hlag : n + i - prbsLag n = i + (n - prbsLag n) ∧ n - prbsLag n < n := by
    simp at hn
    rcases hn with rfl | rfl | rfl | rfl <;> simp [prbsLag] <;> omega
  rw [hlag.1, hstate _ hlag.2]
  rcases tapdict_cases ht with ⟨rfl, rfl⟩ | ⟨rfl, rfl⟩ | ⟨rfl, rfl⟩ | ⟨rfl, rfl⟩ <;> simp [fbBit, prbsLag]

/-- **C09** (zero seed): the zero seed produces only zeros. -/
theorem C09_prbs_zero_seed (n : Nat) (hn : n ∈ [7, 15, 23, 31]) (N : Nat) :
    makePrbsExtXOR n N (.int 0) = .ok (List.replicate N false) := by
  obtain ⟨taps, ht, hn0⟩ := tapdict_some hn
  rw [makePrbs_int ht]
  congr 1
  apply List.ext_getElem?
  intro i
  by_cases hi : i < N
  · rw [out_getElem? _ _ _ _ _ hi, List.getElem?_replicate, if_pos hi]
    have hz : ∀ k, (lfsrStep taps n)^[k] 0 = 0 := by
      intro k
      induction k with
      | zero => rfl
      | succ k ih => rw [Function.iterate_succ_apply, (linear_lfsrStep taps n hn0).zero, ih]
    rw [hz]
    rcases tapdict_cases ht with ⟨rfl, rfl⟩ | ⟨rfl, rfl⟩ | ⟨rfl, rfl⟩ | ⟨rfl, rfl⟩ <;> simp [fbBit]
  · rw [List.getElem?_eq_none (by simp [length_prbsExt]; omega), List.getElem?_eq_none (by simp; omega)]

/-- **C09** (generator): the infinite generator `lfsr_ext` yields the same bits as the compiled array
function `prbs_ext`, for every seed, tap list, register length and number of bits. -/
theorem C09_generator_agrees (taps : List Nat) (nbits seed N : Nat) :
    prbsExt taps nbits N seed = (List.range N).map (fun i => (lfsrExt seed taps nbits i).1) := by
  have hstate : ∀ i, (lfsrExt seed taps nbits i).2 = (lfsrStep taps nbits)^[i + 1] seed ∧
      (lfsrExt seed taps nbits i).1 = (fbBit taps nbits ((lfsrStep taps nbits)^[i] seed)).toNat := by
    intro i
    induction i with
    | zero => simp [lfsrExt, lfsrStep, feedback_eq]
    | succ i ih =>
      simp only [lfsrExt, ih.1, feedback_eq, and_true]
      rw [Function.iterate_succ_apply' _ (i + 1), lfsrStep, feedback_eq]
  apply List.ext_getElem?
  intro i
  by_cases hi : i < N
  · rw [prbsExt_getElem? _ _ _ _ _ hi, List.getElem?_map, List.getElem?_range hi]
    simp [(hstate i).2]
  · rw [List.getElem?_eq_none (by simp [length_prbsExt]; omega), List.getElem?_eq_none (by simp; omega)]

/-- **C09** (seed forms): a seed given as an array of at most 63 bits acts like the number it denotes (least
significant bit first), and no seed means all ones. -/
theorem C09_seed_forms (n N : Nat) (hn : n ∈ [7, 15, 23, 31]) (x : List Bool) (hx : x.length < 64) :
    (∃ v, v < 2 ^ x.length ∧ (∀ j, v.testBit j = x.getD j false) ∧
      makePrbsExtXOR n N (.bits x) = makePrbsExtXOR n N (.int v)) ∧
    makePrbsExtXOR n N .none = makePrbsExtXOR n N (.int (2 ^ n - 1)) := by
  obtain ⟨taps, ht, hn0⟩ := tapdict_some hn
  constructor
  · obtain ⟨h1, h2⟩ := bool2binGo_spec x 0 0 (by norm_num)
    refine ⟨bool2binGo x 0 0, by simpa using h1, fun j => by rw [h2]; simp, ?_⟩
    simp only [makePrbsExtXOR, ht, bool2bin, if_pos hx]
  · have : bool2bin (List.replicate n true) = .ok (2 ^ n - 1) := by
      simp at hn
      rcases hn with rfl | rfl | rfl | rfl <;> decide +kernel
    simp only [makePrbsExtXOR, this]

/-- Orders other than the four supported ones are refused. -/
theorem C09_unsupported_order (n N : Nat) (seed : Seed) (hn : n ∉ [7, 15, 23, 31]) :
    makePrbsExtXOR n N seed = .error .assertion := by
  have : tapdict n = none := by
    simp only [tapdict]
    split <;> simp_all
  simp only [makePrbsExtXOR, this]

example : makePrbsExtXOR 7 12 (.int 1) = .ok [true, false, false, false, false, false, true, true, false, false, false, false] := by
  decide +kernel
example : makePrbsExtXOR 7 5 .none = .ok [false, false, false, false, false] := by decide +kernel

/-! ### C72 -/

/-- **C72**: the Galois register `lfsr_int` with the masks used in the package, started from a nonzero `n`-bit
state, yields bits and states whose sequence has period exactly `2^n-1`; all states are nonzero `n`-bit
numbers and within one period every nonzero `n`-bit number occurs as a state. -/
theorem C72_galois_period (n mask : Nat) (hm : masks n = some mask) (seed : Nat) (h0 : seed ≠ 0) (hs : seed < 2 ^ n) :
    (∀ i, lfsrInt seed mask (i + (2 ^ n - 1)) = lfsrInt seed mask i) ∧
    (∀ i d, 0 < d → d < 2 ^ n - 1 → (lfsrInt seed mask (i + d)).2 ≠ (lfsrInt seed mask i).2) ∧
    (∀ i, (lfsrInt seed mask i).1 ≤ 1 ∧ (lfsrInt seed mask i).2 ≠ 0 ∧ (lfsrInt seed mask i).2 < 2 ^ n) ∧
    (∀ v, v ≠ 0 → v < 2 ^ n → ∃ i < 2 ^ n - 1, (lfsrInt seed mask i).2 = v) := by
  have hl := linear_lfsrInt hm
  have hper := minimalPeriod_lfsrInt hm hs h0
  set f := fun s => (lfsrIntStep mask s).2 with hf
  have hst : ∀ i, lfsrInt seed mask i = lfsrIntStep mask (f^[i] seed) := by
    intro i
    induction i with
    | zero => rfl
    | succ i ih => simp only [lfsrInt, ih, Function.iterate_succ_apply', hf]
  have hst2 : ∀ i, (lfsrInt seed mask i).2 = f^[1 + i] seed := by
    intro i; rw [hst, Nat.add_comm, Function.iterate_succ_apply']
  obtain ⟨himg, hinj⟩ := image_orbit hl hs h0 hper 1
  have hpos : 0 < 2 ^ n - 1 := by have := Nat.one_le_iff_ne_zero.2 h0; omega
  have hperi : ∀ i, f^[i + (2 ^ n - 1)] seed = f^[i] seed := by
    intro i
    rw [← hper, Function.iterate_add_apply, Function.iterate_minimalPeriod]
  refine ⟨fun i => by rw [hst, hst, hperi], ?_, ?_, ?_⟩
  · intro i d hd hdm he
    rw [hst2, hst2, ← Function.iterate_mod_minimalPeriod_eq (n := 1 + (i + d)),
      ← Function.iterate_mod_minimalPeriod_eq (n := 1 + i),
      Function.iterate_eq_iterate_iff_of_lt_minimalPeriod (Nat.mod_lt _ (by omega)) (Nat.mod_lt _ (by omega)),
      hper] at he
    have h2 : (1 + i) + d ≡ (1 + i) + 0 [MOD 2 ^ n - 1] := by
      simpa [Nat.ModEq, Nat.add_assoc] using he
    have h3 := Nat.ModEq.add_left_cancel' _ h2
    have := Nat.ModEq.eq_of_lt_of_lt h3 hdm hpos
    omega
  · intro i
    have hmod : (lfsrInt seed mask i).2 = f^[1 + i % (2 ^ n - 1)] seed := by
      rw [hst2, Nat.add_comm, Nat.add_comm 1, Function.iterate_succ_apply', Function.iterate_succ_apply', ← hper,
        Function.iterate_mod_minimalPeriod_eq]
    have hmem : f^[1 + i % (2 ^ n - 1)] seed ∈ Finset.Ico 1 (2 ^ n) := by
      rw [← himg]
      exact Finset.mem_image.2 ⟨i % (2 ^ n - 1), Finset.mem_range.2 (Nat.mod_lt _ hpos), rfl⟩
    rw [← hmod, Finset.mem_Ico] at hmem
    refine ⟨?_, by omega, hmem.2⟩
    rw [hst, (lfsrIntStep_eq hm (Gf2.iterate_app_cols hl i seed hs).2).1]
    cases (f^[i] seed).testBit (n - 1) <;> simp
  · intro v hv0 hv
    have hvmem : v ∈ Finset.Ico 1 (2 ^ n) := by rw [Finset.mem_Ico]; omega
    rw [← himg] at hvmem
    obtain ⟨i, hi, rfl⟩ := Finset.mem_image.1 hvmem
    exact ⟨i, Finset.mem_range.1 hi, hst2 i⟩

example : masks 7 = some 193 ∧ lfsrInt 1 193 6 = (1, 193 - 128) := by decide

/-! ### C71 -/

/-- The full statement of **C71**: with `nmodes` modes, every mode for which an order and a seed were given uses
them. -/
def C71_statement : Prop :=
  ∀ (draw : Nat → Nat × Nat) (N nmodes : Nat) (seed : List Seed) (order o : List Nat) (s : List Seed)
    (rows : List (List Bool)),
    prbsBits draw N nmodes seed order = .ok (o, s, rows) →
    ∀ i, i < nmodes → i < order.length → i < seed.length → o[i]? = order[i]? ∧ s[i]? = seed[i]?

/-- **C71 is false**: the lists are replaced inside the loop (signals.py:129-130), so from the second mode on the
given orders are not found any more and random ones are used.  Witness: three modes, orders `[7, 7]`. -/
theorem C71_false : ¬ C71_statement := by
  intro h
  have := h (fun _ => (15, 1)) 0 3 [.int 1, .int 2] [7, 7] [7, 15, 15] [.int 1, .int 1, .int 1] [[], [], []] (by rfl) 1
    (by decide) (by decide) (by decide)
  exact absurd this.1 (by decide)

theorem prbsBitsRows_ok (N : Nat) (order : List Nat) (seed : List Seed) (k i : Nat) (rows : List (List Bool))
    (h : prbsBitsRows N order seed k i = .ok rows) :
    rows.length = k ∧ ∀ j, j < k → ∃ o s row, order[i + j]? = some o ∧ seed[i + j]? = some s ∧
      rows[j]? = some row ∧ makePrbsExtXOR o N s = .ok row := by
  induction k generalizing i rows with
  | zero =>
    simp only [prbsBitsRows, Except.ok.injEq] at h
    subst h
    exact ⟨rfl, fun j hj => by omega⟩
  | succ k ih =>
    simp only [prbsBitsRows] at h
    cases ho : order[i]? with
    | none => rw [ho] at h; simp at h
    | some o =>
      cases hs : seed[i]? with
      | none => rw [ho, hs] at h; simp at h
      | some s =>
        rw [ho, hs] at h
        simp only [bind, Except.bind] at h
        cases hr : makePrbsExtXOR o N s with
        | error e => rw [hr] at h; simp at h
        | ok row =>
          rw [hr] at h
          simp only at h
          cases hrs : prbsBitsRows N order seed k (i + 1) with
          | error e => rw [hrs] at h; simp at h
          | ok rows' =>
            rw [hrs] at h
            simp only [pure, Except.pure, Except.ok.injEq] at h
            subst h
            obtain ⟨h1, h2⟩ := ih _ _ hrs
            refine ⟨by simp [h1], ?_⟩
            intro j hj
            cases j with
            | zero => exact ⟨o, s, row, ho, hs, rfl, hr⟩
            | succ j =>
              obtain ⟨o', s', row', h3, h4, h5, h6⟩ := h2 j (by omega)
              refine ⟨o', s', row', ?_, ?_, by simpa using h5, h6⟩
              · rw [← h3]; congr 1; omega
              · rw [← h4]; congr 1; omega

/-- **C71 (partial)**: if orders are given for all modes, every mode is the sequence of its given order and seed.
Missing: shorter order lists, where only the first mode is honoured. -/
theorem C71_prbsbits_partial (draw : Nat → Nat × Nat) (N nmodes : Nat) (seed : List Seed) (order o : List Nat)
    (s : List Seed) (rows : List (List Bool)) (hlen : nmodes ≤ order.length)
    (h : prbsBits draw N nmodes seed order = .ok (o, s, rows)) :
    o = order ∧ s = seed ∧ rows.length = nmodes ∧
    ∀ i, i < nmodes → ∃ oi si row, order[i]? = some oi ∧ seed[i]? = some si ∧ rows[i]? = some row ∧
      makePrbsExtXOR oi N si = .ok row := by
  simp only [prbsBits] at h
  rw [if_neg (by omega)] at h
  simp only [bind, Except.bind] at h
  cases hr : prbsBitsRows N order seed nmodes 0 with
  | error e => rw [hr] at h; simp at h
  | ok rows' =>
    rw [hr] at h
    simp only [pure, Except.pure, Except.ok.injEq, Prod.mk.injEq] at h
    obtain ⟨rfl, rfl, rfl⟩ := h
    obtain ⟨h1, h2⟩ := prbsBitsRows_ok _ _ _ _ _ _ hr
    refine ⟨rfl, rfl, h1, fun i hi => ?_⟩
    obtain ⟨a, b, c, h3⟩ := h2 i hi
    rw [Nat.zero_add] at h3
    exact ⟨a, b, c, h3⟩

example : ∃ rows, prbsBits (fun _ => (15, 1)) 3 2 [.int 1, .int 2] [7, 15] = .ok ([7, 15], [.int 1, .int 2], rows) ∧
    rows.length = 2 := ⟨_, rfl, rfl⟩

/-- **C71 (partial)**: with fewer orders than modes only the first mode gets its given order and seed, all others get the random
ones of their iteration. -/
theorem C71_short_partial (draw : Nat → Nat × Nat) (N nmodes o0 : Nat) (s0 : Seed) (seed : List Seed) (order o : List Nat)
    (s : List Seed) (rows : List (List Bool)) (hlen : (o0 :: order).length < nmodes)
    (h : prbsBits draw N nmodes (s0 :: seed) (o0 :: order) = .ok (o, s, rows)) :
    o = o0 :: (List.range' 1 (nmodes - 1)).map (fun i => (draw i).1) ∧
    s = s0 :: (List.range' 1 (nmodes - 1)).map (fun i => Seed.int (draw i).2) ∧
    rows.length = nmodes ∧
    ∀ i, i < nmodes → ∃ oi si row, o[i]? = some oi ∧ s[i]? = some si ∧ rows[i]? = some row ∧ makePrbsExtXOR oi N si = .ok row := by
  have key : ∀ n, prbsBitsLoop draw (o0 :: order) (s0 :: seed) (n + 1) =
      (o0 :: (List.range' 1 n).map (fun i => (draw i).1), s0 :: (List.range' 1 n).map (fun i => Seed.int (draw i).2)) := by
    intro n
    induction n with
    | zero => simp [prbsBitsLoop, prbsBitsBody]
    | succ n ih =>
      rw [prbsBitsLoop, ih]
      simp only [Nat.add_eq_zero_iff, Nat.one_ne_zero, and_false, if_false]
      unfold prbsBitsBody
      rw [List.getElem?_eq_none (by simp), List.range'_1_concat]
      simp [Nat.add_comm]
  have hn : nmodes = nmodes - 1 + 1 := by simp only [List.length_cons] at hlen; omega
  simp only [prbsBits] at h
  rw [if_pos hlen, hn, key] at h
  simp only [bind, Except.bind] at h
  rw [← hn] at h
  split at h
  · cases h
  · rename_i rows' hr
    simp only [pure, Except.pure, Except.ok.injEq, Prod.mk.injEq] at h
    obtain ⟨rfl, rfl, rfl⟩ := h
    obtain ⟨h1, h2⟩ := prbsBitsRows_ok _ _ _ _ _ _ hr
    refine ⟨rfl, rfl, h1, ?_⟩
    intro i hi
    obtain ⟨oi, si, row, a, b, c, d⟩ := h2 i hi
    rw [Nat.zero_add] at a b
    exact ⟨oi, si, row, a, b, c, d⟩

example : ∃ r, prbsBits (fun i => (15, i)) 2 3 [.int 9, .int 8] [7, 7] = .ok ([7, 15, 15], [.int 9, .int 1, .int 2], r) := ⟨_, rfl⟩

/-- **C71 (partial)**: orders but no seeds: every mode gets a random seed of its own. -/
theorem C71_no_seed_partial (draw : Nat → Nat × Nat) (N nmodes o0 : Nat) (order o : List Nat)
    (s : List Seed) (rows : List (List Bool)) (hlen : (o0 :: order).length < nmodes)
    (h : prbsBits draw N nmodes [] (o0 :: order) = .ok (o, s, rows)) :
    o[0]? = some o0 ∧ s = (List.range nmodes).map fun i => Seed.int (draw i).2 := by
  have key : ∀ n, (prbsBitsLoop draw (o0 :: order) [] (n + 1)).1.length = 2 * (n + 1) ∧
      (prbsBitsLoop draw (o0 :: order) [] (n + 1)).1[0]? = some o0 ∧
      (prbsBitsLoop draw (o0 :: order) [] (n + 1)).2 = (List.range (n + 1)).map fun i => Seed.int (draw i).2 := by
    intro n
    induction n with
    | zero => simp [prbsBitsLoop, prbsBitsBody]
    | succ n ih =>
      obtain ⟨h1, h2, h3⟩ := ih
      rw [prbsBitsLoop]
      generalize hL : prbsBitsLoop draw (o0 :: order) [] (n + 1) = L at *
      obtain ⟨lo, ls⟩ := L
      simp only [Nat.add_eq_zero_iff, Nat.one_ne_zero, and_false, if_false] at *
      subst h3
      unfold prbsBitsBody
      rw [List.getElem?_eq_getElem (by omega : n + 1 < lo.length), List.getElem?_eq_none (l := (List.range (n + 1)).map fun i => Seed.int (draw i).2) (by simp)]
      simp only
      refine ⟨by simp [h1]; omega, ?_, ?_⟩
      · rw [List.append_assoc, List.getElem?_append_left (by omega)]; exact h2
      · rw [List.range_succ (n := n + 1), List.map_append]; rfl
  have hn : nmodes = nmodes - 1 + 1 := by simp only [List.length_cons] at hlen; omega
  have hk := key (nmodes - 1)
  rw [← hn] at hk
  simp only [prbsBits] at h
  rw [if_pos hlen] at h
  simp only [bind, Except.bind] at h
  split at h
  · cases h
  · simp only [pure, Except.pure, Except.ok.injEq, Prod.mk.injEq] at h
    obtain ⟨rfl, rfl, rfl⟩ := h
    exact hk.2

example : ∃ o r, prbsBits (fun i => (15, i)) 2 2 [] [7] = .ok (o, [.int 0, .int 1], r) := ⟨_, _, rfl⟩

end Qampy
