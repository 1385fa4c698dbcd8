import Verif.Model.Constellation
import Verif.Lemmas.Np
import Verif.Tactics
import Mathlib.Data.Nat.Bitwise

/-! Lemmas on Gray codes and on index permutations. -/

namespace Qampy

theorem bin2gray_lt {n v : Nat} (h : v < 2 ^ n) : bin2gray v < 2 ^ n := by
  apply Nat.xor_lt_two_pow h
  exact lt_of_le_of_lt (Nat.shiftRight_le _ _) h

theorem bin2gray_inj {u v : Nat} (h : bin2gray u = bin2gray v) : u = v := by
  have hw : (u ^^^ v) ^^^ ((u ^^^ v) >>> 1) = 0 := by
    rw [Nat.shiftRight_xor_distrib]
    simp only [bin2gray] at h
    have : u ^^^ v ^^^ (u >>> 1 ^^^ v >>> 1) = (u ^^^ u >>> 1) ^^^ (v ^^^ v >>> 1) := by ac_rfl
    rw [this, h, Nat.xor_self]
  have hw2 : u ^^^ v = (u ^^^ v) >>> 1 := Nat.xor_eq_zero_iff.1 hw
  have hz : u ^^^ v = 0 := by
    rw [Nat.shiftRight_eq_div_pow] at hw2
    omega
  exact Nat.xor_eq_zero_iff.1 hz

theorem xor_succ (i : Nat) : ∃ k, i ^^^ (i + 1) = 2 ^ (k + 1) - 1 := by
  induction i using Nat.strong_induction_on with
  | _ i ih =>
    have hd : (i ^^^ (i + 1)) / 2 = i / 2 ^^^ (i + 1) / 2 := Nat.xor_div_two
    have hm : (i ^^^ (i + 1)) % 2 = 1 := by
      rw [Nat.xor_mod_two_eq_one]; omega
    rcases Nat.mod_two_eq_zero_or_one i with h | h
    · refine ⟨0, ?_⟩
      have e : (i + 1) / 2 = i / 2 := by omega
      rw [e, Nat.xor_self] at hd
      norm_num
      omega
    · obtain ⟨k, hk⟩ := ih (i / 2) (by omega)
      have e : (i + 1) / 2 = i / 2 + 1 := by omega
      rw [e, hk] at hd
      refine ⟨k + 1, ?_⟩
      have h1 : 1 ≤ 2 ^ (k + 1) := Nat.one_le_two_pow
      rw [pow_succ 2 (k + 1)]
      omega

theorem gray_succ (i : Nat) : ∃ k, bin2gray i ^^^ bin2gray (i + 1) = 2 ^ k := by
  obtain ⟨k, hk⟩ := xor_succ i
  refine ⟨k, ?_⟩
  have e : bin2gray i ^^^ bin2gray (i + 1) = (i ^^^ (i + 1)) ^^^ ((i ^^^ (i + 1)) >>> 1) := by
    simp only [bin2gray, Nat.shiftRight_xor_distrib]; ac_rfl
  rw [e, hk]
  apply Nat.eq_of_testBit_eq
  intro j
  rw [Nat.testBit_xor, Nat.testBit_shiftRight, Nat.testBit_two_pow_sub_one, Nat.testBit_two_pow_sub_one,
    Nat.testBit_two_pow]
  by_cases h1 : j < k
  · have a1 : j < k + 1 := by omega
    have a2 : 1 + j < k + 1 := by omega
    have a3 : ¬ k = j := by omega
    simp [a1, a2, a3]
  · by_cases h2 : j = k
    · subst h2; simp
    · have a1 : ¬ j < k + 1 := by omega
      have a2 : ¬ 1 + j < k + 1 := by omega
      have a3 : ¬ k = j := by omega
      simp [a1, a2, a3]

/-- Combined label of row `i` and column `j`. -/
theorem label_eq {N i j : Nat} (hj : j < 2 ^ N) :
    (bin2gray i <<< N) ||| bin2gray j = 2 ^ N * bin2gray i + bin2gray j := by
  rw [Nat.shiftLeft_eq, mul_comm, Nat.two_pow_add_eq_or_of_lt (bin2gray_lt hj)]

theorem label_xor {N i i' j j' : Nat} (hj : j < 2 ^ N) (hj' : j' < 2 ^ N) :
    ((bin2gray i <<< N) ||| bin2gray j) ^^^ ((bin2gray i' <<< N) ||| bin2gray j')
      = ((bin2gray i ^^^ bin2gray i') <<< N) ^^^ (bin2gray j ^^^ bin2gray j') := by
  have h1 : ∀ a b, b < 2 ^ N → (a <<< N) ||| b = (a <<< N) ^^^ b := by
    intro a b hb
    apply Nat.eq_of_testBit_eq
    intro t
    rw [Nat.testBit_or, Nat.testBit_xor, Nat.testBit_shiftLeft]
    by_cases ht : t < N
    · simp [show ¬ N ≤ t by omega]
    · rw [Nat.testBit_lt_two_pow (lt_of_lt_of_le hb (Nat.pow_le_pow_right (by norm_num) (by omega)))]
      simp
  rw [h1 _ _ (bin2gray_lt hj), h1 _ _ (bin2gray_lt hj'), Nat.shiftLeft_xor_distrib]
  ac_rfl

/-! Products of lists -/

theorem length_flatMap_const {α β : Type _} (l : List α) (f : α → List β) (c : Nat) (h : ∀ a ∈ l, (f a).length = c) :
    (l.flatMap f).length = l.length * c := by
  induction l with
  | nil => simp
  | cons a l ih =>
    rw [List.flatMap_cons, List.length_append, h a (by simp), ih (fun b hb => h b (by simp [hb])), List.length_cons]
    ring

theorem getElem?_flatMap_range {β : Type _} (n c : Nat) (f : Nat → Nat → β) (i j : Nat) (hi : i < n) (hj : j < c) :
    ((List.range n).flatMap fun i => (List.range c).map (f i))[i * c + j]? = some (f i j) := by
  induction n with
  | zero => omega
  | succ n ih =>
    rw [List.range_succ, List.flatMap_append]
    have hl : ((List.range n).flatMap fun i => (List.range c).map (f i)).length = n * c := by
      rw [length_flatMap_const _ _ c (by simp)]; simp
    by_cases h : i < n
    · rw [List.getElem?_append_left]
      · exact ih h
      · rw [hl]
        calc i * c + j < i * c + c := by omega
          _ = (i + 1) * c := by ring
          _ ≤ n * c := Nat.mul_le_mul_right _ h
    · have : i = n := by omega
      subst this
      rw [List.getElem?_append_right (by rw [hl]; omega), hl]
      simp only [List.flatMap_cons, List.flatMap_nil, List.append_nil]
      rw [show i * c + j - i * c = j by omega, List.getElem?_map, List.getElem?_range hj]
      rfl

theorem length_grayCodeQam (k : Nat) : (grayCodeQam k).length = 2 ^ k := by
  simp only [grayCodeQam]
  rw [length_flatMap_const _ _ (2 ^ (k / 2)) (by simp), List.length_range, ← pow_add]
  congr 1; omega

theorem grayCodeQam_lt (k : Nat) : ∀ g ∈ grayCodeQam k, g < 2 ^ k := by
  intro g hg
  simp only [grayCodeQam, List.mem_flatMap, List.mem_map, List.mem_range] at hg
  obtain ⟨i, hi, j, hj, rfl⟩ := hg
  rw [label_eq hj]
  have h1 := bin2gray_lt hi
  have h2 := bin2gray_lt hj
  have hk : 2 ^ k = 2 ^ (k / 2) * 2 ^ (k - k / 2) := by rw [← pow_add]; congr 1; omega
  rw [hk]
  calc 2 ^ (k / 2) * bin2gray i + bin2gray j < 2 ^ (k / 2) * bin2gray i + 2 ^ (k / 2) := by omega
    _ = 2 ^ (k / 2) * (bin2gray i + 1) := by ring
    _ ≤ _ := Nat.mul_le_mul_left _ h1

theorem nodup_prod {α β γ : Type _} (l : List α) (m : List β) (f : α → β → γ) (hl : l.Nodup) (hm : m.Nodup)
    (hf : ∀ a ∈ l, ∀ b ∈ m, ∀ a' ∈ l, ∀ b' ∈ m, f a b = f a' b' → a = a' ∧ b = b') :
    (l.flatMap fun a => m.map (f a)).Nodup := by
  rw [List.nodup_flatMap]
  constructor
  · intro a ha
    apply List.Nodup.map_on _ hm
    intro b hb b' hb' h
    exact (hf a ha b hb a ha b' hb' h).2
  · apply List.Pairwise.imp_of_mem _ hl
    intro a a' ha ha' hne
    simp only [Function.onFun]
    intro x hx hx'
    obtain ⟨b, hb, rfl⟩ := List.mem_map.1 hx
    obtain ⟨b', hb', h⟩ := List.mem_map.1 hx'
    exact hne (hf a' ha' b' hb' a ha b hb h).1.symm

theorem nodup_grayCodeQam (k : Nat) : (grayCodeQam k).Nodup := by
  simp only [grayCodeQam]
  apply nodup_prod _ _ _ List.nodup_range List.nodup_range
  intro i hi j hj i' hi' j' hj' h
  simp only [List.mem_range] at hi hj hi' hj'
  rw [label_eq hj, label_eq hj'] at h
  have h1 := bin2gray_lt hj
  have h2 := bin2gray_lt hj'
  have hd := congrArg (· / 2 ^ (k / 2)) h
  have hm := congrArg (· % 2 ^ (k / 2)) h
  simp only [Nat.mul_add_mod, Nat.mod_eq_of_lt h1, Nat.mod_eq_of_lt h2] at hm
  simp only [Nat.mul_add_div (show 2 ^ (k / 2) > 0 by positivity), Nat.div_eq_of_lt h1, Nat.div_eq_of_lt h2,
    add_zero] at hd
  exact ⟨bin2gray_inj hd, bin2gray_inj hm⟩

/-! Index permutations -/

/-- A list of numbers below its length without repetitions (a permutation of `0..n-1`). -/
structure IsPerm (n : Nat) (l : List Nat) : Prop where
  len : l.length = n
  lt : ∀ g ∈ l, g < n
  nodup : l.Nodup

theorem IsPerm.surj {n : Nat} {l : List Nat} (h : IsPerm n l) {v : Nat} (hv : v < n) : v ∈ l := by
  have hsub : l ⊆ List.range n := fun g hg => List.mem_range.2 (h.lt g hg)
  have hperm : l.Perm (List.range n) := by
    apply List.Subperm.perm_of_length_le (List.subperm_of_subset h.nodup hsub)
    simp [h.len]
  exact hperm.symm.subset (List.mem_range.2 hv)

theorem IsPerm.qam (k : Nat) : IsPerm (2 ^ k) (grayCodeQam k) :=
  ⟨length_grayCodeQam k, grayCodeQam_lt k, nodup_grayCodeQam k⟩

theorem IsPerm.psk (k : Nat) : IsPerm (2 ^ k) (grayCodePsk k) where
  len := by simp [grayCodePsk]
  lt := by
    intro g hg
    obtain ⟨i, hi, rfl⟩ := List.mem_map.1 hg
    exact bin2gray_lt (List.mem_range.1 hi)
  nodup := List.Nodup.map (fun _ _ h => bin2gray_inj h) List.nodup_range

theorem scatter_fold (code : List Nat) (s : Nat) (u : List Nat) (hnd : code.Nodup)
    (hlt : ∀ g ∈ code, g < u.length) :
    ((code.zipIdx s).foldl (fun u (g, i) => u.set g i) u).length = u.length ∧
    (∀ i g : Nat, code[i]? = some g → ((code.zipIdx s).foldl (fun u (g, i) => u.set g i) u)[g]? = some (s + i)) ∧
    (∀ g : Nat, g ∉ code → ((code.zipIdx s).foldl (fun u (g, i) => u.set g i) u)[g]? = u[g]?) := by
  induction code generalizing s u with
  | nil => simp
  | cons c code ih =>
    simp only [List.zipIdx_cons, List.foldl_cons]
    have hnd' := List.nodup_cons.1 hnd
    obtain ⟨h1, h2, h3⟩ := ih (s + 1) (u.set c s) hnd'.2 (by
      intro g hg; rw [List.length_set]; exact hlt g (by simp [hg]))
    refine ⟨by rw [h1, List.length_set], ?_, ?_⟩
    · intro i g hg
      cases i with
      | zero =>
        have : c = g := by simpa using hg
        subst this
        rw [h3 c hnd'.1, List.getElem?_set_self (hlt c (by simp))]
        simp
      | succ i =>
        rw [h2 i g (by simpa using hg)]
        congr 1; omega
    · intro g hg
      simp only [List.mem_cons, not_or] at hg
      rw [h3 g hg.2, List.getElem?_set_ne (fun h => hg.1 h.symm)]

theorem scatter_spec {n : Nat} {code : List Nat} (h : IsPerm n code) :
    (scatter code).length = n ∧ ∀ i g : Nat, code[i]? = some g → (scatter code)[g]? = some i := by
  obtain ⟨h1, h2, -⟩ := scatter_fold code 0 (List.replicate code.length 0) h.nodup (by
    intro g hg; rw [List.length_replicate, h.len]; exact h.lt g hg)
  refine ⟨by rw [scatter, h1, List.length_replicate, h.len], fun i g hg => ?_⟩
  rw [scatter, h2 i g hg]; simp

theorem gather_length {α : Type _} (s : List α) (u : List Nat) (h : ∀ i ∈ u, i < s.length) :
    (gather s u).length = u.length ∧ ∀ j : Nat, (gather s u)[j]? = (u[j]?).bind (s[·]?) := by
  induction u with
  | nil => simp [gather]
  | cons i u ih =>
    obtain ⟨h1, h2⟩ := ih (fun j hj => h j (by simp [hj]))
    have hlt : i < s.length := h i (by simp)
    have hi : s[i]? = some s[i] := List.getElem?_eq_getElem hlt
    have e : gather s (i :: u) = s[i] :: gather s u := by
      simp only [gather]
      rw [List.filterMap_cons, hi]
    rw [e]
    refine ⟨by simp [h1], fun j => ?_⟩
    cases j with
    | zero => simp [hi]
    | succ j => simpa using h2 j

/-- The defining property of the coded symbols: the symbol with index `i` sits at its label. -/
theorem codedSymbols_spec {α : Type _} {n : Nat} {code : List Nat} (h : IsPerm n code) (symbols : List α)
    (hs : symbols.length = n) :
    (codedSymbols symbols code).length = n ∧
    ∀ i g : Nat, code[i]? = some g → (codedSymbols symbols code)[g]? = symbols[i]? := by
  obtain ⟨h1, h2⟩ := scatter_spec h
  have hlt : ∀ i ∈ scatter code, i < symbols.length := by
    intro i hi
    obtain ⟨g, hg⟩ := List.getElem?_of_mem hi
    have hgn : g < n := by rw [← h1]; exact (List.getElem?_eq_some_iff.1 hg).1
    obtain ⟨j, hj⟩ := List.getElem?_of_mem (h.surj hgn)
    rw [h2 j g hj] at hg
    have : j = i := by simpa using hg
    subst this
    rw [hs, ← h.len]
    exact (List.getElem?_eq_some_iff.1 hj).1
  obtain ⟨h3, h4⟩ := gather_length symbols (scatter code) hlt
  refine ⟨by rw [codedSymbols, h3, h1], fun i g hg => ?_⟩
  rw [codedSymbols, h4 g, h2 i g hg]
  rfl

theorem codedSymbols_perm {α : Type _} {n : Nat} {code : List Nat} (h : IsPerm n code) (symbols : List α)
    (hs : symbols.length = n) : (codedSymbols symbols code).Perm symbols := by
  obtain ⟨h1, h2⟩ := scatter_spec h
  have hperm : (scatter code).Perm (List.range n) := by
    have hnd : (scatter code).Nodup := by
      rw [List.nodup_iff_getElem?_ne_getElem?]
      intro a b hab hb he
      have hbn : b < n := by rw [← h1]; exact hb
      obtain ⟨ja, hja⟩ := List.getElem?_of_mem (h.surj (show a < n by omega))
      obtain ⟨jb, hjb⟩ := List.getElem?_of_mem (h.surj hbn)
      rw [h2 ja a hja, h2 jb b hjb] at he
      have : ja = jb := by simpa using he
      subst this
      rw [hja] at hjb
      have : a = b := by simpa using hjb
      omega
    apply List.Subperm.perm_of_length_le (List.subperm_of_subset hnd _)
    · simp [h1]
    · intro i hi
      rw [List.mem_range]
      obtain ⟨g, hg⟩ := List.getElem?_of_mem hi
      have hgn : g < n := by rw [← h1]; exact (List.getElem?_eq_some_iff.1 hg).1
      obtain ⟨j, hj⟩ := List.getElem?_of_mem (h.surj hgn)
      rw [h2 j g hj] at hg
      have : j = i := by simpa using hg
      subst this
      rw [← h.len]
      exact (List.getElem?_eq_some_iff.1 hj).1
  have h3 : (codedSymbols symbols code).Perm (gather symbols (List.range n)) := by
    rw [codedSymbols, gather, gather]
    exact hperm.filterMap _
  have h4 : gather symbols (List.range n) = symbols := by
    obtain ⟨h5, h6⟩ := gather_length symbols (List.range n) (by intro i hi; rw [hs]; exact List.mem_range.1 hi)
    apply List.ext_getElem?
    intro i
    rw [h6 i]
    by_cases hi : i < n
    · rw [List.getElem?_range hi]; rfl
    · rw [List.getElem?_eq_none (by simpa using hi), List.getElem?_eq_none (by omega)]; rfl
  rwa [h4] at h3

/-! Bits of labels -/

theorem length_encodingRow (k i : Nat) : (encodingRow k i).length = k := by simp [encodingRow]

theorem encodingRow_getElem? (k i t : Nat) (ht : t < k) : (encodingRow k i)[t]? = some (i.testBit (k - 1 - t)) := by
  rw [encodingRow, List.getElem?_reverse (by simpa using ht)]
  simp only [List.length_map, List.length_range]
  rw [List.getElem?_map, List.getElem?_range (by omega)]
  simp only [Option.map_some, Option.some.injEq]
  rw [Nat.one_shiftLeft, Nat.and_two_pow]
  cases i.testBit (k - 1 - t) <;> simp

theorem bitsToIdx_lt (l : List Bool) : bitsToIdx l < 2 ^ l.length := by
  induction l with
  | nil => simp [bitsToIdx]
  | cons b l ih =>
    simp only [bitsToIdx, List.length_cons, pow_succ]
    cases b <;> simp <;> omega

theorem testBit_bitsToIdx (l : List Bool) (t : Nat) (ht : t < l.length) :
    (bitsToIdx l).testBit (l.length - 1 - t) = l.getD t false := by
  induction l generalizing t with
  | nil => simp at ht
  | cons b l ih =>
    simp only [bitsToIdx, List.length_cons]
    rw [mul_comm, Nat.testBit_two_pow_mul_add _ (bitsToIdx_lt l)]
    cases t with
    | zero =>
      rw [if_neg (by omega)]
      have : l.length + 1 - 1 - 0 - l.length = 0 := by omega
      rw [this]
      cases b <;> rfl
    | succ t =>
      simp only [List.length_cons] at ht
      rw [if_pos (by omega), List.getD_cons_succ, ← ih t (by omega)]
      congr 1; omega

theorem encodingRow_bitsToIdx (l : List Bool) : encodingRow l.length (bitsToIdx l) = l := by
  apply List.ext_getElem?
  intro t
  by_cases ht : t < l.length
  · rw [encodingRow_getElem? _ _ _ ht, testBit_bitsToIdx l t ht, List.getD_eq_getElem?_getD,
      List.getElem?_eq_getElem ht]; rfl
  · rw [List.getElem?_eq_none (by rw [length_encodingRow]; omega), List.getElem?_eq_none (by omega)]

theorem bitsToIdx_encodingRow (k i : Nat) (hi : i < 2 ^ k) : bitsToIdx (encodingRow k i) = i := by
  apply Nat.eq_of_testBit_eq
  intro j
  have hl := length_encodingRow k i
  by_cases hj : j < k
  · have := testBit_bitsToIdx (encodingRow k i) (k - 1 - j) (by omega)
    rw [hl] at this
    have e : k - 1 - (k - 1 - j) = j := by omega
    rw [e] at this
    rw [this, List.getD_eq_getElem?_getD, encodingRow_getElem? _ _ _ (by omega), e]; rfl
  · have h1 := bitsToIdx_lt (encodingRow k i)
    rw [hl] at h1
    rw [Nat.testBit_lt_two_pow (lt_of_lt_of_le h1 (Nat.pow_le_pow_right (by norm_num) (by omega))),
      Nat.testBit_lt_two_pow (lt_of_lt_of_le hi (Nat.pow_le_pow_right (by norm_num) (by omega)))]

theorem length_chunks (k n : Nat) (l : List Bool) : (chunks k n l).length = n := by
  induction n generalizing l with
  | zero => rfl
  | succ n ih => simp [chunks, ih]

theorem chunks_spec (k n : Nat) (l : List Bool) (h : n * k ≤ l.length) :
    (∀ c ∈ chunks k n l, c.length = k) ∧ (chunks k n l).flatten = l.take (n * k) := by
  induction n generalizing l with
  | zero => simp [chunks]
  | succ n ih =>
    rw [Nat.add_mul, one_mul] at h
    obtain ⟨h1, h2⟩ := ih (l.drop k) (by rw [List.length_drop]; omega)
    simp only [chunks]
    constructor
    · intro c hc
      rcases List.mem_cons.1 hc with rfl | hc
      · rw [List.length_take]; omega
      · exact h1 c hc
    · rw [List.flatten_cons, h2, Nat.add_mul, one_mul, Nat.add_comm, List.take_add]

end Qampy
