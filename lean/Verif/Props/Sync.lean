import Verif.Model.Sync
import Verif.Lemmas.Np
import Mathlib.Algebra.Order.Field.Rat
import Mathlib.Tactic.Positivity
import Mathlib.Tactic.FieldSimp
import Mathlib.Tactic.LinearCombination
import Mathlib.Tactic.Linarith
import Mathlib.Tactic.Zify
import Mathlib.Tactic.Ring

/-!
Properties C01, C02, C05, C06, C57: alignment and comparison of data sequences.
-/

namespace Qampy

variable {α : Type _}

/-! ### Specification: periodic repetition -/

/-- `t` is the pattern `p` repeated periodically in both directions, with the start of the
pattern at index `k`. -/
def IsPeriodicExtension (p : List α) (k : Int) (t : List α) : Prop :=
  ∀ i : Nat, i < t.length → t[i]? = p[(((i : Int) - k) % (p.length : Int)).toNat]?

/-! ### Helper lemmas -/

theorem adjustTo_back {data : List α} (h : data ≠ []) (N : Nat) :
    ∃ t, adjustTo data N true = .ok t ∧ t.length = N ∧ ∀ i, i < N → t[i]? = data[i % data.length]? := by
  have hl : 0 < data.length := List.length_pos_iff.2 h
  have hN : (data.length) * (N / data.length) + N % data.length = N := Nat.div_add_mod _ _
  have hr : N % data.length < data.length := Nat.mod_lt _ hl
  have hK : ((N : Int) / (data.length : Int)).toNat = N / data.length := by
    rw [← Int.natCast_ediv, Int.toNat_natCast]
  have hrem : (N : Int) % (data.length : Int) = ((N % data.length : Nat) : Int) := by
    rw [Int.natCast_emod]
  refine ⟨Np.tile data (N / data.length) ++ data.take (N % data.length), ?_, ?_, ?_⟩
  · simp only [adjustTo, hK, hrem]
    rw [if_neg (by omega)]
    simp only [if_true, Np.sliceTo, Np.clamp]
    rw [if_neg (by omega)]
    congr 2
    congr 1
    simp only [Int.toNat_natCast]; omega
  · simp only [List.length_append, Np.length_tile, List.length_take]
    rw [Nat.mul_comm]; omega
  · intro i hi
    by_cases hlt : i < N / data.length * data.length
    · rw [List.getElem?_append_left (by simpa using hlt), Np.getElem?_tile _ _ _ hlt]
    · rw [List.getElem?_append_right (by simpa using hlt)]
      simp only [Np.length_tile]
      have h2 : i - N / data.length * data.length < N % data.length := by
        rw [Nat.mul_comm] at hlt ⊢; omega
      rw [List.getElem?_take, if_pos h2]
      congr 1
      have : i = (i - N / data.length * data.length) + data.length * (N / data.length) := by
        rw [Nat.mul_comm] at hlt ⊢; omega
      conv_rhs => rw [this]
      rw [Nat.add_mul_mod_self_left, Nat.mod_eq_of_lt (by omega)]

/-- Number of elements that `_adjust_to(data, offset, back=False)` returns. -/
def frontLen (L : Nat) (offset : Int) : Nat :=
  (if offset % (L : Int) = 0 then L else (offset % (L : Int)).toNat) + (offset / (L : Int)).toNat * L

theorem adjustTo_front {data : List α} (h : data ≠ []) (k : Int) :
    ∃ t, adjustTo data k false = .ok t ∧ t.length = frontLen data.length k ∧
      IsPeriodicExtension data k t ∧ ((t.length : Int) - k) % (data.length : Int) = 0 := by
  have hl : 0 < data.length := List.length_pos_iff.2 h
  obtain ⟨r, hr⟩ : ∃ r : Nat, (r : Int) = k % (data.length : Int) :=
    ⟨(k % (data.length : Int)).toNat, Int.toNat_of_nonneg (Int.emod_nonneg _ (by omega))⟩
  have hrl : (r : Int) < data.length := hr ▸ Int.emod_lt_of_pos _ (by omega)
  have hmod : (data.length : Int) * (k / (data.length : Int)) + r = k := by
    rw [hr]; exact Int.mul_ediv_add_emod _ _
  -- the leading part
  obtain ⟨q, hq⟩ : ∃ q : Nat, q = if r = 0 then data.length else r := ⟨_, rfl⟩
  have hql : q ≤ data.length := by rw [hq]; split <;> omega
  have hslice : Np.sliceFrom data (-(r : Int)) = data.drop (data.length - q) := by
    simp only [Np.sliceFrom, Np.clamp, hq]
    by_cases h0 : r = 0
    · subst h0; simp
    · rw [if_pos (by omega), if_neg h0]; congr 1; omega
  refine ⟨data.drop (data.length - q) ++ Np.tile data (k / (data.length : Int)).toNat, ?_, ?_, ?_, ?_⟩
  · simp only [adjustTo]
    rw [if_neg (by omega), ← hr, hslice]
    simp
  · simp only [List.length_append, List.length_drop, Np.length_tile, frontLen, ← hr, hq]
    by_cases h0 : r = 0
    · subst h0; simp
    · rw [if_neg h0, if_neg (by omega)]; simp; omega
  · intro i hi
    simp only [List.length_append, List.length_drop, Np.length_tile] at hi
    have hkq : ∀ j : Int, (j - k) % (data.length : Int) = (j - q) % (data.length : Int) := by
      intro j
      have e : j - k = (j - q) + (data.length : Int) * (- (k / (data.length : Int)) +
          (if r = 0 then 1 else 0)) := by
        rw [hq]
        split
        · rename_i h0
          subst h0
          linear_combination hmod
        · linear_combination hmod
      rw [e, Int.add_mul_emod_self_left]
    rw [hkq]
    by_cases hlt : i < q
    · rw [List.getElem?_append_left (by simp; omega), List.getElem?_drop]
      congr 1
      have : ((i : Int) - q) % (data.length : Int) = (i : Int) - q + data.length := by
        rw [← Int.add_emod_right]
        exact Int.emod_eq_of_lt (by omega) (by omega)
      omega
    · rw [List.getElem?_append_right (by simp; omega)]
      simp only [List.length_drop]
      rw [Np.getElem?_tile _ _ _ (by omega)]
      congr 1
      have : ((i : Int) - q) % (data.length : Int) = (((i - q) % data.length : Nat) : Int) := by
        rw [Int.natCast_emod]; congr 1; omega
      rw [this]
      simp only [Int.toNat_natCast]
      congr 1
      omega
  · simp only [List.length_append, List.length_drop, Np.length_tile]
    by_cases hk : 0 ≤ k / (data.length : Int)
    · have e : (((data.length - (data.length - q) + (k / (data.length : Int)).toNat * data.length : Nat) : Int) - k)
          = (data.length : Int) * (if r = 0 then 1 else 0) := by
        push_cast [Int.toNat_of_nonneg hk]
        rw [Nat.cast_sub (by omega), Nat.cast_sub (by omega), hq]
        split
        · rename_i h0
          subst h0
          linear_combination hmod
        · linear_combination hmod
      rw [e, Int.mul_emod_right]
    · have e : (((data.length - (data.length - q) + (k / (data.length : Int)).toNat * data.length : Nat) : Int) - k)
          = (data.length : Int) * ((if r = 0 then 1 else 0) - k / (data.length : Int)) := by
        have : (k / (data.length : Int)).toNat = 0 := by omega
        rw [this]
        push_cast
        rw [Nat.cast_sub (by omega), Nat.cast_sub (by omega), hq]
        split
        · rename_i h0
          subst h0
          linear_combination hmod
        · linear_combination hmod
      rw [e, Int.mul_emod_right]

theorem extendTo_spec {data : List α} (h : data ≠ []) (N : Nat) (k : Int)
    (hroom : k = 0 ∨ frontLen data.length k ≤ N) :
    ∃ t, extendTo data N k = .ok t ∧ t.length = N ∧ IsPeriodicExtension data k t := by
  have hl : 0 < data.length := List.length_pos_iff.2 h
  by_cases hk : k = 0
  · subst hk
    obtain ⟨t, ht, hlen, hget⟩ := adjustTo_back h N
    refine ⟨t, by simp [extendTo, ht], hlen, ?_⟩
    intro i hi
    rw [hget i (by omega)]
    simp only [Int.sub_zero]
    rw [← Int.natCast_emod, Int.toNat_natCast]
  · have hroom := hroom.resolve_left hk
    obtain ⟨t1, h1, hlen1, hper1, hres⟩ := adjustTo_front h k
    have hle : t1.length ≤ N := by omega
    obtain ⟨t2, h2, hlen2, hget2⟩ := adjustTo_back h (N - t1.length)
    refine ⟨t1 ++ t2, ?_, by simp; omega, ?_⟩
    · simp only [extendTo, if_neg hk, h1]
      have : ((N : Int) - t1.length) = ((N - t1.length : Nat) : Int) := by omega
      simp only [bind, Except.bind, this, h2]
      rfl
    · intro i hi
      simp only [List.length_append] at hi
      by_cases hlt : i < t1.length
      · rw [List.getElem?_append_left hlt, hper1 i hlt]
      · rw [List.getElem?_append_right (by omega), hget2 _ (by omega)]
        congr 1
        have e : ((i : Int) - k) % (data.length : Int) = (((i - t1.length) % data.length : Nat) : Int) := by
          have e1 : (i : Int) - k = ((i - t1.length : Nat) : Int) + ((t1.length : Int) - k) := by omega
          rw [e1, Int.add_emod, hres, Int.add_zero, Int.emod_emod, Int.natCast_emod]
        rw [e, Int.toNat_natCast]

/-! ### C01 -/

/-- **C01** (tx shorter than rx).  `adjust_data_length(tx, rx, method="extend", offset=k)` leaves `rx`
alone and returns the pattern `tx` extended periodically to the length of `rx` with its start at
index `k`.  The hypothesis says that the leading part produced for the offset fits into `rx`; it holds
for every negative offset and for `0 ≤ k ≤ len(rx)` unless `k` is a multiple of `len(tx)` closer than
`len(tx)` to the end (see `C01_room_of_neg`, `C01_room_of_not_dvd`). -/
theorem C01_extend_tx (tx rx : List α) (k : Int) (htx : tx ≠ []) (hlen : tx.length < rx.length)
    (hroom : k = 0 ∨ frontLen tx.length k ≤ rx.length) :
    ∃ t, adjustDataLength tx rx .extend k = .ok (t, rx) ∧ t.length = rx.length ∧
      IsPeriodicExtension tx k t := by
  obtain ⟨t, h1, h2, h3⟩ := extendTo_spec htx rx.length k hroom
  refine ⟨t, ?_, h2, h3⟩
  simp only [adjustDataLength]
  rw [if_neg (by omega), if_pos hlen, h1]
  rfl

/-- **C01** (rx shorter than tx): the same with the roles exchanged. -/
theorem C01_extend_rx (tx rx : List α) (k : Int) (hrx : rx ≠ []) (hlen : rx.length < tx.length)
    (hroom : k = 0 ∨ frontLen rx.length k ≤ tx.length) :
    ∃ t, adjustDataLength tx rx .extend k = .ok (tx, t) ∧ t.length = tx.length ∧
      IsPeriodicExtension rx k t := by
  obtain ⟨t, h1, h2, h3⟩ := extendTo_spec hrx tx.length k hroom
  refine ⟨t, ?_, h2, h3⟩
  simp only [adjustDataLength]
  rw [if_pos (by omega), h1]
  rfl

/-- The room hypothesis of C01 holds for all negative offsets. -/
theorem C01_room_of_neg (L N : Nat) (k : Int) (hL : 0 < L) (h : L ≤ N) (hk : k < 0) :
    frontLen L k ≤ N := by
  have h1 : k / (L : Int) < 0 := Int.ediv_neg_of_neg_of_pos hk (by omega)
  have h2 : k % (L : Int) < L := Int.emod_lt_of_pos _ (by omega)
  simp only [frontLen]
  have : (k / (L : Int)).toNat = 0 := by omega
  rw [this]
  split <;> omega

/-- The room hypothesis of C01 holds for `0 ≤ k ≤ N` when `k` is not a multiple of the pattern length. -/
theorem C01_room_of_not_dvd (L N : Nat) (k : Int) (hL : 0 < L) (hk : 0 ≤ k) (hkN : k ≤ N)
    (hd : ¬ (L : Int) ∣ k) : frontLen L k ≤ N := by
  have h0 : k % (L : Int) ≠ 0 := fun h => hd (Int.dvd_of_emod_eq_zero h)
  have h2 : 0 ≤ k % (L : Int) := Int.emod_nonneg _ (by omega)
  have h3 : 0 ≤ k / (L : Int) := Int.ediv_nonneg hk (by omega)
  have h4 := Int.mul_ediv_add_emod k L
  simp only [frontLen, if_neg h0]
  zify
  rw [Int.toNat_of_nonneg h2, Int.toNat_of_nonneg h3]
  linarith [mul_comm (L : Int) (k / L)]

/-- ... and for multiples of the pattern length that leave one more pattern of room. -/
theorem C01_room_of_dvd (L N : Nat) (k : Int) (hk : 0 ≤ k) (hkN : k + L ≤ N)
    (hd : (L : Int) ∣ k) : frontLen L k ≤ N := by
  have h0 : k % (L : Int) = 0 := Int.emod_eq_zero_of_dvd hd
  have h3 : 0 ≤ k / (L : Int) := Int.ediv_nonneg hk (by omega)
  have h4 := Int.mul_ediv_add_emod k L
  simp only [frontLen, if_pos h0]
  zify
  rw [Int.toNat_of_nonneg h3]
  linarith [mul_comm (L : Int) (k / L)]

-- non-vacuity: a pattern of 3 in a reference of 7 with offset 2, -4 and 3
example : adjustDataLength [1, 2, 3] [0, 0, 0, 0, 0, 0, 0] .extend 2
    = .ok ([2, 3, 1, 2, 3, 1, 2], [0, 0, 0, 0, 0, 0, 0]) ∧ frontLen 3 2 ≤ 7 := by decide
example : adjustDataLength [1, 2, 3] [0, 0, 0, 0, 0, 0, 0] .extend (-4)
    = .ok ([2, 3, 1, 2, 3, 1, 2], [0, 0, 0, 0, 0, 0, 0]) ∧ frontLen 3 (-4) ≤ 7 := by decide
example : adjustDataLength [1, 2, 3] [0, 0, 0, 0, 0, 0, 0] .extend 3
    = .ok ([1, 2, 3, 1, 2, 3, 1], [0, 0, 0, 0, 0, 0, 0]) ∧ frontLen 3 3 ≤ 7 := by decide

/-! ### C02 -/

/-- The full statement of **C02**: whatever the method and the offset, the two results are equally long. -/
def C02_statement (α : Type _) : Prop :=
  ∀ (tx rx t r : List α) (m : AdjustMethod) (k : Int), tx ≠ [] → rx ≠ [] →
    adjustDataLength tx rx m k = .ok (t, r) → t.length = r.length

/-- **C02** is false for the code: with the default method and an offset that is a nonzero multiple of the
pattern length, `data[-0:]` adds one pattern too many (ber_functions.py:319 and 276). -/
theorem C02_false : ¬ C02_statement Nat := by
  intro h
  have := h [1, 2] [0, 0, 0, 0, 0] [1, 2, 1, 2, 1, 2, 1] [0, 0, 0, 0, 0] .none 2 (by decide) (by decide)
    (by decide)
  exact absurd this (by decide)

/-- **C02** also fails for `method="extend"` when the offset leaves no room. -/
theorem C02_false_extend : ¬ (∀ (tx rx t r : List Nat) (k : Int), tx ≠ [] → rx ≠ [] →
    adjustDataLength tx rx .extend k = .ok (t, r) → t.length = r.length) := by
  intro h
  have := h [1, 2] [0, 0, 0, 0, 0] [1, 2, 1, 2, 1, 2, 1] [0, 0, 0, 0, 0] 4 (by decide) (by decide)
    (by decide)
  exact absurd this (by decide)

/-- **C02 (partial)**: equal lengths for `truncate` (any lengths, any offset), for `extend` whenever
the leading part fits, and for `None` with offset zero.  Missing: `None` with nonzero offset and `extend` with
offsets leaving no room, where the code returns sequences of different length. -/
theorem C02_equal_length_partial (tx rx : List α) (m : AdjustMethod) (k : Int) (htx : tx ≠ [])
    (hrx : rx ≠ [])
    (hm : m = .truncate ∨ k = 0 ∨
      (m = .extend ∧ frontLen (min tx.length rx.length) k ≤ max tx.length rx.length)) :
    ∃ t r, adjustDataLength tx rx m k = .ok (t, r) ∧ t.length = r.length := by
  have hslice : ∀ (l : List α) (n : Nat), n ≤ l.length → (Np.sliceTo l n).length = n := by
    intro l n hn
    simp only [Np.sliceTo, Np.clamp, List.length_take]
    rw [if_neg (by omega)]
    simp only [Int.toNat_natCast]; omega
  rcases Nat.lt_trichotomy tx.length rx.length with hlt | heq | hgt
  · cases m with
    | truncate =>
      refine ⟨tx, Np.sliceTo rx tx.length, ?_, (hslice rx _ (by omega)).symm⟩
      simp only [adjustDataLength]; rw [if_neg (by omega), if_pos hlt]
    | none =>
      have hk : k = 0 := by simpa using hm
      obtain ⟨t, h1, h2, _⟩ := adjustTo_back htx rx.length
      refine ⟨t, rx, ?_, h2⟩
      simp only [adjustDataLength, extendToNone]
      rw [if_neg (by omega), if_pos hlt, if_pos hk, h1]; rfl
    | extend =>
      have hroom : k = 0 ∨ frontLen tx.length k ≤ rx.length := by
        rw [min_eq_left (by omega), max_eq_right (by omega)] at hm
        simpa using hm
      obtain ⟨t, h1, h2, _⟩ := C01_extend_tx tx rx k htx hlt hroom
      exact ⟨t, rx, h1, h2⟩
  · refine ⟨tx, rx, ?_, heq⟩
    cases m <;> simp only [adjustDataLength] <;> rw [if_neg (by omega), if_neg (by omega)]
  · cases m with
    | truncate =>
      refine ⟨Np.sliceTo tx rx.length, rx, ?_, hslice tx _ (by omega)⟩
      simp only [adjustDataLength]; rw [if_pos hgt]
    | none =>
      refine ⟨Np.sliceTo tx rx.length, rx, ?_, hslice tx _ (by omega)⟩
      simp only [adjustDataLength]; rw [if_pos hgt]
    | extend =>
      have hroom : k = 0 ∨ frontLen rx.length k ≤ tx.length := by
        rw [min_eq_right (by omega), max_eq_left (by omega)] at hm
        simpa using hm
      obtain ⟨t, h1, h2, _⟩ := C01_extend_rx tx rx k hrx hgt hroom
      exact ⟨tx, t, h1, h2.symm⟩

example : adjustDataLength [1, 2, 3, 4] [5, 6] .truncate 7 = .ok ([1, 2], [5, 6]) := by decide
example : (AdjustMethod.extend = .extend ∧ frontLen (min 2 5) (-3) ≤ max 2 5) := by decide

/-! ### C57 -/

/-- `seq` occurs in `data` at position `i`. -/
def OccursAt (seq data : List α) (i : Nat) : Prop := ∃ pre post, data = pre ++ seq ++ post ∧ pre.length = i

theorem bytesIndex_spec [DecidableEq α] (seq data : List α) :
    match bytesIndex seq data with
    | some i => OccursAt seq data i ∧ ∀ j, j < i → ¬ OccursAt seq data j
    | none => ∀ j, ¬ OccursAt seq data j := by
  induction data with
  | nil =>
    by_cases h : seq = []
    · subst h
      simp only [bytesIndex, if_true]
      exact ⟨⟨[], [], by simp, rfl⟩, fun j hj => by omega⟩
    · simp only [bytesIndex, if_neg h]
      rintro j ⟨pre, post, he, -⟩
      simp at he
      exact h he.2.1
  | cons a l ih =>
    have occ_succ : ∀ i, OccursAt seq (a :: l) (i + 1) ↔ OccursAt seq l i := by
      intro i
      constructor
      · rintro ⟨pre, post, he, hi⟩
        cases pre with
        | nil => simp at hi
        | cons b pre =>
          simp only [List.cons_append, List.cons.injEq] at he
          exact ⟨pre, post, he.2, by simpa using hi⟩
      · rintro ⟨pre, post, he, hi⟩
        exact ⟨a :: pre, post, by simp [he], by simp [hi]⟩
    have occ_zero : OccursAt seq (a :: l) 0 ↔ seq <+: (a :: l) := by
      constructor
      · rintro ⟨pre, post, he, hi⟩
        have : pre = [] := List.length_eq_zero_iff.1 hi
        subst this
        exact ⟨post, by simpa using he.symm⟩
      · rintro ⟨post, he⟩
        exact ⟨[], post, by simpa using he.symm, rfl⟩
    by_cases hp : seq <+: (a :: l)
    · simp only [bytesIndex, if_pos hp]
      exact ⟨occ_zero.2 hp, fun j hj => by omega⟩
    · simp only [bytesIndex, if_neg hp]
      cases hb : bytesIndex seq l with
      | none =>
        rw [hb] at ih
        simp only [Option.map_none]
        intro j
        cases j with
        | zero => exact fun h => hp (occ_zero.1 h)
        | succ j => exact fun h => ih j ((occ_succ j).1 h)
      | some i =>
        rw [hb] at ih
        simp only [Option.map_some]
        refine ⟨(occ_succ i).2 ih.1, ?_⟩
        intro j hj
        cases j with
        | zero => exact fun h => hp (occ_zero.1 h)
        | succ j => exact fun h => ih.2 j (by omega) ((occ_succ j).1 h)

/-- The full statement of **C57** for elements stored in `sz` bytes each. -/
def C57_statement (α β : Type _) [DecidableEq β] (enc : α → List β) (sz : Nat) : Prop :=
  ∀ (seq data : List α), seq.length < data.length →
    (∀ i, findOffsetBytes enc sz seq data = .ok i ↔
      (OccursAt seq data i ∧ ∀ j, j < i → ¬ OccursAt seq data j)) ∧
    (findOffsetBytes enc sz seq data = .error .value ↔ ∀ j, ¬ OccursAt seq data j)

/-- **C57** for one-byte elements (bool, uint8): `find_offset` returns the smallest index at which the
sequence occurs and raises ValueError exactly if it does not occur. -/
theorem C57_find_offset_bytes [DecidableEq α] : C57_statement α α (fun a => [a]) 1 := by
  intro seq data hlen
  have hs := bytesIndex_spec seq data
  have e1 : ∀ l : List α, l.flatMap (fun a => [a]) = l := by intro l; simp
  simp only [findOffsetBytes, e1]
  rw [if_neg (by omega)]
  cases hb : bytesIndex seq data with
  | none =>
    rw [hb] at hs
    constructor
    · intro i
      constructor
      · intro h; cases h
      · intro h; exact absurd h.1 (hs i)
    · simp only [true_iff]; exact hs
  | some i =>
    rw [hb] at hs
    simp only [Nat.div_one]
    constructor
    · intro j
      constructor
      · intro h
        have : i = j := by simpa using h
        subst this; exact hs
      · intro h
        rcases Nat.lt_trichotomy i j with hij | hij | hij
        · exact absurd hs.1 (h.2 i hij)
        · rw [hij]
        · exact absurd h.1 (hs.2 j hij)
    · constructor
      · intro h; cases h
      · intro h; exact absurd hs.1 (h i)

/-- **C57 fails** for elements of more than one byte: the byte strings may match in the middle of two
elements.  Witness: two-byte little-endian integers; `[256]` (bytes `00 01`) is reported at index 0 of `[0, 1, 0]`
(bytes `00 00 01 00 00 00`) although it does not occur. -/
theorem C57_false_two_bytes :
    ¬ C57_statement Nat Nat (fun a => [a % 256, a / 256]) 2 := by
  intro h
  have h1 := (h [256] [0, 1, 0] (by decide)).2
  have h2 : ∀ j, ¬ OccursAt [256] [0, 1, 0] j := by
    rintro j ⟨pre, post, he, -⟩
    have : (256 : Nat) ∈ [0, 1, 0] := by rw [he]; simp
    exact absurd this (by decide)
  have h3 := h1.2 h2
  revert h3
  decide

/-- **C57**: data that are not longer than the sequence fail the assertion, even if they are equal. -/
theorem C57_needs_longer_data {β : Type _} [DecidableEq β] (enc : α → List β) (sz : Nat) (seq data : List α) :
    findOffsetBytes enc sz seq data = .error .assertion ↔ data.length ≤ seq.length := by
  unfold findOffsetBytes
  by_cases h : data.length > seq.length
  · rw [if_neg (not_not.2 h)]
    constructor
    · intro h'; split at h' <;> cases h'
    · intro h'; omega
  · rw [if_pos h]
    exact ⟨fun _ => by omega, fun _ => rfl⟩

example : findOffset [true, false] [false, true, true, false] = .ok 2 := by decide
example : findOffset [true, true] [false, true, false, true] = .error .value := by decide

/-! ### C05 -/

/-- The window `rx[i : i+Lsync]` (complete) of the received data. -/
def IsWindow (rx : List α) (Lsync i : Nat) (w : List α) : Prop :=
  i + Lsync ≤ rx.length ∧ w.length = Lsync ∧ ∀ j, j < Lsync → w[j]? = rx[i + j]?

theorem slice_window (rx : List α) (Lsync i : Nat) (h : i + Lsync ≤ rx.length) :
    IsWindow rx Lsync i (Np.slice rx i (i + Lsync)) := by
  have c1 : Np.clamp rx.length (i : Int) = i := by
    simp only [Np.clamp]; rw [if_neg (by omega)]; simp only [Int.toNat_natCast]; omega
  have c2 : Np.clamp rx.length ((i : Int) + Lsync) = i + Lsync := by
    simp only [Np.clamp]; rw [if_neg (by omega)]; omega
  refine ⟨h, ?_, ?_⟩
  · simp only [Np.slice, c1, c2, List.length_drop, List.length_take]; omega
  · intro j hj
    simp only [Np.slice, c1, c2, List.getElem?_drop, List.getElem?_take]
    rw [if_pos (by omega)]

theorem syncLoop_ok [DecidableEq α] (tx rx : List α) (Lsync : Nat) (fuel i : Nat) (o : Int)
    (h : syncLoop tx rx Lsync fuel i = .ok o) :
    ∃ k, k < fuel ∧ ∃ p : Nat, o = (p : Int) - ((i + k * Lsync : Nat) : Int) ∧
      findOffset (Np.slice rx (i + k * Lsync : Nat) ((i + k * Lsync : Nat) + Lsync)) tx = .ok p := by
  induction fuel generalizing i with
  | zero => simp [syncLoop] at h
  | succ fuel ih =>
    simp only [syncLoop] at h
    split at h
    · rename_i p hp
      refine ⟨0, by omega, p, ?_, ?_⟩
      · have : (p : Int) - i = o := by simpa using h
        rw [← this]; simp
      · simpa using hp
    · rename_i hp
      obtain ⟨k, hk, p, ho, hf⟩ := ih _ h
      refine ⟨k + 1, by omega, p, ?_, ?_⟩
      · rw [ho]; congr 2; rw [Nat.add_mul]; omega
      · have e : i + (k + 1) * Lsync = i + Lsync + k * Lsync := by rw [Nat.add_mul]; omega
        rw [e]; exact hf
    · cases h

/-- The full statement of **C05** for `sync_tx2rx`: a returned offset always belongs to a complete window of
the received data that the rolled transmitted data reproduces at the same place. -/
def C05_statement (α : Type _) [DecidableEq α] : Prop :=
  ∀ (tx rx out : List α) (Lsync imax : Nat) (o : Int), 0 < Lsync →
    syncTx2Rx tx rx Lsync imax = .ok (o, out) →
    ∃ i w, IsWindow rx Lsync i w ∧
      ∀ j, j < Lsync → out[(i + j) % tx.length]? = w[j]?

/-- **C05 is false**: once all windows of the received data have been tried, the next window is empty, is
"found" at position 0 and a meaningless offset is returned instead of DataSyncError. -/
theorem C05_false : ¬ C05_statement Bool := by
  intro h
  obtain ⟨i, w, hw, hj⟩ := h [true, true, true] [false, false] [true, true, true] 2 3 (-2) (by decide) (by decide)
  have hi : i = 0 := by have := hw.1; simp at this; omega
  subst hi
  have h0 := hj 0 (by decide)
  rw [hw.2.2 0 (by decide)] at h0
  exact absurd h0 (by decide)

/-- **C05 (partial)**, `sync_tx2rx`: when the search stays inside the received data
(`imax * Lsync ≤ len(rx)`), a returned offset aligns the window: after rolling, the transmitted data
coincides with the received data on a complete window of `Lsync` elements (indices of the transmitted
data taken modulo its length).  Missing: limits `imax` that reach past the end of the received data. -/
theorem C05_sync_tx2rx_partial [DecidableEq α] (tx rx out : List α) (Lsync imax : Nat) (o : Int)
    (hend : imax * Lsync ≤ rx.length)
    (h : syncTx2Rx tx rx Lsync imax = .ok (o, out)) :
    out.length = tx.length ∧ ∃ i w, IsWindow rx Lsync i w ∧
      ∀ j, j < Lsync → out[(i + j) % tx.length]? = w[j]? := by
  simp only [syncTx2Rx] at h
  cases hl : syncLoop tx rx Lsync imax 0 with
  | error e => rw [hl] at h; simp [bind, Except.bind] at h
  | ok o' =>
    rw [hl] at h
    simp only [bind, Except.bind, pure, Except.pure, Except.ok.injEq, Prod.mk.injEq] at h
    obtain ⟨ho, hout⟩ := h
    subst ho
    obtain ⟨k, hk, p, hoff, hf⟩ := syncLoop_ok _ _ _ _ _ _ hl
    simp only [Nat.zero_add] at hoff hf
    have hw := slice_window rx Lsync (k * Lsync) (by
      have := Nat.mul_le_mul_right Lsync (Nat.succ_le_of_lt hk)
      rw [Nat.succ_mul] at this; omega)
    have htl : (Np.slice rx (k * Lsync : Nat) ((k * Lsync : Nat) + Lsync)).length < tx.length := by
      by_contra hge
      simp only [findOffset, findOffsetBytes] at hf
      rw [if_pos hge] at hf; cases hf
    have hocc := (((C57_find_offset_bytes (α := α) _ _ htl).1 p).1 hf).1
    refine ⟨by rw [← hout]; simp, k * Lsync, _, hw, ?_⟩
    obtain ⟨pre, post, he, hp⟩ := hocc
    intro j hj
    have hwl := hw.2.1
    have htxl : tx.length = p + Lsync + post.length := by
      rw [he]; simp only [List.length_append, hp, hwl]
    rw [← hout, Np.getElem?_roll _ _ _ (Nat.mod_lt _ (by omega))]
    have e : (((((k * Lsync + j) % tx.length : Nat) : Int) - -o') % (tx.length : Int)).toNat = p + j := by
      have e1 : ((((k * Lsync + j) % tx.length : Nat) : Int) - -o') % (tx.length : Int)
          = ((p + j : Nat) : Int) % (tx.length : Int) := by
        rw [Int.natCast_emod, Int.sub_neg, ← Int.emod_add_emod, Int.emod_emod, Int.emod_add_emod, hoff]
        congr 1; push_cast; ring
      rw [e1, Int.emod_eq_of_lt (by omega) (by omega), Int.toNat_natCast]
    rw [e]
    conv_lhs => rw [he]
    rw [List.append_assoc, List.getElem?_append_right (by omega), List.getElem?_append_left (by omega)]
    congr 1; omega

/-- **C05 (partial)**, `sync_rx2tx`: under the same restriction the rolled received data carries the matched
window at the position where it sits in the transmitted data (position modulo the length of the received data). -/
theorem C05_sync_rx2tx_partial [DecidableEq α] (tx rx out : List α) (Lsync imax : Nat) (o : Int)
    (hend : imax * Lsync ≤ rx.length)
    (h : syncRx2Tx tx rx Lsync imax = .ok (o, out)) :
    out.length = rx.length ∧ ∃ i w, IsWindow rx Lsync i w ∧ ∃ p : Nat, o = (p : Int) - i ∧
      ∀ j, j < Lsync → tx[p + j]? = w[j]? ∧ out[(p + j) % rx.length]? = w[j]? := by
  simp only [syncRx2Tx] at h
  cases hl : syncLoop tx rx Lsync imax 0 with
  | error e => rw [hl] at h; simp [bind, Except.bind] at h
  | ok o' =>
    rw [hl] at h
    simp only [bind, Except.bind, pure, Except.pure, Except.ok.injEq, Prod.mk.injEq] at h
    obtain ⟨ho, hout⟩ := h
    subst ho
    obtain ⟨k, hk, p, hoff, hf⟩ := syncLoop_ok _ _ _ _ _ _ hl
    simp only [Nat.zero_add] at hoff hf
    have hw := slice_window rx Lsync (k * Lsync) (by
      have := Nat.mul_le_mul_right Lsync (Nat.succ_le_of_lt hk)
      rw [Nat.succ_mul] at this; omega)
    have htl : (Np.slice rx (k * Lsync : Nat) ((k * Lsync : Nat) + Lsync)).length < tx.length := by
      by_contra hge
      simp only [findOffset, findOffsetBytes] at hf
      rw [if_pos hge] at hf; cases hf
    have hocc := (((C57_find_offset_bytes (α := α) _ _ htl).1 p).1 hf).1
    refine ⟨by rw [← hout]; simp, k * Lsync, _, hw, p, hoff, ?_⟩
    obtain ⟨pre, post, he, hp⟩ := hocc
    have hwl := hw.2.1
    intro j hj
    constructor
    · conv_lhs => rw [he]
      rw [List.append_assoc, List.getElem?_append_right (by omega), List.getElem?_append_left (by omega)]
      congr 1; omega
    · have hrl : k * Lsync + Lsync ≤ rx.length := hw.1
      rw [hw.2.2 j hj, ← hout, Np.getElem?_roll _ _ _ (Nat.mod_lt _ (by omega))]
      congr 1
      have e1 : ((((p + j) % rx.length : Nat) : Int) - o') % (rx.length : Int)
          = ((k * Lsync + j : Nat) : Int) % (rx.length : Int) := by
        rw [Int.natCast_emod, Int.emod_sub_emod, hoff]
        congr 1; push_cast; ring
      rw [e1, Int.emod_eq_of_lt (by omega) (by omega), Int.toNat_natCast]

/-- If no window is found within `imax` tries, DataSyncError is raised. -/
theorem C05_no_window_raises [DecidableEq α] (tx rx : List α) (Lsync imax : Nat)
    (hend : imax * Lsync ≤ rx.length) (hL : Lsync < tx.length)
    (hno : ∀ k w, k < imax → IsWindow rx Lsync (k * Lsync) w → ∀ p, ¬ OccursAt w tx p) :
    syncTx2Rx tx rx Lsync imax = .error .dataSync ∧ syncRx2Tx tx rx Lsync imax = .error .dataSync := by
  have key : ∀ fuel i0, (∃ k0, i0 = k0 * Lsync ∧ k0 + fuel ≤ imax) →
      syncLoop tx rx Lsync fuel i0 = .error .dataSync := by
    intro fuel
    induction fuel with
    | zero => intro i0 _; rfl
    | succ fuel ih =>
      rintro i0 ⟨k0, rfl, hk0⟩
      have hb : k0 * Lsync + Lsync ≤ rx.length := by
        have := Nat.mul_le_mul_right Lsync (show k0 + 1 ≤ imax by omega)
        rw [Nat.add_mul] at this; omega
      have hw := slice_window rx Lsync (k0 * Lsync) hb
      have := ((C57_find_offset_bytes (α := α) (Np.slice rx (k0 * Lsync : Nat) ((k0 * Lsync : Nat) + Lsync)) tx
        (by rw [hw.2.1]; exact hL)).2).2 (hno k0 _ (by omega) hw)
      simp only [syncLoop]
      have hf : findOffset (Np.slice rx (k0 * Lsync : Nat) ((k0 * Lsync : Nat) + Lsync)) tx = .error .value := this
      rw [hf]
      exact ih _ ⟨k0 + 1, by rw [Nat.add_mul]; omega, by omega⟩
  have hs := key imax 0 ⟨0, by simp, by omega⟩
  simp [syncTx2Rx, syncRx2Tx, hs, bind, Except.bind]

-- non-vacuity: the second window is the first that occurs
example : syncTx2Rx [false, true, true, false, false] [true, false, true, true, false, false] 3 2
    = .ok (-1, [false, false, true, true, false]) ∧ 2 * 3 ≤ 6 := by decide

/-! ### C06 -/

theorem countDiff_le [DecidableEq α] (l m : List α) : countDiff l m ≤ m.length := by
  induction l generalizing m with
  | nil => simp [countDiff]
  | cons a l ih =>
    cases m with
    | nil => simp [countDiff]
    | cons b m =>
      simp only [countDiff, List.length_cons]
      have := ih m
      split <;> omega

theorem countDiff_comm [DecidableEq α] (l m : List α) : countDiff l m = countDiff m l := by
  induction l generalizing m with
  | nil => cases m <;> simp [countDiff]
  | cons a l ih =>
    cases m with
    | nil => simp [countDiff]
    | cons b m => simp only [countDiff, ih m, ne_comm]

theorem countDiff_eq_zero [DecidableEq α] (l m : List α) (h : l.length = m.length) :
    countDiff l m = 0 ↔ l = m := by
  induction l generalizing m with
  | nil => cases m <;> simp_all [countDiff]
  | cons a l ih =>
    cases m with
    | nil => simp at h
    | cons b m =>
      simp only [countDiff, List.cons.injEq]
      have := ih m (by simpa using h)
      by_cases hab : a = b
      · simp [hab, this]
      · simp [hab]

theorem countDiff_eq_card [DecidableEq α] (l m : List α) (h : l.length = m.length) :
    countDiff l m = ((List.range m.length).filter (fun i => l[i]? ≠ m[i]?)).length := by
  induction l generalizing m with
  | nil => cases m <;> simp_all [countDiff]
  | cons a l ih =>
    cases m with
    | nil => simp at h
    | cons b m =>
      simp only [countDiff, List.length_cons, List.range_succ_eq_map, List.filter_cons, List.filter_map,
        ih m (by simpa using h)]
      by_cases hab : a = b
      · simp [hab, Function.comp_def]
      · simp [hab, Function.comp_def]; omega

/-- **C06**: for equally long non-empty sequences `cal_ber_syncd` returns the number of positions that
differ, this number divided by the length, and the length; it raises ValueError exactly when this ratio exceeds
the threshold. -/
theorem C06_ber [DecidableEq α] (rx tx : List α) (thr : ℚ) (hne : tx ≠ []) (hlen : rx.length = tx.length) :
    let E := ((List.range tx.length).filter (fun i => rx[i]? ≠ tx[i]?)).length
    (thr < (E : ℚ) / tx.length → calBerSyncd rx tx thr = .error .value) ∧
    ((E : ℚ) / tx.length ≤ thr →
      calBerSyncd rx tx thr = .ok ((E : ℚ) / tx.length, E, tx.length)) := by
  have h0 : tx.length ≠ 0 := fun h => hne (List.length_eq_zero_iff.1 h)
  simp only [calBerSyncd, if_neg h0, countDiff_eq_card rx tx hlen]
  constructor
  · intro h; rw [if_pos h]
  · intro h; rw [if_neg (not_lt.2 h)]

/-- **C06** (metric laws): the rate is between 0 and 1, is 0 iff the sequences agree, and exchanging the
sequences gives the same rate. -/
theorem C06_ber_metric [DecidableEq α] (rx tx : List α) (hne : tx ≠ []) (hlen : rx.length = tx.length) :
    ∃ b : ℚ, ∃ e, calBerSyncd rx tx (1 : ℚ) = .ok (b, e, tx.length) ∧ 0 ≤ b ∧ b ≤ 1 ∧
      (b = 0 ↔ rx = tx) ∧ calBerSyncd tx rx (1 : ℚ) = .ok (b, e, tx.length) := by
  have h0 : tx.length ≠ 0 := fun h => hne (List.length_eq_zero_iff.1 h)
  have hpos : (0 : ℚ) < tx.length := by exact_mod_cast Nat.pos_of_ne_zero h0
  have hle : (countDiff rx tx : ℚ) / tx.length ≤ 1 := by
    rw [div_le_one hpos]; exact_mod_cast countDiff_le rx tx
  refine ⟨(countDiff rx tx : ℚ) / tx.length, countDiff rx tx, ?_, by positivity, hle, ?_, ?_⟩
  · simp only [calBerSyncd, if_neg h0]; rw [if_neg (not_lt.2 hle)]
  · rw [div_eq_zero_iff]
    constructor
    · rintro (h | h)
      · exact (countDiff_eq_zero rx tx hlen).1 (by exact_mod_cast h)
      · exact absurd h hpos.ne'
    · intro h; left; exact_mod_cast (countDiff_eq_zero rx tx hlen).2 h
  · simp only [calBerSyncd, hlen, if_neg h0, countDiff_comm tx rx]; rw [if_neg (not_lt.2 hle)]

example : calBerSyncd [true, false, true, true] [true, true, true, true] (1/2 : ℚ) = .ok (1/4, 1, 4) := by
  decide +kernel
example : calBerSyncd [true, false, true, false] [true, true, true, true] (1/5 : ℚ) = .error .value := by
  decide +kernel

end Qampy
