import Verif.Model.Segment
import Verif.Lemmas.Equaliser
import Verif.Tactics

/-! Framing of arrays (C32) and the two versions of the equaliser filter (C81). -/

namespace Qampy

section frames
variable {α : Type}

theorem length_frames (b : List α) {len hop q : Nat} (hh : 0 < hop) (hb : b.length = len + q * hop) :
    (frames b len hop).length = q + 1 := by
  have : (b.length - len) / hop = q := by rw [hb, Nat.add_sub_cancel_left, Nat.mul_div_cancel _ hh]
  rw [frames, List.length_map, List.length_range, this, Nat.add_comm]

theorem getElem?_frames (b : List α) {len hop q : Nat} (hh : 0 < hop) (hb : b.length = len + q * hop) {k : Nat} (hk : k < q + 1) :
    (frames b len hop)[k]? = some ((b.drop (k * hop)).take len) := by
  have : (b.length - len) / hop = q := by rw [hb, Nat.add_sub_cancel_left, Nat.mul_div_cancel _ hh]
  rw [frames, this, List.getElem?_map, List.getElem?_range (by omega)]
  rfl

theorem getElem?_frame (b : List α) (len s i : Nat) (hi : i < len) : ((b.drop s).take len)[i]? = b[s + i]? := by
  rw [List.getElem?_take_of_lt hi, List.getElem?_drop]

theorem segmentAxis_of_adjust {a b : List α} {len ov : Nat} {e : SegEnd} {v : α} (hov : ov < len) {q : Nat}
    (ha : segAdjust a len (len - ov) e v = .ok b) (hb : b.length = len + q * (len - ov)) :
    segmentAxis a len ov e v = .ok (frames b len (len - ov)) := by
  have h1 : ¬ ((ov : Int) ≥ (len : Int)) := by omega
  have h2 : ¬ ((ov : Int) < 0 ∨ (len : Int) ≤ 0) := by omega
  have h3 : ((len : Int) - ov).toNat = len - ov := by omega
  rw [segmentAxis, if_neg h1, if_neg h2]
  simp only [Int.toNat_natCast, h3, ha]
  have h4 : ¬ (b.length < len ∨ (b.length - len) % (len - ov) ≠ 0) := by
    rw [hb, Nat.add_sub_cancel_left, Nat.mul_mod_left]
    omega
  rw [if_neg (by omega), if_neg h4]

end frames

/-! ### C32 -/

/-- The sequence the frames are taken from: the array, continued by the end value (`pad`) or periodically (`wrap`). -/
def segSource {α : Type} (e : SegEnd) (a : List α) (v : α) (j : Nat) : Option α :=
  match e with
  | .cut => a[j]?
  | .pad => if j < a.length then a[j]? else some v
  | .wrap => a[j % a.length]?

/-- What a call `segment_axis(a, len, ov, end=e, endvalue=v)` should return: frames of `len` elements starting at multiples of
`len - ov`; with 'cut' only an incomplete tail is dropped, with 'pad' and 'wrap' every element is in a frame and there is no frame too many. -/
def SegSpec {α : Type} (a : List α) (len ov : Nat) (e : SegEnd) (v : α) (fr : List (List α)) : Prop :=
  0 < fr.length ∧ (∀ r ∈ fr, r.length = len)
    ∧ (∀ k i : Nat, k < fr.length → i < len →
        ((fr[k]?).bind fun r => r[i]?) = segSource e a v (k * (len - ov) + i)
        ∧ segSource e a v (k * (len - ov) + i) ≠ none)
    ∧ (e = .cut → (fr.length - 1) * (len - ov) + len ≤ a.length ∧ a.length < fr.length * (len - ov) + len)
    ∧ (e ≠ .cut → (∀ j < a.length, ∃ k i, k < fr.length ∧ i < len ∧ k * (len - ov) + i = j)
        ∧ (fr.length = 1 ∨ (fr.length - 2) * (len - ov) + len < a.length))

/-- The full claim: every non-empty array can be framed ('cut' needs at least one frame). -/
def C32_statement : Prop :=
  ∀ (α : Type) (a : List α) (len ov : Nat) (e : SegEnd) (v : α), ov < len → a ≠ [] → (e = .cut → len ≤ a.length) →
    ∃ fr, segmentAxis a len ov e v = .ok fr ∧ SegSpec a len ov e v fr

/-- `segSource` agrees with the adjusted array on all its positions and the number of frames is right. -/
theorem segSpec_of {α : Type} {a b : List α} {len ov q : Nat} {e : SegEnd} {v : α} (hov : ov < len)
    (hb : b.length = len + q * (len - ov)) (hs : ∀ j < b.length, b[j]? = segSource e a v j)
    (hcut : e = .cut → b.length ≤ a.length ∧ a.length < b.length + (len - ov))
    (hpad : e ≠ .cut → a.length ≤ b.length ∧ (q = 0 ∨ b.length < a.length + (len - ov))) :
    SegSpec a len ov e v (frames b len (len - ov)) := by
  have hh : 0 < len - ov := by omega
  have hl := length_frames b hh hb
  refine ⟨by omega, ?_, ?_, ?_, ?_⟩
  · intro r hr
    rw [List.mem_iff_getElem?] at hr
    obtain ⟨k, hk⟩ := hr
    have hk' : k < q + 1 := by
      rw [← hl]; exact (List.getElem?_eq_some_iff.1 hk).1
    rw [getElem?_frames b hh hb hk', Option.some.injEq] at hk
    have : k * (len - ov) ≤ q * (len - ov) := Nat.mul_le_mul_right _ (by omega)
    rw [← hk, List.length_take, List.length_drop]
    omega
  · intro k i hk hi
    rw [hl] at hk
    have hkq : k * (len - ov) ≤ q * (len - ov) := Nat.mul_le_mul_right _ (by omega)
    have hj : k * (len - ov) + i < b.length := by omega
    rw [getElem?_frames b hh hb hk, Option.bind_some, getElem?_frame _ _ _ _ hi, ← hs _ hj]
    refine ⟨rfl, ?_⟩
    rw [List.getElem?_eq_getElem hj]
    simp
  · intro he
    obtain ⟨h1, h2⟩ := hcut he
    rw [hl, Nat.add_sub_cancel, Nat.add_mul]
    omega
  · intro he
    obtain ⟨h1, h2⟩ := hpad he
    rw [hl]
    refine ⟨?_, ?_⟩
    · intro j hj
      by_cases hc : j / (len - ov) ≤ q
      · have := Nat.mod_lt j hh
        exact ⟨j / (len - ov), j % (len - ov), by omega, by omega, Nat.div_add_mod' _ _⟩
      · push Not at hc
        have : q * (len - ov) ≤ j := by
          have := (Nat.le_div_iff_mul_le hh).1 (le_of_lt hc)
          exact this
        exact ⟨q, j - q * (len - ov), by omega, by omega, by omega⟩
    · rcases h2 with h2 | h2
      · left; omega
      · rcases Nat.eq_zero_or_pos q with h3 | h3
        · left; omega
        · right
          obtain ⟨p, rfl⟩ : ∃ p, q = p + 1 := ⟨q - 1, by omega⟩
          rw [Nat.add_mul, one_mul] at hb
          have : p + 1 + 1 - 2 = p := by omega
          rw [this]
          omega

theorem segAdjust_of {α : Type} {a : List α} {len hop dn up : Nat} {v : α} (hex : a.length < len ∨ (a.length - len) % hop ≠ 0)
    (hdn : (if len < a.length then len + (a.length - len) / hop * hop else 0) = dn)
    (hup : (if len < a.length then len + (1 + (a.length - len) / hop) * hop else len) = up) (h1 : dn < a.length) (h2 : a.length < up)
    (e : SegEnd) : segAdjust a len hop e v = match e with
      | .cut => .ok (a.take dn)
      | .pad => .ok (a ++ List.replicate (up - a.length) v)
      | .wrap => fillTail a (a.take (up - a.length)) up := by
  unfold segAdjust
  simp only [hdn, hup]
  rw [if_pos hex, if_pos ⟨h1, h2⟩]
  cases e <;> rfl

/-- `segment_axis` meets the claim except for 'wrap' with an array shorter than half a frame (and not of length one). -/
theorem C32_segment_axis_partial {α : Type} (a : List α) (len ov : Nat) (e : SegEnd) (v : α) (hov : ov < len) (ha : a ≠ [])
    (hcut : e = .cut → len ≤ a.length) (hwrap : e = .wrap → len ≤ 2 * a.length ∨ a.length = 1) :
    ∃ fr, segmentAxis a len ov e v = .ok fr ∧ SegSpec a len ov e v fr := by
  have hh : 0 < len - ov := by omega
  have hl : 0 < a.length := List.length_pos_iff.2 ha
  by_cases hex : a.length < len ∨ (a.length - len) % (len - ov) ≠ 0
  · -- the array has to be adjusted
    obtain ⟨q, dn, up, hdn, hup, h1, h2, h3, h4⟩ : ∃ q dn up : Nat,
        (if len < a.length then len + (a.length - len) / (len - ov) * (len - ov) else 0) = dn ∧
        (if len < a.length then len + (1 + (a.length - len) / (len - ov)) * (len - ov) else len) = up ∧
        dn < a.length ∧ a.length < up ∧ up = len + q * (len - ov) ∧
        ((len < a.length ∧ 1 ≤ q ∧ dn + (len - ov) = up) ∨ (a.length < len ∧ q = 0 ∧ dn = 0)) := by
      by_cases hlt : len < a.length
      · have hm : (a.length - len) % (len - ov) ≠ 0 := by
          rcases hex with h | h
          · omega
          · exact h
        have h0 := Nat.div_add_mod' (a.length - len) (len - ov)
        have h1 := Nat.mod_lt (a.length - len) hh
        refine ⟨1 + (a.length - len) / (len - ov), _, _, rfl, rfl, ?_, ?_, ?_, Or.inl ⟨hlt, Nat.le_add_right _ _, ?_⟩⟩
        · rw [if_pos hlt]; omega
        · rw [if_pos hlt, Nat.add_mul, one_mul]; omega
        · rw [if_pos hlt]
        · rw [if_pos hlt, if_pos hlt, Nat.add_mul, one_mul]; omega
      · have hlt' : a.length < len := by
          rcases hex with h | h
          · exact h
          · rcases Nat.lt_or_ge a.length len with h' | h'
            · exact h'
            · have : a.length = len := by omega
              rw [this, Nat.sub_self, Nat.zero_mod] at h
              exact absurd rfl h
        refine ⟨0, _, _, rfl, rfl, ?_, ?_, ?_, Or.inr ⟨hlt', rfl, ?_⟩⟩ <;> simp [hlt, hl, hlt']
    have hadj := segAdjust_of (v := v) hex hdn hup h1 h2 e
    cases e with
    | cut =>
      have := hcut rfl
      rcases h4 with ⟨h4, h5, h6⟩ | ⟨h4, -⟩
      · obtain ⟨p, rfl⟩ : ∃ p, q = p + 1 := ⟨q - 1, by omega⟩
        rw [Nat.add_mul, one_mul] at h3
        have hb : (a.take dn).length = len + p * (len - ov) := by rw [List.length_take]; omega
        refine ⟨_, segmentAxis_of_adjust hov hadj hb, segSpec_of hov hb ?_ ?_ ?_⟩
        · intro j hj
          rw [List.length_take] at hj
          rw [List.getElem?_take_of_lt (by omega), segSource]
        · intro _
          rw [List.length_take]
          omega
        · intro h; exact absurd rfl h
      · omega
    | pad =>
      have hb : (a ++ List.replicate (up - a.length) v).length = len + q * (len - ov) := by
        rw [List.length_append, List.length_replicate]; omega
      refine ⟨_, segmentAxis_of_adjust hov hadj hb, segSpec_of hov hb ?_ ?_ ?_⟩
      · intro j hj
        rw [hb] at hj
        unfold segSource
        by_cases hj' : j < a.length
        · rw [List.getElem?_append_left hj', if_pos hj']
        · rw [List.getElem?_append_right (by omega), List.getElem?_replicate, if_pos (by omega), if_neg hj']
      · intro h; simp at h
      · intro _
        rw [hb]
        rcases h4 with h4 | h4 <;> omega
    | wrap =>
      have hadj' : fillTail a (a.take (up - a.length)) up = .ok (a ++ (List.range (up - a.length)).filterMap fun i => a[i % a.length]?) ∧
          ((List.range (up - a.length)).filterMap fun i => a[i % a.length]?).length = up - a.length ∧
          ∀ i < up - a.length, ((List.range (up - a.length)).filterMap fun i => a[i % a.length]?)[i]? = a[i % a.length]? := by
        have hfm : ((List.range (up - a.length)).filterMap fun i => a[i % a.length]?)
            = (List.range (up - a.length)).map fun i => a[i % a.length]'(Nat.mod_lt _ hl) := by
          rw [← List.filterMap_eq_map]
          apply List.filterMap_congr
          intro i _
          simp [Nat.mod_lt _ hl]
        have hlen : ((List.range (up - a.length)).filterMap fun i => a[i % a.length]?).length = up - a.length := by
          rw [hfm]; simp
        have hget : ∀ i < up - a.length, ((List.range (up - a.length)).filterMap fun i => a[i % a.length]?)[i]? = a[i % a.length]? := by
          intro i hi
          rw [hfm, List.getElem?_map, List.getElem?_range hi]
          simp [Nat.mod_lt _ hl]
        refine ⟨?_, hlen, hget⟩
        by_cases hfit : up - a.length ≤ a.length
        · unfold fillTail
          rw [if_pos (by rw [List.length_take]; omega)]
          congr 2
          apply List.ext_getElem?
          intro i
          by_cases hi : i < up - a.length
          · rw [hget i hi, List.getElem?_take_of_lt hi, Nat.mod_eq_of_lt (by omega)]
          · rw [List.getElem?_eq_none (by rw [List.length_take]; omega), List.getElem?_eq_none (by omega)]
        · have h1' : a.length = 1 := by
            rcases hwrap rfl with h | h
            · rcases h4 with ⟨h4, h5, h6⟩ | ⟨h4, h5, h6⟩
              · omega
              · subst h5; omega
            · exact h
          obtain ⟨x, rfl⟩ := List.length_eq_one_iff.1 h1'
          simp only [List.length_cons, List.length_nil, Nat.zero_add, Nat.mod_one] at hfit ⊢
          have ht : List.take (up - 1) [x] = [x] := List.take_of_length_le (by simp; omega)
          unfold fillTail
          rw [ht, if_neg (by simp; omega)]
          simp only [List.length_cons, List.length_nil, Nat.zero_add]
          congr 2
          symm
          apply List.eq_replicate_iff.2 ⟨?_, ?_⟩
          · simp
          · intro y hy
            simp at hy
            exact hy.2
      obtain ⟨hf, hlen, hget⟩ := hadj'
      have hb : (a ++ (List.range (up - a.length)).filterMap fun i => a[i % a.length]?).length = len + q * (len - ov) := by
        rw [List.length_append, hlen]; omega
      refine ⟨_, segmentAxis_of_adjust hov (hadj.trans hf) hb, segSpec_of hov hb ?_ ?_ ?_⟩
      · intro j hj
        rw [hb, ← h3] at hj
        unfold segSource
        by_cases hj' : j < a.length
        · rw [List.getElem?_append_left hj', Nat.mod_eq_of_lt hj']
        · rw [List.getElem?_append_right (by omega), hget _ (by omega), Nat.mod_eq_sub_mod (Nat.le_of_not_lt hj')]
      · intro h; simp at h
      · intro _
        rw [hb]
        rcases h4 with h4 | h4 <;> omega
  · -- the array fills whole frames
    have hadj : segAdjust a len (len - ov) e v = .ok a := by
      unfold segAdjust
      simp only
      rw [if_neg hex]
    push Not at hex
    have h0 := Nat.div_add_mod' (a.length - len) (len - ov)
    have hb : a.length = len + (a.length - len) / (len - ov) * (len - ov) := by omega
    refine ⟨_, segmentAxis_of_adjust hov hadj hb, segSpec_of hov hb ?_ ?_ ?_⟩
    · intro j hj
      cases e with
      | cut => rfl
      | pad => rw [segSource, if_pos hj]
      | wrap => rw [segSource, Nat.mod_eq_of_lt hj]
    · intro _; omega
    · intro _; omega

/-- In the excluded case 'wrap' raises ValueError (the tail cannot be filled from the short array). -/
theorem C32_wrap_short {α : Type} (a : List α) (len ov : Nat) (v : α) (hov : ov < len) (h1 : 2 ≤ a.length) (h2 : 2 * a.length < len) :
    segmentAxis a len ov .wrap v = .error .value := by
  have h3 : ¬ ((ov : Int) ≥ (len : Int)) := by omega
  have h4 : ¬ ((ov : Int) < 0 ∨ (len : Int) ≤ 0) := by omega
  have h5 : segAdjust a len ((len : Int) - ov).toNat .wrap v = .error .value := by
    rw [segAdjust_of (dn := 0) (up := len) (Or.inl (by omega)) (if_neg (by omega)) (if_neg (by omega)) (by omega) (by omega)]
    simp only
    unfold fillTail
    rw [List.take_of_length_le (by omega), if_neg (by omega)]
    match a, h1 with
    | x :: y :: l, _ => rfl
  rw [segmentAxis, if_neg h3, if_neg h4]
  simp only [Int.toNat_natCast, h5]

/-- 'cut' on an array shorter than a frame raises ValueError. -/
theorem C32_cut_short {α : Type} (a : List α) (len ov : Nat) (v : α) (hov : ov < len) (h1 : 1 ≤ a.length) (h2 : a.length < len) :
    segmentAxis a len ov .cut v = .error .value := by
  have h3 : ¬ ((ov : Int) ≥ (len : Int)) := by omega
  have h4 : ¬ ((ov : Int) < 0 ∨ (len : Int) ≤ 0) := by omega
  have h5 : segAdjust a len ((len : Int) - ov).toNat .cut v = .ok [] := by
    rw [segAdjust_of (dn := 0) (up := len) (Or.inl (by omega)) (if_neg (by omega)) (if_neg (by omega)) (by omega) (by omega)]
    rfl
  rw [segmentAxis, if_neg h3, if_neg h4]
  simp only [Int.toNat_natCast, h5]
  rfl

/-- The full claim does not hold: two elements cannot be wrapped to a frame of five. -/
theorem C32_false : ¬ C32_statement := by
  intro h
  obtain ⟨fr, h1, -⟩ := h Nat [1, 2] 5 0 .wrap 0 (by omega) (by simp) (by simp)
  rw [C32_wrap_short [1, 2] 5 0 0 (by omega) (by simp) (by simp)] at h1
  cases h1

example : segmentAxis [0, 1, 2, 3, 4, 5, 6, 7, 8, 9] 4 2 .cut 0 = .ok [[0, 1, 2, 3], [2, 3, 4, 5], [4, 5, 6, 7], [6, 7, 8, 9]] := by
  decide
example : segmentAxis [0, 1, 2, 3, 4, 5, 6] 4 1 .cut 9 = .ok [[0, 1, 2, 3], [3, 4, 5, 6]] := by decide
example : segmentAxis [0, 1, 2, 3, 4, 5] 4 1 .pad 9 = .ok [[0, 1, 2, 3], [3, 4, 5, 9]] := by decide
example : segmentAxis [0, 1, 2, 3, 4, 5] 4 1 .wrap 9 = .ok [[0, 1, 2, 3], [3, 4, 5, 0]] := by decide
example : segmentAxis [0, 1, 2, 3, 4, 5] 4 1 .cut 9 = .ok [[0, 1, 2, 3]] := by decide

end Qampy
