import Verif.Model.Equaliser
import Verif.Lemmas.Constellation
import Mathlib.Algebra.BigOperators.Group.Finset.Basic
import Mathlib.Algebra.BigOperators.Ring.Finset
import Verif.Tactics

/-! Helper lemmas for the equaliser model. -/

namespace Qampy

/-- The array `a` has `p` rows of length `n`. -/
def Rect {α : Type _} (a : List (List α)) (p n : Nat) : Prop := a.length = p ∧ ∀ r ∈ a, r.length = n

theorem foldlM_some_inv {σ ι : Type _} {f : σ → ι → Option σ} {P : σ → Prop} {l : List ι}
    (h : ∀ s, P s → ∀ i ∈ l, ∃ s', f s i = some s' ∧ P s') (s : σ) (hs : P s) :
    ∃ s', l.foldlM f s = some s' ∧ P s' := by
  induction l generalizing s with
  | nil => exact ⟨s, rfl, hs⟩
  | cons i l ih =>
    obtain ⟨s1, h1, h2⟩ := h s hs i (by simp)
    rw [List.foldlM_cons, h1]
    exact ih (fun s hs j hj => h s hs j (by simp [hj])) s1 h2

theorem foldlM_inv {σ ι : Type _} {f : σ → ι → Option σ} {P : σ → Prop} {l : List ι}
    (h : ∀ s, P s → ∀ i ∈ l, ∀ s', f s i = some s' → P s') {s s' : σ} (hs : P s) (hr : l.foldlM f s = some s') : P s' := by
  induction l generalizing s with
  | nil =>
    have : s = s' := by simpa using hr
    exact this ▸ hs
  | cons i l ih =>
    rw [List.foldlM_cons] at hr
    cases h1 : f s i with
    | none => rw [h1] at hr; simp at hr
    | some s1 =>
      rw [h1] at hr
      exact ih (fun s hs j hj => h s hs j (by simp [hj])) (h s hs i (by simp) s1 h1) hr

theorem foldlM_none {σ ι : Type _} {f : σ → ι → Option σ} {l : List ι} {i : ι} (hi : i ∈ l) (h : ∀ s, f s i = none) (s : σ) :
    l.foldlM f s = none := by
  induction l generalizing s with
  | nil => simp at hi
  | cons j l ih =>
    rw [List.foldlM_cons]
    cases h1 : f s j with
    | none => rfl
    | some s1 =>
      rcases List.mem_cons.1 hi with rfl | hi
      · rw [h s] at h1; simp at h1
      · exact ih hi s1

section generic
set_option linter.unusedSectionVars false
variable {K : Type} [RCLike K]

/-- Entry of an array, zero outside. -/
def val2 (a : List (List K)) (k i : Nat) : K := (at2 a k i).getD 0

theorem at2_of_rect {a : List (List K)} {p n k i : Nat} (h : Rect a p n) (hk : k < p) (hi : i < n) :
    at2 a k i = some (val2 a k i) := by
  obtain ⟨h1, h2⟩ := h
  have hk' : k < a.length := by omega
  have hr := h2 _ (List.getElem_mem hk')
  have : at2 a k i = some (a[k][i]) := by
    rw [at2, List.getElem?_eq_getElem hk', Option.bind_some, List.getElem?_eq_getElem (by omega)]
  rw [val2, this]; rfl

theorem foldlM_add {n : Nat} {f : K → Nat → Option K} {g : Nat → K} (h : ∀ acc, ∀ i < n, f acc i = some (acc + g i)) (acc : K) :
    (List.range n).foldlM f acc = some (acc + ∑ i ∈ Finset.range n, g i) := by
  induction n with
  | zero => simp
  | succ n ih =>
    rw [List.range_succ, List.foldlM_append, ih (fun acc i hi => h acc i (by omega))]
    simp only [Option.bind_eq_bind, Option.bind_some, List.foldlM_cons, List.foldlM_nil, h _ n (by omega)]
    rw [Finset.sum_range_succ, ← add_assoc]
    rfl

theorem applyFilter_eq {E w : List (List K)} {p n : Nat} (hE : Rect E p n) (hw : Rect w p n) :
    applyFilter E w n = some (∑ k ∈ Finset.range p, ∑ i ∈ Finset.range n, val2 E k i * val2 w k i) := by
  unfold applyFilter
  rw [hE.1, foldlM_add (g := fun k => ∑ i ∈ Finset.range n, val2 E k i * val2 w k i), zero_add]
  intro acc k hk
  rw [foldlM_add (g := fun i => val2 E k i * val2 w k i)]
  intro acc i hi
  rw [at2_of_rect hE hk hi, at2_of_rect hw hk hi]
  rfl

theorem at2_window (E : List (List K)) (a n k i : Nat) (hi : i < n) : at2 (window E a n) k i = at2 E k (a + i) := by
  rw [at2, at2, window, List.getElem?_map]
  cases E[k]? with
  | none => rfl
  | some r =>
    simp only [Option.map_some, Option.bind_some]
    rw [List.getElem?_take_of_lt hi, List.getElem?_drop]

theorem rect_window {E : List (List K)} {p L : Nat} (h : Rect E p L) {a n : Nat} (ha : a + n ≤ L) : Rect (window E a n) p n := by
  refine ⟨by rw [window, List.length_map, h.1], ?_⟩
  intro r hr
  rw [window, List.mem_map] at hr
  obtain ⟨r', hr', rfl⟩ := hr
  rw [List.length_take, List.length_drop, h.2 r' hr']
  omega

theorem applyFilter_window {E w : List (List K)} {p L n a : Nat} (hE : Rect E p L) (hw : Rect w p n) (ha : a + n ≤ L) :
    applyFilter (window E a n) w n
      = some (∑ k ∈ Finset.range p, ∑ i ∈ Finset.range n, val2 E k (a + i) * val2 w k i) := by
  rw [applyFilter_eq (rect_window hE ha) hw]
  congr 1
  apply Finset.sum_congr rfl
  intro k _
  apply Finset.sum_congr rfl
  intro i hi
  rw [val2, at2_window _ _ _ _ _ (Finset.mem_range.1 hi), ← val2]

/-- An incomplete window is detected: reading it touches an element outside the array. -/
theorem applyFilter_window_none {E w : List (List K)} {p L n a : Nat} (hE : Rect E p L) (hp : 1 ≤ p) (hn : 1 ≤ n)
    (ha : L < a + n) : applyFilter (window E a n) w n = none := by
  have hl : (window E a n).length = p := by rw [window, List.length_map, hE.1]
  unfold applyFilter
  rw [hl]
  apply foldlM_none (i := 0) (List.mem_range.2 hp)
  intro acc
  apply foldlM_none (i := n - 1) (List.mem_range.2 (by omega))
  intro acc
  have : at2 (window E a n) 0 (n - 1) = none := by
    rw [at2_window _ _ _ _ _ (by omega), at2]
    cases h : E[0]? with
    | none => rfl
    | some r =>
      have := hE.2 r (List.mem_of_getElem? h)
      rw [Option.bind_some, List.getElem?_eq_none (by omega)]
  rw [this]
  rfl

theorem updateTaps_rect {w X : List (List K)} {p n : Nat} (hw : Rect w p n) (hX : Rect X p n) (c : K) :
    ∃ w', updateTaps w X c = some w' ∧ Rect w' p n ∧
      ∀ k i, k < p → i < n → val2 w' k i = val2 w k i + c * star (val2 X k i) := by
  refine ⟨List.zipWith (List.zipWith fun a x => a + c * star x) w X, ?_, ⟨?_, ?_⟩, ?_⟩
  · rw [updateTaps, if_pos]
    refine ⟨by rw [hw.1, hX.1], ?_⟩
    intro q hq
    rw [hw.2 _ (List.of_mem_zip hq).1, hX.2 _ (List.of_mem_zip hq).2]
  · rw [List.length_zipWith, hw.1, hX.1, Nat.min_self]
  · intro r hr
    rw [List.mem_iff_getElem?] at hr
    obtain ⟨k, hk⟩ := hr
    rw [List.getElem?_zipWith] at hk
    cases h1 : w[k]? with
    | none => simp [h1] at hk
    | some a =>
      cases h2 : X[k]? with
      | none => simp [h1, h2] at hk
      | some b =>
        simp only [h1, h2, Option.some.injEq] at hk
        rw [← hk, List.length_zipWith, hw.2 a (List.mem_of_getElem? h1), hX.2 b (List.mem_of_getElem? h2), Nat.min_self]
  · intro k i hk hi
    have ha := at2_of_rect hw hk hi
    have hb := at2_of_rect hX hk hi
    have : at2 (List.zipWith (List.zipWith fun a x => a + c * star x) w X) k i
        = some (val2 w k i + c * star (val2 X k i)) := by
      rw [at2] at ha hb ⊢
      rw [List.getElem?_zipWith]
      cases h1 : w[k]? with
      | none => simp [h1] at ha
      | some a =>
        cases h2 : X[k]? with
        | none => simp [h2] at hb
        | some b =>
          rw [h1, Option.bind_some] at ha
          rw [h2, Option.bind_some] at hb
          simp only [Option.bind_some, List.getElem?_zipWith, ha, hb]
    rw [val2, this]; rfl

theorem updateTaps_zero {w X : List (List K)} {p n : Nat} (hw : Rect w p n) (hX : Rect X p n) : updateTaps w X 0 = some w := by
  rw [updateTaps, if_pos]
  · congr 1
    have h1 : ∀ (a b : List K), a.length = b.length → List.zipWith (fun a x => a + 0 * star x) a b = a := by
      intro a
      induction a with
      | nil => simp
      | cons x a ih =>
        intro b hb
        cases b with
        | nil => simp at hb
        | cons y b => rw [List.zipWith_cons_cons, ih b (by simpa using hb), zero_mul, add_zero]
    obtain ⟨hw1, hw2⟩ := hw
    obtain ⟨hX1, hX2⟩ := hX
    induction w generalizing X p with
    | nil => simp
    | cons a w ih =>
      cases X with
      | nil => simp at hX1 hw1; omega
      | cons b X =>
        rw [List.zipWith_cons_cons, h1 a b (by rw [hw2 a (by simp), hX2 b (by simp)]),
          ih (p := p - 1) (by rw [← hw1]; simp) (fun r hr => hw2 r (by simp [hr])) (by rw [← hX1]; simp)
            (fun r hr => hX2 r (by simp [hr]))]
  · refine ⟨by rw [hw.1, hX.1], ?_⟩
    intro q hq
    rw [hw.2 _ (List.of_mem_zip hq).1, hX.2 _ (List.of_mem_zip hq).2]

end generic

end Qampy
