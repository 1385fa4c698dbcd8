import Verif.Model.Np
import Mathlib.Order.Basic
import Mathlib.Order.Defs.LinearOrder
import Mathlib.Tactic.Linarith
import Mathlib.Data.List.GetD

/-! Helper lemmas about the numpy primitives. -/

namespace Np

variable {α : Type _}

@[simp] theorem length_roll (l : List α) (k : Int) : (roll l k).length = l.length := by
  simp only [roll, List.length_append, List.length_drop, List.length_take]
  omega

theorem getElem?_roll (l : List α) (k : Int) (i : Nat) (hi : i < l.length) :
    (roll l k)[i]? = l[(((i : Int) - k) % (l.length : Int)).toNat]? := by
  have hn : (0 : Int) < l.length := by omega
  obtain ⟨s, hs⟩ : ∃ s : Nat, (s : Int) = k % (l.length : Int) :=
    ⟨(k % (l.length : Int)).toNat, Int.toNat_of_nonneg (Int.emod_nonneg _ (by omega))⟩
  have hsl : (s : Int) < l.length := hs ▸ Int.emod_lt_of_pos _ hn
  have key : ((i : Int) - k) % (l.length : Int) = ((i : Int) - s) % (l.length : Int) := by
    rw [hs, Int.sub_emod, Int.sub_emod (i : Int) (k % _), Int.emod_emod]
  have hs' : (k % (l.length : Int)).toNat = s := by omega
  simp only [roll, hs']
  rw [key]
  by_cases h : i < s
  · rw [List.getElem?_append_left (by simp; omega), List.getElem?_drop]
    congr 1
    have : ((i : Int) - s) % (l.length : Int) = (i : Int) - s + l.length := by
      rw [← Int.add_emod_right]
      exact Int.emod_eq_of_lt (by omega) (by omega)
    omega
  · rw [List.getElem?_append_right (by simp; omega), List.getElem?_take]
    have : ((i : Int) - s) % (l.length : Int) = (i : Int) - s :=
      Int.emod_eq_of_lt (by omega) (by omega)
    simp only [List.length_drop]
    rw [this, if_pos (by omega)]
    congr 1
    omega

@[simp] theorem length_tile (l : List α) (k : Nat) : (tile l k).length = k * l.length := by
  simp [tile]

theorem getElem?_tile (l : List α) (k : Nat) (i : Nat) (hi : i < k * l.length) :
    (tile l k)[i]? = l[i % l.length]? := by
  induction k generalizing i with
  | zero => omega
  | succ k ih =>
    have : tile l (k + 1) = l ++ tile l k := by simp [tile, List.replicate_succ]
    rw [this]
    by_cases h : i < l.length
    · rw [List.getElem?_append_left h, Nat.mod_eq_of_lt h]
    · rw [List.getElem?_append_right (by omega), ih _ (by rw [Nat.add_mul] at hi; omega)]
      congr 1
      exact (Nat.mod_eq_sub_mod (by omega)).symm

section order
variable {K : Type _} [LinearOrder K]

/-- Full specification of the `argmaxGo` scan. -/
theorem argmaxGo_spec (l pre : List K) (j : Nat) (b : K)
    (hj : pre[j]? = some b) (hmax : ∀ x ∈ pre, x ≤ b)
    (hfirst : ∀ i, i < j → ∀ x, pre[i]? = some x → x < b) :
    ∃ m, (pre ++ l)[argmaxGo l pre.length j b]? = some m ∧ (∀ x ∈ pre ++ l, x ≤ m) ∧
      (∀ i, i < argmaxGo l pre.length j b → ∀ x, (pre ++ l)[i]? = some x → x < m) := by
  induction l generalizing pre j b with
  | nil => simpa [argmaxGo] using ⟨b, hj, hmax, hfirst⟩
  | cons a l ih =>
    have happ : pre ++ a :: l = (pre ++ [a]) ++ l := by simp
    have hlen : pre.length + 1 = (pre ++ [a]).length := by simp
    rw [happ]
    simp only [argmaxGo]
    split
    · rename_i hlt
      rw [hlen]
      refine ih (pre ++ [a]) pre.length a (by simp) ?_ ?_
      · intro x hx
        rcases List.mem_append.1 hx with h | h
        · exact le_of_lt (lt_of_le_of_lt (hmax x h) hlt)
        · simp at h; exact le_of_eq h
      · intro i hi x hx
        rw [List.getElem?_append_left hi] at hx
        exact lt_of_le_of_lt (hmax x (List.mem_of_getElem? hx)) hlt
    · rename_i hnlt
      rw [hlen]
      have hjl : j < pre.length := by
        by_contra hge
        rw [List.getElem?_eq_none (by omega)] at hj
        cases hj
      refine ih (pre ++ [a]) j b (by rw [List.getElem?_append_left hjl]; exact hj) ?_ ?_
      · intro x hx
        rcases List.mem_append.1 hx with h | h
        · exact hmax x h
        · simp at h; subst h; exact not_lt.1 hnlt
      · intro i hi x hx
        rw [List.getElem?_append_left (by omega)] at hx
        exact hfirst i hi x hx

theorem argmax_spec {l : List K} {j : Nat} (h : argmax l = some j) :
    ∃ m, l[j]? = some m ∧ (∀ x ∈ l, x ≤ m) ∧ (∀ i, i < j → ∀ x, l[i]? = some x → x < m) := by
  cases l with
  | nil => simp [argmax] at h
  | cons a l =>
    simp only [argmax, Option.some.injEq] at h
    have := argmaxGo_spec l [a] 0 a (by simp) (by simp) (by simp)
    simpa [h] using this

theorem argmax_lt {l : List K} {j : Nat} (h : argmax l = some j) : j < l.length := by
  obtain ⟨m, hm, _⟩ := argmax_spec h
  by_contra hge
  rw [List.getElem?_eq_none (by omega)] at hm
  cases hm

theorem argmax_isSome {l : List K} (h : l ≠ []) : ∃ j, argmax l = some j := by
  cases l with
  | nil => exact absurd rfl h
  | cons a l => exact ⟨_, rfl⟩

theorem argminGo_eq (l : List K) (i j : Nat) (b : K) :
    argminGo l i j b = argmaxGo (K := Kᵒᵈ) l i j b := by
  induction l generalizing i j b with
  | nil => rfl
  | cons a l ih =>
    simp only [argminGo, argmaxGo, ih]
    rfl

theorem argmin_eq (l : List K) : argmin l = argmax (K := Kᵒᵈ) l := by
  cases l with
  | nil => rfl
  | cons a l => simp only [argmin, argmax, argminGo_eq]

theorem argmin_spec {l : List K} {j : Nat} (h : argmin l = some j) :
    ∃ m, l[j]? = some m ∧ (∀ x ∈ l, m ≤ x) ∧ (∀ i, i < j → ∀ x, l[i]? = some x → m < x) := by
  rw [argmin_eq] at h
  exact argmax_spec (K := Kᵒᵈ) h

theorem argmin_lt {l : List K} {j : Nat} (h : argmin l = some j) : j < l.length := by
  rw [argmin_eq] at h
  exact argmax_lt (K := Kᵒᵈ) h

theorem argmin_isSome {l : List K} (h : l ≠ []) : ∃ j, argmin l = some j := by
  cases l with
  | nil => exact absurd rfl h
  | cons a l => exact ⟨_, rfl⟩

/-- `argmin` is determined by its specification. -/
theorem argmin_eq_of {l : List K} {j : Nat} {m : K} (hj : l[j]? = some m) (hmin : ∀ x ∈ l, m ≤ x)
    (hfirst : ∀ i, i < j → ∀ x, l[i]? = some x → m < x) : argmin l = some j := by
  have hne : l ≠ [] := by rintro rfl; simp at hj
  obtain ⟨j', hj'⟩ := argmin_isSome hne
  obtain ⟨m', h1, h2, h3⟩ := argmin_spec hj'
  have hmm : m = m' := le_antisymm (hmin _ (List.mem_of_getElem? h1)) (h2 _ (List.mem_of_getElem? hj))
  subst hmm
  rcases Nat.lt_trichotomy j j' with h | h | h
  · exact absurd (h3 j h m hj) (lt_irrefl _)
  · rw [hj', h]
  · exact absurd (hfirst j' h m h1) (lt_irrefl _)

end order

section mask

theorem length_select (l : List α) (m : List Bool) (h : l.length = m.length) :
    (select l m).length = countNonzero m := by
  induction l generalizing m with
  | nil => cases m <;> simp_all [select, countNonzero]
  | cons a l ih =>
    cases m with
    | nil => simp at h
    | cons b m =>
      have := ih m (by simpa using h)
      cases b <;> simp_all [select, countNonzero]

@[simp] theorem length_assign (l : List α) (m : List Bool) (vs : List α) :
    (assign l m vs).length = l.length := by
  induction l generalizing m vs with
  | nil => cases m <;> simp [assign]
  | cons a l ih =>
    cases m with
    | nil => simp [assign]
    | cons b m =>
      cases b
      · simp [assign, ih]
      · cases vs <;> simp [assign, ih]

/-- Reading back the masked positions gives the assigned values. -/
theorem select_assign (l : List α) (m : List Bool) (vs : List α) (h : l.length = m.length)
    (hv : vs.length = countNonzero m) : select (assign l m vs) m = vs := by
  induction l generalizing m vs with
  | nil =>
    have hm : m = [] := List.length_eq_zero_iff.1 (by simpa using h.symm)
    subst hm
    have : vs = [] := List.length_eq_zero_iff.1 (by simpa [countNonzero] using hv)
    subst this
    simp [select, assign]
  | cons a l ih =>
    cases m with
    | nil => simp at h
    | cons b m =>
      cases b
      · simp only [assign, select]
        exact ih m vs (by simpa using h) (by simpa [countNonzero] using hv)
      · cases vs with
        | nil => simp [countNonzero] at hv
        | cons v vs =>
          simp only [assign, select]
          rw [ih m vs (by simpa using h) (by simpa [countNonzero] using hv)]

/-- Positions outside the mask are untouched. -/
theorem select_not_assign (l : List α) (m : List Bool) (vs : List α) (h : l.length = m.length)  :
    select (assign l m vs) (m.map not) = select l (m.map not) := by
  induction l generalizing m vs with
  | nil => cases m <;> simp [select, assign]
  | cons a l ih =>
    cases m with
    | nil => simp at h
    | cons b m =>
      cases b
      · simp only [assign, select, List.map_cons, Bool.not_false]
        rw [ih m vs (by simpa using h)]
      · cases vs with
        | nil => simp only [assign, select, List.map_cons, Bool.not_true]; exact ih m [] (by simpa using h)
        | cons v vs =>
          simp only [assign, select, List.map_cons, Bool.not_true]
          exact ih m vs (by simpa using h)

/-- A list is determined by its masked and unmasked parts. -/
theorem eq_of_select (l l' : List α) (m : List Bool) (h : l.length = m.length) (h' : l'.length = m.length)
    (h1 : select l m = select l' m) (h2 : select l (m.map not) = select l' (m.map not)) : l = l' := by
  induction m generalizing l l' with
  | nil =>
    have e1 : l = [] := List.length_eq_zero_iff.1 (by simpa using h)
    have e2 : l' = [] := List.length_eq_zero_iff.1 (by simpa using h')
    rw [e1, e2]
  | cons b m ih =>
    cases l with
    | nil => simp at h
    | cons a l =>
      cases l' with
      | nil => simp at h'
      | cons a' l' =>
        cases b
        · simp only [select, List.map_cons, Bool.not_false, List.cons.injEq] at h1 h2
          rw [h2.1, ih l l' (by simpa using h) (by simpa using h') h1 h2.2]
        · simp only [select, List.map_cons, Bool.not_true, List.cons.injEq] at h1 h2
          rw [h1.1, ih l l' (by simpa using h) (by simpa using h') h1.2 h2]

theorem select_append (l₁ l₂ : List α) (m₁ m₂ : List Bool) (h : l₁.length = m₁.length) :
    select (l₁ ++ l₂) (m₁ ++ m₂) = select l₁ m₁ ++ select l₂ m₂ := by
  induction l₁ generalizing m₁ with
  | nil =>
    have : m₁ = [] := List.length_eq_zero_iff.1 (by simpa using h.symm)
    subst this; simp [select]
  | cons a l ih =>
    cases m₁ with
    | nil => simp at h
    | cons b m =>
      cases b <;> simp [select, ih m (by simpa using h)]

end mask

end Np
