import Verif.Props.Receiver

/-!
C225: which frames of a synchronised pilot signal `apply_filter` accepts.
-/

namespace Qampy

open Classical in
/-- The sample at which the filter starts for a mode with shift factor `x`: corrected for the difference in tap number, and one frame later for all modes if
the start of some mode would lie before the signal. -/
noncomputable def frameStart (shifts : List Int) (ntaps synctaps period : Nat) (x : Int) : Int :=
  x - ((ntaps : Int) - synctaps) / 2 + if ∃ y ∈ shifts, y - ((ntaps : Int) - synctaps) / 2 < 0 then (period : Int) else 0

/-- What a user expects from the length check: frames whose symbols can all be computed from samples of the signal are equalised. -/
def C225_statement : Prop :=
  ∀ (E : List (List ℂ)) (p L os fl synctaps ntaps : Nat) (shifts : List Int) (wx : Taps) (frames : List Nat), Rect E p L → 1 ≤ p → 0 < os → 0 < fl → 1 ≤ ntaps →
    TapsOk p ntaps wx → shifts.length = p → frames ≠ [] →
    (∀ x ∈ shifts, 0 ≤ frameStart shifts ntaps synctaps (os * fl) x ∧
      ∀ f ∈ frames, ∀ q < fl, frameStart shifts ntaps synctaps (os * fl) x + ((f * fl + q) * os : Nat) + ntaps ≤ L) →
    ∃ r, applyToPilotSignal E L os fl shifts synctaps wx ntaps frames = .ok r

theorem pilotShifts_eq (shifts : List Int) (hne : shifts ≠ []) (ntaps synctaps period : Nat) :
    pilotShifts shifts ntaps synctaps period = .ok (shifts.map (frameStart shifts ntaps synctaps period)) := by
  unfold pilotShifts
  have hs : (if ntaps ≠ synctaps then shifts.map (· - ((ntaps : Int) - synctaps) / 2) else shifts) =
      shifts.map (· - ((ntaps : Int) - synctaps) / 2) := by
    by_cases e : ntaps = synctaps
    · subst e; simp
    · rw [if_pos e]
  simp only [hs]
  cases hm : (shifts.map (· - ((ntaps : Int) - synctaps) / 2)).min? with
  | none => simp [List.min?_eq_none_iff] at hm; exact absurd hm hne
  | some m =>
    obtain ⟨hmem, hle⟩ := List.min?_eq_some_iff.1 hm
    simp only [Except.ok.injEq]
    by_cases h0 : m < 0
    · rw [if_pos h0, List.map_map]
      have : ∃ y ∈ shifts, y - ((ntaps : Int) - synctaps) / 2 < 0 := by
        obtain ⟨y, hy, rfl⟩ := List.mem_map.1 hmem
        exact ⟨y, hy, h0⟩
      apply List.map_congr_left
      intro x _
      simp only [frameStart, if_pos this, Function.comp_apply]
    · rw [if_neg h0]
      have : ¬ ∃ y ∈ shifts, y - ((ntaps : Int) - synctaps) / 2 < 0 := by
        rintro ⟨y, hy, h1⟩
        have := hle _ (List.mem_map.2 ⟨y, hy, rfl⟩)
        omega
      apply List.map_congr_left
      intro x _
      simp only [frameStart, if_neg this, add_zero]

/-- C225: a list of frames is accepted exactly when, for every mode, one more symbol after the last requested frame could be computed from the signal;
otherwise AssertionError. -/
theorem C225_accept (E : List (List ℂ)) (p L os fl synctaps ntaps : Nat) (shifts : List Int) (wx : Taps) (frames : List Nat) (hE : Rect E p L) (hp : 1 ≤ p)
    (hw : TapsOk p ntaps wx) (hs : shifts.length = p) (hf : frames ≠ []) :
    ((∃ r, applyToPilotSignal E L os fl shifts synctaps wx ntaps frames = .ok r) ↔
      ∀ x ∈ shifts, ∀ f ∈ frames, frameStart shifts ntaps synctaps (os * fl) x + ((f * fl + fl) * os : Nat) + ntaps ≤ L) ∧
    ((¬ ∀ x ∈ shifts, ∀ f ∈ frames, frameStart shifts ntaps synctaps (os * fl) x + ((f * fl + fl) * os : Nat) + ntaps ≤ L) →
      applyToPilotSignal E L os fl shifts synctaps wx ntaps frames = .error .assertion) := by
  have hne : shifts ≠ [] := by rintro rfl; simp at hs; omega
  obtain ⟨s, hse⟩ : ∃ s, s = shifts.map (frameStart shifts ntaps synctaps (os * fl)) := ⟨_, rfl⟩
  have hps := pilotShifts_eq shifts hne ntaps synctaps (os * fl)
  rw [← hse] at hps
  have hsne : s ≠ [] := by rw [hse]; simpa using hne
  obtain ⟨fmax, hfm⟩ : ∃ m, frames.max? = some m := Option.isSome_iff_exists.1 (List.isSome_max?_of_ne_nil hf)
  obtain ⟨smax, hsm⟩ : ∃ m, s.max? = some m := Option.isSome_iff_exists.1 (List.isSome_max?_of_ne_nil hsne)
  obtain ⟨hfmem, hfle⟩ := List.max?_eq_some_iff.1 hfm
  obtain ⟨hsmem, hsle⟩ := List.max?_eq_some_iff.1 hsm
  have hcond : (∀ x ∈ shifts, ∀ f ∈ frames, frameStart shifts ntaps synctaps (os * fl) x + ((f * fl + fl) * os : Nat) + ntaps ≤ L) ↔
      smax + (os : Int) * fl * (fmax + 1) < L - ((ntaps : Int) - 1) := by
    constructor
    · intro h
      rw [hse] at hsmem
      obtain ⟨x, hx, rfl⟩ := List.mem_map.1 hsmem
      have h1 := h x hx fmax hfmem
      have h2 : (((fmax * fl + fl) * os : Nat) : Int) = (os : Int) * fl * (fmax + 1) := by push_cast; ring
      omega
    · intro h x hx f hfr
      have h1 := hsle _ (by rw [hse]; exact List.mem_map.2 ⟨x, hx, rfl⟩)
      have h3 : (f * fl + fl) * os ≤ (fmax * fl + fl) * os := Nat.mul_le_mul_right _ (Nat.add_le_add_right (Nat.mul_le_mul_right _ (hfle f hfr)) _)
      have h2 : (((fmax * fl + fl) * os : Nat) : Int) = (os : Int) * fl * (fmax + 1) := by push_cast; ring
      omega
  rw [hcond]
  have hEl : E.length = p := hE.1
  have hrows : ¬ (E.length = 0 ∨ wx.rows % E.length ≠ 0) := by
    rw [hEl]
    have : wx.rows % p = 0 := by
      cases wx with
      | cplx w => simp [Taps.rows, hw.1]
      | real w => simp [Taps.rows, hw.1]
    omega
  have hsl : ¬ s.length < E.length := by rw [hEl, hse, List.length_map]; omega
  have hper : (os : Int) * fl = ((os * fl : Nat) : Int) := by push_cast; rfl
  unfold applyToPilotSignal
  simp only [bind, Except.bind, pure, Except.pure, throw, throwThe, MonadExceptOf.throw]
  rw [hper, hps]
  simp only [hfm, hsm]
  by_cases hc : smax + ((os * fl : Nat) : Int) * (fmax + 1) < L - ((ntaps : Int) - 1)
  · simp only [hc, not_true, if_false, if_neg hrows, if_neg hsl, iff_true, false_implies, and_true]
    split <;> exact ⟨_, rfl⟩
  · simp only [hc, not_false_eq_true, if_true, reduceCtorEq, exists_const, imp_self, and_self]

/-- C225 is violated: a signal that ends with the last sample needed for the frame is refused. -/
theorem C225_false : ¬ C225_statement := by
  intro h
  have hE : Rect [[(1 : ℂ), 2, 3]] 1 3 := by simp [Rect]
  have hw : TapsOk 1 1 (.cplx [[[1]]]) := by simp [TapsOk, Rect]
  have hst : frameStart [0] 1 1 (1 * 3) 0 = 0 := by simp [frameStart]
  obtain ⟨r, hr⟩ := h [[1, 2, 3]] 1 3 1 3 1 1 [0] (.cplx [[[1]]]) [0] hE le_rfl one_pos (by norm_num) le_rfl hw rfl (by simp) (by
    intro x hx
    simp only [List.mem_singleton] at hx
    subst hx
    rw [hst]
    refine ⟨le_rfl, ?_⟩
    intro f hf q hq
    simp only [List.mem_singleton] at hf
    subst hf
    push_cast
    omega)
  have := (C225_accept [[1, 2, 3]] 1 3 1 3 1 1 [0] (.cplx [[[1]]]) [0] hE le_rfl hw rfl (by simp)).1.1 ⟨r, hr⟩ 0 (by simp) 0 (by simp)
  rw [hst] at this
  norm_num at this

/-- C225 for a signal with one more symbol. Missing: signals that end with the last sample needed, which are refused, see `C225_false`. -/
theorem C225_longer_partial (E : List (List ℂ)) (p L os fl synctaps ntaps : Nat) (shifts : List Int) (wx : Taps) (frames : List Nat) (hE : Rect E p L) (hp : 1 ≤ p)
    (hw : TapsOk p ntaps wx) (hs : shifts.length = p) (hf : frames ≠ [])
    (h : ∀ x ∈ shifts, ∀ f ∈ frames, ∀ q < fl, frameStart shifts ntaps synctaps (os * fl) x + ((f * fl + q) * os : Nat) + ntaps + os ≤ L) (hfl : 0 < fl) :
    ∃ r, applyToPilotSignal E L os fl shifts synctaps wx ntaps frames = .ok r := by
  refine (C225_accept E p L os fl synctaps ntaps shifts wx frames hE hp hw hs hf).1.2 fun x hx f hfr => ?_
  have h1 := h x hx f hfr (fl - 1) (by omega)
  have h2 : (f * fl + fl) * os = (f * fl + (fl - 1)) * os + os := by
    rw [show f * fl + fl = f * fl + (fl - 1) + 1 by omega, Nat.add_mul, Nat.one_mul]
  rw [h2]
  push_cast at h1 ⊢
  omega

example : ∃ r, applyToPilotSignal [[1, 2, 3, 4]] 4 1 3 [0] 1 (.cplx [[[1]]]) 1 [0] = .ok r :=
  C225_longer_partial [[1, 2, 3, 4]] 1 4 1 3 1 1 [0] (.cplx [[[1]]]) [0] (by simp [Rect]) le_rfl (by simp [TapsOk, Rect]) rfl (by simp) (by
    intro x hx f hf q hq
    simp only [List.mem_singleton] at hx hf
    subst hx hf
    have : frameStart [0] 1 1 (1 * 3) 0 = 0 := by simp [frameStart]
    rw [this]
    push_cast
    omega) (by norm_num)

end Qampy
