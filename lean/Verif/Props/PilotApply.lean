import Verif.Model.PilotApply
import Verif.Props.Equaliser

/-!
C217: equalising a signal with pilots as a whole.
-/

namespace Qampy

/-- **C217** The signal is equalised if and only if a whole frame is left after the filter; the result has all samples of the filter and the number of whole frames among them. -/
theorem C217_whole {E : List (List ℂ)} {wx : List (List (List ℂ))} {p L os ntaps fl : Nat} (hE : Rect E p L) (hos : 0 < os) (hfl : 0 < fl) (hn : ntaps ≤ L + 1) (hw : ∀ w ∈ wx, Rect w p ntaps) :
    (fl * os + ntaps ≤ L + 1 → ∃ out, applyWhole E L os fl wx ntaps = .ok (some (out, (L + 1 - ntaps) / (os * fl))) ∧ Rect out wx.length ((L + 1 - ntaps) / os) ∧
      ∀ m w, wx[m]? = some w → ∀ i < (L + 1 - ntaps) / os, at2 out m i = some (∑ k ∈ Finset.range p, ∑ t ∈ Finset.range ntaps, val2 w k t * val2 E k (i * os + t))) ∧
    (L + 1 < fl * os + ntaps → applyWhole E L os fl wx ntaps = .error .assertion) := by
  obtain ⟨out, h1, h2, h3, h4⟩ := C24_apply_filter (wx := wx) (modes := List.range wx.length) hE hos hn (by
    intro m hm
    rw [List.mem_range] at hm
    exact ⟨wx[m], List.getElem?_eq_getElem hm, hw _ (List.getElem_mem hm)⟩)
  have hd : (L + 1 - ntaps) / os / fl = (L + 1 - ntaps) / (os * fl) := Nat.div_div_eq_div_mul _ _ _
  have hp : pilotFrames ((L + 1 - ntaps) / os) 1 fl = .ok ((L + 1 - ntaps) / (os * fl)) := by
    rw [pilotFrames, one_mul, if_neg hfl.ne', hd]
  constructor
  · intro hl
    have hpos : 0 < (L + 1 - ntaps) / (os * fl) := Nat.div_pos (by rw [mul_comm os]; omega) (Nat.mul_pos hos hfl)
    refine ⟨out, ?_, ⟨by rw [h2, List.length_range], h3⟩, ?_⟩
    · unfold applyWhole
      rw [h1]
      dsimp only
      unfold recreatePilots
      rw [hp]
      simp only [bind, Except.bind]
      rw [if_pos hpos]
      rfl
    · intro m w hm i hi
      have hlt : m < wx.length := (List.getElem?_eq_some_iff.1 hm).1
      exact (h4 m m w (List.getElem?_range hlt) hm i hi).2
  · intro hl
    have h0 : (L + 1 - ntaps) / (os * fl) = 0 := Nat.div_eq_of_lt (by rw [mul_comm os]; omega)
    unfold applyWhole
    rw [h1]
    dsimp only
    unfold recreatePilots
    rw [hp, h0]
    rfl

/-- C217, as one would expect it: equalising a signal of whole frames gives a signal with as many frames. -/
def C217_statement : Prop :=
  ∀ (E : List (List ℂ)) (wx : List (List (List ℂ))) (p F os ntaps fl : Nat), 0 < F → 0 < os → 0 < fl → 0 < ntaps → ntaps ≤ F * fl * os + 1 → Rect E p (F * fl * os) → (∀ w ∈ wx, Rect w p ntaps) →
    ∃ out, applyWhole E (F * fl * os) os fl wx ntaps = .ok (some (out, F))

/-- **C217** With more than one tap, and not more than fit in a frame, a signal of `F` whole frames loses one: the result has `F - 1` frames, and a signal of a single frame cannot be equalised at all. -/
theorem C217_frames {E : List (List ℂ)} {wx : List (List (List ℂ))} {p F os ntaps fl : Nat} (hF : 0 < F) (hE : Rect E p (F * fl * os)) (hos : 0 < os) (hfl : 0 < fl) (h2 : 2 ≤ ntaps) (hn : ntaps ≤ fl * os + 1)
    (hw : ∀ w ∈ wx, Rect w p ntaps) :
    (F = 1 → applyWhole E (F * fl * os) os fl wx ntaps = .error .assertion) ∧ (2 ≤ F → ∃ out, applyWhole E (F * fl * os) os fl wx ntaps = .ok (some (out, F - 1)) ∧
      Rect out wx.length ((F * fl * os + 1 - ntaps) / os)) := by
  obtain ⟨c, hc⟩ : ∃ c, c = fl * os := ⟨_, rfl⟩
  have hL : F * fl * os = F * c := by rw [hc, mul_assoc]
  have hcF : c ≤ F * c := Nat.le_mul_of_pos_left _ hF
  have hc0 : 0 < c := by rw [hc]; exact Nat.mul_pos hfl hos
  have key := C217_whole (fl := fl) hE hos hfl (by rw [hL]; omega) hw
  constructor
  · rintro rfl
    refine key.2 ?_
    rw [hL, ← hc]
    omega
  · intro hF2
    have h2c : 2 * c ≤ F * c := Nat.mul_le_mul_right _ hF2
    obtain ⟨out, h3, h4, -⟩ := key.1 (by rw [hL, ← hc]; omega)
    refine ⟨out, ?_, h4⟩
    rw [h3]
    congr 3
    have e : F * c = (F - 1) * c + c := by rw [← Nat.succ_mul]; congr 1; omega
    rw [hL, show os * fl = c by rw [hc, mul_comm], e]
    rw [Nat.div_eq_iff hc0]
    constructor <;> omega

theorem C217_false : ¬ C217_statement := by
  intro h
  have hE : Rect ([[0, 0]] : List (List ℂ)) 1 (1 * 2 * 1) := by constructor <;> simp
  have hw : ∀ w ∈ ([[[1, 0]]] : List (List (List ℂ))), Rect w 1 2 := by
    intro w hw
    rw [List.mem_singleton] at hw
    subst hw
    constructor <;> simp
  obtain ⟨out, h1⟩ := h [[0, 0]] [[[1, 0]]] 1 1 1 2 2 (by norm_num) (by norm_num) (by norm_num) (by norm_num) (by norm_num) hE hw
  rw [(C217_frames (by norm_num) hE (by norm_num) (by norm_num) le_rfl (by norm_num) hw).1 rfl] at h1
  cases h1

/-- Two modes of three frames of four symbols with two samples each and five taps: two frames are left. -/
example (E : List (List ℂ)) (hE : Rect E 2 (3 * 4 * 2)) : ∃ out, applyWhole E (3 * 4 * 2) 2 4 [[[0, 0, 1, 0, 0], [0, 0, 0, 0, 0]], [[0, 0, 0, 0, 0], [0, 0, 1, 0, 0]]] 5 = .ok (some (out, 2)) ∧ Rect out 2 10 :=
  (C217_frames (by norm_num) hE (by norm_num) (by norm_num) (by norm_num) (by norm_num) (by simp [Rect])).2 (by norm_num)

end Qampy
