import Verif.Props.FrameSync

/-!
Coverage of the frame by the windows of the pilot search (C150).
-/

namespace Qampy

/-- Number of samples common to two windows of `W` samples. -/
def commonSamples (W a b : Nat) : Nat := min (a + W) (b + W) - max a b

/-- C150: the windows of the search cover the frame. Wherever in the frame the pilot sequence starts, one of the windows that are searched has at least a quarter of its samples in common with it, or with its
repetition one frame later. -/
theorem C150_coverage (S : SyncParams) {seqLen t : Nat} (hst : 2 ≤ seqLen * S.os) (hF : seqLen ≤ S.frameLen) (ht : t < S.frameLen * S.os) :
    ∃ i, 2 ≤ i ∧ i < searchCount S seqLen ∧
      (seqLen * S.os ≤ 4 * commonSamples (seqLen * S.os) (i * searchStep S seqLen) t ∨ seqLen * S.os ≤ 4 * commonSamples (seqLen * S.os) (i * searchStep S seqLen) (t + S.frameLen * S.os)) := by
  have hWF : seqLen * S.os ≤ S.frameLen * S.os := Nat.mul_le_mul_right _ hF
  unfold searchCount searchStep searchWindow commonSamples
  generalize seqLen * S.os = W at *
  generalize S.frameLen * S.os = F at *
  obtain ⟨s, hs⟩ : ∃ s, s = W / 2 := ⟨_, rfl⟩
  rw [← hs]
  have hs0 : 0 < s := by omega
  have hq : s * (F / s) + F % s = F := Nat.div_add_mod F s
  have hr : F % s < s := Nat.mod_lt _ hs0
  have hq2 : 2 ≤ F / s := by
    rw [Nat.le_div_iff_mul_le hs0]
    omega
  by_cases h : t < 2 * s
  · by_cases h4 : W ≤ 4 * (W - 2 * s + t)
    · exact ⟨2, le_refl _, by omega, Or.inl (by omega)⟩
    · refine ⟨F / s, hq2, by omega, Or.inr ?_⟩
      rw [Nat.mul_comm (F / s) s]
      generalize s * (F / s) = Q at *
      omega
  · have hd : s * (t / s) + t % s = t := Nat.div_add_mod t s
    have hdr : t % s < s := Nat.mod_lt _ hs0
    refine ⟨t / s, ?_, ?_, Or.inl ?_⟩
    · rw [Nat.le_div_iff_mul_le hs0]; omega
    · exact Nat.lt_succ_of_le (Nat.div_le_div_right (by omega))
    · rw [Nat.mul_comm (t / s) s]
      generalize s * (t / s) = Q at *
      omega

example : ∃ i, 2 ≤ i ∧ i < searchCount quietS 4 ∧ (4 * quietS.os ≤ 4 * commonSamples (4 * quietS.os) (i * searchStep quietS 4) 1 ∨ 4 * quietS.os ≤ 4 * commonSamples (4 * quietS.os) (i * searchStep quietS 4) (1 + quietS.frameLen * quietS.os)) :=
  C150_coverage quietS (by decide) (by decide) (by decide)

/-- C150: the sequence that is correlated with the pilots starts one pilot sequence before the window that was found. Pilots that start at sample `a`, not after that window, are in it completely; of
pilots that start after the window the end is missing. -/
theorem C150_complete (S : SyncParams) {rx : List (List ℂ)} {p L seqLen i a : Nat} (hE : Rect rx p L) (hL : (S.frameLen + 2 * seqLen) * S.os ≤ L) (hi : i < searchCount S seqLen)
    (hlo : seqLen * S.os ≤ i * searchStep S seqLen) (hw : 0 < seqLen * S.os) (ha : i * searchStep S seqLen ≤ a + seqLen * S.os) {m : Nat} (hm : m < p) :
    (∀ k < seqLen * S.os, ∃ j, ∃ x, at2 (longSlice S seqLen rx i) m j = some x ∧ at2 rx m (a + k) = some x ∧ j + (i * searchStep S seqLen - seqLen * S.os) = a + k) ↔ a ≤ i * searchStep S seqLen := by
  obtain ⟨hr, hat⟩ := longSlice_rect S hE hL hi hlo
  have hsw : searchWindow S seqLen = seqLen * S.os := rfl
  have hfit := window_fits S hL hi
  rw [hsw] at hat hfit
  constructor
  · intro h
    obtain ⟨j, x, h1, -, h3⟩ := h (seqLen * S.os - 1) (by omega)
    have : j < 2 * (seqLen * S.os) := by
      by_contra hc
      unfold at2 at h1
      cases hrow : (longSlice S seqLen rx i)[m]? with
      | none => rw [hrow] at h1; cases h1
      | some row =>
        rw [hrow, Option.bind_some, List.getElem?_eq_none] at h1
        · cases h1
        · rw [hr.2 row (List.mem_of_getElem? hrow)]; omega
    omega
  · intro h k hk
    have hml : m < rx.length := by rw [hE.1]; exact hm
    have hlen : rx[m].length = L := hE.2 _ (List.getElem_mem hml)
    have hx : at2 rx m (a + k) = some (rx[m][a + k]'(by omega)) := by
      unfold at2
      rw [List.getElem?_eq_getElem hml, Option.bind_some, List.getElem?_eq_getElem]
    refine ⟨a + k - (i * searchStep S seqLen - seqLen * S.os), _, ?_, hx, by omega⟩
    rw [hat m _ (by omega), ← hx]
    congr 1
    omega

example : ∀ k < 4, ∃ j, ∃ x, at2 (longSlice quietS 4 [List.replicate 16 (2 : ℂ)] 3) 0 j = some x ∧ at2 [List.replicate 16 (2 : ℂ)] 0 (5 + k) = some x ∧ j + 2 = 5 + k :=
  (C150_complete quietS (p := 1) (L := 16) (seqLen := 4) (i := 3) (a := 5) ⟨rfl, by simp⟩ (by decide) (by decide) (by decide) (by decide) (by decide) (by decide)).2 (by decide)

/-- The sum of the squared deviations from the mean. -/
theorem sum_dev (e : List ℂ) (m : ℂ) : (e.map fun x => ‖x - m‖ ^ 2).sum = (e.map fun x => ‖x‖ ^ 2).sum - 2 * (e.sum * (starRingEnd ℂ) m).re + e.length * ‖m‖ ^ 2 := by
  induction e with
  | nil => simp
  | cons x e ih =>
    have h : ‖x - m‖ ^ 2 = ‖x‖ ^ 2 - 2 * (x * (starRingEnd ℂ) m).re + ‖m‖ ^ 2 := by
      rw [← Complex.normSq_eq_norm_sq, ← Complex.normSq_eq_norm_sq, ← Complex.normSq_eq_norm_sq, Complex.normSq_sub]
      ring
    rw [List.map_cons, List.sum_cons, ih, h, List.map_cons, List.sum_cons, List.sum_cons, add_mul, Complex.add_re, List.length_cons]
    push_cast
    ring

theorem sum_sq_terms_zero {f : ℂ → ℝ} : ∀ {e : List ℂ}, (e.map fun x => f x ^ 2).sum = 0 → ∀ x ∈ e, f x = 0
  | [], _, x, hx => by simp at hx
  | y :: e, h, x, hx => by
    rw [List.map_cons, List.sum_cons] at h
    have h1 : 0 ≤ (e.map fun x => f x ^ 2).sum := List.sum_nonneg (by simp only [List.mem_map]; rintro _ ⟨x, -, rfl⟩; positivity)
    have h2 := sq_nonneg (f y)
    rcases List.mem_cons.1 hx with rfl | hx
    · exact sq_eq_zero_iff.1 (by linarith)
    · exact sum_sq_terms_zero (by linarith) x hx

/-- C150: the number by which the windows are compared is the variance of the errors of the training in this window: a constant error does not count. -/
theorem C150_variance (S : SyncParams) {seqLen i l : Nat} {rx : List (List ℂ)} {t : List (List (List ℂ)) × List (Option ℝ)} {v : ℝ} (h : searchTrain S seqLen rx i = .ok (some t)) (hv : t.2[l]? = some (some v)) :
    ∃ r e, equaliseSignal S.syms (searchSlice S seqLen rx i) (columns (searchSlice S seqLen rx i)) S.os S.mu none S.ntaps S.trSyms S.nIter S.method S.adaptive none none = .ok (some r) ∧ r.wx = t.1 ∧
      r.err[l]? = some e ∧ 0 < e.length ∧ (e.length : ℝ) ^ 2 * v = e.length * (e.map fun x => ‖x‖ ^ 2).sum - ‖e.sum‖ ^ 2 ∧ 0 ≤ v ∧ (v = 0 ↔ ∃ c, ∀ x ∈ e, x = c) := by
  unfold searchTrain at h
  generalize equaliseSignal S.syms (searchSlice S seqLen rx i) (columns (searchSlice S seqLen rx i)) S.os S.mu none S.ntaps S.trSyms S.nIter S.method S.adaptive none none = q at *
  match q, h with
  | .ok (some r), h =>
    rw [thenTry_some] at h
    have h' : (r.wx, r.err.map errVar) = t := Option.some.inj (Except.ok.inj h)
    subst h'
    simp only [List.getElem?_map, Option.map_eq_some_iff] at hv
    obtain ⟨e, he, hev⟩ := hv
    refine ⟨r, e, rfl, rfl, he, ?_⟩
    unfold errVar at hev
    by_cases h0 : e.length = 0
    · rw [if_pos h0] at hev
      exact absurd hev (by simp)
    · rw [if_neg h0] at hev
      have hev' := (Option.some.inj hev).symm
      have hn : (0 : ℝ) < e.length := by exact_mod_cast Nat.pos_of_ne_zero h0
      refine ⟨Nat.pos_of_ne_zero h0, ?_, ?_, ?_⟩
      · rw [hev', sum_dev, norm_div, Complex.norm_natCast, map_div₀, mul_div_assoc' e.sum, Complex.mul_conj, Complex.conj_natCast, Complex.normSq_eq_norm_sq]
        rw [show (((‖e.sum‖ ^ 2 : ℝ) : ℂ) / (e.length : ℂ)).re = ‖e.sum‖ ^ 2 / e.length by
          rw [show ((‖e.sum‖ ^ 2 : ℝ) : ℂ) / (e.length : ℂ) = ((‖e.sum‖ ^ 2 / e.length : ℝ) : ℂ) by push_cast; rfl, Complex.ofReal_re]]
        field_simp
        ring
      · rw [hev']
        exact div_nonneg (List.sum_nonneg (by simp only [List.mem_map]; rintro _ ⟨x, -, rfl⟩; positivity)) hn.le
      · rw [hev', div_eq_zero_iff, or_iff_left hn.ne']
        constructor
        · intro hz
          refine ⟨e.sum / e.length, fun x hx => ?_⟩
          have := sum_sq_terms_zero hz x hx
          rw [norm_eq_zero, sub_eq_zero] at this
          exact this
        · rintro ⟨c, hc⟩
          have hs : e.sum = e.length * c := by
            rw [List.eq_replicate_iff.2 ⟨rfl, hc⟩]
            simp
          have hne : (e.length : ℂ) ≠ 0 := by exact_mod_cast h0
          rw [hs, mul_div_cancel_left₀ _ hne]
          apply List.sum_eq_zero
          simp only [List.mem_map]
          rintro _ ⟨x, hx, rfl⟩
          rw [hc x hx]
          simp
  | .ok none, h => exact absurd h (by simp [thenTry])
  | .error _, h => exact absurd h (by simp [thenTry])

/-- A window with errors that vary. -/
example : ∃ t v, searchTrain quietS 4 [quietRx] 2 = .ok (some t) ∧ t.2[0]? = some (some v) ∧ v ≠ 0 := by
  have H := quiet_pilots
  obtain ⟨t, ht⟩ := search_total quietS H.hE H.hp H.hL H.hsy H.hm H.hn H.hT H.hfit
  obtain ⟨h1, -, -⟩ := ht 2 (by decide)
  exact ⟨t 2, 9 / 256, h1, by rw [quiet_train _ h1]; rfl, by norm_num⟩

end Qampy
