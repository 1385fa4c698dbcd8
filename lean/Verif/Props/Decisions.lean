import Verif.Model.Decisions
import Verif.Model.Phase
import Verif.Props.Training
import Verif.Lemmas.Constellation
import Verif.Tactics

/-!
C187: the decision routines of the package agree with each other.
-/

namespace Qampy

open Complex

/-- C187: the parallel version returns what `det_symbol` returns. -/
theorem C187_parallel (X : ℂ) (symbs : List ℂ) : detSymbolParallel X symbs = detSymbol X symbs := by
  unfold detSymbolParallel detSymbol
  rcases detSymbolGo_spec X symbs 1 1000 with ⟨_, h⟩ | ⟨j, c, _, h, h3, _⟩
  · simp [h]
  · simp [h, h3]

/-- C187, with threads: whatever the partition of the alphabet and the order in which the threads finish, the distance is that of `det_symbol`, and so is
the symbol if only one symbol of the alphabet has this distance. -/
theorem C187_threads (X : ℂ) (symbs : List ℂ) (parts : List (List ℂ)) (h : parts.flatten.Perm symbs) :
    (detSymbolThreads X parts).2 = (detSymbol X symbs).2
      ∧ ((∀ a ∈ symbs, ∀ b ∈ symbs, (∀ c ∈ symbs, ‖X - a‖ ≤ ‖X - c‖) → ‖X - b‖ = ‖X - a‖ → b = a) → (detSymbolThreads X parts).1 = (detSymbol X symbs).1) := by
  have key : ∀ (parts : List (List ℂ)) (s : ℂ) (d : ℝ), d ≤ 1000 →
      ∃ r, parts.foldl (fun best part => let priv := detSymbolGo X part 1 1000; if priv.2 < best.2 then priv else best) (s, d) = r
        ∧ ((r = (s, d) ∧ ∀ c ∈ parts.flatten, d ≤ ‖X - c‖ ^ 2)
          ∨ (r.1 ∈ parts.flatten ∧ r.2 = ‖X - r.1‖ ^ 2 ∧ r.2 < d ∧ ∀ c ∈ parts.flatten, r.2 ≤ ‖X - c‖ ^ 2)) := by
    intro parts
    induction parts with
    | nil => intro s d _; exact ⟨_, rfl, Or.inl ⟨rfl, by simp⟩⟩
    | cons p ps ih =>
      intro s d hd
      rw [List.foldl_cons]
      rcases detSymbolGo_spec X p 1 1000 with ⟨h1, h2⟩ | ⟨j, c, hc, h2, h3, h4, _⟩
      · simp only [h2, not_lt.2 hd, if_false]
        obtain ⟨r, hr, hcase⟩ := ih s d hd
        refine ⟨r, hr, ?_⟩
        rcases hcase with ⟨e, hall⟩ | ⟨e1, e2, e3, e4⟩
        · refine Or.inl ⟨e, fun c hc => ?_⟩
          rw [List.flatten_cons, List.mem_append] at hc
          rcases hc with hc | hc
          · exact hd.trans (h1 c hc)
          · exact hall c hc
        · refine Or.inr ⟨List.mem_append_right _ e1, e2, e3, fun c hc => ?_⟩
          rw [List.flatten_cons, List.mem_append] at hc
          rcases hc with hc | hc
          · exact (e3.le.trans hd).trans (h1 c hc)
          · exact e4 c hc
      · simp only [h2]
        have hcm : c ∈ p := List.mem_of_getElem? hc
        by_cases hlt : ‖X - c‖ ^ 2 < d
        · rw [if_pos hlt]
          obtain ⟨r, hr, hcase⟩ := ih c (‖X - c‖ ^ 2) h3.le
          refine ⟨r, hr, Or.inr ?_⟩
          rcases hcase with ⟨e, hall⟩ | ⟨e1, e2, e3, e4⟩
          · rw [e]
            refine ⟨List.mem_append_left _ hcm, rfl, hlt, fun b hb => ?_⟩
            rw [List.flatten_cons, List.mem_append] at hb
            rcases hb with hb | hb
            · exact h4 b hb
            · exact hall b hb
          · refine ⟨List.mem_append_right _ e1, e2, e3.trans hlt, fun b hb => ?_⟩
            rw [List.flatten_cons, List.mem_append] at hb
            rcases hb with hb | hb
            · exact e3.le.trans (h4 b hb)
            · exact e4 b hb
        · rw [if_neg hlt]
          push Not at hlt
          obtain ⟨r, hr, hcase⟩ := ih s d hd
          refine ⟨r, hr, ?_⟩
          rcases hcase with ⟨e, hall⟩ | ⟨e1, e2, e3, e4⟩
          · refine Or.inl ⟨e, fun b hb => ?_⟩
            rw [List.flatten_cons, List.mem_append] at hb
            rcases hb with hb | hb
            · exact hlt.trans (h4 b hb)
            · exact hall b hb
          · refine Or.inr ⟨List.mem_append_right _ e1, e2, e3, fun b hb => ?_⟩
            rw [List.flatten_cons, List.mem_append] at hb
            rcases hb with hb | hb
            · exact (e3.le.trans hlt).trans (h4 b hb)
            · exact e4 b hb
  obtain ⟨r, hr, hcase⟩ := key parts 1 1000 le_rfl
  have hr' : detSymbolThreads X parts = r := hr
  rw [hr']
  unfold detSymbol
  rcases detSymbolGo_spec X symbs 1 1000 with ⟨h1, h2⟩ | ⟨j, c, hc, h2, h3, h4, _⟩
  · rw [h2]
    rcases hcase with ⟨e, _⟩ | ⟨e1, e2, e3, _⟩
    · rw [e]; exact ⟨rfl, fun _ => rfl⟩
    · exact absurd e3 (not_lt.2 (e2 ▸ h1 _ (h.mem_iff.1 e1)))
  · have hcm : c ∈ symbs := List.mem_of_getElem? hc
    rw [h2]
    rcases hcase with ⟨_, e⟩ | ⟨e1, e2, _, e4⟩
    · exact absurd h3 (not_lt.2 (e c (h.mem_iff.2 hcm)))
    · have e5 : r.2 = ‖X - c‖ ^ 2 := le_antisymm (e4 c (h.mem_iff.2 hcm)) (e2 ▸ h4 _ (h.mem_iff.1 e1))
      refine ⟨e5, fun huniq => huniq c hcm r.1 (h.mem_iff.1 e1) (fun b hb => ?_) ?_⟩
      · exact (sq_le_sq₀ (norm_nonneg _) (norm_nonneg _)).1 (h4 b hb)
      · exact (sq_eq_sq₀ (norm_nonneg _) (norm_nonneg _)).1 (e2 ▸ e5)

/-- The distances of the example: `1` is closer to `1/2` than `-1`. -/
example : ([[(-1 : ℂ)], [1]] : List (List ℂ)).flatten.Perm [1, -1]
    ∧ ∀ a ∈ [(1 : ℂ), -1], ∀ b ∈ [(1 : ℂ), -1], (∀ c ∈ [(1 : ℂ), -1], ‖(1 / 2 : ℂ) - a‖ ≤ ‖(1 / 2 : ℂ) - c‖) → ‖(1 / 2 : ℂ) - b‖ = ‖(1 / 2 : ℂ) - a‖ → b = a := by
  refine ⟨List.Perm.swap _ _ _, ?_⟩
  have h1 : ‖(1 / 2 : ℂ) - 1‖ = 1 / 2 := by
    rw [show (1 / 2 : ℂ) - 1 = ((-(1 / 2) : ℝ) : ℂ) by push_cast; ring, norm_real]; norm_num
  have h2 : ‖(1 / 2 : ℂ) - -1‖ = 3 / 2 := by
    rw [show (1 / 2 : ℂ) - -1 = ((3 / 2 : ℝ) : ℂ) by push_cast; ring, norm_real]; norm_num
  intro a ha b hb _ h
  simp only [List.mem_cons, List.not_mem_nil, or_false] at ha hb
  rcases ha with rfl | rfl <;> rcases hb with rfl | rfl
  · rfl
  · rw [h1, h2] at h; norm_num at h
  · rw [h1, h2] at h; norm_num at h
  · rfl

/-- C187: the condition in `C187_threads` is needed, with a tie the thread that finishes first decides. -/
theorem C187_tie_order : ¬ ∀ (X : ℂ) (symbs : List ℂ) (parts : List (List ℂ)), parts.flatten.Perm symbs → detSymbolThreads X parts = detSymbol X symbs := by
  intro h
  have h1 := congrArg Prod.fst (h 0 [1, -1] [[-1], [1]] (List.Perm.swap _ _ _))
  norm_num [detSymbolThreads, detSymbol, detSymbolGo] at h1

/-- C187: `det_symbol` and `det_symbol_argmin` return the same symbol, if any symbol is closer than the start value of the search; the former returns the
square of the distance. -/
theorem C187_argmin (X : ℂ) (symbs : List ℂ) (h : ∃ c ∈ symbs, ‖X - c‖ ^ 2 < 1000) :
    ∃ s d j, detSymbolArgmin X symbs = some (s, d, j) ∧ detSymbol X symbs = (s, d ^ 2) := by
  obtain ⟨j, c, h1, h2, h3, h4⟩ := C108_nearest_partial X symbs h
  obtain ⟨⟨s, d, i⟩, hr⟩ := detSymbolArgmin_isSome X (symbs := symbs) (by rintro rfl; simp at h)
  obtain ⟨g1, g2, g3, g4⟩ := detSymbolArgmin_spec hr
  simp only at g1 g2 g3 g4
  refine ⟨s, d, i, hr, ?_⟩
  have hij : i = j := by
    rcases lt_trichotomy i j with hlt | he | hgt
    · exact absurd (h4 i s hlt g1) (not_lt.2 (g3 c (List.mem_of_getElem? h1)))
    · exact he
    · exact absurd (g4 j hgt c h1) (not_lt.2 (h3 s (List.mem_of_getElem? g1)))
  subst hij
  rw [h1] at g1
  cases g1
  rw [h2, g2]

example : ∃ c ∈ [(1 : ℂ), -1], ‖(1 / 2 : ℂ) - c‖ ^ 2 < 1000 := ⟨1, by simp, by
  rw [show (1 / 2 : ℂ) - 1 = ((-(1 / 2) : ℝ) : ℂ) by push_cast; ring, norm_real]; norm_num⟩

/-- C187: the distance in the blind phase search (`det_symbol` of pythran_dsp.py) is that of `det_symbol` of the equalisers, for all samples and alphabets. -/
theorem C187_search (X : ℂ) (symbs : List ℂ) : detDist X symbs = (detSymbol X symbs).2 := by
  have key : ∀ (symbs : List ℂ) (s : ℂ) (d : ℝ), symbs.foldl (fun d0 s => if cabsq (X - s) < d0 then cabsq (X - s) else d0) d = (detSymbolGo X symbs s d).2 := by
    intro symbs
    induction symbs with
    | nil => intro s d; rfl
    | cons c cs ih =>
      intro s d
      have hc : cabsq (X - c) = ‖X - c‖ ^ 2 := by
        rw [cabsq, ← normSq_eq_norm_sq, normSq_apply]; ring
      rw [List.foldl_cons, detSymbolGo, hc]
      by_cases h : ‖X - c‖ ^ 2 < d
      · rw [if_pos h, if_pos h]; exact ih _ _
      · rw [if_neg h, if_neg h]; exact ih _ _
  exact key symbs 1 1000

/-- C187: decisions of a whole signal by `make_decision` are the decisions the equalisers make sample by sample, if no sample is further than the start
value from all symbols. -/
theorem C187_signal (E symbs : List ℂ) (h : ∀ x ∈ E, ∃ c ∈ symbs, ‖x - c‖ ^ 2 < 1000) :
    (makeDecision E symbs).map (fun d => d.map (·.1)) = some (E.map fun x => (detSymbol x symbs).1) := by
  unfold makeDecision
  induction E with
  | nil => rfl
  | cons x E ih =>
    obtain ⟨s, d, j, h1, h2⟩ := C187_argmin x symbs (h x (by simp))
    have ih := ih fun y hy => h y (by simp [hy])
    rw [Option.map_eq_some_iff] at ih
    obtain ⟨r, hr, he⟩ := ih
    rw [List.mapM_cons, h1, hr, List.map_cons, ← he, h2]
    rfl

end Qampy
