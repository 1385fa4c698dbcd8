import Verif.Props.TrainPhase
import Verif.Props.RoundedEq

/-!
# Decision directed training of rotated signals (C160)
-/

namespace Qampy

/-- A sample with one nearest symbol, in the range of `det_symbol`. -/
def Decided (x : ℂ) (symbs : List ℂ) : Prop := ∃ c ∈ symbs, ‖x - c‖ ^ 2 < 1000 ∧ ∀ c' ∈ symbs, c' ≠ c → ‖x - c‖ < ‖x - c'‖

open Classical in
/-- The error function, but the training stops (`none`) at the first sample whose decision is not clear. A run with it that comes to its end is a run in which all decisions are clear. -/
noncomputable def clearOnly (errf : ℂ → List ℂ → Nat → Option ℂ) (x : ℂ) (s : List ℂ) (i : Nat) : Option ℂ := if Decided x s then errf x s i else none

theorem foldlM_option_le {σ ι : Type} {f g : σ → ι → Option σ} (h : ∀ s i t, f s i = some t → g s i = some t) : ∀ (l : List ι) (s t : σ), l.foldlM f s = some t → l.foldlM g s = some t
  | [], _, _, h0 => h0
  | i :: l, s, t, h0 => by
    rw [List.foldlM_cons] at h0 ⊢
    cases hf : f s i with
    | none => rw [hf] at h0; exact absurd h0 (by simp)
    | some b =>
      rw [hf] at h0
      rw [h s i b hf]
      exact foldlM_option_le h l b t h0

theorem trainStep_le {errf : ℂ → List ℂ → Nat → Option ℂ} {adapt : ℝ → ℂ → ℂ → ℝ} {adaptive : Bool} {E : List (List ℂ)} {os ntaps : Nat} {symbs : List ℂ} {st st' : TrainState ℂ} {i : Nat}
    (h : trainStep (clearOnly errf) adapt adaptive E os ntaps symbs st i = some st') : trainStep errf adapt adaptive E os ntaps symbs st i = some st' := by
  unfold trainStep at h ⊢
  cases ha : applyFilter (window E (i * os) ntaps) st.w ntaps with
  | none => simp only [ha] at h; exact absurd h (by simp)
  | some x =>
    simp only [ha, Option.bind_eq_bind, Option.bind_some] at h ⊢
    unfold clearOnly at h
    split_ifs at h with hd
    · exact h
    · exact absurd h (by simp)

theorem trainMode_le {errf : ℂ → List ℂ → Nat → Option ℂ} {adapt : ℝ → ℂ → ℂ → ℝ} {adaptive : Bool} {E : List (List ℂ)} {trSyms nIter os ntaps : Nat} {symbs : List ℂ} {w : List (List ℂ)} {mu : ℝ} {st : TrainState ℂ}
    (h : trainMode (clearOnly errf) adapt adaptive E trSyms nIter os ntaps symbs w mu = some st) : trainMode errf adapt adaptive E trSyms nIter os ntaps symbs w mu = some st := by
  unfold trainMode at h ⊢
  exact foldlM_option_le (fun s _ t hs => foldlM_option_le (fun s i t hs => trainStep_le hs) _ s t hs) _ _ _ h

theorem trainEqualiser_le {errf : ℂ → List ℂ → Nat → Option ℂ} {adapt : ℝ → ℂ → ℂ → ℝ} {adaptive : Bool} {E : List (List ℂ)} {trSyms nIter os ntaps : Nat} {mu : ℝ} {wx : List (List (List ℂ))} {modes : List Nat}
    {symbols : List (List ℂ)} {r : TrainResult ℂ} (h : trainEqualiser (clearOnly errf) adapt adaptive E trSyms nIter os mu wx ntaps modes symbols = some r) :
    trainEqualiser errf adapt adaptive E trSyms nIter os mu wx ntaps modes symbols = some r := by
  unfold trainEqualiser at h ⊢
  refine foldlM_option_le (fun s m t hs => ?_) _ _ _ h
  cases hw : s.wx[m]? with
  | none => simp only [hw] at hs; exact absurd hs (by simp)
  | some w =>
    cases hsy : symbols[m]? with
    | none => simp only [hw, hsy] at hs; exact absurd hs (by simp)
    | some sy =>
      simp only [hw, hsy, Option.bind_eq_bind, Option.bind_some] at hs ⊢
      cases hm : trainMode (clearOnly errf) adapt adaptive E trSyms nIter os ntaps sy w s.mu with
      | none => rw [hm] at hs; exact absurd hs (by simp)
      | some st =>
        rw [hm] at hs
        rw [trainMode_le hm]
        exact hs

/-- The decision on a clear sample. -/
theorem detSymbol_clear {x c : ℂ} {symbs : List ℂ} (hc : c ∈ symbs) (h1 : ‖x - c‖ ^ 2 < 1000) (h2 : ∀ c' ∈ symbs, c' ≠ c → ‖x - c‖ < ‖x - c'‖) : (detSymbol x symbs).1 = c := by
  rw [← (C181_exact x symbs).1, detSymbolBy_min _ x symbs 1 1000 hc (fun c' hc' hne => pow_lt_pow_left₀ (h2 c' hc' hne) (norm_nonneg _) two_ne_zero) h1]

theorem decided_turn {u : ℂ} (hu : ‖u‖ = 1) {x : ℂ} {s : List ℂ} (hs : ∀ c, u * c ∈ s ↔ c ∈ s) : Decided (u * x) s ↔ Decided x s := by
  have hn : ∀ y c : ℂ, ‖u * y - u * c‖ = ‖y - c‖ := fun y c => by rw [← mul_sub, norm_mul, hu, one_mul]
  have hu0 : u ≠ 0 := by rintro rfl; simp at hu
  constructor
  · rintro ⟨c, hc, h1, h2⟩
    have e : u * (u⁻¹ * c) = c := by rw [← mul_assoc, mul_inv_cancel₀ hu0, one_mul]
    refine ⟨u⁻¹ * c, ?_, ?_, ?_⟩
    · rw [← hs, e]; exact hc
    · rw [← hn, e]; exact h1
    · intro c' hc' hne
      rw [← hn x, ← hn x c', e]
      exact h2 _ ((hs c').2 hc') fun h => hne (by rw [← h, ← mul_assoc, inv_mul_cancel₀ hu0, one_mul])
  · rintro ⟨c, hc, h1, h2⟩
    refine ⟨u * c, (hs c).2 hc, by rw [hn]; exact h1, fun c' hc' hne => ?_⟩
    have e : u * (u⁻¹ * c') = c' := by rw [← mul_assoc, mul_inv_cancel₀ hu0, one_mul]
    rw [hn, ← e, hn]
    exact h2 _ (by rw [← hs, e]; exact hc') fun h => hne (by rw [← h, e])

theorem detSymbol_turn {u : ℂ} (hu : ‖u‖ = 1) {x : ℂ} {s : List ℂ} (hs : ∀ c, u * c ∈ s ↔ c ∈ s) (hd : Decided x s) : (detSymbol (u * x) s).1 = u * (detSymbol x s).1 := by
  obtain ⟨c, hc, h1, h2⟩ := hd
  have hn : ∀ y c : ℂ, ‖u * y - u * c‖ = ‖y - c‖ := fun y c => by rw [← mul_sub, norm_mul, hu, one_mul]
  have hu0 : u ≠ 0 := by rintro rfl; simp at hu
  rw [detSymbol_clear hc h1 h2]
  refine detSymbol_clear ((hs c).2 hc) (by rw [hn]; exact h1) fun c' hc' hne => ?_
  have e : u * (u⁻¹ * c') = c' := by rw [← mul_assoc, mul_inv_cancel₀ hu0, one_mul]
  rw [hn, ← e, hn]
  exact h2 _ (by rw [← hs, e]; exact hc') fun h => hne (by rw [← h, e])

/-- The decision directed error functions on clear samples. -/
theorem decision_methods {method : String} {errf : ℂ → List ℂ → Nat → Option ℂ} (he : errorFct method = some errf) {u : ℂ} (hu : ‖u‖ = 1)
    (hm : method = "dd" ∨ (u ^ 4 = 1 ∧ (method = "sbd" ∨ method = "mddma"))) {s : List ℂ} (hs : ∀ c, u * c ∈ s ↔ c ∈ s) (i : Nat) (x : ℂ) :
    clearOnly errf (u * x) s i = (clearOnly errf x s i).map (u * ·) := by
  unfold clearOnly
  by_cases hd : Decided x s
  · rw [if_pos hd, if_pos ((decided_turn hu hs).2 hd)]
    have hdet := detSymbol_turn hu hs hd
    rcases hm with rfl | ⟨hq, rfl | rfl⟩ <;> simp only [errorFct, Option.some.injEq] at he <;> subst he
    · unfold ddlmsError
      rw [hdet]
      simp only [Option.map_some, Option.some.injEq]
      ring
    · unfold sbdError
      simp only [hdet, Option.map_some, Option.some.injEq]
      generalize (detSymbol x s).1 = c
      rcases quarter_cases hq with rfl | rfl | rfl | rfl <;> apply Complex.ext <;> simp <;> ring
    · unfold mddmaError
      simp only [hdet, Option.map_some, Option.some.injEq]
      generalize (detSymbol x s).1 = c
      rcases quarter_cases hq with rfl | rfl | rfl | rfl <;> apply Complex.ext <;> simp
  · rw [if_neg hd, if_neg fun h => hd ((decided_turn hu hs).1 h)]
    rfl

/-- C160 for the decision directed methods: if the alphabet does not change under the rotation and all decisions of the training are clear (one nearest symbol, in the range of `det_symbol`), the training on the
rotated signal gives the same taps and rotated errors. The method dd with fixed step size for every symmetry of the alphabet (for example the rotations of PSK), all methods for quarter turns. -/
theorem C160_decisions_partial {method : String} {errf : ℂ → List ℂ → Nat → Option ℂ} (he : errorFct method = some errf) (u : ℂ) (hu : ‖u‖ = 1) (adaptive : Bool)
    (hm : (method = "dd" ∧ adaptive = false) ∨ (u ^ 4 = 1 ∧ (method = "dd" ∨ method = "sbd" ∨ method = "mddma")))
    (E : List (List ℂ)) (trSyms nIter os ntaps : Nat) (mu : ℝ) (wx : List (List (List ℂ))) (modes : List Nat) (symbols : List (List ℂ)) (hs : ∀ s ∈ symbols, ∀ c, u * c ∈ s ↔ c ∈ s)
    {r : TrainResult ℂ} (h : trainEqualiser (clearOnly errf) adaptStep adaptive E trSyms nIter os mu wx ntaps modes symbols = some r) :
    trainEqualiser errf adaptStep adaptive E trSyms nIter os mu wx ntaps modes symbols = some r ∧
    trainEqualiser errf adaptStep adaptive (E.map (·.map (u * ·))) trSyms nIter os mu wx ntaps modes symbols = some { err := r.err.map (·.map (u * ·)), wx := r.wx, mu := r.mu } := by
  refine ⟨trainEqualiser_le h, trainEqualiser_le ?_⟩
  have h1 := trainEqualiser_turn (errf := clearOnly errf) (adapt := adaptStep) (adaptive := adaptive) u 1 (unit_star hu) E trSyms nIter os ntaps mu wx modes
    symbols symbols (fun _ => rfl) (by
      intro m s s' h1 h2 i _ x
      rw [h1, Option.some.injEq] at h2
      subst h2
      rw [mul_one]
      refine decision_methods he hu ?_ (hs s (List.mem_of_getElem? h1)) i x
      rcases hm with ⟨hm, -⟩ | ⟨hq, hm | hm⟩
      · exact Or.inl hm
      · exact Or.inl hm
      · exact Or.inr ⟨hq, hm⟩) (by
      intro ha mu e p
      rw [mul_one]
      rcases hm with ⟨-, hm⟩ | ⟨hq, -⟩
      · rw [hm] at ha; exact absurd ha (by simp)
      · exact adaptStep_quarter u hq mu e p)
  have ht : ∀ a : List (List (List ℂ)), a.map (turn 1) = a := by
    intro a
    have : turn (1 : ℂ) = id := by funext b; simp [turn]
    rw [this, List.map_id]
  simp only [ht, mul_one, h] at h1
  exact h1

theorem exQpsk_turn (c : ℂ) : Complex.I * c ∈ exQpsk ↔ c ∈ exQpsk := by
  unfold exQpsk
  simp only [List.mem_cons, List.not_mem_nil, or_false, Complex.ext_iff, Complex.I_mul_re, Complex.I_mul_im]
  constructor <;> rintro (⟨h1, h2⟩ | ⟨h1, h2⟩ | ⟨h1, h2⟩ | ⟨h1, h2⟩)
  · exact Or.inr (Or.inr (Or.inr ⟨h2, by linarith⟩))
  · exact Or.inl ⟨h2, by linarith⟩
  · exact Or.inr (Or.inl ⟨h2, by linarith⟩)
  · exact Or.inr (Or.inr (Or.inl ⟨h2, by linarith⟩))
  · exact Or.inr (Or.inl ⟨by linarith, h1⟩)
  · exact Or.inr (Or.inr (Or.inl ⟨by linarith, h1⟩))
  · exact Or.inr (Or.inr (Or.inr ⟨by linarith, h1⟩))
  · exact Or.inl ⟨by linarith, h1⟩

theorem exNear_decided : Decided ⟨7 / 10, 1⟩ exQpsk := by
  refine ⟨⟨1, 1⟩, by simp [exQpsk], by rw [exNear]; norm_num, ?_⟩
  intro c hc hne
  have he : DistOk (fun X s => ‖X - s‖ ^ 2) 1 1 := ⟨one_pos, fun X s => by simp, fun X s => by simp⟩
  obtain ⟨i, hi⟩ := List.getElem?_of_mem hc
  have h0 : exQpsk[0]? = some ⟨1, 1⟩ := rfl
  have hfar := far_of_pairwise exQpsk_sep h0 hi fun e => hne (by rw [← e, h0] at hi; exact (Option.some.inj hi).symm)
  have := dist_lt_of_margin (κ := 1) he (by norm_num) zero_le_one (X := ⟨7 / 10, 1⟩) hfar (by rw [exNear]; norm_num)
  exact lt_of_pow_lt_pow_left₀ 2 (norm_nonneg _) this

/-- One sample, one tap: the turned sample gives the same tap. -/
example : ∃ r, trainEqualiser ddlmsError adaptStep true [[⟨7 / 10, 1⟩]] 1 1 1 (1 / 10) [[[1]]] 1 [0] [exQpsk] = some r ∧
    trainEqualiser ddlmsError adaptStep true [[Complex.I * ⟨7 / 10, 1⟩]] 1 1 1 (1 / 10) [[[1]]] 1 [0] [exQpsk] = some { err := r.err.map (·.map (Complex.I * ·)), wx := r.wx, mu := r.mu } ∧ r.err = [[⟨3 / 10, 0⟩]] := by
  have hx : applyFilter (window [[(⟨7 / 10, 1⟩ : ℂ)]] (0 * 1) 1) [[1]] 1 = some ⟨7 / 10, 1⟩ := by
    change some ((0 : ℂ) + ⟨7 / 10, 1⟩ * 1) = _
    simp
  have hdet : (detSymbol ⟨7 / 10, 1⟩ exQpsk).1 = ⟨1, 1⟩ := by
    have hd := C181_decision (κ := 11 / 10) exDist (by norm_num) (by norm_num) (by norm_num) exQpsk_sep (X := ⟨7 / 10, 1⟩) (s0 := ⟨1, 1⟩) (by simp [exQpsk]) (by rw [exNear]; norm_num) (by rw [exNear]; norm_num)
    rw [← hd.2, hd.1]
  have he : clearOnly ddlmsError ⟨7 / 10, 1⟩ exQpsk 0 = some ⟨3 / 10, 0⟩ := by
    unfold clearOnly
    rw [if_pos exNear_decided]
    unfold ddlmsError
    rw [hdet, Option.some.injEq]
    apply Complex.ext
    · simp; norm_num
    · simp
  have hrun : ∃ r, trainEqualiser (clearOnly ddlmsError) adaptStep true [[⟨7 / 10, 1⟩]] 1 1 1 (1 / 10) [[[1]]] 1 [0] [exQpsk] = some r ∧ r.err = [[⟨3 / 10, 0⟩]] := by
    have hst : ∃ st, trainMode (clearOnly ddlmsError) adaptStep true [[⟨7 / 10, 1⟩]] 1 1 1 1 exQpsk [[1]] (1 / 10) = some st ∧ st.errs = [⟨3 / 10, 0⟩] := by
      rw [trainMode_eq]
      have ho : stepOrder 1 1 = [0] := rfl
      rw [ho]
      simp only [List.foldlM_cons, List.foldlM_nil]
      unfold trainStep
      simp only [hx, Option.bind_eq_bind, Option.bind_some, he]
      exact ⟨_, rfl, rfl⟩
    obtain ⟨st, h1, h2⟩ := hst
    unfold trainEqualiser
    simp only [List.foldlM_cons, List.foldlM_nil, List.getElem?_cons_zero, Option.bind_eq_bind, Option.bind_some, h1]
    exact ⟨_, rfl, by simp [h2]⟩
  obtain ⟨r, hr, hre⟩ := hrun
  obtain ⟨h1, h2⟩ := C160_decisions_partial (method := "dd") rfl Complex.I (by simp) true (Or.inr ⟨Complex.I_pow_four, Or.inl rfl⟩) _ _ _ _ _ _ _ _ _ (by
    intro s hs c
    obtain rfl : s = exQpsk := by simpa using hs
    exact exQpsk_turn c) hr
  exact ⟨r, h1, h2, hre⟩

/-- C160: the condition on the decisions is needed. With taps of zero all symbols are equally far, the first one is taken for the signal and for the turned signal, and the taps differ. -/
theorem C160_tie : ¬ ∀ (E : List (List ℂ)) (wx : List (List (List ℂ))) (r : TrainResult ℂ), trainEqualiser ddlmsError adaptStep false E 1 1 1 1 wx 1 [0] [exQpsk] = some r →
    ∃ r', trainEqualiser ddlmsError adaptStep false (E.map (·.map (Complex.I * ·))) 1 1 1 1 wx 1 [0] [exQpsk] = some r' ∧ r'.wx = r.wx := by
  intro h
  have hdet : (detSymbol 0 exQpsk).1 = ⟨1, 1⟩ := by
    unfold detSymbol exQpsk
    have hn : ∀ a b : ℝ, a ^ 2 = 1 → b ^ 2 = 1 → ‖(0 : ℂ) - ⟨a, b⟩‖ ^ 2 = 2 := by
      intro a b ha hb
      rw [normSq_parts]
      simp [ha, hb]; norm_num
    unfold detSymbolGo
    rw [if_pos (by rw [hn] <;> norm_num)]
    have : ∀ l : List ℂ, (∀ c ∈ l, ‖(0 : ℂ) - c‖ ^ 2 = 2) → detSymbolGo 0 l ⟨1, 1⟩ (‖(0 : ℂ) - ⟨1, 1⟩‖ ^ 2) = (⟨1, 1⟩, ‖(0 : ℂ) - ⟨1, 1⟩‖ ^ 2) := by
      intro l
      induction l with
      | nil => intro _; rfl
      | cons c l ih =>
        intro hl
        unfold detSymbolGo
        rw [if_neg (by rw [hl c (by simp), hn] <;> norm_num), ih fun c hc => hl c (List.mem_cons_of_mem _ hc)]
    rw [this]
    simp only [List.mem_cons, List.not_mem_nil, or_false]
    rintro c (rfl | rfl | rfl) <;> rw [hn] <;> norm_num
  have run : ∀ z : ℂ, ∃ r, trainEqualiser ddlmsError adaptStep false [[z]] 1 1 1 1 [[[0]]] 1 [0] [exQpsk] = some r ∧ r.wx = [[[⟨1, 1⟩ * star z]]] := by
    intro z
    have hx : applyFilter (window [[z]] (0 * 1) 1) [[0]] 1 = some 0 := by
      change some ((0 : ℂ) + z * 0) = _
      simp
    have hst : ∃ st, trainMode ddlmsError adaptStep false [[z]] 1 1 1 1 exQpsk [[0]] 1 = some st ∧ st.w = [[⟨1, 1⟩ * star z]] := by
      rw [trainMode_eq]
      have ho : stepOrder 1 1 = [0] := rfl
      rw [ho]
      simp only [List.foldlM_cons, List.foldlM_nil]
      unfold trainStep
      simp only [hx, Option.bind_eq_bind, Option.bind_some, ddlmsError, hdet, sub_zero]
      exact ⟨_, rfl, by simp [window]⟩
    obtain ⟨st, h1, h2⟩ := hst
    unfold trainEqualiser
    simp only [List.foldlM_cons, List.foldlM_nil, List.getElem?_cons_zero, Option.bind_eq_bind, Option.bind_some, h1]
    exact ⟨_, rfl, by simp [h2]⟩
  obtain ⟨r, h1, h2⟩ := run 1
  obtain ⟨r2, h3, h4⟩ := run Complex.I
  obtain ⟨r', h5, h6⟩ := h [[1]] [[[0]]] r h1
  simp only [List.map_cons, List.map_nil, mul_one] at h5
  rw [h3] at h5
  obtain rfl := Option.some.inj h5
  rw [h4, h2] at h6
  simp [Complex.ext_iff] at h6
  norm_num at h6

end Qampy
