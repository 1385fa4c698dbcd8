import Verif.Props.Training

/-!
# Equaliser training of rotated signals: C160
-/

namespace Qampy

section generic
variable {K : Type} [RCLike K]

/-- Every element of a two dimensional array multiplied by one number. -/
def turn (u : K) (a : List (List K)) : List (List K) := a.map (·.map (u * ·))

theorem at2_turn (u : K) (a : List (List K)) (k i : Nat) : at2 (turn u a) k i = (at2 a k i).map (u * ·) := by
  unfold at2 turn
  rw [List.getElem?_map]
  cases a[k]? with
  | none => rfl
  | some r => simp

theorem window_turn (u : K) (E : List (List K)) (a n : Nat) : window (turn u E) a n = turn u (window E a n) := by
  unfold window turn
  simp [List.map_take, List.map_drop]

theorem foldlM_map_acc {α β γ : Type} (g : β → γ) (f : β → α → Option β) (f' : γ → α → Option γ) (l : List α)
    (h : ∀ b, ∀ a ∈ l, f' (g b) a = (f b a).map g) : ∀ b, l.foldlM f' (g b) = (l.foldlM f b).map g := by
  induction l with
  | nil => intro b; rfl
  | cons a l ih =>
    intro b
    rw [List.foldlM_cons, List.foldlM_cons, h b a List.mem_cons_self]
    cases hf : f b a with
    | none => rfl
    | some b' =>
      simp only [Option.map_some, Option.bind_eq_bind, Option.bind_some]
      exact ih (fun b a ha => h b a (List.mem_cons_of_mem _ ha)) b'

theorem applyFilter_turn (u v : K) (E w : List (List K)) (ntaps : Nat) :
    applyFilter (turn u E) (turn v w) ntaps = (applyFilter E w ntaps).map (u * v * ·) := by
  unfold applyFilter
  have hl : (turn u E).length = E.length := by simp [turn]
  have h0 : (0 : K) = u * v * 0 := by ring
  rw [hl]
  conv_lhs => rw [h0]
  apply foldlM_map_acc (u * v * ·)
  intro b k _
  apply foldlM_map_acc (u * v * ·)
  intro b i _
  rw [at2_turn, at2_turn]
  cases at2 E k i with
  | none => rfl
  | some e =>
    cases at2 w k i with
    | none => rfl
    | some x =>
      simp only [Option.map_some, Option.bind_eq_bind, Option.bind_some, Option.some.injEq]
      ring

theorem updateTaps_turn (u v : K) (hu : u * star u = 1) (w X : List (List K)) (c : K) :
    updateTaps (turn v w) (turn u X) (u * v * c) = (updateTaps w X c).map (turn v) := by
  unfold updateTaps
  have hlen : (turn v w).length = w.length := by simp [turn]
  have hlen' : (turn u X).length = X.length := by simp [turn]
  have hz : (∀ p ∈ (turn v w).zip (turn u X), p.1.length = p.2.length) ↔ ∀ p ∈ w.zip X, p.1.length = p.2.length := by
    unfold turn
    rw [List.zip_map]
    simp only [List.mem_map, forall_exists_index, and_imp, forall_apply_eq_imp_iff₂, Prod.map_fst, Prod.map_snd, List.length_map]
  rw [hlen, hlen']
  simp only [hz]
  split_ifs with h
  · simp only [Option.map_some, Option.some.injEq]
    unfold turn
    rw [List.zipWith_map, List.map_zipWith]
    congr 1
    funext a b
    rw [List.zipWith_map, List.map_zipWith]
    congr 1
    funext x y
    rw [star_mul']
    linear_combination v * c * star y * hu
  · rfl

/-- State of the run on the rotated signal. -/
def turnState (u v : K) (st : TrainState K) : TrainState K := { w := turn v st.w, mu := st.mu, errs := st.errs.map (u * v * ·) }

theorem trainStep_turn {errf : K → List K → Nat → Option K} {adapt : ℝ → K → K → ℝ} {adaptive : Bool} (u v : K) (hu : u * star u = 1)
    (E : List (List K)) (os ntaps : Nat) (symbs symbs' : List K) (i : Nat)
    (herr : ∀ x, errf (u * v * x) symbs' i = (errf x symbs i).map (u * v * ·))
    (had : adaptive = true → ∀ mu e p, adapt mu (u * v * e) (u * v * p) = adapt mu e p) (st : TrainState K) :
    trainStep errf adapt adaptive (turn u E) os ntaps symbs' (turnState u v st) i =
      (trainStep errf adapt adaptive E os ntaps symbs st i).map (turnState u v) := by
  unfold trainStep
  rw [window_turn]
  simp only [turnState, applyFilter_turn]
  cases applyFilter (window E (i * os) ntaps) st.w ntaps with
  | none => rfl
  | some x =>
    simp only [Option.map_some, Option.bind_eq_bind, Option.bind_some, herr]
    cases errf x symbs i with
    | none => rfl
    | some e =>
      simp only [Option.map_some, Option.bind_some]
      have h1 : (st.mu : K) * (u * v * e) = u * v * ((st.mu : K) * e) := by ring
      rw [h1, updateTaps_turn u v hu]
      cases updateTaps st.w (window E (i * os) ntaps) ((st.mu : K) * e) with
      | none => rfl
      | some w =>
        simp only [Option.map_some, Option.bind_some]
        have h2 : nextMu adapt adaptive st.mu (u * v * e) (st.errs.map (u * v * ·)) i = nextMu adapt adaptive st.mu e st.errs i := by
          unfold nextMu
          by_cases hc : adaptive = true
          · subst hc
            rw [List.head?_map]
            cases st.errs.head? with
            | none => rfl
            | some p => simp only [Option.map_some, had rfl]
          · simp [hc]
        rw [h2]
        cases nextMu adapt adaptive st.mu e st.errs i with
        | none => rfl
        | some m => rfl

theorem trainMode_turn {errf : K → List K → Nat → Option K} {adapt : ℝ → K → K → ℝ} {adaptive : Bool} (u v : K) (hu : u * star u = 1)
    (E : List (List K)) (trSyms nIter os ntaps : Nat) (symbs symbs' : List K)
    (herr : ∀ i < trSyms, ∀ x, errf (u * v * x) symbs' i = (errf x symbs i).map (u * v * ·))
    (had : adaptive = true → ∀ mu e p, adapt mu (u * v * e) (u * v * p) = adapt mu e p) (w : List (List K)) (mu : ℝ) :
    trainMode errf adapt adaptive (turn u E) trSyms nIter os ntaps symbs' (turn v w) mu =
      (trainMode errf adapt adaptive E trSyms nIter os ntaps symbs w mu).map (turnState u v) := by
  unfold trainMode
  have h0 : ({ w := turn v w, mu := mu, errs := [] } : TrainState K) = turnState u v { w := w, mu := mu, errs := [] } := rfl
  rw [h0]
  apply foldlM_map_acc (turnState u v)
  intro st _ _
  apply foldlM_map_acc (turnState u v)
  intro st i hi
  exact trainStep_turn u v hu E os ntaps symbs symbs' i (herr i (List.mem_range.1 hi)) had st

/-- C160, general form: a signal multiplied by the unit number `u` and initial taps multiplied by `v`: the taps after the training are those
of the original run multiplied by `v`, the errors are multiplied by `u * v` and the step size is the same. -/
theorem trainEqualiser_turn {errf : K → List K → Nat → Option K} {adapt : ℝ → K → K → ℝ} {adaptive : Bool} (u v : K) (hu : u * star u = 1)
    (E : List (List K)) (trSyms nIter os ntaps : Nat) (mu : ℝ) (wx : List (List (List K))) (modes : List Nat) (symbols symbols' : List (List K))
    (hsym : ∀ m : Nat, (symbols[m]?).isSome = (symbols'[m]?).isSome)
    (herr : ∀ (m : Nat) (s s' : List K), symbols[m]? = some s → symbols'[m]? = some s' → ∀ i < trSyms, ∀ x,
      errf (u * v * x) s' i = (errf x s i).map (u * v * ·))
    (had : adaptive = true → ∀ mu e p, adapt mu (u * v * e) (u * v * p) = adapt mu e p) :
    trainEqualiser errf adapt adaptive (turn u E) trSyms nIter os mu (wx.map (turn v)) ntaps modes symbols' =
      (trainEqualiser errf adapt adaptive E trSyms nIter os mu wx ntaps modes symbols).map fun r =>
        { err := turn (u * v) r.err, wx := r.wx.map (turn v), mu := r.mu } := by
  unfold trainEqualiser
  obtain ⟨g, hg⟩ : ∃ g : TrainResult K → TrainResult K, g = fun r => { err := turn (u * v) r.err, wx := r.wx.map (turn v), mu := r.mu } := ⟨_, rfl⟩
  have h0 : ({ err := List.replicate (turn u E).length (List.replicate (trSyms * nIter) 0), wx := wx.map (turn v), mu := mu } : TrainResult K) =
      g { err := List.replicate E.length (List.replicate (trSyms * nIter) 0), wx := wx, mu := mu } := by
    rw [hg]
    simp [turn]
  rw [h0, ← hg]
  apply foldlM_map_acc g
  intro r m _
  rw [hg]
  simp only [List.getElem?_map]
  cases hw : r.wx[m]? with
  | none => rfl
  | some w =>
    simp only [Option.map_some, Option.bind_eq_bind, Option.bind_some]
    have hs := hsym m
    cases hs1 : symbols[m]? with
    | none =>
      rw [hs1] at hs
      have : symbols'[m]? = none := by
        cases h : symbols'[m]? with
        | none => rfl
        | some x => rw [h] at hs; simp at hs
      rw [this]
      rfl
    | some s =>
      rw [hs1] at hs
      obtain ⟨s', hs'⟩ : ∃ s', symbols'[m]? = some s' := Option.isSome_iff_exists.1 hs.symm
      rw [hs']
      simp only [Option.bind_some]
      rw [trainMode_turn u v hu E trSyms nIter os ntaps s s' (herr m s s' hs1 hs') had]
      cases trainMode errf adapt adaptive E trSyms nIter os ntaps s w r.mu with
      | none => rfl
      | some st =>
        simp only [Option.map_some, Option.bind_some, Option.some.injEq, turnState, turn]
        rw [List.map_set, List.map_set, List.map_reverse]
        rfl

end generic

/-! ### The error functions -/

theorem unit_star {u : ℂ} (h : ‖u‖ = 1) : u * star u = 1 := by
  have := Complex.mul_conj u
  rw [Complex.normSq_eq_norm_sq, h] at this
  simpa using this

/-- The methods that only use the modulus of the equalised sample: any phase. -/
theorem modulus_methods {method : String} (hm : method = "cma" ∨ method = "sgncma" ∨ method = "rde") {errf : ℂ → List ℂ → Nat → Option ℂ}
    (he : errorFct method = some errf) (q : ℂ) (hq : ‖q‖ = 1) (s : List ℂ) (i : Nat) (x : ℂ) : errf (q * x) s i = (errf x s i).map (q * ·) := by
  have hn : ‖q * x‖ = ‖x‖ := by rw [norm_mul, hq, one_mul]
  have hc : cmaError (q * x) s i = (cmaError x s i).map (q * ·) := by
    unfold cmaError
    cases s[0]? with
    | none => rfl
    | some r =>
      simp only [Option.bind_eq_bind, Option.bind_some, Option.map_some, Option.some.injEq, hn]
      ring
  have hr : rdeError (q * x) s i = (rdeError x s i).map (q * ·) := by
    unfold rdeError
    simp only [hn]
    cases partitionValue (‖x‖ ^ 2) ((arraySplit2 s).2.map Complex.re) ((arraySplit2 s).1.map Complex.re) with
    | none => rfl
    | some r =>
      simp only [Option.bind_eq_bind, Option.bind_some, Option.map_some, Option.some.injEq]
      ring
  rcases hm with rfl | rfl | rfl <;> simp only [errorFct, Option.some.injEq] at he <;> subst he
  · exact hc
  · exact hc
  · exact hr

/-- The numbers `1`, `i`, `-1`, `-i`. -/
theorem quarter_cases {q : ℂ} (h : q ^ 4 = 1) : q = 1 ∨ q = -1 ∨ q = Complex.I ∨ q = -Complex.I := by
  have h1 : (q - 1) * (q + 1) * ((q - Complex.I) * (q + Complex.I)) = 0 := by
    have e : (q - Complex.I) * (q + Complex.I) = q ^ 2 + 1 := by linear_combination -Complex.I_sq
    rw [e]
    linear_combination h
  rcases mul_eq_zero.1 h1 with h | h
  · rcases mul_eq_zero.1 h with h | h
    · exact Or.inl (sub_eq_zero.1 h)
    · exact Or.inr (Or.inl (eq_neg_of_add_eq_zero_left h))
  · rcases mul_eq_zero.1 h with h | h
    · exact Or.inr (Or.inr (Or.inl (sub_eq_zero.1 h)))
    · exact Or.inr (Or.inr (Or.inr (eq_neg_of_add_eq_zero_left h)))

/-- Every method whose error is computed from the squares of the two parts with the same reference for both, and the data aided one with the
reference rotated as well: quarter turns. -/
theorem quarter_methods {method : String} {errf : ℂ → List ℂ → Nat → Option ℂ} (he : errorFct method = some errf) (q : ℂ) (hq : q ^ 4 = 1)
    (s s' : List ℂ) (i : Nat)
    (hs : ((method = "cma" ∨ method = "sgncma" ∨ method = "rde") ∧ s' = s) ∨ (method = "mcma" ∧ s' = s ∧ ∀ r, s[0]? = some r → r.re = r.im) ∨
      (method = "mrde" ∧ s' = s ∧ ∀ r ∈ s, r.re = r.im) ∨ (method = "sbd_data" ∧ s' = s.map (q * ·))) (x : ℂ) :
    errf (q * x) s' i = (errf x s i).map (q * ·) := by
  have hn : ‖q‖ = 1 := by rcases quarter_cases hq with rfl | rfl | rfl | rfl <;> simp
  rcases hs with ⟨hm, rfl⟩ | ⟨rfl, rfl, hr⟩ | ⟨rfl, rfl, hr⟩ | ⟨rfl, rfl⟩
  · exact modulus_methods hm he q hn _ i x
  · simp only [errorFct, Option.some.injEq] at he
    subst he
    unfold mcmaError
    cases h0 : s'[0]? with
    | none => rfl
    | some r =>
      have hri := hr r h0
      simp only [Option.bind_eq_bind, Option.bind_some, Option.map_some, Option.some.injEq]
      rcases quarter_cases hq with rfl | rfl | rfl | rfl <;> apply Complex.ext <;> simp [hri]
  · simp only [errorFct, Option.some.injEq] at he
    subst he
    have hsplit : ∀ l : List ℂ, (∀ r ∈ l, r.re = r.im) → l.map Complex.im = l.map Complex.re := fun l hl =>
      List.map_congr_left fun r hr => (hl r hr).symm
    have h1 : (arraySplit2 s').1.map Complex.im = (arraySplit2 s').1.map Complex.re := hsplit _ fun r h => hr r (List.mem_of_mem_take h)
    have h2 : (arraySplit2 s').2.map Complex.im = (arraySplit2 s').2.map Complex.re := hsplit _ fun r h => hr r (List.mem_of_mem_drop h)
    unfold mrdeError
    simp only [h1, h2]
    rcases quarter_cases hq with rfl | rfl | rfl | rfl
    all_goals
      simp only [one_mul, neg_mul, Complex.neg_re, Complex.neg_im, Complex.I_mul_re, Complex.I_mul_im, neg_sq, neg_neg]
      cases partitionValue (x.re ^ 2) ((arraySplit2 s').2.map Complex.re) ((arraySplit2 s').1.map Complex.re) <;>
      cases partitionValue (x.im ^ 2) ((arraySplit2 s').2.map Complex.re) ((arraySplit2 s').1.map Complex.re) <;>
      simp only [Option.bind_eq_bind, Option.bind_some, Option.bind_none, Option.map_some, Option.map_none, Option.some.injEq] <;>
      apply Complex.ext <;> simp
  · simp only [errorFct, Option.some.injEq] at he
    subst he
    unfold sbdDataError
    rw [List.getElem?_map]
    cases s[i]? with
    | none => rfl
    | some r =>
      simp only [Option.map_some, Option.bind_eq_bind, Option.bind_some, Option.some.injEq]
      rcases quarter_cases hq with rfl | rfl | rfl | rfl <;> apply Complex.ext <;> simp [-mul_eq_mul_right_iff] <;> ring

theorem adaptStep_quarter (q : ℂ) (hq : q ^ 4 = 1) (mu : ℝ) (e p : ℂ) : adaptStep mu (q * e) (q * p) = adaptStep mu e p := by
  unfold adaptStep
  rcases quarter_cases hq with rfl | rfl | rfl | rfl <;> simp [and_comm, add_comm]

/-- C160: a signal with a constant carrier phase, the modulus based methods with a fixed step size: the training gives the same taps, and every
error has the carrier phase. For every number of modes, taps, symbols and iterations. -/
theorem C160_phase_partial {method : String} (hm : method = "cma" ∨ method = "sgncma" ∨ method = "rde") {errf : ℂ → List ℂ → Nat → Option ℂ}
    (he : errorFct method = some errf) (u : ℂ) (hu : ‖u‖ = 1) (E : List (List ℂ)) (trSyms nIter os ntaps : Nat) (mu : ℝ)
    (wx : List (List (List ℂ))) (modes : List Nat) (symbols : List (List ℂ)) :
    trainEqualiser errf adaptStep false (E.map (·.map (u * ·))) trSyms nIter os mu wx ntaps modes symbols =
      (trainEqualiser errf adaptStep false E trSyms nIter os mu wx ntaps modes symbols).map fun r =>
        { err := r.err.map (·.map (u * ·)), wx := r.wx, mu := r.mu } := by
  have h := trainEqualiser_turn (errf := errf) (adapt := adaptStep) (adaptive := false) u 1 (unit_star hu) E trSyms nIter os ntaps mu wx modes
    symbols symbols (fun _ => rfl) (by
      intro m s s' h1 h2 i _ x
      rw [h1, Option.some.injEq] at h2
      subst h2
      rw [mul_one]
      exact modulus_methods hm he u hu s i x) (by simp)
  have ht : ∀ a : List (List (List ℂ)), a.map (turn 1) = a := by
    intro a
    have : turn (1 : ℂ) = id := by funext b; simp [turn]
    rw [this, List.map_id]
  simp only [ht, mul_one] at h
  exact h

/-- C160: initial taps with a constant phase: the taps keep the phase during the training. -/
theorem C160_taps_partial {method : String} (hm : method = "cma" ∨ method = "sgncma" ∨ method = "rde") {errf : ℂ → List ℂ → Nat → Option ℂ}
    (he : errorFct method = some errf) (v : ℂ) (hv : ‖v‖ = 1) (E : List (List ℂ)) (trSyms nIter os ntaps : Nat) (mu : ℝ)
    (wx : List (List (List ℂ))) (modes : List Nat) (symbols : List (List ℂ)) :
    trainEqualiser errf adaptStep false E trSyms nIter os mu (wx.map (·.map (·.map (v * ·)))) ntaps modes symbols =
      (trainEqualiser errf adaptStep false E trSyms nIter os mu wx ntaps modes symbols).map fun r =>
        { err := r.err.map (·.map (v * ·)), wx := r.wx.map (·.map (·.map (v * ·))), mu := r.mu } := by
  have h := trainEqualiser_turn (errf := errf) (adapt := adaptStep) (adaptive := false) 1 v (by simp) E trSyms nIter os ntaps mu wx modes
    symbols symbols (fun _ => rfl) (by
      intro m s s' h1 h2 i _ x
      rw [h1, Option.some.injEq] at h2
      subst h2
      rw [one_mul]
      exact modulus_methods hm he v hv s i x) (by simp)
  have ht : turn (1 : ℂ) E = E := by simp [turn]
  simp only [ht, one_mul] at h
  exact h

/-- C160: quarter turns, also with the adaptive step size, also for the methods that treat the two parts separately with the same reference for
both, and for the data aided method if the data are rotated as well. -/
theorem C160_quarter_partial {method : String} {errf : ℂ → List ℂ → Nat → Option ℂ} (he : errorFct method = some errf) (u : ℂ) (hu : u ^ 4 = 1)
    (adaptive : Bool) (E : List (List ℂ)) (trSyms nIter os ntaps : Nat) (mu : ℝ) (wx : List (List (List ℂ))) (modes : List Nat)
    (symbols symbols' : List (List ℂ))
    (hs : ((method = "cma" ∨ method = "sgncma" ∨ method = "rde") ∧ symbols' = symbols) ∨
      (method = "mcma" ∧ symbols' = symbols ∧ ∀ s ∈ symbols, ∀ r, s[0]? = some r → r.re = r.im) ∨
      (method = "mrde" ∧ symbols' = symbols ∧ ∀ s ∈ symbols, ∀ r ∈ s, r.re = r.im) ∨ (method = "sbd_data" ∧ symbols' = symbols.map (·.map (u * ·)))) :
    trainEqualiser errf adaptStep adaptive (E.map (·.map (u * ·))) trSyms nIter os mu wx ntaps modes symbols' =
      (trainEqualiser errf adaptStep adaptive E trSyms nIter os mu wx ntaps modes symbols).map fun r =>
        { err := r.err.map (·.map (u * ·)), wx := r.wx, mu := r.mu } := by
  have hn : ‖u‖ = 1 := by rcases quarter_cases hu with rfl | rfl | rfl | rfl <;> simp
  have h := trainEqualiser_turn (errf := errf) (adapt := adaptStep) (adaptive := adaptive) u 1 (unit_star hn) E trSyms nIter os ntaps mu wx modes
    symbols symbols' (by
      intro m
      rcases hs with ⟨-, rfl⟩ | ⟨-, rfl, -⟩ | ⟨-, rfl, -⟩ | ⟨-, rfl⟩ <;> try rfl
      rw [List.getElem?_map, Option.isSome_map]) (by
      intro m s s' h1 h2 i _ x
      rw [mul_one]
      apply quarter_methods he u hu s s' i
      rcases hs with ⟨hm, rfl⟩ | ⟨hm, rfl, hr⟩ | ⟨hm, rfl, hr⟩ | ⟨hm, rfl⟩
      · rw [h1, Option.some.injEq] at h2
        exact Or.inl ⟨hm, h2.symm⟩
      · rw [h1, Option.some.injEq] at h2
        exact Or.inr (Or.inl ⟨hm, h2.symm, hr s (List.mem_of_getElem? h1)⟩)
      · rw [h1, Option.some.injEq] at h2
        exact Or.inr (Or.inr (Or.inl ⟨hm, h2.symm, hr s (List.mem_of_getElem? h1)⟩))
      · rw [List.getElem?_map, h1, Option.map_some, Option.some.injEq] at h2
        exact Or.inr (Or.inr (Or.inr ⟨hm, h2.symm⟩))) (by
      intro _ mu e p
      rw [mul_one]
      exact adaptStep_quarter u hu mu e p)
  have ht : ∀ a : List (List (List ℂ)), a.map (turn 1) = a := by
    intro a
    have : turn (1 : ℂ) = id := by funext b; simp [turn]
    rw [this, List.map_id]
  simp only [ht, mul_one] at h
  exact h

/-- C160 for any phase with the adaptive step size: the same taps. -/
def C160_statement : Prop :=
  ∀ (u : ℂ) (_ : ‖u‖ = 1) (adaptive : Bool) (E : List (List ℂ)) (trSyms nIter os ntaps : Nat) (mu : ℝ) (_ : 0 < mu)
    (wx : List (List (List ℂ))) (modes : List Nat) (symbols : List (List ℂ)),
    (trainEqualiser cmaError adaptStep adaptive (E.map (·.map (u * ·))) trSyms nIter os mu wx ntaps modes symbols).map (·.wx) =
      (trainEqualiser cmaError adaptStep adaptive E trSyms nIter os mu wx ntaps modes symbols).map (·.wx)

/-- One step of one real tap on the constant signal `u`, for the constant modulus one. -/
theorem one_tap_step (u : ℂ) (hu : ‖u‖ = 1) (w mu : ℝ) (errs : List ℂ) (i : Nat) (hi : i < 3) (m : ℝ)
    (hm : nextMu adaptStep true mu (((1 - w ^ 2) * w : ℝ) * u) errs i = some m) :
    trainStep cmaError adaptStep true [[u, u, u]] 1 1 [1] { w := [[(w : ℂ)]], mu := mu, errs := errs } i =
      some { w := [[((w + mu * ((1 - w ^ 2) * w) : ℝ) : ℂ)]], mu := m, errs := (((1 - w ^ 2) * w : ℝ) * u) :: errs } := by
  have hw : window [[u, u, u]] (i * 1) 1 = [[u]] := by
    have : i = 0 ∨ i = 1 ∨ i = 2 := by omega
    rcases this with rfl | rfl | rfl <;> rfl
  have hf : applyFilter [[u]] [[(w : ℂ)]] 1 = some (0 + u * (w : ℂ)) := rfl
  have hn : ‖u * (w : ℂ)‖ ^ 2 = w ^ 2 := by
    rw [norm_mul, hu, one_mul, Complex.norm_real, Real.norm_eq_abs, sq_abs]
  have he : cmaError (u * (w : ℂ)) [1] i = some (((1 - w ^ 2) * w : ℝ) * u) := by
    unfold cmaError
    simp only [List.getElem?_cons_zero, Option.bind_eq_bind, Option.bind_some, Option.some.injEq, hn, Complex.one_re]
    push_cast
    ring
  have hs := unit_star hu
  have hup : updateTaps [[(w : ℂ)]] [[u]] ((mu : ℂ) * ((((1 - w ^ 2) * w : ℝ) : ℂ) * u)) = some [[((w + mu * ((1 - w ^ 2) * w) : ℝ) : ℂ)]] := by
    unfold updateTaps
    rw [if_pos (by simp)]
    simp only [List.zipWith_cons_cons, List.zipWith_nil_right, Option.some.injEq, List.cons.injEq, and_true]
    push_cast
    linear_combination (mu : ℂ) * ((1 - (w : ℂ) ^ 2) * w) * hs
  unfold trainStep
  simp only [hw, hf, zero_add, Option.bind_eq_bind, Option.bind_some, he]
  erw [hup]
  simp only [Option.bind_some, hm]

/-- With the adaptive step size the taps depend on the carrier phase: the step size is reduced unless the real parts and the imaginary parts of
consecutive errors have the same signs, and real errors have imaginary parts of zero. -/
theorem C160_false : ¬ C160_statement := by
  intro h
  have hv : ‖(⟨3 / 5, 4 / 5⟩ : ℂ)‖ = 1 := by
    rw [Complex.norm_eq_sqrt_sq_add_sq]
    norm_num
  have run : ∀ (u : ℂ) (_ : ‖u‖ = 1) (m1 : ℝ), adaptStep 1 (((1 - (7 / 8 : ℝ) ^ 2) * (7 / 8) : ℝ) * u) (((1 - (1 / 2 : ℝ) ^ 2) * (1 / 2) : ℝ) * u) = m1 →
      (trainEqualiser cmaError adaptStep true [[u, u, u]] 3 1 1 1 [[[((1 / 2 : ℝ) : ℂ)]]] 1 [0] [[1]]).map (·.wx) =
        some [[[((553 / 512 + m1 * ((1 - (553 / 512) ^ 2) * (553 / 512)) : ℝ) : ℂ)]]] := by
    intro u hu m1 hm1
    have s0 := one_tap_step u hu (1 / 2) 1 [] 0 (by norm_num) 1 rfl
    rw [show (1 / 2 + 1 * ((1 - (1 / 2 : ℝ) ^ 2) * (1 / 2)) : ℝ) = 7 / 8 by norm_num] at s0
    have s1 := one_tap_step u hu (7 / 8) 1 [(((1 - (1 / 2 : ℝ) ^ 2) * (1 / 2) : ℝ) : ℂ) * u] 1 (by norm_num) m1 (by
      unfold nextMu
      simp only [Bool.true_and, decide_eq_true_eq]
      rw [if_pos (by norm_num), List.head?_cons, Option.map_some, hm1])
    rw [show (7 / 8 + 1 * ((1 - (7 / 8 : ℝ) ^ 2) * (7 / 8)) : ℝ) = 553 / 512 by norm_num] at s1
    have s2 := one_tap_step u hu (553 / 512) m1 [(((1 - (7 / 8 : ℝ) ^ 2) * (7 / 8) : ℝ) : ℂ) * u, (((1 - (1 / 2 : ℝ) ^ 2) * (1 / 2) : ℝ) : ℂ) * u] 2
      (by norm_num) _ rfl
    have hmode : ∃ st, trainMode cmaError adaptStep true [[u, u, u]] 3 1 1 1 [1] [[((1 / 2 : ℝ) : ℂ)]] 1 = some st ∧
        st.w = [[((553 / 512 + m1 * ((1 - (553 / 512) ^ 2) * (553 / 512)) : ℝ) : ℂ)]] := by
      rw [trainMode_eq]
      have ho : stepOrder 1 3 = [0, 1, 2] := rfl
      rw [ho]
      simp only [List.foldlM_cons, List.foldlM_nil, s0, s1, s2, Option.bind_eq_bind, Option.bind_some]
      exact ⟨_, rfl, rfl⟩
    obtain ⟨st, h1, h2⟩ := hmode
    unfold trainEqualiser
    simp only [List.foldlM_cons, List.foldlM_nil, List.getElem?_cons_zero, Option.bind_eq_bind, Option.bind_some, h1]
    simp only [pure, Option.map_some, List.set_cons_zero, h2]
  have r1 := run 1 (by simp) (64 / 73) (by
    unfold adaptStep
    simp only [Complex.re_ofReal_mul, Complex.im_ofReal_mul, Complex.one_re, Complex.one_im]
    norm_num)
  have r2 := run ⟨3 / 5, 4 / 5⟩ hv 1 (by
    unfold adaptStep
    rw [if_pos]
    simp only [Complex.re_ofReal_mul, Complex.im_ofReal_mul]
    norm_num)
  have h1 := h ⟨3 / 5, 4 / 5⟩ hv true [[1, 1, 1]] 3 1 1 1 1 one_pos [[[((1 / 2 : ℝ) : ℂ)]]] [0] [[1]]
  simp only [List.map_cons, List.map_nil, mul_one] at h1
  rw [r1, r2] at h1
  simp only [Option.some.injEq, List.cons.injEq, and_true, Complex.ofReal_inj] at h1
  norm_num at h1

/-- Two modes, two taps, a signal turned by 0.3 rad. -/
example (E : List (List ℂ)) : trainEqualiser cmaError adaptStep false (E.map (·.map (Complex.exp ((0.3 : ℝ) * Complex.I) * ·))) 5 2 2 0.01
      [[[1, 0], [0, 0]], [[0, 0], [1, 0]]] 2 [0, 1] [[1], [1]] =
    (trainEqualiser cmaError adaptStep false E 5 2 2 0.01 [[[1, 0], [0, 0]], [[0, 0], [1, 0]]] 2 [0, 1] [[1], [1]]).map fun r =>
      { err := r.err.map (·.map (Complex.exp ((0.3 : ℝ) * Complex.I) * ·)), wx := r.wx, mu := r.mu } :=
  C160_phase_partial (Or.inl rfl) rfl _ (Complex.norm_exp_ofReal_mul_I _) E 5 2 2 2 0.01 _ _ _

end Qampy
