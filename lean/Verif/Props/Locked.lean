import Verif.Props.ConvergeNoise

/-!
# Decision directed training in noise: C209
-/

namespace Qampy

section generic
variable {K : Type} [RCLike K]

/-- Two error functions that agree as long as the taps stay near the taps `v` give the same training, if the second one pulls towards `v` and its disturbances are too small to carry the taps away. -/
theorem locked_fold {errf1 errf2 : K → List K → Nat → Option K} {adapt : ℝ → K → K → ℝ} {adaptive : Bool} {E v : List (List K)}
    {p L os ntaps : Nat} {symbs1 symbs2 : List K} {A P D mu0 : ℝ} {n : Nat → ℝ} (hE : Rect E p L) (ha : Shrinks adapt) (hA : 0 < A)
    (l : List Nat) (hl : ∀ i ∈ l, i * os + ntaps ≤ L) (hP : ∀ i ∈ l, windowEnergy E p ntaps os i ≤ P) (hn : ∀ i ∈ l, 0 ≤ n i)
    (hpull : ∀ i ∈ l, ∀ y e, errf2 y symbs2 i = some e → NoisyPull A (firOutput E v p ntaps os i) y e (n i))
    (hagree : ∀ i ∈ l, ∀ w, tapDist w v p ntaps ≤ D → errf1 (firOutput E w p ntaps os i) symbs1 i = errf2 (firOutput E w p ntaps os i) symbs2 i)
    (hstep : A * (mu0 * P) ≤ 1) {st : TrainState K} (hw : Rect st.w p ntaps) (hmu : 0 < st.mu) (hmu0 : st.mu ≤ mu0)
    (hD : tapDist st.w v p ntaps + st.mu * (l.map n).sum ≤ D) :
    l.foldlM (trainStep errf1 adapt adaptive E os ntaps symbs1) st = l.foldlM (trainStep errf2 adapt adaptive E os ntaps symbs2) st := by
  induction l generalizing st with
  | nil => rfl
  | cons i l ih =>
    have hi : i * os + ntaps ≤ L := hl i List.mem_cons_self
    have hsum : 0 ≤ (l.map n).sum := List.sum_nonneg (by
      intro x hx
      obtain ⟨j, hj, rfl⟩ := List.mem_map.1 hx
      exact hn j (List.mem_cons_of_mem _ hj))
    have hni := hn i List.mem_cons_self
    rw [List.map_cons, List.sum_cons, mul_add] at hD
    have h0 : tapDist st.w v p ntaps ≤ D := by
      have h1 := mul_nonneg hmu.le hni
      have h2 := mul_nonneg hmu.le hsum
      linarith
    have hone : trainStep errf1 adapt adaptive E os ntaps symbs1 st i = trainStep errf2 adapt adaptive E os ntaps symbs2 st i := by
      unfold trainStep
      simp only [applyFilter_window_fir hE hw hi, Option.bind_eq_bind, Option.bind_some, hagree i List.mem_cons_self st.w h0]
    rw [List.foldlM_cons, List.foldlM_cons, hone]
    cases hs : trainStep errf2 adapt adaptive E os ntaps symbs2 st i with
    | none => rfl
    | some s =>
      obtain ⟨e, g1, g2, g3, g4⟩ := trainStep_tapStep hE hw hi hs
      obtain ⟨x, e', -, -, -, -, g6⟩ := trainStep_inv hs
      have hsmu : 0 < s.mu ∧ s.mu ≤ st.mu := by
        rcases g6 with ⟨m1, -⟩ | ⟨-, -, prev, -, m4⟩
        · rw [m1]; exact ⟨hmu, le_rfl⟩
        · rw [m4]; exact ⟨(ha _ _ _ hmu).1, (ha _ _ _ hmu).2⟩
      have hPi := hP i List.mem_cons_self
      have hst : A * (st.mu * windowEnergy E p ntaps os i) ≤ 1 :=
        le_trans (mul_le_mul_of_nonneg_left (mul_le_mul hmu0 hPi (windowEnergy_nonneg _ _ _ _ _) (hmu.le.trans hmu0)) hA.le) hstep
      have hdist := tapDist_noisy hmu.le hA g4 hst (hpull i List.mem_cons_self _ _ g1)
      have hpos : 0 ≤ st.mu / (2 * A) * ‖e‖ ^ 2 := by positivity
      have hms := mul_le_mul_of_nonneg_right hsmu.2 hsum
      exact ih (fun i hi => hl i (List.mem_cons_of_mem _ hi)) (fun i hi => hP i (List.mem_cons_of_mem _ hi)) (fun i hi => hn i (List.mem_cons_of_mem _ hi))
        (fun i hi => hpull i (List.mem_cons_of_mem _ hi)) (fun i hi => hagree i (List.mem_cons_of_mem _ hi)) g3 hsmu.1 (hsmu.2.trans hmu0) (by linarith)

theorem locked_mode {errf1 errf2 : K → List K → Nat → Option K} {adapt : ℝ → K → K → ℝ} {adaptive : Bool} {E v w : List (List K)}
    {p L trSyms nIter os ntaps : Nat} {symbs1 symbs2 : List K} {A P D mu mu0 : ℝ} {n : Nat → ℝ} (hE : Rect E p L) (hw : Rect w p ntaps) (ha : Shrinks adapt) (hA : 0 < A)
    (hT : trSyms = 0 ∨ (trSyms - 1) * os + ntaps ≤ L) (hP : ∀ i < trSyms, windowEnergy E p ntaps os i ≤ P) (hn : ∀ i < trSyms, 0 ≤ n i)
    (hpull : ∀ i < trSyms, ∀ y e, errf2 y symbs2 i = some e → NoisyPull A (firOutput E v p ntaps os i) y e (n i))
    (hagree : ∀ i < trSyms, ∀ w, tapDist w v p ntaps ≤ D → errf1 (firOutput E w p ntaps os i) symbs1 i = errf2 (firOutput E w p ntaps os i) symbs2 i)
    (hmu : 0 < mu) (hmu0 : mu ≤ mu0) (hstep : A * (mu0 * P) ≤ 1) (hD : tapDist w v p ntaps + mu0 * (nIter * ∑ i ∈ Finset.range trSyms, n i) ≤ D) :
    trainMode errf1 adapt adaptive E trSyms nIter os ntaps symbs1 w mu = trainMode errf2 adapt adaptive E trSyms nIter os ntaps symbs2 w mu := by
  rw [trainMode_eq, trainMode_eq]
  have hmem : ∀ i ∈ stepOrder nIter trSyms, i < trSyms := by
    intro i hi
    obtain ⟨l, hl, hil⟩ := List.mem_flatten.1 hi
    rw [List.eq_of_mem_replicate hl, List.mem_range] at hil
    exact hil
  have hl : ∀ i ∈ stepOrder nIter trSyms, i * os + ntaps ≤ L := by
    intro i hi
    have hi := hmem i hi
    have : i * os ≤ (trSyms - 1) * os := Nat.mul_le_mul_right _ (by omega)
    omega
  refine locked_fold (mu0 := mu0) (v := v) (D := D) (n := n) hE ha hA _ hl (fun i hi => hP i (hmem i hi)) (fun i hi => hn i (hmem i hi)) (fun i hi => hpull i (hmem i hi))
    (fun i hi => hagree i (hmem i hi)) hstep hw hmu hmu0 ?_
  rw [sum_stepOrder]
  have h1 : (0 : ℝ) ≤ nIter * ∑ i ∈ Finset.range trSyms, n i := mul_nonneg (Nat.cast_nonneg _) (Finset.sum_nonneg fun i hi => hn i (Finset.mem_range.1 hi))
  have h2 := mul_le_mul_of_nonneg_right hmu0 h1
  show tapDist w v p ntaps + mu * _ ≤ D
  linarith

/-- All modes; every mode is trained once. -/
theorem locked_equaliser {errf1 errf2 : K → List K → Nat → Option K} {adapt : ℝ → K → K → ℝ} {adaptive : Bool} {E : List (List K)}
    {p L trSyms nIter os ntaps : Nat} {symbols1 symbols2 : List (List K)} {wx : List (List (List K))} {modes : List Nat} {v : Nat → List (List K)} {A P mu : ℝ}
    {D : Nat → ℝ} {n : Nat → Nat → ℝ} (hE : Rect E p L) (hw : ∀ w ∈ wx, Rect w p ntaps) (hnd : modes.Nodup) (ha : Shrinks adapt) (hA : 0 < A)
    (hT : trSyms = 0 ∨ (trSyms - 1) * os + ntaps ≤ L) (hP : ∀ i < trSyms, windowEnergy E p ntaps os i ≤ P) (hn : ∀ m, ∀ i < trSyms, 0 ≤ n m i)
    (hsyms : ∀ m ∈ modes, ∃ s1 s2, symbols1[m]? = some s1 ∧ symbols2[m]? = some s2 ∧
      (∀ i < trSyms, ∀ y e, errf2 y s2 i = some e → NoisyPull A (firOutput E (v m) p ntaps os i) y e (n m i)) ∧
      ∀ i < trSyms, ∀ w, tapDist w (v m) p ntaps ≤ D m → errf1 (firOutput E w p ntaps os i) s1 i = errf2 (firOutput E w p ntaps os i) s2 i)
    (hmu : 0 < mu) (hstep : A * (mu * P) ≤ 1)
    (hD : ∀ m ∈ modes, ∀ w, wx[m]? = some w → tapDist w (v m) p ntaps + mu * (nIter * ∑ i ∈ Finset.range trSyms, n m i) ≤ D m) :
    trainEqualiser errf1 adapt adaptive E trSyms nIter os mu wx ntaps modes symbols1 = trainEqualiser errf2 adapt adaptive E trSyms nIter os mu wx ntaps modes symbols2 := by
  unfold trainEqualiser
  have key : ∀ (ms : List Nat), ms.Nodup → (∀ m ∈ ms, m ∈ modes) → ∀ r : TrainResult K, 0 < r.mu → r.mu ≤ mu → (∀ m ∈ ms, r.wx[m]? = wx[m]?) →
      ms.foldlM (fun r mode => do
        let w ← r.wx[mode]?
        let symbs ← symbols1[mode]?
        let st ← trainMode errf1 adapt adaptive E trSyms nIter os ntaps symbs w r.mu
        some { err := r.err.set mode st.errs.reverse, wx := r.wx.set mode st.w, mu := st.mu }) r
      = ms.foldlM (fun (r : TrainResult K) mode => do
        let w ← r.wx[mode]?
        let symbs ← symbols2[mode]?
        let st ← trainMode errf2 adapt adaptive E trSyms nIter os ntaps symbs w r.mu
        some { err := r.err.set mode st.errs.reverse, wx := r.wx.set mode st.w, mu := st.mu }) r := by
    intro ms
    induction ms with
    | nil => intros; rfl
    | cons m ms ih =>
      intro hnd hsub r hr1 hr2 hrw
      rw [List.nodup_cons] at hnd
      rw [List.foldlM_cons, List.foldlM_cons]
      have hmm := hsub m List.mem_cons_self
      obtain ⟨s1, s2, e1, e2, e3, e4⟩ := hsyms m hmm
      cases hwm : wx[m]? with
      | none =>
        have : r.wx[m]? = none := (hrw m List.mem_cons_self).trans hwm
        simp only [this]
        rfl
      | some w =>
        have h1 : r.wx[m]? = some w := (hrw m List.mem_cons_self).trans hwm
        have h2 := locked_mode (adaptive := adaptive) (mu0 := mu) (v := v m) (n := n m) (D := D m) hE (hw w (List.mem_of_getElem? hwm)) ha hA hT hP (hn m) e3 e4 hr1 hr2 hstep (hD m hmm w hwm)
        simp only [h1, e1, e2, Option.bind_eq_bind, Option.bind_some, h2]
        cases hst : trainMode errf2 adapt adaptive E trSyms nIter os ntaps s2 w r.mu with
        | none => rfl
        | some st =>
          simp only [Option.bind_some]
          obtain ⟨-, k2, k3, -, -⟩ := noisy_mode (v := v m) (mu0 := mu) (n := n m) hE (hw w (List.mem_of_getElem? hwm)) ha hA hT hP (hn m) e3 hr1 hr2 hstep hst
          have := ih hnd.2 (fun m' hm' => hsub m' (List.mem_cons_of_mem _ hm')) { err := r.err.set m st.errs.reverse, wx := r.wx.set m st.w, mu := st.mu } k2 (k3.trans hr2) (fun m' hm' => by
            have hne : m ≠ m' := fun h => hnd.1 (h ▸ hm')
            show (r.wx.set m st.w)[m']? = _
            rw [List.getElem?_set_ne hne]
            exact hrw m' (List.mem_cons_of_mem _ hm'))
          simpa only [Option.bind_eq_bind] using this
  exact key modes hnd (fun m hm => hm) _ hmu le_rfl (fun m _ => rfl)

end generic

/-- What is assumed of one mode: the sent symbols `tx` are in the alphabet, the output of the taps `v` differs from them by the noise `‖tx i - y i‖ ≤ ν`, and half the distance of the symbols
exceeds the noise plus the deviation which the distance of the taps and the energy of the noise (weighed with the step size) can cause. -/
structure LockedMode (E v w : List (List ℂ)) (p ntaps os trSyms nIter : Nat) (alph tx : List ℂ) (A P mu ν B : ℝ) : Prop where
  sent : ∀ i < trSyms, ∃ s, tx[i]? = some s ∧ s ∈ alph ∧ |s.re| ≤ A ∧ |s.im| ≤ A ∧ ‖s - firOutput E v p ntaps os i‖ ≤ ν
  budget : Real.sqrt ((tapDist w v p ntaps + 2 * A * mu * (nIter * ∑ i ∈ Finset.range trSyms, ‖tx.getD i 0 - firOutput E v p ntaps os i‖ ^ 2)) * P) + ν ≤ B
  near : B ^ 2 < 1000
  apart : ∀ a ∈ alph, ∀ b ∈ alph, a ≠ b → 2 * B < ‖a - b‖

/-- As long as the taps stay within the budget the decisions are right. -/
theorem LockedMode.right {E v w w' : List (List ℂ)} {p ntaps os trSyms nIter : Nat} {alph tx : List ℂ} {A P mu ν B : ℝ} (h : LockedMode E v w p ntaps os trSyms nIter alph tx A P mu ν B)
    (hP : ∀ i < trSyms, windowEnergy E p ntaps os i ≤ P)
    (hd : tapDist w' v p ntaps ≤ tapDist w v p ntaps + 2 * A * mu * (nIter * ∑ i ∈ Finset.range trSyms, ‖tx.getD i 0 - firOutput E v p ntaps os i‖ ^ 2)) {i : Nat} (hi : i < trSyms) {s : ℂ}
    (hs : tx[i]? = some s) : (detSymbol (firOutput E w' p ntaps os i) alph).1 = s := by
  obtain ⟨s', g1, g2, -, -, g5⟩ := h.sent i hi
  rw [hs, Option.some.injEq] at g1
  subst g1
  have h1 : ‖firOutput E w' p ntaps os i - firOutput E v p ntaps os i‖ ≤ Real.sqrt ((tapDist w v p ntaps + 2 * A * mu * (nIter * ∑ i ∈ Finset.range trSyms, ‖tx.getD i 0 - firOutput E v p ntaps os i‖ ^ 2)) * P) := by
    apply Real.le_sqrt_of_sq_le
    refine (firOutput_dist E w' v p ntaps os i).trans ?_
    exact mul_le_mul hd (hP i hi) (windowEnergy_nonneg _ _ _ _ _) ((tapDist_nonneg _ _ _ _).trans hd)
  have h2 : ‖firOutput E w' p ntaps os i - s‖ ≤ B := by
    have e : firOutput E w' p ntaps os i - s = (firOutput E w' p ntaps os i - firOutput E v p ntaps os i) - (s - firOutput E v p ntaps os i) := by ring
    rw [e]
    exact (norm_sub_le _ _).trans (by linarith [h.budget])
  have hB : 0 ≤ B := (norm_nonneg _).trans h2
  refine det_right (B := B ^ 2) g2 (pow_le_pow_left₀ (norm_nonneg _) h2 2) h.near fun a ha hne => ?_
  have := h.apart a ha s g2 hne
  nlinarith [norm_nonneg (a - s)]

/-- C209: decision directed training ("sbd") in noise is training with the sent symbols: if the equaliser starts close enough for the noise, all results (errors, taps, step size) are those of "sbd_data" with
the symbols that were sent, with and without adaptive step size. -/
theorem C209_locked {adaptive : Bool} {E : List (List ℂ)} {p L trSyms nIter os ntaps : Nat} {alphabets sent : List (List ℂ)} {wx : List (List (List ℂ))} {modes : List Nat}
    {v : Nat → List (List ℂ)} {A P mu : ℝ} {ν B : Nat → ℝ} {errf errd : ℂ → List ℂ → Nat → Option ℂ} (hmeth : errorFct "sbd" = some errf) (hdata : errorFct "sbd_data" = some errd)
    (hE : Rect E p L) (hw : ∀ w ∈ wx, Rect w p ntaps) (hnd : modes.Nodup) (hT : trSyms = 0 ∨ (trSyms - 1) * os + ntaps ≤ L)
    (hP : ∀ i < trSyms, windowEnergy E p ntaps os i ≤ P) (hA : 0 < A) (hmu : 0 < mu) (hstep : A * (mu * P) ≤ 1)
    (hlock : ∀ m ∈ modes, ∃ alph tx, alphabets[m]? = some alph ∧ sent[m]? = some tx ∧ ∀ w, wx[m]? = some w → LockedMode E (v m) w p ntaps os trSyms nIter alph tx A P mu (ν m) (B m)) (hwx : ∀ m ∈ modes, m < wx.length) :
    trainEqualiser errf adaptStep adaptive E trSyms nIter os mu wx ntaps modes alphabets = trainEqualiser errd adaptStep adaptive E trSyms nIter os mu wx ntaps modes sent := by
  have e1 : sbdError = errf := by simpa [errorFct] using hmeth
  have e2 : sbdDataError = errd := by simpa [errorFct] using hdata
  subst e1
  subst e2
  refine locked_equaliser (v := v) (n := fun m i => 2 * (A * ‖(sent.getD m []).getD i 0 - firOutput E (v m) p ntaps os i‖ ^ 2))
    (D := fun m => tapDist (wx.getD m []) (v m) p ntaps + 2 * A * mu * (nIter * ∑ i ∈ Finset.range trSyms, ‖(sent.getD m []).getD i 0 - firOutput E (v m) p ntaps os i‖ ^ 2))
    hE hw hnd C26_adapt_step.1 hA hT hP (fun m i _ => by positivity) (fun m hm => ?_) hmu hstep (fun m hm w hwm => ?_)
  · obtain ⟨alph, tx, h1, h2, h3⟩ := hlock m hm
    obtain ⟨w, hwm⟩ : ∃ w, wx[m]? = some w := ⟨_, List.getElem?_eq_getElem (hwx m hm)⟩
    have hL := h3 w hwm
    have e1 : sent.getD m [] = tx := by rw [List.getD_eq_getElem?_getD, h2]; rfl
    have e3 : wx.getD m [] = w := by rw [List.getD_eq_getElem?_getD, hwm]; rfl
    refine ⟨alph, tx, h1, h2, fun i hi y e he => ?_, fun i hi w' hd => ?_⟩
    · obtain ⟨s, g1, g2, g3, g4, -⟩ := hL.sent i hi
      unfold sbdDataError at he
      rw [g1] at he
      simp only [Option.bind_eq_bind, Option.bind_some, Option.some.injEq] at he
      subst he
      have e2 : tx.getD i 0 = s := by rw [List.getD_eq_getElem?_getD, g1]; rfl
      rw [e1, e2]
      exact noisyPull_data g3 g4
    · obtain ⟨s, g1, -⟩ := hL.sent i hi
      rw [e1, e3] at hd
      have := hL.right hP hd hi g1
      simp only [sbdError, sbdDataError, this, g1, Option.bind_eq_bind, Option.bind_some, Complex.sub_re, Complex.sub_im]
  · have e3 : wx.getD m [] = w := by rw [List.getD_eq_getElem?_getD, hwm]; rfl
    rw [e3, ← Finset.mul_sum, ← Finset.mul_sum]
    apply le_of_eq
    ring

/-- C209: so the energy of the errors of a decision directed training with fixed step size is bounded by the initial distance and the noise, and the trained taps decide every symbol right. -/
theorem C209_energy {E : List (List ℂ)} {p L trSyms nIter os ntaps : Nat} {alphabets sent : List (List ℂ)} {wx : List (List (List ℂ))} {modes : List Nat}
    {v : Nat → List (List ℂ)} {A P mu : ℝ} {ν B : Nat → ℝ} {errf : ℂ → List ℂ → Nat → Option ℂ} (hmeth : errorFct "sbd" = some errf)
    (hE : Rect E p L) (hw : ∀ w ∈ wx, Rect w p ntaps) (hm : ∀ m ∈ modes, m < p) (hnd : modes.Nodup) (hT : trSyms = 0 ∨ (trSyms - 1) * os + ntaps ≤ L)
    (hP : ∀ i < trSyms, windowEnergy E p ntaps os i ≤ P) (hA : 0 < A) (hmu : 0 < mu) (hstep : A * (mu * P) ≤ 1) (hsym : ∀ row ∈ sent, ∀ s ∈ row, |s.re| ≤ A ∧ |s.im| ≤ A)
    (hlock : ∀ m ∈ modes, ∃ alph tx, alphabets[m]? = some alph ∧ sent[m]? = some tx ∧ ∀ w, wx[m]? = some w → LockedMode E (v m) w p ntaps os trSyms nIter alph tx A P mu (ν m) (B m)) (hwx : ∀ m ∈ modes, m < wx.length)
    {r : TrainResult ℂ} (h : trainEqualiser errf adaptStep false E trSyms nIter os mu wx ntaps modes alphabets = some r) :
    ∀ m ∈ modes, ∃ w w' errs alph tx, wx[m]? = some w ∧ r.wx[m]? = some w' ∧ r.err[m]? = some errs ∧ alphabets[m]? = some alph ∧ sent[m]? = some tx ∧
      (errs.map fun e => ‖e‖ ^ 2).sum ≤ 2 * A / mu * tapDist w (v m) p ntaps + 4 * A ^ 2 * (nIter * ∑ i ∈ Finset.range trSyms, ‖tx.getD i 0 - firOutput E (v m) p ntaps os i‖ ^ 2) ∧
      ∀ i < trSyms, ∀ s, tx[i]? = some s → (detSymbol (firOutput E w' p ntaps os i) alph).1 = s := by
  rw [C209_locked (errd := sbdDataError) hmeth rfl hE hw hnd hT hP hA hmu hstep hlock hwx] at h
  intro m hmm
  obtain ⟨w, w', errs, tx, h1, h2, h3, h4, h5⟩ := C170_data (errf := sbdDataError) (v := v) rfl hE hw hm hnd hT hP hA hsym hmu hstep h m hmm
  obtain ⟨alph, tx', g1, g2, g3⟩ := hlock m hmm
  rw [h4, Option.some.injEq] at g2
  subst g2
  obtain ⟨S, hS⟩ : ∃ S, S = ∑ i ∈ Finset.range trSyms, ‖tx.getD i 0 - firOutput E (v m) p ntaps os i‖ ^ 2 := ⟨_, rfl⟩
  rw [← hS] at h5
  have hpos : 0 < 2 * A / mu := by positivity
  have hsum : 0 ≤ (errs.map fun e => ‖e‖ ^ 2).sum := List.sum_nonneg (by
    intro x hx
    obtain ⟨e, -, rfl⟩ := List.mem_map.1 hx
    positivity)
  have hd0 := mul_nonneg hpos.le (tapDist_nonneg w' (v m) p ntaps)
  refine ⟨w, w', errs, alph, tx, h1, h2, h3, g1, h4, by rw [← hS]; linarith, fun i hi s hs => ?_⟩
  refine (g3 w h1).right hP ?_ hi hs
  rw [← hS]
  have e : 2 * A / mu * (tapDist w (v m) p ntaps + 2 * A * mu * (nIter * S)) = 2 * A / mu * tapDist w (v m) p ntaps + 4 * A ^ 2 * (nIter * S) := by
    field_simp
    ring
  have h6 : 2 * A / mu * tapDist w' (v m) p ntaps ≤ 2 * A / mu * (tapDist w (v m) p ntaps + 2 * A * mu * (nIter * S)) := by
    rw [e]
    linarith
  exact le_of_mul_le_mul_left h6 hpos

/-- The real valued decision is right when the output is closer to a symbol than half the distance to all others. -/
theorem ddReal_right {symbs : List ℝ} {y d B : ℝ} {i : Nat} (hd : d ∈ symbs) (hy : |y - d| ≤ B) (hsep : ∀ a ∈ symbs, a ≠ d → 2 * B < |a - d|) : ddErrorReal y symbs i = some ((d - y) * |d|) := by
  obtain ⟨j, hj⟩ := Np.argmin_isSome (l := symbs.map fun s => |y - s|) (by
    rw [Ne, List.map_eq_nil_iff]
    exact List.ne_nil_of_mem hd)
  obtain ⟨m, h1, h2, -⟩ := Np.argmin_spec hj
  rw [List.getElem?_map, Option.map_eq_some_iff] at h1
  obtain ⟨c, h3, rfl⟩ := h1
  have hcd : c = d := by
    by_contra hne
    have h4 := hsep c (List.mem_of_getElem? h3) hne
    have h5 := h2 _ (List.mem_map_of_mem hd)
    have h6 : |c - d| ≤ |y - c| + |y - d| := by
      have : c - d = (y - d) - (y - c) := by ring
      rw [this]
      exact (abs_sub _ _).trans (by linarith)
    linarith
  subst hcd
  simp only [ddErrorReal, hj, h3, Option.bind_eq_bind, Option.bind_some]

/-- The assumptions for one mode of the real valued equaliser; see `LockedMode`. -/
structure LockedReal (E v w : List (List ℝ)) (p ntaps os trSyms nIter : Nat) (alph tx : List ℝ) (A P mu ν B : ℝ) : Prop where
  sent : ∀ i < trSyms, ∃ s, tx[i]? = some s ∧ s ∈ alph ∧ |s| ≤ A ∧ |s - firOutput E v p ntaps os i| ≤ ν
  budget : Real.sqrt ((tapDist w v p ntaps + 2 * A * mu * (nIter * ∑ i ∈ Finset.range trSyms, |tx.getD i 0 - firOutput E v p ntaps os i| ^ 2)) * P) + ν ≤ B
  apart : ∀ a ∈ alph, ∀ b ∈ alph, a ≠ b → 2 * B < |a - b|

/-- C209 for real valued signals: "dd" is "dd_data" with the sent symbols. -/
theorem C209_real {adaptive : Bool} {E : List (List ℝ)} {p L trSyms nIter os ntaps : Nat} {alphabets sent : List (List ℝ)} {wx : List (List (List ℝ))} {modes : List Nat}
    {v : Nat → List (List ℝ)} {A P mu : ℝ} {ν B : Nat → ℝ} {errf errd : ℝ → List ℝ → Nat → Option ℝ} (hmeth : errorFctReal "dd" = some errf) (hdata : errorFctReal "dd_data" = some errd)
    (hE : Rect E p L) (hw : ∀ w ∈ wx, Rect w p ntaps) (hnd : modes.Nodup) (hT : trSyms = 0 ∨ (trSyms - 1) * os + ntaps ≤ L)
    (hP : ∀ i < trSyms, windowEnergy E p ntaps os i ≤ P) (hA : 0 < A) (hmu : 0 < mu) (hstep : A * (mu * P) ≤ 1)
    (hlock : ∀ m ∈ modes, ∃ alph tx, alphabets[m]? = some alph ∧ sent[m]? = some tx ∧ ∀ w, wx[m]? = some w → LockedReal E (v m) w p ntaps os trSyms nIter alph tx A P mu (ν m) (B m)) (hwx : ∀ m ∈ modes, m < wx.length) :
    trainEqualiser errf adaptStepReal adaptive E trSyms nIter os mu wx ntaps modes alphabets = trainEqualiser errd adaptStepReal adaptive E trSyms nIter os mu wx ntaps modes sent := by
  have e1 : ddErrorReal = errf := by simpa [errorFctReal] using hmeth
  have e2 : ddDataErrorReal = errd := by simpa [errorFctReal] using hdata
  subst e1
  subst e2
  refine locked_equaliser (v := v) (n := fun m i => 2 * (A * ‖(sent.getD m []).getD i 0 - firOutput E (v m) p ntaps os i‖ ^ 2))
    (D := fun m => tapDist (wx.getD m []) (v m) p ntaps + 2 * A * mu * (nIter * ∑ i ∈ Finset.range trSyms, ‖(sent.getD m []).getD i 0 - firOutput E (v m) p ntaps os i‖ ^ 2))
    hE hw hnd C26_adapt_step.2 hA hT hP (fun m i _ => by positivity) (fun m hm => ?_) hmu hstep (fun m hm w hwm => ?_)
  · obtain ⟨alph, tx, h1, h2, h3⟩ := hlock m hm
    obtain ⟨w, hwm⟩ : ∃ w, wx[m]? = some w := ⟨_, List.getElem?_eq_getElem (hwx m hm)⟩
    have hL := h3 w hwm
    have e1 : sent.getD m [] = tx := by rw [List.getD_eq_getElem?_getD, h2]; rfl
    have e3 : wx.getD m [] = w := by rw [List.getD_eq_getElem?_getD, hwm]; rfl
    refine ⟨alph, tx, h1, h2, fun i hi y e he => ?_, fun i hi w' hd => ?_⟩
    · obtain ⟨s, g1, g2, g3, -⟩ := hL.sent i hi
      unfold ddDataErrorReal at he
      rw [g1] at he
      simp only [Option.bind_eq_bind, Option.bind_some, Option.some.injEq] at he
      subst he
      have e2 : tx.getD i 0 = s := by rw [List.getD_eq_getElem?_getD, g1]; rfl
      rw [e1, e2]
      exact noisyPull_real g3
    · obtain ⟨s, g1, g2, -, g4⟩ := hL.sent i hi
      rw [e1, e3] at hd
      have k1 : |firOutput E w' p ntaps os i - firOutput E (v m) p ntaps os i| ≤
          Real.sqrt ((tapDist w (v m) p ntaps + 2 * A * mu * (nIter * ∑ i ∈ Finset.range trSyms, |tx.getD i 0 - firOutput E (v m) p ntaps os i| ^ 2)) * P) := by
        apply Real.le_sqrt_of_sq_le
        have := firOutput_dist E w' (v m) p ntaps os i
        rw [Real.norm_eq_abs] at this
        refine this.trans ?_
        exact mul_le_mul hd (hP i hi) (windowEnergy_nonneg _ _ _ _ _) ((tapDist_nonneg _ _ _ _).trans hd)
      have k2 : |firOutput E w' p ntaps os i - s| ≤ B m := by
        have e : firOutput E w' p ntaps os i - s = (firOutput E w' p ntaps os i - firOutput E (v m) p ntaps os i) - (s - firOutput E (v m) p ntaps os i) := by ring
        rw [e]
        exact (abs_sub _ _).trans (by linarith [hL.budget])
      rw [ddReal_right g2 k2 (fun a ha hne => hL.apart a ha s g2 hne)]
      simp only [ddDataErrorReal, g1, Option.bind_eq_bind, Option.bind_some]
  · have e3 : wx.getD m [] = w := by rw [List.getD_eq_getElem?_getD, hwm]; rfl
    rw [e3, ← Finset.mul_sum, ← Finset.mul_sum]
    apply le_of_eq
    ring

/-- The hypotheses of C209 are met: QPSK received with twice the amplitude and noise on the second symbol, from a tap off by ten per cent, ten iterations with adaptive step size. -/
example (adaptive : Bool) : trainEqualiser sbdError adaptStep adaptive [[⟨2, 2⟩, ⟨11 / 5, -2⟩]] 2 10 1 (1 / 9) [[[9 / 20]]] 1 [0] [[⟨1, 1⟩, ⟨1, -1⟩, ⟨-1, 1⟩, ⟨-1, -1⟩]] =
    trainEqualiser sbdDataError adaptStep adaptive [[⟨2, 2⟩, ⟨11 / 5, -2⟩]] 2 10 1 (1 / 9) [[[9 / 20]]] 1 [0] [[⟨1, 1⟩, ⟨1, -1⟩]] := by
  refine C209_locked (p := 1) (L := 2) (v := fun _ => [[1 / 2]]) (A := 1) (P := 9) (ν := fun _ => 1 / 10) (B := fun _ => 3 / 5) rfl rfl ⟨rfl, by simp⟩ (by
      intro w hw
      rw [List.mem_singleton.1 hw]
      exact ⟨rfl, by simp⟩) (by simp) (Or.inr (by norm_num)) (by
      intro i hi
      simp only [windowEnergy, val2, at2, Finset.sum_range_one, ← Complex.normSq_eq_norm_sq]
      interval_cases i <;> norm_num [Complex.normSq_mk]) one_pos (by norm_num) (by norm_num) (fun m hm => ?_) (by simp)
  rw [List.mem_singleton] at hm
  subst hm
  refine ⟨[⟨1, 1⟩, ⟨1, -1⟩, ⟨-1, 1⟩, ⟨-1, -1⟩], [⟨1, 1⟩, ⟨1, -1⟩], rfl, rfl, fun w hw => ?_⟩
  have e1 : [[9 / 20]] = w := by simpa using hw
  subst e1
  have h0 : firOutput ([[⟨2, 2⟩, ⟨11 / 5, -2⟩]] : List (List ℂ)) [[1 / 2]] 1 1 1 0 = ⟨1, 1⟩ := by
    apply Complex.ext <;> simp [firOutput, val2, at2]
  have h1 : firOutput ([[⟨2, 2⟩, ⟨11 / 5, -2⟩]] : List (List ℂ)) [[1 / 2]] 1 1 1 1 = ⟨11 / 10, -1⟩ := by
    apply Complex.ext <;> simp [firOutput, val2, at2]; norm_num
  have hn : ‖(⟨1, -1⟩ : ℂ) - ⟨11 / 10, -1⟩‖ = 1 / 10 := by
    rw [show (⟨1, -1⟩ : ℂ) - ⟨11 / 10, -1⟩ = ((-1 / 10 : ℝ) : ℂ) by apply Complex.ext <;> (simp; try norm_num), Complex.norm_real]
    norm_num
  refine ⟨fun i hi => ?_, ?_, by norm_num, ?_⟩
  · interval_cases i
    · exact ⟨⟨1, 1⟩, rfl, by simp, by norm_num, by norm_num, by rw [h0]; simp⟩
    · exact ⟨⟨1, -1⟩, rfl, by simp, by norm_num, by norm_num, by rw [h1, hn]⟩
  · have hd : tapDist ([[9 / 20]] : List (List ℂ)) [[1 / 2]] 1 1 = 1 / 400 := by
      simp only [tapDist, val2, at2, Finset.sum_range_one]
      norm_num
    rw [Finset.sum_range_succ, Finset.sum_range_one, h0, h1, hd]
    have e2 : ([⟨1, 1⟩, ⟨1, -1⟩] : List ℂ).getD 0 0 = ⟨1, 1⟩ := rfl
    have e3 : ([⟨1, 1⟩, ⟨1, -1⟩] : List ℂ).getD 1 0 = ⟨1, -1⟩ := rfl
    rw [e2, e3, hn, sub_self, norm_zero]
    have : Real.sqrt ((1 / 400 + 2 * 1 * (1 / 9) * ((10 : Nat) * (0 ^ 2 + (1 / 10) ^ 2))) * 9) ≤ 1 / 2 := by
      rw [Real.sqrt_le_left (by norm_num)]
      norm_num
    linarith
  · intro a ha b hb hne
    apply lt_of_pow_lt_pow_left₀ 2 (norm_nonneg _)
    rw [← Complex.normSq_eq_norm_sq, Complex.normSq_apply, Complex.sub_re, Complex.sub_im]
    simp only [List.mem_cons, List.not_mem_nil, or_false] at ha hb
    rcases ha with rfl | rfl | rfl | rfl <;> rcases hb with rfl | rfl | rfl | rfl <;> first | exact absurd rfl hne | norm_num

end Qampy
