import Verif.Props.Training

/-!
C93, C94: what one training step does to the equaliser output, and the whole trajectory of a training run.
-/

namespace Qampy

section generic
variable {K : Type} [RCLike K]

/-- Energy of the samples in the window of symbol `i`. -/
noncomputable def windowEnergy (E : List (List K)) (p ntaps os i : Nat) : ℝ :=
  ∑ k ∈ Finset.range p, ∑ t ∈ Finset.range ntaps, ‖val2 E k (i * os + t)‖ ^ 2

/-- The taps `w'` result from `w` by adding `c` times the conjugate of the samples in the window of symbol `i`. -/
def TapStep (E w w' : List (List K)) (p ntaps os i : Nat) (c : K) : Prop :=
  ∀ k t, k < p → t < ntaps → val2 w' k t = val2 w k t + c * star (val2 E k (i * os + t))

theorem firOutput_tapStep {E w w' : List (List K)} {p ntaps os i : Nat} {c : K} (h : TapStep E w w' p ntaps os i c) :
    firOutput E w' p ntaps os i = firOutput E w p ntaps os i + c * (windowEnergy E p ntaps os i : K) := by
  unfold firOutput windowEnergy
  rw [RCLike.ofReal_sum, Finset.mul_sum, ← Finset.sum_add_distrib]
  apply Finset.sum_congr rfl
  intro k hk
  rw [RCLike.ofReal_sum, Finset.mul_sum, ← Finset.sum_add_distrib]
  apply Finset.sum_congr rfl
  intro t ht
  rw [h k t (Finset.mem_range.1 hk) (Finset.mem_range.1 ht), add_mul]
  congr 1
  have := RCLike.conj_mul (val2 E k (i * os + t))
  rw [mul_assoc, ← starRingEnd_apply, this]
  push_cast
  rfl

theorem trainStep_tapStep {errf : K → List K → Nat → Option K} {adapt : ℝ → K → K → ℝ} {adaptive : Bool} {E : List (List K)}
    {p L os ntaps : Nat} {symbs : List K} {st st' : TrainState K} {i : Nat} (hE : Rect E p L) (hw : Rect st.w p ntaps)
    (hi : i * os + ntaps ≤ L) (h : trainStep errf adapt adaptive E os ntaps symbs st i = some st') :
    ∃ e, errf (firOutput E st.w p ntaps os i) symbs i = some e ∧ st'.errs = e :: st.errs ∧ Rect st'.w p ntaps ∧
      TapStep E st.w st'.w p ntaps os i ((st.mu : K) * e) := by
  obtain ⟨x, e, h1, h2, h3, h4, -⟩ := trainStep_inv h
  rw [applyFilter_window_fir hE hw hi, Option.some.injEq] at h1
  subst h1
  obtain ⟨w', g1, g2, g3⟩ := updateTaps_rect hw (rect_window hE hi) ((st.mu : K) * e)
  rw [g1, Option.some.injEq] at h3
  subst h3
  refine ⟨e, h2, h4, g2, ?_⟩
  intro k t hk ht
  rw [g3 k t hk ht]
  congr 3
  rw [val2, at2_window _ _ _ _ _ ht, val2]

/-- C93: one training step on symbol `i` moves the equaliser output of this symbol by the step size times the error times the energy of the
samples in the window; for all methods, signals, taps and symbols. -/
theorem C93_posterior_output {errf : K → List K → Nat → Option K} {adapt : ℝ → K → K → ℝ} {adaptive : Bool} {E : List (List K)}
    {p L os ntaps : Nat} {symbs : List K} {st st' : TrainState K} {i : Nat} (hE : Rect E p L) (hw : Rect st.w p ntaps)
    (hi : i * os + ntaps ≤ L) (h : trainStep errf adapt adaptive E os ntaps symbs st i = some st') :
    ∃ e, errf (firOutput E st.w p ntaps os i) symbs i = some e ∧
      firOutput E st'.w p ntaps os i = firOutput E st.w p ntaps os i + (st.mu : K) * e * (windowEnergy E p ntaps os i : K) := by
  obtain ⟨e, h1, -, -, h4⟩ := trainStep_tapStep hE hw hi h
  exact ⟨e, h1, firOutput_tapStep h4⟩

/-! ### C94: the trajectory -/

theorem stepOrder_length (nIter trSyms : Nat) : (stepOrder nIter trSyms).length = nIter * trSyms := by
  simp [stepOrder]

theorem stepOrder_getElem? (nIter trSyms j : Nat) (hj : j < nIter * trSyms) : (stepOrder nIter trSyms)[j]? = some (j % trSyms) := by
  unfold stepOrder
  induction nIter generalizing j with
  | zero => simp at hj
  | succ n ih =>
    rw [List.replicate_succ, List.flatten_cons]
    by_cases h : j < trSyms
    · rw [List.getElem?_append_left (by simpa using h), List.getElem?_range h, Nat.mod_eq_of_lt h]
    · rw [List.getElem?_append_right (by simpa using h), List.length_range, ih _ (by rw [Nat.add_mul, Nat.one_mul] at hj; omega), ← Nat.mod_eq_sub_mod (by omega)]

theorem foldlM_trajectory {errf : K → List K → Nat → Option K} {adapt : ℝ → K → K → ℝ} {adaptive : Bool} {E : List (List K)}
    {p L os ntaps : Nat} {symbs : List K} {w : List (List K)} {mu : ℝ} (hE : Rect E p L) (hw : Rect w p ntaps) (l : List Nat)
    (hl : ∀ i ∈ l, i * os + ntaps ≤ L) {st : TrainState K}
    (h : l.foldlM (trainStep errf adapt adaptive E os ntaps symbs) { w := w, mu := mu, errs := [] } = some st) :
    ∃ (W : Nat → List (List K)) (ms : Nat → ℝ) (es : Nat → K), W 0 = w ∧ ms 0 = mu ∧ W l.length = st.w ∧ ms l.length = st.mu ∧
      st.errs = ((List.range l.length).map es).reverse ∧ Rect st.w p ntaps ∧
      ∀ (j i : Nat), l[j]? = some i → errf (firOutput E (W j) p ntaps os i) symbs i = some (es j) ∧
        TapStep E (W j) (W (j + 1)) p ntaps os i ((ms j : K) * es j) ∧
        ms (j + 1) = if adaptive = true ∧ 0 < i ∧ 0 < j then adapt (ms j) (es j) (es (j - 1)) else ms j := by
  induction l using List.reverseRecOn generalizing st with
  | nil =>
    have : ({ w := w, mu := mu, errs := [] } : TrainState K) = st := by simpa using h
    subst this
    exact ⟨fun _ => w, fun _ => mu, fun _ => 0, rfl, rfl, rfl, rfl, rfl, hw, by simp⟩
  | append_singleton l i ih =>
    rw [List.foldlM_append] at h
    simp only [Option.bind_eq_bind, Option.bind_eq_some_iff, List.foldlM_cons, List.foldlM_nil] at h
    obtain ⟨s, hs, s', hs', h⟩ := h
    have : s' = st := by simpa using h
    subst this
    obtain ⟨W, ms, es, h1, h2, h3, h4, h5, h6, h7⟩ := ih (fun i hi => hl i (by simp [hi])) hs
    obtain ⟨e, g1, g2, g3, g4⟩ := trainStep_tapStep hE h6 (hl i (by simp)) hs'
    obtain ⟨x, e', -, -, -, g5, g6⟩ := trainStep_inv hs'
    have hee : e' = e := by rw [g2] at g5; exact (List.cons.inj g5).1.symm
    subst hee
    refine ⟨fun j => if j ≤ l.length then W j else s'.w, fun j => if j ≤ l.length then ms j else s'.mu,
      fun j => if j < l.length then es j else e', by simp [h1], by simp [h2], by simp, by simp, ?_, g3, ?_⟩
    · rw [g2, h5, List.length_append, List.length_singleton, List.range_succ, List.map_append, List.reverse_append]
      simp only [List.map_cons, List.map_nil, lt_irrefl, if_false, List.reverse_singleton, List.singleton_append]
      congr 2
      apply List.map_congr_left
      intro j hj
      rw [if_pos (List.mem_range.1 hj)]
    · intro j i' hj
      by_cases hlt : j < l.length
      · rw [List.getElem?_append_left hlt] at hj
        obtain ⟨k1, k2, k3⟩ := h7 j i' hj
        simp only [if_pos hlt.le, if_pos hlt, if_pos (Nat.succ_le_of_lt hlt), if_pos (show j - 1 < l.length by omega)]
        exact ⟨k1, k2, k3⟩
      · have hjl : j = l.length := by
          have := (List.getElem?_eq_some_iff.1 hj).1
          simp at this
          omega
        subst hjl
        have hii : i = i' := by simpa using hj
        subst hii
        simp only [le_refl, if_true, lt_irrefl, if_false, show ¬ (l.length + 1 ≤ l.length) by omega]
        rw [h3, h4]
        refine ⟨g1, g4, ?_⟩
        rcases g6 with ⟨m1, m2⟩ | ⟨m1, m2, prev, m3, m4⟩
        · rw [if_neg (fun hc => m2 ⟨hc.1, hc.2.1⟩), m1]
        · rw [h5] at m3
          have hl0 : 0 < l.length := by
            rcases Nat.eq_zero_or_pos l.length with h0 | h0
            · rw [h0] at m3; simp at m3
            · exact h0
          rw [if_pos ⟨m1, m2, hl0⟩, if_pos (by omega), m4]
          congr 1
          obtain ⟨n, hn⟩ : ∃ n, l.length = n + 1 := ⟨l.length - 1, by omega⟩
          rw [hn, List.range_succ, List.map_append, List.reverse_append] at m3
          have : es n = prev := by simpa using m3
          rw [hn, ← this]
          rfl

/-- C94: a training run of one mode with `trSyms` symbols and `nIter` iterations is the stochastic gradient recursion: there are taps `W j`
starting with the given and ending with the returned ones, the `j`-th reported error is the error function on the output of `W j` for symbol
`j % trSyms`, the next taps are `W j + mu*err*conj(E)` on the window of this symbol, and the step size is constant, or adapted from the last two
errors on all symbols but the first of an iteration. -/
theorem C94_trajectory {errf : K → List K → Nat → Option K} {adapt : ℝ → K → K → ℝ} {adaptive : Bool} {E : List (List K)}
    {p L trSyms nIter os ntaps : Nat} {symbs : List K} {w : List (List K)} {mu : ℝ} (hE : Rect E p L) (hw : Rect w p ntaps)
    (hT : trSyms = 0 ∨ (trSyms - 1) * os + ntaps ≤ L) {st : TrainState K}
    (h : trainMode errf adapt adaptive E trSyms nIter os ntaps symbs w mu = some st) :
    ∃ (W : Nat → List (List K)) (ms : Nat → ℝ), W 0 = w ∧ ms 0 = mu ∧ W (nIter * trSyms) = st.w ∧ ms (nIter * trSyms) = st.mu ∧
      st.errs.reverse.length = nIter * trSyms ∧
      ∀ (j : Nat) (e : K), st.errs.reverse[j]? = some e →
        errf (firOutput E (W j) p ntaps os (j % trSyms)) symbs (j % trSyms) = some e ∧
        TapStep E (W j) (W (j + 1)) p ntaps os (j % trSyms) ((ms j : K) * e) ∧
        ((adaptive = false ∨ j % trSyms = 0) → ms (j + 1) = ms j) ∧
        ∀ e', adaptive = true → j % trSyms ≠ 0 → st.errs.reverse[j - 1]? = some e' → ms (j + 1) = adapt (ms j) e e' := by
  rw [trainMode_eq] at h
  obtain ⟨W, ms, es, h1, h2, h3, h4, h5, h6, h7⟩ := foldlM_trajectory hE hw _ (by
    intro i hi
    obtain ⟨l, hl, hil⟩ := List.mem_flatten.1 hi
    rw [List.eq_of_mem_replicate hl, List.mem_range] at hil
    have : i * os ≤ (trSyms - 1) * os := Nat.mul_le_mul_right _ (by omega)
    omega) h
  rw [stepOrder_length] at h3 h4 h5
  rw [h5, List.reverse_reverse]
  refine ⟨W, ms, h1, h2, h3, h4, by simp, ?_⟩
  intro j e hj
  have hjl : j < nIter * trSyms := by
    have := (List.getElem?_eq_some_iff.1 hj).1
    simpa using this
  rw [List.getElem?_map, List.getElem?_range hjl, Option.map_some, Option.some.injEq] at hj
  subst hj
  obtain ⟨k1, k2, k3⟩ := h7 j _ (stepOrder_getElem? _ _ _ hjl)
  refine ⟨k1, k2, ?_, ?_⟩
  · rintro (h | h)
    · rw [k3, if_neg (by simp [h])]
    · rw [k3, if_neg (by omega)]
  · intro e' ha hne hj'
    have hj0 : 0 < j := by
      rcases Nat.eq_zero_or_pos j with rfl | h0
      · simp at hne
      · exact h0
    rw [List.getElem?_map, List.getElem?_range (by omega), Option.map_some, Option.some.injEq] at hj'
    rw [k3, if_pos ⟨ha, by omega, hj0⟩, ← hj']

/-- C94 for the whole equaliser with a fixed step size: the statement holds for every trained mode, with its initial taps, symbols, returned taps
and error row. -/
theorem C94_equaliser {errf : K → List K → Nat → Option K} {adapt : ℝ → K → K → ℝ} {E : List (List K)}
    {p L trSyms nIter os ntaps : Nat} {symbols : List (List K)} {wx : List (List (List K))} {mu : ℝ} {modes : List Nat}
    (hE : Rect E p L) (hw : ∀ w ∈ wx, Rect w p ntaps) (hm : ∀ m ∈ modes, m < p) (hnd : modes.Nodup)
    (hT : trSyms = 0 ∨ (trSyms - 1) * os + ntaps ≤ L) {r : TrainResult K}
    (h : trainEqualiser errf adapt false E trSyms nIter os mu wx ntaps modes symbols = some r) :
    ∀ m ∈ modes, ∃ w s errs, wx[m]? = some w ∧ symbols[m]? = some s ∧ r.err[m]? = some errs ∧ errs.length = nIter * trSyms ∧
      ∃ W : Nat → List (List K), W 0 = w ∧ r.wx[m]? = some (W (nIter * trSyms)) ∧
      ∀ (j : Nat) (e : K), errs[j]? = some e → errf (firOutput E (W j) p ntaps os (j % trSyms)) s (j % trSyms) = some e ∧
        TapStep E (W j) (W (j + 1)) p ntaps os (j % trSyms) ((mu : K) * e) := by
  intro m hmm
  unfold trainEqualiser at h
  obtain ⟨w, s, st, g1, g2, g3, g4, g5⟩ := trainEqualiser_row h hnd hmm (by simpa using (hE.1 ▸ hm m hmm : m < E.length))
  simp only at g1 g3
  obtain ⟨W, ms, h1, h2, h3, h4, h5, h6⟩ := C94_trajectory hE (hw w (List.mem_of_getElem? g1)) hT g3
  refine ⟨w, s, st.errs.reverse, g1, g2, g5, h5, W, h1, by rw [h3, g4], ?_⟩
  have hms : ∀ j, j ≤ nIter * trSyms → ms j = mu := by
    intro j
    induction j with
    | zero => intro _; exact h2
    | succ j ih =>
      intro hj
      obtain ⟨-, -, k, -⟩ := h6 j _ (List.getElem?_eq_getElem (by omega))
      rw [k (Or.inl rfl), ih (by omega)]
  intro j e hj
  obtain ⟨k1, k2, -, -⟩ := h6 j e hj
  have := (List.getElem?_eq_some_iff.1 hj).1
  rw [hms j (by omega)] at k2
  exact ⟨k1, k2⟩

end generic

/-! ### C93: the methods -/

theorem cm_step {a R c : ℝ} (ha : 0 ≤ a) (hR : 0 ≤ R) (hc : 0 ≤ c) (h : c * (a * (a + Real.sqrt R)) ≤ 1) :
    0 ≤ 1 + c * (R - a ^ 2) ∧ Real.sqrt R - a * (1 + c * (R - a ^ 2)) = (1 - c * (a * (a + Real.sqrt R))) * (Real.sqrt R - a) := by
  have hs := Real.sq_sqrt hR
  have hs0 := Real.sqrt_nonneg R
  constructor
  · have h1 : c * a ^ 2 ≤ c * (a * (a + Real.sqrt R)) := mul_le_mul_of_nonneg_left (by nlinarith) hc
    nlinarith [mul_nonneg hc hR]
  · have : R = Real.sqrt R ^ 2 := hs.symm
    generalize Real.sqrt R = q at *
    subst this
    ring

/-- C93, `dd`: a step contracts the distance of the output to the symbol decided for it by `1 - mu*P`, `P` the energy in the window. -/
theorem C93_dd {adaptive : Bool} {E : List (List ℂ)} {p L os ntaps : Nat} {symbs : List ℂ} {st st' : TrainState ℂ} {i : Nat}
    (hE : Rect E p L) (hw : Rect st.w p ntaps) (hi : i * os + ntaps ≤ L) {errf : ℂ → List ℂ → Nat → Option ℂ}
    (hmeth : errorFct "dd" = some errf)
    (h : trainStep errf adaptStep adaptive E os ntaps symbs st i = some st') :
    let d := (detSymbol (firOutput E st.w p ntaps os i) symbs).1
    d - firOutput E st'.w p ntaps os i = ((1 - st.mu * windowEnergy E p ntaps os i : ℝ) : ℂ) * (d - firOutput E st.w p ntaps os i) := by
  have : ddlmsError = errf := by simpa [errorFct] using hmeth
  subst this
  obtain ⟨e, h1, h2⟩ := C93_posterior_output hE hw hi h
  simp only [ddlmsError, Option.some.injEq] at h1
  simp only [h2, ← h1]
  simp only [Complex.coe_algebraMap]
  push_cast
  ring

/-- C93, `cma`: for a step size that is not too large the modulus of the output moves towards the reference radius, by the given factor. -/
theorem C93_cma {adaptive : Bool} {E : List (List ℂ)} {p L os ntaps : Nat} {symbs : List ℂ} {st st' : TrainState ℂ} {i : Nat} {R : ℂ}
    (hE : Rect E p L) (hw : Rect st.w p ntaps) (hi : i * os + ntaps ≤ L) {errf : ℂ → List ℂ → Nat → Option ℂ}
    (hmeth : errorFct "cma" = some errf) (hR : symbs[0]? = some R) (hR0 : 0 ≤ R.re) (hmu : 0 ≤ st.mu)
    (hsmall : st.mu * windowEnergy E p ntaps os i *
      (‖firOutput E st.w p ntaps os i‖ * (‖firOutput E st.w p ntaps os i‖ + Real.sqrt R.re)) ≤ 1)
    (h : trainStep errf adaptStep adaptive E os ntaps symbs st i = some st') :
    Real.sqrt R.re - ‖firOutput E st'.w p ntaps os i‖ =
      (1 - st.mu * windowEnergy E p ntaps os i * (‖firOutput E st.w p ntaps os i‖ * (‖firOutput E st.w p ntaps os i‖ + Real.sqrt R.re)))
        * (Real.sqrt R.re - ‖firOutput E st.w p ntaps os i‖) := by
  have : cmaError = errf := by simpa [errorFct] using hmeth
  subst this
  obtain ⟨e, h1, h2⟩ := C93_posterior_output hE hw hi h
  have hP : 0 ≤ windowEnergy E p ntaps os i := Finset.sum_nonneg fun k _ => Finset.sum_nonneg fun t _ => sq_nonneg _
  simp only [cmaError, hR, Option.bind_eq_bind, Option.bind_some, Option.some.injEq] at h1
  set x := firOutput E st.w p ntaps os i
  set P := windowEnergy E p ntaps os i
  obtain ⟨k1, k2⟩ := cm_step (norm_nonneg x) hR0 (mul_nonneg hmu hP) hsmall
  have hx' : firOutput E st'.w p ntaps os i = ((1 + st.mu * P * (R.re - ‖x‖ ^ 2) : ℝ) : ℂ) * x := by
    rw [h2, ← h1]
    simp only [Complex.coe_algebraMap]
    push_cast
    ring
  rw [hx', norm_mul, Complex.norm_real, Real.norm_of_nonneg k1, mul_comm, k2]

/-- C93, `sbd_data`: both quadratures of the distance to the transmitted symbol are contracted. -/
theorem C93_sbd_data {adaptive : Bool} {E : List (List ℂ)} {p L os ntaps : Nat} {symbs : List ℂ} {st st' : TrainState ℂ} {i : Nat} {s : ℂ}
    (hE : Rect E p L) (hw : Rect st.w p ntaps) (hi : i * os + ntaps ≤ L) {errf : ℂ → List ℂ → Nat → Option ℂ}
    (hmeth : errorFct "sbd_data" = some errf) (hs : symbs[i]? = some s)
    (h : trainStep errf adaptStep adaptive E os ntaps symbs st i = some st') :
    (s - firOutput E st'.w p ntaps os i).re =
      (1 - st.mu * windowEnergy E p ntaps os i * |s.re|) * (s - firOutput E st.w p ntaps os i).re ∧
    (s - firOutput E st'.w p ntaps os i).im =
      (1 - st.mu * windowEnergy E p ntaps os i * |s.im|) * (s - firOutput E st.w p ntaps os i).im := by
  have : sbdDataError = errf := by simpa [errorFct] using hmeth
  subst this
  obtain ⟨e, h1, h2⟩ := C93_posterior_output hE hw hi h
  simp only [sbdDataError, hs, Option.bind_eq_bind, Option.bind_some, Option.some.injEq] at h1
  rw [h2, ← h1]
  constructor
  · simp only [Complex.coe_algebraMap, Complex.sub_re, Complex.add_re, Complex.mul_re, Complex.mul_im, Complex.ofReal_re, Complex.ofReal_im]
    ring
  · simp only [Complex.coe_algebraMap, Complex.sub_re, Complex.sub_im, Complex.add_im, Complex.mul_re, Complex.mul_im, Complex.ofReal_re, Complex.ofReal_im]
    ring

/-- C93, `rde`: the modulus of the output moves towards the radius chosen for it. -/
theorem C93_rde {adaptive : Bool} {E : List (List ℂ)} {p L os ntaps : Nat} {symbs : List ℂ} {st st' : TrainState ℂ} {i : Nat}
    (hE : Rect E p L) (hw : Rect st.w p ntaps) (hi : i * os + ntaps ≤ L) {errf : ℂ → List ℂ → Nat → Option ℂ}
    (hmeth : errorFct "rde" = some errf) (hmu : 0 ≤ st.mu) (hR0 : ∀ c ∈ (arraySplit2 symbs).1, 0 ≤ c.re)
    (h : trainStep errf adaptStep adaptive E os ntaps symbs st i = some st') :
    ∃ R, partitionValue (‖firOutput E st.w p ntaps os i‖ ^ 2) ((arraySplit2 symbs).2.map Complex.re) ((arraySplit2 symbs).1.map Complex.re)
        = some R ∧
      (st.mu * windowEnergy E p ntaps os i *
        (‖firOutput E st.w p ntaps os i‖ * (‖firOutput E st.w p ntaps os i‖ + Real.sqrt R)) ≤ 1 →
      Real.sqrt R - ‖firOutput E st'.w p ntaps os i‖ =
        (1 - st.mu * windowEnergy E p ntaps os i * (‖firOutput E st.w p ntaps os i‖ * (‖firOutput E st.w p ntaps os i‖ + Real.sqrt R)))
          * (Real.sqrt R - ‖firOutput E st.w p ntaps os i‖)) := by
  have : rdeError = errf := by simpa [errorFct] using hmeth
  subst this
  obtain ⟨e, h1, h2⟩ := C93_posterior_output hE hw hi h
  have hP : 0 ≤ windowEnergy E p ntaps os i := Finset.sum_nonneg fun k _ => Finset.sum_nonneg fun t _ => sq_nonneg _
  simp only [rdeError, Option.bind_eq_bind, Option.bind_eq_some_iff, Option.some.injEq] at h1
  obtain ⟨R, hR, h1⟩ := h1
  refine ⟨R, hR, fun hsmall => ?_⟩
  have hR0 : 0 ≤ R := by
    unfold partitionValue at hR
    obtain ⟨c, hc, rfl⟩ := List.mem_map.1 (List.mem_of_getElem? hR)
    exact hR0 c hc
  set x := firOutput E st.w p ntaps os i
  set P := windowEnergy E p ntaps os i
  obtain ⟨k1, k2⟩ := cm_step (norm_nonneg x) hR0 (mul_nonneg hmu hP) hsmall
  have hx' : firOutput E st'.w p ntaps os i = ((1 + st.mu * P * (R - ‖x‖ ^ 2) : ℝ) : ℂ) * x := by
    rw [h2, ← h1]
    simp only [Complex.coe_algebraMap]
    push_cast
    ring
  rw [hx', norm_mul, Complex.norm_real, Real.norm_of_nonneg k1, mul_comm, k2]

/-- C93, `mcma`: the magnitude of each quadrature moves towards the reference of this quadrature. -/
theorem C93_mcma {adaptive : Bool} {E : List (List ℂ)} {p L os ntaps : Nat} {symbs : List ℂ} {st st' : TrainState ℂ} {i : Nat} {R : ℂ}
    (hE : Rect E p L) (hw : Rect st.w p ntaps) (hi : i * os + ntaps ≤ L) {errf : ℂ → List ℂ → Nat → Option ℂ}
    (hmeth : errorFct "mcma" = some errf) (hR : symbs[0]? = some R) (hmu : 0 ≤ st.mu)
    (h : trainStep errf adaptStep adaptive E os ntaps symbs st i = some st') :
    let x := firOutput E st.w p ntaps os i
    let x' := firOutput E st'.w p ntaps os i
    let c := st.mu * windowEnergy E p ntaps os i
    (0 ≤ R.re → c * (|x.re| * (|x.re| + Real.sqrt R.re)) ≤ 1 →
      Real.sqrt R.re - |x'.re| = (1 - c * (|x.re| * (|x.re| + Real.sqrt R.re))) * (Real.sqrt R.re - |x.re|)) ∧
    (0 ≤ R.im → c * (|x.im| * (|x.im| + Real.sqrt R.im)) ≤ 1 →
      Real.sqrt R.im - |x'.im| = (1 - c * (|x.im| * (|x.im| + Real.sqrt R.im))) * (Real.sqrt R.im - |x.im|)) := by
  have : mcmaError = errf := by simpa [errorFct] using hmeth
  subst this
  obtain ⟨e, h1, h2⟩ := C93_posterior_output hE hw hi h
  have hP : 0 ≤ windowEnergy E p ntaps os i := Finset.sum_nonneg fun k _ => Finset.sum_nonneg fun t _ => sq_nonneg _
  simp only [mcmaError, hR, Option.bind_eq_bind, Option.bind_some, Option.some.injEq] at h1
  intro x x' c
  have hc : 0 ≤ c := mul_nonneg hmu hP
  have hre : x'.re = (1 + c * (R.re - |x.re| ^ 2)) * x.re := by
    simp only [x', c, h2, ← h1, Complex.coe_algebraMap, Complex.add_re, Complex.mul_re, Complex.mul_im, Complex.ofReal_re, Complex.ofReal_im, sq_abs, x]
    ring
  have him : x'.im = (1 + c * (R.im - |x.im| ^ 2)) * x.im := by
    simp only [x', c, h2, ← h1, Complex.coe_algebraMap, Complex.add_im, Complex.mul_re, Complex.mul_im, Complex.ofReal_re, Complex.ofReal_im, sq_abs, x]
    ring
  constructor
  · intro hR0 hs
    obtain ⟨k1, k2⟩ := cm_step (abs_nonneg x.re) hR0 hc hs
    rw [hre, abs_mul, abs_of_nonneg k1, mul_comm, k2]
  · intro hR0 hs
    obtain ⟨k1, k2⟩ := cm_step (abs_nonneg x.im) hR0 hc hs
    rw [him, abs_mul, abs_of_nonneg k1, mul_comm, k2]

/-- A step of CMA with output 2 and reference radius 1: the hypotheses of `C93_posterior_output` and `C93_cma` hold. -/
example : trainStep cmaError adaptStep false [[2]] 1 1 [1] { w := [[1]], mu := 1 / 100, errs := [] } 0
      = some { w := [[22 / 25]], mu := 1 / 100, errs := [-6] } ∧ Rect ([[2]] : List (List ℂ)) 1 1 ∧
    (1 / 100 : ℝ) * windowEnergy ([[2]] : List (List ℂ)) 1 1 1 0 * (‖(2 : ℂ)‖ * (‖(2 : ℂ)‖ + Real.sqrt 1)) ≤ 1 := by
  refine ⟨?_, by simp [Rect], ?_⟩
  · simp [trainStep, cmaError, applyFilter, updateTaps, window, at2, nextMu]
    norm_num
    rw [show (starRingEnd ℂ) 2 = 2 from Complex.conj_ofNat 2]
    norm_num
  · norm_num [windowEnergy, val2, at2]

/-- A run of `dd` with two symbols as in `C94_trajectory`: the first error is zero, the second changes the tap. -/
example : trainMode ddlmsError adaptStep false [[1, 2]] 2 1 1 1 [1, -1] [[1]] (1 / 8) = some { w := [[3 / 4]], mu := 1 / 8, errs := [-1, 0] } := by
  have h1 : ‖(1 + 1 : ℂ)‖ = 2 := by norm_num
  rw [trainMode_eq]
  simp [stepOrder, List.range_succ, trainStep, ddlmsError, detSymbol, detSymbolGo, applyFilter, updateTaps, window, at2, nextMu, h1]
  norm_num
  rw [show (starRingEnd ℂ) 2 = 2 from Complex.conj_ofNat 2]
  norm_num

end Qampy
