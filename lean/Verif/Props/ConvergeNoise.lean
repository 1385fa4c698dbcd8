import Verif.Props.Converge

/-!
# Data aided training in noise: C170
-/

namespace Qampy

section generic
variable {K : Type} [RCLike K]

/-- The error `e` at output `y` pulls towards the output `t` of the wanted taps with strength at most `A`, up to a disturbance `n`. -/
def NoisyPull (A : ℝ) (t y e : K) (n : ℝ) : Prop := 3 * ‖e‖ ^ 2 ≤ 2 * A * (2 * RCLike.re (e * star (t - y)) + n)

theorem tapDist_noisy {E w w' v : List (List K)} {p ntaps os i : Nat} {mu A n : ℝ} {e : K} (hmu : 0 ≤ mu) (hA : 0 < A)
    (h : TapStep E w w' p ntaps os i ((mu : K) * e)) (hstep : A * (mu * windowEnergy E p ntaps os i) ≤ 1)
    (hp : NoisyPull A (firOutput E v p ntaps os i) (firOutput E w p ntaps os i) e n) :
    tapDist w' v p ntaps + mu / (2 * A) * ‖e‖ ^ 2 ≤ tapDist w v p ntaps + mu * n := by
  rw [tapDist_tapStep h (v := v), mul_assoc, RCLike.re_ofReal_mul, norm_mul, RCLike.norm_ofReal, mul_pow, sq_abs]
  unfold NoisyPull at hp
  obtain ⟨g, hg⟩ : ∃ g, g = RCLike.re (e * star (firOutput E v p ntaps os i - firOutput E w p ntaps os i)) := ⟨_, rfl⟩
  rw [← hg] at hp ⊢
  have h1 : 3 / (2 * A) * ‖e‖ ^ 2 ≤ 2 * g + n := by
    rw [div_mul_eq_mul_div, div_le_iff₀ (by positivity)]
    linarith
  have h2 : mu * windowEnergy E p ntaps os i ≤ 1 / A := by
    rw [le_div_iff₀ hA]
    linarith
  have h3 := mul_le_mul_of_nonneg_left h1 hmu
  have h4 := mul_le_mul_of_nonneg_left h2 (mul_nonneg hmu (sq_nonneg ‖e‖))
  have h5 : mu * (3 / (2 * A) * ‖e‖ ^ 2) = mu / (2 * A) * ‖e‖ ^ 2 + mu * ‖e‖ ^ 2 * (1 / A) := by
    field_simp
    ring
  rw [h5] at h3
  nlinarith

theorem noisy_fold {errf : K → List K → Nat → Option K} {adapt : ℝ → K → K → ℝ} {adaptive : Bool} {E v : List (List K)}
    {p L os ntaps : Nat} {symbs : List K} {A P mu0 : ℝ} {n : Nat → ℝ} (hE : Rect E p L) (ha : Shrinks adapt) (hA : 0 < A)
    (l : List Nat) (hl : ∀ i ∈ l, i * os + ntaps ≤ L) (hP : ∀ i ∈ l, windowEnergy E p ntaps os i ≤ P) (hn : ∀ i ∈ l, 0 ≤ n i)
    (hpull : ∀ i ∈ l, ∀ y e, errf y symbs i = some e → NoisyPull A (firOutput E v p ntaps os i) y e (n i))
    (hstep : A * (mu0 * P) ≤ 1) {st st' : TrainState K} (hw : Rect st.w p ntaps) (hmu : 0 < st.mu) (hmu0 : st.mu ≤ mu0)
    (h : l.foldlM (trainStep errf adapt adaptive E os ntaps symbs) st = some st') :
    Rect st'.w p ntaps ∧ 0 < st'.mu ∧ st'.mu ≤ st.mu ∧ tapDist st'.w v p ntaps ≤ tapDist st.w v p ntaps + st.mu * (l.map n).sum ∧
    ∃ es, st'.errs = es ++ st.errs ∧ (adaptive = false → st'.mu = st.mu ∧
      tapDist st'.w v p ntaps + st.mu / (2 * A) * (es.map fun e => ‖e‖ ^ 2).sum ≤ tapDist st.w v p ntaps + st.mu * (l.map n).sum) := by
  induction l generalizing st with
  | nil =>
    have : st = st' := by simpa using h
    subst this
    exact ⟨hw, hmu, le_rfl, by simp, [], rfl, fun _ => ⟨rfl, by simp⟩⟩
  | cons i l ih =>
    rw [List.foldlM_cons, Option.bind_eq_bind, Option.bind_eq_some_iff] at h
    obtain ⟨s, hs, h⟩ := h
    have hi : i * os + ntaps ≤ L := hl i List.mem_cons_self
    obtain ⟨e, g1, g2, g3, g4⟩ := trainStep_tapStep hE hw hi hs
    obtain ⟨x, e', -, -, -, g5, g6⟩ := trainStep_inv hs
    have hee : e' = e := by rw [g2] at g5; exact (List.cons.inj g5).1.symm
    subst hee
    have hsmu : 0 < s.mu ∧ s.mu ≤ st.mu ∧ (adaptive = false → s.mu = st.mu) := by
      rcases g6 with ⟨m1, -⟩ | ⟨m1, -, prev, -, m4⟩
      · rw [m1]; exact ⟨hmu, le_rfl, fun _ => rfl⟩
      · rw [m4]; exact ⟨(ha _ _ _ hmu).1, (ha _ _ _ hmu).2, fun hc => by rw [hc] at m1; cases m1⟩
    have hPi := hP i List.mem_cons_self
    have hPnn : 0 ≤ P := (windowEnergy_nonneg E p ntaps os i).trans hPi
    have hst : A * (st.mu * windowEnergy E p ntaps os i) ≤ 1 :=
      le_trans (mul_le_mul_of_nonneg_left (mul_le_mul hmu0 hPi (windowEnergy_nonneg _ _ _ _ _) (hmu.le.trans hmu0)) hA.le) hstep
    have hdist := tapDist_noisy hmu.le hA g4 hst (hpull i List.mem_cons_self _ _ g1)
    obtain ⟨k1, k2, k3, k4, es, k5, k6⟩ := ih (fun i hi => hl i (List.mem_cons_of_mem _ hi)) (fun i hi => hP i (List.mem_cons_of_mem _ hi))
      (fun i hi => hn i (List.mem_cons_of_mem _ hi)) (fun i hi => hpull i (List.mem_cons_of_mem _ hi)) g3 hsmu.1 (hsmu.2.1.trans hmu0) h
    have hsum : 0 ≤ (l.map n).sum := List.sum_nonneg (by
      intro x hx
      obtain ⟨j, hj, rfl⟩ := List.mem_map.1 hx
      exact hn j (List.mem_cons_of_mem _ hj))
    have hpos : 0 ≤ st.mu / (2 * A) * ‖e'‖ ^ 2 := by positivity
    have hms := mul_le_mul_of_nonneg_right hsmu.2.1 hsum
    refine ⟨k1, k2, k3.trans hsmu.2.1, ?_, es ++ [e'], by rw [k5, g2]; simp, ?_⟩
    · rw [List.map_cons, List.sum_cons, mul_add]
      linarith
    · intro had
      have := k6 had
      rw [hsmu.2.2 had] at this
      refine ⟨this.1, ?_⟩
      rw [List.map_append, List.sum_append, mul_add, List.map_cons (f := n), List.sum_cons, mul_add]
      simp only [List.map_cons, List.map_nil, List.sum_cons, List.sum_nil, add_zero]
      linarith [this.2]

theorem sum_stepOrder (n : Nat → ℝ) (nIter trSyms : Nat) : ((stepOrder nIter trSyms).map n).sum = nIter * ∑ i ∈ Finset.range trSyms, n i := by
  unfold stepOrder
  induction nIter with
  | zero => simp
  | succ k ih =>
    have : ((List.range trSyms).map n).sum = ∑ i ∈ Finset.range trSyms, n i := rfl
    rw [List.replicate_succ, List.flatten_cons, List.map_append, List.sum_append, ih, this]
    push_cast
    ring

theorem noisy_mode {errf : K → List K → Nat → Option K} {adapt : ℝ → K → K → ℝ} {adaptive : Bool} {E v w : List (List K)}
    {p L trSyms nIter os ntaps : Nat} {symbs : List K} {A P mu mu0 : ℝ} {n : Nat → ℝ} (hE : Rect E p L) (hw : Rect w p ntaps) (ha : Shrinks adapt) (hA : 0 < A)
    (hT : trSyms = 0 ∨ (trSyms - 1) * os + ntaps ≤ L) (hP : ∀ i < trSyms, windowEnergy E p ntaps os i ≤ P) (hn : ∀ i < trSyms, 0 ≤ n i)
    (hpull : ∀ i < trSyms, ∀ y e, errf y symbs i = some e → NoisyPull A (firOutput E v p ntaps os i) y e (n i))
    (hmu : 0 < mu) (hmu0 : mu ≤ mu0) (hstep : A * (mu0 * P) ≤ 1) {st : TrainState K}
    (h : trainMode errf adapt adaptive E trSyms nIter os ntaps symbs w mu = some st) :
    Rect st.w p ntaps ∧ 0 < st.mu ∧ st.mu ≤ mu ∧ tapDist st.w v p ntaps ≤ tapDist w v p ntaps + mu * (nIter * ∑ i ∈ Finset.range trSyms, n i) ∧
    (adaptive = false → st.mu = mu ∧
      tapDist st.w v p ntaps + mu / (2 * A) * (st.errs.map fun e => ‖e‖ ^ 2).sum ≤ tapDist w v p ntaps + mu * (nIter * ∑ i ∈ Finset.range trSyms, n i)) := by
  rw [trainMode_eq] at h
  have hmem : ∀ i ∈ stepOrder nIter trSyms, i < trSyms := by
    intro i hi
    obtain ⟨l, hl, hil⟩ := List.mem_flatten.1 hi
    rw [List.eq_of_mem_replicate hl, List.mem_range] at hil
    exact hil
  have hl : ∀ i ∈ stepOrder nIter trSyms, i * os + ntaps ≤ L := by
    intro i hi
    have hi := hmem i hi
    have : i * os ≤ (trSyms - 1) * os := Nat.mul_le_mul_right _ (by omega)
    omega
  have key := noisy_fold (v := v) (mu0 := mu0) (n := n) (st := { w := w, mu := mu, errs := [] }) hE ha hA (stepOrder nIter trSyms) hl
    (fun i hi => hP i (hmem i hi)) (fun i hi => hn i (hmem i hi)) (fun i hi => hpull i (hmem i hi)) hstep hw hmu hmu0 h
  dsimp only at key
  obtain ⟨h1, h2, h3, h4, es, h5, h6⟩ := key
  rw [List.append_nil] at h5
  rw [sum_stepOrder] at h4 h6
  rw [h5]
  exact ⟨h1, h2, h3, h4, h6⟩

/-- The energy of all errors of a mode with fixed step size. -/
theorem noisy_energy {errf : K → List K → Nat → Option K} {adapt : ℝ → K → K → ℝ} {E : List (List K)}
    {p L trSyms nIter os ntaps : Nat} {symbols : List (List K)} {wx : List (List (List K))} {modes : List Nat} {v : Nat → List (List K)} {A P mu : ℝ} {n : Nat → Nat → ℝ}
    (hE : Rect E p L) (hw : ∀ w ∈ wx, Rect w p ntaps) (hm : ∀ m ∈ modes, m < p) (hnd : modes.Nodup) (ha : Shrinks adapt) (hA : 0 < A)
    (hT : trSyms = 0 ∨ (trSyms - 1) * os + ntaps ≤ L) (hP : ∀ i < trSyms, windowEnergy E p ntaps os i ≤ P) (hn : ∀ m, ∀ i < trSyms, 0 ≤ n m i)
    (hpull : ∀ m s, symbols[m]? = some s → ∀ i < trSyms, ∀ y e, errf y s i = some e → NoisyPull A (firOutput E (v m) p ntaps os i) y e (n m i))
    (hmu : 0 < mu) (hstep : A * (mu * P) ≤ 1) {r : TrainResult K}
    (h : trainEqualiser errf adapt false E trSyms nIter os mu wx ntaps modes symbols = some r) :
    ∀ m ∈ modes, ∃ w w' errs, wx[m]? = some w ∧ r.wx[m]? = some w' ∧ r.err[m]? = some errs ∧
      tapDist w' (v m) p ntaps + mu / (2 * A) * (errs.map fun e => ‖e‖ ^ 2).sum ≤ tapDist w (v m) p ntaps + mu * (nIter * ∑ i ∈ Finset.range trSyms, n m i) := by
  intro m hmm
  unfold trainEqualiser at h
  obtain ⟨w, s, st, g1, g2, g3, g4, g5⟩ := trainEqualiser_row h hnd hmm (by simpa using (hE.1 ▸ hm m hmm : m < E.length))
  simp only at g1 g3
  obtain ⟨-, -, -, -, h5⟩ := noisy_mode (v := v m) (mu0 := mu) (n := n m) hE (hw w (List.mem_of_getElem? g1)) ha hA hT hP (hn m)
    (hpull m s g2) hmu le_rfl hstep g3
  refine ⟨w, st.w, st.errs.reverse, g1, g4, g5, ?_⟩
  rw [List.map_reverse, List.sum_reverse]
  exact (h5 rfl).2

end generic

/-- One real component: error `(d - y) |d|`, wanted output `t`. -/
theorem noisyPull_component {A d y t : ℝ} (h : |d| ≤ A) :
    3 * ((d - y) * |d|) ^ 2 ≤ 2 * A * (2 * ((d - y) * |d| * (t - y)) + 2 * (A * (d - t) ^ 2)) := by
  have hd := abs_nonneg d
  have hA : 0 ≤ A := hd.trans h
  have h1 : ((d - y) * |d|) ^ 2 ≤ A * (|d| * (d - y) ^ 2) := by
    have := mul_le_mul_of_nonneg_right h (mul_nonneg hd (sq_nonneg (d - y)))
    nlinarith
  have h2 : |d| * (d - t) ^ 2 ≤ A * (d - t) ^ 2 := mul_le_mul_of_nonneg_right h (sq_nonneg _)
  have h3 : 0 ≤ |d| * ((d - y) - 2 * (d - t)) ^ 2 := mul_nonneg hd (sq_nonneg _)
  have h4 : 3 * (|d| * (d - y) ^ 2) ≤ 2 * (2 * ((d - y) * |d| * (t - y)) + 2 * (|d| * (d - t) ^ 2)) := by nlinarith
  have h5 := mul_le_mul_of_nonneg_left h4 hA
  have h6 := mul_le_mul_of_nonneg_left h2 hA
  nlinarith

theorem noisyPull_data {A : ℝ} {d y t : ℂ} (hre : |d.re| ≤ A) (him : |d.im| ≤ A) :
    NoisyPull A t y (⟨(d.re - y.re) * |d.re|, (d.im - y.im) * |d.im|⟩ : ℂ) (2 * (A * ‖d - t‖ ^ 2)) := by
  unfold NoisyPull
  rw [← Complex.normSq_eq_norm_sq, ← Complex.normSq_eq_norm_sq, Complex.normSq_mk, Complex.normSq_apply]
  simp only [RCLike.re_to_complex, RCLike.star_def, Complex.mul_re, map_sub, Complex.sub_re, Complex.sub_im, Complex.conj_re, Complex.conj_im]
  have h1 := noisyPull_component (y := y.re) (t := t.re) hre
  have h2 := noisyPull_component (y := y.im) (t := t.im) him
  linarith

/-- C170: training with the transmitted symbols in noise. Whatever taps `v m` are compared with and whatever the difference of their output from the transmitted symbols is (noise, residual
distortion), with a fixed step size of at most one over the largest energy of a window times the largest amplitude of the symbols the mean energy of the errors of a mode is at most four times the
mean energy of that difference (times the squared amplitude), plus the initial distance of the taps, which is divided by the number of steps. -/
theorem C170_data {E : List (List ℂ)} {p L trSyms nIter os ntaps : Nat} {symbols : List (List ℂ)} {wx : List (List (List ℂ))} {modes : List Nat}
    {v : Nat → List (List ℂ)} {A P mu : ℝ} {errf : ℂ → List ℂ → Nat → Option ℂ} (hmeth : errorFct "sbd_data" = some errf)
    (hE : Rect E p L) (hw : ∀ w ∈ wx, Rect w p ntaps) (hm : ∀ m ∈ modes, m < p) (hnd : modes.Nodup) (hT : trSyms = 0 ∨ (trSyms - 1) * os + ntaps ≤ L)
    (hP : ∀ i < trSyms, windowEnergy E p ntaps os i ≤ P) (hA : 0 < A) (hsym : ∀ row ∈ symbols, ∀ s ∈ row, |s.re| ≤ A ∧ |s.im| ≤ A)
    (hmu : 0 < mu) (hstep : A * (mu * P) ≤ 1) {r : TrainResult ℂ}
    (h : trainEqualiser errf adaptStep false E trSyms nIter os mu wx ntaps modes symbols = some r) :
    ∀ m ∈ modes, ∃ w w' errs s, wx[m]? = some w ∧ r.wx[m]? = some w' ∧ r.err[m]? = some errs ∧ symbols[m]? = some s ∧
      (errs.map fun e => ‖e‖ ^ 2).sum + 2 * A / mu * tapDist w' (v m) p ntaps ≤ 2 * A / mu * tapDist w (v m) p ntaps +
        4 * A ^ 2 * (nIter * ∑ i ∈ Finset.range trSyms, ‖s.getD i 0 - firOutput E (v m) p ntaps os i‖ ^ 2) := by
  have : sbdDataError = errf := by simpa [errorFct] using hmeth
  subst this
  intro m hmm
  obtain ⟨w, w', errs, h1, h2, h3, h4⟩ := noisy_energy (v := v) (n := fun m i => 2 * (A * ‖(symbols.getD m []).getD i 0 - firOutput E (v m) p ntaps os i‖ ^ 2)) hE hw hm hnd
    C26_adapt_step.1 hA hT hP (fun m i _ => by positivity) (fun m s hs i hi y e he => by
      unfold sbdDataError at he
      simp only [Option.bind_eq_bind, Option.bind_eq_some_iff, Option.some.injEq] at he
      obtain ⟨d, hd, rfl⟩ := he
      obtain ⟨k1, k2⟩ := hsym s (List.mem_of_getElem? hs) d (List.mem_of_getElem? hd)
      have e1 : symbols.getD m [] = s := by rw [List.getD_eq_getElem?_getD, hs]; rfl
      have e2 : s.getD i 0 = d := by rw [List.getD_eq_getElem?_getD, hd]; rfl
      rw [e1, e2]
      exact noisyPull_data k1 k2) hmu hstep h m hmm
  unfold trainEqualiser at h
  obtain ⟨w0, s, st, g1, g2, g3, g4, g5⟩ := trainEqualiser_row h hnd hmm (by simpa using (hE.1 ▸ hm m hmm : m < E.length))
  refine ⟨w, w', errs, s, h1, h2, h3, g2, ?_⟩
  have e1 : symbols.getD m [] = s := by rw [List.getD_eq_getElem?_getD, g2]; rfl
  rw [e1, ← Finset.mul_sum, ← Finset.mul_sum] at h4
  have h6 := mul_le_mul_of_nonneg_left h4 (show (0 : ℝ) ≤ 2 * A / mu by positivity)
  have h7 : ∀ x : ℝ, 2 * A / mu * (mu / (2 * A) * x) = x := by intro x; field_simp
  rw [mul_add, h7, add_comm] at h6
  refine h6.trans (le_of_eq ?_)
  field_simp
  ring

theorem noisyPull_real {A d y t : ℝ} (h : |d| ≤ A) : NoisyPull A t y ((d - y) * |d|) (2 * (A * ‖d - t‖ ^ 2)) := by
  unfold NoisyPull
  rw [Real.norm_eq_abs, sq_abs, Real.norm_eq_abs, sq_abs]
  simp only [RCLike.re_to_real, star_trivial]
  exact noisyPull_component h

/-- C170, the real valued data aided method. -/
theorem C170_real {E : List (List ℝ)} {p L trSyms nIter os ntaps : Nat} {symbols : List (List ℝ)} {wx : List (List (List ℝ))} {modes : List Nat}
    {v : Nat → List (List ℝ)} {A P mu : ℝ} {errf : ℝ → List ℝ → Nat → Option ℝ} (hmeth : errorFctReal "dd_data" = some errf)
    (hE : Rect E p L) (hw : ∀ w ∈ wx, Rect w p ntaps) (hm : ∀ m ∈ modes, m < p) (hnd : modes.Nodup) (hT : trSyms = 0 ∨ (trSyms - 1) * os + ntaps ≤ L)
    (hP : ∀ i < trSyms, windowEnergy E p ntaps os i ≤ P) (hA : 0 < A) (hsym : ∀ row ∈ symbols, ∀ s ∈ row, |s| ≤ A)
    (hmu : 0 < mu) (hstep : A * (mu * P) ≤ 1) {r : TrainResult ℝ}
    (h : trainEqualiser errf adaptStepReal false E trSyms nIter os mu wx ntaps modes symbols = some r) :
    ∀ m ∈ modes, ∃ w w' errs s, wx[m]? = some w ∧ r.wx[m]? = some w' ∧ r.err[m]? = some errs ∧ symbols[m]? = some s ∧
      (errs.map fun e => ‖e‖ ^ 2).sum + 2 * A / mu * tapDist w' (v m) p ntaps ≤ 2 * A / mu * tapDist w (v m) p ntaps +
        4 * A ^ 2 * (nIter * ∑ i ∈ Finset.range trSyms, ‖s.getD i 0 - firOutput E (v m) p ntaps os i‖ ^ 2) := by
  have : ddDataErrorReal = errf := by simpa [errorFctReal] using hmeth
  subst this
  intro m hmm
  obtain ⟨w, w', errs, h1, h2, h3, h4⟩ := noisy_energy (v := v) (n := fun m i => 2 * (A * ‖(symbols.getD m []).getD i 0 - firOutput E (v m) p ntaps os i‖ ^ 2)) hE hw hm hnd
    C26_adapt_step.2 hA hT hP (fun m i _ => by positivity) (fun m s hs i hi y e he => by
      unfold ddDataErrorReal at he
      simp only [Option.bind_eq_bind, Option.bind_eq_some_iff, Option.some.injEq] at he
      obtain ⟨d, hd, rfl⟩ := he
      have k1 := hsym s (List.mem_of_getElem? hs) d (List.mem_of_getElem? hd)
      have e1 : symbols.getD m [] = s := by rw [List.getD_eq_getElem?_getD, hs]; rfl
      have e2 : s.getD i 0 = d := by rw [List.getD_eq_getElem?_getD, hd]; rfl
      rw [e1, e2]
      exact noisyPull_real k1) hmu hstep h m hmm
  unfold trainEqualiser at h
  obtain ⟨w0, s, st, g1, g2, g3, g4, g5⟩ := trainEqualiser_row h hnd hmm (by simpa using (hE.1 ▸ hm m hmm : m < E.length))
  refine ⟨w, w', errs, s, h1, h2, h3, g2, ?_⟩
  have e1 : symbols.getD m [] = s := by rw [List.getD_eq_getElem?_getD, g2]; rfl
  rw [e1, ← Finset.mul_sum, ← Finset.mul_sum] at h4
  have h6 := mul_le_mul_of_nonneg_left h4 (show (0 : ℝ) ≤ 2 * A / mu by positivity)
  have h7 : ∀ x : ℝ, 2 * A / mu * (mu / (2 * A) * x) = x := by intro x; field_simp
  rw [mul_add, h7, add_comm] at h6
  refine h6.trans (le_of_eq ?_)
  field_simp
  ring

/-- Two QPSK symbols received with twice the amplitude, the second one with noise: from the tap zero, any number of iterations with step size 1/9 gives errors of an energy of at most
4.5 + 0.04 per iteration, the noise in front of the tap 1/2 being 0.01. -/
example (nIter : Nat) : ∃ r errs, trainEqualiser sbdDataError adaptStep false [[⟨2, 2⟩, ⟨11 / 5, -2⟩]] 2 nIter 1 (1 / 9) [[[0]]] 1 [0] [[⟨1, 1⟩, ⟨1, -1⟩]] = some r ∧
    r.err[0]? = some errs ∧ (errs.map fun e => ‖e‖ ^ 2).sum ≤ (9 / 2 : ℝ) + 1 / 25 * (nIter : ℝ) := by
  have hE : Rect ([[⟨2, 2⟩, ⟨11 / 5, -2⟩]] : List (List ℂ)) 1 2 := ⟨rfl, by simp⟩
  have hw : ∀ w ∈ ([[[0]]] : List (List (List ℂ))), Rect w 1 1 := by
    intro w hw
    rw [List.mem_singleton.1 hw]
    exact ⟨rfl, by simp⟩
  have hdist : tapDist ([[0]] : List (List ℂ)) [[1 / 2]] 1 1 = 1 / 4 := by
    simp only [tapDist, val2, at2, Finset.sum_range_one]
    norm_num
  obtain ⟨r, hr, hl, -⟩ := C27_methods (method := "sbd_data") (adaptive := false) (nIter := nIter) (mu := 1 / 9) (modes := [0]) (trSyms := 2) (os := 1) (errf := sbdDataError) rfl hE (wx := [[[0]]])
    rfl hw (symbols := [[⟨1, 1⟩, ⟨1, -1⟩]]) rfl (by simp) (Or.inr (by norm_num)) (by
      intro s hs
      rw [List.mem_singleton.1 hs]
      simp [Usable])
  obtain ⟨w, w', errs, s, h1, h2, h3, h4, h5⟩ := C170_data (errf := sbdDataError) rfl (v := fun _ => [[1 / 2]]) (A := 1) (P := 9) hE hw (by simp) (by simp) (Or.inr (by norm_num)) (by
      intro i hi
      simp only [windowEnergy, val2, at2, Finset.sum_range_one, ← Complex.normSq_eq_norm_sq]
      interval_cases i <;> norm_num [Complex.normSq_mk]) one_pos (by
      intro row hrow s hs
      rw [List.mem_singleton.1 hrow] at hs
      simp only [List.mem_cons, List.not_mem_nil, or_false] at hs
      rcases hs with rfl | rfl <;> norm_num) (by norm_num) (by norm_num) hr 0 (by simp)
  have e1 : [[0]] = w := by simpa using h1
  have e2 : [⟨1, 1⟩, ⟨1, -1⟩] = s := by simpa using h4
  subst e1
  subst e2
  refine ⟨r, errs, hr, h3, ?_⟩
  have h6 := tapDist_nonneg w' ([[1 / 2]] : List (List ℂ)) 1 1
  have h7 : ∑ i ∈ Finset.range 2, ‖([⟨1, 1⟩, ⟨1, -1⟩] : List ℂ).getD i 0 - firOutput ([[⟨2, 2⟩, ⟨11 / 5, -2⟩]] : List (List ℂ)) [[1 / 2]] 1 1 1 i‖ ^ 2 = 1 / 100 := by
    rw [Finset.sum_range_succ, Finset.sum_range_one]
    simp only [firOutput, val2, at2, Finset.sum_range_one, ← Complex.normSq_eq_norm_sq, Complex.normSq_apply]
    norm_num
  rw [h7, hdist] at h5
  norm_num at h5
  linarith

/-- Real valued symbols received with twice the amplitude, the second one with noise. -/
example (nIter : Nat) {r : TrainResult ℝ} (hr : trainEqualiser ddDataErrorReal adaptStepReal false [[2, -5]] 2 nIter 1 (1 / 75) [[[0]]] 1 [0] [[1, -3]] = some r) :
    ∃ errs, r.err[0]? = some errs ∧ (errs.map fun e => ‖e‖ ^ 2).sum ≤ (225 / 2 : ℝ) + 9 * (nIter : ℝ) := by
  obtain ⟨w, w', errs, s, h1, h2, h3, h4, h5⟩ := C170_real (errf := ddDataErrorReal) (p := 1) (L := 2) rfl (v := fun _ => [[1 / 2]]) (A := 3) (P := 25) ⟨rfl, by simp⟩ (by
      intro w hw
      rw [List.mem_singleton.1 hw]
      exact ⟨rfl, by simp⟩) (by simp) (by simp) (Or.inr (by norm_num)) (by
      intro i hi
      simp only [windowEnergy, val2, at2, Finset.sum_range_one]
      interval_cases i <;> norm_num) (by norm_num) (by
      intro row hrow s hs
      rw [List.mem_singleton.1 hrow] at hs
      simp only [List.mem_cons, List.not_mem_nil, or_false] at hs
      rcases hs with rfl | rfl <;> norm_num) (by norm_num) (by norm_num) hr 0 (by simp)
  have e1 : [[0]] = w := by simpa using h1
  have e2 : [1, -3] = s := by simpa using h4
  subst e1
  subst e2
  refine ⟨errs, h3, ?_⟩
  have h6 := tapDist_nonneg w' ([[1 / 2]] : List (List ℝ)) 1 1
  have h7 : ∑ i ∈ Finset.range 2, ‖([1, -3] : List ℝ).getD i 0 - firOutput ([[2, -5]] : List (List ℝ)) [[1 / 2]] 1 1 1 i‖ ^ 2 = 1 / 4 := by
    rw [Finset.sum_range_succ, Finset.sum_range_one]
    simp only [firOutput, val2, at2, Finset.sum_range_one, Real.norm_eq_abs, sq_abs]
    norm_num
  have hdist : tapDist ([[0]] : List (List ℝ)) [[1 / 2]] 1 1 = 1 / 4 := by
    simp only [tapDist, val2, at2, Finset.sum_range_one]
    norm_num
  rw [h7, hdist] at h5
  norm_num at h5
  simp only [Real.norm_eq_abs, sq_abs]
  linarith

end Qampy
