import Verif.Props.Descent

/-!
# Convergence of data aided and decision directed training without noise: C161
-/

namespace Qampy

section generic
variable {K : Type} [RCLike K]

/-- Squared distance of two sets of taps of one output mode. -/
noncomputable def tapDist (w v : List (List K)) (p ntaps : Nat) : ℝ :=
  ∑ k ∈ Finset.range p, ∑ t ∈ Finset.range ntaps, ‖val2 w k t - val2 v k t‖ ^ 2

theorem tapDist_nonneg (w v : List (List K)) (p ntaps : Nat) : 0 ≤ tapDist w v p ntaps :=
  Finset.sum_nonneg fun _ _ => Finset.sum_nonneg fun _ _ => by positivity

theorem windowEnergy_nonneg (E : List (List K)) (p ntaps os i : Nat) : 0 ≤ windowEnergy E p ntaps os i :=
  Finset.sum_nonneg fun _ _ => Finset.sum_nonneg fun _ _ => by positivity

theorem norm_add_sq_mul (a c x : K) : ‖a + c * star x‖ ^ 2 = ‖a‖ ^ 2 + 2 * RCLike.re (c * star (a * x)) + ‖c‖ ^ 2 * ‖x‖ ^ 2 := by
  rw [← RCLike.normSq_eq_def', ← RCLike.normSq_eq_def', RCLike.normSq_add, ← RCLike.normSq_eq_def', ← RCLike.normSq_eq_def', RCLike.normSq_mul]
  have h1 : RCLike.normSq (star x) = RCLike.normSq x := RCLike.normSq_conj x
  have h2 : RCLike.re (a * (starRingEnd K) (c * star x)) = RCLike.re (c * star (a * x)) := by
    rw [← RCLike.conj_re]
    congr 1
    simp only [map_mul, starRingEnd_apply, star_star, star_mul']
    ring
  rw [h1, h2]
  ring

theorem tapDist_tapStep {E w w' v : List (List K)} {p ntaps os i : Nat} {c : K} (h : TapStep E w w' p ntaps os i c) :
    tapDist w' v p ntaps = tapDist w v p ntaps
      - 2 * RCLike.re (c * star (firOutput E v p ntaps os i - firOutput E w p ntaps os i)) + ‖c‖ ^ 2 * windowEnergy E p ntaps os i := by
  have hd : c * star (firOutput E v p ntaps os i - firOutput E w p ntaps os i) =
      - ∑ k ∈ Finset.range p, ∑ t ∈ Finset.range ntaps, c * star ((val2 w k t - val2 v k t) * val2 E k (i * os + t)) := by
    unfold firOutput
    rw [← Finset.sum_sub_distrib, star_sum, Finset.mul_sum, ← Finset.sum_neg_distrib]
    apply Finset.sum_congr rfl
    intro k _
    rw [← Finset.sum_sub_distrib, star_sum, Finset.mul_sum, ← Finset.sum_neg_distrib]
    apply Finset.sum_congr rfl
    intro t _
    simp only [star_sub, star_mul']
    ring
  rw [hd]
  unfold tapDist windowEnergy
  rw [map_neg, map_sum, Finset.mul_sum, mul_neg, sub_neg_eq_add, Finset.mul_sum, ← Finset.sum_add_distrib, ← Finset.sum_add_distrib]
  apply Finset.sum_congr rfl
  intro k hk
  rw [map_sum, Finset.mul_sum, Finset.mul_sum, ← Finset.sum_add_distrib, ← Finset.sum_add_distrib]
  apply Finset.sum_congr rfl
  intro t ht
  rw [h k t (Finset.mem_range.1 hk) (Finset.mem_range.1 ht), ← norm_add_sq_mul]
  congr 2
  ring

/-- The outputs of two sets of taps differ by at most the distance of the taps times the root of the energy in the window. -/
theorem firOutput_dist (E w v : List (List K)) (p ntaps os i : Nat) :
    ‖firOutput E w p ntaps os i - firOutput E v p ntaps os i‖ ^ 2 ≤ tapDist w v p ntaps * windowEnergy E p ntaps os i := by
  unfold firOutput tapDist windowEnergy
  simp only [← Finset.sum_product']
  rw [← Finset.sum_sub_distrib]
  have h1 : ‖∑ q ∈ Finset.range p ×ˢ Finset.range ntaps, (val2 w q.1 q.2 * val2 E q.1 (i * os + q.2) - val2 v q.1 q.2 * val2 E q.1 (i * os + q.2))‖ ≤
      ∑ q ∈ Finset.range p ×ˢ Finset.range ntaps, ‖val2 w q.1 q.2 - val2 v q.1 q.2‖ * ‖val2 E q.1 (i * os + q.2)‖ := by
    refine (norm_sum_le _ _).trans (le_of_eq (Finset.sum_congr rfl fun q _ => ?_))
    rw [← sub_mul, norm_mul]
  refine (pow_le_pow_left₀ (norm_nonneg _) h1 2).trans ?_
  exact Finset.sum_mul_sq_le_sq_mul_sq _ _ _

/-- The error `e` at output `y` pulls towards the wanted output `d` with strength at most `A`. -/
def Pulls (A : ℝ) (d y e : K) : Prop := ‖e‖ ^ 2 ≤ A * RCLike.re (e * star (d - y))

theorem tapDist_pull {E w w' v : List (List K)} {p ntaps os i : Nat} {mu A : ℝ} {e : K} (hmu : 0 ≤ mu) (hA : 0 < A)
    (h : TapStep E w w' p ntaps os i ((mu : K) * e)) (hp : Pulls A (firOutput E v p ntaps os i) (firOutput E w p ntaps os i) e) :
    tapDist w' v p ntaps + mu * (2 / A - mu * windowEnergy E p ntaps os i) * ‖e‖ ^ 2 ≤ tapDist w v p ntaps := by
  rw [tapDist_tapStep h (v := v), mul_assoc, RCLike.re_ofReal_mul, norm_mul, RCLike.norm_ofReal, mul_pow, sq_abs]
  unfold Pulls at hp
  have h1 : ‖e‖ ^ 2 / A ≤ RCLike.re (e * star (firOutput E v p ntaps os i - firOutput E w p ntaps os i)) := by
    rw [div_le_iff₀ hA]
    linarith
  have h2 := mul_le_mul_of_nonneg_left h1 hmu
  have h3 : mu * (2 / A - mu * windowEnergy E p ntaps os i) * ‖e‖ ^ 2 = 2 * (mu * (‖e‖ ^ 2 / A)) - mu ^ 2 * ‖e‖ ^ 2 * windowEnergy E p ntaps os i := by
    field_simp
  rw [h3]
  linarith

theorem converge_fold {errf : K → List K → Nat → Option K} {adapt : ℝ → K → K → ℝ} {adaptive : Bool} {E v : List (List K)}
    {p L os ntaps : Nat} {symbs : List K} {A P D mu0 : ℝ} (hE : Rect E p L) (ha : Shrinks adapt) (hA : 0 < A)
    (l : List Nat) (hl : ∀ i ∈ l, i * os + ntaps ≤ L) (hP : ∀ i ∈ l, windowEnergy E p ntaps os i ≤ P)
    (hpull : ∀ i ∈ l, ∀ w e, tapDist w v p ntaps ≤ D → errf (firOutput E w p ntaps os i) symbs i = some e →
      Pulls A (firOutput E v p ntaps os i) (firOutput E w p ntaps os i) e)
    (hstep : A * (mu0 * P) ≤ 2) {st st' : TrainState K} (hw : Rect st.w p ntaps) (hmu : 0 < st.mu) (hmu0 : st.mu ≤ mu0)
    (hD : tapDist st.w v p ntaps ≤ D) (h : l.foldlM (trainStep errf adapt adaptive E os ntaps symbs) st = some st') :
    Rect st'.w p ntaps ∧ 0 < st'.mu ∧ st'.mu ≤ st.mu ∧ tapDist st'.w v p ntaps ≤ tapDist st.w v p ntaps ∧
    ∃ es, st'.errs = es ++ st.errs ∧ (adaptive = false → st'.mu = st.mu ∧
      tapDist st'.w v p ntaps + st.mu * (2 / A - st.mu * P) * (es.map fun e => ‖e‖ ^ 2).sum ≤ tapDist st.w v p ntaps) := by
  induction l generalizing st with
  | nil =>
    have : st = st' := by simpa using h
    subst this
    exact ⟨hw, hmu, le_rfl, le_rfl, [], rfl, fun _ => ⟨rfl, by simp⟩⟩
  | cons i l ih =>
    rw [List.foldlM_cons, Option.bind_eq_bind, Option.bind_eq_some_iff] at h
    obtain ⟨s, hs, h⟩ := h
    have hi : i * os + ntaps ≤ L := hl i List.mem_cons_self
    obtain ⟨e, g1, g2, g3, g4⟩ := trainStep_tapStep hE hw hi hs
    obtain ⟨x, e', -, -, -, g5, g6⟩ := trainStep_inv hs
    have hee : e' = e := by rw [g2] at g5; exact (List.cons.inj g5).1.symm
    subst hee
    have hsmu : 0 < s.mu ∧ s.mu ≤ st.mu ∧ (adaptive = false → s.mu = st.mu) := by
      rcases g6 with ⟨m1, -⟩ | ⟨m1, -, prev, -, m4⟩
      · rw [m1]; exact ⟨hmu, le_rfl, fun _ => rfl⟩
      · rw [m4]; exact ⟨(ha _ _ _ hmu).1, (ha _ _ _ hmu).2, fun hc => by rw [hc] at m1; cases m1⟩
    have hdist := tapDist_pull hmu.le hA g4 (hpull i List.mem_cons_self _ _ hD g1)
    have hPi := hP i List.mem_cons_self
    have hPnn : 0 ≤ P := (windowEnergy_nonneg E p ntaps os i).trans hPi
    have hfac : st.mu * P ≤ 2 / A := by
      rw [le_div_iff₀ hA]
      have : st.mu * P ≤ mu0 * P := mul_le_mul_of_nonneg_right hmu0 hPnn
      nlinarith
    have hcoef : st.mu * (2 / A - st.mu * P) ≤ st.mu * (2 / A - st.mu * windowEnergy E p ntaps os i) :=
      mul_le_mul_of_nonneg_left (by linarith [mul_le_mul_of_nonneg_left hPi hmu.le]) hmu.le
    have hcoef0 : 0 ≤ st.mu * (2 / A - st.mu * P) := mul_nonneg hmu.le (by linarith)
    have hen := mul_le_mul_of_nonneg_right hcoef (sq_nonneg ‖e'‖)
    have hen0 := mul_nonneg hcoef0 (sq_nonneg ‖e'‖)
    obtain ⟨k1, k2, k3, k4, es, k5, k6⟩ := ih (fun i hi => hl i (List.mem_cons_of_mem _ hi)) (fun i hi => hP i (List.mem_cons_of_mem _ hi))
      (fun i hi => hpull i (List.mem_cons_of_mem _ hi)) g3 hsmu.1 (hsmu.2.1.trans hmu0) (by linarith) h
    refine ⟨k1, k2, k3.trans hsmu.2.1, by linarith, es ++ [e'], by rw [k5, g2]; simp, ?_⟩
    intro had
    have := k6 had
    rw [hsmu.2.2 had] at this
    refine ⟨this.1, ?_⟩
    rw [List.map_append, List.sum_append, mul_add]
    simp only [List.map_cons, List.map_nil, List.sum_cons, List.sum_nil, add_zero]
    linarith [this.2]

theorem converge_mode {errf : K → List K → Nat → Option K} {adapt : ℝ → K → K → ℝ} {adaptive : Bool} {E v w : List (List K)}
    {p L trSyms nIter os ntaps : Nat} {symbs : List K} {A P mu mu0 : ℝ} (hE : Rect E p L) (hw : Rect w p ntaps) (ha : Shrinks adapt) (hA : 0 < A)
    (hT : trSyms = 0 ∨ (trSyms - 1) * os + ntaps ≤ L) (hP : ∀ i < trSyms, windowEnergy E p ntaps os i ≤ P)
    (hpull : ∀ i < trSyms, ∀ w' e, tapDist w' v p ntaps ≤ tapDist w v p ntaps → errf (firOutput E w' p ntaps os i) symbs i = some e →
      Pulls A (firOutput E v p ntaps os i) (firOutput E w' p ntaps os i) e)
    (hmu : 0 < mu) (hmu0 : mu ≤ mu0) (hstep : A * (mu0 * P) ≤ 2) {st : TrainState K}
    (h : trainMode errf adapt adaptive E trSyms nIter os ntaps symbs w mu = some st) :
    Rect st.w p ntaps ∧ 0 < st.mu ∧ st.mu ≤ mu ∧ tapDist st.w v p ntaps ≤ tapDist w v p ntaps ∧
    (adaptive = false → st.mu = mu ∧
      tapDist st.w v p ntaps + mu * (2 / A - mu * P) * (st.errs.map fun e => ‖e‖ ^ 2).sum ≤ tapDist w v p ntaps) := by
  rw [trainMode_eq] at h
  have hmem : ∀ i ∈ stepOrder nIter trSyms, i < trSyms := by
    intro i hi
    obtain ⟨l, hl, hil⟩ := List.mem_flatten.1 hi
    rw [List.eq_of_mem_replicate hl, List.mem_range] at hil
    exact hil
  have hl : ∀ i ∈ stepOrder nIter trSyms, i * os + ntaps ≤ L := by
    intro i hi
    have hi := hmem i hi
    have : i * os ≤ (trSyms - 1) * os := Nat.mul_le_mul_right _ (by omega)
    omega
  have key := converge_fold (v := v) (D := tapDist w v p ntaps) (mu0 := mu0) (st := { w := w, mu := mu, errs := [] }) hE ha hA (stepOrder nIter trSyms) hl
    (fun i hi => hP i (hmem i hi)) (fun i hi => hpull i (hmem i hi)) hstep hw hmu hmu0 (le_refl _) h
  dsimp only at key
  obtain ⟨h1, h2, h3, h4, es, h5, h6⟩ := key
  rw [List.append_nil] at h5
  rw [h5]
  exact ⟨h1, h2, h3, h4, h6⟩

/-- The taps of every mode do not move away from the wanted ones in a whole training run. -/
theorem converge_equaliser {errf : K → List K → Nat → Option K} {adapt : ℝ → K → K → ℝ} {adaptive : Bool} {E : List (List K)}
    {p L trSyms nIter os ntaps : Nat} {symbols : List (List K)} {wx : List (List (List K))} {modes : List Nat} {v : Nat → List (List K)} {A P mu : ℝ}
    (hE : Rect E p L) (hw : ∀ w ∈ wx, Rect w p ntaps) (ha : Shrinks adapt) (hA : 0 < A)
    (hT : trSyms = 0 ∨ (trSyms - 1) * os + ntaps ≤ L) (hP : ∀ i < trSyms, windowEnergy E p ntaps os i ≤ P)
    (hpull : ∀ m w s, wx[m]? = some w → symbols[m]? = some s → ∀ i < trSyms, ∀ w' e, tapDist w' (v m) p ntaps ≤ tapDist w (v m) p ntaps →
      errf (firOutput E w' p ntaps os i) s i = some e → Pulls A (firOutput E (v m) p ntaps os i) (firOutput E w' p ntaps os i) e)
    (hmu : 0 < mu) (hstep : A * (mu * P) ≤ 2) {r : TrainResult K}
    (h : trainEqualiser errf adapt adaptive E trSyms nIter os mu wx ntaps modes symbols = some r) :
    r.wx.length = wx.length ∧ ∀ m w', r.wx[m]? = some w' → ∃ w, wx[m]? = some w ∧ Rect w' p ntaps ∧ tapDist w' (v m) p ntaps ≤ tapDist w (v m) p ntaps := by
  unfold trainEqualiser at h
  have := foldlM_inv (P := fun r : TrainResult K => 0 < r.mu ∧ r.mu ≤ mu ∧ r.wx.length = wx.length ∧ ∀ m w', r.wx[m]? = some w' →
    ∃ w, wx[m]? = some w ∧ Rect w' p ntaps ∧ tapDist w' (v m) p ntaps ≤ tapDist w (v m) p ntaps) ?_ ?_ h
  · exact this.2.2
  · rintro s ⟨hs1, hs2, hs3, hs4⟩ m _ s' hs'
    simp only [Option.bind_eq_bind, Option.bind_eq_some_iff, Option.some.injEq] at hs'
    obtain ⟨w, hw1, sy, hsy, st, hst, rfl⟩ := hs'
    obtain ⟨w0, hw0, hr, hd⟩ := hs4 m w hw1
    obtain ⟨k1, k2, k3, k4, -⟩ := converge_mode (v := v m) (mu0 := mu) hE hr ha hA hT hP
      (fun i hi w' e hwe he => hpull m w0 sy hw0 hsy i hi w' e (hwe.trans hd) he) hs1 hs2 hstep hst
    refine ⟨k2, k3.trans hs2, by simpa using hs3, ?_⟩
    intro m' w' hm'
    dsimp only at hm'
    rw [List.getElem?_set] at hm'
    split_ifs at hm' with hmm hlt
    · subst hmm
      rw [Option.some.injEq] at hm'
      subst hm'
      exact ⟨w0, hw0, k1, k4.trans hd⟩
    · exact hs4 m' w' hm'
  · exact ⟨hmu, le_rfl, rfl, fun m w' hm => ⟨w', hm, hw w' (List.mem_of_getElem? hm), le_rfl⟩⟩

/-- With a fixed step size the energy of all errors of a mode is bounded, whatever the number of iterations. -/
theorem converge_energy {errf : K → List K → Nat → Option K} {adapt : ℝ → K → K → ℝ} {E : List (List K)}
    {p L trSyms nIter os ntaps : Nat} {symbols : List (List K)} {wx : List (List (List K))} {modes : List Nat} {v : Nat → List (List K)} {A P mu : ℝ}
    (hE : Rect E p L) (hw : ∀ w ∈ wx, Rect w p ntaps) (hm : ∀ m ∈ modes, m < p) (hnd : modes.Nodup) (ha : Shrinks adapt) (hA : 0 < A)
    (hT : trSyms = 0 ∨ (trSyms - 1) * os + ntaps ≤ L) (hP : ∀ i < trSyms, windowEnergy E p ntaps os i ≤ P)
    (hpull : ∀ m w s, wx[m]? = some w → symbols[m]? = some s → ∀ i < trSyms, ∀ w' e, tapDist w' (v m) p ntaps ≤ tapDist w (v m) p ntaps →
      errf (firOutput E w' p ntaps os i) s i = some e → Pulls A (firOutput E (v m) p ntaps os i) (firOutput E w' p ntaps os i) e)
    (hmu : 0 < mu) (hstep : A * (mu * P) ≤ 2) {r : TrainResult K}
    (h : trainEqualiser errf adapt false E trSyms nIter os mu wx ntaps modes symbols = some r) :
    ∀ m ∈ modes, ∃ w w' errs, wx[m]? = some w ∧ r.wx[m]? = some w' ∧ r.err[m]? = some errs ∧
      tapDist w' (v m) p ntaps + mu * (2 / A - mu * P) * (errs.map fun e => ‖e‖ ^ 2).sum ≤ tapDist w (v m) p ntaps := by
  intro m hmm
  unfold trainEqualiser at h
  obtain ⟨w, s, st, g1, g2, g3, g4, g5⟩ := trainEqualiser_row h hnd hmm (by simpa using (hE.1 ▸ hm m hmm : m < E.length))
  simp only at g1 g3
  obtain ⟨-, -, -, -, h5⟩ := converge_mode (v := v m) (mu0 := mu) hE (hw w (List.mem_of_getElem? g1)) ha hA hT hP
    (hpull m w s g1 g2) hmu le_rfl hstep g3
  refine ⟨w, st.w, st.errs.reverse, g1, g4, g5, ?_⟩
  rw [List.map_reverse, List.sum_reverse]
  exact (h5 rfl).2

/-- A bound on the energy of a list of errors bounds the number of large ones. -/
theorem count_large {errs : List K} {c B eps : ℝ} (hc : 0 ≤ c) (h : c * (errs.map fun e => ‖e‖ ^ 2).sum ≤ B) :
    c * eps * (errs.countP fun e => decide (eps ≤ ‖e‖ ^ 2)) ≤ B := by
  refine le_trans ?_ h
  rw [mul_assoc]
  apply mul_le_mul_of_nonneg_left _ hc
  clear h
  induction errs with
  | nil => simp
  | cons e l ih =>
    rw [List.countP_cons, List.map_cons, List.sum_cons]
    by_cases he : eps ≤ ‖e‖ ^ 2
    · simp only [he, decide_true, if_true]
      push_cast
      linarith
    · simp only [he, decide_false]
      push_cast
      have := sq_nonneg ‖e‖
      simp only [add_zero]
      linarith

end generic

/-! ### The methods -/

theorem pulls_weighted {A : ℝ} {d y : ℂ} (hre : |d.re| ≤ A) (him : |d.im| ≤ A) : Pulls A d y ⟨(d.re - y.re) * |d.re|, (d.im - y.im) * |d.im|⟩ := by
  unfold Pulls
  rw [← Complex.normSq_eq_norm_sq, Complex.normSq_mk]
  simp only [RCLike.re_to_complex, RCLike.star_def, Complex.mul_re, map_sub, Complex.sub_re, Complex.sub_im, Complex.conj_re, Complex.conj_im]
  have h1 : (d.re - y.re) ^ 2 * |d.re| * |d.re| ≤ (d.re - y.re) ^ 2 * |d.re| * A := mul_le_mul_of_nonneg_left hre (by positivity)
  have h2 : (d.im - y.im) ^ 2 * |d.im| * |d.im| ≤ (d.im - y.im) ^ 2 * |d.im| * A := mul_le_mul_of_nonneg_left him (by positivity)
  nlinarith

theorem pulls_difference (d y : ℂ) : Pulls 1 d y (d - y) := by
  unfold Pulls
  rw [one_mul, RCLike.star_def, RCLike.mul_conj]
  norm_cast

theorem pulls_real {A d y : ℝ} (h : |d| ≤ A) : Pulls A d y ((d - y) * |d|) := by
  unfold Pulls
  rw [Real.norm_eq_abs, sq_abs]
  simp only [RCLike.re_to_real, star_trivial]
  have h1 : (d - y) ^ 2 * |d| * |d| ≤ (d - y) ^ 2 * |d| * A := mul_le_mul_of_nonneg_left h (by positivity)
  nlinarith

/-- The decision is right when the output is closer to a symbol than half the distance to all others (and than the start value of the search). -/
theorem det_right {symbs : List ℂ} {y d : ℂ} {B : ℝ} (hd : d ∈ symbs) (hy : ‖y - d‖ ^ 2 ≤ B) (hB : B < 1000) (hsep : ∀ a ∈ symbs, a ≠ d → 4 * B < ‖a - d‖ ^ 2) :
    (detSymbol y symbs).1 = d := by
  obtain ⟨j, c, h1, h2, h3, -⟩ := C108_nearest_partial y symbs ⟨d, hd, hy.trans_lt hB⟩
  rw [h2]
  by_contra hne
  have hs := hsep c (List.mem_of_getElem? h1) hne
  have h4 := h3 d hd
  have h5 : ‖c - d‖ ≤ ‖y - c‖ + ‖y - d‖ := by
    have : c - d = (y - d) - (y - c) := by ring
    rw [this]
    exact (norm_sub_le _ _).trans (by linarith)
  have h6 : ‖c - d‖ ^ 2 ≤ (2 * ‖y - d‖) ^ 2 := pow_le_pow_left₀ (norm_nonneg _) (by linarith) 2
  nlinarith

/-- The bound on the symbols the step size is weighed with: one for "dd", the largest real or imaginary part for the others. -/
def WeightBound (method : String) (A : ℝ) (symbs : List ℂ) : Prop :=
  match method with
  | "dd" => A = 1
  | _ => 0 < A ∧ ∀ s ∈ symbs, |s.re| ≤ A ∧ |s.im| ≤ A

theorem pulls_data {A : ℝ} {symbs : List ℂ} {i : Nat} {d y e : ℂ} (hw : ∀ s ∈ symbs, |s.re| ≤ A ∧ |s.im| ≤ A) (hd : symbs[i]? = some d)
    (he : sbdDataError y symbs i = some e) : Pulls A d y e := by
  unfold sbdDataError at he
  rw [hd] at he
  simp only [Option.bind_eq_bind, Option.bind_some, Option.some.injEq] at he
  rw [← he]
  obtain ⟨h1, h2⟩ := hw d (List.mem_of_getElem? hd)
  exact pulls_weighted h1 h2

theorem pulls_decision {method : String} (hm : method = "dd" ∨ method = "sbd") {errf : ℂ → List ℂ → Nat → Option ℂ} (hmeth : errorFct method = some errf)
    {A B : ℝ} {symbs : List ℂ} {i : Nat} {d y e : ℂ} (hw : WeightBound method A symbs) (hd : d ∈ symbs) (hy : ‖y - d‖ ^ 2 ≤ B) (hB : B < 1000)
    (hsep : ∀ a ∈ symbs, a ≠ d → 4 * B < ‖a - d‖ ^ 2) (he : errf y symbs i = some e) : Pulls A d y e := by
  have hdet := det_right hd hy hB hsep
  rcases hm with rfl | rfl
  · have : ddlmsError = errf := by simpa [errorFct] using hmeth
    subst this
    simp only [ddlmsError, Option.some.injEq, hdet] at he
    rw [← he, show A = 1 from hw]
    exact pulls_difference d y
  · have : sbdError = errf := by simpa [errorFct] using hmeth
    subst this
    simp only [sbdError, Option.some.injEq, hdet] at he
    rw [← he]
    obtain ⟨h1, h2⟩ := hw.2 d hd
    exact pulls_weighted h1 h2

/-- C161, data aided: without noise, that is when some taps `v m` reproduce the transmitted symbols of every mode, training with "sbd_data" never moves the taps away from them, for every
step size up to two over the largest energy of a window times the largest amplitude of the symbols, with and without adaptive step size. -/
theorem C161_data {adaptive : Bool} {E : List (List ℂ)} {p L trSyms nIter os ntaps : Nat} {symbols : List (List ℂ)} {wx : List (List (List ℂ))} {modes : List Nat}
    {v : Nat → List (List ℂ)} {A P mu : ℝ} {errf : ℂ → List ℂ → Nat → Option ℂ} (hmeth : errorFct "sbd_data" = some errf)
    (hE : Rect E p L) (hw : ∀ w ∈ wx, Rect w p ntaps) (hT : trSyms = 0 ∨ (trSyms - 1) * os + ntaps ≤ L)
    (hP : ∀ i < trSyms, windowEnergy E p ntaps os i ≤ P) (hA : 0 < A) (hsym : ∀ row ∈ symbols, ∀ s ∈ row, |s.re| ≤ A ∧ |s.im| ≤ A)
    (hclean : ∀ m s, symbols[m]? = some s → ∀ i < trSyms, s[i]? = some (firOutput E (v m) p ntaps os i))
    (hmu : 0 < mu) (hstep : A * (mu * P) ≤ 2) {r : TrainResult ℂ}
    (h : trainEqualiser errf adaptStep adaptive E trSyms nIter os mu wx ntaps modes symbols = some r) :
    r.wx.length = wx.length ∧ ∀ m w', r.wx[m]? = some w' → ∃ w, wx[m]? = some w ∧ Rect w' p ntaps ∧ tapDist w' (v m) p ntaps ≤ tapDist w (v m) p ntaps := by
  have : sbdDataError = errf := by simpa [errorFct] using hmeth
  subst this
  exact converge_equaliser hE hw C26_adapt_step.1 hA hT hP
    (fun m w s _ hs i hi w' e _ he => pulls_data (hsym s (List.mem_of_getElem? hs)) (hclean m s hs i hi) he) hmu hstep h

/-- C161, data aided with fixed step size: the energy of all errors of a mode is bounded by the initial distance of the taps, for any number of iterations, so at most a fixed number of errors is
larger than any given bound. -/
theorem C161_data_energy {E : List (List ℂ)} {p L trSyms nIter os ntaps : Nat} {symbols : List (List ℂ)} {wx : List (List (List ℂ))} {modes : List Nat}
    {v : Nat → List (List ℂ)} {A P mu : ℝ} {errf : ℂ → List ℂ → Nat → Option ℂ} (hmeth : errorFct "sbd_data" = some errf)
    (hE : Rect E p L) (hw : ∀ w ∈ wx, Rect w p ntaps) (hm : ∀ m ∈ modes, m < p) (hnd : modes.Nodup) (hT : trSyms = 0 ∨ (trSyms - 1) * os + ntaps ≤ L)
    (hP : ∀ i < trSyms, windowEnergy E p ntaps os i ≤ P) (hA : 0 < A) (hsym : ∀ row ∈ symbols, ∀ s ∈ row, |s.re| ≤ A ∧ |s.im| ≤ A)
    (hclean : ∀ m s, symbols[m]? = some s → ∀ i < trSyms, s[i]? = some (firOutput E (v m) p ntaps os i))
    (hmu : 0 < mu) (hstep : A * (mu * P) ≤ 2) {r : TrainResult ℂ}
    (h : trainEqualiser errf adaptStep false E trSyms nIter os mu wx ntaps modes symbols = some r) :
    ∀ m ∈ modes, ∃ w w' errs, wx[m]? = some w ∧ r.wx[m]? = some w' ∧ r.err[m]? = some errs ∧
      tapDist w' (v m) p ntaps + mu * (2 / A - mu * P) * (errs.map fun e => ‖e‖ ^ 2).sum ≤ tapDist w (v m) p ntaps ∧
      ∀ eps : ℝ, mu * (2 / A - mu * P) * eps * (errs.countP fun e => decide (eps ≤ ‖e‖ ^ 2)) ≤ tapDist w (v m) p ntaps := by
  have : sbdDataError = errf := by simpa [errorFct] using hmeth
  subst this
  intro m hmm
  obtain ⟨w, w', errs, h1, h2, h3, h4⟩ := converge_energy hE hw hm hnd C26_adapt_step.1 hA hT hP
    (fun m w s _ hs i hi w' e _ he => pulls_data (hsym s (List.mem_of_getElem? hs)) (hclean m s hs i hi) he) hmu hstep h m hmm
  refine ⟨w, w', errs, h1, h2, h3, h4, fun eps => count_large (mul_nonneg hmu.le ?_) (by linarith [tapDist_nonneg w' (v m) p ntaps])⟩
  rw [sub_nonneg, le_div_iff₀ hA]
  linarith

/-- C161, decision directed: if the initial taps are so close to taps `v m` giving symbols of the alphabet that every output is closer to its symbol than half the distance to the others, the
decisions stay right during the whole training: the taps do not move away from `v m`, and those returned decide every symbol as `v m` does. -/
theorem C161_decision {method : String} (hmd : method = "dd" ∨ method = "sbd") {adaptive : Bool} {E : List (List ℂ)} {p L trSyms nIter os ntaps : Nat} {symbols : List (List ℂ)}
    {wx : List (List (List ℂ))} {modes : List Nat} {v : Nat → List (List ℂ)} {A P mu : ℝ} {errf : ℂ → List ℂ → Nat → Option ℂ} (hmeth : errorFct method = some errf)
    (hE : Rect E p L) (hw : ∀ w ∈ wx, Rect w p ntaps) (hT : trSyms = 0 ∨ (trSyms - 1) * os + ntaps ≤ L)
    (hP : ∀ i < trSyms, windowEnergy E p ntaps os i ≤ P) (hA : 0 < A) (hsym : ∀ row ∈ symbols, WeightBound method A row)
    (hclean : ∀ m s, symbols[m]? = some s → ∀ i < trSyms, firOutput E (v m) p ntaps os i ∈ s)
    (hclose : ∀ m w s, wx[m]? = some w → symbols[m]? = some s → tapDist w (v m) p ntaps * P < 1000 ∧
      ∀ a ∈ s, ∀ b ∈ s, a ≠ b → 4 * (tapDist w (v m) p ntaps * P) < ‖a - b‖ ^ 2)
    (hmu : 0 < mu) (hstep : A * (mu * P) ≤ 2) {r : TrainResult ℂ}
    (h : trainEqualiser errf adaptStep adaptive E trSyms nIter os mu wx ntaps modes symbols = some r) :
    ∀ m w' s, r.wx[m]? = some w' → symbols[m]? = some s → ∃ w, wx[m]? = some w ∧ Rect w' p ntaps ∧ tapDist w' (v m) p ntaps ≤ tapDist w (v m) p ntaps ∧
      ∀ i < trSyms, (detSymbol (firOutput E w' p ntaps os i) s).1 = firOutput E (v m) p ntaps os i := by
  have hnear : ∀ m w, wx[m]? = some w → ∀ i < trSyms, ∀ w', tapDist w' (v m) p ntaps ≤ tapDist w (v m) p ntaps →
      ‖firOutput E w' p ntaps os i - firOutput E (v m) p ntaps os i‖ ^ 2 ≤ tapDist w (v m) p ntaps * P := by
    intro m w _ i hi w' hd
    refine (firOutput_dist E w' (v m) p ntaps os i).trans ?_
    exact mul_le_mul hd (hP i hi) (windowEnergy_nonneg _ _ _ _ _) (tapDist_nonneg _ _ _ _)
  have key := converge_equaliser (v := v) hE hw C26_adapt_step.1 hA hT hP (fun m w s hwm hs i hi w' e hd he =>
    pulls_decision hmd hmeth (hsym s (List.mem_of_getElem? hs)) (hclean m s hs i hi) (hnear m w hwm i hi w' hd) (hclose m w s hwm hs).1
      (fun a ha hne => (hclose m w s hwm hs).2 a ha _ (hclean m s hs i hi) hne) he) hmu hstep h
  intro m w' s hw' hs
  obtain ⟨w, h1, h2, h3⟩ := key.2 m w' hw'
  exact ⟨w, h1, h2, h3, fun i hi => det_right (hclean m s hs i hi) (hnear m w h1 i hi w' h3) (hclose m w s h1 hs).1
    (fun a ha hne => (hclose m w s h1 hs).2 a ha _ (hclean m s hs i hi) hne)⟩

/-- C161, decision directed with fixed step size: the bound on the error energy and on the number of large errors. -/
theorem C161_decision_energy {method : String} (hmd : method = "dd" ∨ method = "sbd") {E : List (List ℂ)} {p L trSyms nIter os ntaps : Nat} {symbols : List (List ℂ)}
    {wx : List (List (List ℂ))} {modes : List Nat} {v : Nat → List (List ℂ)} {A P mu : ℝ} {errf : ℂ → List ℂ → Nat → Option ℂ} (hmeth : errorFct method = some errf)
    (hE : Rect E p L) (hw : ∀ w ∈ wx, Rect w p ntaps) (hm : ∀ m ∈ modes, m < p) (hnd : modes.Nodup) (hT : trSyms = 0 ∨ (trSyms - 1) * os + ntaps ≤ L)
    (hP : ∀ i < trSyms, windowEnergy E p ntaps os i ≤ P) (hA : 0 < A) (hsym : ∀ row ∈ symbols, WeightBound method A row)
    (hclean : ∀ m s, symbols[m]? = some s → ∀ i < trSyms, firOutput E (v m) p ntaps os i ∈ s)
    (hclose : ∀ m w s, wx[m]? = some w → symbols[m]? = some s → tapDist w (v m) p ntaps * P < 1000 ∧
      ∀ a ∈ s, ∀ b ∈ s, a ≠ b → 4 * (tapDist w (v m) p ntaps * P) < ‖a - b‖ ^ 2)
    (hmu : 0 < mu) (hstep : A * (mu * P) ≤ 2) {r : TrainResult ℂ}
    (h : trainEqualiser errf adaptStep false E trSyms nIter os mu wx ntaps modes symbols = some r) :
    ∀ m ∈ modes, ∃ w w' errs, wx[m]? = some w ∧ r.wx[m]? = some w' ∧ r.err[m]? = some errs ∧
      tapDist w' (v m) p ntaps + mu * (2 / A - mu * P) * (errs.map fun e => ‖e‖ ^ 2).sum ≤ tapDist w (v m) p ntaps ∧
      ∀ eps : ℝ, mu * (2 / A - mu * P) * eps * (errs.countP fun e => decide (eps ≤ ‖e‖ ^ 2)) ≤ tapDist w (v m) p ntaps := by
  intro m hmm
  obtain ⟨w, w', errs, h1, h2, h3, h4⟩ := converge_energy (v := v) hE hw hm hnd C26_adapt_step.1 hA hT hP (fun m w s hwm hs i hi w' e hd he =>
    pulls_decision hmd hmeth (hsym s (List.mem_of_getElem? hs)) (hclean m s hs i hi)
      ((firOutput_dist E w' (v m) p ntaps os i).trans (mul_le_mul hd (hP i hi) (windowEnergy_nonneg _ _ _ _ _) (tapDist_nonneg _ _ _ _))) (hclose m w s hwm hs).1
      (fun a ha hne => (hclose m w s hwm hs).2 a ha _ (hclean m s hs i hi) hne) he) hmu hstep h m hmm
  refine ⟨w, w', errs, h1, h2, h3, h4, fun eps => count_large (mul_nonneg hmu.le ?_) (by linarith [tapDist_nonneg w' (v m) p ntaps])⟩
  rw [sub_nonneg, le_div_iff₀ hA]
  linarith

/-- C161, the real valued data aided method. -/
theorem C161_real {adaptive : Bool} {E : List (List ℝ)} {p L trSyms nIter os ntaps : Nat} {symbols : List (List ℝ)} {wx : List (List (List ℝ))} {modes : List Nat}
    {v : Nat → List (List ℝ)} {A P mu : ℝ} {errf : ℝ → List ℝ → Nat → Option ℝ} (hmeth : errorFctReal "dd_data" = some errf)
    (hE : Rect E p L) (hw : ∀ w ∈ wx, Rect w p ntaps) (hT : trSyms = 0 ∨ (trSyms - 1) * os + ntaps ≤ L)
    (hP : ∀ i < trSyms, windowEnergy E p ntaps os i ≤ P) (hA : 0 < A) (hsym : ∀ row ∈ symbols, ∀ s ∈ row, |s| ≤ A)
    (hclean : ∀ m s, symbols[m]? = some s → ∀ i < trSyms, s[i]? = some (firOutput E (v m) p ntaps os i))
    (hmu : 0 < mu) (hstep : A * (mu * P) ≤ 2) {r : TrainResult ℝ}
    (h : trainEqualiser errf adaptStepReal adaptive E trSyms nIter os mu wx ntaps modes symbols = some r) :
    r.wx.length = wx.length ∧ ∀ m w', r.wx[m]? = some w' → ∃ w, wx[m]? = some w ∧ Rect w' p ntaps ∧ tapDist w' (v m) p ntaps ≤ tapDist w (v m) p ntaps := by
  have : ddDataErrorReal = errf := by simpa [errorFctReal] using hmeth
  subst this
  refine converge_equaliser hE hw C26_adapt_step.2 hA hT hP (fun m w s _ hs i hi w' e _ he => ?_) hmu hstep h
  unfold ddDataErrorReal at he
  rw [hclean m s hs i hi] at he
  simp only [Option.bind_eq_bind, Option.bind_some, Option.some.injEq] at he
  rw [← he]
  exact pulls_real (hsym s (List.mem_of_getElem? hs) _ (List.mem_of_getElem? (hclean m s hs i hi)))

/-- Two QPSK symbols received with twice the amplitude, one tap, initial tap 0.6, step size 0.1: the returned tap is not farther from 0.5 and decides both symbols right, and the errors of any number
of iterations have an energy of at most 1/12 · (initial distance 0.01 over 0.12). -/
example (nIter : Nat) : ∃ r w' errs, trainEqualiser ddlmsError adaptStep false [[⟨2, 2⟩, ⟨2, -2⟩]] 2 nIter 1 (1 / 10) [[[3 / 5]]] 1 [0] [[⟨1, 1⟩, ⟨1, -1⟩, ⟨-1, 1⟩, ⟨-1, -1⟩]] = some r ∧
    r.wx[0]? = some w' ∧ r.err[0]? = some errs ∧ tapDist w' [[1 / 2]] 1 1 ≤ 1 / 100 ∧ (detSymbol (firOutput [[⟨2, 2⟩, ⟨2, -2⟩]] w' 1 1 1 1) [⟨1, 1⟩, ⟨1, -1⟩, ⟨-1, 1⟩, ⟨-1, -1⟩]).1 = ⟨1, -1⟩ ∧
    (errs.map fun e => ‖e‖ ^ 2).sum ≤ 1 / 12 := by
  have hE : Rect ([[⟨2, 2⟩, ⟨2, -2⟩]] : List (List ℂ)) 1 2 := ⟨rfl, by simp⟩
  have hw : ∀ w ∈ ([[[3 / 5]]] : List (List (List ℂ))), Rect w 1 1 := by
    intro w hw
    rw [List.mem_singleton.1 hw]
    exact ⟨rfl, by simp⟩
  have hdist : tapDist ([[3 / 5]] : List (List ℂ)) [[1 / 2]] 1 1 = 1 / 100 := by
    simp only [tapDist, val2, at2, Finset.sum_range_one]
    norm_num
  have hP : ∀ i < 2, windowEnergy ([[⟨2, 2⟩, ⟨2, -2⟩]] : List (List ℂ)) 1 1 1 i ≤ 8 := by
    intro i hi
    simp only [windowEnergy, val2, at2, Finset.sum_range_one, ← Complex.normSq_eq_norm_sq]
    interval_cases i <;> norm_num [Complex.normSq_mk]
  have hout : ∀ i < 2, firOutput ([[⟨2, 2⟩, ⟨2, -2⟩]] : List (List ℂ)) [[1 / 2]] 1 1 1 i = if i = 0 then ⟨1, 1⟩ else ⟨1, -1⟩ := by
    intro i hi
    simp only [firOutput, val2, at2, Finset.sum_range_one]
    interval_cases i <;> norm_num [Complex.ext_iff]
  have hclean : ∀ (m : Nat) (s : List ℂ), [[⟨1, 1⟩, ⟨1, -1⟩, ⟨-1, 1⟩, ⟨-1, -1⟩]][m]? = some s → ∀ i < 2, firOutput ([[⟨2, 2⟩, ⟨2, -2⟩]] : List (List ℂ)) [[1 / 2]] 1 1 1 i ∈ s := by
    intro m s hs i hi
    have hs' := List.mem_of_getElem? hs
    rw [List.mem_singleton.1 hs', hout i hi]
    interval_cases i <;> simp
  have hclose : ∀ (m : Nat) (w : List (List ℂ)) (s : List ℂ), [[[3 / 5]]][m]? = some w → [[⟨1, 1⟩, ⟨1, -1⟩, ⟨-1, 1⟩, ⟨-1, -1⟩]][m]? = some s → tapDist w [[1 / 2]] 1 1 * 8 < 1000 ∧
      ∀ a ∈ s, ∀ b ∈ s, a ≠ b → 4 * (tapDist w [[1 / 2]] 1 1 * 8) < ‖a - b‖ ^ 2 := by
    intro m w s hw' hs
    have hs' := List.mem_of_getElem? hs
    have hw'' := List.mem_of_getElem? hw'
    rw [List.mem_singleton.1 hs', List.mem_singleton.1 hw'', hdist]
    refine ⟨by norm_num, ?_⟩
    intro a ha b hb hab
    rw [← Complex.normSq_eq_norm_sq, Complex.normSq_apply]
    simp only [List.mem_cons, List.not_mem_nil, or_false] at ha hb
    rcases ha with rfl | rfl | rfl | rfl <;> rcases hb with rfl | rfl | rfl | rfl <;> first | exact absurd rfl hab | norm_num
  obtain ⟨r, hr, hl, -⟩ := C27_methods (method := "dd") (adaptive := false) (nIter := nIter) (mu := 1 / 10) (modes := [0]) (trSyms := 2) (os := 1) (errf := ddlmsError) rfl hE (wx := [[[3 / 5]]])
    rfl hw (symbols := [[⟨1, 1⟩, ⟨1, -1⟩, ⟨-1, 1⟩, ⟨-1, -1⟩]]) rfl (by simp) (Or.inr (by norm_num)) (by intro s _; trivial)
  obtain ⟨w, w', errs, h1, h2, h3, h4, -⟩ := C161_decision_energy (method := "dd") (Or.inl rfl) (errf := ddlmsError) rfl (v := fun _ => [[1 / 2]]) (A := 1) (P := 8) hE hw (by simp) (by simp)
    (Or.inr (by norm_num)) hP one_pos (fun _ _ => rfl) hclean hclose (by norm_num) (by norm_num) hr 0 (by simp)
  obtain ⟨w2, g1, -, g3, g4⟩ := C161_decision (method := "dd") (Or.inl rfl) (errf := ddlmsError) rfl (v := fun _ => [[1 / 2]]) (A := 1) (P := 8) hE hw
    (Or.inr (by norm_num)) hP one_pos (fun _ _ => rfl) hclean hclose (by norm_num) (by norm_num) hr 0 w' _ h2 rfl
  have e1 : [[3 / 5]] = w := by simpa using h1
  have e2 : [[3 / 5]] = w2 := by simpa using g1
  subst e1
  subst e2
  rw [hdist] at h4 g3
  refine ⟨r, w', errs, hr, h2, h3, g3, ?_, ?_⟩
  · rw [g4 1 (by norm_num), hout 1 (by norm_num)]
    simp
  · have := tapDist_nonneg w' ([[1 / 2]] : List (List ℂ)) 1 1
    norm_num at h4
    linarith

/-- The same signal trained with the transmitted symbols and adaptive step size, from the tap zero, meets the hypotheses of `C161_data`; the distance to the tap 1/2 stays at most 1/4. -/
example (nIter : Nat) : ∃ r w', trainEqualiser sbdDataError adaptStep true [[⟨2, 2⟩, ⟨2, -2⟩]] 2 nIter 1 (1 / 10) [[[0]]] 1 [0] [[⟨1, 1⟩, ⟨1, -1⟩]] = some r ∧
    r.wx[0]? = some w' ∧ tapDist w' [[1 / 2]] 1 1 ≤ 1 / 4 := by
  have hE : Rect ([[⟨2, 2⟩, ⟨2, -2⟩]] : List (List ℂ)) 1 2 := ⟨rfl, by simp⟩
  have hw : ∀ w ∈ ([[[0]]] : List (List (List ℂ))), Rect w 1 1 := by
    intro w hw
    rw [List.mem_singleton.1 hw]
    exact ⟨rfl, by simp⟩
  have hdist : tapDist ([[0]] : List (List ℂ)) [[1 / 2]] 1 1 = 1 / 4 := by
    simp only [tapDist, val2, at2, Finset.sum_range_one]
    norm_num
  obtain ⟨r, hr, hl, -⟩ := C27_methods (method := "sbd_data") (adaptive := true) (nIter := nIter) (mu := 1 / 10) (modes := [0]) (trSyms := 2) (os := 1) (errf := sbdDataError) rfl hE (wx := [[[0]]])
    rfl hw (symbols := [[⟨1, 1⟩, ⟨1, -1⟩]]) rfl (by simp) (Or.inr (by norm_num)) (by
      intro s hs
      rw [List.mem_singleton.1 hs]
      simp [Usable])
  obtain ⟨-, h2⟩ := C161_data (errf := sbdDataError) rfl (v := fun _ => [[1 / 2]]) (A := 1) (P := 8) hE hw (Or.inr (by norm_num)) (by
      intro i hi
      simp only [windowEnergy, val2, at2, Finset.sum_range_one, ← Complex.normSq_eq_norm_sq]
      interval_cases i <;> norm_num [Complex.normSq_mk]) one_pos (by
      intro row hrow s hs
      rw [List.mem_singleton.1 hrow] at hs
      simp only [List.mem_cons, List.not_mem_nil, or_false] at hs
      rcases hs with rfl | rfl <;> norm_num) (by
      intro m s hs i hi
      have hs' := List.mem_of_getElem? hs
      rw [List.mem_singleton.1 hs']
      simp only [firOutput, val2, at2, Finset.sum_range_one]
      interval_cases i <;> norm_num [Complex.ext_iff]) (by norm_num) (by norm_num) hr
  have hl0 : 0 < r.wx.length := by omega
  obtain ⟨w, g1, -, g3⟩ := h2 0 r.wx[0] (List.getElem?_eq_getElem hl0)
  have e1 : [[0]] = w := by simpa using g1
  subst e1
  exact ⟨r, r.wx[0], hr, List.getElem?_eq_getElem hl0, g3.trans hdist.le⟩

/-- Real valued symbols received with twice the amplitude. -/
example (nIter : Nat) {r : TrainResult ℝ} (hr : trainEqualiser ddDataErrorReal adaptStepReal true [[2, -6]] 2 nIter 1 (1 / 60) [[[0]]] 1 [0] [[1, -3]] = some r) :
    ∀ w', r.wx[0]? = some w' → tapDist w' [[1 / 2]] 1 1 ≤ 1 / 4 := by
  intro w' hw'
  obtain ⟨-, h2⟩ := C161_real (errf := ddDataErrorReal) (p := 1) (L := 2) rfl (v := fun _ => [[1 / 2]]) (A := 3) (P := 36) ⟨rfl, by simp⟩ (by
      intro w hw
      rw [List.mem_singleton.1 hw]
      exact ⟨rfl, by simp⟩) (Or.inr (by norm_num)) (by
      intro i hi
      simp only [windowEnergy, val2, at2, Finset.sum_range_one]
      interval_cases i <;> norm_num) (by norm_num) (by
      intro row hrow s hs
      rw [List.mem_singleton.1 hrow] at hs
      simp only [List.mem_cons, List.not_mem_nil, or_false] at hs
      rcases hs with rfl | rfl <;> norm_num) (by
      intro m s hs i hi
      have hs' := List.mem_of_getElem? hs
      rw [List.mem_singleton.1 hs']
      simp only [firOutput, val2, at2, Finset.sum_range_one]
      interval_cases i <;> norm_num) (by norm_num) (by norm_num) hr
  obtain ⟨w, g1, -, g3⟩ := h2 0 w' hw'
  have e1 : [[0]] = w := by simpa using g1
  subst e1
  refine g3.trans (le_of_eq ?_)
  simp only [tapDist, val2, at2, Finset.sum_range_one]
  norm_num

end Qampy
