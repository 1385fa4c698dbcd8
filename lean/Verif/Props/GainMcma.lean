import Verif.Props.Gain

/-!
C177: the modified constant modulus algorithm acquires gain and carrier phase of a QPSK signal.
-/

namespace Qampy

/-- The source sends the four points of QPSK (up to a common factor, which is part of the weights). -/
def QuarterSource (c : Nat → ℂ) (n : Nat) : Prop := ∀ i < n, c i = 1 ∨ c i = Complex.I ∨ c i = -1 ∨ c i = -Complex.I

/-- The error of `mcma` with the same constant for both components commutes with quarter turns. -/
theorem mcmaError_quarter {c y z : ℂ} {R : ℝ} {s : List ℂ} {i : Nat} (hs : s[0]? = some z) (hre : z.re = R) (him : z.im = R) (hc : c = 1 ∨ c = Complex.I ∨ c = -1 ∨ c = -Complex.I) :
    mcmaError (c * y) s i = some (c * ⟨(R - y.re ^ 2) * y.re, (R - y.im ^ 2) * y.im⟩) := by
  simp only [mcmaError, hs, Option.bind_eq_bind, Option.bind_some, hre, him, Option.some.injEq]
  rcases hc with rfl | rfl | rfl | rfl <;> apply Complex.ext <;> simp

/-- One step: the two components of the response move on their own. -/
theorem mcma_trainStep {adapt : ℝ → ℂ → ℂ → ℝ} {adaptive : Bool} {E : List (List ℂ)} {c : Nat → ℂ} {h : Nat → Nat → ℂ}
    {p L os ntaps n : Nat} {symbs : List ℂ} {z : ℂ} {R : ℝ} (hz : symbs[0]? = some z) (hre : z.re = R) (him : z.im = R) (hE : Rect E p L) (hs : OneSource E c h p ntaps os n) (hq : QuarterSource c n)
    {i : Nat} (hi : i < n) (hiL : i * os + ntaps ≤ L) {st st' : TrainState ℂ} (hw : Rect st.w p ntaps) (hst : trainStep mcmaError adapt adaptive E os ntaps symbs st i = some st') :
    Rect st'.w p ntaps ∧
    (response st'.w h p ntaps).re = (1 + st.mu * sourcePower h p ntaps * (R - (response st.w h p ntaps).re ^ 2)) * (response st.w h p ntaps).re ∧
    (response st'.w h p ntaps).im = (1 + st.mu * sourcePower h p ntaps * (R - (response st.w h p ntaps).im ^ 2)) * (response st.w h p ntaps).im := by
  obtain ⟨e, h1, h2, h3, h4⟩ := trainStep_tapStep hE hw hiL hst
  obtain ⟨y, hy⟩ : ∃ y, y = response st.w h p ntaps := ⟨_, rfl⟩
  rw [firOutput_oneSource hs hi, ← hy, mcmaError_quarter hz hre him (hq i hi), Option.some.injEq] at h1
  have hout := firOutput_tapStep h4
  rw [firOutput_oneSource hs hi, firOutput_oneSource hs hi, windowEnergy_oneSource hs hi, ← hy, ← h1] at hout
  have hc0 : c i ≠ 0 := by
    intro h0
    have hc := (hs i hi).1
    rw [h0, norm_zero] at hc
    exact zero_ne_one hc
  have key : response st'.w h p ntaps = y + ((st.mu * sourcePower h p ntaps : ℝ) : ℂ) * ⟨(R - y.re ^ 2) * y.re, (R - y.im ^ 2) * y.im⟩ := by
    apply mul_left_cancel₀ hc0
    rw [hout, Complex.ofReal_mul]
    simp only [Complex.coe_algebraMap]
    ring
  rw [← hy, key]
  refine ⟨h3, ?_, ?_⟩
  · rw [Complex.add_re, Complex.re_ofReal_mul]
    ring
  · rw [Complex.add_im, Complex.im_ofReal_mul]
    ring

/-- The recursion of one component over a list of steps with fixed factor. -/
theorem quad_step {b R x m : ℝ} (hb : 0 < b) (hm : 0 < m) (hmR : m ≤ R) (hbR : b * R ≤ 1 / 2) (hmx : m ≤ x ^ 2) (hx : 3 * (b * x ^ 2) ≤ 1 + b * R) :
    0 < 1 + b * (R - x ^ 2) ∧ |((1 + b * (R - x ^ 2)) * x) ^ 2 - R| ≤ (1 - b * m) * |x ^ 2 - R| ∧ m ≤ ((1 + b * (R - x ^ 2)) * x) ^ 2 ∧
      3 * (b * ((1 + b * (R - x ^ 2)) * x) ^ 2) ≤ 1 + b * R := by
  obtain ⟨k1, k2, k3, k4⟩ := gain_step hb hm hmR hbR hmx hx
  have : ((1 + b * (R - x ^ 2)) * x) ^ 2 = x ^ 2 * (1 + b * (R - x ^ 2)) ^ 2 := by ring
  rw [this]
  exact ⟨k1, k2, k3, k4⟩

theorem mcma_fold {adapt : ℝ → ℂ → ℂ → ℝ} {E : List (List ℂ)} {c : Nat → ℂ} {h : Nat → Nat → ℂ}
    {p L os ntaps n : Nat} {symbs : List ℂ} {z : ℂ} {R m : ℝ} (hz : symbs[0]? = some z) (hre : z.re = R) (him : z.im = R) (hE : Rect E p L) (hs : OneSource E c h p ntaps os n) (hq : QuarterSource c n)
    (hP : 0 < sourcePower h p ntaps) (hm : 0 < m) (hmR : m ≤ R) (l : List Nat) (hl : ∀ i ∈ l, i < n ∧ i * os + ntaps ≤ L)
    {st st' : TrainState ℂ} (hw : Rect st.w p ntaps) (hmu : 0 < st.mu) (hbR : st.mu * sourcePower h p ntaps * R ≤ 1 / 2)
    (hr1 : m ≤ (response st.w h p ntaps).re ^ 2) (hr2 : 3 * (st.mu * sourcePower h p ntaps * (response st.w h p ntaps).re ^ 2) ≤ 1 + st.mu * sourcePower h p ntaps * R)
    (hi1 : m ≤ (response st.w h p ntaps).im ^ 2) (hi2 : 3 * (st.mu * sourcePower h p ntaps * (response st.w h p ntaps).im ^ 2) ≤ 1 + st.mu * sourcePower h p ntaps * R)
    (hst : l.foldlM (trainStep mcmaError adapt false E os ntaps symbs) st = some st') :
    (∃ a b : ℝ, 0 < a ∧ 0 < b ∧ (response st'.w h p ntaps).re = a * (response st.w h p ntaps).re ∧ (response st'.w h p ntaps).im = b * (response st.w h p ntaps).im) ∧
    |(response st'.w h p ntaps).re ^ 2 - R| ≤ (1 - st.mu * sourcePower h p ntaps * m) ^ l.length * |(response st.w h p ntaps).re ^ 2 - R| ∧
    |(response st'.w h p ntaps).im ^ 2 - R| ≤ (1 - st.mu * sourcePower h p ntaps * m) ^ l.length * |(response st.w h p ntaps).im ^ 2 - R| := by
  induction l generalizing st with
  | nil =>
    have : st = st' := by simpa using hst
    subst this
    exact ⟨⟨1, 1, one_pos, one_pos, by simp, by simp⟩, by simp, by simp⟩
  | cons i l ih =>
    rw [List.foldlM_cons, Option.bind_eq_bind, Option.bind_eq_some_iff] at hst
    obtain ⟨s, hs1, hst⟩ := hst
    obtain ⟨hin, hiL⟩ := hl i List.mem_cons_self
    obtain ⟨g1, g2, g3⟩ := mcma_trainStep hz hre him hE hs hq hin hiL hw hs1
    have hsmu : s.mu = st.mu := by
      obtain ⟨x, e', -, -, -, -, g6⟩ := trainStep_inv hs1
      rcases g6 with ⟨m1, -⟩ | ⟨m1, -⟩
      · exact m1
      · cases m1
    have hb := mul_pos hmu hP
    obtain ⟨k1, k2, k3, k4⟩ := quad_step hb hm hmR hbR hr1 hr2
    obtain ⟨j1, j2, j3, j4⟩ := quad_step hb hm hmR hbR hi1 hi2
    rw [← g2] at k2 k3 k4
    rw [← g3] at j2 j3 j4
    have hIH := ih (fun j hj => hl j (List.mem_cons_of_mem _ hj)) g1 (by rw [hsmu]; exact hmu)
    rw [hsmu] at hIH
    obtain ⟨⟨a, b, ha, hb', r1, r2⟩, r3, r4⟩ := hIH hbR k3 k4 j3 j4 hst
    have hb1 : 0 ≤ 1 - st.mu * sourcePower h p ntaps * m := by
      have : st.mu * sourcePower h p ntaps * m ≤ st.mu * sourcePower h p ntaps * R := mul_le_mul_of_nonneg_left hmR hb.le
      linarith
    refine ⟨⟨_, _, mul_pos ha k1, mul_pos hb' j1, by rw [r1, g2]; ring, by rw [r2, g3]; ring⟩, ?_, ?_⟩
    · rw [List.length_cons]
      calc _ ≤ _ := r3
        _ ≤ _ := mul_le_mul_of_nonneg_left k2 (pow_nonneg hb1 _)
        _ = _ := by ring
    · rw [List.length_cons]
      calc _ ≤ _ := r4
        _ ≤ _ := mul_le_mul_of_nonneg_left j2 (pow_nonneg hb1 _)
        _ = _ := by ring

/-- From the power of a component to the component. -/
theorem abs_sub_sign {x R δ : ℝ} (hR : 0 < R) (hx : x ≠ 0) (h : |x ^ 2 - R| ≤ δ) : |x - SignType.sign x * Real.sqrt R| ≤ δ / Real.sqrt R := by
  have hq : 0 < Real.sqrt R := Real.sqrt_pos.2 hR
  rw [le_div_iff₀ hq]
  have hsq : Real.sqrt R ^ 2 = R := Real.sq_sqrt hR.le
  have : |x ^ 2 - R| = |(|x| - Real.sqrt R)| * (|x| + Real.sqrt R) := by
    rw [← abs_of_pos (by positivity : 0 < |x| + Real.sqrt R), ← abs_mul]
    congr 1
    nlinarith [sq_abs x]
  have h2 : |x - SignType.sign x * Real.sqrt R| = |(|x| - Real.sqrt R)| := by
    rcases lt_or_gt_of_ne hx with hn | hp
    · rw [sign_neg hn, abs_of_neg hn, ← abs_neg]
      congr 1
      simp
      ring
    · rw [sign_pos hp, abs_of_pos hp]
      simp
  rw [h2]
  have h3 : |(|x| - Real.sqrt R)| * Real.sqrt R ≤ |(|x| - Real.sqrt R)| * (|x| + Real.sqrt R) := mul_le_mul_of_nonneg_left (by linarith [abs_nonneg x]) (abs_nonneg _)
  linarith

/-- C177: for a QPSK source seen with any weights (gain, carrier phase, polarisation rotation) in any number of modes and taps, `mcma` with fixed step size converges geometrically to the QPSK point in
whose quadrant the response starts: gain and carrier phase are both acquired, up to a quarter turn, if neither component of the response is zero at the start. -/
theorem C177_mcma {E : List (List ℂ)} {c : Nat → ℂ} {h : Nat → Nat → ℂ} {p L os ntaps trSyms nIter : Nat} {symbols : List (List ℂ)} {wx : List (List (List ℂ))} {modes : List Nat} {R mu : ℝ}
    {errf : ℂ → List ℂ → Nat → Option ℂ} (hmeth : errorFct "mcma" = some errf) (hR : ∀ s ∈ symbols, ∃ z, s[0]? = some z ∧ z.re = R ∧ z.im = R) (hE : Rect E p L)
    (hwx : ∀ w ∈ wx, Rect w p ntaps) (hm : ∀ m ∈ modes, m < p) (hnd : modes.Nodup)
    (hT : trSyms = 0 ∨ (trSyms - 1) * os + ntaps ≤ L) (hs : OneSource E c h p ntaps os trSyms) (hq : QuarterSource c trSyms)
    (hP : 0 < sourcePower h p ntaps) (hR0 : 0 < R) (hmu : 0 < mu) (hbR : mu * sourcePower h p ntaps * R ≤ 1 / 2)
    (h0 : ∀ w ∈ wx, (response w h p ntaps).re ≠ 0 ∧ (response w h p ntaps).im ≠ 0 ∧ 3 * (mu * sourcePower h p ntaps * (response w h p ntaps).re ^ 2) ≤ 1 + mu * sourcePower h p ntaps * R ∧
      3 * (mu * sourcePower h p ntaps * (response w h p ntaps).im ^ 2) ≤ 1 + mu * sourcePower h p ntaps * R)
    {r : TrainResult ℂ} (hr : trainEqualiser errf adaptStep false E trSyms nIter os mu wx ntaps modes symbols = some r) :
    ∀ m ∈ modes, ∃ w w', wx[m]? = some w ∧ r.wx[m]? = some w' ∧
      ∀ q, q = 1 - mu * sourcePower h p ntaps * min R (min ((response w h p ntaps).re ^ 2) ((response w h p ntaps).im ^ 2)) → 0 ≤ q ∧ q < 1 ∧
      |(response w' h p ntaps).re - SignType.sign (response w h p ntaps).re * Real.sqrt R| ≤ q ^ (nIter * trSyms) * |(response w h p ntaps).re ^ 2 - R| / Real.sqrt R ∧
      |(response w' h p ntaps).im - SignType.sign (response w h p ntaps).im * Real.sqrt R| ≤ q ^ (nIter * trSyms) * |(response w h p ntaps).im ^ 2 - R| / Real.sqrt R := by
  have : mcmaError = errf := by simpa [errorFct] using hmeth
  subst this
  intro m hmm
  unfold trainEqualiser at hr
  obtain ⟨w, s, st, g1, g2, g3, g4, g5⟩ := trainEqualiser_row hr hnd hmm (by simpa using (hE.1 ▸ hm m hmm : m < E.length))
  simp only at g1 g3
  have hwm := List.mem_of_getElem? g1
  obtain ⟨z, hz, hzr, hzi⟩ := hR s (List.mem_of_getElem? g2)
  obtain ⟨n1, n2, n3, n4⟩ := h0 w hwm
  rw [trainMode_eq] at g3
  have hl : ∀ i ∈ stepOrder nIter trSyms, i < trSyms ∧ i * os + ntaps ≤ L := by
    intro i hi
    have hi := stepOrder_mem hi
    refine ⟨hi, ?_⟩
    have : i * os ≤ (trSyms - 1) * os := Nat.mul_le_mul_right _ (by omega)
    omega
  have hpr : 0 < (response w h p ntaps).re ^ 2 := by positivity
  have hpi : 0 < (response w h p ntaps).im ^ 2 := by positivity
  refine ⟨w, st.w, g1, g4, ?_⟩
  rintro q hqd
  obtain ⟨μ, hμ⟩ : ∃ μ, μ = min R (min ((response w h p ntaps).re ^ 2) ((response w h p ntaps).im ^ 2)) := ⟨_, rfl⟩
  have hμ0 : 0 < μ := by rw [hμ]; exact lt_min hR0 (lt_min hpr hpi)
  have hμR : μ ≤ R := by rw [hμ]; exact min_le_left _ _
  have hμr : μ ≤ (response w h p ntaps).re ^ 2 := by rw [hμ]; exact (min_le_right _ _).trans (min_le_left _ _)
  have hμi : μ ≤ (response w h p ntaps).im ^ 2 := by rw [hμ]; exact (min_le_right _ _).trans (min_le_right _ _)
  rw [← hμ] at hqd
  obtain ⟨⟨a, b, ha, hb, f1, f2⟩, f3, f4⟩ := mcma_fold hz hzr hzi hE hs hq hP hμ0 hμR (stepOrder nIter trSyms) hl (st := { w := w, mu := mu, errs := [] }) (hwx w hwm) hmu hbR hμr n3 hμi n4 g3
  dsimp only at f1 f2 f3 f4
  rw [stepOrder_length, ← hqd] at f3 f4
  have hsgn : ∀ {a x : ℝ}, 0 < a → SignType.sign (a * x) = SignType.sign x := by
    intro a x ha
    rw [sign_mul, sign_pos ha, one_mul]
  have k1 := abs_sub_sign hR0 (by rw [f1]; exact mul_ne_zero ha.ne' n1) f3
  have k2 := abs_sub_sign hR0 (by rw [f2]; exact mul_ne_zero hb.ne' n2) f4
  have e1 : SignType.sign (response st.w h p ntaps).re = SignType.sign (response w h p ntaps).re := by rw [f1, hsgn ha]
  have e2 : SignType.sign (response st.w h p ntaps).im = SignType.sign (response w h p ntaps).im := by rw [f2, hsgn hb]
  rw [e1] at k1
  rw [e2] at k2
  have hbpos := mul_pos (mul_pos hmu hP) hμ0
  have hble : mu * sourcePower h p ntaps * μ ≤ mu * sourcePower h p ntaps * R := mul_le_mul_of_nonneg_left hμR (mul_pos hmu hP).le
  exact ⟨by linarith, by linarith, k1, k2⟩

/-- C177 for the equalised signal: after the training the output of every symbol is close to one of the four points `(±1 ± i)·√R`, turned as the source symbol. -/
theorem C177_output {E w' : List (List ℂ)} {c : Nat → ℂ} {h : Nat → Nat → ℂ} {p os ntaps n : Nat} (hs : OneSource E c h p ntaps os n) {R δ : ℝ} {a b : ℝ}
    (h1 : |(response w' h p ntaps).re - a * Real.sqrt R| ≤ δ) (h2 : |(response w' h p ntaps).im - b * Real.sqrt R| ≤ δ) {i : Nat} (hi : i < n) :
    ‖firOutput E w' p ntaps os i - c i * (Real.sqrt R * ⟨a, b⟩)‖ ≤ 2 * δ := by
  rw [firOutput_oneSource hs hi, ← mul_sub, norm_mul, (hs i hi).1, one_mul]
  refine (Complex.norm_le_abs_re_add_abs_im _).trans ?_
  have e1 : (response w' h p ntaps - ((Real.sqrt R : ℝ) : ℂ) * ⟨a, b⟩).re = (response w' h p ntaps).re - a * Real.sqrt R := by
    rw [Complex.sub_re, Complex.re_ofReal_mul]
    ring
  have e2 : (response w' h p ntaps - ((Real.sqrt R : ℝ) : ℂ) * ⟨a, b⟩).im = (response w' h p ntaps).im - b * Real.sqrt R := by
    rw [Complex.sub_im, Complex.im_ofReal_mul]
    ring
  rw [e1, e2]
  linarith

set_option maxHeartbeats 1000000 in
/-- C177, why both components have to be different from zero: a response on an axis stays there, for any number of iterations, step size and with adaptive step size. -/
theorem C177_axis {adaptive : Bool} {E w : List (List ℂ)} {c : Nat → ℂ} {h : Nat → Nat → ℂ} {p L os ntaps trSyms nIter : Nat} {symbs : List ℂ} {z : ℂ} {R mu : ℝ}
    {errf : ℂ → List ℂ → Nat → Option ℂ} (hmeth : errorFct "mcma" = some errf) (hz : symbs[0]? = some z) (hre : z.re = R) (him : z.im = R) (hE : Rect E p L) (hw : Rect w p ntaps)
    (hT : trSyms = 0 ∨ (trSyms - 1) * os + ntaps ≤ L) (hs : OneSource E c h p ntaps os trSyms) (hq : QuarterSource c trSyms)
    (h0 : (response w h p ntaps).im = 0) {st : TrainState ℂ} (hst : trainMode errf adaptStep adaptive E trSyms nIter os ntaps symbs w mu = some st) :
    (response st.w h p ntaps).im = 0 := by
  have : mcmaError = errf := by simpa [errorFct] using hmeth
  subst this
  rw [trainMode_eq] at hst
  have hl : ∀ i ∈ stepOrder nIter trSyms, i < trSyms ∧ i * os + ntaps ≤ L := by
    intro i hi
    have hi := stepOrder_mem hi
    refine ⟨hi, ?_⟩
    have : i * os ≤ (trSyms - 1) * os := Nat.mul_le_mul_right _ (by omega)
    omega
  have key : ∀ (l : List Nat) (st0 : TrainState ℂ), (∀ i ∈ l, i < trSyms ∧ i * os + ntaps ≤ L) → Rect st0.w p ntaps → (response st0.w h p ntaps).im = 0 →
      l.foldlM (trainStep mcmaError adaptStep adaptive E os ntaps symbs) st0 = some st → (response st.w h p ntaps).im = 0 := by
    intro l
    induction l with
    | nil =>
      intro st0 _ _ h0 hst
      have : st0 = st := by simpa using hst
      rw [← this, h0]
    | cons i l ih =>
      intro st0 hl hw h0 hst
      rw [List.foldlM_cons, Option.bind_eq_bind, Option.bind_eq_some_iff] at hst
      obtain ⟨s, hs1, hst⟩ := hst
      obtain ⟨hin, hiL⟩ := hl i List.mem_cons_self
      obtain ⟨g1, -, g3⟩ := mcma_trainStep hz hre him hE hs hq hin hiL hw hs1
      exact ih s (fun j hj => hl j (List.mem_cons_of_mem _ hj)) g1 (by rw [g3, h0, mul_zero]) hst
  exact key (stepOrder nIter trSyms) { w := w, mu := mu, errs := [] } hl hw h0 hst

set_option maxHeartbeats 1000000 in
/-- Two QPSK symbols received with the weight `2 + i`, initial tap 1/10, references 1/2, step size 1/10. -/
example (nIter : Nat) : ∃ r w', trainEqualiser mcmaError adaptStep false [[⟨2, 1⟩, ⟨-1, 2⟩]] 2 nIter 1 (1 / 10) [[[1 / 10]]] 1 [0] [[⟨1 / 2, 1 / 2⟩]] = some r ∧ r.wx[0]? = some w' ∧
    |(response w' (fun _ _ => ⟨2, 1⟩) 1 1).re - Real.sqrt (1 / 2)| ≤ (1 - 1 / 200) ^ (nIter * 2) * (23 / 50) / Real.sqrt (1 / 2) := by
  have hE : Rect ([[⟨2, 1⟩, ⟨-1, 2⟩]] : List (List ℂ)) 1 2 := ⟨rfl, by simp⟩
  have hw : ∀ w ∈ ([[[1 / 10]]] : List (List (List ℂ))), Rect w 1 1 := by
    intro w hw
    rw [List.mem_singleton.1 hw]
    exact ⟨rfl, by simp⟩
  have hs : OneSource ([[⟨2, 1⟩, ⟨-1, 2⟩]] : List (List ℂ)) (fun i => if i = 0 then 1 else Complex.I) (fun _ _ => ⟨2, 1⟩) 1 1 1 2 := by
    intro i hi
    interval_cases i
    · refine ⟨by simp, fun k t hk ht => ?_⟩
      interval_cases k; interval_cases t
      simp [val2, at2]
    · refine ⟨by simp, fun k t hk ht => ?_⟩
      interval_cases k; interval_cases t
      simp [val2, at2, Complex.ext_iff]
  have hq : QuarterSource (fun i => if i = 0 then 1 else Complex.I) 2 := by
    intro i _
    dsimp only
    split_ifs
    · exact Or.inl rfl
    · exact Or.inr (Or.inl rfl)
  have hresp : response ([[1 / 10]] : List (List ℂ)) (fun _ _ => ⟨2, 1⟩) 1 1 = ⟨1 / 5, 1 / 10⟩ := by
    simp only [response, val2, at2, Finset.sum_range_one]
    norm_num [Complex.ext_iff]
  have hpow : sourcePower (fun _ _ => (⟨2, 1⟩ : ℂ)) 1 1 = 5 := by
    simp only [sourcePower, Finset.sum_range_one, ← Complex.normSq_eq_norm_sq]
    norm_num [Complex.normSq_mk]
  obtain ⟨r, hr, -⟩ := C27_methods (method := "mcma") (adaptive := false) (nIter := nIter) (mu := 1 / 10) (modes := [0]) (trSyms := 2) (os := 1) (errf := mcmaError) rfl hE (wx := [[[1 / 10]]])
      rfl hw (symbols := [[⟨1 / 2, 1 / 2⟩]]) rfl (by simp) (Or.inr (by norm_num)) (by
        intro s hs
        rw [List.mem_singleton.1 hs]
        simp [Usable])
  obtain ⟨w, w', h1, h2, h3⟩ := C177_mcma (nIter := nIter) (R := 1 / 2) (mu := 1 / 10) rfl (by simp) hE hw (by simp) (by simp) (Or.inr (by norm_num)) hs hq (by rw [hpow]; norm_num) (by norm_num) (by norm_num)
    (by rw [hpow]; norm_num) (by
      intro w hw
      rw [List.mem_singleton.1 hw, hresp, hpow]
      norm_num) hr 0 (by simp)
  simp only [List.getElem?_cons_zero, Option.some.injEq] at h1
  subst h1
  refine ⟨r, w', hr, h2, ?_⟩
  obtain ⟨-, -, k1, -⟩ := h3 _ rfl
  rw [hresp, hpow] at k1
  have hmin : min (1 / 2 : ℝ) (min ((1 / 5 : ℝ) ^ 2) ((1 / 10 : ℝ) ^ 2)) = 1 / 100 := by norm_num
  dsimp only at k1
  rw [hmin, sign_pos (by norm_num : (0 : ℝ) < 1 / 5)] at k1
  norm_num at k1 ⊢
  exact k1

end Qampy
