import Verif.Model.RoundedTrain
import Verif.Props.RoundedEq
import Verif.Props.ConvergeNoise
import Verif.Props.Receiver
import Mathlib.Analysis.InnerProductSpace.PiL2

/-!
# Training with rounded operations: C193
-/

namespace Qampy

/-! ### Taps as vectors -/

/-- The taps of one output mode as a vector. -/
noncomputable def tapVec (w : List (List ℂ)) (p n : Nat) : EuclideanSpace ℂ (Fin p × Fin n) := WithLp.toLp 2 fun q => val2 w q.1 q.2

/-- The root of the energy of the taps. -/
noncomputable def tapNorm (w : List (List ℂ)) (p n : Nat) : ℝ := √(∑ k ∈ Finset.range p, ∑ t ∈ Finset.range n, ‖val2 w k t‖ ^ 2)

theorem fin_sum_sq (p n : Nat) (f : Nat → Nat → ℝ) : ∑ q : Fin p × Fin n, f q.1 q.2 = ∑ k ∈ Finset.range p, ∑ t ∈ Finset.range n, f k t := by
  rw [Fintype.sum_prod_type, ← Fin.sum_univ_eq_sum_range (fun k => ∑ t ∈ Finset.range n, f k t)]
  apply Finset.sum_congr rfl
  intro k _
  exact Fin.sum_univ_eq_sum_range (fun t => f k t) n

theorem tapNorm_eq (w : List (List ℂ)) (p n : Nat) : tapNorm w p n = ‖tapVec w p n‖ := by
  rw [EuclideanSpace.norm_eq, tapNorm, ← fin_sum_sq p n (fun k t => ‖val2 w k t‖ ^ 2)]
  rfl

theorem tapDist_eq_norm (w v : List (List ℂ)) (p n : Nat) : √(tapDist w v p n) = ‖tapVec w p n - tapVec v p n‖ := by
  rw [EuclideanSpace.norm_eq, tapDist, ← fin_sum_sq p n (fun k t => ‖val2 w k t - val2 v k t‖ ^ 2)]
  rfl

theorem tapDist_triangle (a b c : List (List ℂ)) (p n : Nat) : √(tapDist a c p n) ≤ √(tapDist a b p n) + √(tapDist b c p n) := by
  rw [tapDist_eq_norm, tapDist_eq_norm, tapDist_eq_norm]
  exact norm_sub_le_norm_sub_add_norm_sub _ _ _

theorem tapNorm_le (a b : List (List ℂ)) (p n : Nat) : tapNorm a p n ≤ √(tapDist a b p n) + tapNorm b p n := by
  rw [tapDist_eq_norm, tapNorm_eq, tapNorm_eq]
  have := norm_add_le (tapVec a p n - tapVec b p n) (tapVec b p n)
  rwa [sub_add_cancel] at this

/-- Entrywise bound by a combination of two arrays. -/
theorem tapDist_le_of_entries {a b w : List (List ℂ)} {g : Nat → Nat → ℝ} {p n : Nat} {α β W R : ℝ} (hα : 0 ≤ α) (hβ : 0 ≤ β)
    (h : ∀ k t, k < p → t < n → ‖val2 a k t - val2 b k t‖ ≤ α * ‖val2 w k t‖ + β * ‖g k t‖) (hW : tapNorm w p n ≤ W) (hR : √(∑ k ∈ Finset.range p, ∑ t ∈ Finset.range n, ‖g k t‖ ^ 2) ≤ R) :
    √(tapDist a b p n) ≤ α * W + β * R := by
  obtain ⟨x, hx⟩ : ∃ x : EuclideanSpace ℝ (Fin p × Fin n), x = WithLp.toLp 2 fun q => ‖val2 w q.1 q.2‖ := ⟨_, rfl⟩
  obtain ⟨y, hy⟩ : ∃ y : EuclideanSpace ℝ (Fin p × Fin n), y = WithLp.toLp 2 fun q => ‖g q.1 q.2‖ := ⟨_, rfl⟩
  have nx : ‖x‖ = tapNorm w p n := by
    rw [hx, EuclideanSpace.norm_eq, tapNorm, ← fin_sum_sq p n (fun k t => ‖val2 w k t‖ ^ 2)]
    simp
  have ny : ‖y‖ = √(∑ k ∈ Finset.range p, ∑ t ∈ Finset.range n, ‖g k t‖ ^ 2) := by
    rw [hy, EuclideanSpace.norm_eq, ← fin_sum_sq p n (fun k t => ‖g k t‖ ^ 2)]
    simp
  have key : √(tapDist a b p n) ≤ ‖α • x + β • y‖ := by
    rw [EuclideanSpace.norm_eq, tapDist, ← fin_sum_sq p n (fun k t => ‖val2 a k t - val2 b k t‖ ^ 2)]
    apply Real.sqrt_le_sqrt
    apply Finset.sum_le_sum
    intro q _
    apply pow_le_pow_left₀ (norm_nonneg _)
    refine (h q.1 q.2 q.1.2 q.2.2).trans ?_
    rw [hx, hy]
    exact le_abs_self _
  refine key.trans ((norm_add_le _ _).trans ?_)
  rw [norm_smul, norm_smul, Real.norm_of_nonneg hα, Real.norm_of_nonneg hβ, nx, ny]
  exact add_le_add (mul_le_mul_of_nonneg_left hW hα) (mul_le_mul_of_nonneg_left hR hβ)

/-! ### Exact steps do not spread -/

theorem sbd_pulls {A : ℝ} {s y1 y2 : ℂ} (hs : ‖s‖ ≤ A) :
    Pulls A y2 y1 ((⟨(s - y1).re * |s.re|, (s - y1).im * |s.im|⟩ : ℂ) - ⟨(s - y2).re * |s.re|, (s - y2).im * |s.im|⟩) := by
  have hre := (Complex.abs_re_le_norm s).trans hs
  have him := (Complex.abs_im_le_norm s).trans hs
  unfold Pulls
  rw [← Complex.normSq_eq_norm_sq, Complex.normSq_apply]
  simp only [RCLike.re_to_complex, RCLike.star_def, Complex.mul_re, map_sub, Complex.sub_re, Complex.sub_im, Complex.conj_re, Complex.conj_im]
  have part : ∀ d a b : ℝ, |d| ≤ A → ((d - a) * |d| - (d - b) * |d|) * ((d - a) * |d| - (d - b) * |d|) ≤ A * (((d - a) * |d| - (d - b) * |d|) * (b - a)) := by
    intro d a b hd
    have := mul_le_mul_of_nonneg_right hd (mul_nonneg (abs_nonneg d) (sq_nonneg (b - a)))
    nlinarith
  have h1 := part s.re y1.re y2.re hre
  have h2 := part s.im y1.im y2.im him
  linarith

/-- One exact step of data aided training does not increase the distance of two sets of taps. -/
theorem sbd_step_dist {E w1 w2 w1' w2' : List (List ℂ)} {p L ntaps os i : Nat} {mu A R : ℝ} {s : ℂ} (hE : Rect E p L) (hw1 : Rect w1 p ntaps) (hi : i * os + ntaps ≤ L) (hmu : 0 ≤ mu) (hA : 0 < A)
    (hs : ‖s‖ ≤ A) (hR : windowEnergy E p ntaps os i ≤ R ^ 2) (hstep : A * (mu * R ^ 2) ≤ 2)
    (h1 : TapStep E w1 w1' p ntaps os i ((mu : ℂ) * ⟨(s - firOutput E w1 p ntaps os i).re * |s.re|, (s - firOutput E w1 p ntaps os i).im * |s.im|⟩))
    (h2 : TapStep E w2 w2' p ntaps os i ((mu : ℂ) * ⟨(s - firOutput E w2 p ntaps os i).re * |s.re|, (s - firOutput E w2 p ntaps os i).im * |s.im|⟩)) :
    tapDist w1' w2' p ntaps ≤ tapDist w1 w2 p ntaps := by
  obtain ⟨e, he⟩ : ∃ e : ℂ, e = (⟨(s - firOutput E w1 p ntaps os i).re * |s.re|, (s - firOutput E w1 p ntaps os i).im * |s.im|⟩ : ℂ) -
    ⟨(s - firOutput E w2 p ntaps os i).re * |s.re|, (s - firOutput E w2 p ntaps os i).im * |s.im|⟩ := ⟨_, rfl⟩
  obtain ⟨w3, -, -, g3⟩ := updateTaps_rect hw1 (rect_window hE hi) ((mu : ℂ) * e)
  have h3 : TapStep E w1 w3 p ntaps os i ((mu : ℂ) * e) := by
    intro k t hk ht
    rw [g3 k t hk ht]
    congr 3
    rw [val2, at2_window _ _ _ _ _ ht, val2]
  have hp : Pulls A (firOutput E w2 p ntaps os i) (firOutput E w1 p ntaps os i) e := by rw [he]; exact sbd_pulls hs
  have h4 := tapDist_pull hmu hA h3 hp
  have h5 : tapDist w1' w2' p ntaps = tapDist w3 w2 p ntaps := by
    unfold tapDist
    apply Finset.sum_congr rfl
    intro k hk
    apply Finset.sum_congr rfl
    intro t ht
    rw [h1 k t (Finset.mem_range.1 hk) (Finset.mem_range.1 ht), h2 k t (Finset.mem_range.1 hk) (Finset.mem_range.1 ht), h3 k t (Finset.mem_range.1 hk) (Finset.mem_range.1 ht), he]
    congr 2
    ring
  rw [h5]
  have h6 : 0 ≤ mu * (2 / A - mu * windowEnergy E p ntaps os i) * ‖e‖ ^ 2 := by
    apply mul_nonneg (mul_nonneg hmu _) (sq_nonneg _)
    rw [sub_nonneg, le_div_iff₀ hA]
    have := mul_le_mul_of_nonneg_left hR hmu
    nlinarith
  linarith

/-! ### One rounded step -/

theorem updateTapsFl_rect {fl : ℝ → ℝ} {w X : List (List ℂ)} {p n : Nat} (hw : Rect w p n) (hX : Rect X p n) (c : ℂ) :
    ∃ w', updateTapsFl fl w X c = some w' ∧ Rect w' p n ∧
      ∀ k i, k < p → i < n → val2 w' k i = addFl fl (val2 w k i) (mulFl fl c (star (val2 X k i))) := by
  refine ⟨List.zipWith (List.zipWith fun a x => addFl fl a (mulFl fl c (star x))) w X, ?_, ⟨?_, ?_⟩, ?_⟩
  · rw [updateTapsFl, if_pos]
    refine ⟨by rw [hw.1, hX.1], ?_⟩
    intro q hq
    rw [hw.2 _ (List.of_mem_zip hq).1, hX.2 _ (List.of_mem_zip hq).2]
  · rw [List.length_zipWith, hw.1, hX.1, Nat.min_self]
  · intro r hr
    rw [List.mem_iff_getElem?] at hr
    obtain ⟨k, hk⟩ := hr
    rw [List.getElem?_zipWith] at hk
    cases h1 : w[k]? with
    | none => simp [h1] at hk
    | some a =>
      cases h2 : X[k]? with
      | none => simp [h1, h2] at hk
      | some b =>
        simp only [h1, h2, Option.some.injEq] at hk
        rw [← hk, List.length_zipWith, hw.2 a (List.mem_of_getElem? h1), hX.2 b (List.mem_of_getElem? h2), Nat.min_self]
  · intro k i hk hi
    have ha := at2_of_rect hw hk hi
    have hb := at2_of_rect hX hk hi
    have : at2 (List.zipWith (List.zipWith fun a x => addFl fl a (mulFl fl c (star x))) w X) k i
        = some (addFl fl (val2 w k i) (mulFl fl c (star (val2 X k i)))) := by
      rw [at2] at ha hb ⊢
      rw [List.getElem?_zipWith]
      cases h1 : w[k]? with
      | none => simp [h1] at ha
      | some a =>
        cases h2 : X[k]? with
        | none => simp [h2] at hb
        | some b =>
          rw [h1, Option.bind_some] at ha
          rw [h2, Option.bind_some] at hb
          simp only [Option.bind_some, List.getElem?_zipWith, ha, hb]
    rw [val2, this]; rfl

/-- Relative error of the filter output. -/
noncomputable def firErr (u : ℝ) (m : Nat) : ℝ := (1 + mulErr u) * (1 + u) ^ m - 1

/-- What rounding adds to the distance of the taps in one step: `m` taps of energy at most `W ^ 2`, windows of energy at most `R ^ 2`, symbols of amplitude at most `A`. -/
noncomputable def stepErr (u mu A R W : ℝ) (m : Nat) : ℝ :=
  u * W + mu * (((1 + u) ^ 4 * (1 + mulErr u) - 1) * (A * (A + (1 + firErr u m) * (R * W))) + A * (firErr u m * (R * W))) * R

theorem cauchy_window (E w : List (List ℂ)) (p n os i : Nat) :
    ∑ k ∈ Finset.range p, ∑ t ∈ Finset.range n, ‖val2 E k (i * os + t)‖ * ‖val2 w k t‖ ≤ √(windowEnergy E p n os i) * tapNorm w p n := by
  unfold windowEnergy tapNorm
  simp only [← Finset.sum_product']
  exact Real.sum_mul_le_sqrt_mul_sqrt _ _ _

theorem sbdErr_round {fl : ℝ → ℝ} {u : ℝ} (h : Rounds fl u) (s x : ℂ) :
    ‖(⟨fl (fl (s.re - x.re) * |s.re|), fl (fl (s.im - x.im) * |s.im|)⟩ : ℂ) - ⟨(s - x).re * |s.re|, (s - x).im * |s.im|⟩‖ ≤ (2 * u + u ^ 2) * ‖(⟨(s - x).re * |s.re|, (s - x).im * |s.im|⟩ : ℂ)‖ := by
  have h0 := h.nonneg
  have part : ∀ d b : ℝ, |fl (fl d * b) - d * b| ≤ (2 * u + u ^ 2) * |d * b| := by
    intro d b
    have h1 := h.err (fl d * b)
    have h2 : |fl d * b - d * b| ≤ u * |d * b| := by
      rw [← sub_mul, abs_mul, abs_mul, ← mul_assoc]
      exact mul_le_mul_of_nonneg_right (h.err d) (abs_nonneg _)
    have h3 : |fl d * b| ≤ (1 + u) * |d * b| := by
      have := abs_sub_abs_le_abs_sub (fl d * b) (d * b)
      linarith
    have h4 := abs_sub_le (fl (fl d * b)) (fl d * b) (d * b)
    have h5 := mul_le_mul_of_nonneg_left h3 h0
    nlinarith
  apply norm_parts_err (by positivity)
  · exact part (s.re - x.re) |s.re|
  · exact part (s.im - x.im) |s.im|

theorem sbdErr_lip {A : ℝ} {s : ℂ} (hs : ‖s‖ ≤ A) (y : ℂ) : ‖(⟨y.re * |s.re|, y.im * |s.im|⟩ : ℂ)‖ ≤ A * ‖y‖ := by
  have hA := (norm_nonneg s).trans hs
  apply le_of_sq_le_sq _ (mul_nonneg hA (norm_nonneg _))
  have e : ∀ z : ℂ, ‖z‖ ^ 2 = z.re ^ 2 + z.im ^ 2 := fun z => by
    rw [← Complex.normSq_eq_norm_sq, Complex.normSq_apply]; ring
  rw [mul_pow, e, e]
  have hre : |s.re| ^ 2 ≤ A ^ 2 := pow_le_pow_left₀ (abs_nonneg _) ((Complex.abs_re_le_norm s).trans hs) 2
  have him : |s.im| ^ 2 ≤ A ^ 2 := pow_le_pow_left₀ (abs_nonneg _) ((Complex.abs_im_le_norm s).trans hs) 2
  dsimp only
  rw [mul_pow, mul_pow]
  nlinarith [mul_le_mul_of_nonneg_right hre (sq_nonneg y.re), mul_le_mul_of_nonneg_right him (sq_nonneg y.im)]

/-- C193, one step: from the same taps, the rounded step and the exact step lead to taps of distance at most `stepErr`. -/
theorem C193_step {fl : ℝ → ℝ} {u : ℝ} (h : Rounds fl u) {E w w' : List (List ℂ)} {p L ntaps os i : Nat} {mu A R W : ℝ} {s : ℂ} {symbs es : List ℂ} (hE : Rect E p L) (hw : Rect w p ntaps)
    (hi : i * os + ntaps ≤ L) (hmu : 0 ≤ mu) (hsi : symbs[i]? = some s) (hs : ‖s‖ ≤ A) (hR0 : 0 ≤ R) (hR : windowEnergy E p ntaps os i ≤ R ^ 2) (hW : tapNorm w p ntaps ≤ W)
    (h1 : TapStep E w w' p ntaps os i ((mu : ℂ) * ⟨(s - firOutput E w p ntaps os i).re * |s.re|, (s - firOutput E w p ntaps os i).im * |s.im|⟩)) :
    ∃ wf ef, trainStepFl fl (sbdDataErrorFl fl) E os ntaps symbs mu (w, es) i = some (wf, ef :: es) ∧ Rect wf p ntaps ∧ √(tapDist wf w' p ntaps) ≤ stepErr u mu A R W (p * ntaps) := by
  have h0 := h.nonneg
  have hm0 : 0 ≤ mulErr u := by unfold mulErr; positivity
  have hA := (norm_nonneg s).trans hs
  have hf0 : 0 ≤ firErr u (p * ntaps) := by
    unfold firErr
    rw [sub_nonneg]
    exact one_le_mul_of_one_le_of_one_le (by linarith) (one_le_pow₀ (by linarith))
  have hsq : √(windowEnergy E p ntaps os i) ≤ R := Real.sqrt_le_iff.2 ⟨hR0, hR⟩
  have hT0 : 0 ≤ tapNorm w p ntaps := Real.sqrt_nonneg _
  have hW0 := hT0.trans hW
  -- the output
  obtain ⟨y, hy, hye⟩ := C182_filter h (rect_window hE hi) hw
  obtain ⟨Y, hY⟩ : ∃ Y, Y = firOutput E w p ntaps os i := ⟨_, rfl⟩
  have hYe : ∑ k ∈ Finset.range p, ∑ t ∈ Finset.range ntaps, val2 (window E (i * os) ntaps) k t * val2 w k t = Y := by
    rw [hY]
    unfold firOutput
    apply Finset.sum_congr rfl
    intro k _
    apply Finset.sum_congr rfl
    intro t ht
    rw [val2_window _ _ _ _ _ (Finset.mem_range.1 ht), mul_comm]
  have hcs : ∑ k ∈ Finset.range p, ∑ t ∈ Finset.range ntaps, ‖val2 (window E (i * os) ntaps) k t‖ * ‖val2 w k t‖ ≤ R * W := by
    refine le_trans (le_of_eq ?_) ((cauchy_window E w p ntaps os i).trans (mul_le_mul hsq hW hT0 hR0))
    apply Finset.sum_congr rfl
    intro k _
    apply Finset.sum_congr rfl
    intro t ht
    rw [val2_window _ _ _ _ _ (Finset.mem_range.1 ht)]
  have hYn : ‖Y‖ ≤ R * W := by
    rw [← hYe]
    refine le_trans ((norm_sum_le _ _).trans (Finset.sum_le_sum fun k _ => (norm_sum_le _ _))) ?_
    simpa only [norm_mul] using hcs
  have hyY : ‖y - Y‖ ≤ firErr u (p * ntaps) * (R * W) := by
    rw [hYe] at hye
    exact hye.trans (mul_le_mul_of_nonneg_left hcs hf0)
  -- the error
  obtain ⟨ef, hef⟩ : ∃ ef : ℂ, ef = ⟨fl (fl (s.re - y.re) * |s.re|), fl (fl (s.im - y.im) * |s.im|)⟩ := ⟨_, rfl⟩
  obtain ⟨ey, hey⟩ : ∃ ey : ℂ, ey = ⟨(s - y).re * |s.re|, (s - y).im * |s.im|⟩ := ⟨_, rfl⟩
  obtain ⟨eY, heY⟩ : ∃ eY : ℂ, eY = ⟨(s - Y).re * |s.re|, (s - Y).im * |s.im|⟩ := ⟨_, rfl⟩
  have a1 : ‖ef - ey‖ ≤ (2 * u + u ^ 2) * ‖ey‖ := by rw [hef, hey]; exact sbdErr_round h s y
  have a2 : ‖ey‖ ≤ A * (A + (1 + firErr u (p * ntaps)) * (R * W)) := by
    rw [hey]
    refine (sbdErr_lip hs (s - y)).trans (mul_le_mul_of_nonneg_left ?_ hA)
    have e1 : s - y = s - Y - (y - Y) := by ring
    have := norm_sub_le (s - Y) (y - Y)
    rw [← e1] at this
    have := norm_sub_le s Y
    linarith
  have a3 : ‖ey - eY‖ ≤ A * (firErr u (p * ntaps) * (R * W)) := by
    have e1 : ey - eY = ⟨(Y - y).re * |s.re|, (Y - y).im * |s.im|⟩ := by
      rw [hey, heY]
      apply Complex.ext <;> simp <;> ring
    rw [e1]
    refine (sbdErr_lip hs (Y - y)).trans (mul_le_mul_of_nonneg_left ?_ hA)
    rw [norm_sub_rev]
    exact hyY
  obtain ⟨M, hM⟩ : ∃ M, M = A * (A + (1 + firErr u (p * ntaps)) * (R * W)) := ⟨_, rfl⟩
  obtain ⟨G, hG⟩ : ∃ G, G = A * (firErr u (p * ntaps) * (R * W)) := ⟨_, rfl⟩
  rw [← hM] at a2
  rw [← hG] at a3
  have hM0 : 0 ≤ M := (norm_nonneg _).trans a2
  have hG0 : 0 ≤ G := (norm_nonneg _).trans a3
  have b1 : ‖ef - ey‖ ≤ (2 * u + u ^ 2) * M := a1.trans (mul_le_mul_of_nonneg_left a2 (by positivity))
  have b2 : ‖ef‖ ≤ (1 + u) ^ 2 * M := by
    have e1 : ef = (ef - ey) + ey := by ring
    have := norm_add_le (ef - ey) ey
    rw [← e1] at this
    nlinarith
  -- the scaled error
  obtain ⟨c, hc⟩ : ∃ c, c = scaleFl fl mu ef := ⟨_, rfl⟩
  have c1 : ‖c - (mu : ℂ) * ef‖ ≤ u * ‖(mu : ℂ) * ef‖ := by
    rw [hc]
    exact norm_parts_err h0 (by simpa [scaleFl] using h.err (mu * ef.re)) (by simpa [scaleFl] using h.err (mu * ef.im))
  have nmu : ∀ z : ℂ, ‖(mu : ℂ) * z‖ = mu * ‖z‖ := fun z => by rw [norm_mul, Complex.norm_real, Real.norm_of_nonneg hmu]
  rw [nmu] at c1
  have c2 : ‖c - (mu : ℂ) * ef‖ ≤ u * (mu * ((1 + u) ^ 2 * M)) := c1.trans (mul_le_mul_of_nonneg_left (mul_le_mul_of_nonneg_left b2 hmu) h0)
  have c3 : ‖c‖ ≤ (1 + u) ^ 3 * (mu * M) := by
    have e1 : c = (c - (mu : ℂ) * ef) + (mu : ℂ) * ef := by ring
    have := norm_add_le (c - (mu : ℂ) * ef) ((mu : ℂ) * ef)
    rw [← e1, nmu] at this
    have := mul_le_mul_of_nonneg_left b2 hmu
    nlinarith
  have c4 : ‖c - (mu : ℂ) * eY‖ ≤ mu * (((1 + u) ^ 3 - 1) * M + G) := by
    have e1 : c - (mu : ℂ) * eY = (c - (mu : ℂ) * ef) + ((mu : ℂ) * (ef - ey) + (mu : ℂ) * (ey - eY)) := by ring
    rw [e1]
    refine (norm_add_le _ _).trans ((add_le_add c2 (norm_add_le _ _)).trans ?_)
    rw [nmu, nmu]
    have d1 := mul_le_mul_of_nonneg_left b1 hmu
    have d2 := mul_le_mul_of_nonneg_left a3 hmu
    nlinarith
  obtain ⟨wf, g1, g2, g3⟩ := updateTapsFl_rect (fl := fl) hw (rect_window hE hi) c
  refine ⟨wf, ef, ?_, g2, ?_⟩
  · unfold trainStepFl sbdDataErrorFl
    simp only [hy, hsi, Option.bind_eq_bind, Option.bind_some, ← hef, ← hc, g1]
  · rw [← hY, ← heY] at h1
    have hβ : 0 ≤ mu * (((1 + u) ^ 4 * (1 + mulErr u) - 1) * M + G) := by
      have : 1 ≤ (1 + u) ^ 4 * (1 + mulErr u) := one_le_mul_of_one_le_of_one_le (one_le_pow₀ (by linarith)) (by linarith)
      exact mul_nonneg hmu (add_nonneg (mul_nonneg (by linarith) hM0) hG0)
    have := tapDist_le_of_entries (a := wf) (b := w') (w := w) (g := fun k t => ‖val2 E k (i * os + t)‖) (p := p) (n := ntaps) h0 hβ (W := W) (R := R) ?_ hW (by simpa only [norm_norm, windowEnergy] using hsq)
    · unfold stepErr
      rw [← hM, ← hG]
      exact this
    · intro k t hk ht
      rw [g3 k t hk ht, h1 k t hk ht, val2_window _ _ _ _ _ ht, norm_norm]
      obtain ⟨x, hx⟩ : ∃ x, x = val2 E k (i * os + t) := ⟨_, rfl⟩
      obtain ⟨a, ha⟩ : ∃ a, a = val2 w k t := ⟨_, rfl⟩
      rw [← hx, ← ha]
      obtain ⟨m, hm⟩ : ∃ m, m = mulFl fl c (star x) := ⟨_, rfl⟩
      have hxs : ‖(star x : ℂ)‖ = ‖x‖ := norm_star x
      have f1 : ‖m - c * star x‖ ≤ mulErr u * (‖c‖ * ‖x‖) := by rw [hm, ← hxs]; exact mulFl_err h c (star x)
      have f2 := addFl_err h a m
      have f3 : ‖m‖ ≤ (1 + mulErr u) * (‖c‖ * ‖x‖) := by
        have e1 : m = (m - c * star x) + c * star x := by ring
        have := norm_add_le (m - c * star x) (c * star x)
        rw [← e1, norm_mul, hxs] at this
        linarith
      have f4 : ‖a + m‖ ≤ ‖a‖ + (1 + mulErr u) * (‖c‖ * ‖x‖) := (norm_add_le _ _).trans (by linarith)
      rw [← hm]
      have e1 : addFl fl a m - (a + (mu : ℂ) * eY * star x) = (addFl fl a m - (a + m)) + ((m - c * star x) + (c - (mu : ℂ) * eY) * star x) := by ring
      rw [e1]
      refine (norm_add_le _ _).trans ((add_le_add f2 (norm_add_le _ _)).trans ?_)
      rw [norm_mul, hxs]
      have hx0 := norm_nonneg x
      have k1 := mul_le_mul_of_nonneg_left f4 h0
      have k2 := mul_le_mul_of_nonneg_right c4 hx0
      have k3 := mul_le_mul_of_nonneg_right c3 hx0
      have k4 := mul_le_mul_of_nonneg_left k3 (show 0 ≤ u * (1 + mulErr u) + mulErr u by positivity)
      have e2 : u * ‖a‖ + mu * (((1 + u) ^ 4 * (1 + mulErr u) - 1) * M + G) * ‖x‖ =
        u * ‖a‖ + (u * (1 + mulErr u) + mulErr u) * ((1 + u) ^ 3 * (mu * M) * ‖x‖) + mu * (((1 + u) ^ 3 - 1) * M + G) * ‖x‖ := by ring
      rw [e2]
      obtain ⟨N, hN⟩ : ∃ N, N = ‖c‖ * ‖x‖ := ⟨_, rfl⟩
      rw [← hN] at f1 k1 k4
      linarith

/-! ### The whole training -/

theorem trainStep_sbd {E : List (List ℂ)} {p L os ntaps : Nat} {symbs : List ℂ} {s : ℂ} {st : TrainState ℂ} {i : Nat} (hE : Rect E p L) (hw : Rect st.w p ntaps) (hi : i * os + ntaps ≤ L) (hsi : symbs[i]? = some s) :
    ∃ st', trainStep sbdDataError adaptStep false E os ntaps symbs st i = some st' ∧ st'.mu = st.mu ∧ Rect st'.w p ntaps ∧
      TapStep E st.w st'.w p ntaps os i ((st.mu : ℂ) * ⟨(s - firOutput E st.w p ntaps os i).re * |s.re|, (s - firOutput E st.w p ntaps os i).im * |s.im|⟩) := by
  obtain ⟨w', g1, -, -⟩ := updateTaps_rect hw (rect_window hE hi) ((st.mu : ℂ) * ⟨(s - firOutput E st.w p ntaps os i).re * |s.re|, (s - firOutput E st.w p ntaps os i).im * |s.im|⟩)
  have hrun : trainStep sbdDataError adaptStep false E os ntaps symbs st i = some { w := w', mu := st.mu, errs := ⟨(s - firOutput E st.w p ntaps os i).re * |s.re|, (s - firOutput E st.w p ntaps os i).im * |s.im|⟩ :: st.errs } := by
    unfold trainStep
    simp only [applyFilter_window_fir hE hw hi, sbdDataError, hsi, Option.bind_eq_bind, Option.bind_some, nextMu, Bool.false_and, Bool.false_eq_true, if_false]
    erw [g1]
    rfl
  refine ⟨_, hrun, rfl, ?_⟩
  obtain ⟨e, h1, -, h3, h4⟩ := trainStep_tapStep hE hw hi hrun
  refine ⟨h3, ?_⟩
  have he : (⟨(s - firOutput E st.w p ntaps os i).re * |s.re|, (s - firOutput E st.w p ntaps os i).im * |s.im|⟩ : ℂ) = e := by
    simpa [sbdDataError, hsi] using h1
  rw [he]
  exact h4

theorem round_fold {fl : ℝ → ℝ} {u : ℝ} (h : Rounds fl u) {E v : List (List ℂ)} {p L os ntaps : Nat} {symbs : List ℂ} {mu A R W D : ℝ} (hE : Rect E p L) (hmu : 0 ≤ mu) (hA : 0 < A) (hR0 : 0 ≤ R) (hD : 0 ≤ D)
    (hstep : A * (mu * R ^ 2) ≤ 1) (l : List Nat) (hl : ∀ i ∈ l, i * os + ntaps ≤ L) (hR : ∀ i ∈ l, windowEnergy E p ntaps os i ≤ R ^ 2) (hs : ∀ i ∈ l, ∃ s, symbs[i]? = some s ∧ ‖s‖ ≤ A)
    {δ : ℝ} {st : TrainState ℂ} {stf : List (List ℂ) × List ℂ} (hm : st.mu = mu) (hw : Rect st.w p ntaps) (hwf : Rect stf.1 p ntaps) (hδ : √(tapDist stf.1 st.w p ntaps) ≤ δ)
    (hv : tapDist st.w v p ntaps + mu * (l.map fun i => 2 * (A * ‖symbs.getD i 0 - firOutput E v p ntaps os i‖ ^ 2)).sum ≤ D ^ 2)
    (hW : δ + D + tapNorm v p ntaps + l.length * stepErr u mu A R W (p * ntaps) ≤ W) (hη : 0 ≤ stepErr u mu A R W (p * ntaps)) :
    ∃ st' stf', l.foldlM (trainStep sbdDataError adaptStep false E os ntaps symbs) st = some st' ∧ l.foldlM (trainStepFl fl (sbdDataErrorFl fl) E os ntaps symbs mu) stf = some stf' ∧
      Rect st'.w p ntaps ∧ Rect stf'.1 p ntaps ∧ √(tapDist stf'.1 st'.w p ntaps) ≤ δ + l.length * stepErr u mu A R W (p * ntaps) ∧ tapDist st'.w v p ntaps ≤ D ^ 2 := by
  induction l generalizing st stf δ with
  | nil => exact ⟨st, stf, rfl, rfl, hw, hwf, by simpa using hδ, by simpa using hv⟩
  | cons i l ih =>
    obtain ⟨η, hηd⟩ : ∃ η, η = stepErr u mu A R W (p * ntaps) := ⟨_, rfl⟩
    rw [← hηd] at hW hη ih ⊢
    obtain ⟨s, hsi, hsA⟩ := hs i List.mem_cons_self
    have hi := hl i List.mem_cons_self
    have hRi := hR i List.mem_cons_self
    have hlen : ((i :: l).length : ℝ) = l.length + 1 := by push_cast [List.length_cons]; ring
    rw [hlen] at hW ⊢
    have hlη : 0 ≤ (l.length : ℝ) * η := by positivity
    have hnoise : 0 ≤ (l.map fun i => 2 * (A * ‖symbs.getD i 0 - firOutput E v p ntaps os i‖ ^ 2)).sum := List.sum_nonneg (by
      intro x hx
      obtain ⟨j, -, rfl⟩ := List.mem_map.1 hx
      positivity)
    rw [List.map_cons, List.sum_cons, mul_add] at hv
    have hgd : symbs.getD i 0 = s := by rw [List.getD_eq_getElem?_getD, hsi]; rfl
    have hvD : √(tapDist st.w v p ntaps) ≤ D := by
      rw [Real.sqrt_le_iff]
      have : 0 ≤ mu * (2 * (A * ‖symbs.getD i 0 - firOutput E v p ntaps os i‖ ^ 2)) := by positivity
      exact ⟨hD, by linarith [mul_nonneg hmu hnoise]⟩
    have hWf : tapNorm stf.1 p ntaps ≤ W := by
      have h1 := tapNorm_le stf.1 st.w p ntaps
      have h2 := tapNorm_le st.w v p ntaps
      linarith
    obtain ⟨st1, e1, e2, e3, e4⟩ := trainStep_sbd hE hw hi hsi
    rw [hm] at e2 e4
    obtain ⟨w2, -, -, q3⟩ := updateTaps_rect hwf (rect_window hE hi) ((mu : ℂ) * ⟨(s - firOutput E stf.1 p ntaps os i).re * |s.re|, (s - firOutput E stf.1 p ntaps os i).im * |s.im|⟩)
    have hT2 : TapStep E stf.1 w2 p ntaps os i ((mu : ℂ) * ⟨(s - firOutput E stf.1 p ntaps os i).re * |s.re|, (s - firOutput E stf.1 p ntaps os i).im * |s.im|⟩) := by
      intro k t hk ht
      rw [q3 k t hk ht, val2_window _ _ _ _ _ ht]
    obtain ⟨wf, ef, f1, f2, f3⟩ := C193_step h (es := stf.2) hE hwf hi hmu hsi hsA hR0 hRi hWf hT2
    rw [← hηd] at f3
    have hne := sbd_step_dist hE hwf hi hmu hA hsA hRi (by linarith) hT2 e4
    have hδ1 : √(tapDist wf st1.w p ntaps) ≤ δ + η := by
      have h1 := tapDist_triangle wf w2 st1.w p ntaps
      have h2 := Real.sqrt_le_sqrt hne
      linarith
    have hv1 : tapDist st1.w v p ntaps + mu * (l.map fun i => 2 * (A * ‖symbs.getD i 0 - firOutput E v p ntaps os i‖ ^ 2)).sum ≤ D ^ 2 := by
      have hst : A * (mu * windowEnergy E p ntaps os i) ≤ 1 := le_trans (mul_le_mul_of_nonneg_left (mul_le_mul_of_nonneg_left hRi hmu) hA.le) hstep
      have h1 := tapDist_noisy (v := v) hmu hA e4 hst (n := 2 * (A * ‖s - firOutput E v p ntaps os i‖ ^ 2)) (noisyPull_data ((Complex.abs_re_le_norm s).trans hsA) ((Complex.abs_im_le_norm s).trans hsA))
      rw [hgd] at hv
      have h2 : 0 ≤ mu / (2 * A) * ‖(⟨(s - firOutput E st.w p ntaps os i).re * |s.re|, (s - firOutput E st.w p ntaps os i).im * |s.im|⟩ : ℂ)‖ ^ 2 := by positivity
      linarith
    obtain ⟨st', stf', r1, r2, r3, r4, r5, r6⟩ := ih (fun i hi => hl i (List.mem_cons_of_mem _ hi)) (fun i hi => hR i (List.mem_cons_of_mem _ hi)) (fun i hi => hs i (List.mem_cons_of_mem _ hi))
      (δ := δ + η) (st := st1) (stf := (wf, ef :: stf.2)) e2 e3 f2 hδ1 hv1 (by linarith)
    refine ⟨st', stf', ?_, ?_, r3, r4, by linarith, r6⟩
    · rw [List.foldlM_cons, e1]
      exact r1
    · rw [List.foldlM_cons, f1]
      exact r2

theorem trainModeFl_eq (fl : ℝ → ℝ) (errf : ℂ → List ℂ → Nat → Option ℂ) (E : List (List ℂ)) (trSyms nIter os ntaps : Nat) (symbs : List ℂ) (w : List (List ℂ)) (mu : ℝ) :
    trainModeFl fl errf E trSyms nIter os ntaps symbs w mu = (stepOrder nIter trSyms).foldlM (trainStepFl fl errf E os ntaps symbs mu) (w, []) := by
  unfold trainModeFl stepOrder
  generalize ((w, []) : List (List ℂ) × List ℂ) = s
  induction nIter generalizing s with
  | zero => rfl
  | succ n ih =>
    rw [List.range_succ_eq_map, List.foldlM_cons, List.replicate_succ, List.flatten_cons, List.foldlM_append]
    congr 1
    funext s'
    rw [← ih s', List.foldlM_map]

/-- C193: training with the transmitted symbols and a fixed step size, in rounded arithmetic. `v` are any taps to compare with, `D ^ 2` bounds the distance of the start from `v` plus the noise in front of `v`
(C170). The rounded training runs through, its taps differ from those of the exact training by at most the number of steps times the rounding of one step, and they are as near to `v` as the exact
ones up to this. -/
theorem C193_training {fl : ℝ → ℝ} {u : ℝ} (h : Rounds fl u) {E v w : List (List ℂ)} {p L trSyms nIter os ntaps : Nat} {symbs : List ℂ} {mu A R W D : ℝ} (hE : Rect E p L) (hw : Rect w p ntaps)
    (hT : trSyms = 0 ∨ (trSyms - 1) * os + ntaps ≤ L) (hmu : 0 ≤ mu) (hA : 0 < A) (hR0 : 0 ≤ R) (hD : 0 ≤ D) (hstep : A * (mu * R ^ 2) ≤ 1) (hR : ∀ i < trSyms, windowEnergy E p ntaps os i ≤ R ^ 2)
    (hs : ∀ i < trSyms, ∃ s, symbs[i]? = some s ∧ ‖s‖ ≤ A)
    (hv : tapDist w v p ntaps + mu * (nIter * ∑ i ∈ Finset.range trSyms, 2 * (A * ‖symbs.getD i 0 - firOutput E v p ntaps os i‖ ^ 2)) ≤ D ^ 2)
    (hW : D + tapNorm v p ntaps + (nIter * trSyms : ℕ) * stepErr u mu A R W (p * ntaps) ≤ W) (hW0 : 0 ≤ W) :
    ∃ st stf, trainMode sbdDataError adaptStep false E trSyms nIter os ntaps symbs w mu = some st ∧ trainModeFl fl (sbdDataErrorFl fl) E trSyms nIter os ntaps symbs w mu = some stf ∧
      √(tapDist stf.1 st.w p ntaps) ≤ (nIter * trSyms : ℕ) * stepErr u mu A R W (p * ntaps) ∧ √(tapDist stf.1 v p ntaps) ≤ D + (nIter * trSyms : ℕ) * stepErr u mu A R W (p * ntaps) ∧
      ∀ i, √(windowEnergy E p ntaps os i) ≤ R → ‖firOutput E stf.1 p ntaps os i - firOutput E st.w p ntaps os i‖ ≤ (nIter * trSyms : ℕ) * stepErr u mu A R W (p * ntaps) * R := by
  have hmem : ∀ i ∈ stepOrder nIter trSyms, i < trSyms := by
    intro i hi
    obtain ⟨l, hl, hil⟩ := List.mem_flatten.1 hi
    rw [List.eq_of_mem_replicate hl, List.mem_range] at hil
    exact hil
  have hl : ∀ i ∈ stepOrder nIter trSyms, i * os + ntaps ≤ L := by
    intro i hi
    have hi := hmem i hi
    have : i * os ≤ (trSyms - 1) * os := Nat.mul_le_mul_right _ (by omega)
    omega
  have h0 := h.nonneg
  have hm0 : 0 ≤ mulErr u := by unfold mulErr; positivity
  have hη : 0 ≤ stepErr u mu A R W (p * ntaps) := by
    have hf0 : 0 ≤ firErr u (p * ntaps) := by
      unfold firErr
      rw [sub_nonneg]
      exact one_le_mul_of_one_le_of_one_le (by linarith) (one_le_pow₀ (by linarith))
    have : 0 ≤ (1 + u) ^ 4 * (1 + mulErr u) - 1 := by
      rw [sub_nonneg]
      exact one_le_mul_of_one_le_of_one_le (one_le_pow₀ (by linarith)) (by linarith)
    unfold stepErr
    positivity
  have hself : √(tapDist w w p ntaps) ≤ 0 := by rw [tapDist_eq_norm, sub_self, norm_zero]
  obtain ⟨st, stf, r1, r2, r3, r4, r5, r6⟩ := round_fold (v := v) (st := { w := w, mu := mu, errs := [] }) (stf := (w, [])) (δ := 0) (W := W) h hE hmu hA hR0 hD hstep (stepOrder nIter trSyms) hl (fun i hi => hR i (hmem i hi)) (fun i hi => hs i (hmem i hi))
    rfl hw hw hself (by rw [sum_stepOrder]; exact hv) (by rw [stepOrder_length, zero_add]; exact hW) hη
  rw [stepOrder_length, zero_add] at r5
  refine ⟨st, stf, by rw [trainMode_eq]; exact r1, by rw [trainModeFl_eq]; exact r2, r5, ?_, ?_⟩
  · have h1 := tapDist_triangle stf.1 st.w v p ntaps
    have h2 := Real.sqrt_le_iff.2 ⟨hD, r6⟩
    linarith
  · intro i hi
    have h1 := Real.sqrt_le_sqrt (firOutput_dist E stf.1 st.w p ntaps os i)
    rw [Real.sqrt_sq (norm_nonneg _), Real.sqrt_mul (tapDist_nonneg _ _ _ _)] at h1
    exact h1.trans (mul_le_mul r5 hi (Real.sqrt_nonneg _) ((Real.sqrt_nonneg _).trans r5))

/-- C193: without rounding the rounded model is the model of the training of all other claims. -/
theorem C193_exact (errf : ℂ → List ℂ → Nat → Option ℂ) (adapt : ℝ → ℂ → ℂ → ℝ) (E : List (List ℂ)) (trSyms nIter os ntaps : Nat) (symbs : List ℂ) (w : List (List ℂ)) (mu : ℝ) :
    sbdDataErrorFl (fun x => x) = sbdDataError ∧
    trainModeFl (fun x => x) errf E trSyms nIter os ntaps symbs w mu = (trainMode errf adapt false E trSyms nIter os ntaps symbs w mu).map fun st => (st.w, st.errs) := by
  constructor
  · funext x symbs i
    rfl
  · rw [trainModeFl_eq, trainMode_eq]
    have hadd : ∀ a b : ℂ, addFl (fun x => x) a b = a + b := fun a b => rfl
    have hmul : ∀ a b : ℂ, mulFl (fun x => x) a b = a * b := fun a b => rfl
    have hfilt : ∀ X w : List (List ℂ), applyFilterFl (fun x => x) X w ntaps = applyFilter X w ntaps := fun X w => rfl
    have hup : ∀ (w X : List (List ℂ)) (c : ℂ), updateTapsFl (fun x => x) w X c = updateTaps w X c := fun w X c => rfl
    have hsc : ∀ (m : ℝ) (e : ℂ), scaleFl (fun x => x) m e = (m : ℂ) * e := by
      intro m e
      apply Complex.ext <;> simp [scaleFl]
    have key : ∀ (l : List Nat) (st : TrainState ℂ), st.mu = mu → l.foldlM (trainStepFl (fun x => x) errf E os ntaps symbs mu) (st.w, st.errs) =
        (l.foldlM (trainStep errf adapt false E os ntaps symbs) st).map fun st => (st.w, st.errs) := by
      intro l
      induction l with
      | nil => intro st _; rfl
      | cons i l ih =>
        intro st hst
        rw [List.foldlM_cons, List.foldlM_cons]
        have h1 : trainStepFl (fun x => x) errf E os ntaps symbs mu (st.w, st.errs) i = (trainStep errf adapt false E os ntaps symbs st i).map fun st => (st.w, st.errs) := by
          unfold trainStepFl trainStep nextMu
          simp only [hfilt, hup, hsc, hst, Option.bind_eq_bind, Bool.false_and, Bool.false_eq_true, if_false, Option.bind_some]
          cases applyFilter (window E (i * os) ntaps) st.w ntaps with
          | none => rfl
          | some x =>
            simp only [Option.bind_some]
            cases errf x symbs i with
            | none => rfl
            | some e =>
              simp only [Option.bind_some]
              cases updateTaps st.w (window E (i * os) ntaps) ((mu : ℂ) * e) with
              | none => exact rfl
              | some w' => exact rfl
        have h2 : ∀ st', trainStep errf adapt false E os ntaps symbs st i = some st' → st'.mu = mu := by
          intro st' hs
          obtain ⟨x, e, -, -, -, -, g⟩ := trainStep_inv hs
          rcases g with ⟨g, -⟩ | ⟨g, -⟩
          · rw [g, hst]
          · cases g
        rw [h1]
        cases hs : trainStep errf adapt false E os ntaps symbs st i with
        | none => rfl
        | some st' => exact ih st' (h2 st' hs)
    exact key _ { w := w, mu := mu, errs := [] } rfl

/-- Two QPSK symbols received with twice the amplitude, single precision, 1000 iterations from the tap zero: the tap is that of the exact training up to 1/250. -/
example : ∃ st stf, trainMode sbdDataError adaptStep false [[⟨2, 2⟩, ⟨2, -2⟩]] 2 1000 1 1 [⟨1, 1⟩, ⟨1, -1⟩] [[0]] (1 / 16) = some st ∧
    trainModeFl (flP 24) (sbdDataErrorFl (flP 24)) [[⟨2, 2⟩, ⟨2, -2⟩]] 2 1000 1 1 [⟨1, 1⟩, ⟨1, -1⟩] [[0]] (1 / 16) = some stf ∧ √(tapDist stf.1 st.w 1 1) ≤ 1 / 250 := by
  have hstep : ((1000 * 2 : ℕ) : ℝ) * stepErr (2 ^ (-((24 : ℕ) : ℤ))) (1 / 16) (3 / 2) 3 2 (1 * 1) ≤ 1 / 250 := by
    unfold stepErr firErr mulErr
    norm_num
  have hv : tapNorm ([[1 / 2]] : List (List ℂ)) 1 1 = 1 / 2 := by
    simp only [tapNorm, val2, at2, Finset.sum_range_one]
    rw [Real.sqrt_sq (norm_nonneg _)]
    norm_num
  obtain ⟨st, stf, h1, h2, h3, -⟩ := C193_training (flP_rounds 24) (E := [[⟨2, 2⟩, ⟨2, -2⟩]]) (v := [[1 / 2]]) (w := [[0]]) (p := 1) (L := 2) (trSyms := 2) (nIter := 1000) (os := 1) (ntaps := 1) (symbs := [⟨1, 1⟩, ⟨1, -1⟩])
    (mu := 1 / 16) (A := 3 / 2) (R := 3) (W := 2) (D := 1 / 2) ⟨rfl, by simp⟩ ⟨rfl, by simp⟩ (Or.inr (by norm_num)) (by norm_num) (by norm_num) (by norm_num) (by norm_num) (by norm_num) (by
      intro i hi
      simp only [windowEnergy, val2, at2, Finset.sum_range_one, ← Complex.normSq_eq_norm_sq]
      interval_cases i <;> norm_num [Complex.normSq_mk]) (by
      have hn : ∀ z : ℂ, Complex.normSq z ≤ 2 → ‖z‖ ≤ 3 / 2 := by
        intro z hz
        rw [Complex.normSq_eq_norm_sq] at hz
        nlinarith [norm_nonneg z]
      intro i hi
      interval_cases i
      · exact ⟨_, rfl, hn _ (by norm_num [Complex.normSq_mk])⟩
      · exact ⟨_, rfl, hn _ (by norm_num [Complex.normSq_mk])⟩) (by
      rw [Finset.sum_range_succ, Finset.sum_range_one]
      simp only [tapDist, firOutput, val2, at2, Finset.sum_range_one, ← Complex.normSq_eq_norm_sq, Complex.normSq_apply]
      norm_num) (by rw [hv]; linarith) (by norm_num)
  exact ⟨st, stf, h1, h2, h3.trans hstep⟩

end Qampy
