import Verif.Props.TrainAlt
import Mathlib.Analysis.Calculus.Deriv.Pow
import Mathlib.Analysis.Calculus.Deriv.Mul
import Mathlib.Analysis.Calculus.Deriv.Abs
import Mathlib.Analysis.Calculus.Deriv.Slope
import Mathlib.Analysis.SpecialFunctions.Trigonometric.Deriv

/-!
C222: every error function of the equaliser is the direction of steepest descent of its cost function, and a training step with a small step size lowers the cost of its sample.
The exception is `cma2`.
-/

namespace Qampy

open Complex Filter Topology

/-- `errf` points along the negative gradient of `cost symbs i x` at `x` (the cost may depend on the decision made for `x`), with the factor `c`: derivatives along all lines through `x`. -/
def SteepestDescent (errf : ℂ → List ℂ → Nat → Option ℂ) (cost : List ℂ → Nat → ℂ → ℂ → ℝ) (c : ℝ) : Prop :=
  ∀ (symbs : List ℂ) (i : Nat) (x e : ℂ), errf x symbs i = some e →
    ∀ v : ℂ, HasDerivAt (fun t : ℝ => cost symbs i x (x + (t : ℂ) * v)) (-(c * (e.re * v.re + e.im * v.im))) 0

theorem deriv_as {f f' : ℝ → ℝ} {g g' : ℝ} (h : HasDerivAt f g 0) (hf : ∀ t, f' t = f t) (hg : g' = g) : HasDerivAt f' g' 0 := by
  rw [hg, show f' = f from funext hf]
  exact h

theorem line_deriv (a b : ℝ) : HasDerivAt (fun t : ℝ => a + t * b) b 0 :=
  deriv_as (((hasDerivAt_id (0 : ℝ)).mul_const b).const_add a) (fun _ => rfl) (by simp)

theorem line_sq_deriv (a b : ℝ) : HasDerivAt (fun t : ℝ => (a + t * b) ^ 2) (2 * a * b) 0 :=
  deriv_as ((line_deriv a b).pow 2) (fun _ => rfl) (by simp)

theorem gap_sq_deriv {f : ℝ → ℝ} {g : ℝ} (R : ℝ) (h : HasDerivAt f g 0) : HasDerivAt (fun t : ℝ => (R - f t) ^ 2) (-(2 * (R - f 0) * g)) 0 :=
  deriv_as ((h.const_sub R).pow 2) (fun _ => rfl) (by simp)

theorem norm_sq_line (x v : ℂ) (t : ℝ) : ‖x + (t : ℂ) * v‖ ^ 2 = (x.re + t * v.re) ^ 2 + (x.im + t * v.im) ^ 2 := by
  rw [← norm_sq_re_im]; simp

theorem norm_line_deriv (x v : ℂ) : HasDerivAt (fun t : ℝ => ‖x + (t : ℂ) * v‖ ^ 2) (2 * (x.re * v.re + x.im * v.im)) 0 :=
  deriv_as ((line_sq_deriv x.re v.re).add (line_sq_deriv x.im v.im)) (fun t => by rw [norm_sq_line]; rfl) (by ring)

/-- Cost of the constant modulus algorithm with radius `r`. -/
theorem modulus_deriv (r : ℝ) (x v : ℂ) : HasDerivAt (fun t : ℝ => (r - ‖x + (t : ℂ) * v‖ ^ 2) ^ 2) (-(4 * ((r - ‖x‖ ^ 2) * (x.re * v.re + x.im * v.im)))) 0 :=
  deriv_as (gap_sq_deriv r (norm_line_deriv x v)) (fun _ => rfl) (by simp; ring)

/-- Cost of the real or imaginary part with radius `r`. -/
theorem part_deriv (r a b : ℝ) : HasDerivAt (fun t : ℝ => (r - (a + t * b) ^ 2) ^ 2) (-(4 * ((r - a ^ 2) * a * b))) 0 :=
  deriv_as (gap_sq_deriv r (line_sq_deriv a b)) (fun _ => rfl) (by simp; ring)

/-- Weighted distance. -/
theorem dist_deriv (q r a b : ℝ) : HasDerivAt (fun t : ℝ => q * (r - (a + t * b)) ^ 2) (-(2 * ((r - a) * q * b))) 0 :=
  deriv_as ((gap_sq_deriv r (line_deriv a b)).const_mul q) (fun _ => rfl) (by simp; ring)

/-- Both quadratures. -/
theorem part_deriv2 (r q a b c d : ℝ) : HasDerivAt (fun t : ℝ => (r - (a + t * b) ^ 2) ^ 2 + (q - (c + t * d) ^ 2) ^ 2) (-(4 * ((r - a ^ 2) * a * b + (q - c ^ 2) * c * d))) 0 :=
  deriv_as ((part_deriv r a b).add (part_deriv q c d)) (fun _ => rfl) (by ring)

theorem dist_deriv2 (k l r q a b c d : ℝ) : HasDerivAt (fun t : ℝ => k * (r - (a + t * b)) ^ 2 + l * (q - (c + t * d)) ^ 2) (-(2 * ((r - a) * k * b + (q - c) * l * d))) 0 :=
  deriv_as ((dist_deriv k r a b).add (dist_deriv l q c d)) (fun _ => rfl) (by ring)

/-- The costs: (R-|y|²)² for CMA, the same with the ring of `x` for RDE; per quadrature for MCMA and MRDE; the squared distance to the decision for `x` (or to the given symbol) for DD, weighted with the
decision for SBD, of the squares for MDDMA. -/
theorem C222_gradient :
    SteepestDescent cmaError (fun symbs _ _ y => ((symbs.getD 0 0).re - ‖y‖ ^ 2) ^ 2) 4
    ∧ SteepestDescent mcmaError (fun symbs _ _ y => ((symbs.getD 0 0).re - y.re ^ 2) ^ 2 + ((symbs.getD 0 0).im - y.im ^ 2) ^ 2) 4
    ∧ SteepestDescent rdeError (fun symbs _ x y => ((partitionValue (‖x‖ ^ 2) ((arraySplit2 symbs).2.map re) ((arraySplit2 symbs).1.map re)).getD 0 - ‖y‖ ^ 2) ^ 2) 4
    ∧ SteepestDescent mrdeError (fun symbs _ x y =>
        ((partitionValue (x.re ^ 2) ((arraySplit2 symbs).2.map re) ((arraySplit2 symbs).1.map re)).getD 0 - y.re ^ 2) ^ 2
        + ((partitionValue (x.im ^ 2) ((arraySplit2 symbs).2.map im) ((arraySplit2 symbs).1.map im)).getD 0 - y.im ^ 2) ^ 2) 4
    ∧ SteepestDescent ddlmsError (fun symbs _ x y => ‖(detSymbol x symbs).1 - y‖ ^ 2) 2
    ∧ SteepestDescent sbdError (fun symbs _ x y => |(detSymbol x symbs).1.re| * ((detSymbol x symbs).1.re - y.re) ^ 2 + |(detSymbol x symbs).1.im| * ((detSymbol x symbs).1.im - y.im) ^ 2) 2
    ∧ SteepestDescent sbdDataError (fun symbs i _ y => |(symbs.getD i 0).re| * ((symbs.getD i 0).re - y.re) ^ 2 + |(symbs.getD i 0).im| * ((symbs.getD i 0).im - y.im) ^ 2) 2
    ∧ SteepestDescent mddmaError (fun symbs _ x y => ((detSymbol x symbs).1.re ^ 2 - y.re ^ 2) ^ 2 + ((detSymbol x symbs).1.im ^ 2 - y.im ^ 2) ^ 2) 4 := by
  refine ⟨?_, ?_, ?_, ?_, ?_, ?_, ?_, ?_⟩
  · intro symbs i x e h v
    unfold cmaError at h
    cases hs : symbs[0]? with
    | none => simp [hs] at h
    | some s =>
      simp only [hs, Option.bind_eq_bind, Option.bind_some, Option.some.injEq] at h
      subst h
      have hg : symbs.getD 0 0 = s := by rw [List.getD_eq_getElem?_getD, hs]; rfl
      refine deriv_as (modulus_deriv s.re x v) (fun t => by dsimp only; rw [hg]) ?_
      rw [Complex.re_ofReal_mul, Complex.im_ofReal_mul]
      ring
  · intro symbs i x e h v
    unfold mcmaError at h
    cases hs : symbs[0]? with
    | none => simp [hs] at h
    | some s =>
      simp only [hs, Option.bind_eq_bind, Option.bind_some, Option.some.injEq] at h
      subst h
      have hg : symbs.getD 0 0 = s := by rw [List.getD_eq_getElem?_getD, hs]; rfl
      exact deriv_as (part_deriv2 s.re s.im x.re v.re x.im v.im) (fun t => by dsimp only; rw [hg]; simp) rfl
  · intro symbs i x e h v
    unfold rdeError at h
    dsimp only at h
    cases hs : partitionValue (‖x‖ ^ 2) ((arraySplit2 symbs).2.map re) ((arraySplit2 symbs).1.map re) with
    | none => simp [hs] at h
    | some r =>
      simp only [hs, Option.bind_eq_bind, Option.bind_some, Option.some.injEq] at h
      subst h
      refine deriv_as (modulus_deriv r x v) (fun t => by dsimp only; rw [hs]; rfl) ?_
      rw [Complex.re_mul_ofReal, Complex.im_mul_ofReal]
      ring
  · intro symbs i x e h v
    unfold mrdeError at h
    dsimp only at h
    cases hs : partitionValue (x.re ^ 2) ((arraySplit2 symbs).2.map re) ((arraySplit2 symbs).1.map re) with
    | none => simp [hs] at h
    | some r =>
      cases hq : partitionValue (x.im ^ 2) ((arraySplit2 symbs).2.map im) ((arraySplit2 symbs).1.map im) with
      | none => simp [hs, hq] at h
      | some q =>
        simp only [hs, hq, Option.bind_eq_bind, Option.bind_some, Option.some.injEq] at h
        subst h
        exact deriv_as (part_deriv2 r q x.re v.re x.im v.im) (fun t => by dsimp only; rw [hs, hq]; simp) rfl
  · intro symbs i x e h v
    unfold ddlmsError at h
    obtain ⟨s, hs⟩ : ∃ s, s = (detSymbol x symbs).1 := ⟨_, rfl⟩
    rw [← hs, Option.some.injEq] at h
    subst h
    exact deriv_as (dist_deriv2 1 1 s.re s.im x.re v.re x.im v.im) (fun t => by dsimp only; rw [← hs, ← norm_sq_re_im]; simp) (by simp)
  · intro symbs i x e h v
    unfold sbdError at h
    obtain ⟨s, hs⟩ : ∃ s, s = (detSymbol x symbs).1 := ⟨_, rfl⟩
    rw [← hs, Option.some.injEq] at h
    subst h
    exact deriv_as (dist_deriv2 |s.re| |s.im| s.re s.im x.re v.re x.im v.im) (fun t => by dsimp only; rw [← hs]; simp) rfl
  · intro symbs i x e h v
    unfold sbdDataError at h
    cases hs : symbs[i]? with
    | none => simp [hs] at h
    | some s =>
      simp only [hs, Option.bind_eq_bind, Option.bind_some, Option.some.injEq] at h
      subst h
      have hg : symbs.getD i 0 = s := by rw [List.getD_eq_getElem?_getD, hs]; rfl
      exact deriv_as (dist_deriv2 |s.re| |s.im| s.re s.im x.re v.re x.im v.im) (fun t => by dsimp only; rw [hg]; simp) (by simp)
  · intro symbs i x e h v
    unfold mddmaError at h
    obtain ⟨s, hs⟩ : ∃ s, s = (detSymbol x symbs).1 := ⟨_, rfl⟩
    rw [← hs, Option.some.injEq] at h
    subst h
    exact deriv_as (part_deriv2 (s.re ^ 2) (s.im ^ 2) x.re v.re x.im v.im) (fun t => by dsimp only; rw [← hs]; simp) rfl

/-- The cost of the square contour algorithm, (|re+im|+|re-im|)² against (2R)². -/
noncomputable def squareCost (R : ℝ) (y : ℂ) : ℝ := ((|y.re + y.im| + |y.re - y.im|) ^ 2 - 4 * R ^ 2) ^ 2

theorem abs_add_abs_sub (a b : ℝ) : |a + b| + |a - b| = 2 * max |a| |b| := by
  rcases abs_cases (a + b) with h1 | h1 <;> rcases abs_cases (a - b) with h2 | h2 <;> rcases abs_cases a with h3 | h3 <;> rcases abs_cases b with h4 | h4 <;>
    rcases max_cases |a| |b| with h5 | h5 <;> linarith [h1.1, h1.2, h2.1, h2.2, h3.1, h3.2, h4.1, h4.2, h5.1, h5.2]

theorem squareCost_wide {R : ℝ} {y : ℂ} (h : |y.im| ≤ |y.re|) : squareCost R y = 16 * (R ^ 2 - y.re ^ 2) ^ 2 := by
  unfold squareCost
  rw [abs_add_abs_sub, max_eq_left h, mul_pow, sq_abs]
  ring

theorem squareCost_tall {R : ℝ} {y : ℂ} (h : |y.re| ≤ |y.im|) : squareCost R y = 16 * (R ^ 2 - y.im ^ 2) ^ 2 := by
  unfold squareCost
  rw [abs_add_abs_sub, max_eq_right h, mul_pow, sq_abs]
  ring

/-- Away from the diagonals the error of the square contour algorithm is the negative gradient of its cost; on the diagonals, where the cost has no gradient, the cost still falls along the error. -/
theorem C222_square (R : ℝ) (x e : ℂ) (h : nbSca R x = some e) :
    (|x.re| ≠ |x.im| → ∀ v : ℂ, HasDerivAt (fun t : ℝ => squareCost R (x + (t : ℂ) * v)) (-(4 * (e.re * v.re + e.im * v.im))) 0)
    ∧ (|x.re| = |x.im| → HasDerivAt (fun t : ℝ => squareCost R (x + (t : ℂ) * e)) (-(2 * ‖e‖ ^ 2)) 0) := by
  unfold nbSca at h
  rw [Option.some.injEq, mk_re_im] at h
  subst h
  have cont : ∀ (a b : ℝ), Continuous fun t : ℝ => |a + t * b| := fun a b => by fun_prop
  constructor
  · intro hne v
    rcases lt_or_gt_of_ne hne with hlt | hlt
    · have hs : scaSides x = (0, 1) := by unfold scaSides; rw [if_neg (not_le.2 hlt)]
      have hev : ∀ᶠ t : ℝ in 𝓝 (0 : ℝ), squareCost R (x + (t : ℂ) * v) = 16 * (R ^ 2 - (x.im + t * v.im) ^ 2) ^ 2 := by
        have : ∀ᶠ t : ℝ in 𝓝 (0 : ℝ), |x.re + t * v.re| < |x.im + t * v.im| := by
          apply ((cont x.re v.re).tendsto 0).eventually_lt ((cont x.im v.im).tendsto 0)
          simpa using hlt
        filter_upwards [this] with t ht
        rw [squareCost_tall (by simpa using ht.le)]
        simp
      exact deriv_as (((part_deriv (R ^ 2) x.im v.im).const_mul 16).congr_of_eventuallyEq hev) (fun _ => rfl) (by rw [hs]; simp; ring)
    · have hs : scaSides x = (1, 0) := by unfold scaSides; rw [if_pos hlt.le, if_neg hlt.ne']
      have hev : ∀ᶠ t : ℝ in 𝓝 (0 : ℝ), squareCost R (x + (t : ℂ) * v) = 16 * (R ^ 2 - (x.re + t * v.re) ^ 2) ^ 2 := by
        have : ∀ᶠ t : ℝ in 𝓝 (0 : ℝ), |x.im + t * v.im| < |x.re + t * v.re| := by
          apply ((cont x.im v.im).tendsto 0).eventually_lt ((cont x.re v.re).tendsto 0)
          simpa using hlt
        filter_upwards [this] with t ht
        rw [squareCost_wide (by simpa using ht.le)]
        simp
      exact deriv_as (((part_deriv (R ^ 2) x.re v.re).const_mul 16).congr_of_eventuallyEq hev) (fun _ => rfl) (by rw [hs]; simp; ring)
  · intro heq
    have hs : scaSides x = (1, 1) := by unfold scaSides; rw [if_pos heq.ge, if_pos heq]
    rw [hs]
    have hsq : x.re ^ 2 = x.im ^ 2 := (sq_eq_sq_iff_abs_eq_abs _ _).2 heq
    have hev : ∀ t : ℝ, squareCost R (x + (t : ℂ) * (⟨16 * x.re * (R ^ 2 - x.re ^ 2) * 1, 16 * x.im * (R ^ 2 - x.im ^ 2) * 1⟩ : ℂ))
        = 16 * (R ^ 2 - (x.re + t * (16 * x.re * (R ^ 2 - x.re ^ 2) * 1)) ^ 2) ^ 2 := by
      intro t
      rw [squareCost_wide]
      · simp
      · apply le_of_eq
        have h1 : x.im + t * (16 * x.im * (R ^ 2 - x.im ^ 2) * 1) = x.im * (1 + 16 * t * (R ^ 2 - x.re ^ 2)) := by rw [← hsq]; ring
        have h2 : x.re + t * (16 * x.re * (R ^ 2 - x.re ^ 2) * 1) = x.re * (1 + 16 * t * (R ^ 2 - x.re ^ 2)) := by ring
        have h3 : |x.im + t * (16 * x.im * (R ^ 2 - x.im ^ 2) * 1)| = |x.re + t * (16 * x.re * (R ^ 2 - x.re ^ 2) * 1)| := by rw [h1, h2, abs_mul, abs_mul, heq]
        simpa using h3
    refine deriv_as ((part_deriv (R ^ 2) x.re (16 * x.re * (R ^ 2 - x.re ^ 2) * 1)).const_mul 16) hev ?_
    rw [← norm_sq_re_im]
    dsimp only
    rw [← hsq]
    have : (16 * x.im * (R ^ 2 - x.re ^ 2) * 1) ^ 2 = (16 * x.re * (R ^ 2 - x.re ^ 2) * 1) ^ 2 := by
      simp only [mul_pow, hsq]
    rw [this]
    ring

example : nbSca 1 (⟨2, 1⟩ : ℂ) = some ⟨-96, 0⟩ := by
  unfold nbSca
  rw [mk_re_im]
  have : scaSides (⟨2, 1⟩ : ℂ) = (1, 0) := by unfold scaSides; norm_num
  rw [this]; norm_num

/-- The error of the constellation matched algorithm is the negative gradient of the constant modulus cost plus a cost that vanishes at the odd multiples of `d`. -/
theorem C222_matched (R d beta : ℝ) (x e v : ℂ) (h : nbCme R d beta x = some e) :
    HasDerivAt (fun t : ℝ => (R - ‖x + (t : ℂ) * v‖ ^ 2) ^ 2
      + 4 * beta * (Real.cos (Real.pi / (2 * d) * (x + (t : ℂ) * v).re) ^ 2 + Real.cos (Real.pi / (2 * d) * (x + (t : ℂ) * v).im) ^ 2))
      (-(4 * (e.re * v.re + e.im * v.im))) 0 := by
  unfold nbCme at h
  rw [Option.some.injEq] at h
  have hc : ∀ a b : ℝ, HasDerivAt (fun t : ℝ => Real.cos (Real.pi / (2 * d) * (a + t * b)) ^ 2) (-(Real.pi / (2 * d) * Real.sin (a * Real.pi / d) * b)) 0 := by
    intro a b
    refine deriv_as ((((line_deriv a b).const_mul (Real.pi / (2 * d))).cos).pow 2) (fun _ => rfl) ?_
    have h2 : a * Real.pi / d = 2 * (Real.pi / (2 * d) * a) := by
      rcases eq_or_ne d 0 with hd | hd
      · simp [hd]
      · field_simp
    rw [h2, Real.sin_two_mul]
    simp
    ring
  refine deriv_as ((modulus_deriv R x v).add (((hc x.re v.re).add (hc x.im v.im)).const_mul (4 * beta))) (fun t => ?_) ?_
  · simp
  · subst h
    have h1 : (((R - ‖x‖ ^ 2 : ℝ) : ℂ) * x + ((beta * Real.pi / (2 * d) : ℝ) : ℂ) * ((Real.sin (x.re * Real.pi / d) : ℂ) + I * (Real.sin (x.im * Real.pi / d) : ℂ))).re
        = (R - ‖x‖ ^ 2) * x.re + beta * Real.pi / (2 * d) * Real.sin (x.re * Real.pi / d) := by
      rw [mk_re_im, Complex.add_re, Complex.re_ofReal_mul, Complex.re_ofReal_mul]
    have h2 : (((R - ‖x‖ ^ 2 : ℝ) : ℂ) * x + ((beta * Real.pi / (2 * d) : ℝ) : ℂ) * ((Real.sin (x.re * Real.pi / d) : ℂ) + I * (Real.sin (x.im * Real.pi / d) : ℂ))).im
        = (R - ‖x‖ ^ 2) * x.im + beta * Real.pi / (2 * d) * Real.sin (x.im * Real.pi / d) := by
      rw [mk_re_im, Complex.add_im, Complex.im_ofReal_mul, Complex.im_ofReal_mul]
    rw [h1, h2]
    ring

/-! ### The training step -/

theorem lower_of_deriv {f : ℝ → ℝ} {g : ℝ} (h : HasDerivAt f g 0) (hg : g < 0) : ∃ m > 0, ∀ t : ℝ, 0 < t → t < m → f t < f 0 := by
  have h1 := (hasDerivAt_iff_tendsto_slope.1 h).eventually_lt_const hg
  rw [eventually_nhdsWithin_iff, Metric.eventually_nhds_iff] at h1
  obtain ⟨m, hm, h2⟩ := h1
  refine ⟨m, hm, ?_⟩
  intro t ht htm
  have h3 := h2 (y := t) (by rw [Real.dist_eq, sub_zero, abs_of_pos ht]; exact htm) (by simpa using ht.ne')
  rw [slope_def_field, sub_zero, div_lt_iff₀ ht, zero_mul] at h3
  linarith

/-- The energy of a window. -/
noncomputable def winEnergy (p n : Nat) (X : List (List ℂ)) : ℝ := ∑ k ∈ Finset.range p, ∑ i ∈ Finset.range n, ‖val2 X k i‖ ^ 2

theorem energy_pos {X : List (List ℂ)} {p n : Nat} (hX : Rect X p n) (h : ∃ r ∈ X, ∃ z ∈ r, z ≠ 0) : 0 < winEnergy p n X := by
  obtain ⟨r, hr, z, hz, hne⟩ := h
  obtain ⟨k, hk⟩ := List.mem_iff_getElem?.1 hr
  obtain ⟨i, hi⟩ := List.mem_iff_getElem?.1 hz
  have hkp : k < p := by have := (List.getElem?_eq_some_iff.1 hk).1; rwa [hX.1] at this
  have hin : i < n := by have := (List.getElem?_eq_some_iff.1 hi).1; rwa [hX.2 r hr] at this
  have hv : val2 X k i = z := by simp [val2, at2, hk, hi]
  unfold winEnergy
  apply Finset.sum_pos'
  · intro k _; exact Finset.sum_nonneg fun i _ => by positivity
  · refine ⟨k, Finset.mem_range.2 hkp, ?_⟩
    apply Finset.sum_pos'
    · intro i _; positivity
    · exact ⟨i, Finset.mem_range.2 hin, by rw [hv]; positivity⟩

/-- The output of the updated taps for the same samples. -/
theorem output_after {X w : List (List ℂ)} {p n : Nat} (hX : Rect X p n) (hw : Rect w p n) (c x : ℂ) (hx : applyFilter X w n = some x) :
    ∃ w', updateTaps w X c = some w' ∧ applyFilter X w' n = some (x + c * (winEnergy p n X : ℂ)) := by
  obtain ⟨w', h1, h2, h3⟩ := updateTaps_rect hw hX c
  refine ⟨w', h1, ?_⟩
  rw [applyFilter_eq hX hw, Option.some.injEq] at hx
  rw [applyFilter_eq hX h2, ← hx]
  congr 1
  unfold winEnergy
  rw [Complex.ofReal_sum, Finset.mul_sum, ← Finset.sum_add_distrib]
  apply Finset.sum_congr rfl
  intro k hk
  rw [Complex.ofReal_sum, Finset.mul_sum, ← Finset.sum_add_distrib]
  apply Finset.sum_congr rfl
  intro i hi
  rw [h3 k i (Finset.mem_range.1 hk) (Finset.mem_range.1 hi)]
  have : val2 X k i * star (val2 X k i) = ((‖val2 X k i‖ ^ 2 : ℝ) : ℂ) := by
    rw [Complex.star_def, Complex.mul_conj, Complex.normSq_eq_norm_sq]
  rw [mul_add, ← this]
  ring

/-- A training step on the window of symbol `i`, with a step size below a bound that may depend on everything else, lowers the cost of the output for this window. -/
def StepLowers (errf : ℂ → List ℂ → Nat → Option ℂ) (cost : List ℂ → Nat → ℂ → ℂ → ℝ) : Prop :=
  ∀ (adapt : ℝ → ℂ → ℂ → ℝ) (E w : List (List ℂ)) (p L os ntaps i : Nat) (symbs errs : List ℂ) (x e : ℂ), Rect E p L → Rect w p ntaps → i * os + ntaps ≤ L →
    (∃ r ∈ window E (i * os) ntaps, ∃ z ∈ r, z ≠ 0) →
    applyFilter (window E (i * os) ntaps) w ntaps = some x → errf x symbs i = some e → e ≠ 0 →
    ∃ m > 0, ∀ mu : ℝ, 0 < mu → mu < m → ∃ (st : TrainState ℂ) (y : ℂ), trainStep errf adapt false E os ntaps symbs ⟨w, mu, errs⟩ i = some st ∧ st.mu = mu
      ∧ applyFilter (window E (i * os) ntaps) st.w ntaps = some y ∧ cost symbs i x y < cost symbs i x x

/-- The step in terms of the energy of the window. -/
theorem trainStep_output {errf : ℂ → List ℂ → Nat → Option ℂ} (adapt : ℝ → ℂ → ℂ → ℝ) {E w : List (List ℂ)} {p L os ntaps i : Nat} (symbs errs : List ℂ) {x e : ℂ} (hE : Rect E p L) (hw : Rect w p ntaps)
    (hi : i * os + ntaps ≤ L) (hx : applyFilter (window E (i * os) ntaps) w ntaps = some x) (he : errf x symbs i = some e) (mu : ℝ) :
    ∃ st : TrainState ℂ, trainStep errf adapt false E os ntaps symbs ⟨w, mu, errs⟩ i = some st ∧ st.mu = mu
      ∧ applyFilter (window E (i * os) ntaps) st.w ntaps = some (x + ((mu * winEnergy p ntaps (window E (i * os) ntaps) : ℝ) : ℂ) * e) := by
  obtain ⟨w', h1, h2⟩ := output_after (rect_window hE hi) hw ((mu : ℂ) * e) x hx
  refine ⟨⟨w', mu, e :: errs⟩, ?_, rfl, ?_⟩
  · have h1' : updateTaps w (window E (i * os) ntaps) (((mu : ℝ) : ℂ) * e) = some w' := h1
    unfold trainStep nextMu
    simp only [hx, he, Option.bind_eq_bind, Option.bind_some, Bool.false_and]
    erw [h1']
    rfl
  · rw [h2]
    congr 1
    push_cast
    ring

theorem stepLowers_of {errf : ℂ → List ℂ → Nat → Option ℂ} {cost : List ℂ → Nat → ℂ → ℂ → ℝ} {c : ℝ} (hc : 0 < c) (h : SteepestDescent errf cost c) : StepLowers errf cost := by
  intro adapt E w p L os ntaps i symbs errs x e hE hw hi hz hx he hne
  have hP := energy_pos (rect_window hE hi) hz
  obtain ⟨P, hPe⟩ : ∃ P, P = winEnergy p ntaps (window E (i * os) ntaps) := ⟨_, rfl⟩
  rw [← hPe] at hP
  have hn : 0 < e.re * e.re + e.im * e.im := by
    have := norm_sq_re_im e
    have h2 : 0 < ‖e‖ ^ 2 := by positivity
    nlinarith
  obtain ⟨m, hm, h1⟩ := lower_of_deriv (h symbs i x e he e) (by have := mul_pos hc hn; linarith)
  refine ⟨m / P, by positivity, ?_⟩
  intro mu hmu hlt
  obtain ⟨st, h2, h3, h4⟩ := trainStep_output adapt symbs errs hE hw hi hx he mu
  refine ⟨st, _, h2, h3, h4, ?_⟩
  rw [← hPe]
  have h5 := h1 (mu * P) (by positivity) (by rwa [lt_div_iff₀ hP] at hlt)
  simpa using h5

/-- With a small step size each of the training methods lowers its cost for the sample it is trained with. -/
theorem C222_step :
    StepLowers cmaError (fun symbs _ _ y => ((symbs.getD 0 0).re - ‖y‖ ^ 2) ^ 2)
    ∧ StepLowers mcmaError (fun symbs _ _ y => ((symbs.getD 0 0).re - y.re ^ 2) ^ 2 + ((symbs.getD 0 0).im - y.im ^ 2) ^ 2)
    ∧ StepLowers rdeError (fun symbs _ x y => ((partitionValue (‖x‖ ^ 2) ((arraySplit2 symbs).2.map re) ((arraySplit2 symbs).1.map re)).getD 0 - ‖y‖ ^ 2) ^ 2)
    ∧ StepLowers mrdeError (fun symbs _ x y =>
        ((partitionValue (x.re ^ 2) ((arraySplit2 symbs).2.map re) ((arraySplit2 symbs).1.map re)).getD 0 - y.re ^ 2) ^ 2
        + ((partitionValue (x.im ^ 2) ((arraySplit2 symbs).2.map im) ((arraySplit2 symbs).1.map im)).getD 0 - y.im ^ 2) ^ 2)
    ∧ StepLowers ddlmsError (fun symbs _ x y => ‖(detSymbol x symbs).1 - y‖ ^ 2)
    ∧ StepLowers sbdError (fun symbs _ x y => |(detSymbol x symbs).1.re| * ((detSymbol x symbs).1.re - y.re) ^ 2 + |(detSymbol x symbs).1.im| * ((detSymbol x symbs).1.im - y.im) ^ 2)
    ∧ StepLowers sbdDataError (fun symbs i _ y => |(symbs.getD i 0).re| * ((symbs.getD i 0).re - y.re) ^ 2 + |(symbs.getD i 0).im| * ((symbs.getD i 0).im - y.im) ^ 2)
    ∧ StepLowers mddmaError (fun symbs _ x y => ((detSymbol x symbs).1.re ^ 2 - y.re ^ 2) ^ 2 + ((detSymbol x symbs).1.im ^ 2 - y.im ^ 2) ^ 2) := by
  obtain ⟨h1, h2, h3, h4, h5, h6, h7, h8⟩ := C222_gradient
  exact ⟨stepLowers_of (by norm_num) h1, stepLowers_of (by norm_num) h2, stepLowers_of (by norm_num) h3, stepLowers_of (by norm_num) h4, stepLowers_of (by norm_num) h5, stepLowers_of (by norm_num) h6, stepLowers_of (by norm_num) h7, stepLowers_of (by norm_num) h8⟩

theorem nb_output_after {X w : List (List ℂ)} {p n : Nat} (hX : Rect X p n) (hw : Rect w p n) (mu : ℝ) (e x : ℂ) (hx : nbApply w X = some x) :
    ∃ w', nbUpdate w X mu e = some w' ∧ nbApply w' X = some (x + ((mu * winEnergy p n X : ℝ) : ℂ) * e) := by
  have hr := rect_tableOf p n fun k i => val2 w k i + (mu : ℂ) * star e * val2 X k i
  refine ⟨_, nbUpdate_eq hX hw mu e, ?_⟩
  rw [nbApply_eq hX hw, Option.some.injEq] at hx
  rw [nbApply_eq hX hr, ← hx]
  congr 1
  unfold winEnergy
  rw [Complex.ofReal_mul, Complex.ofReal_sum, Finset.mul_sum, Finset.sum_mul, ← Finset.sum_add_distrib]
  apply Finset.sum_congr rfl
  intro k hk
  rw [Complex.ofReal_sum, Finset.mul_sum, Finset.sum_mul, ← Finset.sum_add_distrib]
  apply Finset.sum_congr rfl
  intro i hi
  have h1 : val2 (tableOf p n fun k i => val2 w k i + (mu : ℂ) * star e * val2 X k i) k i = val2 w k i + (mu : ℂ) * star e * val2 X k i := by
    simp [val2, at2, tableOf, List.getElem?_range (Finset.mem_range.1 hk), List.getElem?_range (Finset.mem_range.1 hi)]
  have h2 : star (val2 X k i) * val2 X k i = ((‖val2 X k i‖ ^ 2 : ℝ) : ℂ) := by
    rw [mul_comm, Complex.star_def, Complex.mul_conj, Complex.normSq_eq_norm_sq]
  rw [h1, ← h2]
  simp
  ring

/-- The numba trainer with the square contour and the constellation matched error functions: a small step lowers the cost of the sample. -/
theorem C222_numba_step {E w : List (List ℂ)} {p L os ntaps i : Nat} (errs : List ℂ) {x : ℂ} (hE : Rect E p L) (hw : Rect w p ntaps) (hi : i * os + ntaps ≤ L)
    (hz : ∃ r ∈ window E (i * os) ntaps, ∃ z ∈ r, z ≠ 0) (hx : nbApply w (window E (i * os) ntaps) = some x) (R d beta : ℝ) :
    (nbSca R x ≠ some 0 → ∃ m > 0, ∀ mu : ℝ, 0 < mu → mu < m → ∃ (st : TrainState ℂ) (y : ℂ), nbTrainStep (nbSca R) false E os ntaps ⟨w, mu, errs⟩ i = some st
      ∧ nbApply st.w (window E (i * os) ntaps) = some y ∧ squareCost R y < squareCost R x)
    ∧ (nbCme R d beta x ≠ some 0 → ∃ m > 0, ∀ mu : ℝ, 0 < mu → mu < m → ∃ (st : TrainState ℂ) (y : ℂ), nbTrainStep (nbCme R d beta) false E os ntaps ⟨w, mu, errs⟩ i = some st
      ∧ nbApply st.w (window E (i * os) ntaps) = some y
      ∧ (R - ‖y‖ ^ 2) ^ 2 + 4 * beta * (Real.cos (Real.pi / (2 * d) * y.re) ^ 2 + Real.cos (Real.pi / (2 * d) * y.im) ^ 2)
        < (R - ‖x‖ ^ 2) ^ 2 + 4 * beta * (Real.cos (Real.pi / (2 * d) * x.re) ^ 2 + Real.cos (Real.pi / (2 * d) * x.im) ^ 2)) := by
  have hP := energy_pos (rect_window hE hi) hz
  have step : ∀ (errf : ℂ → Option ℂ) (J : ℂ → ℝ) (e : ℂ) (g : ℝ), errf x = some e → g < 0 → HasDerivAt (fun t : ℝ => J (x + (t : ℂ) * e)) g 0 →
      ∃ m > 0, ∀ mu : ℝ, 0 < mu → mu < m → ∃ (st : TrainState ℂ) (y : ℂ), nbTrainStep errf false E os ntaps ⟨w, mu, errs⟩ i = some st ∧ nbApply st.w (window E (i * os) ntaps) = some y ∧ J y < J x := by
    intro errf J e g he hg hd
    obtain ⟨m, hm, h1⟩ := lower_of_deriv hd hg
    refine ⟨m / winEnergy p ntaps (window E (i * os) ntaps), by positivity, ?_⟩
    intro mu hmu hlt
    obtain ⟨w', h2, h3⟩ := nb_output_after (rect_window hE hi) hw mu e x hx
    refine ⟨⟨w', mu, e :: errs⟩, _, ?_, h3, ?_⟩
    · unfold nbTrainStep
      simp [hx, he, h2]
    · have h5 := h1 (mu * winEnergy p ntaps (window E (i * os) ntaps)) (by positivity) (by rwa [lt_div_iff₀ hP] at hlt)
      simpa using h5
  have pos : ∀ e : ℂ, e ≠ 0 → 0 < e.re * e.re + e.im * e.im := by
    intro e he
    have := norm_sq_re_im e
    have h2 : 0 < ‖e‖ ^ 2 := by positivity
    nlinarith
  constructor
  · intro hne
    obtain ⟨e, he⟩ : ∃ e, nbSca R x = some e := ⟨_, rfl⟩
    have he0 : e ≠ 0 := fun h => hne (by rw [he, h])
    by_cases hd : |x.re| = |x.im|
    · have h2 : 0 < ‖e‖ ^ 2 := by positivity
      exact step _ (squareCost R) e _ he (by linarith) ((C222_square R x e he).2 hd)
    · exact step _ (squareCost R) e _ he (by have := pos e he0; linarith) ((C222_square R x e he).1 hd e)
  · intro hne
    obtain ⟨e, he⟩ : ∃ e, nbCme R d beta x = some e := ⟨_, rfl⟩
    have he0 : e ≠ 0 := fun h => hne (by rw [he, h])
    exact step _ (fun y => (R - ‖y‖ ^ 2) ^ 2 + 4 * beta * (Real.cos (Real.pi / (2 * d) * y.re) ^ 2 + Real.cos (Real.pi / (2 * d) * y.im) ^ 2)) e _ he (by have := pos e he0; linarith) (C222_matched R d beta x e e he)

/-- The claim for all of the training methods: the cost of `cma2` is the one of the constant modulus algorithm, which it is named after. -/
def C222_statement : Prop := StepLowers cma2Error (fun symbs _ _ y => ((symbs.getD 0 0).re - ‖y‖ ^ 2) ^ 2)

/-- A perfect sample of modulus one, turned by ninety degrees, is driven away from the circle by `cma2`, whatever the step size. -/
theorem C222_false : ¬ C222_statement := by
  intro h
  obtain ⟨m, hm, h1⟩ := h (fun mu _ _ => mu) [[I]] [[1]] 1 1 1 1 0 [1] [] I (2 * I) ⟨rfl, by simp⟩ ⟨rfl, by simp⟩ (by norm_num) ⟨[I], by simp [window], I, by simp, I_ne_zero⟩
    (by simp [applyFilter, window, at2]) (by simp [cma2Error]; norm_num) (by simp)
  obtain ⟨st, y, -, -, -, h2⟩ := h1 (m / 2) (by positivity) (by linarith)
  simp at h2
  linarith [sq_nonneg (1 - ‖y‖ ^ 2)]

/-- `cma2` agrees with the constant modulus algorithm for real samples only. -/
theorem C222_cma2 (x s : ℂ) (hs : s.im = 0) (hx : x ≠ 0) (i : Nat) : cma2Error x [s] i = cmaError x [s] i ↔ x.im = 0 := by
  have h : (‖x‖ : ℂ) ^ 2 = x * star x := by
    rw [Complex.star_def, Complex.mul_conj, Complex.normSq_eq_norm_sq]; push_cast; ring
  have hs' : ((s.re : ℝ) : ℂ) = s := Complex.ext (by simp) (by simp [hs])
  simp only [cma2Error, cmaError, List.getElem?_cons_zero, Option.bind_eq_bind, Option.bind_some, Option.some.injEq]
  push_cast
  rw [hs', h, mul_left_inj' hx, sub_right_inj, sq, mul_right_inj' hx, Complex.star_def, eq_comm, Complex.conj_eq_iff_im]

/-- Non-trivial case: a single tap filter and the constant modulus algorithm, output 2 with radius 1. -/
example (adapt : ℝ → ℂ → ℂ → ℝ) : ∃ m > 0, ∀ mu : ℝ, 0 < mu → mu < m → ∃ (st : TrainState ℂ) (y : ℂ), trainStep cmaError adapt false [[2]] 1 1 [1] ⟨[[1]], mu, []⟩ 0 = some st ∧ st.mu = mu
      ∧ applyFilter (window [[2]] (0 * 1) 1) st.w 1 = some y ∧ ((([1] : List ℂ).getD 0 0).re - ‖y‖ ^ 2) ^ 2 < ((([1] : List ℂ).getD 0 0).re - ‖(2 : ℂ)‖ ^ 2) ^ 2 :=
  C222_step.1 adapt [[2]] [[1]] 1 1 1 1 0 [1] [] 2 (-6) ⟨rfl, by simp⟩ ⟨rfl, by simp⟩ (by norm_num) ⟨[2], by simp [window], 2, by simp, by norm_num⟩
    (by simp [applyFilter, window, at2]) (by simp [cmaError]; norm_num) (by norm_num)

end Qampy
