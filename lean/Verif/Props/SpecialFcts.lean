import Verif.Tactics
import Verif.Model.SpecialFcts

/-!
C207: the pulse shapes of core/special_fcts.py.
-/

namespace Qampy

/-- A pulse with amplitude `A` and centre `x0`: it has the value `A` at the centre, is positive, symmetric about the centre and falls with the distance from the centre. -/
structure PulseShape (f : ℝ → ℝ) (A x0 : ℝ) : Prop where
  peak : f x0 = A
  pos : ∀ x, 0 < f x
  symm : ∀ d, f (x0 + d) = f (x0 - d)
  falls : ∀ a b, |a - x0| < |b - x0| → f b < f a

theorem PulseShape.of_abs {g : ℝ → ℝ} {A x0 w : ℝ} (hw : w ≠ 0) (h0 : g 0 = A) (hpos : ∀ t, 0 < g t) (heven : ∀ t, g (-t) = g t)
    (hlt : ∀ s t : ℝ, |s| < |t| → g t < g s) : PulseShape (fun x => g ((x - x0) / w)) A x0 where
  peak := by simp [h0]
  pos x := hpos _
  symm d := by
    have e1 : (x0 + d - x0) / w = d / w := by ring
    have e2 : (x0 - d - x0) / w = -(d / w) := by ring
    show g ((x0 + d - x0) / w) = g ((x0 - d - x0) / w)
    rw [e1, e2, heven]
  falls a b h := by
    apply hlt
    rw [abs_div, abs_div]
    exact div_lt_div_of_pos_right h (abs_pos.2 hw)

/-- C207: `gauss` is a pulse; at the distance `w` it has fallen to `A/√e`. -/
theorem C207_gauss {A w : ℝ} (x0 : ℝ) (hA : 0 < A) (hw : w ≠ 0) :
    PulseShape (fun x => gaussPulse x A x0 w) A x0 ∧ gaussPulse (x0 + w) A x0 w = A / Real.sqrt (Real.exp 1) := by
  constructor
  · refine PulseShape.of_abs (g := fun t => A * Real.exp (-(t ^ 2) / 2)) hw (by simp) (fun t => by positivity) (fun t => by simp) fun s t h => ?_
    refine mul_lt_mul_of_pos_left (Real.exp_lt_exp.2 ?_) hA
    have := sq_lt_sq.2 h
    linarith
  · have e : (x0 + w - x0) / w = 1 := by rw [add_sub_cancel_left, div_self hw]
    unfold gaussPulse
    rw [e, ← Real.exp_half, div_eq_mul_inv A, ← Real.exp_neg]
    norm_num

/-- C207: `sech` is a pulse. -/
theorem C207_sech {A w : ℝ} (x0 : ℝ) (hA : 0 < A) (hw : w ≠ 0) : PulseShape (fun x => sechPulse x A x0 w) A x0 := by
  refine PulseShape.of_abs (g := fun t => A / Real.cosh t) hw (by simp) (fun t => div_pos hA (Real.cosh_pos t)) (fun t => by simp) fun s t h => ?_
  exact div_lt_div_of_pos_left hA (Real.cosh_pos s) (Real.cosh_lt_cosh.2 h)

/-- C207: `ttanh` is a step from `-A` to `A`: it rises, is odd about `x0` and stays between the levels. -/
theorem C207_ttanh {A w : ℝ} (x0 : ℝ) (hA : 0 < A) (hw : 0 < w) :
    StrictMono (fun x => ttanh x A x0 w) ∧ (∀ d, ttanh (x0 + d) A x0 w = -ttanh (x0 - d) A x0 w) ∧ ∀ x, |ttanh x A x0 w| < A := by
  refine ⟨fun a b h => ?_, fun d => ?_, fun x => ?_⟩
  · refine mul_lt_mul_of_pos_left ?_ hA
    have hlt : (a - x0) / w < (b - x0) / w := div_lt_div_of_pos_right (by linarith) hw
    rw [Real.tanh_eq_sinh_div_cosh, Real.tanh_eq_sinh_div_cosh, div_lt_div_iff₀ (Real.cosh_pos _) (Real.cosh_pos _)]
    have := Real.sinh_pos_iff.2 (sub_pos.2 hlt)
    rw [Real.sinh_sub] at this
    linarith
  · unfold ttanh
    have e2 : (x0 - d - x0) / w = -((x0 + d - x0) / w) := by ring
    rw [e2, Real.tanh_neg]
    ring
  · unfold ttanh
    rw [abs_mul, abs_of_pos hA]
    have := mul_lt_mul_of_pos_left (Real.abs_tanh_lt_one ((x - x0) / w)) hA
    linarith

/-- A supergaussian of an integer order. -/
theorem supergauss_nat (x A x0 w : ℝ) (k : Nat) : supergauss x A x0 w k = some (A * Real.exp (-(((x - x0) / w) ^ (2 * k)) / 2)) := by
  unfold supergauss npPow
  rw [if_neg (by rintro ⟨-, h⟩; exact h ⟨2 * k, by push_cast; ring⟩)]
  rw [show (2 * (k : ℝ)) = ((2 * k : Nat) : ℝ) by push_cast; ring, Real.rpow_natCast]
  rfl

/-- C207: for integer orders `supergauss` is a pulse, of the same height `A/√e` at the distance `w` for every order; the first order is `gauss`. -/
theorem C207_supergauss {A w : ℝ} (x0 : ℝ) (hA : 0 < A) (hw : w ≠ 0) {k : Nat} (hk : 0 < k) :
    ∃ f : ℝ → ℝ, (∀ x, supergauss x A x0 w k = some (f x)) ∧ PulseShape f A x0 ∧ f (x0 + w) = A / Real.sqrt (Real.exp 1) ∧ (k = 1 → f = fun x => gaussPulse x A x0 w) := by
  refine ⟨fun x => A * Real.exp (-(((x - x0) / w) ^ (2 * k)) / 2), fun x => supergauss_nat x A x0 w k, ?_, ?_, ?_⟩
  · refine PulseShape.of_abs (g := fun t => A * Real.exp (-(t ^ (2 * k)) / 2)) hw ?_ (fun t => by positivity) (fun t => ?_) fun s t h => ?_
    · simp [hk.ne']
    · simp only [(even_two_mul k).neg_pow]
    · refine mul_lt_mul_of_pos_left (Real.exp_lt_exp.2 ?_) hA
      have : |s| ^ (2 * k) < |t| ^ (2 * k) := pow_lt_pow_left₀ h (abs_nonneg s) (by omega)
      rw [(even_two_mul k).pow_abs, (even_two_mul k).pow_abs] at this
      linarith
  · have e : (x0 + w - x0) / w = 1 := by rw [add_sub_cancel_left, div_self hw]
    show A * Real.exp (-(((x0 + w - x0) / w) ^ (2 * k)) / 2) = _
    rw [e, one_pow, ← Real.exp_half, div_eq_mul_inv A, ← Real.exp_neg]
    norm_num
  · rintro rfl
    rfl

/-- C207: unless twice the order is an integer, one side of the supergaussian is not a number. -/
theorem C207_nan {w o : ℝ} (A : ℝ) (_hw : w ≠ 0) (ho : ∀ k : ℤ, 2 * o ≠ k) (x x0 : ℝ) : supergauss x A x0 w o = none ↔ (x - x0) / w < 0 := by
  unfold supergauss npPow
  by_cases h : (x - x0) / w < 0
  · rw [if_pos ⟨h, by rintro ⟨k, hk⟩; exact ho k hk⟩]
    simp [h]
  · rw [if_neg (by tauto)]
    simp [h]

/-- C207: for half-integer orders one side of the supergaussian rises above the amplitude, without bound. -/
theorem C207_odd {A w : ℝ} (x0 : ℝ) (hA : 0 < A) (hw : 0 < w) (k : Nat) (B : ℝ) : ∃ x y, supergauss x A x0 w (k + 1 / 2) = some y ∧ B < y := by
  obtain ⟨t, ht1, ht2⟩ : ∃ t : ℝ, 1 ≤ t ∧ 2 * B / A ≤ t := ⟨max 1 (2 * B / A), le_max_left _ _, le_max_right _ _⟩
  refine ⟨x0 - w * t, A * Real.exp (t ^ (2 * k + 1) / 2), ?_, ?_⟩
  · have e : (x0 - w * t - x0) / w = -t := by field_simp; ring
    unfold supergauss npPow
    rw [e, if_neg (by rintro ⟨-, h⟩; exact h ⟨2 * k + 1, by push_cast; ring⟩)]
    rw [show (2 * ((k : ℝ) + 1 / 2)) = ((2 * k + 1 : Nat) : ℝ) by push_cast; ring, Real.rpow_natCast, (odd_two_mul_add_one k).neg_pow, Option.map_some, neg_neg]
  · have h1 : t ≤ t ^ (2 * k + 1) := le_self_pow₀ ht1 (by omega)
    have h2 := Real.add_one_le_exp (t ^ (2 * k + 1) / 2)
    have h3 : B / A < Real.exp (t ^ (2 * k + 1) / 2) := by
      have : 2 * B / A = 2 * (B / A) := by ring
      linarith
    rw [div_lt_iff₀ hA] at h3
    linarith

/-- C207 as stated: the supergaussian is a pulse for every positive order (the order is documented as a float). -/
def C207_statement : Prop := ∀ A x0 w o : ℝ, 0 < A → 0 < w → 0 < o → ∃ f : ℝ → ℝ, (∀ x, supergauss x A x0 w o = some (f x)) ∧ PulseShape f A x0

theorem C207_false : ¬ C207_statement := by
  intro h
  obtain ⟨f, hf, hp⟩ := h 1 0 1 (((1 : Nat) : ℝ) + 1 / 2) one_pos one_pos (by norm_num)
  obtain ⟨x, y, hx, hy⟩ := C207_odd 0 one_pos one_pos 1 1
  have hxy : f x = y := Option.some.inj ((hf x).symm.trans hx)
  by_cases h0 : x = 0
  · rw [h0, hp.peak] at hxy
    linarith
  · have := hp.falls 0 x (by simpa using h0)
    rw [hp.peak] at this
    linarith

/-- The hypotheses of C207 are met: the second order, and an order whose double is not an integer. -/
example : (∃ f : ℝ → ℝ, (∀ x, supergauss x 2 1 3 ((2 : Nat) : ℝ) = some (f x)) ∧ PulseShape f 2 1) ∧ supergauss 0 2 1 3 (1 / 4 : ℝ) = none := by
  constructor
  · obtain ⟨f, h1, h2, -⟩ := C207_supergauss (A := 2) (w := 3) 1 (by norm_num) (by norm_num) (k := 2) (by norm_num)
    exact ⟨f, h1, h2⟩
  · refine (C207_nan 2 (by norm_num) (fun k hk => ?_) 0 1).2 (by norm_num)
    have h1 : (1 : ℝ) = ((2 * k : ℤ) : ℝ) := by push_cast; linarith
    have h2 : (1 : ℤ) = 2 * k := by exact_mod_cast h1
    omega

end Qampy
