import Verif.Model.PulseTime
import Verif.Props.PulseShape
import Mathlib.MeasureTheory.Integral.IntervalIntegral.FundThmCalculus
import Mathlib.Analysis.SpecialFunctions.Integrals.Basic
import Mathlib.MeasureTheory.Measure.Haar.NormedSpace
import Mathlib.Analysis.SpecialFunctions.Trigonometric.Deriv
import Mathlib.Analysis.Real.Pi.Bounds

/-!
Raised cosine pulses in the time domain are the Fourier transforms of the spectra (C124, C126); impulse response of the time domain pulse shaping (C125).
-/

namespace Qampy

open MeasureTheory

/-! ### Fourier integrals of even spectra -/

/-- The inverse Fourier integral of a real spectrum. -/
noncomputable def invFourier (G : ℝ → ℝ) (t : ℝ) : ℂ := ∫ f : ℝ, (G f : ℂ) * Complex.exp (2 * Real.pi * Complex.I * f * t)

theorem intervalIntegrable_ofReal {G : ℝ → ℝ} {a b : ℝ} (h : IntervalIntegrable G volume a b) : IntervalIntegrable (fun f => (G f : ℂ)) volume a b := ⟨h.1.ofReal, h.2.ofReal⟩

theorem invFourier_even {G : ℝ → ℝ} {b : ℝ} (hb : 0 ≤ b) (heven : ∀ f, G (-f) = G f) (hsupp : ∀ f, b < |f| → G f = 0) (hint : IntervalIntegrable G volume 0 b) (t : ℝ) :
    invFourier G t = ((2 * ∫ f in (0 : ℝ)..b, G f * Real.cos (2 * Real.pi * t * f) : ℝ) : ℂ) := by
  obtain ⟨H, hH⟩ : ∃ H : ℝ → ℂ, H = fun f => (G f : ℂ) * Complex.exp (2 * Real.pi * Complex.I * f * t) := ⟨_, rfl⟩
  have hexp : ∀ f : ℝ, Complex.exp (2 * Real.pi * Complex.I * f * t) = Real.cos (2 * Real.pi * t * f) + Real.sin (2 * Real.pi * t * f) * Complex.I := by
    intro f
    rw [show (2 * Real.pi * Complex.I * f * t : ℂ) = ((2 * Real.pi * t * f : ℝ) : ℂ) * Complex.I by push_cast; ring, Complex.exp_mul_I, Complex.ofReal_cos, Complex.ofReal_sin]
  have hcont : Continuous fun f : ℝ => Complex.exp (2 * Real.pi * Complex.I * f * t) := by fun_prop
  have hG1 : IntervalIntegrable H volume 0 b := by
    rw [hH]
    exact (intervalIntegrable_ofReal hint).mul_continuousOn hcont.continuousOn
  have hG2 : IntervalIntegrable H volume (-b) 0 := by
    have h1 : IntervalIntegrable G volume (-b) 0 := by
      have := ((IntervalIntegrable.iff_comp_neg (by finiteness)).1 hint).symm
      simp only [neg_zero, heven] at this
      exact this
    rw [hH]
    exact (intervalIntegrable_ofReal h1).mul_continuousOn hcont.continuousOn
  have h1 : ∫ f : ℝ, H f = ∫ f in (-b)..b, H f := by
    rw [intervalIntegral.integral_of_le (by linarith), ← integral_Icc_eq_integral_Ioc, setIntegral_eq_integral_of_forall_compl_eq_zero]
    intro f hf
    rw [hH]
    dsimp only
    rw [hsupp f, Complex.ofReal_zero, zero_mul]
    by_contra hc
    rw [not_lt] at hc
    exact hf (abs_le.1 hc)
  have h2 : ∫ f in (-b)..(0 : ℝ), H f = ∫ f in (0 : ℝ)..b, H (-f) := by
    rw [intervalIntegral.integral_comp_neg]
    simp
  unfold invFourier
  rw [← hH, h1, ← intervalIntegral.integral_add_adjacent_intervals hG2 hG1, h2, ← intervalIntegral.integral_add]
  · rw [← intervalIntegral.integral_const_mul, ← intervalIntegral.integral_ofReal]
    apply intervalIntegral.integral_congr
    intro f _
    rw [hH]
    dsimp only
    rw [heven, hexp, hexp]
    push_cast
    rw [show (2 * Real.pi * t * -f : ℂ) = -(2 * Real.pi * t * f) by ring, Complex.cos_neg, Complex.sin_neg]
    ring
  · have := ((IntervalIntegrable.iff_comp_neg (by finiteness)).1 hG2).symm
    simpa using this
  · exact hG1

theorem integral_cos_mul {w : ℝ} (hw : w ≠ 0) (a b : ℝ) : ∫ f in a..b, Real.cos (w * f) = (Real.sin (w * b) - Real.sin (w * a)) / w := by
  rw [intervalIntegral.integral_comp_mul_left _ hw, integral_cos, smul_eq_mul]
  field_simp

theorem integral_cos_cos {k w a : ℝ} (h : w ^ 2 ≠ k ^ 2) (b : ℝ) :
    ∫ f in a..b, Real.cos (k * (f - a)) * Real.cos (w * f) = (w * Real.cos (k * (b - a)) * Real.sin (w * b) - k * Real.sin (k * (b - a)) * Real.cos (w * b) - w * Real.sin (w * a)) / (w ^ 2 - k ^ 2) := by
  have hne : w ^ 2 - k ^ 2 ≠ 0 := sub_ne_zero.2 h
  have hd : ∀ f ∈ Set.uIcc a b, HasDerivAt (fun f => (w * Real.cos (k * (f - a)) * Real.sin (w * f) - k * Real.sin (k * (f - a)) * Real.cos (w * f)) / (w ^ 2 - k ^ 2)) (Real.cos (k * (f - a)) * Real.cos (w * f)) f := by
    intro f _
    have h1 : HasDerivAt (fun f : ℝ => k * (f - a)) k f := by
      have := ((hasDerivAt_id f).sub_const a).const_mul k
      simpa using this
    have h2 : HasDerivAt (fun f : ℝ => w * f) w f := by
      have := (hasDerivAt_id f).const_mul w
      simpa using this
    have h3 := ((((h1.cos).const_mul w).mul h2.sin).sub (((h1.sin).const_mul k).mul h2.cos)).div_const (w ^ 2 - k ^ 2)
    refine HasDerivAt.congr_deriv h3 ?_
    field_simp
    ring
  rw [intervalIntegral.integral_eq_sub_of_hasDerivAt hd (by apply Continuous.intervalIntegrable; fun_prop)]
  simp
  ring

theorem integral_cos_same {k a b : ℝ} (hk : k ≠ 0) :
    ∫ f in a..b, Real.cos (k * (f - a)) * Real.cos (k * f) = ((Real.sin (k * (2 * b - a)) - Real.sin (k * a)) / (2 * k) + (b - a) * Real.cos (k * a)) / 2 := by
  have hd : ∀ f ∈ Set.uIcc a b, HasDerivAt (fun f => (Real.sin (k * (2 * f - a)) / (2 * k) + f * Real.cos (k * a)) / 2) (Real.cos (k * (f - a)) * Real.cos (k * f)) f := by
    intro f _
    have h1 : HasDerivAt (fun f : ℝ => k * (2 * f - a)) (k * 2) f := by
      have := (((hasDerivAt_id f).const_mul 2).sub_const a).const_mul k
      simpa using this
    have h3 := ((h1.sin.div_const (2 * k)).add ((hasDerivAt_id f).mul_const (Real.cos (k * a)))).div_const 2
    refine HasDerivAt.congr_deriv h3 ?_
    have e1 : k * (2 * f - a) = k * (f - a) + k * f := by ring
    have e2 : k * a = k * f - k * (f - a) := by ring
    have e3 : Real.cos (k * a) = Real.cos (k * f) * Real.cos (k * (f - a)) + Real.sin (k * f) * Real.sin (k * (f - a)) := by
      rw [e2, Real.cos_sub]
    rw [e1, e3, Real.cos_add]
    field_simp
    ring
  rw [intervalIntegral.integral_eq_sub_of_hasDerivAt hd (by apply Continuous.intervalIntegrable; fun_prop)]
  rw [show k * (2 * a - a) = k * a by ring]
  ring

/-! ### The spectra -/

theorem rrcosFreq_pieces {beta T f : ℝ} (hT : 0 < T) (hb : 0 < beta) (hf : 0 ≤ f) :
    (f ≤ (1 - beta) / (2 * T) → rrcosFreq beta T f = Real.sqrt T) ∧
    ((1 - beta) / (2 * T) ≤ f → f ≤ (1 + beta) / (2 * T) → rrcosFreq beta T f = Real.sqrt T * Real.cos (Real.pi * T / (2 * beta) * (f - (1 - beta) / (2 * T)))) := by
  have h1 : f ≤ (1 - beta) / (2 * T) → rrcosFreq beta T f = Real.sqrt T := by
    intro h
    unfold rrcosFreq rcosFreq
    rw [abs_of_nonneg hf, if_pos h]
  refine ⟨h1, ?_⟩
  intro ha hb2
  rcases ha.eq_or_lt with he | hlt
  · rw [h1 he.ge, ← he]
    simp
  have hpi := Real.pi_pos
  unfold rrcosFreq rcosFreq
  rw [abs_of_nonneg hf, if_neg (not_le.2 hlt), if_pos hb2]
  obtain ⟨x, hx⟩ : ∃ x, x = Real.pi * T / (2 * beta) * (f - (1 - beta) / (2 * T)) := ⟨_, rfl⟩
  have hx2 : Real.pi * T / beta * (f - (1 - beta) / (2 * T)) = 2 * x := by rw [hx]; field_simp
  have hx0 : 0 ≤ x := by rw [hx]; exact mul_nonneg (by positivity) (by linarith)
  have hx1 : x ≤ Real.pi / 2 := by
    have h3 : f - (1 - beta) / (2 * T) ≤ beta / T := by
      have : (1 + beta) / (2 * T) - (1 - beta) / (2 * T) = beta / T := by field_simp; ring
      linarith
    calc x ≤ Real.pi * T / (2 * beta) * (beta / T) := by rw [hx]; gcongr
      _ = Real.pi / 2 := by field_simp
  rw [hx2, ← hx, Real.cos_two_mul, show T / 2 * (1 + (2 * Real.cos x ^ 2 - 1)) = T * Real.cos x ^ 2 by ring, Real.sqrt_mul hT.le, Real.sqrt_sq (Real.cos_nonneg_of_mem_Icc ⟨by linarith, hx1⟩)]

theorem rcosFreq_pieces {beta T f : ℝ} (hf : 0 ≤ f) :
    (f ≤ (1 - beta) / (2 * T) → rcosFreq beta T f = T) ∧
    ((1 - beta) / (2 * T) ≤ f → f ≤ (1 + beta) / (2 * T) → rcosFreq beta T f = T / 2 * (1 + Real.cos (Real.pi * T / beta * (f - (1 - beta) / (2 * T))))) := by
  have h1 : f ≤ (1 - beta) / (2 * T) → rcosFreq beta T f = T := by
    intro h
    unfold rcosFreq
    rw [abs_of_nonneg hf, if_pos h]
  refine ⟨h1, ?_⟩
  intro ha hb2
  rcases ha.eq_or_lt with he | hlt
  · rw [h1 he.ge, ← he]
    simp
    ring
  unfold rcosFreq
  rw [abs_of_nonneg hf, if_neg (not_le.2 hlt), if_pos hb2]

/-- Fourier integral of a spectrum given by two continuous pieces. -/
theorem invFourier_pieces {G g1 g2 : ℝ → ℝ} {a b : ℝ} (ha : 0 ≤ a) (hab : a ≤ b) (heven : ∀ f, G (-f) = G f) (hsupp : ∀ f, b < |f| → G f = 0) (hc1 : Continuous g1) (hc2 : Continuous g2)
    (h1 : ∀ f, 0 ≤ f → f ≤ a → G f = g1 f) (h2 : ∀ f, a ≤ f → f ≤ b → G f = g2 f) (t : ℝ) :
    invFourier G t = ((2 * ((∫ f in (0 : ℝ)..a, g1 f * Real.cos (2 * Real.pi * t * f)) + ∫ f in a..b, g2 f * Real.cos (2 * Real.pi * t * f)) : ℝ) : ℂ) := by
  have e1 : Set.EqOn g1 G (Set.uIoc 0 a) := by
    intro f hf
    rw [Set.uIoc_of_le ha] at hf
    exact (h1 f hf.1.le hf.2).symm
  have e2 : Set.EqOn g2 G (Set.uIoc a b) := by
    intro f hf
    rw [Set.uIoc_of_le hab] at hf
    exact (h2 f hf.1.le hf.2).symm
  have i1 : IntervalIntegrable G volume 0 a := (hc1.intervalIntegrable 0 a).congr e1
  have i2 : IntervalIntegrable G volume a b := (hc2.intervalIntegrable a b).congr e2
  have hcos : Continuous fun f => Real.cos (2 * Real.pi * t * f) := by fun_prop
  rw [invFourier_even (ha.trans hab) heven hsupp (i1.trans i2) t, ← intervalIntegral.integral_add_adjacent_intervals (i1.mul_continuousOn hcos.continuousOn) (i2.mul_continuousOn hcos.continuousOn)]
  have c1 : ∫ f in (0 : ℝ)..a, G f * Real.cos (2 * Real.pi * t * f) = ∫ f in (0 : ℝ)..a, g1 f * Real.cos (2 * Real.pi * t * f) := by
    apply intervalIntegral.integral_congr
    intro f hf
    rw [Set.uIcc_of_le ha] at hf
    dsimp only
    rw [h1 f hf.1 hf.2]
  have c2 : ∫ f in a..b, G f * Real.cos (2 * Real.pi * t * f) = ∫ f in a..b, g2 f * Real.cos (2 * Real.pi * t * f) := by
    apply intervalIntegral.integral_congr
    intro f hf
    rw [Set.uIcc_of_le hab] at hf
    dsimp only
    rw [h2 f hf.1 hf.2]
  rw [c1, c2]

/-- The root raised cosine pulse: Fourier integral away from the exceptional times. -/
theorem invFourier_rrcos {beta T : ℝ} (hT : 0 < T) (hb : 0 < beta) (hb1 : beta ≤ 1) (t : ℝ) :
    invFourier (rrcosFreq beta T) t = ((2 * Real.sqrt T * ((∫ f in (0 : ℝ)..((1 - beta) / (2 * T)), Real.cos (2 * Real.pi * t * f)) + ∫ f in ((1 - beta) / (2 * T))..((1 + beta) / (2 * T)), Real.cos (Real.pi * T / (2 * beta) * (f - (1 - beta) / (2 * T))) * Real.cos (2 * Real.pi * t * f)) : ℝ) : ℂ) := by
  have hab : (1 - beta) / (2 * T) ≤ (1 + beta) / (2 * T) := by gcongr; linarith
  have ha : 0 ≤ (1 - beta) / (2 * T) := div_nonneg (by linarith) (by linarith)
  rw [invFourier_pieces (g1 := fun _ => Real.sqrt T) (g2 := fun f => Real.sqrt T * Real.cos (Real.pi * T / (2 * beta) * (f - (1 - beta) / (2 * T)))) ha hab ?_ ?_ (by fun_prop) (by fun_prop) ?_ ?_]
  · simp only [mul_assoc, intervalIntegral.integral_const_mul]
    congr 1
    ring
  · intro f
    unfold rrcosFreq rcosFreq
    rw [abs_neg]
  · intro f hf
    unfold rrcosFreq rcosFreq
    rw [if_neg (not_le.2 (hab.trans_lt hf)), if_neg (not_le.2 hf), Real.sqrt_zero]
  · intro f hf hfa
    exact (rrcosFreq_pieces hT hb hf).1 hfa
  · intro f hfa hfb
    exact (rrcosFreq_pieces hT hb (ha.trans hfa)).2 hfa hfb

theorem invFourier_rcos {beta T : ℝ} (hT : 0 < T) (hb : 0 < beta) (hb1 : beta ≤ 1) (t : ℝ) :
    invFourier (rcosFreq beta T) t = ((2 * T * (∫ f in (0 : ℝ)..((1 - beta) / (2 * T)), Real.cos (2 * Real.pi * t * f)) + T * ((∫ f in ((1 - beta) / (2 * T))..((1 + beta) / (2 * T)), Real.cos (2 * Real.pi * t * f)) + ∫ f in ((1 - beta) / (2 * T))..((1 + beta) / (2 * T)), Real.cos (Real.pi * T / beta * (f - (1 - beta) / (2 * T))) * Real.cos (2 * Real.pi * t * f)) : ℝ) : ℂ) := by
  have hab : (1 - beta) / (2 * T) ≤ (1 + beta) / (2 * T) := by gcongr; linarith
  have ha : 0 ≤ (1 - beta) / (2 * T) := div_nonneg (by linarith) (by linarith)
  rw [invFourier_pieces (g1 := fun _ => T) (g2 := fun f => T / 2 * (1 + Real.cos (Real.pi * T / beta * (f - (1 - beta) / (2 * T))))) ha hab ?_ ?_ (by fun_prop) (by fun_prop) ?_ ?_]
  · rw [← intervalIntegral.integral_add (by apply Continuous.intervalIntegrable; fun_prop) (by apply Continuous.intervalIntegrable; fun_prop)]
    simp only [mul_assoc, intervalIntegral.integral_const_mul, add_mul, one_mul]
    congr 1
    ring
  · intro f
    unfold rcosFreq
    rw [abs_neg]
  · intro f hf
    unfold rcosFreq
    rw [if_neg (not_le.2 (hab.trans_lt hf)), if_neg (not_le.2 hf)]
  · intro f hf hfa
    exact (rcosFreq_pieces hf).1 hfa
  · intro f hfa hfb
    exact (rcosFreq_pieces (ha.trans hfa)).2 hfa hfb

/-! ### The three values of the root raised cosine pulse -/

theorem rrcos_band {beta T : ℝ} (hT : 0 < T) (hb : 0 < beta) : Real.pi * T / (2 * beta) * ((1 + beta) / (2 * T) - (1 - beta) / (2 * T)) = Real.pi / 2 := by
  field_simp
  ring

theorem rrcos_zero {beta T : ℝ} (hT : 0 < T) (hb : 0 < beta) (hb1 : beta ≤ 1) :
    invFourier (rrcosFreq beta T) 0 = ((Real.sqrt T * (1 / T * (1 + beta * (4 / Real.pi - 1))) : ℝ) : ℂ) := by
  have hpi := Real.pi_pos
  rw [invFourier_rrcos hT hb hb1]
  congr 1
  have hk : Real.pi * T / (2 * beta) ≠ 0 := by positivity
  have h1 := integral_cos_cos (k := Real.pi * T / (2 * beta)) (w := 0) (a := (1 - beta) / (2 * T)) (by rw [zero_pow two_ne_zero]; positivity) ((1 + beta) / (2 * T))
  rw [rrcos_band hT hb] at h1
  simp only [mul_zero, zero_mul] at h1 ⊢
  rw [h1]
  simp
  field_simp
  ring

theorem rrcos_generic {beta T t : ℝ} (hT : 0 < T) (hb : 0 < beta) (hb1 : beta ≤ 1) (ht : t ≠ 0) (ht2 : (4 * beta * t / T) ^ 2 ≠ 1) :
    invFourier (rrcosFreq beta T) t = ((Real.sqrt T * (1 / T * ((Real.sin (Real.pi * t / T * (1 - beta)) + 4 * beta * t / T * Real.cos (Real.pi * t / T * (1 + beta))) / (Real.pi * t / T * (1 - (4 * beta * t / T) ^ 2)))) : ℝ) : ℂ) := by
  have hpi := Real.pi_pos
  rw [invFourier_rrcos hT hb hb1]
  congr 1
  obtain ⟨k, hk⟩ : ∃ k, k = Real.pi * T / (2 * beta) := ⟨_, rfl⟩
  have hk0 : 0 < k := by rw [hk]; positivity
  have hw : 2 * Real.pi * t = k * (4 * beta * t / T) := by rw [hk]; field_simp; ring
  obtain ⟨r, hr⟩ : ∃ r, r = 4 * beta * t / T := ⟨_, rfl⟩
  have hr0 : r ≠ 0 := by rw [hr]; positivity
  rw [← hr] at ht2 hw
  have hne : (2 * Real.pi * t) ^ 2 ≠ k ^ 2 := by
    rw [hw, mul_pow]
    intro h
    exact ht2 (mul_left_cancel₀ (pow_ne_zero 2 hk0.ne') (by rw [h, mul_one]))
  rw [integral_cos_mul (by positivity), ← hk, integral_cos_cos hne, hk, rrcos_band hT hb, ← hk, ← hr]
  rw [show Real.pi * t / T * (1 - beta) = 2 * Real.pi * t * ((1 - beta) / (2 * T)) by field_simp, show Real.pi * t / T * (1 + beta) = 2 * Real.pi * t * ((1 + beta) / (2 * T)) by field_simp]
  have hpt : Real.pi * t / T = k * r / (2 * T) := by rw [← hw]; field_simp
  obtain ⟨A, hA⟩ : ∃ A, A = Real.sin (2 * Real.pi * t * ((1 - beta) / (2 * T))) := ⟨_, rfl⟩
  obtain ⟨B, hB⟩ : ∃ B, B = Real.cos (2 * Real.pi * t * ((1 + beta) / (2 * T))) := ⟨_, rfl⟩
  rw [← hA, ← hB, hpt, hw]
  simp only [Real.cos_pi_div_two, Real.sin_pi_div_two, mul_zero, Real.sin_zero, zero_mul, sub_zero, mul_one, zero_sub]
  have h1 : 1 - r ^ 2 ≠ 0 := sub_ne_zero.2 (Ne.symm ht2)
  have h2 : (k * r) ^ 2 - k ^ 2 = -(k ^ 2 * (1 - r ^ 2)) := by ring
  rw [h2]
  field_simp
  ring

theorem rrcos_special {beta T : ℝ} (hT : 0 < T) (hb : 0 < beta) (hb1 : beta ≤ 1) {t : ℝ} (ht : |t| = T / (4 * beta)) :
    invFourier (rrcosFreq beta T) t = ((Real.sqrt T * (beta / (T * Real.sqrt 2) * ((1 + 2 / Real.pi) * Real.sin (Real.pi / (4 * beta)) + (1 - 2 / Real.pi) * Real.cos (Real.pi / (4 * beta)))) : ℝ) : ℂ) := by
  have hpi := Real.pi_pos
  rw [invFourier_rrcos hT hb hb1]
  congr 1
  have habs : ∀ f : ℝ, Real.cos (2 * Real.pi * t * f) = Real.cos (Real.pi * T / (2 * beta) * f) := by
    intro f
    have e : Real.pi * T / (2 * beta) = 2 * Real.pi * |t| := by rw [ht]; field_simp; ring
    rw [e]
    rcases abs_choice t with h | h
    · rw [h]
    · rw [h, show 2 * Real.pi * -t * f = -(2 * Real.pi * t * f) by ring, Real.cos_neg]
  simp only [habs]
  have hk : Real.pi * T / (2 * beta) ≠ 0 := by positivity
  rw [integral_cos_mul hk, integral_cos_same hk]
  have e1 : Real.pi * T / (2 * beta) * ((1 - beta) / (2 * T)) = Real.pi / (4 * beta) - Real.pi / 4 := by field_simp; ring
  have e2 : Real.pi * T / (2 * beta) * (2 * ((1 + beta) / (2 * T)) - (1 - beta) / (2 * T)) = Real.pi / (4 * beta) - Real.pi / 4 + Real.pi := by field_simp; ring
  rw [e2, e1, Real.sin_add_pi, Real.sin_sub, Real.cos_sub, Real.cos_pi_div_four, Real.sin_pi_div_four, mul_zero, Real.sin_zero]
  have h2 : Real.sqrt 2 * Real.sqrt 2 = 2 := Real.mul_self_sqrt (by norm_num)
  have h3 : Real.sqrt 2 ≠ 0 := by positivity
  obtain ⟨S, hS⟩ : ∃ S, S = Real.sin (Real.pi / (4 * beta)) := ⟨_, rfl⟩
  obtain ⟨C, hC⟩ : ∃ C, C = Real.cos (Real.pi / (4 * beta)) := ⟨_, rfl⟩
  have h4 : Real.sqrt 2 / 2 = 1 / Real.sqrt 2 := by rw [div_eq_div_iff (by norm_num) h3, h2]; norm_num
  rw [← hS, ← hC, h4]
  field_simp
  ring

theorem sq_eq_one_of_nonneg_iff {x : ℝ} (h : 0 ≤ x) : x ^ 2 = 1 ↔ x = 1 := by
  constructor
  · intro h2
    nlinarith
  · rintro rfl
    norm_num

/-- At times that are exceptional exactly or not within `eps` of an exceptional time, the code computes the pulse. -/
theorem rrcosPoint_eq {beta T eps t : ℝ} (hT : 0 < T) (hb : 0 < beta) (hb1 : beta ≤ 1) (he : 0 < eps) (h0 : t = 0 ∨ eps ≤ |t|) (h1 : |t| = T / (4 * beta) ∨ eps ≤ |(|t| - T / (4 * beta))|) :
    ∃ v, rrcosPoint beta T eps t = some v ∧ invFourier (rrcosFreq beta T) t = ((Real.sqrt T * v : ℝ) : ℂ) := by
  have hpi := Real.pi_pos
  have hq : |T / (4 * beta)| = T / (4 * beta) := abs_of_pos (by positivity)
  unfold rrcosPoint
  rw [hq]
  rcases h1 with h1 | h1
  · rw [if_pos (by rw [h1, sub_self, abs_zero]; exact he)]
    exact ⟨_, rfl, rrcos_special hT hb hb1 h1⟩
  rw [if_neg (not_lt.2 h1)]
  rcases h0 with h0 | h0
  · subst h0
    rw [if_pos (by rw [abs_zero]; exact he)]
    exact ⟨_, rfl, rrcos_zero hT hb hb1⟩
  rw [if_neg (not_lt.2 h0)]
  have ht : t ≠ 0 := abs_pos.1 (he.trans_le h0)
  have ht2 : (4 * beta * t / T) ^ 2 ≠ 1 := by
    intro h
    rw [← sq_abs, sq_eq_one_of_nonneg_iff (abs_nonneg _), abs_div, abs_mul, abs_of_pos (show 0 < 4 * beta by positivity), abs_of_pos hT, div_eq_one_iff_eq hT.ne'] at h
    have h2 : |t| = T / (4 * beta) := by rw [← h]; field_simp
    rw [h2, sub_self, abs_zero] at h1
    linarith
  unfold rrcosRaw fdiv
  rw [if_neg]
  · exact ⟨_, rfl, rrcos_generic hT hb hb1 ht ht2⟩
  · exact mul_ne_zero (by positivity) (sub_ne_zero.2 (Ne.symm ht2))

/-- C124: `rrcos_time` is the inverse Fourier transform of `rrcos_freq` at all times of any grid (up to the constant `sqrt T`). -/
def C124_statement : Prop := ∀ (beta T t0 t1 : ℝ) (l : List ℝ), 0 < T → 0 < beta → beta ≤ 1 → t0 ≠ t1 →
  ∃ out : List ℝ, rrcosTime beta T (t0 :: t1 :: l) = .ok (out.map some) ∧ out.map (fun v => ((Real.sqrt T * v : ℝ) : ℂ)) = (t0 :: t1 :: l).map (invFourier (rrcosFreq beta T))

/-- C124, for grids that contain the exceptional times `0` and `±T/(4 beta)` exactly or stay a quarter of the grid spacing away from them. -/
theorem C124_pair_partial (beta T t0 t1 : ℝ) (l : List ℝ) (hT : 0 < T) (hb : 0 < beta) (hb1 : beta ≤ 1) (ht : t0 ≠ t1)
    (h0 : ∀ t ∈ t0 :: t1 :: l, t = 0 ∨ |t0 - t1| / 4 ≤ |t|) (h1 : ∀ t ∈ t0 :: t1 :: l, |t| = T / (4 * beta) ∨ |t0 - t1| / 4 ≤ |(|t| - T / (4 * beta))|) :
    ∃ out : List ℝ, rrcosTime beta T (t0 :: t1 :: l) = .ok (out.map some) ∧ out.map (fun v => ((Real.sqrt T * v : ℝ) : ℂ)) = (t0 :: t1 :: l).map (invFourier (rrcosFreq beta T)) := by
  have he : 0 < |t0 - t1| / 4 := by
    have := abs_pos.2 (sub_ne_zero.2 ht)
    positivity
  unfold rrcosTime
  dsimp only
  rw [if_neg hb.ne']
  obtain ⟨ts, hts⟩ : ∃ ts, ts = t0 :: t1 :: l := ⟨_, rfl⟩
  obtain ⟨eps, heps⟩ : ∃ eps, eps = |t0 - t1| / 4 := ⟨_, rfl⟩
  rw [← hts, ← heps] at h0 h1 ⊢
  rw [← heps] at he
  clear hts heps
  refine ⟨ts.map fun t => (rrcosPoint beta T eps t).getD 0, ?_, ?_⟩
  · rw [List.map_map]
    congr 1
    apply List.map_congr_left
    intro t hmem
    obtain ⟨v, hv, -⟩ := rrcosPoint_eq hT hb hb1 he (h0 t hmem) (h1 t hmem)
    simp [hv]
  · rw [List.map_map]
    apply List.map_congr_left
    intro t hmem
    obtain ⟨v, hv, hF⟩ := rrcosPoint_eq hT hb hb1 he (h0 t hmem) (h1 t hmem)
    simp [hv, hF]

/-- Two samples per symbol, roll-off one half: `0`, `±T/2` and `±T` are on the grid. -/
example : ∃ out : List ℝ, rrcosTime (1 / 2) 1 [-1, -1 / 2, 0, 1 / 2, 1] = .ok (out.map some) ∧ out.map (fun v => ((Real.sqrt 1 * v : ℝ) : ℂ)) = [-1, -1 / 2, 0, 1 / 2, 1].map (invFourier (rrcosFreq (1 / 2) 1)) := by
  apply C124_pair_partial _ _ _ _ _ one_pos (by norm_num) (by norm_num) (by norm_num)
  · intro t ht
    simp only [List.mem_cons, List.not_mem_nil, or_false] at ht
    rcases ht with h | h | h | h | h <;> subst h <;> norm_num [abs_of_pos, abs_of_neg]
  · intro t ht
    simp only [List.mem_cons, List.not_mem_nil, or_false] at ht
    rcases ht with h | h | h | h | h <;> subst h <;> norm_num [abs_of_pos, abs_of_neg]

/-- The sample at `T/8` lies within a quarter of the grid spacing of `T/4` and gets the value of the pulse at `T/4`. -/
theorem C124_false : ¬ C124_statement := by
  intro h
  obtain ⟨out, h1, h2⟩ := h 1 1 (1 / 8) (9 / 8) [] one_pos one_pos le_rfl (by norm_num)
  unfold rrcosTime at h1
  dsimp only at h1
  rw [if_neg one_ne_zero] at h1
  match out with
  | [] => simp at h2
  | v :: out =>
    simp only [List.map_cons, Except.ok.injEq, List.cons.injEq] at h1 h2
    have h3 := h1.1
    have h4 := h2.1
    rw [rrcos_generic one_pos one_pos le_rfl (by norm_num) (by norm_num)] at h4
    have h5 := Complex.ofReal_inj.1 h4
    unfold rrcosPoint at h3
    rw [if_pos (by norm_num [abs_of_neg])] at h3
    have h6 := Option.some.inj h3
    have hpi := Real.pi_pos
    have hpi2 := Real.pi_lt_d2
    have hs2 : Real.sqrt 2 * Real.sqrt 2 = 2 := Real.mul_self_sqrt (by norm_num)
    have hs : 1.4 < Real.sqrt 2 := Real.lt_sqrt_of_sq_lt (by norm_num)
    have hv : v = 1 := by
      rw [← h6, mul_one, Real.sin_pi_div_four, Real.cos_pi_div_four]
      field_simp
      nlinarith
    rw [hv] at h5
    norm_num at h5
    rw [show Real.pi * (1 / 8) * 2 = Real.pi / 4 by ring, Real.cos_pi_div_four] at h5
    field_simp at h5
    nlinarith

/-- C124: the documented roll-off zero (sinc pulse) raises ZeroDivisionError. -/
theorem C124_no_sinc (T t0 t1 : ℝ) (l : List ℝ) : rrcosTime 0 T (t0 :: t1 :: l) = .error .zeroDiv := by
  unfold rrcosTime
  dsimp only
  rw [if_pos rfl]

/-! ### Raised cosine pulse -/

theorem rcos_band {beta T : ℝ} (hT : 0 < T) (hb : 0 < beta) : Real.pi * T / beta * ((1 + beta) / (2 * T) - (1 - beta) / (2 * T)) = Real.pi := by
  field_simp
  ring

theorem rcosTime_eq {beta T t : ℝ} (hT : 0 < T) (hb : 0 < beta) (hb1 : beta ≤ 1) (ht : 2 * beta * |t| ≠ T) :
    ∃ v, rcosTime beta T t = some v ∧ invFourier (rcosFreq beta T) t = (v : ℂ) := by
  have hpi := Real.pi_pos
  have hr : (2 * beta * t / T) ^ 2 ≠ 1 := by
    intro h
    rw [← sq_abs, sq_eq_one_of_nonneg_iff (abs_nonneg _), abs_div, abs_mul, abs_of_pos (show 0 < 2 * beta by positivity), abs_of_pos hT, div_eq_one_iff_eq hT.ne'] at h
    exact ht h
  have h1 : 1 - 4 * (beta * t / T) ^ 2 = 1 - (2 * beta * t / T) ^ 2 := by ring
  unfold rcosTime fdiv
  rw [h1, if_neg (sub_ne_zero.2 (Ne.symm hr))]
  refine ⟨_, rfl, ?_⟩
  rw [invFourier_rcos hT hb hb1]
  congr 1
  unfold npSinc
  by_cases h0 : t = 0
  · subst h0
    have h2 := integral_cos_cos (k := Real.pi * T / beta) (w := 0) (a := (1 - beta) / (2 * T)) (by rw [zero_pow two_ne_zero]; positivity) ((1 + beta) / (2 * T))
    rw [rcos_band hT hb] at h2
    simp only [mul_zero, zero_mul] at h2 ⊢
    rw [h2]
    simp
    field_simp
    ring
  obtain ⟨k, hk⟩ : ∃ k, k = Real.pi * T / beta := ⟨_, rfl⟩
  have hk0 : 0 < k := by rw [hk]; positivity
  have hw : 2 * Real.pi * t = k * (2 * beta * t / T) := by rw [hk]; field_simp
  obtain ⟨r, hrr⟩ : ∃ r, r = 2 * beta * t / T := ⟨_, rfl⟩
  have hr0 : r ≠ 0 := by rw [hrr]; positivity
  rw [← hrr] at hr hw
  have hne : (2 * Real.pi * t) ^ 2 ≠ k ^ 2 := by
    rw [hw, mul_pow]
    intro h
    exact hr (mul_left_cancel₀ (pow_ne_zero 2 hk0.ne') (by rw [h, mul_one]))
  rw [integral_cos_mul (by positivity), integral_cos_mul (by positivity), ← hk, integral_cos_cos hne, hk, rcos_band hT hb, ← hk, ← hrr, if_neg (by positivity)]
  have e1 : 2 * Real.pi * t * ((1 - beta) / (2 * T)) = Real.pi * (t / T) - t / T * Real.pi * beta := by field_simp
  have e2 : 2 * Real.pi * t * ((1 + beta) / (2 * T)) = Real.pi * (t / T) + t / T * Real.pi * beta := by field_simp
  have e3 : Real.pi * (t / T) = k * r / (2 * T) := by rw [← hw]; field_simp
  rw [e1, e2, Real.sin_sub, Real.sin_add, hw]
  obtain ⟨A, hA⟩ : ∃ A, A = Real.sin (Real.pi * (t / T)) := ⟨_, rfl⟩
  obtain ⟨B, hB⟩ : ∃ B, B = Real.cos (Real.pi * (t / T)) := ⟨_, rfl⟩
  rw [← hA, ← hB, e3]
  simp only [Real.cos_pi, Real.sin_pi, mul_zero, Real.sin_zero, zero_mul, sub_zero]
  have h4 : 1 - r ^ 2 ≠ 0 := sub_ne_zero.2 (Ne.symm hr)
  have h2 : (k * r) ^ 2 - k ^ 2 = -(k ^ 2 * (1 - r ^ 2)) := by ring
  rw [h2]
  field_simp
  ring

/-- C126: `rcos_time` is the inverse Fourier transform of `rcos_freq` at all times. -/
def C126_statement : Prop := ∀ (beta T t : ℝ), 0 < T → 0 < beta → beta ≤ 1 → ∃ v, rcosTime beta T t = some v ∧ invFourier (rcosFreq beta T) t = (v : ℂ)

/-- C126, except at `|t| = T/(2 beta)`. -/
theorem C126_pair_partial (beta T t : ℝ) (hT : 0 < T) (hb : 0 < beta) (hb1 : beta ≤ 1) (ht : 2 * beta * |t| ≠ T) :
    ∃ v, rcosTime beta T t = some v ∧ invFourier (rcosFreq beta T) t = (v : ℂ) := rcosTime_eq hT hb hb1 ht

example : ∃ v, rcosTime (1 / 4) 1 1 = some v ∧ invFourier (rcosFreq (1 / 4) 1) 1 = (v : ℂ) := C126_pair_partial _ _ _ one_pos (by norm_num) (by norm_num) (by norm_num)

/-- Roll-off one half, one symbol away from the centre: `0/0`. -/
theorem C126_false : ¬ C126_statement := by
  intro h
  obtain ⟨v, hv, -⟩ := h (1 / 2) 1 1 one_pos (by norm_num) (by norm_num)
  unfold rcosTime fdiv at hv
  rw [if_pos (by norm_num)] at hv
  cases hv

/-- C126: no intersymbol interference, the pulse is one at the centre and zero at all other symbol times. -/
theorem C126_nyquist_partial (beta T : ℝ) (hT : 0 < T) (n : ℤ) (ht : 2 * beta * |(n : ℝ)| ≠ 1) (hb : 0 < beta) :
    rcosTime beta T (n * T) = some (if n = 0 then 1 else 0) := by
  have hr : (2 * beta * (n : ℝ)) ^ 2 ≠ 1 := by
    intro h
    rw [← sq_abs, sq_eq_one_of_nonneg_iff (abs_nonneg _), abs_mul, abs_of_pos (show 0 < 2 * beta by positivity)] at h
    exact ht h
  unfold rcosTime fdiv npSinc
  have e1 : beta * (n * T) / T = beta * n := by field_simp
  have e2 : n * T / T = (n : ℝ) := by field_simp
  rw [e1, e2, if_neg]
  · by_cases hn : n = 0
    · subst hn
      simp
    · rw [if_neg (by exact_mod_cast hn), if_neg hn, mul_comm Real.pi, Real.sin_int_mul_pi]
      simp
  · rw [show 4 * (beta * n) ^ 2 = (2 * beta * n) ^ 2 by ring]
    exact sub_ne_zero.2 (Ne.symm hr)

example : rcosTime (1 / 3) 2 ((-3 : ℤ) * 2) = some 0 := C126_nyquist_partial _ _ two_pos (-3) (by norm_num) (by norm_num)

/-! ### Time domain pulse shaping -/

theorem rrcosFreq_nonneg (beta T f : ℝ) : 0 ≤ rrcosFreq beta T f := by
  unfold rrcosFreq
  exact Real.sqrt_nonneg _

theorem invFourier_le {G : ℝ → ℝ} (hG : ∀ f, 0 ≤ G f) (t : ℝ) : ‖invFourier G t‖ ≤ ‖invFourier G 0‖ := by
  unfold invFourier
  refine (norm_integral_le_integral_norm _).trans (le_of_eq ?_)
  have h1 : ∀ (f u : ℝ), ‖(G f : ℂ) * Complex.exp (2 * Real.pi * Complex.I * f * u)‖ = G f := by
    intro f u
    rw [norm_mul, Complex.norm_real, Real.norm_of_nonneg (hG f), show (2 * Real.pi * Complex.I * f * u : ℂ) = ((2 * Real.pi * f * u : ℝ) : ℂ) * Complex.I by push_cast; ring, Complex.norm_exp_ofReal_mul_I, mul_one]
  simp only [h1]
  simp only [Complex.ofReal_zero, mul_zero, Complex.exp_zero, mul_one]
  rw [integral_complex_ofReal, Complex.norm_real, Real.norm_of_nonneg (integral_nonneg hG)]

theorem rrcosPoint_neg (beta T eps t : ℝ) : rrcosPoint beta T eps (-t) = rrcosPoint beta T eps t := by
  have h1 : rrcosRaw beta T (-t) = rrcosRaw beta T t := by
    unfold rrcosRaw fdiv
    have e1 : Real.pi * -t / T * (1 - (4 * beta * -t / T) ^ 2) = -(Real.pi * t / T * (1 - (4 * beta * t / T) ^ 2)) := by ring
    have e2 : Real.sin (Real.pi * -t / T * (1 - beta)) + 4 * beta * -t / T * Real.cos (Real.pi * -t / T * (1 + beta)) = -(Real.sin (Real.pi * t / T * (1 - beta)) + 4 * beta * t / T * Real.cos (Real.pi * t / T * (1 + beta))) := by
      rw [show Real.pi * -t / T * (1 - beta) = -(Real.pi * t / T * (1 - beta)) by ring, show Real.pi * -t / T * (1 + beta) = -(Real.pi * t / T * (1 + beta)) by ring, Real.sin_neg, Real.cos_neg]
      ring
    rw [e1, e2, neg_div_neg_eq]
    simp only [neg_eq_zero]
  unfold rrcosPoint
  rw [abs_neg, h1]

/-- The values of the code are values of the pulse, at the time itself or at one of the exceptional times. -/
theorem rrcosPoint_val {beta T eps : ℝ} (hT : 0 < T) (hb : 0 < beta) (hb1 : beta ≤ 1) (he : 0 < eps) (t : ℝ) :
    ∃ v u, rrcosPoint beta T eps t = some v ∧ invFourier (rrcosFreq beta T) u = ((Real.sqrt T * v : ℝ) : ℂ) := by
  by_cases h1 : |t| = T / (4 * beta) ∨ eps ≤ |(|t| - T / (4 * beta))|
  · by_cases h0 : t = 0 ∨ eps ≤ |t|
    · obtain ⟨v, hv, hF⟩ := rrcosPoint_eq hT hb hb1 he h0 h1
      exact ⟨v, t, hv, hF⟩
    · push Not at h0
      rcases h1 with h1 | h1
      · unfold rrcosPoint
        rw [abs_of_pos (show 0 < T / (4 * beta) by positivity), if_pos (by rw [h1, sub_self, abs_zero]; exact he)]
        exact ⟨_, t, rfl, rrcos_special hT hb hb1 h1⟩
      · unfold rrcosPoint
        rw [abs_of_pos (show 0 < T / (4 * beta) by positivity), if_neg (not_lt.2 h1), if_pos h0.2]
        exact ⟨_, 0, rfl, rrcos_zero hT hb hb1⟩
  · push Not at h1
    unfold rrcosPoint
    rw [abs_of_pos (show 0 < T / (4 * beta) by positivity), if_pos h1.2]
    exact ⟨_, T / (4 * beta), rfl, rrcos_special hT hb hb1 (abs_of_pos (by positivity))⟩

theorem max?_of_le {l : List ℝ} {m : ℝ} (hm : m ∈ l) (h : ∀ x ∈ l, x ≤ m) : l.max? = some m := by
  rw [List.max?_eq_some_iff]
  exact ⟨hm, h⟩

theorem rrcosTime_taps {fs T beta : ℝ} {taps : Nat} (hfs : 0 < fs) (hb : 0 < beta) (htaps : 2 ≤ taps) :
    rrcosTime beta T (tapTimes taps fs) = .ok ((tapTimes taps fs).map (rrcosPoint beta T (1 / (4 * fs)))) := by
  obtain ⟨m, rfl⟩ : ∃ m, taps = m + 2 := ⟨taps - 2, by omega⟩
  have h1 : ∃ l, tapTimes (m + 2) fs = (((0 : ℕ) : ℝ) - ((m + 2 - 1) / 2 : ℕ)) / fs :: (((1 : ℕ) : ℝ) - ((m + 2 - 1) / 2 : ℕ)) / fs :: l := by
    unfold tapTimes
    rw [List.range_succ_eq_map, List.range_succ_eq_map]
    simp only [List.map_cons]
    exact ⟨_, rfl⟩
  obtain ⟨l, hl⟩ := h1
  rw [hl]
  unfold rrcosTime
  dsimp only
  rw [if_neg hb.ne']
  have e : |((((0 : ℕ) : ℝ) - ((m + 2 - 1) / 2 : ℕ)) / fs) - ((((1 : ℕ) : ℝ) - ((m + 2 - 1) / 2 : ℕ)) / fs)| / 4 = 1 / (4 * fs) := by
    rw [← sub_div, show (((0 : ℕ) : ℝ) - ((m + 2 - 1) / 2 : ℕ)) - (((1 : ℕ) : ℝ) - ((m + 2 - 1) / 2 : ℕ)) = -1 by push_cast; ring, abs_div, abs_neg, abs_one, abs_of_pos hfs]
    field_simp
  rw [e]

theorem mapM_id_map {α β : Type} (l : List α) (f : α → Option β) (g : α → β) (h : ∀ a ∈ l, f a = some (g a)) : (l.map f).mapM id = some (l.map g) := by
  induction l with
  | nil => rfl
  | cons a l ih =>
    rw [List.map_cons, List.mapM_cons, h a (by simp), ih fun b hb => h b (by simp [hb])]
    rfl

/-- The centred convolution as a sum over the input samples. -/
theorem convSame_ofFn {n : Nat} (x : Fin n → ℂ) (taps : Nat) (h : ℕ → ℝ) (htaps : 0 < taps) :
    convSame (List.ofFn x) ((List.range taps).map h) = List.ofFn fun i : Fin n => ∑ q : Fin n, if -(((taps - 1) / 2 : ℕ) : ℤ) ≤ (i : ℤ) - q ∧ (i : ℤ) - q ≤ (taps / 2 : ℕ) then (h (i + (taps - 1) / 2 - q) : ℂ) * x q else 0 := by
  unfold convSame
  rw [List.length_ofFn, List.length_map, List.length_range]
  obtain ⟨c, hc⟩ : ∃ c, c = (taps - 1) / 2 := ⟨_, rfl⟩
  rw [← hc]
  apply List.ext_getElem
  · simp
  intro i hi _
  rw [List.length_map, List.length_range] at hi
  rw [List.getElem_map, List.getElem_range, List.getElem_ofFn]
  dsimp only
  have h1 : ∀ f : ℕ → ℂ, ((List.range taps).map f).sum = ∑ j ∈ Finset.range taps, f j := fun f => rfl
  rw [h1]
  have h2 : ∀ j ∈ Finset.range taps, (if j ≤ i + c then ((((List.range taps).map h).getD j 0 : ℝ) : ℂ) * (List.ofFn x).getD (i + c - j) 0 else 0) = ∑ q : Fin n, if (q : ℕ) + j = i + c then (h j : ℂ) * x q else 0 := by
    intro j hj
    rw [Finset.mem_range] at hj
    have h3 : ((List.range taps).map h).getD j 0 = h j := by
      simp [List.getD, hj]
    rw [h3]
    split_ifs with hle
    · by_cases hlt : i + c - j < n
      · rw [Finset.sum_eq_single ⟨i + c - j, hlt⟩]
        · rw [if_pos (by dsimp only; omega)]
          congr 1
          simp [List.getD, hlt]
        · intro q _ hq
          rw [if_neg]
          intro h4
          exact hq (Fin.ext (by dsimp only; omega))
        · intro h4
          exact absurd (Finset.mem_univ _) h4
      · rw [Finset.sum_eq_zero]
        · simp [List.getD, hlt]
        · intro q _
          have := q.isLt
          rw [if_neg (by omega)]
    · rw [Finset.sum_eq_zero]
      intro q _
      rw [if_neg (by omega)]
  rw [Finset.sum_congr rfl h2, Finset.sum_comm]
  apply Finset.sum_congr rfl
  intro q _
  split_ifs with hq
  · rw [Finset.sum_eq_single (i + c - q)]
    · rw [if_pos (by omega)]
    · intro j _ hj
      rw [if_neg (by omega)]
    · intro h4
      rw [Finset.mem_range] at h4
      omega
  · apply Finset.sum_eq_zero
    intro j hj
    rw [Finset.mem_range] at hj
    rw [if_neg (by omega)]

/-- The filter taps are values of an even function of the time with peak one. -/
theorem rrcosTaps_spec (fs T beta : ℝ) (taps : Nat) (hfs : 0 < fs) (hT : 0 < T) (hb : 0 < beta) (hb1 : beta ≤ 1) (hos : beta ≤ fs * T) (htaps : 2 ≤ taps) :
    ∃ g : ℝ → ℝ, g 0 = 1 ∧ (∀ t, g (-t) = g t) ∧ (∀ t, |g t| ≤ 1) ∧
      (∀ t, (t = 0 ∨ 1 ≤ 4 * fs * |t|) → (4 * beta * |t| = T ∨ 1 ≤ 4 * fs * |(|t| - T / (4 * beta))|) → invFourier (rrcosFreq beta T) t = g t * invFourier (rrcosFreq beta T) 0) ∧
      rrcosTaps taps fs T beta = .ok (some ((List.range taps).map fun k : ℕ => g (((k : ℝ) - ((taps - 1) / 2 : ℕ)) / fs))) := by
  have he : 0 < 1 / (4 * fs) := by positivity
  obtain ⟨val, hval⟩ : ∃ val : ℝ → ℝ, val = fun t => (rrcosPoint beta T (1 / (4 * fs)) t).getD 0 := ⟨_, rfl⟩
  have hsome : ∀ t, rrcosPoint beta T (1 / (4 * fs)) t = some (val t) := by
    intro t
    obtain ⟨v, u, hv, -⟩ := rrcosPoint_val hT hb hb1 he t
    rw [hval]
    dsimp only
    rw [hv]
    rfl
  have hsT : 0 < Real.sqrt T := Real.sqrt_pos.2 hT
  have hpt : ∀ t, (t = 0 ∨ 1 ≤ 4 * fs * |t|) → (4 * beta * |t| = T ∨ 1 ≤ 4 * fs * |(|t| - T / (4 * beta))|) → invFourier (rrcosFreq beta T) t = ((Real.sqrt T * val t : ℝ) : ℂ) := by
    intro t h0 h1
    obtain ⟨v, hv, hF⟩ := rrcosPoint_eq (eps := 1 / (4 * fs)) (t := t) hT hb hb1 he (h0.imp id fun h => by rw [div_le_iff₀ (by positivity), mul_comm]; exact h) (h1.imp (fun h => by rw [← h]; field_simp) fun h => by rw [div_le_iff₀ (by positivity), mul_comm]; exact h)
    rw [hsome] at hv
    rw [hF, Option.some.inj hv]
  have hF0 : invFourier (rrcosFreq beta T) 0 = ((Real.sqrt T * val 0 : ℝ) : ℂ) := by
    apply hpt 0 (Or.inl rfl)
    right
    rw [abs_zero, zero_sub, abs_neg, abs_of_pos (by positivity)]
    rw [← mul_div_assoc, le_div_iff₀ (by positivity)]
    linarith
  have hv0 : 0 < val 0 := by
    have h1 := rrcos_zero hT hb hb1
    rw [hF0] at h1
    have h2 := mul_left_cancel₀ hsT.ne' (Complex.ofReal_inj.1 h1)
    rw [h2]
    have hpi := Real.pi_pos
    have : 1 + beta * (4 / Real.pi - 1) = (1 - beta) + beta * (4 / Real.pi) := by ring
    rw [this]
    have : 0 ≤ 1 - beta := by linarith
    positivity
  have hbd : ∀ t, |val t| ≤ val 0 := by
    intro t
    obtain ⟨v, u, hv, hF⟩ := rrcosPoint_val hT hb hb1 he t
    rw [hsome] at hv
    have h1 := invFourier_le (rrcosFreq_nonneg beta T) u
    rw [hF, hF0, Complex.norm_real, Complex.norm_real, ← Option.some.inj hv, Real.norm_eq_abs, Real.norm_eq_abs, abs_mul, abs_mul, abs_of_pos hsT, abs_of_pos hv0] at h1
    exact le_of_mul_le_mul_left h1 hsT
  refine ⟨fun t => val t / val 0, div_self hv0.ne', ?_, ?_, ?_, ?_⟩
  · intro t
    have h1 := hsome (-t)
    rw [rrcosPoint_neg, hsome] at h1
    dsimp only
    rw [Option.some.inj h1]
  · intro t
    rw [abs_div, abs_of_pos hv0]
    exact (div_le_one hv0).2 (hbd t)
  · intro t h0 h1
    rw [hpt t h0 h1, hF0]
    push_cast
    have : (val 0 : ℂ) ≠ 0 := by exact_mod_cast hv0.ne'
    field_simp
  · have hmax : ((tapTimes taps fs).map val).max? = some (val 0) := by
      apply max?_of_le
      · rw [List.mem_map]
        refine ⟨0, ?_, rfl⟩
        unfold tapTimes
        rw [List.mem_map]
        refine ⟨(taps - 1) / 2, List.mem_range.2 (by omega), ?_⟩
        rw [sub_self, zero_div]
      · intro y hy
        rw [List.mem_map] at hy
        obtain ⟨t, -, rfl⟩ := hy
        exact (le_abs_self _).trans (hbd t)
    unfold rrcosTaps
    rw [rrcosTime_taps hfs hb htaps]
    change Except.ok _ = _
    rw [mapM_id_map _ _ val fun t _ => hsome t]
    change Except.ok ((((tapTimes taps fs).map val).max?).bind _) = _
    rw [hmax]
    change Except.ok (some (List.map _ _)) = _
    unfold tapTimes
    rw [List.map_map, List.map_map]
    rfl

/-- C125: the time domain pulse shaping filter has no delay, a peak of one and is symmetric; every sample of the output is the sum of the input samples weighted with the pulse at the time distance. -/
theorem C125_impulse (fs T beta : ℝ) (taps : Nat) (hfs : 0 < fs) (hT : 0 < T) (hb : 0 < beta) (hb1 : beta ≤ 1) (hos : beta ≤ fs * T) (htaps : 2 ≤ taps) :
    ∃ g : ℝ → ℝ, g 0 = 1 ∧ (∀ t, g (-t) = g t) ∧ (∀ t, |g t| ≤ 1) ∧
      (∀ t, (t = 0 ∨ 1 ≤ 4 * fs * |t|) → (4 * beta * |t| = T ∨ 1 ≤ 4 * fs * |(|t| - T / (4 * beta))|) → invFourier (rrcosFreq beta T) t = g t * invFourier (rrcosFreq beta T) 0) ∧
      ∀ (n : Nat) (x : Fin n → ℂ), rrcosPulseTime fs T beta taps (List.ofFn x) = .ok (some (List.ofFn fun i : Fin n =>
        ∑ q : Fin n, if -(((taps - 1) / 2 : ℕ) : ℤ) ≤ (i : ℤ) - q ∧ (i : ℤ) - q ≤ (taps / 2 : ℕ) then (g (((i : ℝ) - q) / fs) : ℂ) * x q else 0)) := by
  obtain ⟨g, h0, h1, h2, h3, htp⟩ := rrcosTaps_spec fs T beta taps hfs hT hb hb1 hos htaps
  refine ⟨g, h0, h1, h2, h3, ?_⟩
  intro n x
  unfold rrcosPulseTime
  rw [htp]
  change Except.ok (some (convSame _ _)) = _
  rw [convSame_ofFn _ _ _ (by omega)]
  congr 2
  congr 1
  funext i
  apply Finset.sum_congr rfl
  intro q _
  split_ifs with h
  · have e : ((((i : ℕ) + (taps - 1) / 2 - (q : ℕ) : ℕ) : ℝ) - ((taps - 1) / 2 : ℕ)) = (i : ℝ) - q := by
      rw [Nat.cast_sub (by omega)]
      push_cast
      ring
    rw [e]
  · rfl

/-- Two samples per symbol, five taps, one symbol in the middle of five samples: its amplitude is kept and the pulse is symmetric around it. -/
example (a : ℂ) : ∃ u v : ℝ, rrcosPulseTime 2 1 (1 / 2) 5 [0, 0, a, 0, 0] = .ok (some [v * a, u * a, a, u * a, v * a]) := by
  obtain ⟨g, h0, h1, -, -, h2⟩ := C125_impulse 2 1 (1 / 2) 5 two_pos one_pos (by norm_num) (by norm_num) (by norm_num) (by norm_num)
  have h3 := h2 5 ![0, 0, a, 0, 0]
  refine ⟨g (1 / 2), g 1, ?_⟩
  have e1 : List.ofFn ![0, 0, a, 0, 0] = [0, 0, a, 0, 0] := by simp [List.ofFn_succ]
  rw [e1] at h3
  rw [h3]
  have e2 : g (-1 / 2) = g 2⁻¹ := by rw [← h1]; norm_num
  simp [List.ofFn_succ, Fin.sum_univ_succ, h0]
  exact ⟨Or.inl (h1 1), Or.inl e2⟩

/-- C125: fewer than two taps raise IndexError. -/
theorem C125_few_taps (fs T beta : ℝ) (taps : Nat) (htaps : taps < 2) (sig : List ℂ) : rrcosPulseTime fs T beta taps sig = .error .index := by
  interval_cases taps <;> rfl

end Qampy
