import Verif.Props.Waveform2
import Verif.Props.Quantise

/-!
# C241: the IQ modulator with imperfections
-/

namespace Qampy

open Complex

theorem norm_exp_mul_real (t : ℝ) : ‖exp (I * (t : ℂ))‖ = 1 := by rw [mul_comm, Complex.norm_exp_ofReal_mul_I]

theorem norm_exp_neg_mul_real (t : ℝ) : ‖exp (-(I * (t : ℂ)))‖ = 1 := by
  rw [show -(I * (t : ℂ)) = ((-t : ℝ) : ℂ) * I by push_cast; ring, Complex.norm_exp_ofReal_mul_I]

theorem mzm_norm_le (v g c : ℝ) (hg : 0 ≤ g) : ‖mzm v g c‖ ≤ 1 := by
  have h1 : (0 : ℝ) < 1 + g := by linarith
  have h2 : ‖(1 + g : ℂ)‖ = 1 + g := by
    rw [show (1 + g : ℂ) = ((1 + g : ℝ) : ℂ) by push_cast; ring, Complex.norm_real, Real.norm_of_nonneg h1.le]
  rw [mzm, norm_div, h2, div_le_one h1, norm_neg]
  refine (norm_add_le _ _).trans ?_
  rw [norm_mul, norm_exp_mul_real, norm_exp_neg_mul_real, Complex.norm_real, Real.norm_of_nonneg hg, mul_one]

theorem bothQuad_nonneg (p : ℂ) (h1 : 0 ≤ p.re) (h2 : 0 ≤ p.im) : 0 ≤ (bothQuad p).re ∧ 0 ≤ (bothQuad p).im := by
  unfold bothQuad
  split_ifs with h
  · simp [h, h1]
  · exact ⟨h1, h2⟩

theorem bothQuad_ne (p : ℂ) (h : p.im ≠ 0) : bothQuad p = p := if_neg h

theorem bothQuad_real (t : ℝ) : (bothQuad t).re = t ∧ (bothQuad t).im = t := by
  unfold bothQuad
  rw [if_pos (Complex.ofReal_im t)]
  simp

/-- **C241** The modulator is passive: whatever the drive, biases, chirp factors and non-negative gain factors, the field never exceeds that of the laser. -/
theorem C241_passive (b g c z : ℂ) (bo go : ℝ) (h1 : 0 ≤ g.re) (h2 : 0 ≤ g.im) (h3 : 0 ≤ go) : ‖modulatorResponse b g c bo go z‖ ≤ 1 := by
  obtain ⟨k1, k2⟩ := bothQuad_nonneg g h1 h2
  have hgo : (0 : ℝ) < 1 + go := by linarith
  have hn : ‖(1 + go : ℂ)‖ = 1 + go := by
    rw [show (1 + go : ℂ) = ((1 + go : ℝ) : ℂ) by push_cast; ring, Complex.norm_real, Real.norm_of_nonneg hgo.le]
  have m1 := mzm_norm_le (z.re + (bothQuad b).re) (bothQuad g).re (bothQuad c).re k1
  have m2 := mzm_norm_le (z.im + (bothQuad b).im) (bothQuad g).im (bothQuad c).im k2
  simp only [modulatorResponse]
  rw [norm_div, hn, div_le_one hgo, norm_mul, norm_exp_mul_real, one_mul]
  refine (norm_add_le _ _).trans ?_
  rw [norm_mul, norm_exp_neg_mul_real, mul_one, norm_mul, norm_mul, norm_exp_mul_real, mul_one, Complex.norm_real, Real.norm_of_nonneg h3]
  exact add_le_add m1 (by nlinarith)

/-- Full drive of the default modulator: power one half. -/
example : ‖modulatorResponse 1 1 0 (1 / 2) 1 (1 + I)‖ ≤ 1 := C241_passive 1 1 0 _ _ _ (by norm_num) (by norm_num) (by norm_num)

theorem mzm_plain (v : ℝ) : mzm v 1 0 = ((-Real.cos (Real.pi * v / 2) : ℝ) : ℂ) := by
  have e1 : Real.pi * v * (1 + 0) / 2 = Real.pi * v / 2 := by ring
  have e2 : Real.pi * v * (1 - 0) / 2 = Real.pi * v / 2 := by ring
  rw [mzm, e1, e2]
  generalize Real.pi * v / 2 = t
  have h1 : exp (I * (t : ℂ)) = Real.cos t + Real.sin t * I := by
    rw [mul_comm, Complex.exp_mul_I, Complex.ofReal_cos, Complex.ofReal_sin]
  have h2 : exp (-(I * (t : ℂ))) = Real.cos t - Real.sin t * I := by
    rw [mul_comm, ← neg_mul, Complex.exp_mul_I, Complex.cos_neg, Complex.sin_neg, Complex.ofReal_cos, Complex.ofReal_sin]; ring
  rw [h1, h2]
  push_cast
  ring

theorem quarter_turns (a b : ℂ) : exp (I * ((Real.pi / 4 : ℝ) : ℂ)) * (a * exp (-(I * ((Real.pi * (1 / 2) / 2 : ℝ) : ℂ))) + ((1 : ℝ) : ℂ) * b * exp (I * ((Real.pi * (1 / 2) / 2 : ℝ) : ℂ))) / (1 + ((1 : ℝ) : ℂ))
    = (a + I * b) / 2 := by
  rw [show Real.pi * (1 / 2) / 2 = Real.pi / 4 by ring]
  have h1 : exp (I * ((Real.pi / 4 : ℝ) : ℂ)) * exp (-(I * ((Real.pi / 4 : ℝ) : ℂ))) = 1 := by
    rw [← Complex.exp_add]; simp
  have h2 : exp (I * ((Real.pi / 4 : ℝ) : ℂ)) * exp (I * ((Real.pi / 4 : ℝ) : ℂ)) = I := by
    rw [← Complex.exp_add]
    have : I * ((Real.pi / 4 : ℝ) : ℂ) + I * ((Real.pi / 4 : ℝ) : ℂ) = (Real.pi / 2 : ℂ) * I := by push_cast; ring
    rw [this, Complex.exp_pi_div_two_mul_I]
  have : exp (I * ((Real.pi / 4 : ℝ) : ℂ)) * (a * exp (-(I * ((Real.pi / 4 : ℝ) : ℂ))) + ((1 : ℝ) : ℂ) * b * exp (I * ((Real.pi / 4 : ℝ) : ℂ)))
      = a * (exp (I * ((Real.pi / 4 : ℝ) : ℂ)) * exp (-(I * ((Real.pi / 4 : ℝ) : ℂ)))) + b * (exp (I * ((Real.pi / 4 : ℝ) : ℂ)) * exp (I * ((Real.pi / 4 : ℝ) : ℂ))) := by
    push_cast; ring
  rw [this, h1, h2]
  push_cast
  ring

/-- **C241** Without chirp, loss and imbalance each arm has the transfer function of a Mach-Zehnder modulator, at every pair of bias voltages: the in-phase component of the field depends on
the in-phase drive only and the quadrature component on the quadrature drive only. -/
theorem C241_bias (b z : ℂ) (hb : b.im ≠ 0) :
    (modulatorResponse b 1 0 (1 / 2) 1 z).re = -Real.cos (Real.pi * (z.re + b.re) / 2) / 2 ∧ (modulatorResponse b 1 0 (1 / 2) 1 z).im = -Real.cos (Real.pi * (z.im + b.im) / 2) / 2 := by
  have g1 := bothQuad_real 1
  have g0 := bothQuad_real 0
  rw [Complex.ofReal_one] at g1
  rw [Complex.ofReal_zero] at g0
  simp only [modulatorResponse]
  rw [bothQuad_ne b hb, g1.1, g1.2, g0.1, g0.2, mzm_plain, mzm_plain, quarter_turns]
  generalize -Real.cos (Real.pi * (z.re + b.re) / 2) = s
  generalize -Real.cos (Real.pi * (z.im + b.im) / 2) = t
  have : ((s : ℂ) + I * (t : ℂ)) / 2 = ⟨s / 2, t / 2⟩ := by
    apply Complex.ext <;> simp
  rw [this]
  exact ⟨rfl, rfl⟩

/-- In-phase arm at the null, quadrature arm at the quadrature point: without drive only the quadrature arm lets light through. -/
example : (modulatorResponse ⟨1, 1 / 2⟩ 1 0 (1 / 2) 1 0).re = 0 ∧ (modulatorResponse ⟨1, 1 / 2⟩ 1 0 (1 / 2) 1 0).im ≠ 0 := by
  obtain ⟨h1, h2⟩ := C241_bias ⟨1, 1 / 2⟩ 0 (by norm_num)
  rw [h1, h2]
  constructor
  · simp
  · rw [show Real.pi * ((0 : ℂ).im + (1 / 2 : ℝ)) / 2 = Real.pi / 4 by simp; ring, Real.cos_pi_div_four]
    have : (0 : ℝ) < Real.sqrt 2 := by positivity
    intro h
    linarith

theorem mzm_null (g : ℝ) : mzm 1 g 0 = -(I * ((1 - g) / (1 + g))) := by
  have e1 : Real.pi * 1 * (1 + 0) / 2 = Real.pi / 2 := by ring
  have e2 : Real.pi * 1 * (1 - 0) / 2 = Real.pi / 2 := by ring
  rw [mzm, e1, e2]
  have h1 : exp (I * ((Real.pi / 2 : ℝ) : ℂ)) = I := by
    rw [mul_comm]; push_cast; exact Complex.exp_pi_div_two_mul_I
  rw [Complex.exp_neg, h1, Complex.inv_I]
  ring

theorem mzm_full (g : ℝ) (hg : 0 ≤ g) : mzm 2 g 0 = 1 := by
  have e1 : Real.pi * 2 * (1 + 0) / 2 = Real.pi := by ring
  have e2 : Real.pi * 2 * (1 - 0) / 2 = Real.pi := by ring
  have h0 : (1 + g : ℂ) ≠ 0 := by
    rw [show (1 + g : ℂ) = ((1 + g : ℝ) : ℂ) by push_cast; ring]
    exact_mod_cast (by linarith : (1 + g) ≠ 0)
  rw [mzm, e1, e2]
  have h1 : exp (I * ((Real.pi : ℝ) : ℂ)) = -1 := by rw [mul_comm, Complex.exp_pi_mul_I]
  rw [Complex.exp_neg, h1]
  field_simp
  ring

/-- **C241** Chirp turns the phase of an arm with its voltage, by `π v c / 2`, and leaves the power of the arm alone, for every imbalance. -/
theorem C241_chirp (v g c : ℝ) : mzm v g c = exp (I * ((Real.pi * v * c / 2 : ℝ) : ℂ)) * mzm v g 0 ∧ ‖mzm v g c‖ = ‖mzm v g 0‖ := by
  have h : mzm v g c = exp (I * ((Real.pi * v * c / 2 : ℝ) : ℂ)) * mzm v g 0 := by
    have e1 : exp (I * ((Real.pi * v * (1 + c) / 2 : ℝ) : ℂ)) = exp (I * ((Real.pi * v * c / 2 : ℝ) : ℂ)) * exp (I * ((Real.pi * v * (1 + 0) / 2 : ℝ) : ℂ)) := by
      rw [← Complex.exp_add]
      congr 1
      push_cast
      ring
    have e2 : exp (-(I * ((Real.pi * v * (1 - c) / 2 : ℝ) : ℂ))) = exp (I * ((Real.pi * v * c / 2 : ℝ) : ℂ)) * exp (-(I * ((Real.pi * v * (1 - 0) / 2 : ℝ) : ℂ))) := by
      rw [← Complex.exp_add]
      congr 1
      push_cast
      ring
    unfold mzm
    rw [e1, e2]
    ring
  exact ⟨h, by rw [h, norm_mul, norm_exp_mul_real, one_mul]⟩

/-- Voltage 2 and chirp 1/2: a quarter turn. -/
example : mzm 2 1 (1 / 2) = I * mzm 2 1 0 := by
  rw [(C241_chirp 2 1 (1 / 2)).1, show I * ((Real.pi * 2 * (1 / 2) / 2 : ℝ) : ℂ) = Real.pi / 2 * I by push_cast; ring, Complex.exp_pi_div_two_mul_I]

theorem norm_sq_one_add_I_mul (s : ℂ) : ‖(s + I * s) / 2‖ ^ 2 = ‖s‖ ^ 2 / 2 := by
  rw [show (s + I * s) / 2 = s * ((1 + I) / 2) by ring, norm_mul, mul_pow]
  have : ‖((1 + I) / 2 : ℂ)‖ ^ 2 = 1 / 2 := by
    rw [← Complex.normSq_eq_norm_sq, Complex.normSq_apply]
    norm_num
  rw [this]
  ring

/-- **C241** Finite extinction of the arms: with the gain factor that belongs to an extinction ratio of `er` dB and the bias at the null, the light left without a drive signal is exactly `er` dB
below the light at full drive, for the whole IQ modulator. -/
theorem C241_extinction (er : ℝ) (her : 0 ≤ er) :
    ‖modulatorResponse 1 (erToG er) 0 (1 / 2) 1 (1 + I)‖ ^ 2 = 1 / 2
      ∧ ‖modulatorResponse 1 (erToG er) 0 (1 / 2) 1 0‖ ^ 2 = 1 / 2 * (10 : ℝ) ^ (-(er / 10)) := by
  obtain ⟨h0, h1, -⟩ := C104_extinction er her
  have g1 := bothQuad_real 1
  have g0 := bothQuad_real 0
  have gg := bothQuad_real (erToG er)
  rw [Complex.ofReal_one] at g1
  rw [Complex.ofReal_zero] at g0
  constructor
  · simp only [modulatorResponse]
    rw [g1.1, g1.2, g0.1, g0.2, gg.1, gg.2, show (1 + I : ℂ).re + 1 = 2 by simp; norm_num, show (1 + I : ℂ).im + 1 = 2 by simp; norm_num, mzm_full _ h0, quarter_turns,
      norm_sq_one_add_I_mul, norm_one]
    norm_num
  · simp only [modulatorResponse]
    rw [g1.1, g1.2, g0.1, g0.2, gg.1, gg.2, show (0 : ℂ).re + 1 = 1 by simp, show (0 : ℂ).im + 1 = 1 by simp, mzm_null, quarter_turns, norm_sq_one_add_I_mul]
    have ht : (0 : ℝ) < (10 : ℝ) ^ (er / 20) := by positivity
    have hr : (1 - erToG er) / (1 + erToG er) = ((10 : ℝ) ^ (er / 20))⁻¹ := by
      unfold erToG
      generalize (10 : ℝ) ^ (er / 20) = t at ht ⊢
      have h2 : t + 1 ≠ 0 := by linarith
      have h3 : 1 - (t - 1) / (t + 1) = 2 / (t + 1) := by field_simp; ring
      have h4 : 1 + (t - 1) / (t + 1) = 2 * t / (t + 1) := by field_simp; ring
      rw [h3, h4]
      field_simp
    rw [norm_neg, norm_mul, Complex.norm_I, one_mul,
      show ((1 : ℂ) - (erToG er : ℂ)) / (1 + (erToG er : ℂ)) = (((1 - erToG er) / (1 + erToG er) : ℝ) : ℂ) by push_cast; ring, hr, Complex.norm_real, Real.norm_eq_abs, sq_abs, inv_pow,
      ← Real.rpow_natCast, ← Real.rpow_mul (by norm_num), ← Real.rpow_neg (by norm_num)]
    rw [show -(er / 20 * ((2 : ℕ) : ℝ)) = -(er / 10) by push_cast; ring]
    ring

/-- The arms are set separately: exchanging the quadrature drive and parameters of two modulators leaves the sum of the two fields. -/
def ArmsSeparate (b g c b' g' c' z z' : ℂ) (bo go : ℝ) : Prop :=
  modulatorResponse b g c bo go z + modulatorResponse b' g' c' bo go z'
    = modulatorResponse ⟨b.re, b'.im⟩ ⟨g.re, g'.im⟩ ⟨c.re, c'.im⟩ bo go ⟨z.re, z'.im⟩ + modulatorResponse ⟨b'.re, b.im⟩ ⟨g'.re, g.im⟩ ⟨c'.re, c.im⟩ bo go ⟨z'.re, z.im⟩

/-- **C241** Complex parameters: the real part belongs to the in-phase arm and the imaginary part to the quadrature arm, as long as no imaginary part is zero. -/
theorem C241_arms_partial (b g c b' g' c' z z' : ℂ) (bo go : ℝ) (h1 : b.im ≠ 0) (h2 : g.im ≠ 0) (h3 : c.im ≠ 0) (h1' : b'.im ≠ 0) (h2' : g'.im ≠ 0) (h3' : c'.im ≠ 0) :
    ArmsSeparate b g c b' g' c' z z' bo go := by
  unfold ArmsSeparate
  simp only [modulatorResponse]
  rw [bothQuad_ne b h1, bothQuad_ne g h2, bothQuad_ne c h3, bothQuad_ne b' h1', bothQuad_ne g' h2', bothQuad_ne c' h3', bothQuad_ne ⟨b.re, b'.im⟩ h1', bothQuad_ne ⟨g.re, g'.im⟩ h2',
    bothQuad_ne ⟨c.re, c'.im⟩ h3', bothQuad_ne ⟨b'.re, b.im⟩ h1, bothQuad_ne ⟨g'.re, g.im⟩ h2, bothQuad_ne ⟨c'.re, c.im⟩ h3]
  ring

/-- Two modulators with different bias, gain and chirp in all four arms. -/
example : ArmsSeparate ⟨1, 9 / 10⟩ ⟨1, 4 / 5⟩ ⟨0, 1 / 10⟩ ⟨11 / 10, 1⟩ ⟨9 / 10, 1⟩ ⟨1 / 5, 3 / 10⟩ ⟨1 / 2, -1⟩ ⟨0, 1⟩ (1 / 2) 1 :=
  C241_arms_partial _ _ _ _ _ _ _ _ _ _ (by norm_num) (by norm_num) (by norm_num) (by norm_num) (by norm_num) (by norm_num)

/-- **C241** With a zero imaginary part the quadrature arm gets the value of the in-phase arm: a modulator with chirp `t` in the in-phase arm only (`t + 0j`) is simulated with chirp in both. -/
theorem C241_zero (b g : ℂ) (t : ℝ) (ht : t ≠ 0) (bo go : ℝ) (z : ℂ) : modulatorResponse b g ⟨t, 0⟩ bo go z = modulatorResponse b g ⟨t, t⟩ bo go z := by
  have h1 : bothQuad ⟨t, 0⟩ = ⟨t, t⟩ := by
    unfold bothQuad
    rw [if_pos rfl]
    apply Complex.ext <;> simp
  have h2 : bothQuad ⟨t, t⟩ = ⟨t, t⟩ := bothQuad_ne _ ht
  simp only [modulatorResponse]
  rw [h1, h2]

/-- C241 in full: complex chirp factors set the two arms separately. -/
def C241_statement : Prop := ∀ (b g c b' g' c' z z' : ℂ), b.im ≠ 0 → g.im ≠ 0 → b'.im ≠ 0 → g'.im ≠ 0 → ArmsSeparate b g c b' g' c' z z' (1 / 2) 1

theorem mzm_chirp_null (c : ℝ) : mzm 1 1 c = 0 := by
  rw [mzm]
  have e1 : exp (I * ((Real.pi * 1 * (1 + c) / 2 : ℝ) : ℂ)) = exp (I * ((Real.pi * c / 2 : ℝ) : ℂ)) * I := by
    rw [show I * ((Real.pi * 1 * (1 + c) / 2 : ℝ) : ℂ) = I * ((Real.pi * c / 2 : ℝ) : ℂ) + Real.pi / 2 * I by push_cast; ring, Complex.exp_add, Complex.exp_pi_div_two_mul_I]
  have e2 : exp (-(I * ((Real.pi * 1 * (1 - c) / 2 : ℝ) : ℂ))) = exp (I * ((Real.pi * c / 2 : ℝ) : ℂ)) * (-I) := by
    rw [show -(I * ((Real.pi * 1 * (1 - c) / 2 : ℝ) : ℂ)) = I * ((Real.pi * c / 2 : ℝ) : ℂ) + -(Real.pi / 2 * I) by push_cast; ring, Complex.exp_add, Complex.exp_neg (Real.pi / 2 * I),
      Complex.exp_pi_div_two_mul_I, Complex.inv_I]
  rw [e1, e2]
  simp

theorem mzm_chirp_full : mzm 2 1 (1 / 2) = I := by
  rw [mzm]
  have e1 : exp (I * ((Real.pi * 2 * (1 + 1 / 2) / 2 : ℝ) : ℂ)) = -I := by
    rw [show I * ((Real.pi * 2 * (1 + 1 / 2) / 2 : ℝ) : ℂ) = Real.pi * I + Real.pi / 2 * I by push_cast; ring, Complex.exp_add, Complex.exp_pi_mul_I, Complex.exp_pi_div_two_mul_I]
    ring
  have e2 : exp (-(I * ((Real.pi * 2 * (1 - 1 / 2) / 2 : ℝ) : ℂ))) = -I := by
    rw [show -(I * ((Real.pi * 2 * (1 - 1 / 2) / 2 : ℝ) : ℂ)) = -(Real.pi / 2 * I) by push_cast; ring, Complex.exp_neg, Complex.exp_pi_div_two_mul_I, Complex.inv_I]
  rw [e1, e2]
  push_cast
  ring

/-- Chirp 1/2 in the in-phase arm only, full drive of the quadrature arm. -/
theorem C241_false : ¬ C241_statement := by
  intro h
  have h1 := h ⟨1, 1⟩ ⟨1, 1⟩ ⟨1 / 2, 0⟩ ⟨1, 1⟩ ⟨1, 1⟩ ⟨0, 0⟩ ⟨0, 1⟩ ⟨0, 0⟩ (by norm_num) (by norm_num) (by norm_num) (by norm_num)
  unfold ArmsSeparate at h1
  have q1 : bothQuad ⟨1, 1⟩ = ⟨1, 1⟩ := bothQuad_ne _ (by norm_num)
  have q2 : bothQuad ⟨1 / 2, 0⟩ = ⟨1 / 2, 1 / 2⟩ := by
    unfold bothQuad
    rw [if_pos rfl]
    apply Complex.ext <;> simp
  have q3 : bothQuad ⟨0, 0⟩ = ⟨0, 0⟩ := by
    unfold bothQuad
    rw [if_pos rfl]
    apply Complex.ext <;> simp
  simp only [modulatorResponse, q1, q2, q3] at h1
  rw [show (0 : ℝ) + 1 = 1 by norm_num, show (1 : ℝ) + 1 = 2 by norm_num, mzm_chirp_null, mzm_chirp_null, mzm_chirp_full, mzm_full 1 (by norm_num), quarter_turns, quarter_turns, quarter_turns] at h1
  have h2 := congrArg Complex.re h1
  norm_num at h2

end Qampy
