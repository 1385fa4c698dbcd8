import Verif.Props.Theory2
import Mathlib.MeasureTheory.Integral.IntegralEqImproper
import Mathlib.Analysis.SpecialFunctions.Gaussian.GaussianIntegral

/-!
# Shape of the analytic error rates: C159
-/

namespace Qampy

open MeasureTheory Filter Topology

/-! ### The complementary error function -/

theorem integrable_bell : Integrable fun t : ℝ => Real.exp (-t ^ 2) := by
  have := integrable_exp_neg_mul_sq (one_pos (α := ℝ))
  simpa using this

theorem erfc_strictAnti : StrictAnti erfc := by
  intro a b hab
  have h1 : (∫ t in Set.Ioi a, Real.exp (-t ^ 2)) - ∫ t in Set.Ioi b, Real.exp (-t ^ 2) = ∫ t in a..b, Real.exp (-t ^ 2) :=
    intervalIntegral.integral_Ioi_sub_Ioi integrable_bell.integrableOn hab.le
  have h2 : 0 < ∫ t in a..b, Real.exp (-t ^ 2) :=
    intervalIntegral.intervalIntegral_pos_of_pos integrable_bell.intervalIntegrable (fun x => Real.exp_pos _) hab
  unfold erfc
  have : 0 < 2 / Real.sqrt Real.pi := by have := Real.pi_pos; positivity
  apply mul_lt_mul_of_pos_left _ this
  linarith

theorem erfc_tendsto : Tendsto erfc atTop (𝓝 0) := by
  have h1 : Tendsto (fun b : ℝ => ∫ t in (0 : ℝ)..b, Real.exp (-t ^ 2)) atTop (𝓝 (∫ t in Set.Ioi (0 : ℝ), Real.exp (-t ^ 2))) :=
    intervalIntegral_tendsto_integral_Ioi 0 integrable_bell.integrableOn tendsto_id
  have h2 : Tendsto (fun b : ℝ => 2 / Real.sqrt Real.pi * ((∫ t in Set.Ioi (0 : ℝ), Real.exp (-t ^ 2)) - ∫ t in (0 : ℝ)..b, Real.exp (-t ^ 2)))
      atTop (𝓝 (2 / Real.sqrt Real.pi * ((∫ t in Set.Ioi (0 : ℝ), Real.exp (-t ^ 2)) - ∫ t in Set.Ioi (0 : ℝ), Real.exp (-t ^ 2)))) :=
    (tendsto_const_nhds.sub h1).const_mul _
  rw [sub_self, mul_zero] at h2
  refine h2.congr' ?_
  filter_upwards [eventually_ge_atTop 0] with b hb
  have := intervalIntegral.integral_Ioi_sub_Ioi (integrable_bell.integrableOn (s := Set.Ioi (0 : ℝ))) hb
  unfold erfc
  congr 1
  linarith

theorem erfc_zero : erfc 0 = 1 := by
  unfold erfc
  have h := integral_gaussian_Ioi 1
  simp only [div_one, neg_mul, one_mul] at h
  rw [h]
  have : Real.sqrt Real.pi ≠ 0 := (Real.sqrt_pos.2 Real.pi_pos).ne'
  field_simp

theorem erfc_pos (x : ℝ) : 0 < erfc x := by
  have h : erfc (x + 1) < erfc x := erfc_strictAnti (by linarith)
  refine lt_of_le_of_lt ?_ h
  unfold erfc
  apply mul_nonneg (by positivity)
  exact setIntegral_nonneg measurableSet_Ioi fun t _ => (Real.exp_pos _).le

theorem erfc_le_one {x : ℝ} (hx : 0 ≤ x) : erfc x ≤ 1 := by
  rw [← erfc_zero]
  exact erfc_strictAnti.antitone hx

/-! ### The formulas in terms of one value -/

theorem serQam_eq {M : ℝ} (hM : 1 < M) (snr : ℝ) :
    serQam snr M = 1 - (1 - (1 - 1 / Real.sqrt M) * erfc (Real.sqrt (3 * snr / (2 * (M - 1))))) ^ 2 := by
  have h : Real.sqrt M ^ 2 = M := Real.sq_sqrt (by linarith)
  have h0 : Real.sqrt M ≠ 0 := (Real.sqrt_pos.2 (by linarith)).ne'
  have e : 1 / M = (1 / Real.sqrt M) ^ 2 := by rw [div_pow, h, one_pow]
  unfold serQam
  rw [e]
  ring

theorem berQam_eq {M : ℝ} (hM : 1 < M) (snr : ℝ) :
    berQam snr M = 2 * (1 - 1 / Real.sqrt M) * erfc (Real.sqrt (3 * snr / (2 * (M - 1)))) / Real.logb 2 M := by
  have h : Real.sqrt M ^ 2 = M := Real.sq_sqrt (by linarith)
  have hl : Real.logb 2 M = 2 * Real.logb 2 (Real.sqrt M) := by
    conv_lhs => rw [← h]
    rw [Real.logb_pow]
    norm_num
  have hpos : 0 < Real.logb 2 M := Real.logb_pos (by norm_num) hM
  unfold berQam qFunction
  rw [h, hl]
  have h1 : 0 < Real.logb 2 (Real.sqrt M) := by linarith
  have h2 : M - 1 ≠ 0 := by linarith
  have e : Real.sqrt (3 * Real.logb 2 (Real.sqrt M) / (M - 1) * (2 * snr / (2 * Real.logb 2 (Real.sqrt M)))) / Real.sqrt 2 = Real.sqrt (3 * snr / (2 * (M - 1))) := by
    rw [← Real.sqrt_div' _ (by norm_num : (0 : ℝ) ≤ 2)]
    congr 1
    field_simp
  rw [e]
  field_simp
  ring

theorem rootArg_lt {M a b : ℝ} (hM : 1 < M) (ha : 0 ≤ a) (hab : a < b) : Real.sqrt (3 * a / (2 * (M - 1))) < Real.sqrt (3 * b / (2 * (M - 1))) := by
  have h : 0 < 2 * (M - 1) := by linarith
  apply Real.sqrt_lt_sqrt (by positivity)
  apply div_lt_div_of_pos_right _ h
  linarith

theorem rootArg_tendsto {M : ℝ} (hM : 1 < M) : Tendsto (fun snr : ℝ => erfc (Real.sqrt (3 * snr / (2 * (M - 1))))) atTop (𝓝 0) := by
  have h : 0 < 2 * (M - 1) := by linarith
  refine erfc_tendsto.comp (Real.tendsto_sqrt_atTop.comp ?_)
  have e : (fun snr : ℝ => 3 * snr / (2 * (M - 1))) = fun snr : ℝ => 3 / (2 * (M - 1)) * snr := by
    funext x
    ring
  rw [e]
  exact tendsto_id.const_mul_atTop (by positivity)

theorem invRoot_lt {M : ℝ} (hM : 1 < M) : 0 < 1 - 1 / Real.sqrt M ∧ 1 - 1 / Real.sqrt M < 1 := by
  have h : 1 < Real.sqrt M := by
    rw [Real.lt_sqrt (by norm_num)]
    linarith
  have h0 : 0 < Real.sqrt M := by linarith
  have h1 : 1 / Real.sqrt M < 1 := by rw [div_lt_one h0]; exact h
  have h2 : 0 < 1 / Real.sqrt M := by positivity
  constructor <;> linarith

/-- C159: the symbol error rate of M-QAM strictly decreases with the signal to noise ratio, from the rate of guessing at zero to zero. -/
theorem C159_ser_qam (M : ℝ) (hM : 1 < M) :
    StrictAntiOn (fun snr => serQam snr M) (Set.Ici 0) ∧ serQam 0 M = 1 - 1 / M ∧ Tendsto (fun snr => serQam snr M) atTop (𝓝 0) ∧
      ∀ snr, 0 ≤ snr → 0 < serQam snr M ∧ serQam snr M ≤ 1 - 1 / M := by
  obtain ⟨ha0, ha1⟩ := invRoot_lt hM
  have hM0 : 0 ≤ M := by linarith
  have hz : serQam 0 M = 1 - 1 / M := by
    rw [serQam_eq hM, mul_zero, zero_div, Real.sqrt_zero, erfc_zero, mul_one, sub_sub_cancel, div_pow, Real.sq_sqrt hM0, one_pow]
  have hbd : ∀ snr, 0 ≤ snr → 0 < (1 - 1 / Real.sqrt M) * erfc (Real.sqrt (3 * snr / (2 * (M - 1)))) ∧
      (1 - 1 / Real.sqrt M) * erfc (Real.sqrt (3 * snr / (2 * (M - 1)))) < 1 := by
    intro snr _
    have h1 := erfc_pos (Real.sqrt (3 * snr / (2 * (M - 1))))
    have h2 := erfc_le_one (Real.sqrt_nonneg (3 * snr / (2 * (M - 1))))
    exact ⟨mul_pos ha0 h1, by nlinarith⟩
  have hanti : StrictAntiOn (fun snr => serQam snr M) (Set.Ici 0) := by
    intro x hx y hy hxy
    have hx : 0 ≤ x := hx
    have hy : 0 ≤ y := hy
    have h1 : erfc (Real.sqrt (3 * y / (2 * (M - 1)))) < erfc (Real.sqrt (3 * x / (2 * (M - 1)))) := erfc_strictAnti (rootArg_lt hM hx hxy)
    have h2 := mul_lt_mul_of_pos_left h1 ha0
    obtain ⟨-, b2⟩ := hbd x hx
    obtain ⟨c1, -⟩ := hbd y hy
    simp only [serQam_eq hM]
    nlinarith
  refine ⟨hanti, hz, ?_, ?_⟩
  · have h1 := (tendsto_const_nhds (x := (1 : ℝ)) (f := atTop)).sub (((tendsto_const_nhds (x := (1 : ℝ)) (f := atTop)).sub
      ((rootArg_tendsto hM).const_mul (1 - 1 / Real.sqrt M))).pow 2)
    simp only [mul_zero, sub_zero, one_pow, sub_self] at h1
    exact h1.congr fun snr => (serQam_eq hM snr).symm
  · intro snr hs
    refine ⟨?_, ?_⟩
    · obtain ⟨b1, b2⟩ := hbd snr hs
      rw [serQam_eq hM]
      nlinarith
    · rw [← hz]
      exact hanti.antitoneOn (Set.mem_Ici.2 le_rfl) hs hs

/-- C159: the larger constellation has the larger symbol error rate at the same signal to noise ratio. -/
theorem C159_order (snr M M' : ℝ) (hs : 0 ≤ snr) (hM : 1 < M) (h : M < M') : serQam snr M < serQam snr M' := by
  have hM' : 1 < M' := by linarith
  obtain ⟨ha0, ha1⟩ := invRoot_lt hM
  obtain ⟨hb0, hb1⟩ := invRoot_lt hM'
  have hr : 1 - 1 / Real.sqrt M < 1 - 1 / Real.sqrt M' := by
    have : Real.sqrt M < Real.sqrt M' := Real.sqrt_lt_sqrt (by linarith) h
    have h0 : 0 < Real.sqrt M := Real.sqrt_pos.2 (by linarith)
    have := one_div_lt_one_div_of_lt h0 this
    linarith
  have he : erfc (Real.sqrt (3 * snr / (2 * (M - 1)))) ≤ erfc (Real.sqrt (3 * snr / (2 * (M' - 1)))) := by
    apply erfc_strictAnti.antitone
    apply Real.sqrt_le_sqrt
    apply div_le_div_of_nonneg_left (by positivity) (by linarith) (by linarith)
  have h1 := erfc_pos (Real.sqrt (3 * snr / (2 * (M - 1))))
  have h2 := erfc_le_one (Real.sqrt_nonneg (3 * snr / (2 * (M' - 1))))
  rw [serQam_eq hM, serQam_eq hM']
  have h3 : (1 - 1 / Real.sqrt M) * erfc (Real.sqrt (3 * snr / (2 * (M - 1)))) < (1 - 1 / Real.sqrt M') * erfc (Real.sqrt (3 * snr / (2 * (M' - 1)))) := by
    nlinarith
  have h4 : (1 - 1 / Real.sqrt M') * erfc (Real.sqrt (3 * snr / (2 * (M' - 1)))) < 1 := by nlinarith
  have h5 : 0 < (1 - 1 / Real.sqrt M) * erfc (Real.sqrt (3 * snr / (2 * (M - 1)))) := mul_pos ha0 h1
  nlinarith

/-- C159: the bit error rate of M-QAM strictly decreases to zero; it lies between the symbol error rate over the number of bits and the symbol
error rate, and its ratio to the former goes to one. -/
theorem C159_ber_qam (M : ℝ) (hM : 4 ≤ M) :
    StrictAntiOn (fun snr => berQam snr M) (Set.Ici 0) ∧ Tendsto (fun snr => berQam snr M) atTop (𝓝 0) ∧
      (∀ snr, 0 ≤ snr → serQam snr M / Real.logb 2 M < berQam snr M ∧ berQam snr M ≤ serQam snr M) ∧
      Tendsto (fun snr => berQam snr M / (serQam snr M / Real.logb 2 M)) atTop (𝓝 1) := by
  have hM1 : 1 < M := by linarith
  obtain ⟨ha0, ha1⟩ := invRoot_lt hM1
  have hlog : 2 ≤ Real.logb 2 M := by
    rw [Real.le_logb_iff_rpow_le (by norm_num) (by linarith)]
    norm_num
    linarith
  have hl0 : 0 < Real.logb 2 M := by linarith
  obtain ⟨E, hE⟩ : ∃ E : ℝ → ℝ, E = fun snr => erfc (Real.sqrt (3 * snr / (2 * (M - 1)))) := ⟨_, rfl⟩
  obtain ⟨a, hadef⟩ : ∃ a, a = 1 - 1 / Real.sqrt M := ⟨_, rfl⟩
  have hser : ∀ snr, serQam snr M = a * E snr * (2 - a * E snr) := by
    intro snr
    rw [serQam_eq hM1, hE, hadef]
    ring
  have hber : ∀ snr, berQam snr M = 2 * (a * E snr) / Real.logb 2 M := by
    intro snr
    rw [berQam_eq hM1, hE, hadef]
    ring
  have hbd : ∀ snr, 0 < a * E snr ∧ a * E snr < 1 := by
    intro snr
    have h1 : 0 < E snr := by rw [hE]; exact erfc_pos _
    have h2 : E snr ≤ 1 := by rw [hE]; exact erfc_le_one (Real.sqrt_nonneg _)
    rw [← hadef] at ha0 ha1
    exact ⟨mul_pos ha0 h1, by nlinarith⟩
  have hlim : Tendsto (fun snr => a * E snr) atTop (𝓝 0) := by
    have h1 := (rootArg_tendsto hM1).const_mul a
    rw [mul_zero] at h1
    rw [hE]
    exact h1
  refine ⟨?_, ?_, ?_, ?_⟩
  · intro x hx y hy hxy
    have h1 : E y < E x := by rw [hE]; exact erfc_strictAnti (rootArg_lt hM1 hx hxy)
    rw [← hadef] at ha0
    have h2 := mul_lt_mul_of_pos_left h1 ha0
    simp only [hber]
    apply div_lt_div_of_pos_right _ hl0
    linarith
  · have h1 := (hlim.const_mul 2).div_const (Real.logb 2 M)
    rw [mul_zero, zero_div] at h1
    exact h1.congr fun snr => (hber snr).symm
  · intro snr _
    obtain ⟨b1, b2⟩ := hbd snr
    rw [hser, hber]
    constructor
    · apply div_lt_div_of_pos_right _ hl0
      nlinarith
    · rw [div_le_iff₀ hl0]
      have h1 : a * E snr * 1 ≤ a * E snr * (2 - a * E snr) := mul_le_mul_of_nonneg_left (by linarith) b1.le
      nlinarith
  · have h1 : Tendsto (fun snr => 2 / (2 - a * E snr)) atTop (𝓝 (2 / (2 - 0))) :=
      tendsto_const_nhds.div (tendsto_const_nhds.sub hlim) (by norm_num)
    rw [sub_zero, div_self (by norm_num)] at h1
    refine h1.congr fun snr => ?_
    obtain ⟨b1, b2⟩ := hbd snr
    rw [hser, hber]
    have h2 : 2 - a * E snr ≠ 0 := by linarith
    have h3 : a * E snr ≠ 0 := b1.ne'
    rw [div_div_div_cancel_right₀ hl0.ne', mul_comm 2, mul_div_mul_left _ _ h3]

/-- C159: PSK: decreasing from one to zero, and increasing with the order. -/
theorem C159_psk (M : ℝ) (hM : 2 ≤ M) :
    StrictAntiOn (fun snr => serPsk snr M) (Set.Ici 0) ∧ serPsk 0 M = 1 ∧ Tendsto (fun snr => serPsk snr M) atTop (𝓝 0) ∧
      ∀ snr M', 0 < snr → M < M' → serPsk snr M < serPsk snr M' := by
  have hp := Real.pi_pos
  have hsin : ∀ M : ℝ, 2 ≤ M → 0 < Real.pi / M ∧ Real.pi / M ≤ Real.pi / 2 := by
    intro M hM
    exact ⟨by positivity, div_le_div_of_nonneg_left hp.le (by norm_num) hM⟩
  have hs : 0 < Real.sin (Real.pi / M) := by
    obtain ⟨h1, h2⟩ := hsin M hM
    exact Real.sin_pos_of_pos_of_lt_pi h1 (by linarith)
  refine ⟨?_, ?_, ?_, ?_⟩
  · intro x hx y _ hxy
    exact erfc_strictAnti (mul_lt_mul_of_pos_right (Real.sqrt_lt_sqrt hx hxy) hs)
  · rw [serPsk, Real.sqrt_zero, zero_mul, erfc_zero]
  · exact erfc_tendsto.comp (Real.tendsto_sqrt_atTop.atTop_mul_const hs)
  · intro snr M' h0 h
    apply erfc_strictAnti
    apply mul_lt_mul_of_pos_left _ (Real.sqrt_pos.2 h0)
    obtain ⟨h1, h2⟩ := hsin M hM
    obtain ⟨h3, h4⟩ := hsin M' (by linarith)
    apply Real.sin_lt_sin_of_lt_of_le_pi_div_two (by linarith) h2
    exact div_lt_div_of_pos_left hp (by linarith) h

/-- C159: 4-PAM: decreasing from the rate of guessing to zero. -/
theorem C159_pam : StrictAntiOn ser4pam (Set.Ici 0) ∧ ser4pam 0 = 3 / 4 ∧ Tendsto ser4pam atTop (𝓝 0) := by
  refine ⟨?_, ?_, ?_⟩
  · intro x hx y _ hxy
    unfold ser4pam
    apply mul_lt_mul_of_pos_left _ (by norm_num)
    apply erfc_strictAnti
    have hx : 0 ≤ x := hx
    exact Real.sqrt_lt_sqrt (by positivity) (by linarith)
  · rw [ser4pam, zero_div, Real.sqrt_zero, erfc_zero]
    norm_num
  · have h : Tendsto (fun snr : ℝ => erfc (Real.sqrt (snr / 5))) atTop (𝓝 0) :=
      erfc_tendsto.comp (Real.tendsto_sqrt_atTop.comp (tendsto_id.atTop_div_const (by norm_num)))
    have h1 := h.const_mul (0.75 : ℝ)
    rw [mul_zero] at h1
    exact h1

/-- C159: the bit error rate as a function of the error vector magnitude in dB strictly increases. -/
theorem C159_evm (M : ℝ) (hM : 4 ≤ M) : StrictMono fun evmDb => berEvm evmDb M := by
  intro x y hxy
  have key : ∀ e : ℝ, berEvm e M = berQam (dB2lin (-e)) M := by
    intro e
    have := C118_evm (-e) M
    rwa [neg_neg] at this
  have hpos : ∀ e : ℝ, 0 < dB2lin e := fun e => by unfold dB2lin; positivity
  simp only [key]
  apply (C159_ber_qam M hM).1 (hpos _).le (hpos _).le
  unfold dB2lin
  apply Real.rpow_lt_rpow_of_exponent_lt (by norm_num)
  linarith

/-- The formulas at 16-QAM and an SNR of 10 against one of 20. -/
example : serQam 20 16 < serQam 10 16 ∧ serQam 10 4 < serQam 10 16 ∧ berQam 10 16 ≤ serQam 10 16 ∧ serQam 0 16 = 15 / 16 :=
  ⟨(C159_ser_qam 16 (by norm_num)).1 (Set.mem_Ici.2 (by norm_num)) (Set.mem_Ici.2 (by norm_num)) (by norm_num),
    C159_order 10 4 16 (by norm_num) (by norm_num) (by norm_num),
    ((C159_ber_qam 16 (by norm_num)).2.2.1 10 (by norm_num)).2, by rw [(C159_ser_qam 16 (by norm_num)).2.1]; norm_num⟩

end Qampy
