import Verif.Model.RoundedCarrier
import Verif.Props.RoundedBps
import Verif.Tactics
import Mathlib.Analysis.SpecialFunctions.Trigonometric.Bounds

/-!
C206: adding and removing a carrier offset in floating point.
-/

namespace Qampy

open Complex

/-- `x` is `y` up to a factor between `2 - a` and `a`. -/
def WithinFactor (a x y : ℝ) : Prop := 1 ≤ a ∧ |x - y| ≤ (a - 1) * |y|

theorem WithinFactor.refl (y : ℝ) : WithinFactor 1 y y := ⟨le_rfl, by simp⟩

theorem WithinFactor.mul {a b x y x' y' : ℝ} (h : WithinFactor a x y) (h' : WithinFactor b x' y') : WithinFactor (a * b) (x * x') (y * y') := by
  obtain ⟨h1, h2⟩ := h
  obtain ⟨h3, h4⟩ := h'
  refine ⟨by nlinarith, ?_⟩
  have hx : |x| ≤ a * |y| := by
    have := abs_sub_abs_le_abs_sub x y
    linarith
  have e : x * x' - y * y' = x * (x' - y') + (x - y) * y' := by ring
  calc |x * x' - y * y'| ≤ |x * (x' - y')| + |(x - y) * y'| := by rw [e]; exact abs_add_le _ _
    _ = |x| * |x' - y'| + |x - y| * |y'| := by rw [abs_mul, abs_mul]
    _ ≤ (a * |y|) * ((b - 1) * |y'|) + ((a - 1) * |y|) * |y'| := by
        apply add_le_add
        · exact mul_le_mul hx h4 (abs_nonneg _) (by positivity)
        · exact mul_le_mul_of_nonneg_right h2 (abs_nonneg _)
    _ = (a * b - 1) * |y * y'| := by rw [abs_mul]; ring

theorem WithinFactor.round {fl : ℝ → ℝ} {u a x y : ℝ} (hf : Rounds fl u) (h : WithinFactor a x y) : WithinFactor (a * (1 + u)) (fl x) y := by
  obtain ⟨h1, h2⟩ := h
  have hu := hf.1
  refine ⟨by nlinarith, ?_⟩
  have hx : |x| ≤ a * |y| := by
    have := abs_sub_abs_le_abs_sub x y
    linarith
  have h3 := hf.2 x
  have e : fl x - y = (fl x - x) + (x - y) := by ring
  calc |fl x - y| ≤ |fl x - x| + |x - y| := by rw [e]; exact abs_add_le _ _
    _ ≤ u * (a * |y|) + (a - 1) * |y| := add_le_add (h3.trans (mul_le_mul_of_nonneg_left hx hu)) h2
    _ = (a * (1 + u) - 1) * |y| := by ring

theorem WithinFactor.recip {fl : ℝ → ℝ} {u y : ℝ} (hf : Rounds fl u) (hu : u < 1) (hy : y ≠ 0) : WithinFactor (1 / (1 - u)) (1 / fl y) (1 / y) := by
  have hu0 := hf.1
  have h1 := hf.2 y
  have hy' : 0 < |y| := abs_pos.2 hy
  have h2 : (1 - u) * |y| ≤ |fl y| := by
    have := abs_sub_abs_le_abs_sub y (fl y)
    rw [abs_sub_comm] at this
    linarith
  have h3 : 0 < |fl y| := lt_of_lt_of_le (mul_pos (by linarith) hy') h2
  have h4 : fl y ≠ 0 := abs_pos.1 h3
  refine ⟨by rw [le_div_iff₀ (by linarith)]; linarith, ?_⟩
  have e : 1 / fl y - 1 / y = (y - fl y) / (fl y * y) := by field_simp
  rw [e, abs_div, abs_mul, abs_div, abs_one, div_le_iff₀ (mul_pos h3 hy'), abs_sub_comm]
  have e2 : (1 / (1 - u) - 1) * (1 / |y|) * (|fl y| * |y|) = u / (1 - u) * |fl y| := by
    have : (1 - u) ≠ 0 := by linarith
    field_simp
    ring
  rw [e2]
  have h5 : u / (1 - u) * ((1 - u) * |y|) ≤ u / (1 - u) * |fl y| := mul_le_mul_of_nonneg_left h2 (div_nonneg hu0 (by linarith))
  have e3 : u / (1 - u) * ((1 - u) * |y|) = u * |y| := by
    have : (1 - u) ≠ 0 := by linarith
    field_simp
  linarith

/-- Relative error of the added phase. -/
noncomputable def addGrowth (u : ℝ) : ℝ := (1 + u) ^ 7 / (1 - u) - 1

/-- Relative error of the removed phase. -/
noncomputable def compGrowth (u : ℝ) : ℝ := (1 + u) ^ 5 - 1

theorem offsetPhaseFl_err {fl : ℝ → ℝ} {u : ℝ} (hf : Rounds fl u) (hu : u < 1) {fo fs : ℝ} (hfs : fs ≠ 0) (n : Nat) :
    |offsetPhaseFl fl fo fs n - 2 * Real.pi * n * fo / fs| ≤ addGrowth u * |2 * Real.pi * n * fo / fs| := by
  have h1 := ((((((WithinFactor.refl (2 * Real.pi)).round hf).mul ((WithinFactor.refl (n : ℝ)).round hf)).round hf).mul ((WithinFactor.refl fo).round hf)).round hf).mul
    ((WithinFactor.recip hf hu hfs).round hf) |>.round hf
  have e1 : 2 * Real.pi * (n : ℝ) * fo * (1 / fs) = 2 * Real.pi * n * fo / fs := by ring
  rw [e1] at h1
  have h2 := h1.2
  unfold addGrowth offsetPhaseFl
  have e3 : (1 : ℝ) * (1 + u) * (1 * (1 + u)) * (1 + u) * (1 * (1 + u)) * (1 + u) * (1 / (1 - u) * (1 + u)) * (1 + u) = (1 + u) ^ 7 / (1 - u) := by ring
  rw [e3] at h2
  exact h2

theorem linPhaseFl_err {fl : ℝ → ℝ} {u : ℝ} (hf : Rounds fl u) (f os : ℝ) (n : Nat) :
    |linPhaseFl fl f os n - 2 * Real.pi * ((n : ℝ) + 1) * f / os| ≤ compGrowth u * |2 * Real.pi * ((n : ℝ) + 1) * f / os| := by
  have h1 := ((((((WithinFactor.refl (2 * Real.pi)).round hf).mul ((WithinFactor.refl (((n + 1 : Nat)) : ℝ)).round hf)).round hf).mul (WithinFactor.refl f)).round hf).mul
    (WithinFactor.refl (1 / os)) |>.round hf
  have h2 := h1.2
  have e3 : (1 : ℝ) * (1 + u) * (1 * (1 + u)) * (1 + u) * 1 * (1 + u) * 1 * (1 + u) = (1 + u) ^ 5 := by ring
  have e1 : 2 * Real.pi * (((n + 1 : Nat)) : ℝ) * f * (1 / os) = 2 * Real.pi * ((n : ℝ) + 1) * f / os := by push_cast; ring
  rw [e3, e1, mul_one_div] at h2
  exact h2

theorem exp_phase_close (a b : ℝ) : ‖Complex.exp (I * (a : ℂ)) - Complex.exp (I * (b : ℂ))‖ ≤ |a - b| := by
  have e : Complex.exp (I * (a : ℂ)) - Complex.exp (I * (b : ℂ)) = Complex.exp (I * (b : ℂ)) * (Complex.exp (I * ((a - b : ℝ) : ℂ)) - 1) := by
    rw [mul_sub, ← Complex.exp_add, mul_one]
    congr 2
    push_cast
    ring
  rw [e, norm_mul, mul_comm I, Complex.norm_exp_ofReal_mul_I, one_mul]
  exact Real.norm_exp_I_mul_ofReal_sub_one_le

/-- One turned sample with a rounded phase. -/
theorem turned_phase {fl : ℝ → ℝ} {u v : ℝ} (hf : Rounds fl u) {expF : ℝ → ℂ} (hv : ∀ t, ‖expF t - Complex.exp (I * (t : ℂ))‖ ≤ v) (x : ℂ) {t s d : ℝ} (hd : |t - s| ≤ d) :
    ‖mulFl fl x (expF t) - x * Complex.exp (I * (s : ℂ))‖ ≤ (mulErr u * (1 + v) + v + d) * ‖x‖ := by
  have h1 := turned_round hf (c := expF t) (w := Complex.exp (I * (t : ℂ))) (e := x) (by rw [mul_comm, Complex.norm_exp_ofReal_mul_I]) (hv t)
  have h2 : ‖x * Complex.exp (I * (t : ℂ)) - x * Complex.exp (I * (s : ℂ))‖ ≤ d * ‖x‖ := by
    rw [← mul_sub, norm_mul, mul_comm]
    exact mul_le_mul_of_nonneg_right ((exp_phase_close t s).trans hd) (norm_nonneg _)
  have e : mulFl fl x (expF t) - x * Complex.exp (I * (s : ℂ)) = (mulFl fl x (expF t) - x * Complex.exp (I * (t : ℂ))) + (x * Complex.exp (I * (t : ℂ)) - x * Complex.exp (I * (s : ℂ))) := by ring
  rw [e]
  refine (norm_add_le _ _).trans ?_
  linarith

/-- Error of the added offset at sample `n`, relative to the sample. -/
noncomputable def addErr (u v fo fs : ℝ) (n : Nat) : ℝ := mulErr u * (1 + v) + v + addGrowth u * |2 * Real.pi * n * fo / fs|

/-- Error of the removed offset at sample `n`, relative to the sample. -/
noncomputable def compErr (u v f os : ℝ) (n : Nat) : ℝ := mulErr u * (1 + v) + v + compGrowth u * |2 * Real.pi * ((n : ℝ) + 1) * f / os|

/-- C206: adding a carrier offset in the type of the signal. The error of a sample is its amplitude times a constant plus the relative accuracy of the type times the accumulated phase:
it grows in proportion to the sample number. -/
theorem C206_add {fl : ℝ → ℝ} {u v : ℝ} (hf : Rounds fl u) (hu : u < 1) {expF : ℝ → ℂ} (hv : ∀ t, ‖expF t - Complex.exp (I * (t : ℂ))‖ ≤ v) (sig : List ℂ) {fo fs : ℝ} (hfs : fs ≠ 0)
    {n : Nat} {x : ℂ} (hn : sig[n]? = some x) :
    ∃ y, (addCarrierOffsetFl fl expF sig fo fs)[n]? = some y ∧ ‖y - x * Complex.exp (I * ((2 * Real.pi * n * fo / fs : ℝ) : ℂ))‖ ≤ addErr u v fo fs n * ‖x‖ := by
  refine ⟨mulFl fl x (expF (offsetPhaseFl fl fo fs n)), ?_, ?_⟩
  · rw [addCarrierOffsetFl, List.getElem?_mapIdx, hn]; rfl
  · exact turned_phase hf hv x (offsetPhaseFl_err hf hu hfs n)

/-- C206: an offset added in the type of the signal and removed again in the type `float` leaves every sample up to the turn of one time step (the times start with 0 and with 1), with an error
that grows in proportion to the sample number. `u1`, `v1` are the accuracies of arithmetic and exponential in the type of the signal, `u2`, `v2` those of `float`. -/
theorem C206_roundtrip {fl1 fl2 : ℝ → ℝ} {u1 u2 v1 v2 : ℝ} (hf1 : Rounds fl1 u1) (hf2 : Rounds fl2 u2) (hu1 : u1 < 1) {expF1 expF2 : ℝ → ℂ}
    (hv1 : ∀ t, ‖expF1 t - Complex.exp (I * (t : ℂ))‖ ≤ v1) (hv2 : ∀ t, ‖expF2 t - Complex.exp (I * (t : ℂ))‖ ≤ v2) (sig : List ℂ) {fo fs f os : ℝ} (hfs : fs ≠ 0) (hr : fo / fs = f / os)
    {n : Nat} {x : ℂ} (hn : sig[n]? = some x) :
    ∃ y, (compFreqOffsetFl fl2 fl1 expF2 (addCarrierOffsetFl fl1 expF1 sig fo fs) f os)[n]? = some y
      ∧ ‖y - x * Complex.exp (-(I * ((2 * Real.pi * f / os : ℝ) : ℂ)))‖ ≤ ((1 + addErr u1 v1 fo fs n) * (1 + compErr u2 v2 f os n) * (1 + u1) - 1) * ‖x‖ := by
  obtain ⟨a, ha1, ha2⟩ := C206_add hf1 hu1 hv1 sig hfs hn (fo := fo)
  obtain ⟨b, hb⟩ : ∃ b, b = mulFl fl2 a (expF2 (-linPhaseFl fl2 f os n)) := ⟨_, rfl⟩
  have hb2 : ‖b - a * Complex.exp (I * ((-(2 * Real.pi * ((n : ℝ) + 1) * f / os) : ℝ) : ℂ))‖ ≤ compErr u2 v2 f os n * ‖a‖ := by
    rw [hb]
    apply turned_phase hf2 hv2 a
    rw [neg_sub_neg, abs_sub_comm]
    exact linPhaseFl_err hf2 f os n
  refine ⟨⟨fl1 b.re, fl1 b.im⟩, ?_, ?_⟩
  · rw [compFreqOffsetFl, List.getElem?_mapIdx, ha1, hb]; rfl
  · have hu0 := hf1.1
    have h1 : ‖(⟨fl1 b.re, fl1 b.im⟩ : ℂ) - b‖ ≤ u1 * ‖b‖ := norm_parts_err hu0 (hf1.2 _) (hf1.2 _)
    obtain ⟨w1, hw1⟩ : ∃ w1, w1 = Complex.exp (I * ((2 * Real.pi * n * fo / fs : ℝ) : ℂ)) := ⟨_, rfl⟩
    obtain ⟨w2, hw2⟩ : ∃ w2, w2 = Complex.exp (I * ((-(2 * Real.pi * ((n : ℝ) + 1) * f / os) : ℝ) : ℂ)) := ⟨_, rfl⟩
    have hn1 : ‖w1‖ = 1 := by rw [hw1, mul_comm, Complex.norm_exp_ofReal_mul_I]
    have hn2 : ‖w2‖ = 1 := by rw [hw2, mul_comm, Complex.norm_exp_ofReal_mul_I]
    have hw : w1 * w2 = Complex.exp (-(I * ((2 * Real.pi * f / os : ℝ) : ℂ))) := by
      rw [hw1, hw2, ← Complex.exp_add, ← mul_add, ← mul_neg, ← Complex.ofReal_add, ← Complex.ofReal_neg]
      congr 3
      have e1 : 2 * Real.pi * (n : ℝ) * fo / fs = 2 * Real.pi * n * (f / os) := by rw [← hr]; ring
      rw [e1]
      ring
    rw [← hw1] at ha2
    rw [← hw2] at hb2
    rw [← hw]
    obtain ⟨A, hA⟩ : ∃ A, A = addErr u1 v1 fo fs n := ⟨_, rfl⟩
    obtain ⟨B, hB⟩ : ∃ B, B = compErr u2 v2 f os n := ⟨_, rfl⟩
    rw [← hA] at ha2 ⊢
    rw [← hB] at hb2 ⊢
    have ha3 : ‖a‖ ≤ (1 + A) * ‖x‖ := by
      have := norm_le_norm_add_norm_sub' a (x * w1)
      rw [norm_mul, hn1, mul_one] at this
      linarith
    have hb3 : ‖b‖ ≤ (1 + B) * ‖a‖ := by
      have := norm_le_norm_add_norm_sub' b (a * w2)
      rw [norm_mul, hn2, mul_one] at this
      linarith
    have hv10 : 0 ≤ v1 := (norm_nonneg _).trans (hv1 0)
    have hv20 : 0 ≤ v2 := (norm_nonneg _).trans (hv2 0)
    have hB0 : 0 ≤ B := by
      have h2 := hf2.1
      have h3 : 0 ≤ compGrowth u2 := by
        unfold compGrowth
        have := one_le_pow₀ (M₀ := ℝ) (a := 1 + u2) (n := 5) (by linarith)
        linarith
      have h4 : 0 ≤ mulErr u2 := by unfold mulErr; positivity
      rw [hB]
      unfold compErr
      positivity
    have e : (⟨fl1 b.re, fl1 b.im⟩ : ℂ) - x * (w1 * w2) = ((⟨fl1 b.re, fl1 b.im⟩ : ℂ) - b) + ((b - a * w2) + (a - x * w1) * w2) := by ring
    have h5 : ‖(a - x * w1) * w2‖ ≤ A * ‖x‖ := by rw [norm_mul, hn2, mul_one]; exact ha2
    have h6 : u1 * ‖b‖ ≤ u1 * ((1 + B) * ((1 + A) * ‖x‖)) := mul_le_mul_of_nonneg_left (hb3.trans (mul_le_mul_of_nonneg_left ha3 (by linarith))) hu0
    have h7 : B * ‖a‖ ≤ B * ((1 + A) * ‖x‖) := mul_le_mul_of_nonneg_left ha3 hB0
    calc ‖(⟨fl1 b.re, fl1 b.im⟩ : ℂ) - x * (w1 * w2)‖ ≤ ‖(⟨fl1 b.re, fl1 b.im⟩ : ℂ) - b‖ + (‖b - a * w2‖ + ‖(a - x * w1) * w2‖) := by
          rw [e]; exact (norm_add_le _ _).trans (add_le_add_right (norm_add_le _ _) _)
      _ ≤ u1 * ((1 + B) * ((1 + A) * ‖x‖)) + (B * ((1 + A) * ‖x‖) + A * ‖x‖) := by linarith
      _ = ((1 + A) * (1 + B) * (1 + u1) - 1) * ‖x‖ := by ring

/-- C206: with `p` bits the samples `2^p` and `2^p + 1` are turned by the same computed factor, whatever the offset. -/
theorem C206_stuck {p : Nat} (hp : 2 ≤ p) (fo fs : ℝ) : offsetPhaseFl (flP p) fo fs (2 ^ p + 1) = offsetPhaseFl (flP p) fo fs (2 ^ p) := by
  unfold offsetPhaseFl
  have h1 : flP p (((2 ^ p + 1 : Nat)) : ℝ) = 2 ^ p := by
    push_cast
    exact flP_stuck hp
  have h2 : flP p (((2 ^ p : Nat)) : ℝ) = 2 ^ p := by
    rw [flP_nat _ le_rfl (by omega)]
    push_cast
    rfl
  rw [h1, h2]

/-- C206 as stated: also for long single precision signals the sample is turned by the offset, with an error below its amplitude (even with an exact exponential and an offset of at most half the
sampling rate). -/
def C206_statement : Prop := ∀ (sig : List ℂ) (fo fs : ℝ) (n : Nat) (x : ℂ), 0 < fs → |fo| ≤ fs / 2 → sig[n]? = some x → x ≠ 0 →
  ∃ y, (addCarrierOffsetFl (flP 24) (fun t => Complex.exp (I * (t : ℂ))) sig fo fs)[n]? = some y ∧ ‖y - x * Complex.exp (I * ((2 * Real.pi * n * fo / fs : ℝ) : ℂ))‖ < ‖x‖

theorem C206_false : ¬ C206_statement := by
  intro h
  obtain ⟨sig, hsig⟩ : ∃ sig : List ℂ, sig = List.replicate (2 ^ 24 + 2) 1 := ⟨_, rfl⟩
  have g1 : sig[2 ^ 24]? = some 1 := by rw [hsig, List.getElem?_replicate, if_pos (by norm_num)]
  have g2 : sig[2 ^ 24 + 1]? = some 1 := by rw [hsig, List.getElem?_replicate, if_pos (by norm_num)]
  obtain ⟨y1, h1, k1⟩ := h sig 1 2 (2 ^ 24) 1 (by norm_num) (by norm_num) g1 one_ne_zero
  obtain ⟨y2, h2, k2⟩ := h sig 1 2 (2 ^ 24 + 1) 1 (by norm_num) (by norm_num) g2 one_ne_zero
  have e1 : y1 = mulFl (flP 24) 1 (Complex.exp (I * ((offsetPhaseFl (flP 24) 1 2 (2 ^ 24) : ℝ) : ℂ))) := by
    rw [addCarrierOffsetFl, List.getElem?_mapIdx, g1] at h1
    exact (Option.some.inj h1).symm
  have e2 : y2 = y1 := by
    rw [addCarrierOffsetFl, List.getElem?_mapIdx, g2] at h2
    rw [e1, ← C206_stuck (by norm_num) 1 2]
    exact (Option.some.inj h2).symm
  have f1 : Complex.exp (I * ((2 * Real.pi * ((2 ^ 24 : Nat) : ℝ) * 1 / 2 : ℝ) : ℂ)) = 1 := by
    rw [Complex.exp_eq_one_iff]
    refine ⟨2 ^ 23, ?_⟩
    push_cast
    ring
  have f2 : Complex.exp (I * ((2 * Real.pi * ((2 ^ 24 + 1 : Nat) : ℝ) * 1 / 2 : ℝ) : ℂ)) = -1 := by
    rw [← Complex.exp_pi_mul_I]
    rw [Complex.exp_eq_exp_iff_exists_int]
    refine ⟨2 ^ 23, ?_⟩
    push_cast
    ring
  rw [f1, mul_one, norm_one] at k1
  rw [f2, e2, mul_neg, mul_one, norm_one, sub_neg_eq_add] at k2
  have : ‖(2 : ℂ)‖ ≤ ‖y1 + 1‖ + ‖y1 - 1‖ := by
    have e : (2 : ℂ) = (y1 + 1) - (y1 - 1) := by ring
    rw [e]
    exact norm_sub_le _ _
  rw [Complex.norm_ofNat] at this
  linarith

/-- The hypotheses of C206 are met: a double precision signal of a million samples with an offset of a tenth of the sampling rate, removed at two samples per symbol. The error stays below `10⁻⁸`. -/
example (sig : List ℂ) (n : Nat) (hn : n < 1000000) (x : ℂ) (hx : sig[n]? = some x) :
    ∃ y, (compFreqOffsetFl (flP 53) (flP 53) (fun t => Complex.exp (I * (t : ℂ))) (addCarrierOffsetFl (flP 53) (fun t => Complex.exp (I * (t : ℂ))) sig 1 10) (1 / 5) 2)[n]? = some y
      ∧ ‖y - x * Complex.exp (-(I * ((2 * Real.pi * (1 / 5) / 2 : ℝ) : ℂ)))‖ ≤ 1 / 10 ^ 8 * ‖x‖ := by
  have hv : ∀ t : ℝ, ‖Complex.exp (I * (t : ℂ)) - Complex.exp (I * (t : ℂ))‖ ≤ 0 := fun t => by simp
  have hu : ((2 : ℝ) ^ (-((53 : Nat) : ℤ))) < 1 := by norm_num
  obtain ⟨y, h1, h2⟩ := C206_roundtrip (flP_rounds 53) (flP_rounds 53) hu hv hv sig (fo := 1) (fs := 10) (f := 1 / 5) (os := 2) (by norm_num) (by norm_num) hx
  refine ⟨y, h1, h2.trans (mul_le_mul_of_nonneg_right ?_ (norm_nonneg _))⟩
  have hp := Real.pi_le_four
  have hp0 := Real.pi_pos
  have hn' : (n : ℝ) ≤ 999999 := by exact_mod_cast (by omega : n ≤ 999999)
  have hn0 : (0 : ℝ) ≤ n := Nat.cast_nonneg n
  have b1 : |2 * Real.pi * (n : ℝ) * 1 / 10| ≤ 800000 := by
    rw [abs_of_nonneg (by positivity)]
    nlinarith
  have b2 : |2 * Real.pi * ((n : ℝ) + 1) * (1 / 5) / 2| ≤ 800000 := by
    rw [abs_of_nonneg (by positivity)]
    nlinarith
  obtain ⟨a, ha⟩ : ∃ a, a = addErr ((2 : ℝ) ^ (-((53 : Nat) : ℤ))) 0 1 10 n := ⟨_, rfl⟩
  obtain ⟨b, hb⟩ : ∃ b, b = compErr ((2 : ℝ) ^ (-((53 : Nat) : ℤ))) 0 (1 / 5) 2 n := ⟨_, rfl⟩
  have g1 : addGrowth ((2 : ℝ) ^ (-((53 : Nat) : ℤ))) ≤ 1 / 10 ^ 15 ∧ 0 ≤ addGrowth ((2 : ℝ) ^ (-((53 : Nat) : ℤ))) := by
    unfold addGrowth; norm_num
  have g2 : compGrowth ((2 : ℝ) ^ (-((53 : Nat) : ℤ))) ≤ 1 / 10 ^ 15 ∧ 0 ≤ compGrowth ((2 : ℝ) ^ (-((53 : Nat) : ℤ))) := by
    unfold compGrowth; norm_num
  have g3 : mulErr ((2 : ℝ) ^ (-((53 : Nat) : ℤ))) ≤ 1 / 10 ^ 15 ∧ 0 ≤ mulErr ((2 : ℝ) ^ (-((53 : Nat) : ℤ))) := by
    unfold mulErr; norm_num
  have ha1 : 0 ≤ a ∧ a ≤ 1 / 10 ^ 9 := by
    rw [ha]; unfold addErr
    have t1 := mul_le_mul g1.1 b1 (abs_nonneg _) (by norm_num)
    have t2 := mul_nonneg g1.2 (abs_nonneg (2 * Real.pi * (n : ℝ) * 1 / 10))
    have t3 := g3.1
    have t4 := g3.2
    simp only [add_zero, mul_one] at t1 t2 ⊢
    exact ⟨add_nonneg t4 t2, (add_le_add t3 t1).trans (by norm_num)⟩
  have hb1 : 0 ≤ b ∧ b ≤ 1 / 10 ^ 9 := by
    rw [hb]; unfold compErr
    have t1 := mul_le_mul g2.1 b2 (abs_nonneg _) (by norm_num)
    have t2 := mul_nonneg g2.2 (abs_nonneg (2 * Real.pi * ((n : ℝ) + 1) * (1 / 5) / 2))
    have t3 := g3.1
    have t4 := g3.2
    simp only [add_zero, mul_one] at t1 t2 ⊢
    exact ⟨add_nonneg t4 t2, (add_le_add t3 t1).trans (by norm_num)⟩
  rw [← ha, ← hb]
  have k1 : (1 + a) * (1 + b) ≤ (1 + 1 / 10 ^ 9) * (1 + 1 / 10 ^ 9) := mul_le_mul (by linarith [ha1.2]) (by linarith [hb1.2]) (by linarith [hb1.1]) (by norm_num)
  have k2 : (1 + a) * (1 + b) * (1 + (2 : ℝ) ^ (-((53 : Nat) : ℤ))) ≤ (1 + 1 / 10 ^ 9) * (1 + 1 / 10 ^ 9) * (1 + (2 : ℝ) ^ (-((53 : Nat) : ℤ))) := mul_le_mul_of_nonneg_right k1 (by norm_num)
  have k3 : (1 + 1 / 10 ^ 9) * (1 + 1 / 10 ^ 9) * (1 + (2 : ℝ) ^ (-((53 : Nat) : ℤ))) - 1 ≤ 1 / 10 ^ 8 := by norm_num
  linarith

end Qampy
