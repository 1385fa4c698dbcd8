import Verif.Model.Theory
import Verif.Tactics
import Mathlib.Probability.Distributions.Gaussian.Real

/-! Tail probabilities of the standard normal distribution in terms of `erfc`. -/

namespace Qampy

open MeasureTheory ProbabilityTheory

/-- Standard normal distribution, the law of `np.random.randn`. -/
noncomputable abbrev stdN : Measure ℝ := gaussianReal 0 1

instance : NullSingletonClass stdN := nullSingletonClass_gaussianReal one_ne_zero

theorem stdN_Ioi (x : ℝ) : stdN.real (Set.Ioi x) = qFunction x := by
  have h2 : (0 : ℝ) < Real.sqrt 2 := by positivity
  have hpi : (0 : ℝ) < Real.sqrt Real.pi := Real.sqrt_pos.2 Real.pi_pos
  rw [Measure.real, gaussianReal_apply_eq_integral 0 one_ne_zero, ENNReal.toReal_ofReal (integral_nonneg fun t => gaussianPDFReal_nonneg 0 1 t)]
  have h := integral_comp_mul_left_Ioi (fun t : ℝ => Real.exp (-t ^ 2)) x (b := 1 / Real.sqrt 2) (by positivity)
  have e : ∀ t : ℝ, gaussianPDFReal 0 1 t = (Real.sqrt (2 * Real.pi))⁻¹ * Real.exp (-(1 / Real.sqrt 2 * t) ^ 2) := by
    intro t
    simp only [gaussianPDFReal, NNReal.coe_one, mul_one, sub_zero]
    congr 2
    rw [mul_pow, div_pow, Real.sq_sqrt (by norm_num)]
    ring
  simp_rw [e]
  rw [integral_const_mul, h]
  unfold qFunction erfc
  rw [show 1 / Real.sqrt 2 * x = x / Real.sqrt 2 from by ring, Real.sqrt_mul (by norm_num)]
  rw [smul_eq_mul]
  field_simp
  ring

theorem stdN_Ici (x : ℝ) : stdN.real (Set.Ici x) = qFunction x := by
  rw [← stdN_Ioi, Measure.real, Measure.real, measure_congr Ioi_ae_eq_Ici]

theorem stdN_neg (s : Set ℝ) (hs : MeasurableSet s) : stdN.real ((fun x => -x) ⁻¹' s) = stdN.real s := by
  have h := gaussianReal_map_neg (μ := 0) (v := 1)
  rw [neg_zero] at h
  rw [Measure.real, Measure.real, ← Measure.map_apply measurable_neg hs]
  change ((Measure.map (fun x => -x) (gaussianReal 0 1)) s).toReal = _
  rw [h]

theorem stdN_Iic (x : ℝ) : stdN.real (Set.Iic (-x)) = qFunction x := by
  rw [← stdN_Ici, ← stdN_neg (Set.Ici x) measurableSet_Ici]
  congr 1
  ext u
  simp only [Set.mem_Iic, Set.mem_preimage, Set.mem_Ici]
  constructor <;> intro h <;> linarith

theorem stdN_Iio (x : ℝ) : stdN.real (Set.Iio (-x)) = qFunction x := by
  rw [← stdN_Iic, Measure.real, Measure.real, measure_congr Iio_ae_eq_Iic]

theorem qFunction_nonneg (x : ℝ) : 0 ≤ qFunction x := by rw [← stdN_Ioi]; exact measureReal_nonneg

theorem qFunction_le_one (x : ℝ) : qFunction x ≤ 1 := by rw [← stdN_Ioi]; exact measureReal_le_one

theorem qFunction_antitone : Antitone qFunction := by
  intro x y h
  rw [← stdN_Ioi, ← stdN_Ioi]
  exact measureReal_mono (Set.Ioi_subset_Ioi h)

theorem qFunction_neg (x : ℝ) : qFunction (-x) = 1 - qFunction x := by
  rw [← stdN_Ici (-x), ← stdN_Iio x, ← Set.compl_Iio, probReal_compl_eq_one_sub measurableSet_Iio]

theorem qFunction_zero : qFunction 0 = 1 / 2 := by
  have := qFunction_neg 0
  rw [neg_zero] at this
  linarith

theorem qFunction_le_half {x : ℝ} (hx : 0 ≤ x) : qFunction x ≤ 1 / 2 := by rw [← qFunction_zero]; exact qFunction_antitone hx

theorem erfc_eq (x : ℝ) : erfc x = 2 * qFunction (Real.sqrt 2 * x) := by
  unfold qFunction
  rw [mul_div_cancel_left₀ _ (by positivity)]
  ring

/-- The noise values for which a component with neighbours below (`lo`) and above (`hi`) at normalised half distance `x` is decided correctly. -/
def okSet (lo hi : Prop) (x : ℝ) : Set ℝ := {u | (lo → -x < u) ∧ (hi → u < x)}

theorem measurableSet_okSet (lo hi : Prop) (x : ℝ) : MeasurableSet (okSet lo hi x) := by
  by_cases h1 : lo <;> by_cases h2 : hi
  · have : okSet lo hi x = Set.Ioo (-x) x := by ext u; simp [okSet, h1, h2]
    rw [this]; exact measurableSet_Ioo
  · have : okSet lo hi x = Set.Ioi (-x) := by ext u; simp [okSet, h1, h2]
    rw [this]; exact measurableSet_Ioi
  · have : okSet lo hi x = Set.Iio x := by ext u; simp [okSet, h1, h2]
    rw [this]; exact measurableSet_Iio
  · have : okSet lo hi x = Set.univ := by ext u; simp [okSet, h1, h2]
    rw [this]; exact MeasurableSet.univ

open Classical in
theorem stdN_okSet (lo hi : Prop) {x : ℝ} (hx : 0 ≤ x) : stdN.real (okSet lo hi x) = 1 - ((if lo then 1 else 0) + (if hi then 1 else 0)) * qFunction x := by
  by_cases h1 : lo <;> by_cases h2 : hi
  · have : okSet lo hi x = (Set.Iic (-x) ∪ Set.Ici x)ᶜ := by
      ext u
      simp [okSet, h1, h2]
    rw [this, probReal_compl_eq_one_sub (measurableSet_Iic.union measurableSet_Ici)]
    rcases eq_or_lt_of_le hx with h0 | h0
    · have hu : Set.Iic (-x) ∪ Set.Ici x = Set.univ := by
        rw [← h0, neg_zero]; exact Set.Iic_union_Ici
      rw [hu, probReal_univ, ← h0, qFunction_zero, if_pos h1, if_pos h2]
      norm_num
    · rw [measureReal_union (Set.disjoint_left.2 fun u hu hu' => by
        simp only [Set.mem_Iic, Set.mem_Ici] at hu hu'; linarith) measurableSet_Ici, stdN_Iic, stdN_Ici, if_pos h1, if_pos h2]
      ring
  · have : okSet lo hi x = (Set.Iic (-x))ᶜ := by ext u; simp [okSet, h1, h2]
    rw [this, probReal_compl_eq_one_sub measurableSet_Iic, stdN_Iic, if_pos h1, if_neg h2]
    ring
  · have : okSet lo hi x = (Set.Ici x)ᶜ := by ext u; simp [okSet, h1, h2]
    rw [this, probReal_compl_eq_one_sub measurableSet_Ici, stdN_Ici, if_neg h1, if_pos h2]
    ring
  · have : okSet lo hi x = Set.univ := by ext u; simp [okSet, h1, h2]
    rw [this, probReal_univ, if_neg h1, if_neg h2]
    ring

/-- Law of one complex noise sample before scaling. -/
noncomputable abbrev stdN2 : Measure (ℝ × ℝ) := stdN.prod stdN

/-- Almost surely no component of the noise is on a decision boundary. -/
theorem ae_off_boundary (x : ℝ) : ∀ᵐ w ∂stdN2, w.1 ≠ x ∧ w.1 ≠ -x ∧ w.2 ≠ x ∧ w.2 ≠ -x := by
  have h0 : ∀ a : ℝ, ∀ᵐ u ∂stdN, u ≠ a := fun a => by
    rw [ae_iff]
    simp
  have h1 : ∀ a : ℝ, ∀ᵐ w ∂stdN2, w.1 ≠ a := fun a => Measure.quasiMeasurePreserving_fst.ae (h0 a)
  have h2 : ∀ a : ℝ, ∀ᵐ w ∂stdN2, w.2 ≠ a := fun a => Measure.quasiMeasurePreserving_snd.ae (h0 a)
  filter_upwards [h1 x, h1 (-x), h2 x, h2 (-x)] with w a b c d
  exact ⟨a, b, c, d⟩

end Qampy
