import Verif.Model.SquareContour
import Verif.Props.Gradient
import Verif.Lemmas.Constellation
import Mathlib.Data.List.Perm.Basic

/-!
C223: the radius of the square contour algorithm and the distance parameter of the constellation matched error.
-/

namespace Qampy

open Complex

/-- Half the side of the square through a point. -/
noncomputable def halfSide (s : ℂ) : ℝ := max |s.re| |s.im|

/-- The imaginary part of `_cal_Rdash`. -/
noncomputable def rdashIm (s : ℂ) : ℝ := (|s.re + s.im| + |s.re - s.im|) * ((npSign (s.re + s.im) - npSign (s.re - s.im)) * s.re - (npSign (s.re + s.im) + npSign (s.re - s.im)) * s.im)

theorem npSign_mul (x : ℝ) : npSign x * x = |x| := by
  unfold npSign
  rcases lt_trichotomy x 0 with h | h | h
  · rw [sign_neg h, abs_of_neg h]; simp
  · simp [h]
  · rw [sign_pos h, abs_of_pos h]; simp

theorem npSign_neg (x : ℝ) : npSign (-x) = -npSign x := by
  unfold npSign
  rcases lt_trichotomy x 0 with h | h | h
  · rw [sign_neg h, sign_pos (by linarith)]; simp
  · simp [h]
  · rw [sign_pos h, sign_neg (by linarith)]; simp

theorem calRdash_eq (s : ℂ) : calRdash s = ((4 * halfSide s ^ 2 : ℝ) : ℂ) + I * (rdashIm s : ℂ) := by
  have h1 := npSign_mul (s.re + s.im)
  have h2 := npSign_mul (s.re - s.im)
  have h3 := abs_add_abs_sub s.re s.im
  have h4 : (|s.re + s.im| + |s.re - s.im|) * ((npSign (s.re + s.im) + npSign (s.re - s.im)) * s.re + (npSign (s.re + s.im) - npSign (s.re - s.im)) * s.im) = 4 * halfSide s ^ 2 := by
    have : (npSign (s.re + s.im) + npSign (s.re - s.im)) * s.re + (npSign (s.re + s.im) - npSign (s.re - s.im)) * s.im = |s.re + s.im| + |s.re - s.im| := by
      rw [← h1, ← h2]; ring
    rw [this, h3]; unfold halfSide; ring
  rw [mk_re_im, ← h4]
  unfold calRdash rdashIm
  apply Complex.ext <;> simp <;> ring

theorem halfSide_star (s : ℂ) : halfSide (star s) = halfSide s := by simp [halfSide]

theorem rdashIm_star (s : ℂ) : rdashIm (star s) = -rdashIm s := by
  unfold rdashIm
  simp only [Complex.star_def, Complex.conj_re, Complex.conj_im]
  rw [← sub_eq_add_neg, sub_neg_eq_add]
  ring

theorem sum_odd {f : ℂ → ℝ} {syms : List ℂ} (hf : ∀ s, f (star s) = -f s) (hp : (syms.map star).Perm syms) : (syms.map f).sum = 0 := by
  have h1 : ((syms.map star).map f).sum = (syms.map f).sum := (hp.map f).sum_eq
  rw [List.map_map] at h1
  have h2 : (syms.map (f ∘ star)).sum = -(syms.map f).sum := by
    clear h1 hp
    induction syms with
    | nil => simp
    | cons s l ih => simp only [List.map_cons, List.sum_cons, ih, Function.comp_apply, hf]; ring
  linarith

theorem sum_parts (f g : ℂ → ℝ) (syms : List ℂ) : (syms.map fun s => ((f s : ℝ) : ℂ) + I * (g s : ℂ)).sum = (((syms.map f).sum : ℝ) : ℂ) + I * (((syms.map g).sum : ℝ) : ℂ) := by
  induction syms with
  | nil => simp
  | cons s l ih => simp only [List.map_cons, List.sum_cons, ih]; push_cast; ring

theorem sum_const_mul (c : ℝ) (f : ℂ → ℝ) (syms : List ℂ) : (syms.map fun s => c * f s).sum = c * (syms.map f).sum := by
  induction syms with
  | nil => simp
  | cons s l ih => simp only [List.map_cons, List.sum_cons, ih]; ring

/-- For a constellation that is symmetric about the real axis `_cal_Rsca` is the ratio of the fourth to the second moment of the half sides: the square of a length. -/
theorem C223_value {syms : List ℂ} (hp : (syms.map star).Perm syms) : calRsca syms = (((syms.map fun s => halfSide s ^ 4).sum / (syms.map fun s => halfSide s ^ 2).sum : ℝ) : ℂ) := by
  have h1 : (syms.map calRdash).sum = ((4 * (syms.map fun s => halfSide s ^ 2).sum : ℝ) : ℂ) := by
    rw [show (calRdash : ℂ → ℂ) = fun s => ((4 * halfSide s ^ 2 : ℝ) : ℂ) + I * (rdashIm s : ℂ) from funext calRdash_eq, sum_parts, sum_odd rdashIm_star hp, sum_const_mul]
    simp
  have h2 : (syms.map fun s => ((|s.re + s.im| + |s.re - s.im| : ℝ) : ℂ) ^ 2 * calRdash s).sum = ((16 * (syms.map fun s => halfSide s ^ 4).sum : ℝ) : ℂ) := by
    have h3 : (fun s : ℂ => ((|s.re + s.im| + |s.re - s.im| : ℝ) : ℂ) ^ 2 * calRdash s) = fun s : ℂ => ((16 * halfSide s ^ 4 : ℝ) : ℂ) + I * ((4 * halfSide s ^ 2 * rdashIm s : ℝ) : ℂ) := by
      funext s
      rw [calRdash_eq, abs_add_abs_sub]
      unfold halfSide
      push_cast
      ring
    rw [h3, sum_parts, sum_odd (f := fun s => 4 * halfSide s ^ 2 * rdashIm s) (fun s => by rw [halfSide_star, rdashIm_star]; ring) hp, sum_const_mul]
    simp
  unfold calRsca
  rw [h1, h2]
  rcases eq_or_ne syms [] with h | h
  · simp [h]
  · have hl : (syms.length : ℂ) ≠ 0 := by
      rw [Nat.cast_ne_zero]; exact fun h0 => h (List.length_eq_zero_iff.1 h0)
    push_cast
    rcases eq_or_ne (((syms.map fun s => halfSide s ^ 2).sum : ℝ) : ℂ) 0 with h0 | h0
    · rw [h0]; simp
    · field_simp
      ring

theorem halfSide_cost (R g : ℝ) (s : ℂ) : squareCost R ((g : ℂ) * s) = 16 * (R ^ 2 - g ^ 2 * halfSide s ^ 2) ^ 2 := by
  unfold squareCost halfSide
  rw [abs_add_abs_sub, Complex.re_ofReal_mul, Complex.im_ofReal_mul, abs_mul, abs_mul, ← mul_max_of_nonneg _ _ (abs_nonneg g), mul_pow, mul_pow, sq_abs]
  ring

theorem cost_gain (R : ℝ) (s : ℂ) : HasDerivAt (fun g : ℝ => squareCost R ((g : ℂ) * s)) (64 * (halfSide s ^ 4 - R ^ 2 * halfSide s ^ 2)) 1 := by
  have h1 : HasDerivAt (fun g : ℝ => g ^ 2 * halfSide s ^ 2) (2 * halfSide s ^ 2) 1 := by
    have := (hasDerivAt_pow 2 (1 : ℝ)).mul_const (halfSide s ^ 2)
    simpa using this
  have h2 := ((h1.const_sub (R ^ 2)).pow 2).const_mul 16
  rw [show (fun g : ℝ => squareCost R ((g : ℂ) * s)) = fun g : ℝ => 16 * (R ^ 2 - g ^ 2 * halfSide s ^ 2) ^ 2 from funext fun g => halfSide_cost R g s]
  have h3 : (64 * (halfSide s ^ 4 - R ^ 2 * halfSide s ^ 2)) = 16 * (((2 : ℕ) : ℝ) * (R ^ 2 - 1 ^ 2 * halfSide s ^ 2) ^ (2 - 1) * -(2 * halfSide s ^ 2)) := by
    push_cast; ring
  rw [h3]
  exact h2

/-- The derivative of the cost of the whole constellation with respect to its amplitude, at the nominal amplitude. -/
theorem cost_gain_sum (R : ℝ) (syms : List ℂ) :
    HasDerivAt (fun g : ℝ => (syms.map fun s => squareCost R ((g : ℂ) * s)).sum) (64 * ((syms.map fun s => halfSide s ^ 4).sum - R ^ 2 * (syms.map fun s => halfSide s ^ 2).sum)) 1 := by
  induction syms with
  | nil => simpa using hasDerivAt_const (1 : ℝ) (0 : ℝ)
  | cons s l ih =>
    have h := (cost_gain R s).add ih
    have h1 : (64 * (((s :: l).map fun s => halfSide s ^ 4).sum - R ^ 2 * ((s :: l).map fun s => halfSide s ^ 2).sum))
        = 64 * (halfSide s ^ 4 - R ^ 2 * halfSide s ^ 2) + 64 * ((l.map fun s => halfSide s ^ 4).sum - R ^ 2 * (l.map fun s => halfSide s ^ 2).sum) := by
      simp only [List.map_cons, List.sum_cons]; ring
    rw [h1]
    exact h

/-- The cost of the constellation is stationary at its nominal amplitude. -/
def KeepsAmplitude (R : ℝ) (syms : List ℂ) : Prop := HasDerivAt (fun g : ℝ => (syms.map fun s => squareCost R ((g : ℂ) * s)).sum) 0 1

theorem halfSide_sum_pos {syms : List ℂ} (h : ∃ s ∈ syms, s ≠ 0) : 0 < (syms.map fun s => halfSide s ^ 2).sum := by
  obtain ⟨s, hs, hne⟩ := h
  have h1 : halfSide s ^ 2 ≤ (syms.map fun s => halfSide s ^ 2).sum := by
    apply List.single_le_sum
    · intro x hx
      obtain ⟨t, -, rfl⟩ := List.mem_map.1 hx
      positivity
    · exact List.mem_map.2 ⟨s, hs, rfl⟩
  have h2 : 0 < halfSide s := by
    unfold halfSide
    rw [lt_max_iff, abs_pos, abs_pos]
    by_contra hc
    push Not at hc
    exact hne (Complex.ext hc.1 hc.2)
  have : 0 < halfSide s ^ 2 := by positivity
  linarith

/-- The training keeps the amplitude of the constellation exactly if the square of the radius is the value of `_cal_Rsca`. -/
theorem C223_radius {syms : List ℂ} (hp : (syms.map star).Perm syms) (h : ∃ s ∈ syms, s ≠ 0) (R : ℝ) : KeepsAmplitude R syms ↔ ((R ^ 2 : ℝ) : ℂ) = calRsca syms := by
  have hpos := halfSide_sum_pos h
  have hd := cost_gain_sum R syms
  rw [C223_value hp, Complex.ofReal_inj, eq_div_iff hpos.ne']
  constructor
  · intro hk
    have := hk.unique hd
    linarith
  · intro he
    unfold KeepsAmplitude
    rw [he, sub_self, mul_zero] at hd
    exact hd

theorem square_conj {q : Nat} (hq : 1 ≤ q) (scale : ℝ) : (((squareQam q).map (toComplex scale)).map star).Perm ((squareQam q).map (toComplex scale)) := by
  have h1 : (((squareQam q).map (toComplex scale)).map star) = ((squareQam q).map fun p => (p.1, -p.2)).map (toComplex scale) := by
    rw [List.map_map, List.map_map]
    apply List.map_congr_left
    rintro ⟨a, b⟩ -
    simp only [Function.comp_apply, toComplex]
    rw [Complex.star_def, map_div₀, Complex.conj_ofReal]
    congr 1
    apply Complex.ext <;> simp
  rw [h1]
  apply List.Perm.map
  have hinj : Function.Injective fun p : Int × Int => (p.1, -p.2) := by
    rintro ⟨a, b⟩ ⟨c, d⟩ h
    simp only [Prod.mk.injEq, neg_inj] at h
    rw [h.1, h.2]
  rw [List.perm_ext_iff_of_nodup ((nodup_squareQam q).map hinj) (nodup_squareQam q)]
  rintro ⟨a, b⟩
  simp only [List.mem_map, Prod.mk.injEq, Prod.exists]
  constructor
  · rintro ⟨c, d, h, rfl, rfl⟩
    rw [mem_squareQam hq] at h ⊢
    rw [abs_neg]
    exact ⟨h.1, by omega, h.2.2⟩
  · intro h
    refine ⟨a, -b, ?_, rfl, by ring⟩
    rw [mem_squareQam hq] at h ⊢
    rw [abs_neg]
    exact ⟨h.1, by omega, h.2.2⟩

/-- The claim: with the value of `_cal_Rsca` as the radius, the square contour algorithm keeps the amplitude of square QAM of unit power. -/
def C223_statement : Prop :=
  ∀ q : Nat, 1 ≤ q → KeepsAmplitude (calRsca ((squareQam q).map (toComplex (Real.sqrt (scalingFactor (2 * q)))))).re ((squareQam q).map (toComplex (Real.sqrt (scalingFactor (2 * q)))))

theorem qpsk_list (scale : ℝ) : (squareQam 1).map (toComplex scale) = [⟨-1 / scale, -1 / scale⟩, ⟨-1 / scale, 1 / scale⟩, ⟨1 / scale, -1 / scale⟩, ⟨1 / scale, 1 / scale⟩] := by
  have h : squareQam 1 = [(-1, -1), (-1, 1), (1, -1), (1, 1)] := by decide
  rw [h]
  simp only [List.map_cons, List.map_nil, toComplex]
  refine congrArg₂ _ ?_ (congrArg₂ _ ?_ (congrArg₂ _ ?_ (congrArg₂ _ ?_ rfl))) <;> apply Complex.ext <;> simp [Complex.div_ofReal_re, Complex.div_ofReal_im]

theorem qpsk_nonzero {q : Nat} (hq : 1 ≤ q) {scale : ℝ} (hs : scale ≠ 0) : ∃ s ∈ (squareQam q).map (toComplex scale), s ≠ 0 := by
  refine ⟨toComplex scale (1, 1), List.mem_map.2 ⟨(1, 1), ?_, rfl⟩, ?_⟩
  · rw [mem_squareQam hq]
    have : (2 : Int) ≤ 2 ^ q := by
      calc (2 : Int) = 2 ^ 1 := by norm_num
        _ ≤ _ := pow_le_pow_right₀ (by norm_num) hq
    norm_num
    omega
  · unfold toComplex
    apply div_ne_zero
    · intro h; have := congrArg Complex.re h; simp at this
    · exact_mod_cast hs

/-- `_cal_Rsca(4)`. -/
theorem qpsk_rsca : calRsca ((squareQam 1).map (toComplex (Real.sqrt 2))) = ((1 / 2 : ℝ) : ℂ) := by
  have h2 : (Real.sqrt 2) ^ 2 = 2 := Real.sq_sqrt (by norm_num)
  have hp : 0 < Real.sqrt 2 := by positivity
  rw [C223_value (square_conj le_rfl _), qpsk_list]
  have hs : ∀ a b : ℝ, |a| = 1 → |b| = 1 → halfSide (⟨a / Real.sqrt 2, b / Real.sqrt 2⟩ : ℂ) ^ 2 = 1 / 2 := by
    intro a b ha hb
    unfold halfSide
    rw [abs_div, abs_div, ha, hb, max_self, div_pow, sq_abs, h2]
    norm_num
  have h4 : ∀ s : ℂ, halfSide s ^ 4 = (halfSide s ^ 2) ^ 2 := fun s => by ring
  simp only [h4, List.map_cons, List.map_nil, List.sum_cons, List.sum_nil, hs (-1) (-1) (by norm_num) (by norm_num), hs (-1) 1 (by norm_num) (by norm_num), hs 1 (-1) (by norm_num) (by norm_num), hs 1 1 (by norm_num) (by norm_num)]
  norm_num

/-- The value for QPSK is 1/2, the square of the half side; the error function squares it again. -/
theorem C223_false : ¬ C223_statement := by
  intro h
  have h1 := h 1 le_rfl
  have hsf : ((scalingFactor (2 * 1) : ℚ) : ℝ) = 2 := by
    rw [show scalingFactor (2 * 1) = 2 by norm_num [scalingFactor]]; norm_num
  rw [hsf] at h1
  have hp : Real.sqrt 2 ≠ 0 := by positivity
  rw [C223_radius (square_conj le_rfl _) (qpsk_nonzero le_rfl hp), qpsk_rsca, Complex.ofReal_re, Complex.ofReal_inj] at h1
  norm_num at h1

/-- With the square root of `_cal_Rsca` as the radius the amplitude is kept, for every square QAM. -/
theorem C223_root {q : Nat} (hq : 1 ≤ q) {scale : ℝ} (hs : scale ≠ 0) : KeepsAmplitude (Real.sqrt (calRsca ((squareQam q).map (toComplex scale))).re) ((squareQam q).map (toComplex scale)) := by
  have hp := square_conj hq scale
  rw [C223_radius hp (qpsk_nonzero hq hs), C223_value hp, Complex.ofReal_re, Real.sq_sqrt]
  apply div_nonneg
  · apply List.sum_nonneg
    intro x hx
    obtain ⟨t, -, rfl⟩ := List.mem_map.1 hx
    positivity
  · exact (halfSide_sum_pos (qpsk_nonzero hq hs)).le

/-- QPSK symbols are rest points of the error function for the half side as the radius, not for the value of `_cal_Rsca`. -/
theorem C223_qpsk : (∀ s ∈ (squareQam 1).map (toComplex (Real.sqrt 2)), nbSca (Real.sqrt (1 / 2)) s = some 0)
    ∧ ∀ s ∈ (squareQam 1).map (toComplex (Real.sqrt 2)), nbSca (calRsca ((squareQam 1).map (toComplex (Real.sqrt 2)))).re s = some (-4 * s) := by
  have h2 : (Real.sqrt 2) ^ 2 = 2 := Real.sq_sqrt (by norm_num)
  have key : ∀ s ∈ (squareQam 1).map (toComplex (Real.sqrt 2)), s.re ^ 2 = 1 / 2 ∧ s.im ^ 2 = 1 / 2 := by
    intro s hs
    rw [qpsk_list] at hs
    simp only [List.mem_cons, List.not_mem_nil, or_false] at hs
    rcases hs with rfl | rfl | rfl | rfl <;> simp only [div_pow, h2] <;> norm_num
  have sides : ∀ s : ℂ, s.re ^ 2 = 1 / 2 ∧ s.im ^ 2 = 1 / 2 → scaSides s = (1, 1) := by
    intro s h
    have : |s.re| = |s.im| := (sq_eq_sq_iff_abs_eq_abs _ _).1 (h.1.trans h.2.symm)
    unfold scaSides
    rw [if_pos this.ge, if_pos this]
  constructor
  · intro s hs
    have h := key s hs
    unfold nbSca
    rw [sides s h, Real.sq_sqrt (by norm_num), h.1, h.2]
    simp
  · intro s hs
    have h := key s hs
    unfold nbSca
    rw [sides s h, qpsk_rsca, Complex.ofReal_re, h.1, h.2, mk_re_im]
    congr 1
    apply Complex.ext <;> simp <;> ring

/-! ### The constellation matched error -/

theorem sin_odd_pi (k : ℤ) : Real.sin ((2 * k + 1 : ℤ) * Real.pi) = 0 := Real.sin_int_mul_pi _

/-- The documented parameter is the distance between neighbouring levels: the claim that the points of a square lattice with the spacing `d` are left to the constant modulus part. -/
def C223_matched_statement : Prop :=
  ∀ (R d beta : ℝ) (k l : ℤ), 0 < d → nbCme R d beta ⟨(2 * k + 1 : ℤ) * (d / 2), (2 * l + 1 : ℤ) * (d / 2)⟩ = nbCma R ⟨(2 * k + 1 : ℤ) * (d / 2), (2 * l + 1 : ℤ) * (d / 2)⟩

/-- At every point of the constellation with spacing `d` the additional term has its largest slope. -/
theorem C223_matched_false : ¬ C223_matched_statement := by
  intro h
  have h1 := h 1 1 1 0 0 one_pos
  simp only [nbCme, nbCma, Option.some.injEq] at h1
  rw [add_eq_left, mul_eq_zero] at h1
  rcases h1 with h1 | h1
  · norm_num at h1
  · have := congrArg Complex.re h1
    rw [mk_re_im] at this
    have h3 : Real.sin (2⁻¹ * Real.pi) = 1 := by rw [show 2⁻¹ * Real.pi = Real.pi / 2 by ring, Real.sin_pi_div_two]
    simp [h3] at this

/-- With half the spacing as the parameter the points of the constellation are left to the constant modulus part. -/
theorem C223_matched (R h beta : ℝ) (k l : ℤ) (hh : 0 < h) : nbCme R h beta ⟨(2 * k + 1 : ℤ) * h, (2 * l + 1 : ℤ) * h⟩ = nbCma R ⟨(2 * k + 1 : ℤ) * h, (2 * l + 1 : ℤ) * h⟩ := by
  simp only [nbCme, nbCma]
  have h1 : ∀ m : ℤ, ((m : ℤ) : ℝ) * h * Real.pi / h = (m : ℝ) * Real.pi := by
    intro m; field_simp
  rw [h1, h1, Real.sin_int_mul_pi, Real.sin_int_mul_pi]
  simp

example : ∃ s ∈ (squareQam 2).map (toComplex (Real.sqrt 10)), s ≠ 0 := qpsk_nonzero (by norm_num) (by positivity)

end Qampy
