import Verif.Model.Waveform
import Verif.Lemmas.Constellation
import Verif.Lemmas.Carrier
import Verif.Tactics
import Mathlib.MeasureTheory.Integral.Bochner.Basic
import Mathlib.MeasureTheory.Function.L2Space
import Mathlib.Probability.Distributions.Gaussian.Real

/-!
Sample-wise waveform processing: normalisation (C44), IQ orthogonalisation (C45), decibel (C50), noise loading (C60), clipping (C67),
dump_edges (C69).
-/

namespace Qampy

open Complex

/-! ### Decibels -/

/-- C50: `dB2lin` and `lin2dB` are inverse to each other, turn sums into products and are strictly increasing. -/
theorem C50_decibel :
    (∀ x : ℝ, 0 < dB2lin x ∧ lin2dB (dB2lin x) = x) ∧ (∀ p : ℝ, 0 < p → dB2lin (lin2dB p) = p)
    ∧ (∀ x y : ℝ, dB2lin (x + y) = dB2lin x * dB2lin y) ∧ (∀ p q : ℝ, 0 < p → 0 < q → lin2dB (p * q) = lin2dB p + lin2dB q)
    ∧ (∀ x y : ℝ, x < y → dB2lin x < dB2lin y) ∧ (∀ p q : ℝ, 0 < p → p < q → lin2dB p < lin2dB q)
    ∧ dB2lin 0 = 1 ∧ dB2lin 10 = 10 := by
  have h10 : (0 : ℝ) < 10 := by norm_num
  refine ⟨fun x => ⟨Real.rpow_pos_of_pos h10 _, ?_⟩, fun p hp => ?_, fun x y => ?_, fun p q hp hq => ?_, fun x y h => ?_, fun p q hp h => ?_, ?_, ?_⟩
  · rw [lin2dB, dB2lin, Real.logb_rpow h10 (by norm_num)]; ring
  · rw [dB2lin, lin2dB, mul_div_cancel_left₀ _ (by norm_num : (10 : ℝ) ≠ 0), Real.rpow_logb h10 (by norm_num) hp]
  · rw [dB2lin, dB2lin, dB2lin, add_div, Real.rpow_add h10]
  · rw [lin2dB, lin2dB, lin2dB, Real.logb_mul hp.ne' hq.ne']; ring
  · exact Real.rpow_lt_rpow_of_exponent_lt (by norm_num) (by linarith)
  · exact mul_lt_mul_of_pos_left (Real.logb_lt_logb (by norm_num) hp h) h10
  · simp [dB2lin]
  · simp [dB2lin]

example : dB2lin (10 + 10) = 100 := by
  rw [C50_decibel.2.2.1, C50_decibel.2.2.2.2.2.2.2]; norm_num

/-! ### dump_edges -/

/-- C69 in full: `N` samples are removed at both ends. -/
def C69_statement : Prop := ∀ (E : List Nat) (N : Nat), dumpEdges E N = (E.drop N).take (E.length - 2 * N)

/-- C69 fails for `N = 0`: `E[0:-0]` is empty. -/
theorem C69_false : ¬ C69_statement := by
  intro h
  have := h [1, 2] 0
  simp [dumpEdges, Np.slice, Np.clamp] at this

/-- C69, the part which holds: for `N ≥ 1` exactly the samples `N ≤ i < L - N` are kept, in order. Missing: `N = 0`, where everything is lost. -/
theorem C69_partial {α : Type} (E : List α) (N : Nat) (hN : 1 ≤ N) :
    dumpEdges E N = (E.drop N).take (E.length - 2 * N) ∧ (dumpEdges E N).length = E.length - 2 * N
    ∧ ∀ i, i < E.length - 2 * N → (dumpEdges E N)[i]? = E[i + N]? := by
  have h : dumpEdges E N = (E.drop N).take (E.length - 2 * N) := by
    by_cases h2 : N ≤ E.length
    · have e1 : Np.clamp E.length (-(N : Int)) = E.length - N := by unfold Np.clamp; split_ifs <;> omega
      have e2 : Np.clamp E.length (N : Int) = N := by unfold Np.clamp; split_ifs <;> omega
      rw [dumpEdges, Np.slice, e1, e2, List.drop_take]
      congr 1
      omega
    · have e1 : Np.clamp E.length (-(N : Int)) = 0 := by unfold Np.clamp; split_ifs <;> omega
      rw [dumpEdges, Np.slice, e1]
      have : E.length - 2 * N = 0 := by omega
      simp [this]
  refine ⟨h, ?_, fun i hi => ?_⟩
  · rw [h, List.length_take, List.length_drop]; omega
  · rw [h, List.getElem?_take_of_lt hi, List.getElem?_drop, Nat.add_comm]

/-- C69: with `N = 0` nothing is left of any signal. -/
theorem C69_zero_loses_everything {α : Type} (E : List α) : dumpEdges E 0 = [] := by
  simp [dumpEdges, Np.slice, Np.clamp]

example : dumpEdges [1, 2, 3, 4, 5] 1 = [2, 3, 4] := by decide

/-! ### Clipping -/

/-- One quadrature of the clipper. -/
theorem clip_real (l x : ℝ) (hl : 0 ≤ l) :
    (SignType.sign x : ℝ) * min |x| l = max (-l) (min x l) := by
  rcases lt_trichotomy x 0 with h | h | h
  · rw [sign_neg h, abs_of_neg h, min_eq_left (by linarith : x ≤ l)]
    rcases le_total (-x) l with h2 | h2
    · rw [min_eq_left h2, max_eq_right (by linarith)]; simp
    · rw [min_eq_right h2, max_eq_left (by linarith)]; simp
  · subst h; simp [hl]
  · rw [sign_pos h, abs_of_pos h]
    rcases le_total x l with h2 | h2
    · rw [min_eq_left h2, max_eq_right (by linarith)]; simp
    · rw [min_eq_right h2, max_eq_right (by linarith)]; simp

/-- C67: for a level `l ≥ 0` the quadratures of the clipped sample lie in `[-l, l]`; samples inside are unchanged; quadratures outside become
`±l` with their sign; clipping twice is clipping once; clipping is monotone in each quadrature. -/
theorem C67_clip (l : ℝ) (hl : 0 ≤ l) (z : ℂ) :
    |(clipper l z).re| ≤ l ∧ |(clipper l z).im| ≤ l
    ∧ (|z.re| ≤ l → (clipper l z).re = z.re) ∧ (|z.im| ≤ l → (clipper l z).im = z.im)
    ∧ (l < z.re → (clipper l z).re = l) ∧ (z.re < -l → (clipper l z).re = -l)
    ∧ (l < z.im → (clipper l z).im = l) ∧ (z.im < -l → (clipper l z).im = -l)
    ∧ clipper l (clipper l z) = clipper l z
    ∧ ∀ w : ℂ, (z.re ≤ w.re → (clipper l z).re ≤ (clipper l w).re) ∧ (z.im ≤ w.im → (clipper l z).im ≤ (clipper l w).im) := by
  have hc : ∀ z, clipper l z = ⟨max (-l) (min z.re l), max (-l) (min z.im l)⟩ := fun z => by
    rw [clipper, clip_real l _ hl, clip_real l _ hl]
  simp only [hc]
  have hb : ∀ x : ℝ, -l ≤ max (-l) (min x l) ∧ max (-l) (min x l) ≤ l := fun x =>
    ⟨le_max_left _ _, max_le (by linarith) (min_le_right _ _)⟩
  have hi : ∀ x : ℝ, -l ≤ x → x ≤ l → max (-l) (min x l) = x := fun x h1 h2 => by rw [min_eq_left h2, max_eq_right h1]
  refine ⟨abs_le.2 (hb _), abs_le.2 (hb _), fun h => hi _ (abs_le.1 h).1 (abs_le.1 h).2, fun h => hi _ (abs_le.1 h).1 (abs_le.1 h).2,
    fun h => ?_, fun h => ?_, fun h => ?_, fun h => ?_, ?_, fun w => ⟨fun h => ?_, fun h => ?_⟩⟩
  · rw [min_eq_right h.le, max_eq_right (by linarith)]
  · rw [min_eq_left (by linarith), max_eq_left h.le]
  · rw [min_eq_right h.le, max_eq_right (by linarith)]
  · rw [min_eq_left (by linarith), max_eq_left h.le]
  · rw [hi _ (hb _).1 (hb _).2, hi _ (hb _).1 (hb _).2]
  · exact max_le_max le_rfl (min_le_min h le_rfl)
  · exact max_le_max le_rfl (min_le_min h le_rfl)

example : clipper 1 ⟨3, -1 / 2⟩ = ⟨1, -1 / 2⟩ := by
  have h := C67_clip 1 (by norm_num) ⟨3, -1 / 2⟩
  apply Complex.ext
  · exact h.2.2.2.2.1 (by norm_num)
  · exact h.2.2.2.1 (by norm_num [abs_of_neg])

/-! ### Normalisation -/

theorem mapM_forall2 {α β : Type _} (f : α → Option β) (R : α → β → Prop) (l : List α) (h : ∀ x ∈ l, ∃ y, f x = some y ∧ R x y) :
    ∃ ys, l.mapM f = some ys ∧ List.Forall₂ R l ys := by
  induction l with
  | nil => exact ⟨[], rfl, .nil⟩
  | cons a t ih =>
    obtain ⟨y, hy, hR⟩ := h a (by simp)
    obtain ⟨ys, h1, h2⟩ := ih fun x hx => h x (by simp [hx])
    exact ⟨y :: ys, by rw [List.mapM_cons, hy, h1]; rfl, .cons hR h2⟩

theorem sum_map_sub' {α : Type} {R : Type} [Ring R] (l : List α) (f g : α → R) :
    (l.map fun x => f x - g x).sum = (l.map f).sum - (l.map g).sum := by
  induction l with
  | nil => simp
  | cons a t ih => simp only [List.map_cons, List.sum_cons, ih]; abel

theorem sum_map_div'' {α : Type} {R : Type} [Field R] (l : List α) (f : α → R) (c : R) : (l.map fun x => f x / c).sum = (l.map f).sum / c := by
  simp only [div_eq_mul_inv]
  exact List.sum_map_mul_right ..

theorem sum_map_const' {α : Type} {R : Type} [Ring R] (l : List α) (c : R) : (l.map fun _ => c).sum = l.length * c := by
  simp

theorem sum_centred (x : List ℂ) : (x.map fun z => z - meanC x).sum = 0 := by
  rw [sum_map_sub', List.map_id', sum_map_const', meanC]
  by_cases h : x = []
  · simp [h]
  · have : (x.length : ℂ) ≠ 0 := by simpa using h
    field_simp
    ring

theorem sum_sq_zero {α : Type} (l : List α) (f : α → ℝ) (h0 : ∀ a ∈ l, 0 ≤ f a) (h : (l.map f).sum = 0) : ∀ a ∈ l, f a = 0 := by
  induction l with
  | nil => simp
  | cons a t ih =>
    have h1 : 0 ≤ (t.map f).sum := List.sum_nonneg (by
      intro y hy
      obtain ⟨b, hb, rfl⟩ := List.mem_map.1 hy
      exact h0 b (by simp [hb]))
    have h2 := h0 a (by simp)
    rw [List.map_cons, List.sum_cons] at h
    intro b hb
    rcases List.mem_cons.1 hb with rfl | hb
    · linarith
    · exact ih (fun a ha => h0 a (by simp [ha])) (by linarith) b hb

theorem sum_map_nonneg' {α : Type} (l : List α) (f : α → ℝ) (h0 : ∀ a ∈ l, 0 ≤ f a) : 0 ≤ (l.map f).sum := List.sum_nonneg (by
  intro y hy
  obtain ⟨b, hb, rfl⟩ := List.mem_map.1 hy
  exact h0 b hb)

/-- A row which is not constant has positive power after centring. -/
theorem power_pos {x : List ℂ} (hx : ∃ a ∈ x, ∃ b ∈ x, a ≠ b) (m : ℂ) : 0 < meanR (x.map fun z => ‖z - m‖ ^ 2) := by
  obtain ⟨a, ha, b, hb, hab⟩ := hx
  have hl : 0 < x.length := List.length_pos_of_mem ha
  rw [meanR, List.length_map]
  refine div_pos ?_ (by exact_mod_cast hl)
  refine lt_of_le_of_ne (sum_map_nonneg' _ _ fun _ _ => by positivity) fun h => hab ?_
  have h0 := sum_sq_zero x (fun z => ‖z - m‖ ^ 2) (fun _ _ => by positivity) h.symm
  have e1 := h0 a ha
  have e2 := h0 b hb
  simp only [ne_eq, OfNat.ofNat_ne_zero, not_false_eq_true, pow_eq_zero_iff, norm_eq_zero, sub_eq_zero] at e1 e2
  rw [e1, e2]

/-- `normRow` on a row with positive power. -/
theorem normRow_eq {x : List ℂ} (h : 0 < meanR (x.map fun z => ‖z - meanC x‖ ^ 2)) :
    normRow x = some (x.map fun z => (z - meanC x) / (Real.sqrt (meanR (x.map fun z => ‖z - meanC x‖ ^ 2)) : ℝ)) := by
  have e : ((x.map fun z => z - meanC x).map cabsq) = x.map fun z => ‖z - meanC x‖ ^ 2 := by
    rw [List.map_map]; exact List.map_congr_left fun z _ => cabsq_eq _
  simp only [normRow]
  rw [e, if_neg (Real.sqrt_pos.2 h).ne', List.map_map]
  rfl

/-- The row invariant of the normalised signal. -/
def Normalised (y : List ℂ) : Prop := y ≠ [] ∧ y.sum = 0 ∧ (y.map fun z => ‖z‖ ^ 2).sum = y.length

theorem normRow_of_normalised {y : List ℂ} (h : Normalised y) : normRow y = some y := by
  have hl : (y.length : ℝ) ≠ 0 := by simpa using h.1
  have hm : meanC y = 0 := by rw [meanC, h.2.1, zero_div]
  have hp : meanR (y.map fun z => ‖z - meanC y‖ ^ 2) = 1 := by
    simp only [hm, sub_zero]
    rw [meanR, h.2.2, List.length_map, div_self hl]
  rw [normRow_eq (by rw [hp]; norm_num), hp, hm]
  simp

theorem normRow_spec {x : List ℂ} (hx : ∃ a ∈ x, ∃ b ∈ x, a ≠ b) :
    ∃ y, normRow x = some y ∧ Normalised y ∧ ∃ c : ℝ, 0 < c ∧ ∃ m : ℂ, y = x.map fun z => c * (z - m) := by
  have hp := power_pos hx (meanC x)
  have hne : x ≠ [] := by obtain ⟨a, ha, _⟩ := hx; exact List.ne_nil_of_mem ha
  have hl : (x.length : ℝ) ≠ 0 := by simpa using hne
  refine ⟨_, normRow_eq hp, ⟨?_, ?_, ?_⟩, (Real.sqrt (meanR (x.map fun z => ‖z - meanC x‖ ^ 2)))⁻¹, inv_pos.2 (Real.sqrt_pos.2 hp), meanC x, ?_⟩
  · simpa using hne
  · rw [sum_map_div'', sum_centred, zero_div]
  · rw [List.map_map, List.length_map]
    have : ((fun z : ℂ => ‖z‖ ^ 2) ∘ fun z => (z - meanC x) / ((Real.sqrt (meanR (x.map fun z => ‖z - meanC x‖ ^ 2)) : ℝ) : ℂ))
        = fun z => ‖z - meanC x‖ ^ 2 / meanR (x.map fun z => ‖z - meanC x‖ ^ 2) := by
      funext z
      simp only [Function.comp]
      rw [norm_div, div_pow, Complex.norm_real, Real.norm_eq_abs, sq_abs, Real.sq_sqrt hp.le]
    rw [this, sum_map_div'']
    have e : (x.map fun z => ‖z - meanC x‖ ^ 2).sum = x.length * meanR (x.map fun z => ‖z - meanC x‖ ^ 2) := by
      rw [meanR, List.length_map]; field_simp
    rw [e, mul_div_assoc, div_self hp.ne', mul_one]
  · refine List.map_congr_left fun z _ => ?_
    push_cast
    rw [div_eq_inv_mul]

/-- C44: when no mode is constant `normalise_and_center` succeeds; each mode of the result has sum zero and mean power one, it is a positive
affine image of the mode of the input, and normalising once more changes nothing. -/
theorem C44_zero_mean_unit_power (E : List (List ℂ)) (h : ∀ x ∈ E, ∃ a ∈ x, ∃ b ∈ x, a ≠ b) :
    ∃ E', normaliseAndCenter E = some E'
      ∧ List.Forall₂ (fun x y => y.sum = 0 ∧ (y.map fun z => ‖z‖ ^ 2).sum = y.length
          ∧ ∃ c : ℝ, 0 < c ∧ ∃ m : ℂ, y = x.map fun z => c * (z - m)) E E'
      ∧ normaliseAndCenter E' = some E' := by
  obtain ⟨E', h1, h2⟩ := mapM_forall2 normRow _ E fun x hx => normRow_spec (h x hx)
  refine ⟨E', h1, h2.imp fun x y hxy => ⟨hxy.1.2.1, hxy.1.2.2, hxy.2⟩, ?_⟩
  rw [normaliseAndCenter, mapM_eq_some_iff]
  refine List.map_congr_left fun y hy => ?_
  obtain ⟨i, hi⟩ := List.mem_iff_getElem?.1 hy
  have hlen := h2.length_eq
  have hi2 : i < E.length := by rw [hlen]; exact (List.getElem?_eq_some_iff.1 hi).1
  have := List.Forall₂.get h2 hi2 (by rw [← hlen]; exact hi2)
  simp only [List.get_eq_getElem] at this
  rw [← (List.getElem?_eq_some_iff.1 hi).2]
  exact normRow_of_normalised this.1

theorem normRow_affine (x : List ℂ) (a : ℝ) (ha : 0 < a) (b : ℂ) : normRow (x.map fun z => a * z + b) = normRow x := by
  by_cases hne : x = []
  · simp [hne, normRow]
  have hl : (x.length : ℂ) ≠ 0 := by simpa using hne
  have hm : meanC (x.map fun z => a * z + b) = a * meanC x + b := by
    rw [meanC, meanC, List.sum_map_add, List.sum_map_mul_left, sum_map_const', List.map_id', List.length_map]
    field_simp
  have hd : ((x.map fun z => (a : ℂ) * z + b).map fun z => z - meanC (x.map fun z => (a : ℂ) * z + b)) = x.map fun z => (a : ℂ) * (z - meanC x) := by
    rw [hm, List.map_map]
    exact List.map_congr_left fun z _ => by simp only [Function.comp]; ring
  have hpw : (x.map fun z => (a : ℂ) * (z - meanC x)).map cabsq = x.map fun z => a ^ 2 * ‖z - meanC x‖ ^ 2 := by
    rw [List.map_map]
    refine List.map_congr_left fun z _ => ?_
    simp only [Function.comp]
    rw [cabsq_eq, norm_mul, Complex.norm_real, Real.norm_eq_abs, mul_pow, sq_abs]
  have hpw1 : (x.map fun z => z - meanC x).map cabsq = x.map fun z => ‖z - meanC x‖ ^ 2 := by
    rw [List.map_map]
    exact List.map_congr_left fun z _ => cabsq_eq _
  have hP : Real.sqrt (meanR (x.map fun z => a ^ 2 * ‖z - meanC x‖ ^ 2)) = a * Real.sqrt (meanR (x.map fun z => ‖z - meanC x‖ ^ 2)) := by
    rw [meanR, meanR, List.sum_map_mul_left, List.length_map, List.length_map, mul_div_assoc, Real.sqrt_mul (by positivity), Real.sqrt_sq ha.le]
  simp only [normRow]
  rw [hd, hpw, hpw1, hP]
  by_cases h0 : Real.sqrt (meanR (x.map fun z => ‖z - meanC x‖ ^ 2)) = 0
  · rw [if_pos h0, if_pos (by rw [h0, mul_zero])]
  · rw [if_neg h0, if_neg (mul_ne_zero ha.ne' h0), List.map_map, List.map_map]
    congr 1
    refine List.map_congr_left fun z _ => ?_
    simp only [Function.comp]
    have h1 : ((Real.sqrt (meanR (x.map fun z => ‖z - meanC x‖ ^ 2)) : ℝ) : ℂ) ≠ 0 := by exact_mod_cast h0
    have h2 : (a : ℂ) ≠ 0 := by exact_mod_cast ha.ne'
    push_cast
    field_simp

/-- C44: scaling each mode by its own positive factor and adding its own constant before does not change the result. -/
theorem C44_affine_invariant (E : List (List ℂ)) (p : List (ℝ × ℂ)) (hl : p.length = E.length) (hp : ∀ q ∈ p, 0 < q.1) :
    normaliseAndCenter (List.zipWith (fun x q => x.map fun z => (q.1 : ℂ) * z + q.2) E p) = normaliseAndCenter E := by
  unfold normaliseAndCenter
  induction E generalizing p with
  | nil => simp
  | cons x t ih =>
    cases p with
    | nil => simp at hl
    | cons q p =>
      rw [List.zipWith_cons_cons, List.mapM_cons, List.mapM_cons, normRow_affine x q.1 (hp q (by simp)) q.2,
        ih p (by simpa using hl) fun q hq => hp q (by simp [hq])]

/-- C44: for a constant mode the result is not a number: the hypothesis of the theorem above is needed. -/
theorem C44_constant_fails (c : ℂ) (n : Nat) : normRow (List.replicate n c) = none := by
  by_cases hn : n = 0
  · simp [hn, normRow, meanR]
  have hm : meanC (List.replicate n c) = c := by
    have : (n : ℂ) ≠ 0 := by exact_mod_cast hn
    rw [meanC, List.sum_replicate, List.length_replicate, nsmul_eq_mul]; field_simp
  simp [normRow, hm, meanR, cabsq]

example : ∃ E', normaliseAndCenter [[1, 2 * I, 5], [3, -1]] = some E' := by
  obtain ⟨E', h, _⟩ := C44_zero_mean_unit_power [[1, 2 * I, 5], [3, -1]] (by
    intro x hx
    rcases List.mem_cons.1 hx with rfl | hx
    · exact ⟨1, by simp, 5, by simp, by norm_num⟩
    · rw [List.mem_singleton] at hx
      subst hx
      exact ⟨3, by simp, -1, by simp, by norm_num⟩)
  exact ⟨E', h⟩

/-! ### IQ orthogonalisation -/

/-- The centred quadratures of a row are linearly independent: only the trivial combination vanishes on all samples. -/
def IndepIQ (x : List ℂ) : Prop :=
  ∀ a b : ℝ, (∀ z ∈ x, a * (z - meanC x).re + b * (z - meanC x).im = 0) → a = 0 ∧ b = 0

/-- Zero mean, uncorrelated quadratures of equal power. -/
def Balanced (y : List ℂ) : Prop :=
  y.sum = 0 ∧ (y.map fun z => z.re * z.im).sum = 0 ∧ (y.map fun z => z.re ^ 2).sum = (y.map fun z => z.im ^ 2).sum

/-- C45 in full. -/
def C45_statement : Prop :=
  ∀ x : List ℂ, IndepIQ x →
    (∃ y, compIQ x = some y ∧ Balanced y) ∧ (∃ y, orthonormRow 1 x = some y ∧ Balanced y)

theorem sum_re (l : List ℂ) : l.sum.re = (l.map fun z => z.re).sum := by
  induction l with
  | nil => rfl
  | cons a t ih => simp [ih]

theorem sum_im (l : List ℂ) : l.sum.im = (l.map fun z => z.im).sum := by
  induction l with
  | nil => rfl
  | cons a t ih => simp [ih]

theorem strided_one' {α : Type} (l : List α) : Np.strided l 1 = l := by
  apply (strided_sublist l 1).eq_of_length
  rw [length_strided _ _ le_rfl]
  simp

/-- The in-phase power of a row with independent quadratures is positive. -/
theorem indep_re {x : List ℂ} (h : IndepIQ x) : 0 < (x.map fun z => (z - meanC x).re ^ 2).sum := by
  refine lt_of_le_of_ne (sum_map_nonneg' _ _ fun _ _ => sq_nonneg _) fun h0 => ?_
  have h1 := sum_sq_zero x _ (fun _ _ => sq_nonneg _) h0.symm
  have := (h 1 0 fun z hz => by have := h1 z hz; simp only [ne_eq, OfNat.ofNat_ne_zero, not_false_eq_true, pow_eq_zero_iff] at this; rw [this]; simp).1
  norm_num at this

/-- The power of the quadrature after any multiple of the in-phase component has been removed is positive. -/
theorem indep_im {x : List ℂ} (h : IndepIQ x) (m : ℝ) : 0 < (x.map fun z => ((z - meanC x).im - m * (z - meanC x).re) ^ 2).sum := by
  refine lt_of_le_of_ne (sum_map_nonneg' _ _ fun _ _ => sq_nonneg _) fun h0 => ?_
  have h1 := sum_sq_zero x _ (fun _ _ => sq_nonneg _) h0.symm
  have := (h (-m) 1 fun z hz => by
    have := h1 z hz
    simp only [ne_eq, OfNat.ofNat_ne_zero, not_false_eq_true, pow_eq_zero_iff] at this
    linarith).2
  norm_num at this

theorem sum_centred_re (x : List ℂ) : (x.map fun z => (z - meanC x).re).sum = 0 := by
  have := congrArg Complex.re (sum_centred x)
  rwa [sum_re, List.map_map] at this

theorem sum_centred_im (x : List ℂ) : (x.map fun z => (z - meanC x).im).sum = 0 := by
  have := congrArg Complex.im (sum_centred x)
  rwa [sum_im, List.map_map] at this

/-- C45, the part which holds for `comp_IQ_inbalance`: independent quadratures and a correlation smaller than the in-phase power. Missing: a
correlation of at least the in-phase power, where the arcsin of line 44 has no value (`C45_compIQ_nan`). -/
theorem C45_compIQ_partial (x : List ℂ) (h : IndepIQ x)
    (hc : |(x.map fun z => (z - meanC x).re * (z - meanC x).im).sum| < (x.map fun z => (z - meanC x).re ^ 2).sum) :
    ∃ y, compIQ x = some y ∧ y.length = x.length ∧ Balanced y
      ∧ y.map (fun z => z.re) = x.map (fun z => (z - meanC x).re) := by
  have hI := indep_re h
  set A := (x.map fun z => (z - meanC x).re ^ 2).sum with hA
  set X := (x.map fun z => (z - meanC x).re * (z - meanC x).im).sum with hX
  have hmon : |X / A| < 1 := by rw [abs_div, abs_of_pos hI, div_lt_one hI]; exact hc
  have hm := abs_lt.1 hmon
  set m := X / A with hmdef
  have hsin : Real.sin (Real.arcsin (-m)) = -m := Real.sin_arcsin (by linarith) (by linarith)
  have hcos : 0 < Real.cos (Real.arcsin (-m)) := by
    rw [Real.cos_arcsin]
    apply Real.sqrt_pos.2
    nlinarith
  set c := Real.cos (Real.arcsin (-m)) with hcdef
  have hB := indep_im h m
  set B := (x.map fun z => ((z - meanC x).im - m * (z - meanC x).re) ^ 2).sum with hBdef
  have hqb : (x.map fun z => z - meanC x).map (fun z => (z.im + Real.sin (Real.arcsin (-m)) * z.re) / c)
      = x.map fun z => ((z - meanC x).im - m * (z - meanC x).re) / c := by
    rw [List.map_map]
    refine List.map_congr_left fun z _ => ?_
    simp only [Function.comp, hsin]
    ring
  have hQ : ((x.map fun z => ((z - meanC x).im - m * (z - meanC x).re) / c).map fun q => q ^ 2).sum = B / c ^ 2 := by
    rw [List.map_map, hBdef, ← sum_map_div'']
    refine congrArg _ (List.map_congr_left fun z _ => ?_)
    simp only [Function.comp, div_pow]
  have hQpos : 0 < B / c ^ 2 := by positivity
  have e1 : ((x.map fun z => z - meanC x).map fun z => z.re ^ 2).sum = A := by rw [List.map_map]; rfl
  have e2 : ((x.map fun z => z - meanC x).map fun z => z.re * z.im).sum = X := by rw [List.map_map]; rfl
  set s := Real.sqrt (A / (B / c ^ 2)) with hs
  have hs2 : s ^ 2 = A / (B / c ^ 2) := Real.sq_sqrt (by positivity)
  have hy : compIQ x = some (x.map fun z => (⟨(z - meanC x).re, ((z - meanC x).im - m * (z - meanC x).re) / c * s⟩ : ℂ)) := by
    simp only [compIQ]
    rw [e1, e2, ← hmdef, ← hcdef, hqb, hQ, if_neg (by
      push Not
      exact ⟨hI.ne', hmon.le, hcos.ne', hQpos.ne'⟩), List.zipWith_map_left, List.zipWith_map_right, List.zipWith_self]
  refine ⟨_, hy, by simp, ⟨?_, ?_, ?_⟩, by rw [List.map_map]; rfl⟩
  · apply Complex.ext
    · rw [sum_re, List.map_map]
      exact sum_centred_re x
    · rw [sum_im, List.map_map]
      show (x.map fun z => ((z - meanC x).im - m * (z - meanC x).re) / c * s).sum = 0
      rw [List.sum_map_mul_right, sum_map_div'', sum_map_sub', List.sum_map_mul_left, sum_centred_re, sum_centred_im]
      simp
  · rw [List.map_map]
    have : ((fun z : ℂ => z.re * z.im) ∘ fun z => (⟨(z - meanC x).re, ((z - meanC x).im - m * (z - meanC x).re) / c * s⟩ : ℂ))
        = fun z => ((z - meanC x).re * (z - meanC x).im - m * (z - meanC x).re ^ 2) * (s / c) := by
      funext z; simp only [Function.comp]; ring
    rw [this, List.sum_map_mul_right, sum_map_sub', List.sum_map_mul_left, ← hA, ← hX, hmdef, div_mul_cancel₀ _ hI.ne']
    simp
  · rw [List.map_map, List.map_map]
    have : ((fun z : ℂ => z.im ^ 2) ∘ fun z => (⟨(z - meanC x).re, ((z - meanC x).im - m * (z - meanC x).re) / c * s⟩ : ℂ))
        = fun z => ((z - meanC x).im - m * (z - meanC x).re) ^ 2 * (s ^ 2 / c ^ 2) := by
      funext z; simp only [Function.comp]; ring
    rw [this, List.sum_map_mul_right, ← hBdef, hs2]
    show A = _
    have := hcos.ne'
    field_simp

/-- C45: when the correlation exceeds the in-phase power the result of `comp_IQ_inbalance` is not a number. -/
theorem C45_compIQ_nan (x : List ℂ)
    (hc : (x.map fun z => (z - meanC x).re ^ 2).sum < |(x.map fun z => (z - meanC x).re * (z - meanC x).im).sum|) : compIQ x = none := by
  have e1 : ((x.map fun z => z - meanC x).map fun z => z.re ^ 2).sum = (x.map fun z => (z - meanC x).re ^ 2).sum := by rw [List.map_map]; rfl
  have e2 : ((x.map fun z => z - meanC x).map fun z => z.re * z.im).sum = (x.map fun z => (z - meanC x).re * (z - meanC x).im).sum := by
    rw [List.map_map]; rfl
  simp only [compIQ]
  rw [e1, e2]
  rcases (sum_map_nonneg' x (fun z => (z - meanC x).re ^ 2) fun _ _ => sq_nonneg _).eq_or_lt with h0 | h0
  · rw [if_pos (Or.inl h0.symm)]
  · rw [if_pos (Or.inr (Or.inl ?_))]
    rw [abs_div, abs_of_pos h0, one_lt_div h0]
    exact hc

/-- C45, the part which holds for `orthonormalize_signal`: zero mean, uncorrelated quadratures, mean power one. The powers of the quadratures
are in the ratio `1 - r²` with `r` the correlation coefficient of the input. Missing: equal powers (`C45_orthonorm_balanced_iff`). -/
theorem C45_orthonorm_partial (x : List ℂ) (h : IndepIQ x) :
    ∃ y, orthonormRow 1 x = some y ∧ y.length = x.length ∧ y.sum = 0 ∧ (y.map fun z => z.re * z.im).sum = 0
      ∧ (y.map fun z => ‖z‖ ^ 2).sum = y.length ∧ 0 < (y.map fun z => z.re ^ 2).sum
      ∧ (y.map fun z => z.im ^ 2).sum * ((x.map fun z => (z - meanC x).re ^ 2).sum * (x.map fun z => (z - meanC x).im ^ 2).sum)
        = (y.map fun z => z.re ^ 2).sum * ((x.map fun z => (z - meanC x).re ^ 2).sum * (x.map fun z => (z - meanC x).im ^ 2).sum
            - (x.map fun z => (z - meanC x).re * (z - meanC x).im).sum ^ 2) := by
  have hI := indep_re h
  have hQ0 := indep_im h 0
  simp only [zero_mul, sub_zero] at hQ0
  have hne : x ≠ [] := by rintro rfl; simp at hI
  have hlen : 0 < (x.length : ℝ) := by exact_mod_cast List.length_pos_of_ne_nil hne
  set A := (x.map fun z => (z - meanC x).re ^ 2).sum with hA
  set C := (x.map fun z => (z - meanC x).im ^ 2).sum with hC
  set X := (x.map fun z => (z - meanC x).re * (z - meanC x).im).sum with hX
  set n : ℝ := (x.length : ℝ) with hn
  have hB := indep_im h (X / A)
  have hBv : (x.map fun z => ((z - meanC x).im - X / A * (z - meanC x).re) ^ 2).sum = C - X ^ 2 / A := by
    have : (fun z => ((z - meanC x).im - X / A * (z - meanC x).re) ^ 2)
        = fun z => (z - meanC x).im ^ 2 - (2 * (X / A) * ((z - meanC x).re * (z - meanC x).im) - (X / A) ^ 2 * (z - meanC x).re ^ 2) := by
      funext z; ring
    rw [this, sum_map_sub', sum_map_sub', List.sum_map_mul_left, List.sum_map_mul_left, ← hA, ← hC, ← hX]
    field_simp
    ring
  rw [hBv] at hB
  have hre : ∀ z : ℂ, z.re - meanR (x.map fun z => z.re) = (z - meanC x).re := by
    intro z
    rw [Complex.sub_re, meanC, meanR, ← sum_re, List.length_map, ← Complex.ofReal_natCast, Complex.div_ofReal_re]
  have him : ∀ z : ℂ, z.im - meanR (x.map fun z => z.im) = (z - meanC x).im := by
    intro z
    rw [Complex.sub_im, meanC, meanR, ← sum_im, List.length_map, ← Complex.ofReal_natCast, Complex.div_ofReal_im]
  have e1 : meanR ((x.map fun z => (z - meanC x).re).map fun a => a ^ 2) = A / n := by
    rw [meanR, List.map_map, List.length_map]; rfl
  have e2 : meanR ((x.map fun z => (z - meanC x).im).map fun a => a ^ 2) = C / n := by
    rw [meanR, List.map_map, List.length_map]; rfl
  have e3 : meanR (List.zipWith (· * ·) (x.map fun z => (z - meanC x).re) (x.map fun z => (z - meanC x).im)) = X / n := by
    rw [List.zipWith_map_left, List.zipWith_map_right, List.zipWith_self, meanR, List.length_map]
  set sI := Real.sqrt (A / n) with hsI
  set sQ := Real.sqrt (C / n) with hsQ
  have hsI2 : sI ^ 2 = A / n := Real.sq_sqrt (by positivity)
  have hsQ2 : sQ ^ 2 = C / n := Real.sq_sqrt (by positivity)
  have hsIp : 0 < sI := Real.sqrt_pos.2 (by positivity)
  have hsQp : 0 < sQ := Real.sqrt_pos.2 (by positivity)
  set f : ℂ → ℂ := fun z => ⟨(z - meanC x).re / sI, ((z - meanC x).im - X / n * (z - meanC x).re / (A / n)) / sQ⟩ with hf
  have hfr : ∀ z, (f z).re = (z - meanC x).re / sI := fun z => rfl
  have hfi : ∀ z, (f z).im = ((z - meanC x).im - X / A * (z - meanC x).re) / sQ := fun z => by
    show ((z - meanC x).im - X / n * (z - meanC x).re / (A / n)) / sQ = _
    field_simp
  have hsum : (x.map f).sum = 0 := by
    apply Complex.ext
    · rw [sum_re, List.map_map]
      show (x.map fun z => (f z).re).sum = 0
      simp only [hfr]
      rw [sum_map_div'', sum_centred_re, zero_div]
    · rw [sum_im, List.map_map]
      show (x.map fun z => (f z).im).sum = 0
      simp only [hfi]
      rw [sum_map_div'', sum_map_sub', List.sum_map_mul_left, sum_centred_re, sum_centred_im]
      simp
  have hf2r : (x.map fun z => (f z).re ^ 2).sum = n := by
    simp only [hfr, div_pow]
    rw [sum_map_div'', hsI2, ← hA]
    field_simp
  have hf2i : (x.map fun z => (f z).im ^ 2).sum = n * (1 - X ^ 2 / (A * C)) := by
    simp only [hfi, div_pow]
    rw [sum_map_div'', hsQ2, hBv]
    field_simp
  have hfx : (x.map fun z => (f z).re * (f z).im).sum = 0 := by
    simp only [hfr, hfi]
    have : (fun z => (z - meanC x).re / sI * (((z - meanC x).im - X / A * (z - meanC x).re) / sQ))
        = fun z => ((z - meanC x).re * (z - meanC x).im - X / A * (z - meanC x).re ^ 2) / (sI * sQ) := by
      funext z; field_simp
    rw [this, sum_map_div'', sum_map_sub', List.sum_map_mul_left, ← hA, ← hX, div_mul_cancel₀ _ hI.ne']
    simp
  have hr : 0 < 1 - X ^ 2 / (A * C) := by
    have : 1 - X ^ 2 / (A * C) = (C - X ^ 2 / A) / C := by field_simp
    rw [this]
    exact div_pos hB hQ0
  have hpw : (x.map fun z => ‖f z‖ ^ 2).sum = n * (2 - X ^ 2 / (A * C)) := by
    have : (fun z => ‖f z‖ ^ 2) = fun z => (f z).re ^ 2 + (f z).im ^ 2 := by
      funext z; rw [Complex.sq_norm, Complex.normSq_apply]; ring
    rw [this, List.sum_map_add, hf2r, hf2i]; ring
  have hm0 : meanC (x.map f) = 0 := by rw [meanC, hsum, zero_div]
  set P := Real.sqrt (2 - X ^ 2 / (A * C)) with hP
  have hP2 : P ^ 2 = 2 - X ^ 2 / (A * C) := Real.sq_sqrt (by linarith)
  have hPp : 0 < P := Real.sqrt_pos.2 (by linarith)
  have hy : orthonormRow 1 x = some (x.map fun z => f z / (P : ℂ)) := by
    simp only [orthonormRow, hre, him, strided_one']
    rw [e1, e2, e3, if_neg (by push Not; exact ⟨(by positivity), (by positivity)⟩)]
    simp only [List.zipWith_map_left, List.zipWith_map_right, List.zipWith_self]
    rw [← hsI, ← hsQ]
    change (if Real.sqrt (meanR (((x.map f).map fun z => z - meanC (x.map f)).map fun z => ‖z‖ ^ 2)) = 0 then none else
      some (((x.map f).map fun z => z - meanC (x.map f)).map fun z =>
        z / ((Real.sqrt (meanR (((x.map f).map fun z => z - meanC (x.map f)).map fun z => ‖z‖ ^ 2)) : ℝ) : ℂ))) = _
    have e4 : meanR (((x.map f).map fun z => z - meanC (x.map f)).map fun z => ‖z‖ ^ 2) = 2 - X ^ 2 / (A * C) := by
      rw [hm0, List.map_map, List.map_map]
      simp only [Function.comp_def, sub_zero]
      rw [meanR, hpw, List.length_map, ← hn]
      field_simp
    rw [e4, ← hP, if_neg hPp.ne', hm0, List.map_map, List.map_map]
    simp [Function.comp_def]
  have hgr : ∀ z, (f z / (P : ℂ)).re = (f z).re / P := fun z => Complex.div_ofReal_re _ _
  have hgi : ∀ z, (f z / (P : ℂ)).im = (f z).im / P := fun z => Complex.div_ofReal_im _ _
  have g1 : (x.map fun z => (f z / (P : ℂ)).re ^ 2).sum = n / P ^ 2 := by
    simp only [hgr, div_pow]; rw [sum_map_div'', hf2r]
  have g2 : (x.map fun z => (f z / (P : ℂ)).im ^ 2).sum = n * (1 - X ^ 2 / (A * C)) / P ^ 2 := by
    simp only [hgi, div_pow]; rw [sum_map_div'', hf2i]
  refine ⟨_, hy, by simp, ?_, ?_, ?_, ?_, ?_⟩
  · rw [sum_map_div'', hsum, zero_div]
  · rw [List.map_map]
    show (x.map fun z => (f z / (P : ℂ)).re * (f z / (P : ℂ)).im).sum = 0
    simp only [hgr, hgi]
    have : (fun z => (f z).re / P * ((f z).im / P)) = fun z => (f z).re * (f z).im / (P * P) := by funext z; field_simp
    rw [this, sum_map_div'', hfx, zero_div]
  · rw [List.map_map, List.length_map]
    show (x.map fun z => ‖f z / (P : ℂ)‖ ^ 2).sum = _
    have : (fun z => ‖f z / (P : ℂ)‖ ^ 2) = fun z => ‖f z‖ ^ 2 / P ^ 2 := by
      funext z; rw [norm_div, Complex.norm_real, Real.norm_eq_abs, div_pow, sq_abs]
    rw [this, sum_map_div'', hpw, hP2, mul_div_assoc, div_self (by linarith), mul_one]
  · rw [List.map_map]
    show 0 < (x.map fun z => (f z / (P : ℂ)).re ^ 2).sum
    rw [g1]; positivity
  · rw [List.map_map, List.map_map]
    show (x.map fun z => (f z / (P : ℂ)).im ^ 2).sum * _ = (x.map fun z => (f z / (P : ℂ)).re ^ 2).sum * _
    rw [g1, g2]
    field_simp

/-- C45: `orthonormalize_signal` balances the quadratures exactly when they were uncorrelated to begin with. -/
theorem C45_orthonorm_balanced_iff (x : List ℂ) (h : IndepIQ x) :
    (∃ y, orthonormRow 1 x = some y ∧ Balanced y) ↔ (x.map fun z => (z - meanC x).re * (z - meanC x).im).sum = 0 := by
  obtain ⟨y, hy, -, h1, h2, -, hp, h3⟩ := C45_orthonorm_partial x h
  have hI := indep_re h
  have hQ0 := indep_im h 0
  simp only [zero_mul, sub_zero] at hQ0
  constructor
  · rintro ⟨y', hy', hb⟩
    obtain rfl : y = y' := Option.some.inj (hy.symm.trans hy')
    rw [← hb.2.2] at h3
    have h4 := mul_left_cancel₀ hp.ne' h3
    have h5 : (x.map fun z => (z - meanC x).re * (z - meanC x).im).sum ^ 2 = 0 := by linarith
    simpa using h5
  · intro h0
    refine ⟨y, hy, h1, h2, ?_⟩
    rw [h0] at h3
    have := mul_right_cancel₀ (mul_pos hI hQ0).ne' (h3.trans (by rw [zero_pow two_ne_zero, sub_zero]))
    exact this.symm

/-- A row with correlated quadratures. -/
noncomputable def iqRow : List ℂ := [⟨2, 1⟩, ⟨-2, -1⟩, ⟨1, -1⟩, ⟨-1, 1⟩]

theorem meanC_iqRow : meanC iqRow = 0 := by
  rw [meanC]
  have : iqRow.sum = 0 := by
    simp only [iqRow, List.sum_cons, List.sum_nil]
    apply Complex.ext <;> simp
  rw [this, zero_div]

theorem indep_iqRow : IndepIQ iqRow := by
  intro a b h
  rw [meanC_iqRow] at h
  have h1 := h ⟨2, 1⟩ (by simp [iqRow])
  have h2 := h ⟨1, -1⟩ (by simp [iqRow])
  simp only [sub_zero] at h1 h2
  constructor <;> linarith

/-- C45 fails: `orthonormalize_signal` divides the orthogonalised quadrature by the power it had before. -/
theorem C45_false : ¬ C45_statement := by
  intro h
  have := (C45_orthonorm_balanced_iff iqRow indep_iqRow).1 (h iqRow indep_iqRow).2
  rw [meanC_iqRow] at this
  norm_num [iqRow] at this

example : ∃ y, compIQ iqRow = some y ∧ Balanced y := by
  obtain ⟨y, h1, -, h2, -⟩ := C45_compIQ_partial iqRow indep_iqRow (by rw [meanC_iqRow]; norm_num [iqRow])
  exact ⟨y, h1, h2⟩

example : compIQ [⟨1, 5⟩, ⟨-1, -5⟩, ⟨0, 1⟩, ⟨0, -1⟩] = none := by
  have : meanC [⟨1, 5⟩, ⟨-1, -5⟩, ⟨0, 1⟩, ⟨0, -1⟩] = 0 := by
    rw [meanC, show ([⟨1, 5⟩, ⟨-1, -5⟩, ⟨0, 1⟩, ⟨0, -1⟩] : List ℂ).sum = 0 by
      simp only [List.sum_cons, List.sum_nil]; apply Complex.ext <;> simp, zero_div]
  apply C45_compIQ_nan
  rw [this]
  norm_num

/-! ### Noise loading -/

open MeasureTheory

/-- Twice the square of the factor of the draws is the signal power times the oversampling over the linear SNR; the factor does not depend on the
draws. -/
theorem changeSnr_sample (sig : List (List ℂ)) (snr fb fs : ℝ) (hos : 0 ≤ fs / fb) :
    ∃ c : ℝ, 2 * c ^ 2 = meanR (sig.flatten.map fun z => ‖z‖ ^ 2) / dB2lin snr * (fs / fb) ∧
      ∀ (n1 n2 : List (List ℝ)) (m k : Nat) (r : List ℂ) (r1 r2 : List ℝ) (z : ℂ) (a b : ℝ),
        sig[m]? = some r → n1[m]? = some r1 → n2[m]? = some r2 → r[k]? = some z → r1[k]? = some a → r2[k]? = some b →
        ∃ o : List ℂ, (changeSnr sig snr fb fs n1 n2)[m]? = some o ∧ o[k]? = some (z + c * (a + I * b)) := by
  set p := meanR (sig.flatten.map fun z => ‖z‖ ^ 2) with hp
  have hp0 : 0 ≤ p := by
    rw [hp, meanR]
    exact div_nonneg (sum_map_nonneg' _ _ fun _ _ => by positivity) (by positivity)
  refine ⟨Real.sqrt p * ((10 : ℝ) ^ (-snr / 20) * Real.sqrt (fs / fb)) / Real.sqrt 2, ?_, ?_⟩
  · rw [div_pow, mul_pow, mul_pow, Real.sq_sqrt hp0, Real.sq_sqrt hos, Real.sq_sqrt (by norm_num), ← Real.rpow_natCast, ← Real.rpow_mul (by norm_num)]
    have : (-snr / 20 * ((2 : ℕ) : ℝ)) = -(snr / 10) := by push_cast; ring
    rw [this, Real.rpow_neg (by norm_num), dB2lin]
    ring
  · intro n1 n2 m k r r1 r2 z a b h1 h2 h3 h4 h5 h6
    refine ⟨addAwgn r (Real.sqrt p * ((10 : ℝ) ^ (-snr / 20) * Real.sqrt (fs / fb))) r1 r2, ?_, ?_⟩
    · simp only [changeSnr]
      rw [List.getElem?_zipWith, h1, List.zip, List.getElem?_zipWith, h2, h3]
    · rw [addAwgn, List.getElem?_zipWith, h4, List.getElem?_zipWith, h5, h6]
      simp only [Option.some.injEq]
      push_cast
      ring

/-- C60: for draws which are random variables of mean zero and variance one (the specification of `np.random.randn`), every sample of the output
of `change_snr` is the sample of the input plus noise of mean zero whose expected power is the mean power of the signal divided by the linear SNR,
times the oversampling ratio. -/
theorem C60_noise_power {Ω : Type} [MeasurableSpace Ω] (μ : Measure Ω) [IsProbabilityMeasure μ]
    (sig : List (List ℂ)) (snr fb fs : ℝ) (hos : 0 ≤ fs / fb) (n1 n2 : Ω → List (List ℝ))
    (m k : Nat) (r : List ℂ) (z : ℂ) (a b : Ω → ℝ) (hr : sig[m]? = some r) (hz : r[k]? = some z)
    (ha : ∀ ω, ∃ r1, (n1 ω)[m]? = some r1 ∧ r1[k]? = some (a ω)) (hb : ∀ ω, ∃ r2, (n2 ω)[m]? = some r2 ∧ r2[k]? = some (b ω))
    (hai : MemLp a 2 μ) (hbi : MemLp b 2 μ)
    (ha0 : ∫ ω, a ω ∂μ = 0) (hb0 : ∫ ω, b ω ∂μ = 0) (ha1 : ∫ ω, a ω ^ 2 ∂μ = 1) (hb1 : ∫ ω, b ω ^ 2 ∂μ = 1) :
    ∃ out : Ω → ℂ, (∀ ω, ∃ o, (changeSnr sig snr fb fs (n1 ω) (n2 ω))[m]? = some o ∧ o[k]? = some (out ω))
      ∧ ∫ ω, (out ω - z) ∂μ = 0
      ∧ ∫ ω, ‖out ω - z‖ ^ 2 ∂μ = meanR (sig.flatten.map fun z => ‖z‖ ^ 2) / dB2lin snr * (fs / fb) := by
  obtain ⟨c, hc, h⟩ := changeSnr_sample sig snr fb fs hos
  have ha2 : Integrable (fun ω => a ω ^ 2) μ := hai.integrable_sq
  have hb2 : Integrable (fun ω => b ω ^ 2) μ := hbi.integrable_sq
  have hai' : Integrable a μ := hai.integrable (by norm_num)
  have hbi' : Integrable b μ := hbi.integrable (by norm_num)
  refine ⟨fun ω => z + c * (a ω + I * b ω), fun ω => ?_, ?_, ?_⟩
  · obtain ⟨r1, h1, h2⟩ := ha ω
    obtain ⟨r2, h3, h4⟩ := hb ω
    exact h _ _ m k r r1 r2 z _ _ hr h1 h3 hz h2 h4
  · simp only [add_sub_cancel_left]
    rw [integral_const_mul, integral_add hai'.ofReal (hbi'.ofReal.const_mul _), integral_const_mul, integral_complex_ofReal, integral_complex_ofReal, ha0, hb0]
    simp
  · simp only [add_sub_cancel_left]
    have e : ∀ ω, ‖(c : ℂ) * (a ω + I * b ω)‖ ^ 2 = c ^ 2 * (a ω ^ 2 + b ω ^ 2) := by
      intro ω
      rw [norm_mul, mul_pow, Complex.norm_real, Real.norm_eq_abs, sq_abs, Complex.sq_norm, Complex.normSq_apply]
      simp only [add_re, ofReal_re, mul_re, I_re, I_im, ofReal_im, add_im, mul_im]
      ring
    simp only [e]
    rw [integral_const_mul, integral_add ha2 hb2, ha1, hb1, ← hc]
    ring

/-- Standard normal draws meet the hypotheses. -/
example : ∃ out : ℝ → ℂ, ∫ ω, ‖out ω - 3‖ ^ 2 ∂(ProbabilityTheory.gaussianReal 0 1) = 9 / dB2lin 20 * (2 / 1) := by
  have hv : ∫ ω, ω ^ 2 ∂(ProbabilityTheory.gaussianReal 0 1) = 1 := by
    have := ProbabilityTheory.variance_id_gaussianReal (μ := 0) (v := 1)
    rw [ProbabilityTheory.variance_of_integral_eq_zero aemeasurable_id (by simp)] at this
    simpa using this
  obtain ⟨out, -, -, h⟩ := C60_noise_power (ProbabilityTheory.gaussianReal 0 1) [[3]] 20 1 2 (by norm_num) (fun ω => [[ω]]) (fun ω => [[ω]])
    0 0 [3] 3 id id rfl rfl (fun ω => ⟨[ω], rfl, rfl⟩) (fun ω => ⟨[ω], rfl, rfl⟩)
    (ProbabilityTheory.memLp_id_gaussianReal 2) (ProbabilityTheory.memLp_id_gaussianReal 2)
    (by simp)
    (by simp) hv hv
  refine ⟨out, h.trans ?_⟩
  norm_num [meanR]

end Qampy
