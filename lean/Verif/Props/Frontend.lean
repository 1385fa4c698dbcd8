import Verif.Model.Frontend
import Verif.Props.PulseTime

/-!
C135: the default width of the pulse shaping filter of a signal object.
-/

namespace Qampy

/-- C135 (full statement): without a given width the pulse of a signal with symbol rate `fb` is the root raised cosine pulse of the symbol period `1/fb`: every output sample is the sum of the input samples weighted with the
normalised inverse Fourier transform of the spectrum of that period. -/
def C135_statement : Prop := ∀ (fs fb beta : ℝ), 0 < fb → 0 < beta → beta ≤ 1 → fb ≤ fs →
  ∃ g : ℝ → ℝ, g 0 = 1 ∧
    (∀ t, (t = 0 ∨ 1 ≤ 4 * fs * |t|) → (4 * beta * |t| = 1 / fb ∨ 1 ≤ 4 * fs * |(|t| - 1 / fb / (4 * beta))|) → invFourier (rrcosFreq beta (1 / fb)) t = g t * invFourier (rrcosFreq beta (1 / fb)) 0) ∧
    ∀ (n : Nat) (x : Fin n → ℂ), shapePulse fs fb beta none (List.ofFn x) = .ok (some (List.ofFn fun i : Fin n =>
      ∑ q : Fin n, if -500 ≤ (i : ℤ) - q ∧ (i : ℤ) - q ≤ 500 then (g (((i : ℝ) - q) / fs) : ℂ) * x q else 0))

/-- C135: the statement for a given width. -/
theorem shapePulse_given (fs fb beta T : ℝ) (hT : 0 < T) (hb : 0 < beta) (hb1 : beta ≤ 1) (hfs : 0 < fs) (hos : beta ≤ fs * T) (arg : Option ℝ) (ha : arg.getD fb = T) :
    ∃ g : ℝ → ℝ, g 0 = 1 ∧
      (∀ t, (t = 0 ∨ 1 ≤ 4 * fs * |t|) → (4 * beta * |t| = T ∨ 1 ≤ 4 * fs * |(|t| - T / (4 * beta))|) → invFourier (rrcosFreq beta T) t = g t * invFourier (rrcosFreq beta T) 0) ∧
      ∀ (n : Nat) (x : Fin n → ℂ), shapePulse fs fb beta arg (List.ofFn x) = .ok (some (List.ofFn fun i : Fin n =>
        ∑ q : Fin n, if -500 ≤ (i : ℤ) - q ∧ (i : ℤ) - q ≤ 500 then (g (((i : ℝ) - q) / fs) : ℂ) * x q else 0)) := by
  obtain ⟨g, h0, -, -, h3, h4⟩ := C125_impulse fs T beta 1001 hfs hT hb hb1 hos (by norm_num)
  refine ⟨g, h0, h3, fun n x => ?_⟩
  unfold shapePulse
  rw [ha, h4 n x]
  rfl

/-- C135, for symbol rate one (the default of the signal classes), and for an explicitly given symbol period at any rate. Missing: other symbol rates with the default width, where the statement is false. -/
theorem C135_default_partial (fs fb beta : ℝ) (arg : Option ℝ) (h : (arg = none ∧ fb = 1) ∨ arg = some (1 / fb)) (hfb : 0 < fb) (hb : 0 < beta) (hb1 : beta ≤ 1) (hfs : fb ≤ fs) :
    ∃ g : ℝ → ℝ, g 0 = 1 ∧
      (∀ t, (t = 0 ∨ 1 ≤ 4 * fs * |t|) → (4 * beta * |t| = 1 / fb ∨ 1 ≤ 4 * fs * |(|t| - 1 / fb / (4 * beta))|) → invFourier (rrcosFreq beta (1 / fb)) t = g t * invFourier (rrcosFreq beta (1 / fb)) 0) ∧
      ∀ (n : Nat) (x : Fin n → ℂ), shapePulse fs fb beta arg (List.ofFn x) = .ok (some (List.ofFn fun i : Fin n =>
        ∑ q : Fin n, if -500 ≤ (i : ℤ) - q ∧ (i : ℤ) - q ≤ 500 then (g (((i : ℝ) - q) / fs) : ℂ) * x q else 0)) := by
  refine shapePulse_given fs fb beta (1 / fb) (by positivity) hb hb1 (hfb.trans_le hfs) ?_ arg ?_
  · rw [mul_one_div]
    exact hb1.trans ((one_le_div hfb).2 hfs)
  · rcases h with ⟨rfl, rfl⟩ | rfl
    · exact (div_one 1).symm
    · rfl

/-- A signal with symbol rate two and eight samples per time unit. -/
example : ∃ g : ℝ → ℝ, g 0 = 1 ∧ shapePulse 8 2 1 (some (1 / 2)) (List.ofFn ![(1 : ℂ), 0]) = .ok (some [1, (g (1 / 8) : ℂ)]) := by
  obtain ⟨g, h0, -, h⟩ := C135_default_partial 8 2 1 (some (1 / 2)) (Or.inr rfl) two_pos one_pos le_rfl (by norm_num)
  refine ⟨g, h0, ?_⟩
  rw [h 2]
  simp [List.ofFn_succ, Fin.sum_univ_succ, h0]

/-- Symbol rate two, four samples per symbol, roll-off one: the pulse of the symbol period is zero three samples from its centre, the one that is used is not. -/
theorem C135_false : ¬ C135_statement := by
  intro h
  obtain ⟨g, h0, h1, h2⟩ := h 8 2 1 two_pos one_pos le_rfl (by norm_num)
  obtain ⟨g', h0', h1', h2'⟩ := shapePulse_given 8 2 1 2 two_pos one_pos le_rfl (by norm_num) (by norm_num) none rfl
  have e := (h2 4 ![1, 0, 0, 0]).symm.trans (h2' 4 ![1, 0, 0, 0])
  have e' := congrArg (fun r => r[3]?) (Option.some.inj (Except.ok.inj e))
  simp [List.ofFn_succ, Fin.sum_univ_succ] at e'
  have t1 := h1 (3 / 8) (Or.inr (by rw [abs_of_pos (by norm_num)]; norm_num)) (Or.inr (by rw [abs_of_pos (show (0 : ℝ) < 3 / 8 by norm_num), abs_of_nonneg (by norm_num)]; norm_num))
  have t2 := h1' (3 / 8) (Or.inr (by rw [abs_of_pos (by norm_num)]; norm_num)) (Or.inr (by rw [abs_of_pos (show (0 : ℝ) < 3 / 8 by norm_num), abs_of_nonpos (by norm_num)]; norm_num))
  rw [rrcos_generic (by norm_num) one_pos le_rfl (by norm_num) (by norm_num)] at t1 t2
  have c1 : Real.cos (Real.pi * (3 / 8) / (1 / 2) * (1 + 1)) = 0 := by
    rw [Real.cos_eq_zero_iff]
    exact ⟨1, by push_cast; ring⟩
  have c2 : 0 < Real.cos (Real.pi * (3 / 8) / 2 * (1 + 1)) := by
    apply Real.cos_pos_of_mem_Ioo
    have := Real.pi_pos
    constructor <;> linarith
  have z : ∀ T : ℝ, 0 < T → invFourier (rrcosFreq 1 T) 0 ≠ 0 := by
    intro T hT
    rw [rrcos_zero hT one_pos le_rfl]
    have := Real.sqrt_pos.2 hT
    have hpi := Real.pi_pos
    have : 1 + 1 * (4 / Real.pi - 1) = 4 / Real.pi := by ring
    rw [this, Complex.ofReal_ne_zero]
    positivity
  rw [c1] at t1
  have g3 : g (3 / 8) = 0 := by
    have : (0 : ℂ) = (g (3 / 8) : ℂ) * invFourier (rrcosFreq 1 (1 / 2)) 0 := by
      rw [← t1]
      norm_num
    rcases mul_eq_zero.1 this.symm with h | h
    · exact_mod_cast h
    · exact absurd h (z _ (by norm_num))
  have g3' : g' (3 / 8) ≠ 0 := by
    intro h
    rw [h, Complex.ofReal_zero, zero_mul, Complex.ofReal_eq_zero] at t2
    have hpi := Real.pi_pos
    have hs := Real.sqrt_pos.2 (show (0 : ℝ) < 2 by norm_num)
    have : 0 < Real.sqrt 2 * (1 / 2 * ((Real.sin (Real.pi * (3 / 8) / 2 * (1 - 1)) + 4 * 1 * (3 / 8) / 2 * Real.cos (Real.pi * (3 / 8) / 2 * (1 + 1))) / (Real.pi * (3 / 8) / 2 * (1 - (4 * 1 * (3 / 8) / 2) ^ 2)))) := by
      rw [sub_self, mul_zero, Real.sin_zero, zero_add]
      have : (0 : ℝ) < 1 - (4 * 1 * (3 / 8) / 2) ^ 2 := by norm_num
      positivity
    linarith
  have e3 : ((1 + 1 + 1) / 8 : ℝ) = 3 / 8 := by norm_num
  rw [e3, g3] at e'
  exact g3' e'.symm

end Qampy
