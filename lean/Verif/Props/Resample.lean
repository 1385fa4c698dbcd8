import Verif.Model.Resample
import Verif.Model.Pilots
import Verif.Lemmas.Carrier
import Verif.Tactics

/-!
C58: the rational resampling factors are the best approximation of the rate ratio with denominator at most 10^6, exact whenever the ratio has such
a denominator, and the frame of `rrcos_resample` has the length `ceil(up*L/down)`.
-/

namespace Qampy

/-! ### The loop of `limit_denominator` -/

/-- Invariant of the loop: neighbouring convergents, and the position of `x` relative to them. -/
structure FracInv (maxDen : Int) (x : ℚ) (s : FracState) : Prop where
  det : s.p1 * s.q0 - s.p0 * s.q1 = 1 ∨ s.p1 * s.q0 - s.p0 * s.q1 = -1
  num : x.num = s.n * s.p1 + s.d * s.p0
  den : (x.den : Int) = s.n * s.q1 + s.d * s.q0
  dpos : 0 < s.d
  q0nn : 0 ≤ s.q0
  q1nn : 0 ≤ s.q1
  q0le : s.q0 ≤ maxDen
  q1le : s.q1 ≤ maxDen
  first : s.q1 = 0 → s.q0 = 1
  nnn : s.q1 ≠ 0 → 0 < s.n

/-- What holds when the loop is left. -/
structure FracEnd (maxDen : Int) (x : ℚ) (s : FracState) : Prop extends FracInv maxDen x s where
  stop : maxDen < s.q0 + s.n / s.d * s.q1

theorem FracInv.step {maxDen : Int} {x : ℚ} {s : FracState} (h : FracInv maxDen x s) (hx : maxDen < (x.den : Int)) (hle : s.q0 + s.n / s.d * s.q1 ≤ maxDen) :
    FracInv maxDen x ⟨s.p1, s.q1, s.p0 + s.n / s.d * s.p1, s.q0 + s.n / s.d * s.q1, s.d, s.n - s.n / s.d * s.d⟩ := by
  obtain ⟨det, num, den, dpos, q0nn, q1nn, q0le, q1le, first, nnn⟩ := h
  have hnn : s.q1 ≠ 0 → 0 ≤ s.n / s.d := fun h => Int.ediv_nonneg (nnn h).le dpos.le
  have hq2 : 0 ≤ s.n / s.d * s.q1 := by
    rcases eq_or_ne s.q1 0 with h | h
    · rw [h, mul_zero]
    · exact mul_nonneg (hnn h) q1nn
  have hr0 : 0 ≤ s.n - s.n / s.d * s.d := by
    have := Int.emod_nonneg s.n dpos.ne'
    have := Int.emod_add_mul_ediv s.n s.d
    nlinarith
  have hnum' : x.num = s.d * (s.p0 + s.n / s.d * s.p1) + (s.n - s.n / s.d * s.d) * s.p1 := by rw [num]; ring
  have hden' : (x.den : Int) = s.d * (s.q0 + s.n / s.d * s.q1) + (s.n - s.n / s.d * s.d) * s.q1 := by rw [den]; ring
  refine ⟨?_, hnum', hden', ?_, q1nn, ?_, q1le, hle, ?_, fun _ => dpos⟩
  · rcases det with h | h
    · right; dsimp only; linear_combination -h
    · left; dsimp only; linear_combination -h
  · -- a zero remainder would make the denominator of `x` equal to the new denominator
    refine lt_of_le_of_ne hr0 fun h0 => ?_
    have h0' : s.n - s.n / s.d * s.d = 0 := h0.symm
    rw [h0', zero_mul, add_zero] at hnum' hden'
    have hd1 : s.d ∣ 1 := by
      have hc : IsCoprime x.num (x.den : Int) := by
        rw [Int.isCoprime_iff_gcd_eq_one]
        simpa [Int.gcd] using x.reduced
      obtain ⟨u, v, huv⟩ := hc
      exact ⟨u * (s.p0 + s.n / s.d * s.p1) + v * (s.q0 + s.n / s.d * s.q1), by rw [← huv, hnum', hden']; ring⟩
    have hd : s.d = 1 := by
      have := Int.le_of_dvd one_pos hd1
      omega
    rw [hd, one_mul] at hden'
    rw [hd] at hle
    omega
  · dsimp only
    omega
  · dsimp only
    intro h
    have h1 : s.q0 = 0 := by omega
    rcases det with hd | hd
    · rw [h1] at hd
      have : s.q1 ≠ 0 := by rintro h2; rw [h2] at hd; simp at hd
      have h3 : s.p0 * s.q1 = -1 := by linarith
      have : s.q1 ∣ 1 := ⟨-s.p0, by linarith⟩
      have := Int.le_of_dvd one_pos this
      omega
    · rw [h1] at hd
      have h3 : s.p0 * s.q1 = 1 := by linarith
      have : s.q1 ∣ 1 := ⟨s.p0, by linarith⟩
      have := Int.le_of_dvd one_pos this
      have : s.q1 ≠ 0 := by rintro h2; rw [h2] at h3; simp at h3
      omega

theorem limitLoop_end {maxDen : Int} {x : ℚ} (hx : maxDen < (x.den : Int)) : ∀ (fuel : Nat) (s : FracState), FracInv maxDen x s → s.d < fuel →
    FracEnd maxDen x (limitLoop maxDen fuel s) := by
  intro fuel
  induction fuel with
  | zero => intro s h hf; exact absurd h.dpos (by push_cast at hf; omega)
  | succ f ih =>
    intro s h hf
    unfold limitLoop
    dsimp only
    split
    · next hgt => exact ⟨h, hgt⟩
    · next hle =>
      have hs := h.step hx (by omega)
      refine ih _ hs ?_
      dsimp only
      have := Int.emod_lt_of_pos s.n h.dpos
      have := Int.emod_add_mul_ediv s.n s.d
      push_cast at hf
      nlinarith

/-- No fraction with a small denominator lies strictly between two neighbours whose denominators add up to more. -/
theorem farey_gap (p q p' q' u v N : Int) (hq : 0 < q) (hq' : 0 < q') (hdet : p * q' - p' * q = 1) (hN : N < q + q') (hv : v ≤ N)
    (h1 : 0 < u * q' - p' * v) (h2 : 0 < p * v - u * q) : False := by
  have e : v = q * (u * q' - p' * v) + q' * (p * v - u * q) := by linear_combination (-v) * hdet
  nlinarith

theorem rat_sub_div (x : ℚ) (p q : Int) (hq : 0 < q) : x - (p : ℚ) / (q : ℚ) = ((x.num * q - p * x.den : Int) : ℚ) / ((x.den : ℚ) * q) := by
  have hd : (x.den : ℚ) ≠ 0 := by exact_mod_cast x.den_ne_zero
  have hq' : (q : ℚ) ≠ 0 := by exact_mod_cast hq.ne'
  conv_lhs => rw [← Rat.num_div_den x]
  push_cast
  field_simp

/-- C58: `limit_denominator` returns a fraction with denominator at most the bound that is at least as close as every other such fraction. -/
theorem C58_best_approximation (maxDen : Int) (hN : 1 ≤ maxDen) (x : ℚ) :
    ((limitDenominator maxDen x).den : Int) ≤ maxDen ∧ ∀ y : ℚ, (y.den : Int) ≤ maxDen → |limitDenominator maxDen x - x| ≤ |y - x| := by
  unfold limitDenominator
  split
  · next h => exact ⟨h, fun y _ => by simp⟩
  · next h =>
    have hx : maxDen < (x.den : Int) := by omega
    have h0 : FracInv maxDen x ⟨0, 1, 1, 0, x.num, x.den⟩ := by
      refine ⟨Or.inl (by norm_num), by simp, by simp, (by exact_mod_cast x.den_pos : (0 : Int) < (x.den : Int)), by norm_num, by norm_num, hN, by dsimp only; omega, fun _ => rfl, fun h => absurd rfl h⟩
    have hE := limitLoop_end hx (x.den + 1) _ h0 (by push_cast; omega)
    generalize limitLoop maxDen (x.den + 1) ⟨0, 1, 1, 0, x.num, x.den⟩ = s at hE
    obtain ⟨⟨det, num, den, dpos, q0nn, q1nn, q0le, q1le, first, nnn⟩, stop⟩ := hE
    have hq1 : 0 < s.q1 := by
      rcases eq_or_ne s.q1 0 with h | h
      · rw [h, mul_zero, first h] at stop; omega
      · omega
    have hnpos := nnn hq1.ne'
    dsimp only
    set k := (maxDen - s.q0) / s.q1 with hk
    have hk0 : 0 ≤ k := Int.ediv_nonneg (by omega) hq1.le
    have hk1 : k * s.q1 ≤ maxDen - s.q0 := Int.ediv_mul_le _ hq1.ne'
    have hk2 : maxDen - s.q0 < (k + 1) * s.q1 := Int.lt_ediv_add_one_mul_self _ hq1
    have hka : k + 1 ≤ s.n / s.d := by
      by_contra hc
      have : s.n / s.d ≤ k := by omega
      nlinarith
    have hnd : (k + 1) * s.d ≤ s.n := le_trans (mul_le_mul_of_nonneg_right hka dpos.le) (Int.ediv_mul_le _ dpos.ne')
    have hq' : 0 < s.q0 + k * s.q1 := by
      rcases lt_or_eq_of_le q0nn with h | h
      · have : 0 ≤ k * s.q1 := mul_nonneg hk0 q1nn
        omega
      · -- `q0 = 0` forces `q1 = 1`, so `k` is the bound itself
        have hone : s.q1 = 1 := by
          have : s.q1 ∣ 1 := by
            rcases det with hd | hd
            · exact ⟨-s.p0, by rw [← h] at hd; linarith⟩
            · exact ⟨s.p0, by rw [← h] at hd; linarith⟩
          have := Int.le_of_dvd one_pos this
          omega
        rw [hone] at hk2 ⊢
        omega
    have hq'le : s.q0 + k * s.q1 ≤ maxDen := by omega
    have hsum : maxDen < s.q1 + (s.q0 + k * s.q1) := by linarith
    have hden : (0 : ℚ) < x.den := by exact_mod_cast x.den_pos
    have hdist2 : x - (s.p1 : ℚ) / (s.q1 : ℚ) = ((-(s.p1 * s.q0 - s.p0 * s.q1) * s.d : Int) : ℚ) / ((x.den : ℚ) * s.q1) := by
      rw [rat_sub_div x _ _ hq1, num, den]
      congr 2
      ring
    have hdist1 : x - ((s.p0 + k * s.p1 : Int) : ℚ) / ((s.q0 + k * s.q1 : Int) : ℚ)
        = (((s.p1 * s.q0 - s.p0 * s.q1) * (s.n - k * s.d) : Int) : ℚ) / ((x.den : ℚ) * ((s.q0 + k * s.q1 : Int) : ℚ)) := by
      rw [rat_sub_div x _ _ hq', num, den]
      congr 2
      ring
    have hnk : 0 < s.n - k * s.d := by nlinarith
    have hdl (p q : Int) (hq : 0 < q) (hqN : q ≤ maxDen) : ((((p : ℚ) / (q : ℚ)).den : Nat) : Int) ≤ maxDen := by
      have : (((p : ℚ) / (q : ℚ)).den : Int) ∣ q := by
        have := Rat.den_dvd p q
        rwa [Rat.divInt_eq_div] at this
      exact le_trans (Int.le_of_dvd hq this) hqN
    -- every admissible fraction is at least as far away as the bound on its side
    have key : ∀ y : ℚ, (y.den : Int) ≤ maxDen → |(s.p1 : ℚ) / (s.q1 : ℚ) - x| ≤ |y - x| ∨
        |((s.p0 + k * s.p1 : Int) : ℚ) / ((s.q0 + k * s.q1 : Int) : ℚ) - x| ≤ |y - x| := by
      intro y hy
      set b1 : ℚ := ((s.p0 + k * s.p1 : Int) : ℚ) / ((s.q0 + k * s.q1 : Int) : ℚ) with hb1
      set b2 : ℚ := (s.p1 : ℚ) / (s.q1 : ℚ) with hb2
      have hyd : (0 : ℚ) < y.den := by exact_mod_cast y.den_pos
      have hq1Q : (0 : ℚ) < s.q1 := by exact_mod_cast hq1
      have hq'Q : (0 : ℚ) < ((s.q0 + k * s.q1 : Int) : ℚ) := by exact_mod_cast hq'
      have hy1 : y - b1 = ((y.num * (s.q0 + k * s.q1) - (s.p0 + k * s.p1) * y.den : Int) : ℚ) / ((y.den : ℚ) * ((s.q0 + k * s.q1 : Int) : ℚ)) := rat_sub_div y _ _ hq'
      have hy2 : y - b2 = ((y.num * s.q1 - s.p1 * y.den : Int) : ℚ) / ((y.den : ℚ) * s.q1) := rat_sub_div y _ _ hq1
      rcases det with hd | hd
      · rw [hd] at hdist1 hdist2
        have hx1 : 0 < x - b1 := by
          rw [hdist1]; exact div_pos (by exact_mod_cast (by linarith : (0 : Int) < 1 * (s.n - k * s.d))) (mul_pos hden hq'Q)
        have hx2 : x - b2 < 0 := by
          rw [hdist2]; exact div_neg_of_neg_of_pos (by exact_mod_cast (by linarith : -1 * s.d < (0 : Int))) (mul_pos hden hq1Q)
        rcases le_or_gt y b1 with hle | hgt
        · right
          rw [abs_of_neg (by linarith), abs_of_neg (by linarith)]
          linarith
        rcases le_or_gt b2 y with hle | hlt
        · left
          rw [abs_of_pos (by linarith), abs_of_pos (by linarith)]
          linarith
        exfalso
        have i1 : 0 < y.num * (s.q0 + k * s.q1) - (s.p0 + k * s.p1) * y.den := by
          have : 0 < y - b1 := by linarith
          rw [hy1, div_pos_iff_of_pos_right (mul_pos hyd hq'Q)] at this
          exact_mod_cast this
        have i2 : 0 < s.p1 * y.den - y.num * s.q1 := by
          have h3 : y - b2 < 0 := by linarith
          rw [hy2] at h3
          have h4 : ((y.num * s.q1 - s.p1 * y.den : Int) : ℚ) < 0 := by
            by_contra hc
            exact absurd (div_nonneg (not_lt.1 hc) (mul_pos hyd hq1Q).le) (not_le.2 h3)
          have : y.num * s.q1 - s.p1 * y.den < 0 := by exact_mod_cast h4
          linarith
        exact farey_gap s.p1 s.q1 (s.p0 + k * s.p1) (s.q0 + k * s.q1) y.num y.den maxDen hq1 hq' (by linear_combination hd) hsum hy i1 i2
      · rw [hd] at hdist1 hdist2
        have hx1 : x - b1 < 0 := by
          rw [hdist1]; exact div_neg_of_neg_of_pos (by exact_mod_cast (by linarith : -1 * (s.n - k * s.d) < (0 : Int))) (mul_pos hden hq'Q)
        have hx2 : 0 < x - b2 := by
          rw [hdist2]; exact div_pos (by exact_mod_cast (by linarith : (0 : Int) < -(-1) * s.d)) (mul_pos hden hq1Q)
        rcases le_or_gt y b2 with hle | hgt
        · left
          rw [abs_of_neg (by linarith), abs_of_neg (by linarith)]
          linarith
        rcases le_or_gt b1 y with hle | hlt
        · right
          rw [abs_of_pos (by linarith), abs_of_pos (by linarith)]
          linarith
        exfalso
        have i1 : 0 < y.num * s.q1 - s.p1 * y.den := by
          have : 0 < y - b2 := by linarith
          rw [hy2, div_pos_iff_of_pos_right (mul_pos hyd hq1Q)] at this
          exact_mod_cast this
        have i2 : 0 < (s.p0 + k * s.p1) * y.den - y.num * (s.q0 + k * s.q1) := by
          have h3 : y - b1 < 0 := by linarith
          rw [hy1] at h3
          have h4 : ((y.num * (s.q0 + k * s.q1) - (s.p0 + k * s.p1) * y.den : Int) : ℚ) < 0 := by
            by_contra hc
            exact absurd (div_nonneg (not_lt.1 hc) (mul_pos hyd hq'Q).le) (not_le.2 h3)
          have : y.num * (s.q0 + k * s.q1) - (s.p0 + k * s.p1) * y.den < 0 := by exact_mod_cast h4
          linarith
        exact farey_gap (s.p0 + k * s.p1) (s.q0 + k * s.q1) s.p1 s.q1 y.num y.den maxDen hq' hq1 (by linear_combination -hd) (by linarith) hy i1 i2
    split
    · next hle =>
      refine ⟨hdl _ _ hq1 q1le, fun y hy => ?_⟩
      rcases key y hy with h | h
      · exact h
      · exact le_trans hle h
    · next hgt =>
      refine ⟨hdl _ _ hq' hq'le, fun y hy => ?_⟩
      rcases key y hy with h | h
      · exact le_trans (not_le.1 hgt).le h
      · exact h

/-- Two different fractions are at least one over the product of their denominators apart. -/
theorem rat_gap (a b : ℚ) (h : a ≠ b) : 1 / ((a.den : ℚ) * b.den) ≤ |a - b| := by
  have ha : (0 : ℚ) < a.den := by exact_mod_cast a.den_pos
  have hb : (0 : ℚ) < b.den := by exact_mod_cast b.den_pos
  have e := rat_sub_div a b.num b.den (by exact_mod_cast b.den_pos)
  rw [show ((b.num : ℚ) / ((b.den : Int) : ℚ)) = b from by simpa using Rat.num_div_den b] at e
  rw [e, abs_div, abs_of_pos (mul_pos ha (by exact_mod_cast b.den_pos))]
  push_cast
  refine div_le_div_of_nonneg_right ?_ (mul_pos ha hb).le
  have hne : a.num * b.den - b.num * a.den ≠ 0 := by
    intro h0
    apply h
    have : a - b = 0 := by rw [e, h0]; simp
    linarith
  have := Int.one_le_abs hne
  exact_mod_cast this

/-- C58: if the ratio of the rates is a fraction `r` with denominator at most 10^6 and the floating point quotient `x` is within `1/(2*10^6*den)` of it,
the factors are exactly the numerator and denominator of `r`, hence coprime with ratio `r`. -/
theorem C58_exact_ratio_partial (r x : ℚ) (hr : r.den ≤ 1000000) (hx : |x - r| < 1 / (2 * 1000000 * (r.den : ℚ))) :
    resamplingFactors x = (r.num, r.den) := by
  obtain ⟨h1, h2⟩ := C58_best_approximation 1000000 (by norm_num) x
  have h3 := h2 r (by exact_mod_cast hr)
  have he : limitDenominator 1000000 x = r := by
    by_contra hne
    have g := rat_gap _ _ hne
    have hd : (0 : ℚ) < r.den := by exact_mod_cast r.den_pos
    have hl : (0 : ℚ) < (limitDenominator 1000000 x).den := by exact_mod_cast (limitDenominator 1000000 x).den_pos
    have hN : ((limitDenominator 1000000 x).den : ℚ) ≤ 1000000 := by exact_mod_cast h1
    have t : |limitDenominator 1000000 x - r| ≤ |limitDenominator 1000000 x - x| + |x - r| := abs_sub_le _ _ _
    rw [abs_sub_comm r x] at h3
    have t2 : |limitDenominator 1000000 x - r| < 1 / (1000000 * (r.den : ℚ)) := by
      have : (1 : ℚ) / (1000000 * r.den) = 1 / (2 * 1000000 * r.den) + 1 / (2 * 1000000 * r.den) := by field_simp; norm_num
      linarith
    have t3 : 1 / (1000000 * (r.den : ℚ)) ≤ 1 / (((limitDenominator 1000000 x).den : ℚ) * r.den) :=
      one_div_le_one_div_of_le (mul_pos hl hd) (mul_le_mul_of_nonneg_right hN hd.le)
    linarith
  unfold resamplingFactors
  dsimp only
  rw [he]

/-- The factors are always coprime with a positive second factor. -/
theorem C58_coprime (x : ℚ) : Nat.Coprime (resamplingFactors x).1.natAbs (resamplingFactors x).2 ∧ 0 < (resamplingFactors x).2 :=
  ⟨(limitDenominator 1000000 x).reduced, (limitDenominator 1000000 x).den_pos⟩

/-- The full claim: for positive rates the factors are positive and their ratio is the ratio of the rates. -/
def C58_statement : Prop := ∀ fold fnew : ℚ, 0 < fold → 0 < fnew → 0 < (resamplingFactors (fnew / fold)).1 ∧
  ((resamplingFactors (fnew / fold)).1 : ℚ) / (resamplingFactors (fnew / fold)).2 = fnew / fold

/-- Reducing the rate by more than two millions gives the factor zero, which `rrcos_resample` rejects with a ValueError. -/
theorem C58_zero_factor (x : ℚ) (h0 : 0 ≤ x) (hx : 2 * x < 1 / 1000000) : resamplingFactors x = (0, 1) ∧
    ∀ {α : Type} (zero : α) (filt : List α → Except PyErr (List α)) (sig : List α), rrcosResample zero filt (resamplingFactors x).1 (resamplingFactors x).2 sig = .error .value := by
  have e : limitDenominator 1000000 x = 0 := by
    obtain ⟨h1, h2⟩ := C58_best_approximation 1000000 (by norm_num) x
    have h3 := h2 0 (by norm_num)
    by_contra hne
    have g := rat_gap _ _ hne
    have hl : (0 : ℚ) < (limitDenominator 1000000 x).den := by exact_mod_cast (limitDenominator 1000000 x).den_pos
    have hN : ((limitDenominator 1000000 x).den : ℚ) ≤ 1000000 := by exact_mod_cast h1
    rw [Rat.den_zero, Nat.cast_one, mul_one, sub_zero] at g
    rw [zero_sub, abs_neg, abs_of_nonneg h0] at h3
    have t : |limitDenominator 1000000 x| ≤ |limitDenominator 1000000 x - x| + |x| := by
      simpa using abs_sub_le (limitDenominator 1000000 x) x 0
    rw [abs_of_nonneg h0] at t
    have t3 : 1 / (1000000 : ℚ) ≤ 1 / ((limitDenominator 1000000 x).den : ℚ) := one_div_le_one_div_of_le hl hN
    linarith
  have e2 : resamplingFactors x = (0, 1) := by
    unfold resamplingFactors
    dsimp only
    rw [e]
    rfl
  refine ⟨e2, fun zero filt sig => ?_⟩
  rw [e2]
  rfl

theorem C58_false : ¬ C58_statement := by
  intro h
  have h1 := (h 3000000 1 (by norm_num) (by norm_num)).1
  rw [(C58_zero_factor _ (by norm_num) (by norm_num)).1] at h1
  exact absurd h1 (by decide)

/-- From 40 to 32 GHz the factors are 4 and 5, also if the quotient is slightly off. -/
example : resamplingFactors (32 / 40) = (4, 5) ∧ resamplingFactors (32 / 40 + 1 / 10 ^ 9) = (4, 5) := by
  have e4 : (4 / 5 : ℚ).num = 4 ∧ (4 / 5 : ℚ).den = 5 := by decide +kernel
  constructor
  · rw [C58_exact_ratio_partial (4 / 5) _ (by rw [e4.2]; norm_num) (by rw [e4.2]; norm_num), e4.1, e4.2]
  · rw [C58_exact_ratio_partial (4 / 5) _ (by rw [e4.2]; norm_num) (by rw [e4.2]; norm_num [abs_lt]), e4.1, e4.2]

/-- A ratio with a larger denominator is approximated: the loop really runs. -/
example : limitDenominator 10 (355 / 1130) = 3 / 10 ∧ limitDenominator 7 (355 / 113) = 22 / 7 := by
  constructor <;> norm_num [limitDenominator] <;> decide +kernel

/-! ### Zero insertion and decimation -/

section frame

variable {α : Type}

theorem length_insertZeros (zero : α) (up : Nat) (hup : 1 ≤ up) (sig : List α) : (insertZeros zero up sig).length = up * sig.length := by
  unfold insertZeros
  induction sig with
  | nil => simp
  | cons s t ih =>
    rw [List.flatMap_cons, List.length_append, ih, List.length_cons, List.length_replicate, List.length_cons]
    have : up - 1 + 1 = up := by omega
    rw [this]; ring

theorem getElem?_insertZeros (zero : α) (up : Nat) (hup : 1 ≤ up) : ∀ (sig : List α) (i : Nat), i < up * sig.length →
    (insertZeros zero up sig)[i]? = if i % up = 0 then sig[i / up]? else some zero := by
  intro sig
  induction sig with
  | nil => intro i h; simp at h
  | cons s t ih =>
    intro i hi
    have e : insertZeros zero up (s :: t) = (s :: List.replicate (up - 1) zero) ++ insertZeros zero up t := by
      simp [insertZeros, List.flatMap_cons]
    have hl : (s :: List.replicate (up - 1) zero).length = up := by rw [List.length_cons, List.length_replicate]; omega
    rw [e]
    rcases Nat.lt_or_ge i up with h | h
    · rw [List.getElem?_append_left (by omega), Nat.mod_eq_of_lt h, Nat.div_eq_of_lt h]
      rcases Nat.eq_zero_or_pos i with h0 | h0
      · subst h0; simp
      · rw [if_neg (by omega)]
        obtain ⟨j, rfl⟩ : ∃ j, i = j + 1 := ⟨i - 1, by omega⟩
        rw [List.getElem?_cons_succ, List.getElem?_replicate, if_pos (by omega)]
    · rw [List.getElem?_append_right (by omega), hl, ih (i - up) (by rw [List.length_cons, Nat.mul_add, mul_one] at hi; omega)]
      have h1 : i % up = (i - up) % up := by
        conv_lhs => rw [show i = i - up + up from by omega, Nat.add_mod_right]
      have h2 : i / up = (i - up) / up + 1 := by
        conv_lhs => rw [show i = i - up + up from by omega, Nat.add_div_right _ hup]
      rw [h1, h2, List.getElem?_cons_succ]

/-- C58: the output of `rrcos_resample` has the length of the input times the ratio of the factors, rounded up. -/
theorem C58_length (zero : α) (filt : List α → Except PyErr (List α)) (hf : ∀ l, ∃ y, filt l = .ok y ∧ y.length = l.length) (up : Int) (hup : 0 < up) (down : Nat) (hd : 1 ≤ down) (sig : List α) :
    ∃ out, rrcosResample zero filt up down sig = .ok out ∧ (out.length : Int) = ⌈((up * sig.length : Int) : ℚ) / (down : ℚ)⌉ := by
  obtain ⟨y, hy, hyl⟩ := hf (insertZeros zero up.toNat sig)
  refine ⟨Np.strided y down, by unfold rrcosResample; rw [if_neg (by omega), hy]; rfl, ?_⟩
  rw [length_strided _ _ hd, hyl, length_insertZeros _ _ (by omega)]
  rw [eq_comm, Int.ceil_eq_iff]
  have hdq : (0 : ℚ) < down := by exact_mod_cast hd
  obtain ⟨u, rfl⟩ : ∃ u : Nat, up = u := ⟨up.toNat, by omega⟩
  rw [Int.toNat_natCast]
  have h1 := Nat.div_mul_le_self (u * sig.length + down - 1) down
  have h2 := Nat.lt_div_mul_add (a := u * sig.length + down - 1) (b := down) hd
  generalize (u * sig.length + down - 1) / down = m at *
  constructor
  · rw [lt_div_iff₀ hdq]
    have : m * down < u * sig.length + down := by omega
    have : ((m * down : Nat) : ℚ) < ((u * sig.length + down : Nat) : ℚ) := by exact_mod_cast this
    push_cast at this ⊢
    linarith
  · rw [div_le_iff₀ hdq]
    have : u * sig.length ≤ m * down := by omega
    exact_mod_cast this

theorem filter_range_mod (k : Nat) (hk : 1 ≤ k) (n : Nat) :
    (List.range n).filter (fun i => decide (i % k = 0)) = (List.range ((n + k - 1) / k)).map (· * k) := by
  induction n with
  | zero => simp; omega
  | succ n ih =>
    rw [List.range_succ, List.filter_append, ih]
    rcases Nat.eq_zero_or_pos (n % k) with h | h
    · obtain ⟨m, rfl⟩ := Nat.dvd_of_mod_eq_zero h
      have h1 : (k * m + k - 1) / k = m := by
        rw [show k * m + k - 1 = (k - 1) + k * m from by omega, Nat.add_mul_div_left _ _ hk, Nat.div_eq_of_lt (by omega), zero_add]
      have h2 : (k * m + 1 + k - 1) / k = m + 1 := by
        rw [show k * m + 1 + k - 1 = k * (m + 1) from by ring_nf; omega, Nat.mul_div_cancel_left _ hk]
      rw [h1, h2, List.range_succ, List.map_append]
      simp [mul_comm]
    · have h1 : (n + 1 + k - 1) / k = (n + k - 1) / k := by
        have hd := Nat.mod_add_div n k
        have hm := Nat.mod_lt n hk
        rw [show n + 1 + k - 1 = n % k + k * (n / k + 1) from by rw [Nat.mul_add]; omega,
          show n + k - 1 = (n % k - 1) + k * (n / k + 1) from by rw [Nat.mul_add]; omega, Nat.add_mul_div_left _ _ hk, Nat.add_mul_div_left _ _ hk,
          Nat.div_eq_of_lt hm, Nat.div_eq_of_lt (show n % k - 1 < k by omega)]
      rw [h1]
      have : ¬ n % k = 0 := by omega
      simp [this]

/-- `l[::k]` picks the elements `0, k, 2k, …`. -/
theorem getElem?_strided' (l : List α) (k : Nat) (hk : 1 ≤ k) (j : Nat) : (Np.strided l k)[j]? = l[j * k]? := by
  have key : ∀ m, (∀ j, j < m → j * k < l.length) → ((List.range m).map (· * k)).filterMap (fun i => l[i]?) = (List.range m).filterMap fun j => l[j * k]? := by
    intro m _
    rw [List.filterMap_map]; rfl
  have hlt : ∀ j, j < (l.length + k - 1) / k ↔ j * k < l.length := by
    intro j
    rw [Nat.lt_div_iff_mul_lt hk]
    omega
  have key2 : ∀ m, (∀ j, j < m → j * k < l.length) → ∀ j, ((List.range m).filterMap fun j => l[j * k]?)[j]? = if j < m then l[j * k]? else none := by
    intro m
    induction m with
    | zero => intro _ j; simp
    | succ m ih =>
      intro hm j
      have hlen : ((List.range m).filterMap fun j => l[j * k]?).length = m := by
        have h1 := ih (fun j hj => hm j (by omega))
        apply le_antisymm
        · exact le_trans (List.length_filterMap_le _ _) (by simp)
        · by_contra hc
          have h2 := h1 ((List.range m).filterMap fun j => l[j * k]?).length
          rw [if_pos (by omega), List.getElem?_eq_none (le_refl _)] at h2
          rw [List.getElem?_eq_getElem (hm _ (by omega))] at h2
          cases h2
      rw [List.range_succ, List.filterMap_append]
      have hx : l[m * k]? = some (l[m * k]'(hm m (by omega))) := List.getElem?_eq_getElem _
      have htail : [m].filterMap (fun j => l[j * k]?) = [l[m * k]'(hm m (by omega))] := by
        simp [hx]
      rw [htail]
      rcases Nat.lt_trichotomy j m with h | h | h
      · rw [List.getElem?_append_left (by omega), ih (fun j hj => hm j (by omega)), if_pos h, if_pos (by omega)]
      · subst h
        rw [List.getElem?_append_right (by omega), hlen, Nat.sub_self, if_pos (by omega), hx]
        rfl
      · rw [List.getElem?_eq_none (by rw [List.length_append, hlen]; simpa using by omega), if_neg (by omega)]
  unfold Np.strided
  rw [filter_range_mod k hk, key _ (fun j hj => (hlt j).1 hj), key2 _ (fun j hj => (hlt j).1 hj)]
  split
  · rfl
  · next h => rw [List.getElem?_eq_none]; have := (hlt j).not.1 h; omega

/-- C58: output sample `j` is the filter output at position `j*down` of a signal that carries input sample `i` at position `i*up` and zeros elsewhere. -/
theorem C58_samples (zero : α) (filt : List α → Except PyErr (List α)) (up : Int) (hup : 0 < up) (down : Nat) (hd : 1 ≤ down) (sig out : List α)
    (hout : rrcosResample zero filt up down sig = .ok out) :
    ∃ x y, filt x = .ok y ∧ (∀ j, out[j]? = y[j * down]?) ∧ x.length = up.toNat * sig.length ∧
      (∀ i (h : i < sig.length), x[i * up.toNat]? = some sig[i]) ∧ ∀ i, i < x.length → ¬ up ∣ (i : Int) → x[i]? = some zero := by
  have hu : 1 ≤ up.toNat := by omega
  unfold rrcosResample at hout
  rw [if_neg (by omega)] at hout
  rcases hy : filt (insertZeros zero up.toNat sig) with e | y
  · rw [hy] at hout; cases hout
  rw [hy] at hout
  have hout' : Np.strided y down = out := by injection hout
  refine ⟨insertZeros zero up.toNat sig, y, hy, fun j => by rw [← hout']; exact getElem?_strided' _ _ hd j, length_insertZeros _ _ hu _, ?_, ?_⟩
  · intro i h
    rw [getElem?_insertZeros _ _ hu _ _ (by rw [mul_comm]; exact Nat.mul_lt_mul_of_pos_left h hu), if_pos (Nat.mul_mod_left _ _), Nat.mul_div_cancel _ hu,
      List.getElem?_eq_getElem h]
  · intro i h hn
    rw [length_insertZeros _ _ hu] at h
    rw [getElem?_insertZeros _ _ hu _ _ h, if_neg]
    intro hm
    apply hn
    obtain ⟨m, rfl⟩ := Nat.dvd_of_mod_eq_zero hm
    exact ⟨m, by push_cast; rw [Int.toNat_of_nonneg hup.le]⟩

/-- C58: upsampling by `n` and decimating by `n` gives the signal back if the filter in between keeps the samples at multiples of `n` (a pulse
without intersymbol interference). -/
theorem C58_round_trip (zero : α) (filt : List α → Except PyErr (List α)) (n : Nat) (hn : 1 ≤ n) (sig : List α)
    (hf : ∀ l : List α, ∃ y, filt l = .ok y ∧ ∀ i, y[i * n]? = l[i * n]?) :
    (rrcosResample zero filt n 1 sig >>= fun up => rrcosResample zero .ok 1 n up) = .ok sig := by
  obtain ⟨y, hy, hyi⟩ := hf (insertZeros zero n sig)
  have h1 : rrcosResample zero filt n 1 sig = .ok y := by
    unfold rrcosResample
    rw [if_neg (by omega), Int.toNat_natCast, hy]
    show Except.ok (Np.strided y 1) = _
    rw [strided_one]
  rw [h1]
  show rrcosResample zero .ok 1 n y = .ok sig
  unfold rrcosResample
  rw [if_neg (by omega)]
  show Except.ok (Np.strided (insertZeros zero (1 : Int).toNat y) n) = _
  congr 1
  have e1 : insertZeros zero (1 : Int).toNat y = y := by
    unfold insertZeros
    simp
  rw [e1]
  apply List.ext_getElem?
  intro j
  rw [getElem?_strided' _ _ hn, hyi]
  rcases Nat.lt_or_ge j sig.length with h | h
  · rw [getElem?_insertZeros _ _ hn _ _ (by rw [mul_comm]; exact Nat.mul_lt_mul_of_pos_left h hn), if_pos (Nat.mul_mod_left _ _), Nat.mul_div_cancel _ hn]
  · rw [List.getElem?_eq_none h, List.getElem?_eq_none]
    rw [length_insertZeros _ _ hn, mul_comm]
    exact Nat.mul_le_mul_right _ h

/-- Five samples at ratio 3/2 give eight. -/
example : rrcosResample (0 : Int) .ok 3 2 [1, 2, 3, 4, 5] = .ok [1, 0, 0, 3, 0, 0, 5, 0] := by decide +kernel

example : (rrcosResample (0 : Int) .ok 3 1 [1, 2] >>= fun up => rrcosResample 0 .ok 1 3 up) = .ok [1, 2] := C58_round_trip 0 .ok 3 (by norm_num) _ (fun l => ⟨l, rfl, fun _ => rfl⟩)

end frame

/-! ### Hybrid formats -/

/-- C58: `TDHQAMSymbols._cal_fractions` uses the same rounding: a ratio within `1/(2*10^6*den)` of a fraction with denominator at most 10^6 gives
the frame of that fraction. -/
theorem C58_hybrid_fractions (r x : ℚ) (hr : r.den ≤ 1000000) (hx : |x - r| < 1 / (2 * 1000000 * (r.den : ℚ))) :
    calFractions (limitDenominator 1000000 x) = (r.den, r.den - r.num, r.num) := by
  have h := C58_exact_ratio_partial r x hr hx
  unfold resamplingFactors at h
  dsimp only at h
  rw [Prod.mk.injEq] at h
  unfold calFractions
  rw [h.1, h.2]

end Qampy
