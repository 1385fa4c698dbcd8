import Verif.Model.Foe
import Verif.Lemmas.Carrier
import Verif.Lemmas.Pilots
import Mathlib.Algebra.Order.BigOperators.Ring.Finset
import Mathlib.Algebra.BigOperators.Intervals
import Mathlib.Algebra.Order.Chebyshev

/-!
Pilot based frequency offset estimation: exact for noiseless pilots, error bound for disturbed phases (C129).
-/

namespace Qampy

open Complex

/-! ### Regression line -/

theorem sum_range_cast (n : Nat) : ∑ k ∈ Finset.range n, (k : ℝ) = n * ((n : ℝ) - 1) / 2 := by
  induction n with
  | zero => simp
  | succ n ih => rw [Finset.sum_range_succ, ih]; push_cast; ring

theorem sum_range_centred (n : Nat) : ∑ k ∈ Finset.range n, ((k : ℝ) - ((n : ℝ) - 1) / 2) = 0 := by
  rw [Finset.sum_sub_distrib, sum_range_cast, Finset.sum_const, Finset.card_range, nsmul_eq_mul]
  ring

theorem sum_sq_cast (n : Nat) : ∑ k ∈ Finset.range n, (k : ℝ) ^ 2 = n * ((n : ℝ) - 1) * (2 * n - 1) / 6 := by
  induction n with
  | zero => simp
  | succ n ih => rw [Finset.sum_range_succ, ih]; push_cast; ring

theorem sum_centred_sq (n : Nat) : ∑ k ∈ Finset.range n, ((k : ℝ) - ((n : ℝ) - 1) / 2) ^ 2 = n * ((n : ℝ) ^ 2 - 1) / 12 := by
  have h : ∀ k : ℕ, ((k : ℝ) - ((n : ℝ) - 1) / 2) ^ 2 = (k : ℝ) ^ 2 - ((n : ℝ) - 1) * k + (((n : ℝ) - 1) / 2) ^ 2 := fun k => by ring
  rw [Finset.sum_congr rfl fun k _ => h k, Finset.sum_add_distrib, Finset.sum_sub_distrib, ← Finset.mul_sum, sum_range_cast, sum_sq_cast, Finset.sum_const, Finset.card_range, nsmul_eq_mul]
  ring

theorem polyfit1_eq (n : Nat) (y : ℕ → ℝ) : polyfit1 ((List.range n).map y) =
    ((∑ k ∈ Finset.range n, ((k : ℝ) - ((n : ℝ) - 1) / 2) * y k) / (n * ((n : ℝ) ^ 2 - 1) / 12),
      (∑ k ∈ Finset.range n, y k) / n - (∑ k ∈ Finset.range n, ((k : ℝ) - ((n : ℝ) - 1) / 2) * y k) / (n * ((n : ℝ) ^ 2 - 1) / 12) * (((n : ℝ) - 1) / 2)) := by
  have h1 : ∀ f : ℕ → ℝ, ((List.range n).map f).sum = ∑ j ∈ Finset.range n, f j := fun f => rfl
  have h2 : ((List.range n).map y).mapIdx (fun k v => ((k : ℝ) - ((n : ℝ) - 1) / 2) * v) = (List.range n).map fun k : ℕ => ((k : ℝ) - ((n : ℝ) - 1) / 2) * y k := by
    apply List.ext_getElem?
    intro k
    rw [List.getElem?_mapIdx, List.getElem?_map, List.getElem?_map]
    by_cases hk : k < n
    · rw [List.getElem?_range hk]; rfl
    · rw [List.getElem?_eq_none (by simpa using hk)]; rfl
  unfold polyfit1
  simp only [List.length_map, List.length_range]
  rw [h2, h1, h1, h1, sum_centred_sq]

/-- The regression line through points on a line with disturbances. -/
theorem polyfit1_line (n : Nat) (hn : 2 ≤ n) (a b : ℝ) (e : ℕ → ℝ) : polyfit1 ((List.range n).map fun k : ℕ => a * k + b + e k) =
    (a + (∑ k ∈ Finset.range n, ((k : ℝ) - ((n : ℝ) - 1) / 2) * e k) / (n * ((n : ℝ) ^ 2 - 1) / 12),
      b + (∑ k ∈ Finset.range n, e k) / n - (∑ k ∈ Finset.range n, ((k : ℝ) - ((n : ℝ) - 1) / 2) * e k) / (n * ((n : ℝ) ^ 2 - 1) / 12) * (((n : ℝ) - 1) / 2)) := by
  have hn' : (2 : ℝ) ≤ n := by exact_mod_cast hn
  have hS : (n : ℝ) * ((n : ℝ) ^ 2 - 1) / 12 ≠ 0 := by
    have : 0 < (n : ℝ) ^ 2 - 1 := by nlinarith
    positivity
  have hc : ∑ k ∈ Finset.range n, ((k : ℝ) - ((n : ℝ) - 1) / 2) * (a * k + b + e k) = a * (n * ((n : ℝ) ^ 2 - 1) / 12) + ∑ k ∈ Finset.range n, ((k : ℝ) - ((n : ℝ) - 1) / 2) * e k := by
    have h : ∀ k : ℕ, ((k : ℝ) - ((n : ℝ) - 1) / 2) * (a * k + b + e k) = a * ((k : ℝ) - ((n : ℝ) - 1) / 2) ^ 2 + (a * (((n : ℝ) - 1) / 2) + b) * ((k : ℝ) - ((n : ℝ) - 1) / 2) + ((k : ℝ) - ((n : ℝ) - 1) / 2) * e k := fun k => by ring
    rw [Finset.sum_congr rfl fun k _ => h k, Finset.sum_add_distrib, Finset.sum_add_distrib, ← Finset.mul_sum, ← Finset.mul_sum, sum_range_centred, sum_centred_sq]
    ring
  have hs : ∑ k ∈ Finset.range n, (a * (k : ℝ) + b + e k) = a * (n * ((n : ℝ) - 1) / 2) + n * b + ∑ k ∈ Finset.range n, e k := by
    rw [Finset.sum_add_distrib, Finset.sum_add_distrib, ← Finset.mul_sum, sum_range_cast, Finset.sum_const, Finset.card_range, nsmul_eq_mul]
  rw [polyfit1_eq, hc, hs, add_div, mul_div_cancel_right₀ _ hS]
  congr 1
  field_simp
  ring

/-- C129: the fit is the least squares line. -/
theorem C129_least_squares (n : Nat) (hn : 2 ≤ n) (y : ℕ → ℝ) (a b : ℝ) :
    ∑ k ∈ Finset.range n, (y k - ((polyfit1 ((List.range n).map y)).1 * k + (polyfit1 ((List.range n).map y)).2)) ^ 2 ≤ ∑ k ∈ Finset.range n, (y k - (a * k + b)) ^ 2 := by
  have hn' : (2 : ℝ) ≤ n := by exact_mod_cast hn
  have hn0 : (0 : ℝ) < n := by linarith
  obtain ⟨S, hS⟩ : ∃ S : ℝ, S = (n : ℝ) * ((n : ℝ) ^ 2 - 1) / 12 := ⟨_, rfl⟩
  have hS0 : 0 < S := by
    have : 0 < (n : ℝ) ^ 2 - 1 := by nlinarith
    rw [hS]; positivity
  obtain ⟨c, hc⟩ : ∃ c : ℝ, c = ((n : ℝ) - 1) / 2 := ⟨_, rfl⟩
  obtain ⟨P, hP⟩ : ∃ P : ℝ, P = ∑ k ∈ Finset.range n, ((k : ℝ) - c) * y k := ⟨_, rfl⟩
  obtain ⟨Y, hY⟩ : ∃ Y : ℝ, Y = ∑ k ∈ Finset.range n, y k := ⟨_, rfl⟩
  have key : ∀ u v : ℝ, ∑ k ∈ Finset.range n, (y k - (u * k + v)) ^ 2 = ∑ k ∈ Finset.range n, (y k) ^ 2 - P ^ 2 / S - Y ^ 2 / n + S * (u - P / S) ^ 2 + n * (u * c + v - Y / n) ^ 2 := by
    intro u v
    have h : ∀ k : ℕ, (y k - (u * k + v)) ^ 2 = y k ^ 2 - 2 * u * (((k : ℝ) - c) * y k) - 2 * (u * c + v) * y k + u ^ 2 * ((k : ℝ) - c) ^ 2 + 2 * u * (u * c + v) * ((k : ℝ) - c) + (u * c + v) ^ 2 := fun k => by ring
    have h0 := sum_range_centred n
    have h2 := sum_centred_sq n
    rw [← hc] at h0 h2
    rw [← hS] at h2
    rw [Finset.sum_congr rfl fun k _ => h k, Finset.sum_add_distrib, Finset.sum_add_distrib, Finset.sum_add_distrib, Finset.sum_sub_distrib, Finset.sum_sub_distrib, ← Finset.mul_sum, ← Finset.mul_sum, ← Finset.mul_sum, ← Finset.mul_sum, h0, h2, ← hP, ← hY, Finset.sum_const, Finset.card_range, nsmul_eq_mul]
    field_simp
    ring
  rw [key, key, polyfit1_eq, ← hc, ← hS, ← hP, ← hY]
  dsimp only
  have e1 : S * (P / S - P / S) ^ 2 = 0 := by rw [sub_self]; ring
  have e2 : (n : ℝ) * (P / S * c + (Y / n - P / S * c) - Y / n) ^ 2 = 0 := by ring
  rw [e1, e2]
  have := mul_nonneg hS0.le (sq_nonneg (a - P / S))
  have := mul_nonneg hn0.le (sq_nonneg (a * c + b - Y / n))
  linarith

/-! ### The estimate -/

/-- The unwrapped phase of received pilots with positive gains, a phase ramp and small phase disturbances. -/
theorem pilotPhase_ramp (n : Nat) (p : ℕ → ℂ) (hp : ∀ k < n, p k ≠ 0) (a : ℕ → ℝ) (ha : ∀ k < n, 0 < a k) (th : ℕ → ℝ) (hth : ∀ k, k + 1 < n → |th (k + 1) - th k| < Real.pi) :
    ∃ K : ℤ, pilotPhase ((List.range n).map p) ((List.range n).map fun k => (a k : ℂ) * (p k * Complex.exp (I * (th k : ℂ)))) = (List.range n).map fun k => th k + 2 * Real.pi * K := by
  unfold pilotPhase
  obtain ⟨l, hl⟩ : ∃ l, l = List.zipWith (fun p r => Complex.arg ((starRingEnd ℂ) p * r)) ((List.range n).map p) ((List.range n).map fun k => (a k : ℂ) * (p k * Complex.exp (I * (th k : ℂ)))) := ⟨_, rfl⟩
  have hlen : l.length = n := by rw [hl]; simp
  have hmem : ∀ j x, l[j]? = some x → ∃ k : ℤ, x = th j + 2 * Real.pi * k := by
    intro j x hx
    have hj : j < n := by
      have := (List.getElem?_eq_some_iff.1 hx).1
      rwa [hlen] at this
    rw [hl, List.getElem?_zipWith, List.getElem?_map, List.getElem?_map, List.getElem?_range hj] at hx
    simp only [Option.map_some, Option.some.injEq] at hx
    obtain ⟨k, hk⟩ := arg_pilot (p j) (hp j hj) (th j)
    refine ⟨k, ?_⟩
    rw [← hx, ← hk, show (starRingEnd ℂ) (p j) * ((a j : ℂ) * (p j * Complex.exp (I * (th j : ℂ)))) = (a j : ℂ) * ((starRingEnd ℂ) (p j) * (p j * Complex.exp (I * (th j : ℂ)))) by ring, Complex.arg_real_mul _ (ha j hj)]
  obtain ⟨K, hK⟩ := unwrap_slow l th hmem (by rw [hlen]; exact hth)
  rw [← hl, hK, hlen]
  exact ⟨K, rfl⟩

/-- One mode: the error of the estimate is at most `δ √(3/(n²-1))/π` for phase disturbances up to `δ`. -/
theorem pilotFoeMode_error (n : Nat) (hn : 2 ≤ n) (p : ℕ → ℂ) (hp : ∀ k < n, p k ≠ 0) (a : ℕ → ℝ) (ha : ∀ k < n, 0 < a k) (f ph : ℝ) (e : ℕ → ℝ) (δ : ℝ) (hδ : 0 ≤ δ) (he : ∀ k < n, |e k| ≤ δ) (hf : 2 * Real.pi * |f| + 2 * δ < Real.pi) :
    |(pilotFoeMode ((List.range n).map fun k : ℕ => (a k : ℂ) * (p k * Complex.exp (I * ((2 * Real.pi * f * k + ph + e k : ℝ) : ℂ)))) ((List.range n).map p)).1 - f| ≤ δ / Real.pi * Real.sqrt (3 / ((n : ℝ) ^ 2 - 1)) := by
  have hpi := Real.pi_pos
  have hn' : (2 : ℝ) ≤ n := by exact_mod_cast hn
  have hn2 : 0 < (n : ℝ) ^ 2 - 1 := by nlinarith
  obtain ⟨K, hK⟩ := pilotPhase_ramp n p hp a ha (fun k => 2 * Real.pi * f * k + ph + e k) (by
    intro k hk
    have h1 := he k (by omega)
    have h2 := he (k + 1) hk
    have h3 : 2 * Real.pi * f * ((k + 1 : ℕ) : ℝ) + ph + e (k + 1) - (2 * Real.pi * f * k + ph + e k) = 2 * Real.pi * f + e (k + 1) - e k := by push_cast; ring
    rw [h3]
    calc |2 * Real.pi * f + e (k + 1) - e k| ≤ |2 * Real.pi * f + e (k + 1)| + |e k| := abs_sub _ _
      _ ≤ |2 * Real.pi * f| + |e (k + 1)| + |e k| := by gcongr; exact abs_add_le _ _
      _ = 2 * Real.pi * |f| + |e (k + 1)| + |e k| := by rw [abs_mul, abs_of_pos (by positivity)]
      _ < Real.pi := by linarith)
  unfold pilotFoeMode
  rw [hK]
  have h4 : (fun k : ℕ => 2 * Real.pi * f * k + ph + e k + 2 * Real.pi * K) = fun k : ℕ => 2 * Real.pi * f * k + (ph + 2 * Real.pi * K) + e k := by
    funext k
    ring
  rw [h4, polyfit1_line n hn]
  dsimp only
  obtain ⟨S, hS⟩ : ∃ S : ℝ, S = (n : ℝ) * ((n : ℝ) ^ 2 - 1) / 12 := ⟨_, rfl⟩
  have hS0 : 0 < S := by rw [hS]; positivity
  obtain ⟨E, hE⟩ : ∃ E : ℝ, E = ∑ k ∈ Finset.range n, ((k : ℝ) - ((n : ℝ) - 1) / 2) * e k := ⟨_, rfl⟩
  have hcs : E ^ 2 ≤ S * (n * δ ^ 2) := by
    rw [hE, hS, ← sum_centred_sq]
    refine (Finset.sum_mul_sq_le_sq_mul_sq _ _ _).trans ?_
    apply mul_le_mul_of_nonneg_left _ (Finset.sum_nonneg fun _ _ => sq_nonneg _)
    calc ∑ k ∈ Finset.range n, e k ^ 2 ≤ ∑ k ∈ Finset.range n, δ ^ 2 := by
          apply Finset.sum_le_sum
          intro k hk
          exact sq_le_sq' (by have := abs_le.1 (he k (Finset.mem_range.1 hk)); linarith) (abs_le.1 (he k (Finset.mem_range.1 hk))).2
      _ = n * δ ^ 2 := by rw [Finset.sum_const, Finset.card_range, nsmul_eq_mul]
  rw [← hE, ← hS]
  have h5 : (2 * Real.pi * f + E / S) / (2 * Real.pi) - f = E / S / (2 * Real.pi) := by
    field_simp
    ring
  rw [h5]
  apply abs_le_of_sq_le_sq _ (by positivity)
  rw [mul_pow, Real.sq_sqrt (by positivity), div_pow, div_pow, div_pow, div_div, div_mul_div_comm, div_le_div_iff₀ (by positivity) (by positivity)]
  have h6 : (n : ℝ) ^ 2 - 1 = 12 * S / n := by rw [hS]; field_simp
  rw [h6]
  have h7 : E ^ 2 * (Real.pi ^ 2 * (12 * S / n)) = (12 * Real.pi ^ 2 * S / n) * E ^ 2 := by ring
  have h8 : δ ^ 2 * 3 * (S ^ 2 * (2 * Real.pi) ^ 2) = (12 * Real.pi ^ 2 * S / n) * (S * (n * δ ^ 2)) := by
    field_simp
    ring
  rw [h7, h8]
  gcongr

/-- C129: the estimated frequency offset per symbol of every mode and the average over the modes, with phase disturbances up to `δ`; exact without disturbances. -/
theorem C129_error (L n : Nat) (hn : 2 ≤ n) (hL : 1 ≤ L) (p : ℕ → ℕ → ℂ) (hp : ∀ l < L, ∀ k < n, p l k ≠ 0) (a : ℕ → ℕ → ℝ) (ha : ∀ l < L, ∀ k < n, 0 < a l k) (f ph : ℕ → ℝ) (e : ℕ → ℕ → ℝ) (δ : ℝ) (hδ : 0 ≤ δ)
    (he : ∀ l < L, ∀ k < n, |e l k| ≤ δ) (hf : ∀ l < L, 2 * Real.pi * |f l| + 2 * δ < Real.pi) :
    ∃ avg per ph', pilotBasedFoe ((List.range L).map fun l => (List.range n).map fun k : ℕ => (a l k : ℂ) * (p l k * Complex.exp (I * ((2 * Real.pi * f l * k + ph l + e l k : ℝ) : ℂ)))) ((List.range L).map fun l => (List.range n).map (p l)) = .ok (avg, (List.range L).map per, ph') ∧
      (∀ l < L, |per l - f l| ≤ δ / Real.pi * Real.sqrt (3 / ((n : ℝ) ^ 2 - 1))) ∧ |avg - (∑ l ∈ Finset.range L, f l) / L| ≤ δ / Real.pi * Real.sqrt (3 / ((n : ℝ) ^ 2 - 1)) := by
  obtain ⟨rec, hrec⟩ : ∃ rec : ℕ → List ℂ, rec = fun l => (List.range n).map fun k : ℕ => (a l k : ℂ) * (p l k * Complex.exp (I * ((2 * Real.pi * f l * k + ph l + e l k : ℝ) : ℂ))) := ⟨_, rfl⟩
  obtain ⟨B, hB⟩ : ∃ B : ℝ, B = δ / Real.pi * Real.sqrt (3 / ((n : ℝ) ^ 2 - 1)) := ⟨_, rfl⟩
  have hper : ∀ l < L, |(pilotFoeMode (rec l) ((List.range n).map (p l))).1 - f l| ≤ B := by
    intro l hl
    rw [hrec, hB]
    exact pilotFoeMode_error n hn (p l) (hp l hl) (a l) (ha l hl) (f l) (ph l) (e l) δ hδ (he l hl) (hf l hl)
  have hL' : (0 : ℝ) < L := by exact_mod_cast hL
  have hok : pilotBasedFoe ((List.range L).map rec) ((List.range L).map fun l => (List.range n).map (p l)) = .ok ((∑ l ∈ Finset.range L, (pilotFoeMode (rec l) ((List.range n).map (p l))).1) / L, (List.range L).map fun l => (pilotFoeMode (rec l) ((List.range n).map (p l))).1, (List.range L).map fun l => (pilotFoeMode (rec l) ((List.range n).map (p l))).2) := by
    unfold pilotBasedFoe
    rw [mapM_ok (g := fun l => pilotFoeMode (rec l) ((List.range n).map (p l)))]
    · change Except.ok _ = _
      rw [List.map_map, List.map_map, List.length_map, List.length_range, List.length_map, List.length_range]
      rfl
    · intro l hl
      rw [List.length_map, List.length_range, List.mem_range] at hl
      rw [List.getElem?_map, List.getElem?_map, List.getElem?_range hl]
      dsimp only [Option.map_some]
      rw [if_pos]
      rw [hrec]
      simp
  rw [hrec] at hok hper
  refine ⟨_, fun l => _, _, hok, ?_, ?_⟩
  · intro l hl
    rw [← hB]
    exact hper l hl
  · rw [← hB, ← sub_div, ← Finset.sum_sub_distrib, abs_div, abs_of_pos hL', div_le_iff₀ hL']
    refine (Finset.abs_sum_le_sum_abs _ _).trans ?_
    calc _ ≤ ∑ l ∈ Finset.range L, B := by
          apply Finset.sum_le_sum
          intro l hl
          exact hper l (Finset.mem_range.1 hl)
      _ = B * L := by rw [Finset.sum_const, Finset.card_range, nsmul_eq_mul, mul_comm]

/-- Two modes of three pilots with different offsets and phases. -/
example : ∃ avg per ph', pilotBasedFoe ((List.range 2).map fun l : ℕ => (List.range 3).map fun k : ℕ => ((1 : ℝ) : ℂ) * (((1 : ℂ) + I) * Complex.exp (I * ((2 * Real.pi * (if l = 0 then 1 / 4 else -1 / 8) * k + l + 0 : ℝ) : ℂ)))) ((List.range 2).map fun _ => (List.range 3).map fun _ => (1 : ℂ) + I) = .ok (avg, (List.range 2).map per, ph') ∧
    per 0 = 1 / 4 ∧ per 1 = -1 / 8 ∧ avg = 1 / 16 := by
  have hpi := Real.pi_pos
  obtain ⟨avg, per, ph', h1, h2, h3⟩ := C129_error 2 3 (by norm_num) (by norm_num) (fun _ _ => (1 : ℂ) + I) (by
    intro l _ k _ h
    have := congrArg Complex.re h
    simp at this) (fun _ _ => 1) (by simp) (fun l => if l = 0 then 1 / 4 else -1 / 8) (fun l => l) (fun _ _ => 0) 0 le_rfl (by simp) (by
    intro l hl
    interval_cases l <;> norm_num [abs_of_pos, abs_of_neg] <;> linarith)
  refine ⟨avg, per, ph', h1, ?_, ?_, ?_⟩
  · have := h2 0 (by norm_num)
    rw [zero_div, zero_mul] at this
    have := abs_eq_zero.1 (le_antisymm this (abs_nonneg _))
    simp at this
    linarith
  · have := h2 1 (by norm_num)
    rw [zero_div, zero_mul] at this
    have := abs_eq_zero.1 (le_antisymm this (abs_nonneg _))
    simp at this
    linarith
  · rw [zero_div, zero_mul] at h3
    have := abs_eq_zero.1 (le_antisymm h3 (abs_nonneg _))
    rw [Finset.sum_range_succ, Finset.sum_range_one] at this
    norm_num at this
    linarith

/-- C129: estimating and compensating a frequency offset below half the symbol rate leaves a constant phase. -/
theorem C129_round_trip (L n : Nat) (hn : 2 ≤ n) (hL : 1 ≤ L) (p : ℕ → ℕ → ℂ) (hp : ∀ l < L, ∀ k < n, p l k ≠ 0) (fo fs : ℝ) (hf : |fo / fs| < 1 / 2) :
    ∃ per ph', pilotBasedFoe ((List.range L).map fun l => addCarrierOffset ((List.range n).map (p l)) fo fs) ((List.range L).map fun l => (List.range n).map (p l)) = .ok (fo / fs, per, ph') ∧
      compFreqOffset ((List.range L).map fun l => addCarrierOffset ((List.range n).map (p l)) fo fs) per 1 = .ok ((List.range L).map fun l => (List.range n).map fun k => p l k * Complex.exp (-(I * ((2 * Real.pi * (fo / fs) : ℝ) : ℂ)))) := by
  have hpi := Real.pi_pos
  obtain ⟨avg, per, ph', h1, h2, h3⟩ := C129_error L n hn hL p hp (fun _ _ => 1) (by simp) (fun _ => fo / fs) (fun _ => 0) (fun _ _ => 0) 0 le_rfl (by simp) (by
    intro l _
    nlinarith)
  have hadd : ∀ l, addCarrierOffset ((List.range n).map (p l)) fo fs = (List.range n).map fun k : ℕ => ((1 : ℝ) : ℂ) * (p l k * Complex.exp (I * ((2 * Real.pi * (fo / fs) * k + 0 + 0 : ℝ) : ℂ))) := by
    intro l
    unfold addCarrierOffset
    apply List.ext_getElem?
    intro k
    rw [List.getElem?_mapIdx, List.getElem?_map, List.getElem?_map]
    by_cases hk : k < n
    · rw [List.getElem?_range hk]
      simp only [Option.map_some]
      congr 1
      rw [Complex.ofReal_one, one_mul, show 2 * Real.pi * k * fo / fs = 2 * Real.pi * (fo / fs) * k + 0 + 0 by ring]
    · rw [List.getElem?_eq_none (by simpa using hk)]; rfl
  have hper : ∀ l < L, per l = fo / fs := by
    intro l hl
    have := h2 l hl
    rw [zero_div, zero_mul] at this
    exact sub_eq_zero.1 (abs_eq_zero.1 (le_antisymm this (abs_nonneg _)))
  have havg : avg = fo / fs := by
    rw [zero_div, zero_mul, Finset.sum_const, Finset.card_range, nsmul_eq_mul, mul_div_cancel_left₀ _ (by positivity)] at h3
    exact sub_eq_zero.1 (abs_eq_zero.1 (le_antisymm h3 (abs_nonneg _)))
  simp only [hadd]
  refine ⟨(List.range L).map per, ph', ?_, ?_⟩
  · rw [h1, havg]
  · unfold compFreqOffset
    rw [mapM_ok (g := fun l => (List.range n).map fun k => p l k * Complex.exp (-(I * ((2 * Real.pi * (fo / fs) : ℝ) : ℂ))))]
    · rw [List.length_map, List.length_range]
    · intro l hl
      rw [List.length_map, List.length_range, List.mem_range] at hl
      rw [List.getElem?_map, List.getElem?_map, List.getElem?_range hl]
      dsimp only [Option.map_some]
      congr 1
      apply List.ext_getElem?
      intro k
      rw [List.getElem?_mapIdx, List.getElem?_map, List.getElem?_map]
      by_cases hk : k < n
      · rw [List.getElem?_range hk]
        simp only [Option.map_some]
        congr 1
        rw [Complex.ofReal_one, one_mul, mul_assoc, ← Complex.exp_add, hper l hl]
        congr 2
        push_cast
        ring
      · rw [List.getElem?_eq_none (by simpa using hk)]; rfl

example : ∃ per ph', pilotBasedFoe ((List.range 2).map fun _ => addCarrierOffset ((List.range 4).map fun _ => (1 : ℂ)) (-3) 10) ((List.range 2).map fun _ => (List.range 4).map fun _ => (1 : ℂ)) = .ok (-3 / 10, per, ph') := by
  obtain ⟨per, ph', h, -⟩ := C129_round_trip 2 4 (by norm_num) (by norm_num) (fun _ _ => 1) (by simp) (-3) 10 (by rw [abs_div]; norm_num)
  exact ⟨per, ph', h⟩

end Qampy
