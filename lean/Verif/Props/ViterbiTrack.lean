import Verif.Props.Carrier
import Verif.Props.SearchAccuracy

/-!
Viterbi-Viterbi phase recovery of signals with phase drift and noise (C165).
-/

namespace Qampy

open Complex

/-- The sum of unit vectors whose directions are within `γ < π/2` of a direction has a direction within `γ` of it. -/
theorem arg_sum_close (l : List ℝ) (a γ : ℝ) (hl : l ≠ []) (h0 : 0 ≤ γ) (hγ : γ < Real.pi / 2) (h : ∀ x ∈ l, |x - a| ≤ γ) :
    ∃ (e : ℝ) (k : ℤ), |e| ≤ γ ∧ Complex.arg (l.map fun x : ℝ => Complex.exp (I * (x : ℂ))).sum = a + e + 2 * Real.pi * k := by
  obtain ⟨S, hS⟩ : ∃ S, S = (l.map fun x : ℝ => Complex.exp (I * ((x - a : ℝ) : ℂ))).sum := ⟨_, rfl⟩
  have hsum : (l.map fun x : ℝ => Complex.exp (I * (x : ℂ))).sum = Complex.exp (I * (a : ℂ)) * S := by
    rw [hS, ← List.sum_map_mul_left]
    congr 1
    refine List.map_congr_left fun x _ => ?_
    rw [← Complex.exp_add]
    congr 1
    push_cast
    ring
  -- projections of the sum
  have hproj : ∀ b : ℝ, (S * Complex.exp (I * (b : ℂ))).re = (l.map fun x => Real.cos (x - a + b)).sum ∧
      (S * Complex.exp (I * (b : ℂ))).im = (l.map fun x => Real.sin (x - a + b)).sum := by
    intro b
    rw [hS, ← List.sum_map_mul_right]
    clear hS hsum h hl S
    induction l with
    | nil => simp
    | cons x l ih =>
      have hx : Complex.exp (I * ((x - a : ℝ) : ℂ)) * Complex.exp (I * (b : ℂ)) =
          Complex.exp (((x - a + b : ℝ) : ℂ) * I) := by
        rw [← Complex.exp_add]
        congr 1
        push_cast
        ring
      simp only [List.map_cons, List.sum_cons, Complex.add_re, Complex.add_im, ih.1, ih.2, hx, Complex.exp_ofReal_mul_I_re,
        Complex.exp_ofReal_mul_I_im, and_self]
  have hre : 0 < S.re := by
    have h1 := (hproj 0).1
    rw [Complex.ofReal_zero, mul_zero, Complex.exp_zero, mul_one] at h1
    rw [h1]
    apply List.sum_pos
    · intro y hy
      obtain ⟨x, hx, rfl⟩ := List.mem_map.1 hy
      have := abs_le.1 (h x hx)
      exact Real.cos_pos_of_mem_Ioo ⟨by linarith, by linarith⟩
    · simpa using hl
  have hS0 : S ≠ 0 := by
    intro hc
    rw [hc] at hre
    simp at hre
  have hnS : 0 < ‖S‖ := norm_pos_iff.2 hS0
  have hpol : S = (‖S‖ : ℂ) * Complex.exp ((Complex.arg S : ℝ) * I) := (Complex.norm_mul_exp_arg_mul_I S).symm
  have harg : |Complex.arg S| < Real.pi / 2 := Complex.abs_arg_lt_pi_div_two_iff.2 (Or.inl hre)
  have harg' := abs_lt.1 harg
  have him : ∀ b : ℝ, (S * Complex.exp (I * (b : ℂ))).im = ‖S‖ * Real.sin (Complex.arg S + b) := by
    intro b
    have : S * Complex.exp (I * (b : ℂ)) = ((‖S‖ : ℝ) : ℂ) * Complex.exp (((Complex.arg S + b : ℝ) : ℂ) * I) := by
      conv_lhs => rw [hpol]
      rw [mul_assoc, ← Complex.exp_add]
      congr 2
      push_cast
      ring
    rw [this, Complex.im_ofReal_mul, Complex.exp_ofReal_mul_I_im]
  have hle : |Complex.arg S| ≤ γ := by
    rw [abs_le]
    constructor
    · by_contra hcon
      push Not at hcon
      have h1 : ‖S‖ * Real.sin (Complex.arg S + γ) < 0 :=
        mul_neg_of_pos_of_neg hnS (Real.sin_neg_of_neg_of_neg_pi_lt (by linarith) (by linarith))
      rw [← him, (hproj γ).2] at h1
      refine absurd h1 (not_lt.2 (List.sum_nonneg ?_))
      intro y hy
      obtain ⟨x, hx, rfl⟩ := List.mem_map.1 hy
      have := abs_le.1 (h x hx)
      exact Real.sin_nonneg_of_nonneg_of_le_pi (by linarith) (by linarith)
    · by_contra hcon
      push Not at hcon
      have h1 : 0 < ‖S‖ * Real.sin (Complex.arg S + -γ) :=
        mul_pos hnS (Real.sin_pos_of_pos_of_lt_pi (by linarith) (by linarith))
      rw [← him, (hproj (-γ)).2] at h1
      refine absurd h1 (not_lt.2 ?_)
      refine (List.sum_le_card_nsmul _ 0 ?_).trans (by simp)
      intro y hy
      obtain ⟨x, hx, rfl⟩ := List.mem_map.1 hy
      have := abs_le.1 (h x hx)
      exact Real.sin_nonpos_of_nonpos_of_neg_pi_le (by linarith) (by linarith)
  refine ⟨Complex.arg S, ?_⟩
  have heq : Complex.exp ((Complex.arg (Complex.exp (I * (a : ℂ)) * S) : ℝ) * I) = Complex.exp (((a + Complex.arg S : ℝ) : ℂ) * I) := by
    have hn : ‖Complex.exp (I * (a : ℂ)) * S‖ = ‖S‖ := by rw [norm_mul, norm_exp_I, one_mul]
    have h1 := Complex.norm_mul_exp_arg_mul_I (Complex.exp (I * (a : ℂ)) * S)
    rw [hn] at h1
    have hne : (‖S‖ : ℂ) ≠ 0 := by exact_mod_cast hnS.ne'
    apply mul_left_cancel₀ hne
    rw [h1]
    conv_lhs => rw [hpol]
    rw [mul_left_comm, ← Complex.exp_add]
    congr 2
    push_cast
    ring
  rw [Complex.exp_eq_exp_iff_exists_int] at heq
  obtain ⟨k, hk⟩ := heq
  refine ⟨k, hle, ?_⟩
  rw [hsum]
  have h2 : ((Complex.arg (Complex.exp (I * (a : ℂ)) * S) : ℝ) : ℂ) = ((a + Complex.arg S + 2 * Real.pi * k : ℝ) : ℂ) := by
    apply mul_right_cancel₀ Complex.I_ne_zero
    rw [hk]
    push_cast
    ring
  exact_mod_cast h2

/-- Tracking: an M-PSK signal (points with `s^M = -1`, as in the library for QPSK) with any amplitudes, whose phase, noise included, moves
by less than `π/(3M)` over the averaging length, is recovered up to the movement of the phase over the averaging length and one common
rotation onto itself of the constellation, however far the phase moves in the end. -/
theorem C165_tracking (E : List ℂ) (N M : Nat) (r θ : Nat → ℝ) (s : Nat → ℂ) (Δ : ℝ) (hN : 1 ≤ N) (hL : N ≤ E.length) (hM : 1 ≤ M)
    (h : ∀ j, j < E.length → 0 < r j ∧ s j ^ M = -1 ∧ E.getD j 0 = r j * s j * Complex.exp (I * (θ j : ℂ)))
    (hdrift : ∀ i j, i < E.length → j < E.length → i ≤ j + N → j ≤ i + N → |θ i - θ j| ≤ Δ) (hΔ : 3 * M * Δ < Real.pi) :
    ∃ (out : List ℂ) (ph : List ℝ) (ω : ℂ), viterbiviterbi E N M = .ok (out, ph) ∧ ω ^ M = 1 ∧
      ∀ t, (N - 1) / 2 ≤ t → t + N / 2 < E.length → ∃ δ : ℝ, |δ| ≤ Δ ∧
        out[t]? = some (r t * (s t * ω) * Complex.exp (I * (δ : ℂ))) := by
  have hpi := Real.pi_pos
  have hMr : (1 : ℝ) ≤ M := by exact_mod_cast hM
  have hM0 : (0 : ℝ) < M := by linarith
  have hΔ0 : 0 ≤ Δ := (abs_nonneg _).trans (hdrift 0 0 (by omega) (by omega) (by omega) (by omega))
  obtain ⟨out, ph, h1, h2, h3, h4, h5, -⟩ := viterbiviterbi_spec E N M hN hL
  -- the powers of the samples
  have hpow : ∀ j, j < E.length → Complex.exp (I * ((Complex.arg (E.getD j 0) : ℝ) : ℂ)) ^ M =
      Complex.exp (I * ((M * θ j + Real.pi : ℝ) : ℂ)) := by
    intro j hj
    obtain ⟨hr, hs, he⟩ := h j hj
    have hsn : ‖s j‖ = 1 := by
      have : ‖s j‖ ^ M = 1 := by rw [← norm_pow, hs]; simp
      exact (pow_eq_one_iff_of_nonneg (norm_nonneg _) (by omega)).1 this
    have hen : ‖E.getD j 0‖ = r j := by
      rw [he, norm_mul, norm_mul, hsn, norm_exp_I, Complex.norm_real, Real.norm_of_nonneg hr.le]
      ring
    have hab := Complex.norm_mul_exp_arg_mul_I (E.getD j 0)
    rw [hen] at hab
    have hr0 : (r j : ℂ) ≠ 0 := by exact_mod_cast hr.ne'
    have : Complex.exp (I * ((Complex.arg (E.getD j 0) : ℝ) : ℂ)) = s j * Complex.exp (I * (θ j : ℂ)) := by
      apply mul_left_cancel₀ hr0
      rw [mul_comm I ((Complex.arg _ : ℝ) : ℂ), hab, he, mul_assoc]
    rw [this, mul_pow, hs, ← Complex.exp_nat_mul]
    have hm : (-1 : ℂ) = Complex.exp (I * (Real.pi : ℂ)) := by rw [mul_comm, Complex.exp_pi_mul_I]
    rw [hm, ← Complex.exp_add]
    congr 1
    push_cast
    ring
  -- the estimate of each window
  have hwin : ∀ k, k < E.length + 1 - N → ∃ (e : ℝ) (q : ℤ), |e| ≤ M * Δ ∧
      Complex.arg (((E.drop k).take N).map fun e => Complex.exp (I * ((Complex.arg e : ℝ) : ℂ)) ^ M).sum =
        (M * θ (k + (N - 1) / 2) + Real.pi) + e + 2 * Real.pi * q := by
    intro k hk
    have hlist : (((E.drop k).take N).map fun e => Complex.exp (I * ((Complex.arg e : ℝ) : ℂ)) ^ M) =
        (((List.range N).map fun i : Nat => (M : ℝ) * θ (k + i) + Real.pi).map fun x : ℝ => Complex.exp (I * (x : ℂ))) := by
      apply List.ext_getElem
      · simp; omega
      · intro i g1 g2
        simp only [List.length_map, List.length_range] at g2
        simp only [List.getElem_map, List.getElem_range, List.getElem_take, List.getElem_drop]
        have := hpow (k + i) (by omega)
        rw [show E.getD (k + i) 0 = E[k + i] by simp [List.getD, List.getElem?_eq_getElem (by omega : k + i < E.length)]] at this
        exact this
    rw [hlist]
    refine arg_sum_close _ _ _ (by simp; omega) (by positivity) (by nlinarith) ?_
    intro x hx
    obtain ⟨i, hi, rfl⟩ := List.mem_map.1 hx
    rw [List.mem_range] at hi
    have hd := hdrift (k + i) (k + (N - 1) / 2) (by omega) (by omega) (by omega) (by omega)
    calc _ = |(M : ℝ) * (θ (k + i) - θ (k + (N - 1) / 2))| := by congr 1; ring
      _ ≤ _ := by rw [abs_mul, abs_of_pos hM0]; exact mul_le_mul_of_nonneg_left hd hM0.le
  choose! e q he hq using hwin
  obtain ⟨K, hK⟩ := unwrap_slow ((List.range (E.length + 1 - N)).map fun k =>
      Complex.arg (((E.drop k).take N).map fun e => Complex.exp (I * ((Complex.arg e : ℝ) : ℂ)) ^ M).sum)
    (fun k => (M * θ (k + (N - 1) / 2) + Real.pi) + e k) (by
      intro j x hx
      have hj : j < E.length + 1 - N := by
        by_contra hcon
        rw [List.getElem?_eq_none (by simp; omega)] at hx
        simp at hx
      rw [List.getElem?_map, List.getElem?_range hj] at hx
      simp only [Option.map_some, Option.some.injEq] at hx
      exact ⟨q j, by rw [← hx]; exact hq j hj⟩) (by
      intro j hj
      rw [List.length_map, List.length_range] at hj
      have hd := hdrift (j + 1 + (N - 1) / 2) (j + (N - 1) / 2) (by omega) (by omega) (by omega) (by omega)
      have e1 := abs_le.1 (he j (by omega))
      have e2 := abs_le.1 (he (j + 1) (by omega))
      have e3 := abs_le.1 hd
      rw [abs_lt]
      constructor <;> nlinarith)
  rw [List.length_map, List.length_range] at hK
  have hph : ∀ k, k < E.length + 1 - N → ph[k]? = some (θ (k + (N - 1) / 2) + e k / M + 2 * Real.pi * K / M) := by
    intro k hk
    rw [h4, List.getElem?_map, hK, List.getElem?_map, List.getElem?_range hk]
    simp only [Option.map_some, Option.some.injEq]
    field_simp
    ring
  refine ⟨out, ph, Complex.exp (I * ((-(2 * Real.pi * K / M) : ℝ) : ℂ)), h1, ?_, ?_⟩
  · rw [← Complex.exp_nat_mul, Complex.exp_eq_one_iff]
    refine ⟨-K, ?_⟩
    have : (M : ℂ) ≠ 0 := by exact_mod_cast hM0.ne'
    push_cast
    field_simp
  · intro t ht1 ht2
    have htE : t < E.length := by omega
    obtain ⟨k, rfl⟩ : ∃ k, t = k + (N - 1) / 2 := ⟨t - (N - 1) / 2, by omega⟩
    have hk : k < E.length + 1 - N := by omega
    refine ⟨-(e k / M), ?_, ?_⟩
    · rw [abs_neg, abs_div, abs_of_pos hM0, div_le_iff₀ hM0]
      linarith [he k hk]
    · have hE : E[k + (N - 1) / 2]? = some (E.getD (k + (N - 1) / 2) 0) := by
        simp [List.getD, List.getElem?_eq_getElem htE]
      rw [h5 k _ _ hE (hph k hk), (h _ htE).2.2]
      congr 1
      have hx : Complex.exp (I * (θ (k + (N - 1) / 2) : ℂ)) *
          Complex.exp (-(I * ((θ (k + (N - 1) / 2) + e k / M + 2 * Real.pi * K / M : ℝ) : ℂ))) =
          Complex.exp (I * ((-(2 * Real.pi * K / M) : ℝ) : ℂ)) * Complex.exp (I * ((-(e k / M) : ℝ) : ℂ)) := by
        rw [← Complex.exp_add, ← Complex.exp_add]
        congr 1
        push_cast
        ring
      rw [mul_assoc, hx]
      ring

/-- Cosines away from the smallest angle. -/
theorem cos_lt_of_far {x d : ℝ} (h1 : |d| < |x|) (h2 : |x| < 2 * Real.pi - |d|) : Real.cos x < Real.cos d := by
  rw [← Real.cos_abs x, ← Real.cos_abs d]
  have h := Real.cos_sub_cos |x| |d|
  have h0 := abs_nonneg d
  have s1 : 0 < Real.sin ((|x| + |d|) / 2) := Real.sin_pos_of_pos_of_lt_pi (by linarith) (by linarith)
  have s2 : 0 < Real.sin ((|x| - |d|) / 2) := Real.sin_pos_of_pos_of_lt_pi (by linarith) (by linarith)
  nlinarith [mul_pos s1 s2]

/-- A root of one other than one is at least a step of the roots away from the positive axis. -/
theorem root_angle {M : Nat} (hM : 1 ≤ M) {ζ : ℂ} (h : ζ ^ M = 1) (hne : ζ ≠ 1) :
    ∃ φ : ℝ, ζ = Complex.exp (I * (φ : ℂ)) ∧ 2 * Real.pi / M ≤ |φ| ∧ |φ| ≤ Real.pi := by
  have hpi := Real.pi_pos
  have hM0 : (0 : ℝ) < M := by exact_mod_cast hM
  have hn : ‖ζ‖ = 1 := by
    have : ‖ζ‖ ^ M = 1 := by rw [← norm_pow, h]; simp
    exact (pow_eq_one_iff_of_nonneg (norm_nonneg _) (by omega)).1 this
  have hζ : ζ = Complex.exp (I * (Complex.arg ζ : ℂ)) := by
    have := Complex.norm_mul_exp_arg_mul_I ζ
    rw [hn, Complex.ofReal_one, one_mul, mul_comm] at this
    exact this.symm
  refine ⟨Complex.arg ζ, hζ, ?_, Complex.abs_arg_le_pi ζ⟩
  have h1 : Complex.exp (M * (I * (Complex.arg ζ : ℂ))) = 1 := by rw [Complex.exp_nat_mul, ← hζ, h]
  rw [Complex.exp_eq_one_iff] at h1
  obtain ⟨k, hk⟩ := h1
  have h2 : (M : ℝ) * Complex.arg ζ = k * (2 * Real.pi) := by
    have : ((M * Complex.arg ζ : ℝ) : ℂ) = ((k * (2 * Real.pi) : ℝ) : ℂ) := by
      apply mul_right_cancel₀ Complex.I_ne_zero
      push_cast
      linear_combination hk
    exact_mod_cast this
  have hk0 : k ≠ 0 := by
    rintro rfl
    rw [Int.cast_zero, zero_mul] at h2
    have : Complex.arg ζ = 0 := by
      rcases mul_eq_zero.1 h2 with h3 | h3
      · exact absurd h3 hM0.ne'
      · exact h3
    rw [this] at hζ
    simp at hζ
    exact hne hζ
  have hk1 : (1 : ℝ) ≤ |(k : ℝ)| := by
    have := Int.one_le_abs hk0
    exact_mod_cast this
  rw [div_le_iff₀ hM0]
  have h3 : |Complex.arg ζ| * M = |(k : ℝ)| * (2 * Real.pi) := by
    rw [← abs_of_pos (by positivity : 0 < 2 * Real.pi), ← abs_mul, ← h2, abs_mul, abs_of_pos hM0, mul_comm]
  rw [h3]
  nlinarith

/-- Decisions: under the same conditions every recovered sample is closer to the transmitted point, turned by the common rotation, than to
any other point of the constellation. -/
theorem C165_decision (E : List ℂ) (N M : Nat) (r θ : Nat → ℝ) (s : Nat → ℂ) (Δ : ℝ) (hN : 1 ≤ N) (hL : N ≤ E.length) (hM : 1 ≤ M)
    (h : ∀ j, j < E.length → 0 < r j ∧ s j ^ M = -1 ∧ E.getD j 0 = r j * s j * Complex.exp (I * (θ j : ℂ)))
    (hdrift : ∀ i j, i < E.length → j < E.length → i ≤ j + N → j ≤ i + N → |θ i - θ j| ≤ Δ) (hΔ : 3 * M * Δ < Real.pi) :
    ∃ (out : List ℂ) (ph : List ℝ) (ω : ℂ), viterbiviterbi E N M = .ok (out, ph) ∧ ω ^ M = 1 ∧
      ∀ t, (N - 1) / 2 ≤ t → t + N / 2 < E.length → ∃ z, out[t]? = some z ∧ (s t * ω) ^ M = -1 ∧
        ∀ u : ℂ, u ^ M = -1 → u ≠ s t * ω → ‖z - s t * ω‖ < ‖z - u‖ := by
  obtain ⟨out, ph, ω, h1, h2, h3⟩ := C165_tracking E N M r θ s Δ hN hL hM h hdrift hΔ
  refine ⟨out, ph, ω, h1, h2, ?_⟩
  intro t ht1 ht2
  obtain ⟨δ, hδ, hz⟩ := h3 t ht1 ht2
  obtain ⟨hr, hs, -⟩ := h t (by omega)
  have hpi := Real.pi_pos
  have hM0 : (0 : ℝ) < M := by exact_mod_cast hM
  have hM1 : (1 : ℝ) ≤ M := by exact_mod_cast hM
  refine ⟨_, hz, by rw [mul_pow, hs, h2, mul_one], ?_⟩
  intro u hu hne
  obtain ⟨v, hv⟩ : ∃ v, v = s t * ω := ⟨_, rfl⟩
  have hvM : v ^ M = -1 := by rw [hv, mul_pow, hs, h2, mul_one]
  have hunit : ∀ w : ℂ, w ^ M = -1 → ‖w‖ = 1 := by
    intro w hw
    have : ‖w‖ ^ M = 1 := by rw [← norm_pow, hw]; simp
    exact (pow_eq_one_iff_of_nonneg (norm_nonneg _) (by omega)).1 this
  rw [← hv] at hne ⊢
  have hv0 : v ≠ 0 := by rw [← norm_ne_zero_iff, hunit v hvM]; exact one_ne_zero
  obtain ⟨φ, hφ, hφ1, hφ2⟩ := root_angle hM (ζ := u / v) (by rw [div_pow, hu, hvM]; norm_num) (by
    intro hc
    exact hne (by rwa [div_eq_one_iff_eq hv0] at hc))
  have hu' : u = v * Complex.exp (I * (φ : ℂ)) := by rw [← hφ, mul_div_cancel₀ _ hv0]
  have hnorm : ∀ x : ℝ, ‖(r t : ℂ) * Complex.exp (I * (δ : ℂ)) - Complex.exp (I * (x : ℂ))‖ ^ 2 = r t ^ 2 + 1 - 2 * r t * Real.cos (δ - x) := by
    intro x
    rw [← Complex.normSq_eq_norm_sq, mul_comm I, mul_comm I, Complex.exp_mul_I, Complex.exp_mul_I, Complex.normSq_apply, Real.cos_sub]
    simp only [Complex.sub_re, Complex.sub_im, Complex.mul_re, Complex.mul_im, Complex.add_re, Complex.add_im, Complex.ofReal_re,
      Complex.ofReal_im, Complex.I_re, Complex.I_im, ← Complex.ofReal_cos, ← Complex.ofReal_sin]
    have e1 := Real.sin_sq_add_cos_sq δ
    have e2 := Real.sin_sq_add_cos_sq x
    ring_nf
    nlinarith
  have hd0 : ‖(r t : ℂ) * v * Complex.exp (I * (δ : ℂ)) - v‖ ^ 2 = r t ^ 2 + 1 - 2 * r t * Real.cos δ := by
    have := hnorm 0
    rw [Complex.ofReal_zero, mul_zero, Complex.exp_zero, sub_zero] at this
    rw [← this, show (r t : ℂ) * v * Complex.exp (I * (δ : ℂ)) - v = v * ((r t : ℂ) * Complex.exp (I * (δ : ℂ)) - 1) by ring, norm_mul,
      hunit v hvM, one_mul]
  have hd1 : ‖(r t : ℂ) * v * Complex.exp (I * (δ : ℂ)) - u‖ ^ 2 = r t ^ 2 + 1 - 2 * r t * Real.cos (δ - φ) := by
    rw [← hnorm φ, hu', show (r t : ℂ) * v * Complex.exp (I * (δ : ℂ)) - v * Complex.exp (I * (φ : ℂ)) =
      v * ((r t : ℂ) * Complex.exp (I * (δ : ℂ)) - Complex.exp (I * (φ : ℂ))) by ring, norm_mul, hunit v hvM, one_mul]
  have hδM : |δ| * (3 * M) < Real.pi := by nlinarith
  have hφM : 2 * Real.pi ≤ |φ| * M := by rwa [div_le_iff₀ hM0] at hφ1
  have hδπ : 3 * |δ| < Real.pi := by nlinarith [abs_nonneg δ]
  have hcos : Real.cos (δ - φ) < Real.cos δ := by
    apply cos_lt_of_far
    · have h4 : |φ| - |δ| ≤ |δ - φ| := by rw [abs_sub_comm]; exact abs_sub_abs_le_abs_sub φ δ
      have h5 : 2 * |δ| < |φ| := by nlinarith
      linarith
    · have h4 : |δ - φ| ≤ |δ| + |φ| := abs_sub δ φ
      linarith
  have : ‖(r t : ℂ) * v * Complex.exp (I * (δ : ℂ)) - v‖ ^ 2 < ‖(r t : ℂ) * v * Complex.exp (I * (δ : ℂ)) - u‖ ^ 2 := by
    rw [hd0, hd1]
    nlinarith
  exact lt_of_pow_lt_pow_left₀ 2 (norm_nonneg _) this

/-- A QPSK signal of any length whose phase turns by 1/50 per symbol, with amplitude noise. -/
example (L : Nat) (hL : 3 ≤ L) : ∃ (out : List ℂ) (ph : List ℝ) (ω : ℂ),
    viterbiviterbi ((List.range L).map fun j : Nat => (1 + 1 / (j + 2) : ℝ) * (Complex.exp (I * ((Real.pi / 4 : ℝ) : ℂ)) * I ^ j) * Complex.exp (I * ((j / 50 : ℝ) : ℂ))) 3 4
      = .ok (out, ph) ∧ ω ^ 4 = 1 ∧ ∀ t, 1 ≤ t → t + 1 < L → ∃ δ : ℝ, |δ| ≤ 3 / 50 ∧
        out[t]? = some ((1 + 1 / (t + 2) : ℝ) * (Complex.exp (I * ((Real.pi / 4 : ℝ) : ℂ)) * I ^ t * ω) * Complex.exp (I * (δ : ℂ))) := by
  have hpi := Real.two_le_pi
  obtain ⟨out, ph, ω, h1, h2, h3⟩ := C165_tracking
    ((List.range L).map fun j : Nat => (1 + 1 / (j + 2) : ℝ) * (Complex.exp (I * ((Real.pi / 4 : ℝ) : ℂ)) * I ^ j) * Complex.exp (I * ((j / 50 : ℝ) : ℂ))) 3 4
    (fun j => 1 + 1 / (j + 2)) (fun j => j / 50) (fun j => Complex.exp (I * ((Real.pi / 4 : ℝ) : ℂ)) * I ^ j) (3 / 50) (by norm_num)
    (by simpa using hL) (by norm_num) (by
      intro j hj
      rw [List.length_map, List.length_range] at hj
      refine ⟨by positivity, ?_, ?_⟩
      · rw [mul_pow, ← Complex.exp_nat_mul, ← pow_mul, mul_comm j 4, pow_mul, Complex.I_pow_four, one_pow, mul_one]
        rw [← Complex.exp_pi_mul_I]
        congr 1
        push_cast
        ring
      · simp only [List.getD, List.getElem?_map, List.getElem?_range hj, Option.map_some, Option.getD_some]) (by
      intro i j _ _ g1 g2
      have g1' : (i : ℝ) ≤ j + 3 := by exact_mod_cast g1
      have g2' : (j : ℝ) ≤ i + 3 := by exact_mod_cast g2
      rw [abs_le]
      constructor <;> linarith) (by norm_num; linarith)
  refine ⟨out, ph, ω, h1, h2, ?_⟩
  intro t ht1 ht2
  exact h3 t (by norm_num; exact ht1) (by simpa using ht2)

end Qampy
