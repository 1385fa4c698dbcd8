import Verif.Props.FreqGrid
import Mathlib.Analysis.Real.Pi.Bounds
import Mathlib.Analysis.Convex.SpecificFunctions.Deriv

/-!
# Frequency offset of noisy signals: C166
-/

namespace Qampy

open Complex (I)

/-- The estimate of all modes from that of each mode, with or without averaging. -/
theorem findFreqOffset_of_modes (sig : List (List ℂ)) (f os B : ℝ) (fftSize : Nat) (average : Bool)
    (hmode : ∀ r ∈ sig, ∃ e : ℝ, freqOffsetMode r os (2 ^ Nat.clog 2 fftSize) = some e ∧ |e - f| ≤ B) :
    ∃ est : List ℝ, findFreqOffset sig os average fftSize = some est ∧ est.length = sig.length ∧ ∀ e ∈ est, |e - f| ≤ B := by
  obtain ⟨g, hg⟩ : ∃ g : List ℂ → ℝ, ∀ r ∈ sig, freqOffsetMode r os (2 ^ Nat.clog 2 fftSize) = some (g r) ∧ |g r - f| ≤ B := by
    classical
    refine ⟨fun r => if h : r ∈ sig then (hmode r h).choose else 0, ?_⟩
    intro r hr
    simp only [hr, dif_pos]
    exact (hmode r hr).choose_spec
  have hmap : sig.mapM (fun x => freqOffsetMode x os (2 ^ Nat.clog 2 fftSize)) = some (sig.map g) := by
    rw [mapM_eq_some_iff, List.map_map]
    exact List.map_congr_left fun r hr => (hg r hr).1
  unfold findFreqOffset
  rw [hmap]
  simp only [Option.bind_eq_bind, Option.bind_some, Option.some.injEq]
  refine ⟨_, rfl, ?_, ?_⟩
  · cases average <;> simp
  · cases average with
    | false =>
      intro e he
      simp only [Bool.false_eq_true, if_false] at he
      obtain ⟨r, hr, rfl⟩ := List.mem_map.1 he
      exact (hg r hr).2
    | true =>
      intro e he
      simp only [if_true, List.mem_map, List.length_map] at he
      obtain ⟨_, ⟨r, hr, _⟩, rfl⟩ := he
      have hn : (0 : ℝ) < sig.length := by exact_mod_cast List.length_pos_of_mem hr
      have hsum : ∀ l : List (List ℂ), (∀ r ∈ l, |g r - f| ≤ B) → |(l.map g).sum - l.length * f| ≤ l.length * B := by
        intro l
        induction l with
        | nil => simp
        | cons a l ih =>
          intro h
          have h1 := ih fun r hr => h r (List.mem_cons_of_mem _ hr)
          have h2 := h a List.mem_cons_self
          simp only [List.map_cons, List.sum_cons, List.length_cons]
          push_cast
          have e : g a + (l.map g).sum - ((l.length : ℝ) + 1) * f = (g a - f) + ((l.map g).sum - l.length * f) := by ring
          rw [e]
          refine (abs_add_le _ _).trans ?_
          linarith
      have h1 := hsum sig fun r hr => (hg r hr).2
      have e : (sig.map g).sum / sig.length - f = ((sig.map g).sum - sig.length * f) / sig.length := by field_simp
      rw [e, abs_div, abs_of_pos hn, div_le_iff₀ hn]
      linarith

/-- The spectrum of the fourth power is that of the tone up to the sum of the deviations. -/
theorem dft_close (x : List ℂ) (c : ℂ) (t : ℝ) (F m : Nat) :
    ‖dftPad (x.map (· ^ 4)) F m - c * fan F (2 * Real.pi * (t - m) / F)‖ ≤
      ∑ n ∈ Finset.range F, ‖x.getD n 0 ^ 4 - c * Complex.exp (I * ((2 * Real.pi * n * t / F : ℝ) : ℂ))‖ := by
  have e : dftPad (x.map (· ^ 4)) F m - c * fan F (2 * Real.pi * (t - m) / F) =
      ∑ n ∈ Finset.range F, (x.getD n 0 ^ 4 - c * Complex.exp (I * ((2 * Real.pi * n * t / F : ℝ) : ℂ))) *
        Complex.exp (-(I * ((2 * Real.pi * n * m / F : ℝ) : ℂ))) := by
    unfold dftPad fan
    rw [Finset.mul_sum, ← Finset.sum_sub_distrib]
    apply Finset.sum_congr rfl
    intro n _
    have h1 : (x.map (· ^ 4)).getD n 0 = x.getD n 0 ^ 4 := by
      rw [List.getD_eq_getElem?_getD, List.getD_eq_getElem?_getD, List.getElem?_map]
      cases x[n]? <;> simp
    rw [h1, sub_mul, mul_assoc c, ← Complex.exp_add, ← Complex.exp_nat_mul]
    congr 3
    push_cast
    ring
  rw [e]
  refine (norm_sum_le _ _).trans (Finset.sum_le_sum fun n _ => ?_)
  rw [norm_mul]
  have : ‖Complex.exp (-(I * ((2 * Real.pi * n * m / F : ℝ) : ℂ)))‖ = 1 := by
    rw [← mul_neg, ← Complex.ofReal_neg, mul_comm]
    exact Complex.norm_exp_ofReal_mul_I _
  rw [this, mul_one]

theorem fan_sin (F : Nat) (d : ℝ) : ‖fan F d‖ * |Real.sin (d / 2)| = |Real.sin (F * d / 2)| := by
  have h1 : fan F d * (Complex.exp (I * (d : ℂ)) - 1) = Complex.exp (I * ((F * d : ℝ) : ℂ)) - 1 := by
    unfold fan
    rw [geom_sum_mul, ← Complex.exp_nat_mul]
    congr 2
    push_cast
    ring
  have h2 := congrArg norm h1
  rw [norm_mul, chord_sq, chord_sq] at h2
  linarith

/-- In the main lobe the spectrum is at least `2/π` of its maximum. -/
theorem fan_main (F : Nat) (hF : 2 ≤ F) (x : ℝ) (hx0 : 0 ≤ x) (hx : x ≤ 1 / 2) : 2 * F / Real.pi ≤ ‖fan F (2 * Real.pi * x / F)‖ := by
  have hp := Real.pi_pos
  have hF0 : (0 : ℝ) < F := by exact_mod_cast (by omega : 0 < F)
  rcases hx0.eq_or_lt with h | h
  · rw [← h]
    have : fan F (2 * Real.pi * 0 / F) = F := by unfold fan; simp
    rw [this, Complex.norm_natCast, div_le_iff₀ hp]
    nlinarith [Real.two_le_pi]
  · have h1 := fan_sin F (2 * Real.pi * x / F)
    have e1 : 2 * Real.pi * x / F / 2 = Real.pi * x / F := by ring
    have e2 : F * (2 * Real.pi * x / F) / 2 = Real.pi * x := by field_simp
    have hs : 0 < Real.pi * x / F := by positivity
    have hs2 : Real.pi * x / F ≤ Real.pi := by
      rw [div_le_iff₀ hF0]
      have : (2 : ℝ) ≤ F := by exact_mod_cast hF
      nlinarith
    rw [e1, e2, abs_of_nonneg (Real.sin_nonneg_of_nonneg_of_le_pi hs.le hs2),
      abs_of_nonneg (Real.sin_nonneg_of_nonneg_of_le_pi (by positivity) (by nlinarith))] at h1
    have h2 : 2 * x ≤ Real.sin (Real.pi * x) := by
      have := Real.mul_le_sin (x := Real.pi * x) (by positivity) (by nlinarith)
      have e : 2 / Real.pi * (Real.pi * x) = 2 * x := by field_simp
      rwa [e] at this
    have h3 := Real.sin_le hs.le
    have h4 : ‖fan F (2 * Real.pi * x / F)‖ * Real.sin (Real.pi * x / F) ≤ ‖fan F (2 * Real.pi * x / F)‖ * (Real.pi * x / F) := by
      gcongr
    have h5 : 2 * x ≤ ‖fan F (2 * Real.pi * x / F)‖ * (Real.pi * x / F) := by linarith
    have h6 : 2 * F / Real.pi * (Real.pi * x / F) = 2 * x := by field_simp
    rw [← h6] at h5
    exact le_of_mul_le_mul_right h5 hs

/-- More than one bin away from the tone the spectrum is below 5/14 of its maximum. -/
theorem fan_side (F : Nat) (hF : 4 ≤ F) (x : ℝ) (hx1 : 1 ≤ x) (hx : x ≤ F / 2) : ‖fan F (2 * Real.pi * x / F)‖ ≤ 5 / 14 * F := by
  have hp := Real.pi_pos
  have hF4 : (4 : ℝ) ≤ F := by exact_mod_cast hF
  have hF0 : (0 : ℝ) < F := by linarith
  have h1 := fan_sin F (2 * Real.pi * x / F)
  have e1 : 2 * Real.pi * x / F / 2 = Real.pi * x / F := by ring
  have hmono : Real.sin (Real.pi / F) ≤ Real.sin (Real.pi * x / F) := by
    apply Real.sin_le_sin_of_le_of_le_pi_div_two
    · have : 0 < Real.pi / F := by positivity
      linarith
    · rw [div_le_iff₀ hF0]; nlinarith
    · gcongr
      nlinarith
  have hconc : 14 / (5 * F) ≤ Real.sin (Real.pi / F) := by
    have hc := strictConcaveOn_sin_Icc.concaveOn.2 (show (0 : ℝ) ∈ Set.Icc 0 Real.pi from ⟨le_rfl, hp.le⟩)
      (show Real.pi / 4 ∈ Set.Icc 0 Real.pi from ⟨by positivity, by linarith⟩)
      (show (0 : ℝ) ≤ 1 - 4 / F by rw [sub_nonneg, div_le_one hF0]; exact hF4) (show (0 : ℝ) ≤ 4 / F by positivity) (by ring)
    simp only [smul_eq_mul, mul_zero, Real.sin_zero, zero_add, Real.sin_pi_div_four] at hc
    have e : 4 / F * (Real.pi / 4) = Real.pi / F := by field_simp
    rw [e] at hc
    refine le_trans ?_ hc
    have hs : (7 : ℝ) / 5 ≤ √2 := Real.le_sqrt_of_sq_le (by norm_num)
    have e2 : (14 : ℝ) / (5 * F) = 4 / F * (7 / 5 / 2) := by field_simp; norm_num
    rw [e2]
    gcongr
  have hpos : 0 < Real.sin (Real.pi / F) := lt_of_lt_of_le (by positivity) hconc
  rw [e1, abs_of_pos (hpos.trans_le hmono)] at h1
  have h2 : ‖fan F (2 * Real.pi * x / F)‖ * (14 / (5 * F)) ≤ 1 := by
    calc ‖fan F (2 * Real.pi * x / F)‖ * (14 / (5 * F)) ≤ ‖fan F (2 * Real.pi * x / F)‖ * Real.sin (Real.pi * x / F) := by
          gcongr
          exact hconc.trans hmono
      _ ≤ 1 := by rw [h1]; exact Real.abs_sin_le_one _
  have e3 : ‖fan F (2 * Real.pi * x / F)‖ = ‖fan F (2 * Real.pi * x / F)‖ * (14 / (5 * F)) * (5 / 14 * F) := by field_simp
  rw [e3]
  calc _ ≤ 1 * (5 / 14 * (F : ℝ)) := by gcongr
    _ = _ := one_mul _

/-- One mode on the grid: the bin of the tone wins if the deviations sum up to less than half the tone. -/
theorem freqOffsetMode_noisy_grid (x : List ℂ) (c : ℂ) (os : ℝ) (F : Nat) (k : ℤ) (hF : 1 ≤ F) (hk1 : -(F : ℤ) ≤ 2 * k) (hk2 : 2 * k < F)
    (hx : 2 * ∑ n ∈ Finset.range F, ‖x.getD n 0 ^ 4 - c * Complex.exp (I * ((2 * Real.pi * n * k / F : ℝ) : ℂ))‖ < F * ‖c‖) :
    freqOffsetMode x os F = some (k * os / F / 4) := by
  have hd := dft_close x c k F
  obtain ⟨S, hS⟩ : ∃ S, S = ∑ n ∈ Finset.range F, ‖x.getD n 0 ^ 4 - c * Complex.exp (I * ((2 * Real.pi * n * k / F : ℝ) : ℂ))‖ := ⟨_, rfl⟩
  rw [← hS] at hx
  simp only [← hS] at hd
  obtain ⟨m0, hm0i⟩ : ∃ m0 : Nat, (m0 : ℤ) = k % F := ⟨(k % F).toNat, Int.toNat_of_nonneg (Int.emod_nonneg _ (by omega))⟩
  have hF0 : (0 : ℤ) < F := by omega
  have hkF : k % F < F := Int.emod_lt_of_pos _ hF0
  have hdiv : (F : ℤ) ∣ k - m0 := by
    rw [hm0i]; exact Int.dvd_self_sub_emod
  have harg : Np.argmax ((List.range F).map fun m => ‖dftPad (x.map (· ^ 4)) F m‖ ^ 2) = some m0 := by
    apply argmax_unique
    · omega
    · intro j hj hne
      have hw : Complex.exp (I * ((2 * Real.pi * (k - j) / F : ℝ) : ℂ)) ≠ 1 := by
        rw [Ne, exp_turn_ne_one k F j (by omega)]
        intro hd2
        have h3 : (F : ℤ) ∣ (m0 : ℤ) - j := by
          have := dvd_sub hd2 hdiv
          have e : k - (j : ℤ) - (k - m0) = m0 - j := by ring
          rwa [e] at this
        have h4 := Int.eq_zero_of_abs_lt_dvd h3 (by rw [abs_lt]; constructor <;> omega)
        omega
      have hfj : fan F (2 * Real.pi * (k - j) / F) = 0 := by
        have h1 : fan F (2 * Real.pi * (k - j) / F) * (Complex.exp (I * ((2 * Real.pi * (k - j) / F : ℝ) : ℂ)) - 1) = 0 := by
          unfold fan
          rw [geom_sum_mul, ← Complex.exp_nat_mul, sub_eq_zero, Complex.exp_eq_one_iff]
          refine ⟨k - j, ?_⟩
          have hFc : (F : ℂ) ≠ 0 := by exact_mod_cast (by omega : F ≠ 0)
          push_cast
          field_simp
        exact (mul_eq_zero.1 h1).resolve_right (sub_ne_zero.2 hw)
      have hf0 : fan F (2 * Real.pi * (k - m0) / F) = F := by
        unfold fan
        rw [(exp_turn_ne_one k F m0 (by omega)).2 hdiv]
        simp
      have h1 := hd j
      have h2 := hd m0
      rw [hfj, mul_zero, sub_zero] at h1
      rw [hf0] at h2
      have h3 : ‖c * (F : ℂ)‖ - ‖dftPad (x.map (· ^ 4)) F m0‖ ≤ S := by
        refine le_trans ?_ h2
        rw [norm_sub_rev]
        exact norm_sub_norm_le _ _
      rw [norm_mul, Complex.norm_natCast] at h3
      have h4 : ‖dftPad (x.map (· ^ 4)) F j‖ < ‖dftPad (x.map (· ^ 4)) F m0‖ := by nlinarith
      exact pow_lt_pow_left₀ h4 (norm_nonneg _) (by norm_num)
  unfold freqOffsetMode
  rw [harg]
  simp only [Option.map_some, Option.some.injEq]
  unfold fftfreq
  by_cases hk : 0 ≤ k
  · have : (m0 : ℤ) = k := by rw [hm0i]; exact Int.emod_eq_of_lt hk (by omega)
    rw [if_pos (by omega)]
    have : (m0 : ℝ) = k := by exact_mod_cast this
    rw [this]
  · have : (m0 : ℤ) = k + F := by
      rw [hm0i, ← Int.add_emod_right]
      exact Int.emod_eq_of_lt (by omega) (by omega)
    rw [if_neg (by omega)]
    have : (m0 : ℝ) = k + F := by exact_mod_cast this
    rw [this]
    ring

/-- One mode between the bins: the bin found is at most one bin away from the tone. -/
theorem freqOffsetMode_noisy (x : List ℂ) (c : ℂ) (hc : c ≠ 0) (os : ℝ) (F : Nat) (t : ℝ) (hF : 4 ≤ F)
    (hx : 8 * ∑ n ∈ Finset.range F, ‖x.getD n 0 ^ 4 - c * Complex.exp (I * ((2 * Real.pi * n * t / F : ℝ) : ℂ))‖ ≤ F * ‖c‖) :
    ∃ m j : ℤ, freqOffsetMode x os F = some (m * os / F / 4) ∧ -(F : ℤ) ≤ 2 * m ∧ 2 * m ≤ F - 1 ∧ |t - m - j * F| ≤ 1 := by
  have hd := dft_close x c t F
  obtain ⟨S, hS⟩ : ∃ S, S = ∑ n ∈ Finset.range F, ‖x.getD n 0 ^ 4 - c * Complex.exp (I * ((2 * Real.pi * n * t / F : ℝ) : ℂ))‖ := ⟨_, rfl⟩
  rw [← hS] at hx
  simp only [← hS] at hd
  have hF0 : (0 : ℝ) < F := by exact_mod_cast (by omega : 0 < F)
  have hFi : (0 : ℤ) < F := by omega
  have hp := Real.pi_pos
  have hcn : 0 < ‖c‖ := norm_pos_iff.2 hc
  have hlen : ((List.range F).map fun m => ‖dftPad (x.map (· ^ 4)) F m‖ ^ 2).length = F := by simp
  obtain ⟨m, hm⟩ : ∃ m, Np.argmax ((List.range F).map fun m => ‖dftPad (x.map (· ^ 4)) F m‖ ^ 2) = some m := by
    apply Np.argmax_isSome
    intro h0
    have := congrArg List.length h0
    rw [hlen] at this
    simp at this
    omega
  have hmF : m < F := by have := Np.argmax_lt hm; rwa [hlen] at this
  have hmax : ∀ m' : Nat, m' < F → ‖fan F (2 * Real.pi * (t - m') / F)‖ ≤ ‖fan F (2 * Real.pi * (t - m) / F)‖ + F / 4 := by
    intro m' hm'
    obtain ⟨v, hv, hle, _⟩ := Np.argmax_spec hm
    have h1 := hle (‖dftPad (x.map (· ^ 4)) F m'‖ ^ 2) (List.mem_map.2 ⟨m', List.mem_range.2 hm', rfl⟩)
    rw [List.getElem?_map, List.getElem?_range hmF] at hv
    simp only [Option.map_some, Option.some.injEq] at hv
    rw [← hv] at h1
    have h2 := le_of_sq_le_sq h1 (norm_nonneg _)
    have h3 : ‖c * fan F (2 * Real.pi * (t - m') / F)‖ - ‖dftPad (x.map (· ^ 4)) F m'‖ ≤ S := by
      refine le_trans ?_ (hd m')
      rw [norm_sub_rev]
      exact norm_sub_norm_le _ _
    have h4 : ‖dftPad (x.map (· ^ 4)) F m‖ - ‖c * fan F (2 * Real.pi * (t - m) / F)‖ ≤ S := (norm_sub_norm_le _ _).trans (hd m)
    rw [norm_mul] at h3 h4
    have h5 : ‖c‖ * ‖fan F (2 * Real.pi * (t - m') / F)‖ ≤ ‖c‖ * (‖fan F (2 * Real.pi * (t - m) / F)‖ + F / 4) := by
      rw [mul_add]
      linarith
    exact le_of_mul_le_mul_left h5 hcn
  -- the nearest bin
  obtain ⟨m0, hm0⟩ : ∃ m0 : Nat, (m0 : ℤ) = round t % F := ⟨(round t % F).toNat, Int.toNat_of_nonneg (Int.emod_nonneg _ (by omega))⟩
  have hm0F : m0 < F := by
    have := Int.emod_lt_of_pos (round t) hFi
    omega
  have hq : (round t : ℝ) = m0 + F * ((round t / F : ℤ) : ℝ) := by
    have := Int.emod_add_mul_ediv (round t) F
    rw [← hm0] at this
    exact_mod_cast this.symm
  have h0 : ‖fan F (2 * Real.pi * (t - m0) / F)‖ = ‖fan F (2 * Real.pi * |t - round t| / F)‖ := by
    have e : 2 * Real.pi * |t - round t| / F = |2 * Real.pi * (t - m0) / F - ((round t / F : ℤ) : ℝ) * (2 * Real.pi)| := by
      have e2 : 2 * Real.pi * (t - m0) / F - ((round t / F : ℤ) : ℝ) * (2 * Real.pi) = 2 * Real.pi / F * (t - round t) := by
        rw [hq]
        field_simp
        ring
      rw [e2, abs_mul, abs_of_pos (show (0 : ℝ) < 2 * Real.pi / F by positivity)]
      ring
    rw [e, fan_abs, fan_periodic]
  have hr := abs_sub_round t
  -- the bin as a signed number
  obtain ⟨M, k0, hM, hM1, hM2, hMf⟩ : ∃ M k0 : ℤ, (m : ℤ) = M + k0 * F ∧ -(F : ℤ) ≤ 2 * M ∧ 2 * M ≤ F - 1 ∧ fftfreq F os m = M * os / F := by
    unfold fftfreq
    by_cases hlt : m < (F + 1) / 2
    · refine ⟨m, 0, by simp, by omega, by omega, ?_⟩
      rw [if_pos hlt]
      simp
    · refine ⟨(m : ℤ) - F, 1, by ring, by omega, by omega, ?_⟩
      rw [if_neg hlt]
      push_cast
      rfl
  have hMr : (m : ℝ) = M + k0 * F := by exact_mod_cast hM
  obtain ⟨j, hj⟩ : ∃ j : ℤ, j = round ((t - M) / F) := ⟨_, rfl⟩
  have hjr : |t - M - j * F| ≤ F / 2 := by
    have h1 := abs_sub_round ((t - M) / F)
    rw [← hj] at h1
    have h2 : t - M - j * F = F * ((t - M) / F - j) := by field_simp
    rw [h2, abs_mul, abs_of_pos hF0]
    nlinarith
  have h1 : ‖fan F (2 * Real.pi * (t - m) / F)‖ = ‖fan F (2 * Real.pi * |t - M - j * F| / F)‖ := by
    have e : 2 * Real.pi * |t - M - j * F| / F = |2 * Real.pi * (t - m) / F - ((j - k0 : ℤ) : ℝ) * (2 * Real.pi)| := by
      have e2 : 2 * Real.pi * (t - m) / F - ((j - k0 : ℤ) : ℝ) * (2 * Real.pi) = 2 * Real.pi / F * (t - M - j * F) := by
        rw [hMr]
        push_cast
        field_simp
        ring
      rw [e2, abs_mul, abs_of_pos (show (0 : ℝ) < 2 * Real.pi / F by positivity)]
      ring
    rw [e, fan_abs, fan_periodic]
  refine ⟨M, j, ?_, hM1, hM2, ?_⟩
  · unfold freqOffsetMode
    rw [hm]
    simp only [Option.map_some, hMf]
  · by_contra hgt
    push Not at hgt
    have h2 := hmax m0 hm0F
    rw [h0, h1] at h2
    have h3 := fan_main F (by omega) |t - round t| (abs_nonneg _) hr
    have h4 := fan_side F hF |t - M - j * F| hgt.le hjr
    have h5 : 2 * F / Real.pi ≤ (5 / 14 + 1 / 4) * F := by linarith
    rw [div_le_iff₀ hp] at h5
    have h6 := Real.pi_lt_d2
    nlinarith

/-- C166: on the grid of the transform the frequency offset is found exactly in spite of noise, as long as the fourth powers of the samples
in the transform deviate from a tone by less than half of it on average (at most by 1/2 in relation to the tone). -/
theorem C166_grid (sig : List (List ℂ)) (f os : ℝ) (fftSize : Nat) (average : Bool) (k : ℤ) (hos : 0 < os)
    (hk : 4 * f * (2 ^ Nat.clog 2 fftSize : ℝ) = k * os)
    (hk1 : -(2 ^ Nat.clog 2 fftSize : ℤ) ≤ 2 * k) (hk2 : 2 * k < (2 ^ Nat.clog 2 fftSize : ℤ))
    (hx : ∀ r ∈ sig, ∃ c : ℂ, 2 * ∑ n ∈ Finset.range (2 ^ Nat.clog 2 fftSize),
      ‖r.getD n 0 ^ 4 - c * Complex.exp (I * ((2 * Real.pi * n * (4 * f) / os : ℝ) : ℂ))‖ < 2 ^ Nat.clog 2 fftSize * ‖c‖) :
    ∃ est : List ℝ, findFreqOffset sig os average fftSize = some est ∧ est.length = sig.length ∧ ∀ e ∈ est, e = f := by
  obtain ⟨est, h1, h2, h3⟩ := findFreqOffset_of_modes sig f os 0 fftSize average (by
    intro r hr
    obtain ⟨c, hc⟩ := hx r hr
    obtain ⟨F, hF⟩ : ∃ F, F = 2 ^ Nat.clog 2 fftSize := ⟨_, rfl⟩
    have hF1 : 1 ≤ F := by rw [hF]; exact Nat.one_le_two_pow
    have hFr : (2 : ℝ) ^ Nat.clog 2 fftSize = F := by rw [hF]; push_cast; rfl
    have hFi : (2 : ℤ) ^ Nat.clog 2 fftSize = F := by rw [hF]; push_cast; rfl
    have hF0 : (0 : ℝ) < F := by exact_mod_cast hF1
    rw [hFr] at hk hc
    rw [hFi] at hk1 hk2
    rw [← hF] at hc ⊢
    have hfe : f = k * os / F / 4 := by field_simp; linarith
    refine ⟨_, freqOffsetMode_noisy_grid r c os F k hF1 hk1 hk2 ?_, by rw [← hfe, sub_self, abs_zero]⟩
    have e : ∀ n : Nat, 2 * Real.pi * n * (4 * f) / os = 2 * Real.pi * n * k / F := by
      intro n
      rw [hfe]
      field_simp
    simp only [e] at hc
    exact hc)
  exact ⟨est, h1, h2, fun e he => sub_eq_zero.1 (abs_nonpos_iff.1 (h3 e he))⟩

/-- C166: for every offset below the ambiguity limit the estimate is within one bin of the transform, as long as the fourth powers deviate
from a tone by at most an eighth on average. -/
theorem C166_one_bin (sig : List (List ℂ)) (f os : ℝ) (fftSize : Nat) (average : Bool) (hos : 0 < os) (hsize : 3 ≤ fftSize)
    (hf : |f| < os / 8 - os / (4 * 2 ^ Nat.clog 2 fftSize))
    (hx : ∀ r ∈ sig, ∃ c : ℂ, c ≠ 0 ∧ 8 * ∑ n ∈ Finset.range (2 ^ Nat.clog 2 fftSize),
      ‖r.getD n 0 ^ 4 - c * Complex.exp (I * ((2 * Real.pi * n * (4 * f) / os : ℝ) : ℂ))‖ ≤ 2 ^ Nat.clog 2 fftSize * ‖c‖) :
    ∃ est : List ℝ, findFreqOffset sig os average fftSize = some est ∧ est.length = sig.length ∧
      ∀ e ∈ est, |e - f| ≤ os / (4 * 2 ^ Nat.clog 2 fftSize) := by
  refine findFreqOffset_of_modes sig f os _ fftSize average fun r hr => ?_
  obtain ⟨c, hc0, hc⟩ := hx r hr
  have hcl : 2 ≤ Nat.clog 2 fftSize := by
    rw [show 2 = Nat.clog 2 3 by decide +kernel]
    exact Nat.clog_mono_right 2 hsize
  obtain ⟨F, hF⟩ : ∃ F, F = 2 ^ Nat.clog 2 fftSize := ⟨_, rfl⟩
  have hF4 : 4 ≤ F := by rw [hF]; exact Nat.pow_le_pow_right (n := 2) (by norm_num) hcl
  have hFr : (2 : ℝ) ^ Nat.clog 2 fftSize = F := by rw [hF]; push_cast; rfl
  have hF0 : (0 : ℝ) < F := by exact_mod_cast (by omega : 0 < F)
  rw [hFr] at hf hc ⊢
  rw [← hF] at hc ⊢
  have e : ∀ n : Nat, 2 * Real.pi * n * (4 * f) / os = 2 * Real.pi * n * (4 * f * F / os) / F := by
    intro n
    field_simp
  simp only [e] at hc
  obtain ⟨m, j, hm, h1, h2, h3⟩ := freqOffsetMode_noisy r c hc0 os F (4 * f * F / os) hF4 hc
  refine ⟨_, hm, ?_⟩
  have hmr1 : -(F : ℝ) ≤ 2 * m := by exact_mod_cast h1
  have hmr2 : 2 * (m : ℝ) ≤ F - 1 := by exact_mod_cast h2
  obtain ⟨hf1, hf2⟩ := abs_lt.1 hf
  have e3 : (os / 8 - os / (4 * F)) * F = (F / 8 - 1 / 4) * os := by field_simp
  have ht1 : 4 * f * F / os < F / 2 - 1 := by
    rw [div_lt_iff₀ hos]
    nlinarith
  have ht2 : -(F / 2 - 1) < 4 * f * F / os := by
    rw [lt_div_iff₀ hos]
    nlinarith
  obtain ⟨h3a, h3b⟩ := abs_le.1 h3
  have hj : j = 0 := by
    have hj1 : (j : ℝ) * F < 1 * F := by linarith
    have hj2 : (-1 : ℝ) * F < j * F := by linarith
    have a1 : (j : ℝ) < 1 := lt_of_mul_lt_mul_right hj1 hF0.le
    have a2 : (-1 : ℝ) < j := lt_of_mul_lt_mul_right hj2 hF0.le
    have b1 : j < 1 := by exact_mod_cast a1
    have b2 : -1 < j := by exact_mod_cast a2
    omega
  rw [hj] at h3
  simp only [Int.cast_zero, zero_mul, sub_zero] at h3
  have e4 : (m : ℝ) * os / F / 4 - f = -(os / (4 * F)) * (4 * f * F / os - m) := by
    field_simp
    ring
  rw [e4, abs_mul, abs_neg, abs_of_pos (show 0 < os / (4 * F) by positivity)]
  calc os / (4 * F) * |4 * f * F / os - m| ≤ os / (4 * F) * 1 := by gcongr
    _ = os / (4 * F) := by ring

/-- The fourth power of a noisy sample. -/
theorem pow_four_noise (s w : ℂ) (ε : ℝ) (hw : ‖w‖ ≤ ε * ‖s‖) : ‖(s + w) ^ 4 - s ^ 4‖ ≤ ((1 + ε) ^ 4 - 1) * ‖s‖ ^ 4 := by
  have e : (s + w) ^ 4 - s ^ 4 = 4 * s ^ 3 * w + 6 * s ^ 2 * w ^ 2 + 4 * s * w ^ 3 + w ^ 4 := by ring
  rw [e]
  have hs := norm_nonneg s
  have h0 := norm_nonneg w
  calc ‖4 * s ^ 3 * w + 6 * s ^ 2 * w ^ 2 + 4 * s * w ^ 3 + w ^ 4‖ ≤
        ‖4 * s ^ 3 * w‖ + ‖6 * s ^ 2 * w ^ 2‖ + ‖4 * s * w ^ 3‖ + ‖w ^ 4‖ := by
        refine (norm_add_le _ _).trans ?_
        gcongr
        refine (norm_add_le _ _).trans ?_
        gcongr
        exact norm_add_le _ _
    _ = 4 * ‖s‖ ^ 3 * ‖w‖ + 6 * ‖s‖ ^ 2 * ‖w‖ ^ 2 + 4 * ‖s‖ * ‖w‖ ^ 3 + ‖w‖ ^ 4 := by simp [norm_pow]
    _ ≤ 4 * ‖s‖ ^ 3 * (ε * ‖s‖) + 6 * ‖s‖ ^ 2 * (ε * ‖s‖) ^ 2 + 4 * ‖s‖ * (ε * ‖s‖) ^ 3 + (ε * ‖s‖) ^ 4 := by gcongr
    _ = _ := by ring

/-- A received QPSK sequence `r`: symbols `s` with fourth power `c`, turning with the offset `f`, with noise up to `ε` of the amplitude. -/
def NoisyQpsk (r : List ℂ) (f os ε : ℝ) : Prop :=
  ∃ c : ℂ, c ≠ 0 ∧ ∀ (n : Nat) (z : ℂ), r[n]? = some z → ∃ s w : ℂ, s ^ 4 = c ∧ ‖w‖ ≤ ε * ‖s‖ ∧
    z = s * Complex.exp (I * ((2 * Real.pi * n * f / os : ℝ) : ℂ)) + w

theorem noisyQpsk_sum (r : List ℂ) (f os ε : ℝ) (F : Nat) (hL : F ≤ r.length) (h : NoisyQpsk r f os ε) :
    ∃ c : ℂ, c ≠ 0 ∧ ∑ n ∈ Finset.range F, ‖r.getD n 0 ^ 4 - c * Complex.exp (I * ((2 * Real.pi * n * (4 * f) / os : ℝ) : ℂ))‖ ≤
      F * (((1 + ε) ^ 4 - 1) * ‖c‖) := by
  obtain ⟨c, hc, h⟩ := h
  refine ⟨c, hc, ?_⟩
  have hb : ∀ n ∈ Finset.range F, ‖r.getD n 0 ^ 4 - c * Complex.exp (I * ((2 * Real.pi * n * (4 * f) / os : ℝ) : ℂ))‖ ≤
      ((1 + ε) ^ 4 - 1) * ‖c‖ := by
    intro n hn
    have hl : n < r.length := lt_of_lt_of_le (Finset.mem_range.1 hn) hL
    obtain ⟨s, w, hs, hw, hz⟩ := h n _ (List.getElem?_eq_getElem hl)
    have hu : ‖s * Complex.exp (I * ((2 * Real.pi * n * f / os : ℝ) : ℂ))‖ = ‖s‖ := by
      rw [norm_mul, mul_comm I, Complex.norm_exp_ofReal_mul_I, mul_one]
    have h1 := pow_four_noise (s * Complex.exp (I * ((2 * Real.pi * n * f / os : ℝ) : ℂ))) w ε (by rw [hu]; exact hw)
    have e : (s * Complex.exp (I * ((2 * Real.pi * n * f / os : ℝ) : ℂ))) ^ 4 =
        c * Complex.exp (I * ((2 * Real.pi * n * (4 * f) / os : ℝ) : ℂ)) := by
      rw [mul_pow, hs, ← Complex.exp_nat_mul]
      congr 2
      push_cast
      ring
    rw [hu, ← hz, e, ← norm_pow, hs] at h1
    rw [List.getD_eq_getElem?_getD, List.getElem?_eq_getElem hl, Option.getD_some]
    exact h1
  refine (Finset.sum_le_sum hb).trans ?_
  rw [Finset.sum_const, Finset.card_range, nsmul_eq_mul]

/-- C166: QPSK with noise of up to a tenth of the amplitude in every sample: an offset on the grid is found exactly, the noise has no effect
at all on the estimate. -/
theorem C166_qpsk_grid (sig : List (List ℂ)) (f os : ℝ) (fftSize : Nat) (average : Bool) (k : ℤ) (hos : 0 < os)
    (hk : 4 * f * (2 ^ Nat.clog 2 fftSize : ℝ) = k * os)
    (hk1 : -(2 ^ Nat.clog 2 fftSize : ℤ) ≤ 2 * k) (hk2 : 2 * k < (2 ^ Nat.clog 2 fftSize : ℤ))
    (hx : ∀ r ∈ sig, 2 ^ Nat.clog 2 fftSize ≤ r.length ∧ NoisyQpsk r f os (1 / 10)) :
    ∃ est : List ℝ, findFreqOffset sig os average fftSize = some est ∧ est.length = sig.length ∧ ∀ e ∈ est, e = f := by
  refine C166_grid sig f os fftSize average k hos hk hk1 hk2 fun r hr => ?_
  obtain ⟨hl, hn⟩ := hx r hr
  obtain ⟨c, hc, h⟩ := noisyQpsk_sum r f os _ _ hl hn
  refine ⟨c, ?_⟩
  have hcn : 0 < ‖c‖ := norm_pos_iff.2 hc
  have hF : (0 : ℝ) < 2 ^ Nat.clog 2 fftSize := by positivity
  rw [Nat.cast_pow, Nat.cast_ofNat] at h
  have : 0 < (2 : ℝ) ^ Nat.clog 2 fftSize * ‖c‖ := by positivity
  nlinarith

/-- C166: QPSK with noise of up to 1/35 of the amplitude in every sample and any offset below the ambiguity limit: the estimate is within one
bin of the transform. -/
theorem C166_qpsk_one_bin (sig : List (List ℂ)) (f os : ℝ) (fftSize : Nat) (average : Bool) (hos : 0 < os) (hsize : 3 ≤ fftSize)
    (hf : |f| < os / 8 - os / (4 * 2 ^ Nat.clog 2 fftSize))
    (hx : ∀ r ∈ sig, 2 ^ Nat.clog 2 fftSize ≤ r.length ∧ NoisyQpsk r f os (1 / 35)) :
    ∃ est : List ℝ, findFreqOffset sig os average fftSize = some est ∧ est.length = sig.length ∧
      ∀ e ∈ est, |e - f| ≤ os / (4 * 2 ^ Nat.clog 2 fftSize) := by
  refine C166_one_bin sig f os fftSize average hos hsize hf fun r hr => ?_
  obtain ⟨hl, hn⟩ := hx r hr
  obtain ⟨c, hc, h⟩ := noisyQpsk_sum r f os _ _ hl hn
  refine ⟨c, hc, ?_⟩
  have hcn : 0 < ‖c‖ := norm_pos_iff.2 hc
  rw [Nat.cast_pow, Nat.cast_ofNat] at h
  have : 0 < (2 : ℝ) ^ Nat.clog 2 fftSize * ‖c‖ := by positivity
  nlinarith

/-- Four samples of QPSK with noise on some of them. -/
theorem noisyQpsk_four (f os ε : ℝ) (hε : 1 / 40 ≤ ε) : NoisyQpsk ([1, I, -1, -I].mapIdx fun (n : Nat) s =>
    s * Complex.exp (I * ((2 * Real.pi * n * f / os : ℝ) : ℂ)) + if n = 2 then 0 else 1 / 40) f os ε := by
  have h4 : I ^ 4 = 1 := by rw [show (4 : Nat) = 2 * 2 by norm_num, pow_mul, Complex.I_sq]; norm_num
  refine ⟨1, one_ne_zero, ?_⟩
  intro n z hz
  rw [List.getElem?_mapIdx] at hz
  obtain ⟨s, hs, rfl⟩ := Option.map_eq_some_iff.1 hz
  refine ⟨s, if n = 2 then 0 else 1 / 40, ?_, ?_, rfl⟩ <;>
    have hm := List.mem_of_getElem? hs <;>
    simp only [List.mem_cons, List.not_mem_nil, or_false] at hm
  · rcases hm with rfl | rfl | rfl | rfl <;> first | exact h4 | (rw [Even.neg_pow (by decide), h4]) | norm_num
  · have : ‖s‖ = 1 := by rcases hm with rfl | rfl | rfl | rfl <;> simp
    rw [this, mul_one]
    refine le_trans ?_ hε
    split <;> norm_num

/-- An offset of 1/16 of the symbol rate under noise. -/
example : ∃ est : List ℝ, findFreqOffset [[1, I, -1, -I].mapIdx fun (n : Nat) s =>
    s * Complex.exp (I * ((2 * Real.pi * n * (1 / 16) / 1 : ℝ) : ℂ)) + if n = 2 then 0 else 1 / 40] 1 true 4 = some est ∧ est.length = 1 ∧
      ∀ e ∈ est, e = 1 / 16 := by
  have hc : Nat.clog 2 4 = 2 := by decide +kernel
  refine C166_qpsk_grid _ (1 / 16) 1 4 true 1 one_pos (by rw [hc]; norm_num) (by rw [hc]; norm_num) (by rw [hc]; norm_num) ?_
  intro r hr
  obtain rfl := List.mem_singleton.1 hr
  exact ⟨by rw [hc]; simp, noisyQpsk_four _ _ _ (by norm_num)⟩

/-- An offset between the bins. -/
example : ∃ est : List ℝ, findFreqOffset [[1, I, -1, -I].mapIdx fun (n : Nat) s =>
    s * Complex.exp (I * ((2 * Real.pi * n * (1 / 50) / 1 : ℝ) : ℂ)) + if n = 2 then 0 else 1 / 40] 1 true 4 = some est ∧ est.length = 1 ∧
      ∀ e ∈ est, |e - 1 / 50| ≤ 1 / (4 * 4) := by
  have hc : Nat.clog 2 4 = 2 := by decide +kernel
  have h := C166_qpsk_one_bin [[1, I, -1, -I].mapIdx fun (n : Nat) s =>
    s * Complex.exp (I * ((2 * Real.pi * n * (1 / 50) / 1 : ℝ) : ℂ)) + if n = 2 then 0 else 1 / 40] (1 / 50) 1 4 true one_pos (by norm_num)
    (by rw [hc, abs_of_pos] <;> norm_num) (by
      intro r hr
      obtain rfl := List.mem_singleton.1 hr
      exact ⟨by rw [hc]; simp, noisyQpsk_four _ _ _ (by norm_num)⟩)
  rw [hc] at h
  norm_num at h ⊢
  exact h

end Qampy
