import Verif.Props.Carrier

/-!
# Frequency offsets between the bins of the transform: C157
-/

namespace Qampy

open Complex (I)

/-- A sum of `K` unit vectors turning by `d`. -/
noncomputable def fan (K : Nat) (d : ℝ) : ℂ := ∑ n ∈ Finset.range K, Complex.exp (I * (d : ℂ)) ^ n

theorem fan_neg (K : Nat) (d : ℝ) : ‖fan K (-d)‖ = ‖fan K d‖ := by
  have : fan K (-d) = (starRingEnd ℂ) (fan K d) := by
    unfold fan
    rw [map_sum]
    apply Finset.sum_congr rfl
    intro n _
    rw [map_pow, ← Complex.exp_conj]
    simp
  rw [this, Complex.norm_conj]

theorem fan_abs (K : Nat) (d : ℝ) : ‖fan K |d|‖ = ‖fan K d‖ := by
  rcases abs_choice d with h | h <;> rw [h]
  exact fan_neg K d

theorem fan_periodic (K : Nat) (d : ℝ) (j : ℤ) : fan K (d - j * (2 * Real.pi)) = fan K d := by
  unfold fan
  have : Complex.exp (I * ((d - j * (2 * Real.pi) : ℝ) : ℂ)) = Complex.exp (I * (d : ℂ)) := by
    rw [Complex.exp_eq_exp_iff_exists_int]
    refine ⟨-j, ?_⟩
    push_cast
    ring
  rw [this]

/-- The squared norm as a sum of cosines. -/
theorem fan_sq (K : Nat) (d : ℝ) : ‖fan K d‖ ^ 2 = ∑ a ∈ Finset.range K, ∑ b ∈ Finset.range K, Real.cos (((a : ℝ) - b) * d) := by
  have h1 : ((‖fan K d‖ ^ 2 : ℝ) : ℂ) = fan K d * (starRingEnd ℂ) (fan K d) := by
    rw [Complex.mul_conj, Complex.normSq_eq_norm_sq]
  have h2 : fan K d * (starRingEnd ℂ) (fan K d) =
      ∑ a ∈ Finset.range K, ∑ b ∈ Finset.range K, Complex.exp (((((a : ℝ) - b) * d : ℝ) : ℂ) * I) := by
    unfold fan
    rw [map_sum, Finset.sum_mul_sum]
    apply Finset.sum_congr rfl
    intro a _
    apply Finset.sum_congr rfl
    intro b _
    rw [map_pow, ← Complex.exp_conj, ← Complex.exp_nat_mul, ← Complex.exp_nat_mul, ← Complex.exp_add]
    congr 1
    simp only [map_mul, Complex.conj_I, Complex.conj_ofReal]
    push_cast
    ring
  have h3 := congrArg Complex.re (h1.trans h2)
  rw [Complex.ofReal_re] at h3
  rw [h3]
  simp only [Complex.re_sum, Complex.exp_ofReal_mul_I_re]

/-- Near the maximum the length decreases with the angle. -/
theorem fan_near (K : Nat) (hK : 2 ≤ K) (a b : ℝ) (ha : 0 ≤ a) (hab : a < b) (hb : b ≤ Real.pi / K) : ‖fan K b‖ ^ 2 < ‖fan K a‖ ^ 2 := by
  have hK0 : (0 : ℝ) < K := by exact_mod_cast (by omega : 0 < K)
  have hbK : K * b ≤ Real.pi := by
    have := (le_div_iff₀ hK0).1 hb
    linarith
  have hterm : ∀ i j : Nat, i < K → j < K → Real.cos (((i : ℝ) - j) * b) ≤ Real.cos (((i : ℝ) - j) * a) := by
    intro i j hi hj
    have hiK : (i : ℝ) < K := by exact_mod_cast hi
    have hjK : (j : ℝ) < K := by exact_mod_cast hj
    have hi0 : (0 : ℝ) ≤ i := Nat.cast_nonneg i
    have hj0 : (0 : ℝ) ≤ j := Nat.cast_nonneg j
    have hm : |(i : ℝ) - j| ≤ K := by rw [abs_le]; constructor <;> linarith
    rw [← Real.cos_abs (((i : ℝ) - j) * b), ← Real.cos_abs (((i : ℝ) - j) * a), abs_mul, abs_mul, abs_of_nonneg ha,
      abs_of_nonneg (ha.trans hab.le)]
    apply Real.cos_le_cos_of_nonneg_of_le_pi
    · exact mul_nonneg (abs_nonneg _) ha
    · exact (mul_le_mul_of_nonneg_right hm (ha.trans hab.le)).trans hbK
    · exact mul_le_mul_of_nonneg_left hab.le (abs_nonneg _)
  rw [fan_sq, fan_sq]
  apply Finset.sum_lt_sum
  · intro i hi
    exact Finset.sum_le_sum fun j hj => hterm i j (Finset.mem_range.1 hi) (Finset.mem_range.1 hj)
  · refine ⟨1, Finset.mem_range.2 (by omega), ?_⟩
    apply Finset.sum_lt_sum
    · intro j hj
      exact hterm 1 j (by omega) (Finset.mem_range.1 hj)
    · refine ⟨0, Finset.mem_range.2 (by omega), ?_⟩
      simp only [Nat.cast_one, Nat.cast_zero, sub_zero, one_mul]
      apply Real.cos_lt_cos_of_nonneg_of_le_pi ha _ hab
      refine hb.trans (div_le_self Real.pi_pos.le ?_)
      exact_mod_cast (by omega : 1 ≤ K)

theorem fan_mul (K : Nat) (d : ℝ) : fan K d * (Complex.exp (I * (d : ℂ)) - 1) = Complex.exp (I * ((K * d : ℝ) : ℂ)) - 1 := by
  unfold fan
  rw [geom_sum_mul, ← Complex.exp_nat_mul]
  congr 2
  push_cast
  ring

theorem chord_sq (d : ℝ) : ‖Complex.exp (I * (d : ℂ)) - 1‖ = 2 * |Real.sin (d / 2)| := by
  rw [Complex.norm_exp_I_mul_ofReal_sub_one]
  simp [Real.norm_eq_abs]

/-- The length of the fan away from the maximum. -/
theorem fan_far (K : Nat) (hK : 2 ≤ K) (b : ℝ) (hb : Real.pi / K < b) (hbp : b ≤ Real.pi) : ‖fan K b‖ < ‖fan K (Real.pi / K)‖ := by
  have hK0 : (0 : ℝ) < K := by exact_mod_cast (by omega : 0 < K)
  have hp := Real.pi_pos
  have hq : 0 < Real.pi / K := div_pos hp hK0
  have hs0 : 0 < Real.sin (Real.pi / K / 2) := by
    apply Real.sin_pos_of_pos_of_lt_pi (by linarith)
    linarith
  have hs1 : Real.sin (Real.pi / K / 2) < Real.sin (b / 2) :=
    Real.sin_lt_sin_of_lt_of_le_pi_div_two (by linarith) (by linarith) (by linarith)
  have hsb := hs0.trans hs1
  have h1 := congrArg norm (fan_mul K b)
  have h2 := congrArg norm (fan_mul K (Real.pi / K))
  rw [norm_mul, chord_sq, chord_sq, abs_of_pos hsb] at h1
  rw [norm_mul, chord_sq, chord_sq, abs_of_pos hs0] at h2
  have h3 : (K : ℝ) * (Real.pi / K) / 2 = Real.pi / 2 := by field_simp
  rw [h3, Real.sin_pi_div_two, abs_one] at h2
  have h4 := Real.abs_sin_le_one (K * b / 2)
  by_contra hc
  push Not at hc
  have h5 : ‖fan K (Real.pi / K)‖ * (2 * Real.sin (b / 2)) ≤ 2 * 1 := by
    calc _ ≤ ‖fan K b‖ * (2 * Real.sin (b / 2)) := mul_le_mul_of_nonneg_right hc (by linarith)
      _ = 2 * |Real.sin (K * b / 2)| := h1
      _ ≤ 2 * 1 := by linarith
  have h6 : 0 < ‖fan K (Real.pi / K)‖ := by
    by_contra h0
    have : ‖fan K (Real.pi / K)‖ = 0 := le_antisymm (not_lt.1 h0) (norm_nonneg _)
    rw [this] at h2
    linarith
  nlinarith

/-- The smaller angle gives the longer sum. -/
theorem fan_lt (K : Nat) (hK : 2 ≤ K) (a b : ℝ) (ha : 0 ≤ a) (haK : a ≤ Real.pi / K) (hab : a < b) (hb : b ≤ Real.pi) :
    ‖fan K b‖ < ‖fan K a‖ := by
  have key : ∀ c, a < c → c ≤ Real.pi / K → ‖fan K c‖ < ‖fan K a‖ := fun c h1 h2 =>
    lt_of_pow_lt_pow_left₀ 2 (norm_nonneg _) (fan_near K hK a c ha h1 h2)
  by_cases hbK : b ≤ Real.pi / K
  · exact key b hab hbK
  · refine lt_of_lt_of_le (fan_far K hK b (not_le.1 hbK) hb) ?_
    rcases haK.eq_or_lt with h | h
    · rw [h]
    · exact (key _ h le_rfl).le

theorem dftPad_fan (x : List ℂ) (c : ℂ) (t : ℝ) (F m : Nat)
    (hx : ∀ (n : Nat) (z : ℂ), x[n]? = some z → z = c * Complex.exp (I * ((2 * Real.pi * n * t / F : ℝ) : ℂ))) :
    dftPad x F m = c * fan (min x.length F) (2 * Real.pi * (t - m) / F) := by
  unfold dftPad fan
  rw [← Finset.sum_subset (Finset.range_subset_range.2 (min_le_right x.length F)), Finset.mul_sum]
  · apply Finset.sum_congr rfl
    intro n hn
    have hn := Finset.mem_range.1 hn
    have hl : n < x.length := by omega
    have h1 := hx n _ (List.getElem?_eq_getElem hl)
    rw [List.getD_eq_getElem?_getD, List.getElem?_eq_getElem hl, Option.getD_some, h1, mul_assoc, ← Complex.exp_add,
      ← Complex.exp_nat_mul]
    congr 2
    push_cast
    ring
  · intro n hn hn2
    have h1 := Finset.mem_range.1 hn
    have h2 : ¬ n < min x.length F := fun h => hn2 (Finset.mem_range.2 h)
    rw [List.getD_eq_getElem?_getD, List.getElem?_eq_none (by omega)]
    simp

/-- One mode: the bin found is one of those nearest to the tone, counted around the circle of the frequencies. -/
theorem freqOffsetMode_near (x : List ℂ) (c : ℂ) (hc : c ≠ 0) (os : ℝ) (F : Nat) (t : ℝ) (hF : 2 ≤ F)
    (hx : ∀ (n : Nat) (z : ℂ), x[n]? = some z → z ^ 4 = c * Complex.exp (I * ((2 * Real.pi * n * t / F : ℝ) : ℂ)))
    (hL : 2 ≤ x.length) :
    ∃ m j : ℤ, freqOffsetMode x os F = some (m * os / F / 4) ∧ -(F : ℤ) ≤ 2 * m ∧ 2 * m ≤ F - 1 ∧ |t - m - j * F| ≤ 1 / 2 := by
  have hx4 : ∀ (n : Nat) (z : ℂ), (x.map (· ^ 4))[n]? = some z → z = c * Complex.exp (I * ((2 * Real.pi * n * t / F : ℝ) : ℂ)) := by
    intro n z hz
    rw [List.getElem?_map] at hz
    obtain ⟨y, hy, rfl⟩ := Option.map_eq_some_iff.1 hz
    exact hx n y hy
  obtain ⟨K, hKe⟩ : ∃ K, K = min (x.map (· ^ 4)).length F := ⟨_, rfl⟩
  have hK2 : 2 ≤ K := by rw [hKe, List.length_map]; omega
  have hKF : K ≤ F := by rw [hKe]; exact min_le_right _ _
  have hd := fun m => dftPad_fan (x.map (· ^ 4)) c t F m hx4
  simp only [← hKe] at hd
  have hF0 : (0 : ℝ) < F := by exact_mod_cast (by omega : 0 < F)
  have hK0 : (0 : ℝ) < K := by exact_mod_cast (by omega : 0 < K)
  have hFi : (0 : ℤ) < F := by omega
  have hp := Real.pi_pos
  have hcn : 0 < ‖c‖ := norm_pos_iff.2 hc
  -- the bin found
  have hlen : ((List.range F).map fun m => ‖dftPad (x.map (· ^ 4)) F m‖ ^ 2).length = F := by simp
  obtain ⟨m, hm⟩ : ∃ m, Np.argmax ((List.range F).map fun m => ‖dftPad (x.map (· ^ 4)) F m‖ ^ 2) = some m := by
    apply Np.argmax_isSome
    intro h0
    have := congrArg List.length h0
    rw [hlen] at this
    simp at this
    omega
  have hmF : m < F := by have := Np.argmax_lt hm; rwa [hlen] at this
  have hmax : ∀ m' : Nat, m' < F → ‖fan K (2 * Real.pi * (t - m') / F)‖ ≤ ‖fan K (2 * Real.pi * (t - m) / F)‖ := by
    intro m' hm'
    obtain ⟨v, hv, hle, _⟩ := Np.argmax_spec hm
    have h1 := hle (‖dftPad (x.map (· ^ 4)) F m'‖ ^ 2) (List.mem_map.2 ⟨m', List.mem_range.2 hm', rfl⟩)
    rw [List.getElem?_map, List.getElem?_range hmF] at hv
    simp only [Option.map_some, Option.some.injEq] at hv
    rw [← hv] at h1
    have h2 := le_of_sq_le_sq h1 (norm_nonneg _)
    rw [hd, hd, norm_mul, norm_mul] at h2
    exact le_of_mul_le_mul_left h2 hcn
  -- the nearest bin
  obtain ⟨m0, hm0⟩ : ∃ m0 : Nat, (m0 : ℤ) = round t % F := ⟨(round t % F).toNat, Int.toNat_of_nonneg (Int.emod_nonneg _ (by omega))⟩
  have hm0F : m0 < F := by
    have := Int.emod_lt_of_pos (round t) hFi
    omega
  have hq : (round t : ℝ) = m0 + F * ((round t / F : ℤ) : ℝ) := by
    have := Int.emod_add_mul_ediv (round t) F
    rw [← hm0] at this
    exact_mod_cast this.symm
  have h0 : ‖fan K (2 * Real.pi * (t - m0) / F)‖ = ‖fan K (2 * Real.pi * |t - round t| / F)‖ := by
    have e : 2 * Real.pi * |t - round t| / F = |2 * Real.pi * (t - m0) / F - ((round t / F : ℤ) : ℝ) * (2 * Real.pi)| := by
      have e2 : 2 * Real.pi * (t - m0) / F - ((round t / F : ℤ) : ℝ) * (2 * Real.pi) = 2 * Real.pi / F * (t - round t) := by
        rw [hq]
        field_simp
        ring
      rw [e2, abs_mul, abs_of_pos (show (0 : ℝ) < 2 * Real.pi / F by positivity)]
      ring
    rw [e, fan_abs, fan_periodic]
  have hr := abs_sub_round t
  -- the bin as a signed number
  obtain ⟨M, k0, hM, hM1, hM2, hMf⟩ : ∃ M k0 : ℤ, (m : ℤ) = M + k0 * F ∧ -(F : ℤ) ≤ 2 * M ∧ 2 * M ≤ F - 1 ∧ fftfreq F os m = M * os / F := by
    unfold fftfreq
    by_cases hlt : m < (F + 1) / 2
    · refine ⟨m, 0, by simp, by omega, by omega, ?_⟩
      rw [if_pos hlt]
      simp
    · refine ⟨(m : ℤ) - F, 1, by ring, by omega, by omega, ?_⟩
      rw [if_neg hlt]
      push_cast
      rfl
  have hMr : (m : ℝ) = M + k0 * F := by exact_mod_cast hM
  obtain ⟨j, hj⟩ : ∃ j : ℤ, j = round ((t - M) / F) := ⟨_, rfl⟩
  have hjr : |t - M - j * F| ≤ F / 2 := by
    have h1 := abs_sub_round ((t - M) / F)
    rw [← hj] at h1
    have h2 : t - M - j * F = F * ((t - M) / F - j) := by field_simp
    rw [h2, abs_mul, abs_of_pos hF0]
    nlinarith
  have h1 : ‖fan K (2 * Real.pi * (t - m) / F)‖ = ‖fan K (2 * Real.pi * |t - M - j * F| / F)‖ := by
    have e : 2 * Real.pi * |t - M - j * F| / F = |2 * Real.pi * (t - m) / F - ((j - k0 : ℤ) : ℝ) * (2 * Real.pi)| := by
      have e2 : 2 * Real.pi * (t - m) / F - ((j - k0 : ℤ) : ℝ) * (2 * Real.pi) = 2 * Real.pi / F * (t - M - j * F) := by
        rw [hMr]
        push_cast
        field_simp
        ring
      rw [e2, abs_mul, abs_of_pos (show (0 : ℝ) < 2 * Real.pi / F by positivity)]
      ring
    rw [e, fan_abs, fan_periodic]
  refine ⟨M, j, ?_, hM1, hM2, ?_⟩
  · unfold freqOffsetMode
    rw [hm]
    simp only [Option.map_some, hMf]
  · refine le_trans ?_ hr
    by_contra hgt
    push Not at hgt
    have h2 := hmax m0 hm0F
    rw [h0, h1] at h2
    refine absurd (fan_lt K hK2 (2 * Real.pi * |t - round t| / F) (2 * Real.pi * |t - M - j * F| / F) (by positivity) ?_ ?_ ?_) (not_lt.2 h2)
    · calc 2 * Real.pi * |t - round t| / F ≤ 2 * Real.pi * (1 / 2) / F := by gcongr
        _ = Real.pi / F := by ring
        _ ≤ Real.pi / K := by gcongr
    · gcongr
    · calc 2 * Real.pi * |t - M - j * F| / F ≤ 2 * Real.pi * (F / 2) / F := by gcongr
        _ = Real.pi := by field_simp

/-- C157: the frequency offset of a signal whose fourth power is a tone (QPSK of any symbols and any phase, without noise), of any offset
`f` below the ambiguity limit: the estimate is within half a bin of the transform of the offset, for every length of the signal. -/
theorem C157_half_bin (sig : List (List ℂ)) (f os : ℝ) (fftSize : Nat) (average : Bool) (hos : 0 < os) (hsize : 2 ≤ fftSize)
    (hf : |f| < os / 8 - os / (8 * 2 ^ Nat.clog 2 fftSize))
    (hx : ∀ r ∈ sig, 2 ≤ r.length ∧ ∃ c : ℂ, c ≠ 0 ∧
      ∀ (n : Nat) (z : ℂ), r[n]? = some z → z ^ 4 = c * Complex.exp (I * ((2 * Real.pi * n * (4 * f) / os : ℝ) : ℂ))) :
    ∃ est : List ℝ, findFreqOffset sig os average fftSize = some est ∧ est.length = sig.length ∧
      ∀ e ∈ est, |e - f| ≤ os / (8 * 2 ^ Nat.clog 2 fftSize) := by
  obtain ⟨F, hF⟩ : ∃ F, F = 2 ^ Nat.clog 2 fftSize := ⟨_, rfl⟩
  have hF2 : 2 ≤ F := by rw [hF]; exact le_trans hsize (Nat.le_pow_clog (by norm_num) _)
  have hFr : (2 : ℝ) ^ Nat.clog 2 fftSize = F := by rw [hF]; push_cast; rfl
  have hF0 : (0 : ℝ) < F := by exact_mod_cast (by omega : 0 < F)
  rw [hFr] at hf ⊢
  have hmode : ∀ r ∈ sig, ∃ e : ℝ, freqOffsetMode r os F = some e ∧ |e - f| ≤ os / (8 * F) := by
    intro r hr
    obtain ⟨hl, c, hc, hz⟩ := hx r hr
    obtain ⟨m, j, hm, h1, h2, h3⟩ := freqOffsetMode_near r c hc os F (4 * f * F / os) hF2 (by
      intro n z hnz
      rw [hz n z hnz]
      congr 4
      field_simp) hl
    refine ⟨_, hm, ?_⟩
    have hmr1 : -(F : ℝ) ≤ 2 * m := by exact_mod_cast h1
    have hmr2 : 2 * (m : ℝ) ≤ F - 1 := by exact_mod_cast h2
    obtain ⟨hf1, hf2⟩ := abs_lt.1 hf
    have ht1 : 4 * f * F / os < F / 2 - 1 / 2 := by
      rw [div_lt_iff₀ hos]
      have : (os / 8 - os / (8 * F)) * F = (F / 8 - 1 / 8) * os := by field_simp
      nlinarith
    have ht2 : -(F / 2 - 1 / 2) < 4 * f * F / os := by
      rw [lt_div_iff₀ hos]
      have : (os / 8 - os / (8 * F)) * F = (F / 8 - 1 / 8) * os := by field_simp
      nlinarith
    obtain ⟨h3a, h3b⟩ := abs_le.1 h3
    have hj : j = 0 := by
      have hj1 : (j : ℝ) * F < 1 * F := by linarith
      have hj2 : (-1 : ℝ) * F < j * F := by linarith
      have a1 : (j : ℝ) < 1 := lt_of_mul_lt_mul_right hj1 hF0.le
      have a2 : (-1 : ℝ) < j := lt_of_mul_lt_mul_right hj2 hF0.le
      have b1 : j < 1 := by exact_mod_cast a1
      have b2 : -1 < j := by exact_mod_cast a2
      omega
    rw [hj] at h3
    simp only [Int.cast_zero, zero_mul, sub_zero] at h3
    have e : (m : ℝ) * os / F / 4 - f = -(os / (4 * F)) * (4 * f * F / os - m) := by
      field_simp
      ring
    rw [e, abs_mul, abs_neg, abs_of_pos (show 0 < os / (4 * F) by positivity)]
    calc os / (4 * F) * |4 * f * F / os - m| ≤ os / (4 * F) * (1 / 2) := by gcongr
      _ = os / (8 * F) := by ring
  obtain ⟨g, hg⟩ : ∃ g : List ℂ → ℝ, ∀ r ∈ sig, freqOffsetMode r os F = some (g r) ∧ |g r - f| ≤ os / (8 * F) := by
    classical
    refine ⟨fun r => if h : r ∈ sig then (hmode r h).choose else 0, ?_⟩
    intro r hr
    simp only [hr, dif_pos]
    exact (hmode r hr).choose_spec
  have hmap : sig.mapM (fun x => freqOffsetMode x os F) = some (sig.map g) := by
    rw [mapM_eq_some_iff, List.map_map]
    exact List.map_congr_left fun r hr => (hg r hr).1
  unfold findFreqOffset
  rw [← hF, hmap]
  simp only [Option.bind_eq_bind, Option.bind_some, Option.some.injEq]
  refine ⟨_, rfl, ?_, ?_⟩
  · cases average <;> simp
  · cases average with
    | false =>
      intro e he
      simp only [Bool.false_eq_true, if_false] at he
      obtain ⟨r, hr, rfl⟩ := List.mem_map.1 he
      exact (hg r hr).2
    | true =>
      intro e he
      simp only [if_true, List.mem_map, List.length_map] at he
      obtain ⟨_, ⟨r, hr, _⟩, rfl⟩ := he
      have hn : (0 : ℝ) < sig.length := by exact_mod_cast List.length_pos_of_mem hr
      have hsum : ∀ l : List (List ℂ), (∀ r ∈ l, |g r - f| ≤ os / (8 * F)) → |(l.map g).sum - l.length * f| ≤ l.length * (os / (8 * F)) := by
        intro l
        induction l with
        | nil => simp
        | cons a l ih =>
          intro h
          have h1 := ih fun r hr => h r (List.mem_cons_of_mem _ hr)
          have h2 := h a List.mem_cons_self
          simp only [List.map_cons, List.sum_cons, List.length_cons]
          push_cast
          have e : g a + (l.map g).sum - ((l.length : ℝ) + 1) * f = (g a - f) + ((l.map g).sum - l.length * f) := by ring
          rw [e]
          refine (abs_add_le _ _).trans ?_
          linarith
      have h1 := hsum sig fun r hr => (hg r hr).2
      have e : (sig.map g).sum / sig.length - f = ((sig.map g).sum - sig.length * f) / sig.length := by field_simp
      rw [e, abs_div, abs_of_pos hn, div_le_iff₀ hn]
      linarith

/-- C157: what is left of an offset put on a QPSK signal after finding and compensating it: a rotation of at most `2π/(8F)` per sample,
that is by less than an eighth of a turn over the `F` samples of the transform. -/
theorem C157_residual (sig : List (List ℂ)) (fo fs os : ℝ) (fftSize : Nat) (average : Bool) (hos : 0 < os) (hsize : 2 ≤ fftSize)
    (hf : |fo / fs * os| < os / 8 - os / (8 * 2 ^ Nat.clog 2 fftSize))
    (hx : ∀ r ∈ sig, 2 ≤ r.length ∧ ∃ c : ℂ, c ≠ 0 ∧ ∀ z ∈ r, z ^ 4 = c) :
    ∃ (est : List ℝ) (out : List (List ℂ)),
      findFreqOffset (sig.map fun r => addCarrierOffset r fo fs) os average fftSize = some est ∧
      compFreqOffset (sig.map fun r => addCarrierOffset r fo fs) est os = .ok out ∧ out.length = sig.length ∧
      ∀ (l : Nat) (r o : List ℂ), sig[l]? = some r → out[l]? = some o → o.length = r.length ∧
        ∃ (a b : ℝ), |b| ≤ Real.pi / (4 * 2 ^ Nat.clog 2 fftSize) ∧
          ∀ (n : Nat) (z : ℂ), r[n]? = some z → o[n]? = some (z * Complex.exp (I * ((a + b * n : ℝ) : ℂ))) := by
  obtain ⟨est, h1, h2, h3⟩ := C157_half_bin (sig.map fun r => addCarrierOffset r fo fs) (fo / fs * os) os fftSize average hos hsize hf (by
    intro r hr
    obtain ⟨r0, hr0, rfl⟩ := List.mem_map.1 hr
    obtain ⟨hl, c, hc, hz⟩ := hx r0 hr0
    refine ⟨by simpa [addCarrierOffset] using hl, c, hc, ?_⟩
    intro n z hnz
    simp only [addCarrierOffset, List.getElem?_mapIdx] at hnz
    obtain ⟨y, hy, rfl⟩ := Option.map_eq_some_iff.1 hnz
    rw [mul_pow, hz y (List.mem_of_getElem? hy), ← Complex.exp_nat_mul]
    congr 2
    have : (os : ℂ) ≠ 0 := by exact_mod_cast hos.ne'
    push_cast
    field_simp)
  rw [List.length_map] at h2
  have hc := compFreqOffset_eq (sig.map fun r => addCarrierOffset r fo fs) est os (by simp [h2])
  refine ⟨est, _, h1, hc, by simp [h2], ?_⟩
  intro l r o hr ho
  have hll : l < sig.length := by
    by_contra hge
    rw [List.getElem?_eq_none (by omega)] at hr
    cases hr
  obtain ⟨e, he⟩ : ∃ e, est[l]? = some e := ⟨_, List.getElem?_eq_getElem (by omega)⟩
  rw [List.getElem?_zipWith, List.getElem?_map, hr, he] at ho
  simp only [Option.map_some, Option.some.injEq] at ho
  subst ho
  refine ⟨by simp [addCarrierOffset], -(2 * Real.pi * e / os), 2 * Real.pi / os * (fo / fs * os - e), ?_, ?_⟩
  · have h4 := h3 e (List.mem_of_getElem? he)
    rw [abs_sub_comm] at h4
    have hp := Real.pi_pos
    rw [abs_mul, abs_of_pos (show 0 < 2 * Real.pi / os by positivity)]
    calc 2 * Real.pi / os * |fo / fs * os - e| ≤ 2 * Real.pi / os * (os / (8 * 2 ^ Nat.clog 2 fftSize)) := by gcongr
      _ = Real.pi / (4 * 2 ^ Nat.clog 2 fftSize) := by
        field_simp
        norm_num
  · intro n z hz
    simp only [addCarrierOffset, List.getElem?_mapIdx, hz, Option.map_some, Option.some.injEq]
    rw [mul_assoc, ← Complex.exp_add]
    congr 2
    have : (os : ℂ) ≠ 0 := by exact_mod_cast hos.ne'
    push_cast
    field_simp
    ring

/-- A QPSK signal with an offset of 0.07 of the symbol rate, which is not on the grid of the 8 point transform. -/
example : ∃ est : List ℝ, findFreqOffset ([[1, I, -1, -I, I, 1], [I, I, 1, 1, -1, -I]].map fun r => addCarrierOffset r (7 / 100) 1) 1 true 8 =
    some est ∧ est.length = 2 ∧ ∀ e ∈ est, |e - 7 / 100| ≤ 1 / 64 := by
  have hc : Nat.clog 2 8 = 3 := by decide +kernel
  have h := C157_half_bin ([[1, I, -1, -I, I, 1], [I, I, 1, 1, -1, -I]].map fun r => addCarrierOffset r (7 / 100) 1) (7 / 100) 1 8 true
    one_pos (by norm_num) (by rw [hc, abs_of_pos] <;> norm_num) (by
      intro r hr
      obtain ⟨r0, hr0, rfl⟩ := List.mem_map.1 hr
      have h4 : I ^ 4 = 1 := by rw [show (4 : Nat) = 2 * 2 by norm_num, pow_mul, Complex.I_sq]; norm_num
      have hall : 2 ≤ r0.length ∧ ∀ z ∈ r0, z ^ 4 = 1 := by
        simp only [List.mem_cons, List.not_mem_nil, or_false] at hr0
        rcases hr0 with rfl | rfl <;> refine ⟨by simp, ?_⟩ <;> intro z hz <;>
          simp only [List.mem_cons, List.not_mem_nil, or_false] at hz <;>
          rcases hz with rfl | rfl | rfl | rfl | rfl | rfl <;> first | exact h4 | (rw [Even.neg_pow (by decide), h4]) | norm_num
      refine ⟨by simpa [addCarrierOffset] using hall.1, 1, one_ne_zero, ?_⟩
      intro n z hnz
      simp only [addCarrierOffset, List.getElem?_mapIdx] at hnz
      obtain ⟨y, hy, rfl⟩ := Option.map_eq_some_iff.1 hnz
      rw [mul_pow, hall.2 y (List.mem_of_getElem? hy), ← Complex.exp_nat_mul]
      congr 2
      push_cast
      ring)
  rw [hc] at h
  norm_num at h ⊢
  exact h

end Qampy
