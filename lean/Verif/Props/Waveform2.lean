import Verif.Props.Quantise

/-!
Converter noise (C101), scaling to a given swing (C102), normalisation on pilots (C103), extinction ratio (C104).
-/

namespace Qampy

open Complex MeasureTheory

/-- C101: the SNR which `apply_enob_as_awgn` reports is the ratio (in dB) of the mean power of the signal to the expected power of the noise it adds, and
this noise power is one sixth of the square of the quantisation step `2·max/2^enob`, for every complex signal which is not zero and all draws of mean
zero and variance one. -/
theorem C101_enob {Ω : Type} [MeasurableSpace Ω] (μ : Measure Ω) [IsProbabilityMeasure μ] (sig : List ℂ) (enob M : ℝ) (hM : 0 < M)
    (h1 : ∃ z ∈ sig, max |z.re| |z.im| = M) (h2 : ∀ z ∈ sig, |z.re| ≤ M ∧ |z.im| ≤ M) (n1 n2 : Ω → List ℝ)
    (k : Nat) (z : ℂ) (hz : sig[k]? = some z) (a b : Ω → ℝ) (ha : ∀ ω, (n1 ω)[k]? = some (a ω)) (hb : ∀ ω, (n2 ω)[k]? = some (b ω))
    (hai : MemLp a 2 μ) (hbi : MemLp b 2 μ) (ha1 : ∫ ω, a ω ^ 2 ∂μ = 1) (hb1 : ∫ ω, b ω ^ 2 ∂μ = 1) :
    ∃ (out : Ω → ℂ) (snr : ℝ), (∀ ω, ∃ o : List ℂ, applyEnob sig enob (n1 ω) (n2 ω) = some (o, snr) ∧ o[k]? = some (out ω))
      ∧ ∫ ω, ‖out ω - z‖ ^ 2 ∂μ = (2 * M / (2 : ℝ) ^ enob) ^ 2 / 6
      ∧ snr = lin2dB (((sig.map fun z => ‖z‖ ^ 2).sum / sig.length) / ∫ ω, ‖out ω - z‖ ^ 2 ∂μ) := by
  have hmax := absMax_eq h1 h2
  have h2e : (0 : ℝ) < 2 ^ (enob - 1) := Real.rpow_pos_of_pos (by norm_num) _
  set pn : ℝ := (M / (2 : ℝ) ^ (enob - 1)) ^ 2 / 12 with hpn
  have hpn0 : 0 < pn := by positivity
  set p : ℝ := meanR (sig.map fun z => ‖z‖ ^ 2) with hp
  have hpe : p = (sig.map fun z => ‖z‖ ^ 2).sum / sig.length := by rw [hp, meanR, List.length_map]
  have hp0 : 0 < p := by
    obtain ⟨w, hw, hwM⟩ := h1
    rw [hpe]
    refine div_pos (lt_of_le_of_ne (sum_map_nonneg' _ _ fun _ _ => by positivity) fun h0 => ?_) (by exact_mod_cast List.length_pos_of_mem hw)
    have := sum_sq_zero sig (fun z => ‖z‖ ^ 2) (fun _ _ => by positivity) h0.symm w hw
    simp only [ne_eq, OfNat.ofNat_ne_zero, not_false_eq_true, pow_eq_zero_iff, norm_eq_zero] at this
    rw [this] at hwM
    simp at hwM
    exact hM.ne hwM
  have e : ∀ ω, ‖((Real.sqrt (2 * pn) : ℝ) : ℂ) * (a ω + I * b ω) / (Real.sqrt 2 : ℝ)‖ ^ 2 = pn * (a ω ^ 2 + b ω ^ 2) := by
    intro ω
    rw [norm_div, norm_mul, div_pow, mul_pow, Complex.norm_real, Complex.norm_real, Real.norm_eq_abs, Real.norm_eq_abs, sq_abs, sq_abs,
      Real.sq_sqrt (by positivity), Real.sq_sqrt (by norm_num), Complex.sq_norm, Complex.normSq_apply]
    simp only [add_re, ofReal_re, mul_re, I_re, I_im, ofReal_im, add_im, mul_im]
    ring
  have hint : ∫ ω, ‖(z + ((Real.sqrt (2 * pn) : ℝ) : ℂ) * (a ω + I * b ω) / (Real.sqrt 2 : ℝ)) - z‖ ^ 2 ∂μ = 2 * pn := by
    simp only [add_sub_cancel_left, e]
    rw [integral_const_mul, integral_add hai.integrable_sq hbi.integrable_sq, ha1, hb1]
    ring
  refine ⟨fun ω => z + ((Real.sqrt (2 * pn) : ℝ) : ℂ) * (a ω + I * b ω) / (Real.sqrt 2 : ℝ), 10 * Real.logb 10 (p / 2 / pn), fun ω => ?_, ?_, ?_⟩
  · refine ⟨addAwgn sig (Real.sqrt (2 * pn)) (n1 ω) (n2 ω), ?_, ?_⟩
    · simp only [applyEnob, hmax, Option.bind_eq_bind, Option.bind_some]
      rw [← hp, ← hpn, if_neg (by push Not; exact ⟨hp0.ne', hpn0.ne'⟩)]
      rfl
    · rw [addAwgn, List.getElem?_zipWith, hz, List.getElem?_zipWith, ha, hb]
  · rw [hint, hpn, Real.rpow_sub (by norm_num), Real.rpow_one]
    ring
  · rw [hint, lin2dB, ← hpe]
    congr 2
    field_simp

example : ∃ out : ℝ → ℂ, ∫ ω, ‖out ω - 1‖ ^ 2 ∂(ProbabilityTheory.gaussianReal 0 1) = (2 * 1 / (2 : ℝ) ^ (6 : ℝ)) ^ 2 / 6 := by
  have hv : ∫ ω, ω ^ 2 ∂(ProbabilityTheory.gaussianReal 0 1) = 1 := by
    have := ProbabilityTheory.variance_id_gaussianReal (μ := 0) (v := 1)
    rw [ProbabilityTheory.variance_of_integral_eq_zero aemeasurable_id (by simp)] at this
    simpa using this
  obtain ⟨out, snr, -, h, -⟩ := C101_enob (ProbabilityTheory.gaussianReal 0 1) [1, I] 6 1 one_pos ⟨1, by simp, by simp⟩ (by simp)
    (fun ω => [ω]) (fun ω => [ω]) 0 1 rfl id id (fun ω => rfl) (fun ω => rfl)
    (ProbabilityTheory.memLp_id_gaussianReal 2) (ProbabilityTheory.memLp_id_gaussianReal 2) hv hv
  exact ⟨out, h⟩

/-- C102, `ideal_amplifier_response`: every signal which is not zero is scaled by one positive factor such that its largest quadrature becomes
the given voltage. -/
theorem C102_amplifier (sig : List (List ℂ)) (V : ℝ) (hV : 0 < V) (h : ∃ r ∈ sig, ∃ z ∈ r, z ≠ 0) :
    ∃ out, idealAmplifier sig V = some out ∧ (∃ c : ℝ, 0 < c ∧ out = sig.map fun r => r.map fun z => (c : ℂ) * z)
      ∧ (∃ r ∈ out, ∃ z ∈ r, max |z.re| |z.im| = V) ∧ ∀ r ∈ out, ∀ z ∈ r, |z.re| ≤ V ∧ |z.im| ≤ V := by
  obtain ⟨r0, hr0, z0, hz0, hne⟩ := h
  have hfl : z0 ∈ sig.flatten := List.mem_flatten.2 ⟨r0, hr0, hz0⟩
  obtain ⟨M, hMs⟩ : ∃ M, absMax sig.flatten = some M := by
    rcases hm : absMax sig.flatten with _ | M
    · rw [absMax, List.max?_eq_none_iff, List.map_eq_nil_iff] at hm
      rw [hm] at hfl
      simp at hfl
    · exact ⟨M, rfl⟩
  have hM2 := hMs
  rw [absMax, List.max?_eq_some_iff] at hM2
  obtain ⟨hmem, hle⟩ := hM2
  have hz : max |z0.re| |z0.im| ≤ M := hle _ (List.mem_map.2 ⟨z0, hfl, rfl⟩)
  have hMpos : 0 < M := by
    refine lt_of_lt_of_le ?_ hz
    by_contra h0
    have h0 := not_lt.1 h0
    have a1 := abs_nonpos_iff.1 ((le_max_left _ _).trans h0)
    have a2 := abs_nonpos_iff.1 ((le_max_right _ _).trans h0)
    exact hne (Complex.ext a1 a2)
  have hc : 0 < V / M := div_pos hV hMpos
  have hout : idealAmplifier sig V = some (sig.map fun r => r.map fun z => ((V / M : ℝ) : ℂ) * z) := by
    simp only [idealAmplifier, hMs, Option.bind_eq_bind, Option.bind_some, if_neg hMpos.ne']
    congr 1
    refine List.map_congr_left fun r _ => List.map_congr_left fun z _ => ?_
    push_cast
    ring
  have hsc : ∀ z : ℂ, max |(((V / M : ℝ) : ℂ) * z).re| |(((V / M : ℝ) : ℂ) * z).im| = V / M * max |z.re| |z.im| := by
    intro z
    rw [Complex.re_ofReal_mul, Complex.im_ofReal_mul, abs_mul, abs_mul, abs_of_pos hc, mul_max_of_nonneg _ _ hc.le]
  refine ⟨_, hout, ⟨V / M, hc, rfl⟩, ?_, ?_⟩
  · obtain ⟨z, hz, he⟩ := List.mem_map.1 hmem
    obtain ⟨r, hr, hz⟩ := List.mem_flatten.1 hz
    refine ⟨_, List.mem_map.2 ⟨r, hr, rfl⟩, _, List.mem_map.2 ⟨z, hz, rfl⟩, ?_⟩
    rw [hsc, he]
    field_simp
  · intro r' hr' z' hz'
    obtain ⟨r, hr, rfl⟩ := List.mem_map.1 hr'
    obtain ⟨z, hz, rfl⟩ := List.mem_map.1 hz'
    have hb := hle _ (List.mem_map.2 ⟨z, List.mem_flatten.2 ⟨r, hr, hz⟩, rfl⟩)
    have : max |(((V / M : ℝ) : ℂ) * z).re| |(((V / M : ℝ) : ℂ) * z).im| ≤ V := by
      rw [hsc]
      calc V / M * max |z.re| |z.im| ≤ V / M * M := mul_le_mul_of_nonneg_left hb hc.le
        _ = V := by field_simp
    exact ⟨(le_max_left _ _).trans this, (le_max_right _ _).trans this⟩

/-- C102, one mode of `rescale_signal`: the row is scaled by one positive factor and its largest quadrature becomes the swing. -/
theorem C102_rescale (x : List ℂ) (V : ℝ) (hV : 0 < V) (h : ∃ z ∈ x, z ≠ 0) :
    ∃ y, rescaleRow V x = some y ∧ (∃ c : ℝ, 0 < c ∧ y = x.map fun z => (c : ℂ) * z)
      ∧ (∃ z ∈ y, max |z.re| |z.im| = V) ∧ ∀ z ∈ y, |z.re| ≤ V ∧ |z.im| ≤ V := by
  obtain ⟨z0, hz0, hne⟩ := h
  obtain ⟨out, h1, ⟨c, hc, h2⟩, h3, h4⟩ := C102_amplifier [x] V hV ⟨x, by simp, z0, hz0, hne⟩
  have hrow : idealAmplifier [x] V = (rescaleRow V x).map fun y => [y] := by
    simp only [idealAmplifier, rescaleRow, List.flatten_cons, List.flatten_nil, List.append_nil]
    rcases absMax x with _ | M
    · rfl
    · simp only [Option.bind_eq_bind, Option.bind_some]
      split_ifs <;> rfl
  rw [hrow] at h1
  rcases hy : rescaleRow V x with _ | y
  · rw [hy] at h1; simp at h1
  · rw [hy] at h1
    have h1 : [y] = out := Option.some.inj h1
    subst h1
    refine ⟨y, rfl, ⟨c, hc, by simpa using h2⟩, ?_, h4 y (by simp)⟩
    obtain ⟨r, hr, z, hz, he⟩ := h3
    rw [List.mem_singleton] at hr
    subst hr
    exact ⟨z, hz, he⟩

example : ∃ y, rescaleRow 3 [⟨1, -2⟩, 0] = some y ∧ ∃ z ∈ y, max |z.re| |z.im| = 3 := by
  obtain ⟨y, h1, -, h2, -⟩ := C102_rescale [⟨1, -2⟩, 0] 3 (by norm_num) ⟨⟨1, -2⟩, by simp, by
    intro h; have := congrArg Complex.re h; norm_num at this⟩
  exact ⟨y, h1, h2⟩

/-- C103: `normalise_and_center_pil` shifts and scales the whole mode such that the pilots have mean zero and mean power one; all samples undergo the
same positive affine map. -/
theorem C103_pilot_normalisation (idx : List Nat) (x pil : List ℂ) (hp : idx.map (fun i => x[i]?) = pil.map some) (h : ∃ a ∈ pil, ∃ b ∈ pil, a ≠ b) :
    ∃ y, normRowPil idx x = some y ∧ (∃ c : ℝ, 0 < c ∧ ∃ m : ℂ, y = x.map fun z => (c : ℂ) * (z - m))
      ∧ ∃ pil' : List ℂ, idx.map (fun i => y[i]?) = pil'.map some ∧ pil'.sum = 0 ∧ (pil'.map fun z => ‖z‖ ^ 2).sum = idx.length := by
  have hpos := power_pos h (meanC pil)
  have hpos' : 0 < Real.sqrt (meanR (pil.map fun z => ‖z - meanC pil‖ ^ 2)) := Real.sqrt_pos.2 hpos
  have hP : meanR ((pil.map fun z => z + -meanC pil).map fun z => ‖z‖ ^ 2) = meanR (pil.map fun z => ‖z - meanC pil‖ ^ 2) := by
    rw [List.map_map]; simp [Function.comp_def, sub_eq_add_neg]
  set P := Real.sqrt (meanR (pil.map fun z => ‖z - meanC pil‖ ^ 2)) with hPdef
  have hy : normRowPil idx x = some (x.map fun z => (z - meanC pil) / (P : ℂ)) := by
    have := (mapM_eq_some_iff (fun i => x[i]?) idx pil).2 hp
    simp only [normRowPil, this, Option.bind_eq_bind, Option.bind_some, hP]
    rw [← hPdef, if_neg hpos'.ne']
    simp only [sub_eq_add_neg]
  have hn := normRow_spec h
  obtain ⟨q, hq, hq2, -⟩ := hn
  rw [normRow_eq hpos, ← hPdef] at hq
  have hq := Option.some.inj hq
  refine ⟨_, hy, ⟨P⁻¹, inv_pos.2 hpos', meanC pil, ?_⟩, q, ?_, hq2.2.1, ?_⟩
  · refine List.map_congr_left fun z _ => ?_
    push_cast
    rw [div_eq_inv_mul]
  · rw [← hq, List.map_map]
    have : (fun (i : Nat) => (x.map fun z => (z - meanC pil) / (P : ℂ))[i]?) = (Option.map fun z => (z - meanC pil) / (P : ℂ)) ∘ fun (i : Nat) => x[i]? := by
      funext i; simp
    rw [this, ← List.map_map, hp, List.map_map]
    rfl
  · rw [hq2.2.2, ← hq, List.length_map]
    have := congrArg List.length hp
    rw [List.length_map, List.length_map] at this
    rw [this]

example : ∃ y, normRowPil [0, 2] [1, 7 * I, 5, 2] = some y := by
  obtain ⟨y, h, _⟩ := C103_pilot_normalisation [0, 2] [1, 7 * I, 5, 2] [1, 5] rfl ⟨1, by simp, 5, by simp, by norm_num⟩
  exact ⟨y, h⟩

/-- C104: for a non-negative extinction ratio in dB `er_to_g` returns the imbalance in `[0, 1)` for which the ratio of the largest to the smallest power of the
modulator is the extinction ratio, and a Mach-Zehnder modulator without chirp has fields `(1+g)/(1+g)` and `(1-g)/(1+g)` at its two extremes. -/
theorem C104_extinction (er : ℝ) (her : 0 ≤ er) :
    0 ≤ erToG er ∧ erToG er < 1 ∧ lin2dB (((1 + erToG er) / (1 - erToG er)) ^ 2) = er
      ∧ ‖mzm 0 (erToG er) 0‖ = 1 ∧ lin2dB ((‖mzm 0 (erToG er) 0‖ / ‖mzm 1 (erToG er) 0‖) ^ 2) = er := by
  set t : ℝ := (10 : ℝ) ^ (er / 20) with ht
  have ht1 : 1 ≤ t := Real.one_le_rpow (by norm_num) (by positivity)
  have hg : erToG er = (t - 1) / (t + 1) := rfl
  have h0 : 0 ≤ erToG er := by rw [hg]; exact div_nonneg (by linarith) (by linarith)
  have h1 : erToG er < 1 := by rw [hg, div_lt_one (by linarith)]; linarith
  have hr : (1 + erToG er) / (1 - erToG er) = t := by
    have h2 : t + 1 ≠ 0 := by linarith
    rw [hg]
    have h3 : 1 - (t - 1) / (t + 1) = 2 / (t + 1) := by field_simp; ring
    have h4 : 1 + (t - 1) / (t + 1) = 2 * t / (t + 1) := by field_simp; ring
    rw [h3, h4]
    field_simp
  have hl : lin2dB (t ^ 2) = er := by
    rw [lin2dB, ht, ← Real.rpow_natCast, ← Real.rpow_mul (by norm_num), Real.logb_rpow (by norm_num) (by norm_num)]
    push_cast
    ring
  set g := erToG er with hgdef
  have hgp : (0 : ℝ) < 1 + g := by linarith
  have hgC : (1 + g : ℂ) ≠ 0 := by exact_mod_cast hgp.ne'
  have m0 : mzm 0 g 0 = -1 := by
    rw [mzm]
    simp only [mul_zero, zero_mul, zero_div, Complex.ofReal_zero, neg_zero, Complex.exp_zero, mul_one]
    field_simp
  have e1 : exp (I * ((Real.pi * 1 * (1 + 0) / 2 : ℝ) : ℂ)) = I := by
    have : I * ((Real.pi * 1 * (1 + 0) / 2 : ℝ) : ℂ) = (Real.pi / 2 : ℂ) * I := by push_cast; ring
    rw [this, Complex.exp_pi_div_two_mul_I]
  have e2 : exp (-(I * ((Real.pi * 1 * (1 - 0) / 2 : ℝ) : ℂ))) = -I := by
    have : -(I * ((Real.pi * 1 * (1 - 0) / 2 : ℝ) : ℂ)) = (-Real.pi / 2 : ℂ) * I := by push_cast; ring
    rw [this, Complex.exp_neg_pi_div_two_mul_I]
  have m1 : ‖mzm 1 g 0‖ = (1 - g) / (1 + g) := by
    rw [mzm, e1, e2]
    have : -(I + (g : ℂ) * -I) / (1 + g) = -I * (((1 - g) / (1 + g) : ℝ) : ℂ) := by push_cast; field_simp; ring
    rw [this, norm_mul, norm_neg, Complex.norm_I, one_mul, Complex.norm_real, Real.norm_eq_abs, abs_of_nonneg (div_nonneg (by linarith) (by linarith))]
  refine ⟨h0, h1, by rw [hr, hl], by rw [m0]; simp, ?_⟩
  rw [m0, m1, norm_neg, norm_one, one_div_div, hr, hl]

example : erToG 20 = 9 / 11 := by
  rw [erToG]; norm_num

end Qampy
