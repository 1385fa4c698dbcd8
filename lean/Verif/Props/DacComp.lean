import Verif.Model.DacComp
import Verif.Props.PulseShape

/-!
# Pre-compensation of the converter response: C172
-/

namespace Qampy

open Complex

/-- The spectrum of the pulses relative to its maximum. -/
noncomputable def pulseAt (fb : ℝ) (n : Nat) (beta os : ℝ) (k : Nat) : ℝ := rcosFreq beta (1 / fb) (fftfreq n 1 k * (fb * os)) * fb

theorem pulseAt_bounds {fb : ℝ} (hfb : 0 < fb) (n : Nat) (beta os : ℝ) (k : Nat) : 0 ≤ pulseAt fb n beta os k ∧ pulseAt fb n beta os k ≤ 1 := by
  obtain ⟨-, -, h1, h2, -⟩ := C49_spectrum beta (1 / fb) (fftfreq n 1 k * (fb * os)) (by positivity)
  unfold pulseAt
  refine ⟨mul_nonneg h1 hfb.le, ?_⟩
  have := mul_le_mul_of_nonneg_right h2 hfb.le
  rwa [one_div_mul_cancel hfb.ne'] at this

theorem dacPulse_eq {fb : ℝ} (hfb : 0 < fb) {n : Nat} (hn : 0 < n) {beta : ℝ} (hb : beta ≤ 1) (os : ℝ) :
    dacPulse fb n beta os = .ok ((List.range n).map (pulseAt fb n beta os)) := by
  unfold dacPulse
  rw [rrcosFilter_eq n hn _ _ _ (by positivity) hb]
  simp only [bind, Except.bind, pure, Except.pure, List.map_map]
  congr 1
  apply List.map_congr_left
  intro k _
  obtain ⟨-, -, h1, -, -, -, h3⟩ := C49_spectrum beta (1 / fb) (fftfreq n 1 k * (fb * os)) (by positivity)
  simp only [Function.comp_apply, div_pow, h3]
  rw [Real.sq_sqrt (by positivity)]
  unfold pulseAt
  rw [div_div_eq_mul_div, div_one]

/-- Power at the output of the converter with the response `d`. -/
noncomputable def dacPower (fb : ℝ) (n : Nat) (beta os : ℝ) (d : List ℂ) : ℝ :=
  ∑ k ∈ Finset.range n, ‖d.getD k 0‖ ^ 2 * pulseAt fb n beta os k * (fb * os / n)

theorem dacPower_nonneg {fb : ℝ} (hfb : 0 < fb) (n : Nat) (beta : ℝ) {os : ℝ} (hos : 0 < os) (d : List ℂ) : 0 ≤ dacPower fb n beta os d :=
  Finset.sum_nonneg fun k _ => mul_nonneg (mul_nonneg (by positivity) (pulseAt_bounds hfb n beta os k).1) (by positivity)

theorem sum_zipWith_range (n : Nat) (d : List ℂ) (hd : d.length = n) (f : ℂ → ℝ → ℝ) (g : Nat → ℝ) :
    (List.zipWith f d ((List.range n).map g)).sum = ∑ k ∈ Finset.range n, f (d.getD k 0) (g k) := by
  have : List.zipWith f d ((List.range n).map g) = (List.range n).map fun k => f (d.getD k 0) (g k) := by
    apply List.ext_getElem
    · simp [hd]
    · intro i h1 h2
      have hi : i < d.length := by simpa [hd] using h2
      simp [List.getD_eq_getElem?_getD, List.getElem?_eq_getElem hi]
  rw [this]
  rfl

/-- Peak amplitude of a converter driven with the given peak to average power ratio (in dB). -/
noncomputable def dacPeak (papr power : ℝ) : ℝ := Real.sqrt ((10 : ℝ) ^ (papr / 10) * power)

/-- C172: `alpha` is the noise of a uniform quantiser with `2^enob` steps over the range from minus to plus the peak amplitude, as density over the band of twice the symbol rate (the sampling
rate for the default two samples per symbol). -/
theorem C172_noise {fb : ℝ} (hfb : 0 < fb) {n : Nat} (beta papr enob : ℝ) {os : ℝ} (hos : 0 < os) (d : List ℂ) (hd : d.length = n) :
    dacAlpha fb n papr enob os d ((List.range n).map (pulseAt fb n beta os)) * (2 * fb) =
      (2 * dacPeak papr (dacPower fb n beta os d) / (2 : ℝ) ^ enob) ^ 2 / 12 := by
  unfold dacAlpha
  rw [sum_zipWith_range n d hd (fun dk nk => ‖dk‖ ^ 2 * nk * (fb * os / n))]
  have hp := dacPower_nonneg hfb n beta hos d
  unfold dacPower at hp
  unfold dacPeak dacPower
  rw [div_pow, mul_pow, Real.sq_sqrt (mul_nonneg (by positivity) hp), mul_comm 2 enob, Real.rpow_mul (by norm_num : (0 : ℝ) ≤ 2)]
  have h2 : (0 : ℝ) < (2 : ℝ) ^ enob := by positivity
  rw [show ((2 : ℝ) ^ enob) ^ (2 : ℝ) = ((2 : ℝ) ^ enob) ^ 2 by exact_mod_cast Real.rpow_natCast _ 2]
  obtain ⟨S, hS⟩ : ∃ S, S = ∑ k ∈ Finset.range n, ‖d.getD k 0‖ ^ 2 * pulseAt fb n beta os k * (fb * os / n) := ⟨_, rfl⟩
  rw [← hS]
  field_simp
  ring

/-- The noise term in front of the filter. -/
noncomputable def dacAlphaAt (fb : ℝ) (n : Nat) (beta papr enob os : ℝ) (d : List ℂ) : ℝ :=
  (2 * dacPeak papr (dacPower fb n beta os d) / (2 : ℝ) ^ enob) ^ 2 / 12 / (2 * fb)

theorem compDacResp_eq {fb : ℝ} (hfb : 0 < fb) {n : Nat} (hn : 0 < n) {beta : ℝ} (hb : beta ≤ 1) (papr enob : ℝ) {os : ℝ} (hos : 0 < os) (d : List ℂ) (hd : d.length = n) :
    compDacResp fb n beta papr enob os d = .ok ((List.range n).map fun k => dacBin (dacAlphaAt fb n beta papr enob os d) (d.getD k 0) (pulseAt fb n beta os k)) := by
  unfold compDacResp
  rw [dacPulse_eq hfb hn hb]
  simp only [bind, Except.bind, pure, Except.pure]
  congr 1
  have ha : dacAlpha fb n papr enob os d ((List.range n).map (pulseAt fb n beta os)) = dacAlphaAt fb n beta papr enob os d := by
    unfold dacAlphaAt
    rw [← C172_noise hfb beta papr enob hos d hd, mul_div_assoc, div_self (by positivity), mul_one]
  rw [ha]
  apply List.ext_getElem
  · simp [hd]
  · intro i h1 h2
    have hi : i < d.length := by simpa [hd] using h2
    simp [List.getD_eq_getElem?_getD, List.getElem?_eq_getElem hi]

theorem dacAlphaAt_pos {fb : ℝ} (hfb : 0 < fb) {n : Nat} {beta papr enob : ℝ} {os : ℝ} (hos : 0 < os) {d : List ℂ}
    (hsig : ∃ k < n, d.getD k 0 ≠ 0 ∧ pulseAt fb n beta os k ≠ 0) : 0 < dacAlphaAt fb n beta papr enob os d := by
  obtain ⟨k, hk, h1, h2⟩ := hsig
  have hn : 0 < n := by omega
  have hp : 0 < dacPower fb n beta os d := by
    apply Finset.sum_pos' (fun k _ => mul_nonneg (mul_nonneg (by positivity) (pulseAt_bounds hfb n beta os k).1) (by positivity))
    refine ⟨k, Finset.mem_range.2 hk, mul_pos (mul_pos ?_ ?_) (by positivity)⟩
    · have := norm_pos_iff.2 h1
      positivity
    · exact lt_of_le_of_ne (pulseAt_bounds hfb n beta os k).1 (Ne.symm h2)
  have : 0 < dacPeak papr (dacPower fb n beta os d) := Real.sqrt_pos.2 (by positivity)
  unfold dacAlphaAt
  positivity

theorem dacBin_pos {alpha nk : ℝ} (ha : 0 < alpha) (hn : 0 ≤ nk) (dk : ℂ) :
    dacBin alpha dk nk = some ((nk : ℂ) * (starRingEnd ℂ) dk / ((nk * ‖dk‖ ^ 2 + alpha : ℝ) : ℂ)) := by
  unfold dacBin
  rw [if_neg]
  have : 0 ≤ nk * ‖dk‖ ^ 2 := mul_nonneg hn (by positivity)
  linarith

/-- The error of one bin in terms of the distance from the optimal filter. -/
theorem wiener_bin {alpha nk : ℝ} (ha : 0 < alpha) (hn : 0 ≤ nk) (dk q : ℂ) :
    nk * ‖1 - q * dk‖ ^ 2 + alpha * ‖q‖ ^ 2 = nk * alpha / (nk * ‖dk‖ ^ 2 + alpha) +
      (nk * ‖dk‖ ^ 2 + alpha) * ‖q - (nk : ℂ) * (starRingEnd ℂ) dk / ((nk * ‖dk‖ ^ 2 + alpha : ℝ) : ℂ)‖ ^ 2 := by
  have h0 : 0 ≤ nk * ‖dk‖ ^ 2 := mul_nonneg hn (by positivity)
  obtain ⟨S, hS⟩ : ∃ S, S = nk * ‖dk‖ ^ 2 + alpha := ⟨_, rfl⟩
  have hSpos : 0 < S := by rw [hS]; linarith
  rw [← hS]
  have e : q - (nk : ℂ) * (starRingEnd ℂ) dk / (S : ℂ) = ⟨q.re - nk * dk.re / S, q.im + nk * dk.im / S⟩ := by
    apply Complex.ext
    · simp [Complex.div_ofReal_re]
    · simp [Complex.div_ofReal_im]
      ring
  rw [e, ← Complex.normSq_eq_norm_sq, ← Complex.normSq_eq_norm_sq, ← Complex.normSq_eq_norm_sq, Complex.normSq_mk]
  rw [← Complex.normSq_eq_norm_sq] at hS
  simp only [Complex.normSq_apply, Complex.sub_re, Complex.sub_im, Complex.mul_re, Complex.mul_im, Complex.one_re, Complex.one_im] at hS ⊢
  have hal : alpha = S - nk * (dk.re * dk.re + dk.im * dk.im) := by linarith
  rw [hal]
  field_simp
  ring

/-- C172: the filter exists, and it is the one with the least mean square error: no other filter has a smaller sum of the distortion of the signal (weighted with the spectrum of the pulses)
and the noise of the converter. -/
theorem C172_optimal {fb : ℝ} (hfb : 0 < fb) {n : Nat} {beta : ℝ} (hb : beta ≤ 1) (papr enob : ℝ) {os : ℝ} (hos : 0 < os) (d : List ℂ) (hd : d.length = n)
    (hsig : ∃ k < n, d.getD k 0 ≠ 0 ∧ pulseAt fb n beta os k ≠ 0) :
    ∃ p : Nat → ℂ, compDacResp fb n beta papr enob os d = .ok ((List.range n).map fun k => some (p k)) ∧
      ∀ q : Nat → ℂ, ∑ k ∈ Finset.range n, (pulseAt fb n beta os k * ‖1 - p k * d.getD k 0‖ ^ 2 + dacAlphaAt fb n beta papr enob os d * ‖p k‖ ^ 2) ≤
        ∑ k ∈ Finset.range n, (pulseAt fb n beta os k * ‖1 - q k * d.getD k 0‖ ^ 2 + dacAlphaAt fb n beta papr enob os d * ‖q k‖ ^ 2) := by
  have hn : 0 < n := by obtain ⟨k, hk, -⟩ := hsig; omega
  have ha := dacAlphaAt_pos (papr := papr) (enob := enob) hfb hos hsig
  refine ⟨fun k => (pulseAt fb n beta os k : ℂ) * (starRingEnd ℂ) (d.getD k 0) / ((pulseAt fb n beta os k * ‖d.getD k 0‖ ^ 2 + dacAlphaAt fb n beta papr enob os d : ℝ) : ℂ), ?_, ?_⟩
  · rw [compDacResp_eq hfb hn hb papr enob hos d hd]
    congr 1
    apply List.map_congr_left
    intro k _
    exact dacBin_pos ha (pulseAt_bounds hfb n beta os k).1 _
  · intro q
    apply Finset.sum_le_sum
    intro k _
    have hk := (pulseAt_bounds hfb n beta os k).1
    rw [wiener_bin ha hk, wiener_bin ha hk (d.getD k 0) (q k), sub_self, norm_zero]
    have h0 : 0 ≤ pulseAt fb n beta os k * ‖d.getD k 0‖ ^ 2 := mul_nonneg hk (by positivity)
    have : 0 ≤ (pulseAt fb n beta os k * ‖d.getD k 0‖ ^ 2 + dacAlphaAt fb n beta papr enob os d) *
        ‖q k - (pulseAt fb n beta os k : ℂ) * (starRingEnd ℂ) (d.getD k 0) / ((pulseAt fb n beta os k * ‖d.getD k 0‖ ^ 2 + dacAlphaAt fb n beta papr enob os d : ℝ) : ℂ)‖ ^ 2 :=
      mul_nonneg (by linarith) (by positivity)
    simp only [ne_eq, OfNat.ofNat_ne_zero, not_false_eq_true, zero_pow, mul_zero, add_zero]
    linarith

/-- C172: filter and converter together have no phase response and a gain between zero and one; nothing is transmitted outside the band of the pulses. -/
theorem C172_response {fb : ℝ} (hfb : 0 < fb) {n : Nat} {beta : ℝ} (hb0 : 0 < beta) (hb : beta ≤ 1) (papr enob : ℝ) {os : ℝ} (hos : 0 < os) (d : List ℂ) (hd : d.length = n)
    (hsig : ∃ k < n, d.getD k 0 ≠ 0 ∧ pulseAt fb n beta os k ≠ 0) {p : List (Option ℂ)} (h : compDacResp fb n beta papr enob os d = .ok p) :
    p.length = n ∧ ∀ k < n, ∃ pk, p[k]? = some (some pk) ∧ (∃ g : ℝ, pk * d.getD k 0 = g ∧ 0 ≤ g ∧ g < 1) ∧
      ((1 + beta) / 2 * fb ≤ |fftfreq n 1 k * (fb * os)| → pk = 0) := by
  have hn : 0 < n := by obtain ⟨k, hk, -⟩ := hsig; omega
  have ha := dacAlphaAt_pos (papr := papr) (enob := enob) hfb hos hsig
  rw [compDacResp_eq hfb hn hb papr enob hos d hd, Except.ok.injEq] at h
  subst h
  refine ⟨by simp, fun k hk => ?_⟩
  have hp := (pulseAt_bounds hfb n beta os k).1
  have h0 : 0 ≤ pulseAt fb n beta os k * ‖d.getD k 0‖ ^ 2 := mul_nonneg hp (by positivity)
  rw [List.getElem?_map, List.getElem?_range hk, Option.map_some, dacBin_pos ha hp]
  refine ⟨_, rfl, ⟨pulseAt fb n beta os k * ‖d.getD k 0‖ ^ 2 / (pulseAt fb n beta os k * ‖d.getD k 0‖ ^ 2 + dacAlphaAt fb n beta papr enob os d), ?_, ?_, ?_⟩, ?_⟩
  · rw [div_mul_eq_mul_div, mul_assoc, mul_comm ((starRingEnd ℂ) (d.getD k 0)), Complex.mul_conj, Complex.normSq_eq_norm_sq]
    push_cast
    rfl
  · exact div_nonneg h0 (by linarith)
  · rw [div_lt_one (by linarith)]
    linarith
  · intro hf
    have h1 := (C49_band beta (1 / fb) (fftfreq n 1 k * (fb * os)) (by positivity) hb0).2.1 (by
      refine le_trans (le_of_eq ?_) hf
      field_simp)
    have : pulseAt fb n beta os k = 0 := by unfold pulseAt; rw [h1, zero_mul]
    rw [this]
    simp

/-- C172: the gain of the converter does not matter: a converter with `g` times the response gets the filter divided by `g`. -/
theorem C172_gain {fb : ℝ} (hfb : 0 < fb) {n : Nat} {beta : ℝ} (hb : beta ≤ 1) (papr enob : ℝ) {os : ℝ} (hos : 0 < os) (d : List ℂ) (hd : d.length = n)
    (hsig : ∃ k < n, d.getD k 0 ≠ 0 ∧ pulseAt fb n beta os k ≠ 0) (g : ℂ) (hg : g ≠ 0) :
    ∃ p : Nat → ℂ, compDacResp fb n beta papr enob os d = .ok ((List.range n).map fun k => some (p k)) ∧
      compDacResp fb n beta papr enob os (d.map (g * ·)) = .ok ((List.range n).map fun k => some (p k / g)) := by
  have hn : 0 < n := by obtain ⟨k, hk, -⟩ := hsig; omega
  have ha := dacAlphaAt_pos (papr := papr) (enob := enob) hfb hos hsig
  have hgd : ∀ k, (d.map (g * ·)).getD k 0 = g * d.getD k 0 := by
    intro k
    rw [List.getD_eq_getElem?_getD, List.getD_eq_getElem?_getD, List.getElem?_map]
    cases d[k]? <;> simp
  have hgn : 0 < ‖g‖ := norm_pos_iff.2 hg
  have hpow : dacPower fb n beta os (d.map (g * ·)) = ‖g‖ ^ 2 * dacPower fb n beta os d := by
    unfold dacPower
    rw [Finset.mul_sum]
    apply Finset.sum_congr rfl
    intro k _
    rw [hgd, norm_mul]
    ring
  have hal : dacAlphaAt fb n beta papr enob os (d.map (g * ·)) = ‖g‖ ^ 2 * dacAlphaAt fb n beta papr enob os d := by
    unfold dacAlphaAt dacPeak
    rw [hpow, div_pow, div_pow, mul_pow, mul_pow, Real.sq_sqrt (by have := dacPower_nonneg hfb n beta hos d; positivity), Real.sq_sqrt (by have := dacPower_nonneg hfb n beta hos d; positivity)]
    ring
  refine ⟨fun k => (pulseAt fb n beta os k : ℂ) * (starRingEnd ℂ) (d.getD k 0) / ((pulseAt fb n beta os k * ‖d.getD k 0‖ ^ 2 + dacAlphaAt fb n beta papr enob os d : ℝ) : ℂ), ?_, ?_⟩
  · rw [compDacResp_eq hfb hn hb papr enob hos d hd]
    congr 1
    apply List.map_congr_left
    intro k _
    exact dacBin_pos ha (pulseAt_bounds hfb n beta os k).1 _
  · rw [compDacResp_eq hfb hn hb papr enob hos _ (by simpa using hd)]
    congr 1
    apply List.map_congr_left
    intro k _
    have hp := (pulseAt_bounds hfb n beta os k).1
    rw [hal, dacBin_pos (by positivity) hp, hgd, norm_mul]
    congr 1
    have h0 : 0 ≤ pulseAt fb n beta os k * ‖d.getD k 0‖ ^ 2 := mul_nonneg hp (by positivity)
    have e1 : pulseAt fb n beta os k * (‖g‖ * ‖d.getD k 0‖) ^ 2 + ‖g‖ ^ 2 * dacAlphaAt fb n beta papr enob os d =
        ‖g‖ ^ 2 * (pulseAt fb n beta os k * ‖d.getD k 0‖ ^ 2 + dacAlphaAt fb n beta papr enob os d) := by ring
    rw [e1]
    dsimp only
    obtain ⟨S, hS⟩ : ∃ S, S = pulseAt fb n beta os k * ‖d.getD k 0‖ ^ 2 + dacAlphaAt fb n beta papr enob os d := ⟨_, rfl⟩
    rw [← hS]
    have hS0 : (S : ℂ) ≠ 0 := by
      rw [Complex.ofReal_ne_zero, hS]
      linarith
    have hgg : ((‖g‖ ^ 2 : ℝ) : ℂ) = g * (starRingEnd ℂ) g := by
      rw [Complex.mul_conj, Complex.normSq_eq_norm_sq]
    have hcg : (starRingEnd ℂ) g ≠ 0 := by simpa using hg
    rw [Complex.ofReal_mul, hgg, map_mul]
    field_simp

theorem pulseAt_zero {fb : ℝ} (hfb : 0 < fb) {n : Nat} (hn : 0 < n) {beta : ℝ} (hb : beta ≤ 1) (os : ℝ) : pulseAt fb n beta os 0 = 1 := by
  have : fftfreq n 1 0 = 0 := by unfold fftfreq; rw [if_pos (by omega)]; simp
  unfold pulseAt rcosFreq
  rw [this, zero_mul, abs_zero, if_pos (div_nonneg (by linarith) (by positivity)), one_div_mul_cancel hfb.ne']

/-- Four bins, two samples per symbol, a converter losing half of the amplitude at half the symbol rate: the hypotheses hold, the bin at the symbol rate is not driven. -/
example : ∃ p, compDacResp 1 4 (1 / 2) 9 6 2 [1, 1 / 2, 1 / 4, 1 / 2] = .ok p ∧ p[2]? = some (some 0) ∧ ∃ pk : ℂ, p[1]? = some (some pk) ∧ ∃ g : ℝ, pk * (1 / 2) = g ∧ 0 ≤ g ∧ g < 1 := by
  have hsig : ∃ k < 4, ([1, 1 / 2, 1 / 4, 1 / 2] : List ℂ).getD k 0 ≠ 0 ∧ pulseAt 1 4 (1 / 2) 2 k ≠ 0 :=
    ⟨0, by norm_num, by simp, by rw [pulseAt_zero one_pos (by norm_num) (by norm_num)]; exact one_ne_zero⟩
  obtain ⟨p, hp, -⟩ := C172_optimal one_pos (by norm_num : (1 / 2 : ℝ) ≤ 1) 9 6 (by norm_num : (0 : ℝ) < 2) [1, 1 / 2, 1 / 4, 1 / 2] rfl hsig
  obtain ⟨-, h⟩ := C172_response one_pos (by norm_num) (by norm_num : (1 / 2 : ℝ) ≤ 1) 9 6 (by norm_num : (0 : ℝ) < 2) [1, 1 / 2, 1 / 4, 1 / 2] rfl hsig hp
  refine ⟨_, hp, ?_, ?_⟩
  · obtain ⟨pk, h1, -, h3⟩ := h 2 (by norm_num)
    rw [h1, h3]
    unfold fftfreq
    norm_num
  · obtain ⟨pk, h1, ⟨g, h2, h3, h4⟩, -⟩ := h 1 (by norm_num)
    exact ⟨pk, h1, g, by simpa using h2, h3, h4⟩

end Qampy
