import Verif.Props.FreqNoise
import Verif.Props.CycleSlips

/-!
# Carrier recovery of QPSK, the whole chain: C167
-/

namespace Qampy

open Complex (I)

/-- C167: carrier recovery of noisy QPSK. Every mode is a sequence of symbols of a constellation of four points of radius one, in an unknown
phase, with a frequency offset below the ambiguity limit and noise of up to 1/35 in every sample. After finding the offset, compensating it and
the blind phase search, with at least eight test angles and a transform of at least 32 times the half window, the decisions are the sent
symbols up to one common quarter turn of the mode and the symbol error rate is zero. -/
theorem C167_qpsk_chain (sig : List (List ℂ)) (symbols : List ℂ) (c : ℂ) (s : Nat → Nat → ℂ) (θ : Nat → ℝ) (f os : ℝ)
    (fftSize M N : Nat) (average : Bool) (hos : 0 < os) (hc : ‖c‖ = 1)
    (hsym : ∀ z, z ∈ symbols ↔ ∃ q : ℤ, z = I ^ q * c) (hnd : symbols.Nodup)
    (hf : |f| < os / 8 - os / (4 * 2 ^ Nat.clog 2 fftSize)) (hM : 8 ≤ M) (hN : 1 ≤ N) (hN2 : N ≤ 10000)
    (hF : 32 * N ≤ 2 ^ Nat.clog 2 fftSize)
    (hx : ∀ (l : Nat) (r : List ℂ), sig[l]? = some r → 2 ^ Nat.clog 2 fftSize ≤ r.length ∧ ∀ n, n < r.length → s l n ∈ symbols ∧
      ‖r.getD n 0 - s l n * Complex.exp (I * ((2 * Real.pi * n * f / os + θ l : ℝ) : ℂ))‖ ≤ 1 / 35) :
    ∃ (est : List ℝ) (comp : List (List ℂ)), findFreqOffset sig os average fftSize = some est ∧ compFreqOffset sig est os = .ok comp ∧
      comp.length = sig.length ∧
      ∀ (l : Nat) (r : List ℂ), sig[l]? = some r → ∃ (r' out : List ℂ) (ph : List ℝ) (q : Nat) (d : List (ℂ × ℝ × Nat)),
        comp[l]? = some r' ∧ bps r' M symbols N = some (out, ph) ∧
        makeDecision ((out.drop N).take (r.length - 2 * N)) symbols = some d ∧
        d.map (·.1) = (List.range (r.length - 2 * N)).map (fun n => I ^ q * s l (N + n)) ∧
        calSer symbols ((out.drop N).take (r.length - 2 * N)) ((List.range (r.length - 2 * N)).map fun n => I ^ q * s l (N + n)) = some 0 := by
  have hI4 : I ^ 4 = 1 := by rw [show (4 : Nat) = 2 * 2 by norm_num, pow_mul, Complex.I_sq]; norm_num
  have hs4 : ∀ z ∈ symbols, z ^ 4 = c ^ 4 ∧ ‖z‖ = 1 := by
    intro z hz
    obtain ⟨q, rfl⟩ := (hsym z).1 hz
    refine ⟨?_, by rw [norm_mul, norm_I_zpow, hc, one_mul]⟩
    rw [mul_pow, ← zpow_natCast, ← zpow_mul, mul_comm q, zpow_mul, zpow_natCast, hI4, one_zpow, one_mul]
  have hc0 : c ≠ 0 := by rw [← norm_pos_iff, hc]; norm_num
  have hsize : 3 ≤ fftSize := by
    by_contra hlt
    have h1 : Nat.clog 2 fftSize ≤ Nat.clog 2 2 := Nat.clog_mono_right 2 (by omega)
    rw [show Nat.clog 2 2 = 1 by decide +kernel] at h1
    have h2 : 2 ^ Nat.clog 2 fftSize ≤ 2 ^ 1 := Nat.pow_le_pow_right (by norm_num) h1
    omega
  obtain ⟨est, h1, h2, h3⟩ := C166_qpsk_one_bin sig f os fftSize average hos hsize hf (by
    intro r hr
    obtain ⟨l, hl⟩ := List.mem_iff_getElem?.1 hr
    obtain ⟨g1, g2⟩ := hx l r hl
    refine ⟨g1, (c * Complex.exp (I * (θ l : ℂ))) ^ 4, pow_ne_zero _ (mul_ne_zero hc0 (Complex.exp_ne_zero _)), ?_⟩
    intro n z hz
    have hn : n < r.length := by
      by_contra hge
      rw [List.getElem?_eq_none (by omega)] at hz
      cases hz
    obtain ⟨k1, k2⟩ := g2 n hn
    rw [List.getD_eq_getElem?_getD, hz, Option.getD_some] at k2
    refine ⟨s l n * Complex.exp (I * (θ l : ℂ)),
      z - s l n * Complex.exp (I * ((2 * Real.pi * n * f / os + θ l : ℝ) : ℂ)), ?_, ?_, ?_⟩
    · rw [mul_pow, mul_pow, (hs4 _ k1).1]
    · rw [norm_mul, (hs4 _ k1).2, norm_exp_I, mul_one, mul_one]
      exact k2
    · rw [mul_assoc, ← Complex.exp_add]
      have : I * (θ l : ℂ) + I * ((2 * Real.pi * n * f / os : ℝ) : ℂ) = I * ((2 * Real.pi * n * f / os + θ l : ℝ) : ℂ) := by
        push_cast
        ring
      rw [this]
      ring)
  have hcomp := compFreqOffset_eq sig est os h2.ge
  refine ⟨est, _, h1, hcomp, by simp [h2], ?_⟩
  intro l r hr
  obtain ⟨g1, g2⟩ := hx l r hr
  have hll : l < sig.length := by
    by_contra hge
    rw [List.getElem?_eq_none (by omega)] at hr
    cases hr
  obtain ⟨e, he⟩ : ∃ e, est[l]? = some e := ⟨_, List.getElem?_eq_getElem (by omega)⟩
  obtain ⟨r', hr'⟩ : ∃ r' : List ℂ, r' = r.mapIdx fun (n : Nat) x =>
    x * Complex.exp (-(I * ((2 * Real.pi * ((n : ℝ) + 1) * e / os : ℝ) : ℂ))) := ⟨_, rfl⟩
  have hrl : r'.length = r.length := by rw [hr']; simp
  obtain ⟨F, hFe⟩ : ∃ F, F = 2 ^ Nat.clog 2 fftSize := ⟨_, rfl⟩
  have hFr : (2 : ℝ) ^ Nat.clog 2 fftSize = F := by rw [hFe]; push_cast; rfl
  rw [← hFe] at hF g1
  rw [hFr] at h3
  have hNr : (1 : ℝ) ≤ N := by exact_mod_cast hN
  have hFN : (32 : ℝ) * N ≤ F := by exact_mod_cast hF
  have hF0 : (0 : ℝ) < F := by linarith
  have hp := Real.pi_pos
  have hp2 := Real.pi_lt_d2
  have hMr : (8 : ℝ) ≤ M := by exact_mod_cast hM
  have hpM : Real.pi / (4 * M) ≤ 99 / 1000 := by
    rw [div_le_iff₀ (by positivity)]
    nlinarith
  have hpM0 : 0 ≤ Real.pi / (4 * (M : ℝ)) := by positivity
  have hslope : |2 * Real.pi / os * (f - e)| * N ≤ 1 / 20 := by
    have h4 := h3 e (List.mem_of_getElem? he)
    rw [abs_sub_comm] at h4
    rw [abs_mul, abs_of_pos (show 0 < 2 * Real.pi / os by positivity)]
    calc 2 * Real.pi / os * |f - e| * N ≤ 2 * Real.pi / os * (os / (4 * F)) * N := by gcongr
      _ = Real.pi / 2 * (N / F) := by field_simp; norm_num
      _ ≤ Real.pi / 2 * (1 / 32) := by
        refine mul_le_mul_of_nonneg_left ?_ (by positivity)
        rw [div_le_div_iff₀ hF0 (by norm_num)]
        linarith
      _ ≤ 1 / 20 := by linarith
  have hroot : (14 : ℝ) / 10 < √2 := by
    rw [Real.lt_sqrt (by norm_num)]; norm_num
  have hroot2 : (7 : ℝ) / 10 < 1 / √2 := by
    have h2 : (0 : ℝ) < √2 := by positivity
    rw [lt_div_iff₀ h2]
    have : √2 < 10 / 7 := by
      rw [Real.sqrt_lt' (by norm_num)]; norm_num
    linarith
  obtain ⟨out, ph, q, d, k1, k2, k3, k4⟩ := C163_error_free r' symbols c M N (s l)
    (fun n => θ l - 2 * Real.pi * e / os + 2 * Real.pi / os * (f - e) * n) (1 / 20) (1 / 35) hN (by omega) hc0 hsym hnd {
      mem := by
        intro j hj
        rw [hrl] at hj
        exact (g2 j hj).1
      drift := by
        intro i j _ _ b1 b2
        have b1' : (i : ℝ) ≤ j + N := by exact_mod_cast b1
        have b2' : (j : ℝ) ≤ i + N := by exact_mod_cast b2
        have e1 : θ l - 2 * Real.pi * e / os + 2 * Real.pi / os * (f - e) * i - (θ l - 2 * Real.pi * e / os + 2 * Real.pi / os * (f - e) * j) =
            2 * Real.pi / os * (f - e) * (i - j) := by ring
        rw [e1, abs_mul]
        have b3 : |(i : ℝ) - j| ≤ N := by
          rw [abs_le]
          constructor <;> linarith
        calc |2 * Real.pi / os * (f - e)| * |(i : ℝ) - j| ≤ |2 * Real.pi / os * (f - e)| * N := by gcongr
          _ ≤ 1 / 20 := hslope
      noise := by
        intro j hj
        rw [hrl] at hj
        have g3 := (g2 j hj).2
        rw [List.getD_eq_getElem?_getD, List.getElem?_eq_getElem hj, Option.getD_some] at g3
        rw [List.getD_eq_getElem?_getD, hr', List.getElem?_mapIdx, List.getElem?_eq_getElem hj, Option.map_some, Option.getD_some]
        have e1 : r[j] * Complex.exp (-(I * ((2 * Real.pi * ((j : ℝ) + 1) * e / os : ℝ) : ℂ))) - s l j *
            Complex.exp (I * ((θ l - 2 * Real.pi * e / os + 2 * Real.pi / os * (f - e) * j : ℝ) : ℂ)) =
            (r[j] - s l j * Complex.exp (I * ((2 * Real.pi * j * f / os + θ l : ℝ) : ℂ))) *
              Complex.exp (I * ((-(2 * Real.pi * ((j : ℝ) + 1) * e / os) : ℝ) : ℂ)) := by
          rw [sub_mul, mul_assoc (s l j), ← Complex.exp_add]
          congr 3
          · push_cast; ring
          · push_cast; ring
        rw [e1, norm_mul, norm_exp_I, mul_one]
        exact g3 }
    (by rw [hc]; norm_num) (by
      rw [hc, one_mul]
      have a1 : (Real.pi / (4 * M) + 1 / 20 + 1 / 35 : ℝ) ^ 2 ≤ (1 / 5) ^ 2 := by
        apply pow_le_pow_left₀ (by positivity)
        linarith
      have a2 : (N : ℝ) ≤ 10000 := by exact_mod_cast hN2
      have a3 : 0 ≤ (Real.pi / (4 * M) + 1 / 20 + 1 / 35 : ℝ) ^ 2 := by positivity
      nlinarith) (by rw [hc]; linarith) (by rw [hc]; linarith) (by rw [hrl]; omega)
  rw [hrl] at k2 k3 k4
  refine ⟨r', out, ph, q, d, ?_, k1, k2, k3, k4⟩
  rw [List.getElem?_zipWith, hr, he, hr']

/-- QPSK with an offset of a tenth of the symbol rate, a phase of one radian and noise, as long as one likes. -/
example (L : Nat) (hL : 32 ≤ L) : ∃ (est : List ℝ) (comp : List (List ℂ)) (r' out : List ℂ) (ph : List ℝ) (q : Nat) (d : List (ℂ × ℝ × Nat)),
    findFreqOffset [(List.range L).map fun j : Nat => I ^ j * Complex.exp (I * ((2 * Real.pi * j * (1 / 10) / 1 + 1 : ℝ) : ℂ)) + (-1) ^ j / 50]
      1 true 32 = some est ∧
    compFreqOffset [(List.range L).map fun j : Nat => I ^ j * Complex.exp (I * ((2 * Real.pi * j * (1 / 10) / 1 + 1 : ℝ) : ℂ)) + (-1) ^ j / 50]
      est 1 = .ok comp ∧ comp[0]? = some r' ∧ bps r' 8 [1, I, -1, -I] 1 = some (out, ph) ∧
      makeDecision ((out.drop 1).take (L - 2)) [1, I, -1, -I] = some d ∧
      d.map (·.1) = (List.range (L - 2)).map (fun n => I ^ q * I ^ (1 + n)) := by
  have hc : Nat.clog 2 32 = 5 := by decide +kernel
  obtain ⟨est, comp, h1, h2, -, h3⟩ := C167_qpsk_chain
    [(List.range L).map fun j : Nat => I ^ j * Complex.exp (I * ((2 * Real.pi * j * (1 / 10) / 1 + 1 : ℝ) : ℂ)) + (-1) ^ j / 50]
    [1, I, -1, -I] 1 (fun _ j => I ^ j) (fun _ => 1) (1 / 10) 1 32 8 1 true one_pos (by simp) qpsk_members
    (by simp [Complex.ext_iff]; norm_num) (by rw [hc, abs_of_pos] <;> norm_num) le_rfl le_rfl (by norm_num) (by rw [hc]; norm_num) (by
      intro l r hr
      have hl : l = 0 := by
        by_contra hne
        rw [List.getElem?_eq_none (by simp; omega)] at hr
        cases hr
      subst hl
      simp only [List.getElem?_cons_zero, Option.some.injEq] at hr
      subst hr
      refine ⟨by rw [hc]; simpa using hL, ?_⟩
      intro n hn
      rw [List.length_map, List.length_range] at hn
      refine ⟨(qpsk_members _).2 ⟨n, by simp⟩, ?_⟩
      simp only [List.getD, List.getElem?_map, List.getElem?_range hn, Option.map_some, Option.getD_some, add_sub_cancel_left]
      simp
      norm_num)
  obtain ⟨r', out, ph, q, d, k1, k2, k3, k4, -⟩ := h3 0 _ rfl
  rw [List.length_map, List.length_range] at k3 k4
  exact ⟨est, comp, r', out, ph, q, d, h1, h2, k1, k2, k3, k4⟩

end Qampy
