import Verif.Model.PulseShape
import Verif.Model.Resample
import Verif.Props.Resample
import Verif.Lemmas.Fourier
import Verif.Tactics
import Mathlib.Topology.Algebra.InfiniteSum.Basic
import Mathlib.Topology.Instances.Real.Lemmas

/-!
C49: the raised cosine spectrum and the Nyquist criterion. C107: pulse shaping with the matched filter has no intersymbol interference.
-/

namespace Qampy

open Complex

/-! ### The spectrum -/

/-- C49: even, between zero and `T`, and the square of the root raised cosine. -/
theorem C49_spectrum (beta T f : ℝ) (hT : 0 < T) :
    rcosFreq beta T (-f) = rcosFreq beta T f ∧ rrcosFreq beta T (-f) = rrcosFreq beta T f ∧ 0 ≤ rcosFreq beta T f ∧ rcosFreq beta T f ≤ T ∧
      0 ≤ rrcosFreq beta T f ∧ rrcosFreq beta T f ≤ Real.sqrt T ∧ rrcosFreq beta T f ^ 2 = rcosFreq beta T f := by
  have h0 : 0 ≤ rcosFreq beta T f ∧ rcosFreq beta T f ≤ T := by
    unfold rcosFreq
    split
    · exact ⟨hT.le, le_refl _⟩
    split
    · have h1 := Real.neg_one_le_cos (Real.pi * T / beta * (|f| - (1 - beta) / (2 * T)))
      have h2 := Real.cos_le_one (Real.pi * T / beta * (|f| - (1 - beta) / (2 * T)))
      constructor <;> nlinarith
    · exact ⟨le_refl _, hT.le⟩
  have he : rcosFreq beta T (-f) = rcosFreq beta T f := by unfold rcosFreq; rw [abs_neg]
  exact ⟨he, by unfold rrcosFreq; rw [he], h0.1, h0.2, Real.sqrt_nonneg _, Real.sqrt_le_sqrt h0.2, Real.sq_sqrt h0.1⟩

/-- C49: flat up to `(1-beta)/(2T)`, zero from `(1+beta)/(2T)` on, half way at `1/(2T)`. -/
theorem C49_band (beta T f : ℝ) (hT : 0 < T) (hb : 0 < beta) :
    (|f| ≤ (1 - beta) / (2 * T) → rcosFreq beta T f = T) ∧ ((1 + beta) / (2 * T) ≤ |f| → rcosFreq beta T f = 0) ∧
      (|f| = 1 / (2 * T) → rcosFreq beta T f = T / 2) := by
  have h2T : 0 < 2 * T := by linarith
  refine ⟨fun h => by unfold rcosFreq; rw [if_pos h], fun h => ?_, fun h => ?_⟩
  · unfold rcosFreq
    rw [if_neg (by
      have : (1 - beta) / (2 * T) < (1 + beta) / (2 * T) := div_lt_div_of_pos_right (by linarith) h2T
      linarith)]
    split
    · next h' =>
      have e : |f| = (1 + beta) / (2 * T) := le_antisymm h' h
      rw [e, show Real.pi * T / beta * ((1 + beta) / (2 * T) - (1 - beta) / (2 * T)) = Real.pi from by field_simp; ring, Real.cos_pi]
      ring
    · rfl
  · unfold rcosFreq
    rw [h, if_neg (by rw [not_le]; exact div_lt_div_of_pos_right (by linarith) h2T), if_pos (div_le_div_of_nonneg_right (by linarith) h2T.le),
      show Real.pi * T / beta * (1 / (2 * T) - (1 - beta) / (2 * T)) = Real.pi / 2 from by field_simp; ring, Real.cos_pi_div_two]
    ring

/-- Two neighbouring replicas add up to `T`. -/
theorem rcos_pair (beta T : ℝ) (hT : 0 < T) (hb : 0 < beta) (x : ℝ) (h0 : 0 ≤ x) (h1 : x ≤ 1) :
    rcosFreq beta T (x / T) + rcosFreq beta T ((x - 1) / T) = T := by
  have h2T : 0 < 2 * T := by linarith
  have a1 : |x / T| = x / T := abs_of_nonneg (div_nonneg h0 hT.le)
  have a2 : |(x - 1) / T| = (1 - x) / T := by
    rw [abs_of_nonpos (div_nonpos_of_nonpos_of_nonneg (by linarith) hT.le)]
    ring
  have sc : ∀ u v : ℝ, u / T ≤ v / (2 * T) ↔ 2 * u ≤ v := by
    intro u v
    rw [div_le_div_iff₀ hT h2T]
    constructor
    · intro h; nlinarith
    · intro h; nlinarith
  have sc' : ∀ u v : ℝ, v / (2 * T) ≤ u / T ↔ v ≤ 2 * u := by
    intro u v
    rw [div_le_div_iff₀ h2T hT]
    constructor
    · intro h; nlinarith
    · intro h; nlinarith
  rcases le_or_gt (2 * x) (1 - beta) with h | h
  · rw [(C49_band beta T (x / T) hT hb).1 (by rw [a1, sc]; exact h), (C49_band beta T ((x - 1) / T) hT hb).2.1 (by rw [a2, sc']; linarith), add_zero]
  rcases le_or_gt (1 + beta) (2 * x) with h' | h'
  · rw [(C49_band beta T (x / T) hT hb).2.1 (by rw [a1, sc']; exact h'), (C49_band beta T ((x - 1) / T) hT hb).1 (by rw [a2, sc]; linarith), zero_add]
  unfold rcosFreq
  rw [a1, a2, if_neg (by rw [sc]; linarith), if_pos (by rw [sc]; linarith), if_neg (by rw [sc]; linarith), if_pos (by rw [sc]; linarith)]
  have e : Real.pi * T / beta * ((1 - x) / T - (1 - beta) / (2 * T)) = Real.pi - Real.pi * T / beta * (x / T - (1 - beta) / (2 * T)) := by
    field_simp
    ring
  rw [e, Real.cos_pi_sub]
  ring

theorem rcos_far (beta T : ℝ) (hT : 0 < T) (hb : 0 < beta) (hb1 : beta ≤ 1) (x : ℝ) (h : 1 ≤ |x|) : rcosFreq beta T (x / T) = 0 := by
  refine (C49_band beta T _ hT hb).2.1 ?_
  rw [abs_div, abs_of_pos hT, div_le_div_iff₀ (by linarith) hT]
  nlinarith

/-- C49, Nyquist criterion: the spectrum folded at the symbol rate is constant, at every frequency, for roll-offs in (0,1]. -/
theorem C49_nyquist_partial (beta T f : ℝ) (hT : 0 < T) (hb : 0 < beta) (hb1 : beta ≤ 1) : HasSum (fun k : ℤ => rcosFreq beta T (f + k / T)) T := by
  set n : ℤ := ⌊f * T⌋ with hn
  set x : ℝ := f * T - n with hx
  have h0 : 0 ≤ x := by have := Int.floor_le (f * T); rw [hx]; linarith
  have h1 : x < 1 := by have := Int.lt_floor_add_one (f * T); rw [hx]; linarith
  have hval : ∀ k : ℤ, rcosFreq beta T (f + k / T) = rcosFreq beta T ((x + (n + k : ℤ)) / T) := by
    intro k
    congr 1
    rw [hx]
    push_cast
    field_simp
    ring
  have hs : HasSum (fun k : ℤ => rcosFreq beta T (f + k / T)) (∑ b ∈ ({-n, -n - 1} : Finset ℤ), rcosFreq beta T (f + b / T)) := hasSum_sum_of_ne_finset_zero (by
    intro k hk
    rw [hval]
    apply rcos_far _ _ hT hb hb1
    have hk' : k ≠ -n ∧ k ≠ -n - 1 := by simpa using hk
    have : n + k ≤ -2 ∨ 1 ≤ n + k := by omega
    rcases this with h | h
    · have : ((n + k : ℤ) : ℝ) ≤ -2 := by exact_mod_cast h
      rw [abs_of_nonpos (by linarith)]; linarith
    · have : (1 : ℝ) ≤ ((n + k : ℤ) : ℝ) := by exact_mod_cast h
      rw [abs_of_nonneg (by linarith)]; linarith)
  have e : ∑ b ∈ ({-n, -n - 1} : Finset ℤ), rcosFreq beta T (f + b / T) = T := by
    rw [Finset.sum_pair (by omega), hval, hval]
    have := rcos_pair beta T hT hb x h0 h1.le
    convert this using 3
    · push_cast; ring
    · push_cast; ring
  rw [e] at hs
  exact hs

/-- The criterion for all roll-offs that the documentation of the code allows, zero included. -/
def C49_statement : Prop := ∀ beta T f : ℝ, 0 < T → 0 ≤ beta → beta ≤ 1 → HasSum (fun k : ℤ => rcosFreq beta T (f + k / T)) T

/-- For `beta = 0` both band edges are included, so the folded spectrum is twice as large there. -/
theorem C49_false : ¬ C49_statement := by
  intro h
  have h1 := h 0 1 (1 / 2) one_pos (le_refl _) zero_le_one
  have hv : ∀ f : ℝ, rcosFreq 0 1 f = if |f| ≤ 1 / 2 then 1 else 0 := by
    intro f
    unfold rcosFreq
    norm_num
  have hs : HasSum (fun k : ℤ => rcosFreq 0 1 (1 / 2 + k / 1)) (∑ b ∈ ({0, -1} : Finset ℤ), rcosFreq 0 1 (1 / 2 + b / 1)) := hasSum_sum_of_ne_finset_zero (by
    intro k hk
    have hk' : k ≠ 0 ∧ k ≠ -1 := by simpa using hk
    rw [hv, if_neg]
    rw [not_le]
    have : k ≤ -2 ∨ 1 ≤ k := by omega
    rcases this with h | h
    · have : (k : ℝ) ≤ -2 := by exact_mod_cast h
      rw [abs_of_nonpos (by linarith)]; linarith
    · have : (1 : ℝ) ≤ (k : ℝ) := by exact_mod_cast h
      rw [abs_of_nonneg (by linarith)]; linarith)
  have e : ∑ b ∈ ({0, -1} : Finset ℤ), rcosFreq 0 1 (1 / 2 + b / 1) = 2 := by
    rw [Finset.sum_pair (by omega), hv, hv]
    norm_num [abs_of_neg, abs_of_pos]
  rw [e] at hs
  have := h1.unique hs
  norm_num at this

/-- Roll-off one half at three frequencies. -/
example : rcosFreq (1 / 2) 1 (1 / 8) = 1 ∧ rcosFreq (1 / 2) 1 (1 / 2) = 1 / 2 ∧ rcosFreq (1 / 2) 1 (-3 / 4) = 0 := by
  refine ⟨(C49_band _ _ _ one_pos (by norm_num)).1 (by norm_num [abs_of_pos]), (C49_band _ _ _ one_pos (by norm_num)).2.2 (by norm_num [abs_of_pos]),
    (C49_band _ _ _ one_pos (by norm_num)).2.1 (by norm_num [abs_of_neg])⟩

/-! ### No intersymbol interference -/

/-- The largest value of the filter is at frequency zero. -/
theorem rrcosFilter_eq (n : Nat) (hn : 0 < n) (fs T beta : ℝ) (hT : 0 < T) (hb1 : beta ≤ 1) :
    rrcosFilter n fs T beta = .ok ((List.range n).map fun m => rrcosFreq beta T (fftfreq n 1 m * fs) / Real.sqrt T) := by
  have h0 : rrcosFreq beta T (fftfreq n 1 0 * fs) = Real.sqrt T := by
    unfold rrcosFreq
    congr 1
    have : fftfreq n 1 0 = 0 := by unfold fftfreq; rw [if_pos (by omega)]; simp
    rw [this, zero_mul]
    unfold rcosFreq
    rw [if_pos]
    rw [abs_zero]
    exact div_nonneg (by linarith) (by linarith)
  have hmax : ((List.range n).map fun m => rrcosFreq beta T (fftfreq n 1 m * fs)).max? = some (Real.sqrt T) := by
    rw [List.max?_eq_some_iff]
    constructor
    · exact List.mem_map.2 ⟨0, List.mem_range.2 hn, h0⟩
    · intro b hb
      obtain ⟨m, -, rfl⟩ := List.mem_map.1 hb
      exact (C49_spectrum beta T _ hT).2.2.2.2.2.1
  unfold rrcosFilter
  dsimp only
  rw [hmax]
  dsimp only
  rw [List.map_map]
  rfl

/-- The folded discrete response: the `n` aliases of bin `a` of `L` add up to one. -/
theorem folded_one (n L a : Nat) (hn : 2 ≤ n) (ha : a < L) (fb beta : ℝ) (hfb : 0 < fb) (hb : 0 < beta) (hb1 : beta ≤ 1) :
    ∑ b ∈ Finset.range n, rcosFreq beta (1 / fb) (fftfreq (n * L) 1 (a + L * b) * (n * fb)) = 1 / fb := by
  have hT : (0 : ℝ) < 1 / fb := by positivity
  have hL : 0 < L := by omega
  have hLr : (0 : ℝ) < L := by exact_mod_cast hL
  have hnr : (0 : ℝ) < n := by exact_mod_cast (by omega : 0 < n)
  have hx0 : (0 : ℝ) ≤ (a : ℝ) / L := by positivity
  have hx1 : (a : ℝ) / L < 1 := by rw [div_lt_one hLr]; exact_mod_cast ha
  have hfreq : ∀ b : Nat, fftfreq (n * L) 1 (a + L * b) * (n * fb) =
      (if a + L * b < (n * L + 1) / 2 then (a : ℝ) / L + b else (a : ℝ) / L + b - n) / (1 / fb) := by
    intro b
    unfold fftfreq
    split
    · push_cast; field_simp
    · push_cast; field_simp
  have hLn : L * 2 ≤ n * L := by rw [mul_comm n L]; exact Nat.mul_le_mul_left _ hn
  have hfirst : rcosFreq beta (1 / fb) (fftfreq (n * L) 1 (a + L * 0) * (n * fb)) = rcosFreq beta (1 / fb) ((a : ℝ) / L / (1 / fb)) := by
    rw [hfreq, if_pos (by omega)]
    simp
  have hlast : rcosFreq beta (1 / fb) (fftfreq (n * L) 1 (a + L * (n - 1)) * (n * fb)) = rcosFreq beta (1 / fb) (((a : ℝ) / L - 1) / (1 / fb)) := by
    have e1 : L * (n - 1) = n * L - L := by rw [Nat.mul_sub, mul_one, mul_comm]
    rw [hfreq, if_neg (by omega)]
    congr 2
    have : ((n - 1 : Nat) : ℝ) = n - 1 := by rw [Nat.cast_sub (by omega)]; simp
    rw [this]; ring
  obtain ⟨m, rfl⟩ : ∃ m, n = m + 2 := ⟨n - 2, by omega⟩
  rw [Finset.sum_range_succ, Finset.sum_range_succ', hfirst]
  have hm : m + 2 - 1 = m + 1 := rfl
  rw [hm] at hlast
  rw [hlast]
  have hmid : ∑ k ∈ Finset.range m, rcosFreq beta (1 / fb) (fftfreq ((m + 2) * L) 1 (a + L * (k + 1)) * (((m + 2 : Nat) : ℝ) * fb)) = 0 := by
    apply Finset.sum_eq_zero
    intro k hk
    have hk' := Finset.mem_range.1 hk
    have hkr : (k : ℝ) + 1 ≤ m := by exact_mod_cast hk'
    have hk0 : (0 : ℝ) ≤ k := Nat.cast_nonneg k
    rw [hfreq]
    apply rcos_far _ _ hT hb hb1
    split
    · rw [abs_of_nonneg (by push_cast; linarith)]; push_cast; linarith
    · rw [abs_of_nonpos (by push_cast; linarith)]; push_cast; linarith
  rw [hmid, zero_add]
  exact rcos_pair beta (1 / fb) hT hb _ hx0 hx1.le

theorem at0_insertZeros (n : Nat) (hn : 1 ≤ n) (s : List ℂ) (i : Nat) (hi : i < n * s.length) : at0 (insertZeros 0 n s) i = if i % n = 0 then at0 s (i / n) else 0 := by
  apply at0_of_some
  rw [getElem?_insertZeros _ _ hn _ _ hi]
  split
  · exact at0_getElem? (by rw [Nat.div_lt_iff_lt_mul (by omega), mul_comm]; exact hi)
  · rfl

/-- Splitting a sum over `n*L` terms into residues modulo `L`. -/
theorem sum_range_mul_split (n L : Nat) (g : Nat → ℂ) : ∑ k ∈ Finset.range (n * L), g k = ∑ a ∈ Finset.range L, ∑ b ∈ Finset.range n, g (a + L * b) := by
  rw [Finset.sum_comm]
  induction n with
  | zero => simp
  | succ n ih =>
    rw [Nat.succ_mul, Finset.sum_range_add, ih, Finset.sum_range_succ]
    congr 1
    refine Finset.sum_congr rfl fun a _ => ?_
    congr 1
    ring

theorem ew_scale (n L : Nat) (hn : 0 < n) (m : ℤ) : ew (n * L) (n * m) = ew L m := by
  unfold ew
  congr 2
  have : (n : ℂ) ≠ 0 := by exact_mod_cast hn.ne'
  push_cast
  rw [mul_div_mul_left _ _ this]

/-- Spectrum of the upsampled signal: the spectrum of the symbols, repeated. -/
theorem fft_insertZeros (n : Nat) (hn : 1 ≤ n) (s : List ℂ) (k : Nat) (hk : k < n * s.length) :
    at0 (fft (insertZeros 0 n s)) k = ∑ j ∈ Finset.range s.length, at0 s j * ew s.length (-(j * k : ℤ)) := by
  have hlen : (insertZeros 0 n s).length = n * s.length := length_insertZeros _ _ hn _
  rw [at0_fft _ (by rw [hlen]; exact hk), hlen, mul_comm n s.length, sum_range_mul_split, ← Nat.sub_add_cancel hn, Finset.sum_range_succ', Nat.sub_add_cancel hn,
    Finset.sum_eq_zero, zero_add]
  · refine Finset.sum_congr rfl fun b hb => ?_
    have hb' := Finset.mem_range.1 hb
    rw [zero_add, at0_insertZeros n hn s _ (Nat.mul_lt_mul_of_pos_left hb' hn), if_pos (Nat.mul_mod_right _ _), Nat.mul_div_cancel_left _ hn, mul_comm s.length n]
    congr 1
    rw [← ew_scale n s.length hn]
    congr 1
    push_cast
    ring
  · intro a ha
    have ha' := Finset.mem_range.1 ha
    refine Finset.sum_eq_zero fun b hb => ?_
    have hb' := Finset.mem_range.1 hb
    have hlt : a + 1 + n * b < n * s.length := by
      have : n * (b + 1) ≤ n * s.length := Nat.mul_le_mul_left _ hb'
      rw [Nat.mul_add] at this
      omega
    rw [at0_insertZeros n hn s _ hlt, if_neg, zero_mul]
    rw [Nat.add_mul_mod_self_left, Nat.mod_eq_of_lt (by omega)]
    omega

/-- Filtering a repeated spectrum with a response that folds to one, and taking every `n`-th sample, gives the symbols divided by `n`. -/
theorem fold_filter (n : Nat) (hn : 1 ≤ n) (s : List ℂ) (h : List ℂ) (hl : h.length = n * s.length)
    (hfold : ∀ a, a < s.length → ∑ b ∈ Finset.range n, at0 h (a + s.length * b) = 1) :
    Np.strided (ifft (rowMul (fft (insertZeros 0 n s)) h)) n = s.map fun z => z / (n : ℂ) := by
  have hlen : (insertZeros 0 n s).length = n * s.length := length_insertZeros _ _ hn _
  have hrl : (rowMul (fft (insertZeros 0 n s)) h).length = n * s.length := by rw [length_rowMul, length_fft, hlen, hl, Nat.min_self]
  apply List.ext_getElem?
  intro m
  rw [getElem?_strided' _ _ hn, List.getElem?_map]
  rcases Nat.lt_or_ge m s.length with hm | hm
  swap
  · rw [List.getElem?_eq_none hm, List.getElem?_eq_none]
    · rfl
    · rw [length_ifft, hrl, mul_comm]; exact Nat.mul_le_mul_right _ hm
  have hmn : m * n < n * s.length := by rw [mul_comm]; exact Nat.mul_lt_mul_of_pos_left hm hn
  rw [at0_getElem? (by rw [length_ifft, hrl]; exact hmn), at0_getElem? hm, Option.map_some]
  congr 1
  rw [at0_ifft _ (by rw [hrl]; exact hmn), hrl]
  have hL : 0 < s.length := by omega
  have hLc : (s.length : ℂ) ≠ 0 := by exact_mod_cast hL.ne'
  have hnc : (n : ℂ) ≠ 0 := by exact_mod_cast (by omega : n ≠ 0)
  -- the sum over all bins, symbol by symbol
  have key : ∑ k ∈ Finset.range (n * s.length), at0 (rowMul (fft (insertZeros 0 n s)) h) k * ew (n * s.length) (((m * n : Nat) : ℤ) * k)
      = ∑ j ∈ Finset.range s.length, at0 s j * ∑ a ∈ Finset.range s.length, ew s.length (((m : ℤ) - j) * a) := by
    have e1 : ∀ k ∈ Finset.range (n * s.length), at0 (rowMul (fft (insertZeros 0 n s)) h) k * ew (n * s.length) (((m * n : Nat) : ℤ) * k)
        = ∑ j ∈ Finset.range s.length, at0 s j * (at0 h k * ew s.length (((m : ℤ) - j) * k)) := by
      intro k hk
      have hk' := Finset.mem_range.1 hk
      rw [at0_rowMul _ _ (by rw [length_fft, hlen]; exact hk') (by rw [hl]; exact hk'), fft_insertZeros n hn s k hk', Finset.sum_mul, Finset.sum_mul]
      refine Finset.sum_congr rfl fun j _ => ?_
      have e2 : ew (n * s.length) (((m * n : Nat) : ℤ) * k) = ew s.length ((m : ℤ) * k) := by
        rw [← ew_scale n s.length hn]
        congr 1
        push_cast
        ring
      rw [e2, show ((m : ℤ) - j) * k = -((j : ℤ) * k) + (m : ℤ) * k from by ring, ew_add]
      ring
    rw [Finset.sum_congr rfl e1, Finset.sum_comm]
    refine Finset.sum_congr rfl fun j _ => ?_
    rw [← Finset.mul_sum, sum_range_mul_split]
    congr 1
    refine Finset.sum_congr rfl fun a ha => ?_
    have e3 : ∀ b ∈ Finset.range n, at0 h (a + s.length * b) * ew s.length (((m : ℤ) - j) * ((a + s.length * b : Nat) : ℤ))
        = at0 h (a + s.length * b) * ew s.length (((m : ℤ) - j) * a) := by
      intro b _
      congr 1
      rw [show ((m : ℤ) - j) * ((a + s.length * b : Nat) : ℤ) = ((m : ℤ) - j) * a + s.length * (((m : ℤ) - j) * b) from by push_cast; ring, ew_add, ew_mul_self _ hL, mul_one]
    rw [Finset.sum_congr rfl e3, ← Finset.sum_mul, hfold a (Finset.mem_range.1 ha), one_mul]
  rw [key]
  have orth : ∀ j ∈ Finset.range s.length, at0 s j * ∑ a ∈ Finset.range s.length, ew s.length (((m : ℤ) - j) * a) = if j = m then at0 s m * s.length else 0 := by
    intro j hj
    rw [ew_orth hL]
    by_cases hjm : j = m
    · subst hjm; simp
    · rw [if_neg hjm, if_neg, mul_zero]
      rw [dvd_sub_iff hm (Finset.mem_range.1 hj)]
      exact fun h => hjm h.symm
  rw [Finset.sum_congr rfl orth, Finset.sum_ite_eq' , if_pos (Finset.mem_range.2 hm)]
  push_cast
  field_simp

/-- C107: symbols upsampled to `n ≥ 2` samples per symbol with the root raised cosine filter of `rrcos_resample` (spectral domain), filtered with the same
filter again and sampled once per symbol come back without intersymbol interference, scaled by `1/n`. -/
theorem C107_matched_filter (s : List ℂ) (hs : s ≠ []) (n : Nat) (hn : 2 ≤ n) (fb beta : ℝ) (hfb : 0 < fb) (hb : 0 < beta) (hb1 : beta ≤ 1) :
    (do
      let tx ← rrcosResample 0 (rrcosPulseFreq (n * fb) (1 / fb) beta) n 1 s
      let rx ← rrcosPulseFreq (n * fb) (1 / fb) beta tx
      return Np.strided rx n) = (.ok (s.map fun z => z / (n : ℂ)) : Except PyErr (List ℂ)) := by
  have hT : (0 : ℝ) < 1 / fb := by positivity
  have hL : 0 < s.length := List.length_pos_iff.2 hs
  have hNpos : 0 < n * s.length := Nat.mul_pos (by omega) hL
  have hlen : (insertZeros 0 n s).length = n * s.length := length_insertZeros _ _ (by omega) _
  obtain ⟨g, hg⟩ : ∃ g : List ℝ, g = (List.range (n * s.length)).map fun m => rrcosFreq beta (1 / fb) (fftfreq (n * s.length) 1 m * (n * fb)) / Real.sqrt (1 / fb) := ⟨_, rfl⟩
  have hpulse : ∀ x : List ℂ, x.length = n * s.length → rrcosPulseFreq (n * fb) (1 / fb) beta x = .ok (ifft (rowMul (fft x) (g.map fun (v : ℝ) => (v : ℂ)))) := by
    intro x hx
    unfold rrcosPulseFreq
    rw [hx, rrcosFilter_eq _ hNpos _ _ _ hT hb1, hg]
    rfl
  have hgl : g.length = n * s.length := by rw [hg]; simp
  have htx : rrcosResample 0 (rrcosPulseFreq (n * fb) (1 / fb) beta) n 1 s = .ok (ifft (rowMul (fft (insertZeros 0 n s)) (g.map fun (v : ℝ) => (v : ℂ)))) := by
    unfold rrcosResample
    rw [if_neg (by omega), Int.toNat_natCast, hpulse _ hlen]
    show Except.ok (Np.strided _ 1) = _
    rw [strided_one]
  rw [htx]
  have hlen2 : (ifft (rowMul (fft (insertZeros 0 n s)) (g.map fun (v : ℝ) => (v : ℂ)))).length = n * s.length := by
    rw [length_ifft, length_rowMul, length_fft, hlen, List.length_map, hgl, Nat.min_self]
  have hbind : ∀ (x : List ℂ) (f : List ℂ → Except PyErr (List ℂ)), ((Except.ok x : Except PyErr (List ℂ)) >>= f) = f x := fun _ _ => rfl
  rw [hbind, hpulse _ hlen2, hbind, fft_ifft]
  refine congrArg Except.ok ?_
  have hassoc : rowMul (rowMul (fft (insertZeros 0 n s)) (g.map fun (v : ℝ) => (v : ℂ))) (g.map fun (v : ℝ) => (v : ℂ))
      = rowMul (fft (insertZeros 0 n s)) (g.map fun (v : ℝ) => ((v ^ 2 : ℝ) : ℂ)) := by
    apply ext_at0
    · simp [hlen, hgl]
    · intro k hk
      have hk' : k < n * s.length := by simpa [hlen, hgl] using hk
      have a1 : k < (fft (insertZeros 0 n s)).length := by rw [length_fft, hlen]; exact hk'
      have a2 : ∀ f : ℝ → ℂ, k < (g.map f).length := fun f => by rw [List.length_map, hgl]; exact hk'
      have a3 : ∀ f : ℝ → ℂ, at0 (g.map f) k = f (g[k]'(by rw [hgl]; exact hk')) := fun f =>
        at0_of_some (by rw [List.getElem?_map, List.getElem?_eq_getElem (by rw [hgl]; exact hk')]; rfl)
      rw [at0_rowMul _ _ (by simp [hlen, hgl]; omega) (a2 _), at0_rowMul _ _ a1 (a2 _), at0_rowMul _ _ a1 (a2 _), a3, a3]
      push_cast
      ring
  rw [hassoc]
  refine fold_filter n (by omega) s _ (by rw [List.length_map, hgl]) fun a ha => ?_
  have hv : ∀ b ∈ Finset.range n, at0 (g.map fun (v : ℝ) => ((v ^ 2 : ℝ) : ℂ)) (a + s.length * b)
      = ((rcosFreq beta (1 / fb) (fftfreq (n * s.length) 1 (a + s.length * b) * (n * fb)) / (1 / fb) : ℝ) : ℂ) := by
    intro b hb
    have hlt : a + s.length * b < n * s.length := by
      have : s.length * (b + 1) ≤ s.length * n := Nat.mul_le_mul_left _ (Finset.mem_range.1 hb)
      rw [Nat.mul_add, mul_comm s.length n] at this
      omega
    apply at0_of_some
    rw [List.getElem?_map, hg, List.getElem?_map, List.getElem?_range hlt]
    simp only [Option.map_some]
    congr 2
    rw [div_pow, Real.sq_sqrt hT.le, (C49_spectrum beta _ _ hT).2.2.2.2.2.2]
  rw [Finset.sum_congr rfl hv, ← ofReal_sum, ← Finset.sum_div, folded_one n s.length a hn ha fb beta hfb hb hb1, div_self hT.ne']
  simp

/-- Three symbols at two samples per symbol, roll-off 0.2. -/
example : (do
      let tx ← rrcosResample 0 (rrcosPulseFreq ((2 : Nat) * 10) (1 / 10) (1 / 5)) (2 : Nat) 1 [1, I, -1]
      let rx ← rrcosPulseFreq ((2 : Nat) * 10) (1 / 10) (1 / 5) tx
      return Np.strided rx 2) = (.ok [1 / 2, I / 2, -1 / 2] : Except PyErr (List ℂ)) := by
  rw [C107_matched_filter [1, I, -1] (by simp) 2 le_rfl 10 (1 / 5) (by norm_num) (by norm_num) (by norm_num)]
  simp

end Qampy
