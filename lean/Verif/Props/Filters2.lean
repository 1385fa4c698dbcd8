import Verif.Props.Filters
import Mathlib.Analysis.SpecialFunctions.Pow.Real

/-!
C96-C99: dispersion compensation and frequency domain filters.
-/

namespace Qampy

open Complex

/-! ### C96 -/

theorem linspace_length (a b : ℝ) (n : Nat) : (linspace a b n).length = n := by simp [linspace]

theorem cdComp_single {E : List ℂ} (h0 : E ≠ []) (fs L D wl : ℝ) :
    cdComp E fs 0 L D wl = .ok (ifft (ifftshift (rowMul (fftshift (fft E)) (dispH ((linspace (-1) 1 E.length).map (Real.pi * fs * ·)) D L wl)))) := by
  have : E.length ≠ 0 := fun hc => h0 (List.length_eq_zero_iff.1 hc)
  simp [cdComp, h0]

/-- The full claim: with one of the two signs, the compensation of a length `L` undoes the dispersion of this length. -/
def C96_statement : Prop :=
  ∃ s : ℝ, (s = 1 ∨ s = -1) ∧ ∀ (x : List ℂ) (fs D L wl : ℝ), x ≠ [] → cdComp (disperseRow fs D L wl x) fs 0 (s * L) D wl = .ok x

theorem fft_pair_one : at0 (fft [1, 1]) 0 = 2 ∧ at0 (fft [1, 1]) 1 = 0 := by
  constructor
  · rw [at0_fft _ (by simp)]
    simp [Finset.sum_range_succ, at0, ew_zero]
    norm_num
  · rw [at0_fft _ (by simp)]
    have : ew 2 (-1) = -1 := by
      unfold ew
      rw [show (2 * Real.pi * I * ((-1 : Int) / (2 : Nat)) : ℂ) = -(Real.pi * I) by push_cast; ring, Complex.exp_neg, Complex.exp_pi_mul_I]
      norm_num
    simp [Finset.sum_range_succ, at0, ew_zero, this]

/-- C96 fails with both signs: the frequency axis of `CDcomp` (a `linspace` including the end point) is not the one of the transform. -/
theorem C96_false : ¬ C96_statement := by
  rintro ⟨s, hs, H⟩
  have hc : cLight ≠ 0 := by norm_num [cLight]
  have h1 := H [1, 1] 1 (4 * cLight) 1 1 (by simp)
  have hd : disperseRow 1 (4 * cLight) 1 1 [1, 1] = [1, 1] := by
    have e := disperseRow_zero 1 (4 * cLight) 1 [1, 1]
    conv_rhs => rw [← e]
    unfold disperseRow
    simp only
    congr 2
    apply ext_at0 (by simp [length_dispH])
    intro n hn
    have hn : n < 2 := by simpa [length_dispH] using hn
    rw [show ifftshift ([1, 1] : List ℂ) = [1, 1] from rfl, at0_rowMul _ _ (by simpa using hn) (by simpa [length_dispH] using hn),
      at0_rowMul _ _ (by simpa using hn) (by simpa [length_dispH] using hn)]
    obtain rfl | rfl : n = 0 ∨ n = 1 := by omega
    · congr 1
      rw [at0_dispH (w := 0) (by simp [fftfreq]), at0_dispH (w := 0) (by simp [fftfreq])]
      simp
    · rw [fft_pair_one.2, zero_mul, zero_mul]
  rw [hd, cdComp_single (by simp), Except.ok.injEq] at h1
  have h2 := congrArg (fun y => at0 (fftshift (fft y)) 1) h1
  simp only [fft_ifft, fftshift_ifftshift] at h2
  have hF : at0 (fftshift (fft [1, 1])) 1 = 2 := by
    rw [at0_fftshift _ (by simp)]
    simp [fft_pair_one.1]
  have hH : at0 (dispH ((linspace (-1) 1 ([1, 1] : List ℂ).length).map (Real.pi * 1 * ·)) (4 * cLight) (s * 1) 1) 1 = -1 := by
    rw [at0_dispH (w := Real.pi) (by norm_num [linspace])]
    have : (0.5 * Real.pi ^ 2 * (4 * cLight * 1 ^ 2 / (cLight * Real.pi * 2)) * (s * 1) : ℝ) = Real.pi * s := by
      have := Real.pi_ne_zero
      field_simp
      norm_num
    rw [this]
    rcases hs with rfl | rfl
    · rw [show -(I * ((Real.pi * 1 : ℝ) : ℂ)) = -(Real.pi * I) by push_cast; ring, Complex.exp_neg, Complex.exp_pi_mul_I]
      norm_num
    · rw [show -(I * ((Real.pi * -1 : ℝ) : ℂ)) = (Real.pi * I) by push_cast; ring, Complex.exp_pi_mul_I]
  rw [at0_rowMul _ _ (by simp) (by simp [length_dispH, linspace_length]), hH, hF] at h2
  norm_num at h2

/-- C96, single transform: the energy is kept and the compensation with the opposite length restores the signal; zero length changes nothing. -/
theorem C96_reversible_partial {E : List ℂ} (h0 : E ≠ []) (fs L D wl : ℝ) :
    ∃ E', cdComp E fs 0 L D wl = .ok E' ∧ E'.length = E.length ∧ energy E' = energy E ∧ cdComp E' fs 0 (-L) D wl = .ok E ∧
      cdComp E fs 0 0 D wl = .ok E := by
  have hlen : E.length ≠ 0 := fun hc => h0 (List.length_eq_zero_iff.1 hc)
  have hN : (E.length : ℝ) ≠ 0 := by exact_mod_cast hlen
  rw [cdComp_single h0, cdComp_single h0]
  generalize hom : (linspace (-1) 1 E.length).map (Real.pi * fs * ·) = omega
  have hl : omega.length = E.length := by rw [← hom]; simp [linspace_length]
  have hlen' : (ifft (ifftshift (rowMul (fftshift (fft E)) (dispH omega D L wl)))).length = E.length := by simp [length_dispH, hl]
  refine ⟨_, rfl, hlen', ?_, ?_, ?_⟩
  · have e1 := energy_ifft (ifftshift (rowMul (fftshift (fft E)) (dispH omega D L wl)))
    have e2 : energy (ifftshift (rowMul (fftshift (fft E)) (dispH omega D L wl))) = E.length * energy E := by
      unfold ifftshift
      rw [energy_roll, energy_rowMul_unit (by simp [length_dispH, hl]) norm_dispH]
      unfold fftshift
      rw [energy_roll, energy_fft]
    rw [e2, length_ifftshift, length_rowMul, length_fftshift, length_fft, length_dispH, hl, min_self] at e1
    exact mul_left_cancel₀ hN e1
  · rw [cdComp_single (by intro hc; rw [hc] at hlen'; exact hlen hlen'.symm), hlen', hom, fft_ifft, fftshift_ifftshift, rowMul_inv]
    · rw [ifftshift_fftshift, ifft_fft]
    · simp [length_dispH, hl]
    · simp [length_dispH, hl]
    · intro n hn
      have hn : n < omega.length := by rw [hl]; simpa using hn
      rw [dispH_mul _ _ _ _ hn, add_neg_cancel, dispH_zero _ _ hn]
  · have : rowMul (fftshift (fft E)) (dispH omega D 0 wl) = fftshift (fft E) := by
      apply ext_at0 (by simp [length_dispH, hl])
      intro n hn
      have hn : n < E.length := by simpa [length_dispH, hl] using hn
      rw [at0_rowMul _ _ (by simpa using hn) (by simpa [length_dispH, hl] using hn), dispH_zero _ _ (by omega), mul_one]
    rw [this, ifftshift_fftshift, ifft_fft]

theorem cdBlock_one {H : List ℂ} {zp : Nat} {e : List ℂ} (hl : H.length = zp + e.length + zp) (h1 : ∀ n < H.length, at0 H n = 1) :
    cdBlock H zp e = List.replicate zp 0 ++ e ++ List.replicate zp 0 := by
  unfold cdBlock
  have : rowMul (fft (List.replicate zp 0 ++ e ++ List.replicate zp 0)) H = fft (List.replicate zp 0 ++ e ++ List.replicate zp 0) := by
    have hll : (fft (List.replicate zp 0 ++ e ++ List.replicate zp 0)).length = H.length := by simp [hl, add_assoc]
    apply ext_at0 (by rw [length_rowMul, hll, min_self])
    intro n hn
    rw [length_rowMul, hll, min_self] at hn
    rw [at0_rowMul _ _ (by rw [hll]; exact hn) hn, h1 n hn, mul_one]
  rw [this, ifft_fft]

theorem length_addAt (acc : List ℂ) (s : Nat) (b : List ℂ) : (addAt acc s b).length = acc.length := by simp [addAt]

theorem at0_addAt (acc : List ℂ) (s : Nat) (b : List ℂ) {j : Nat} (hj : j < acc.length) :
    at0 (addAt acc s b) j = if s ≤ j then at0 acc j + at0 b (j - s) else at0 acc j := by
  apply at0_of_some
  rw [addAt, List.getElem?_mapIdx, at0_getElem? hj]
  rfl

theorem at0_padded (zp : Nat) (e : List ℂ) (j : Nat) :
    at0 (List.replicate zp 0 ++ e ++ List.replicate zp 0) j = if zp ≤ j ∧ j < zp + e.length then at0 e (j - zp) else 0 := by
  unfold at0
  simp only [List.getD_eq_getElem?_getD]
  by_cases h1 : zp ≤ j
  · by_cases h2 : j < zp + e.length
    · rw [if_pos ⟨h1, h2⟩, List.append_assoc, List.getElem?_append_right (by simpa using h1), List.getElem?_append_left (by simp; omega)]
      simp
    · rw [if_neg (by omega), List.getElem?_append_right (by simp; omega), List.getElem?_replicate]
      split <;> rfl
  · rw [if_neg (by omega), List.append_assoc, List.getElem?_append_left (by simp; omega), List.getElem?_replicate]
    split <;> rfl

/-- C96, overlap and add: with a block size that is a multiple of four, processing without dispersion returns the samples of all full half
blocks unchanged and in order, for every length of the signal. -/
theorem C96_block_partial {E : List ℂ} {N : Nat} (h4 : N % 4 = 0) (hN : 0 < N) (hne : N ≠ E.length) (fs D wl : ℝ) :
    cdComp E fs N 0 D wl = .ok (E.take (N / 2 * (E.length / (N / 2)))) := by
  obtain ⟨q, hq⟩ : ∃ q, N = 4 * q := ⟨N / 4, by omega⟩
  have hn : N / 2 = 2 * q := by omega
  have hz : N / 4 = q := by omega
  have hq0 : 0 < q := by omega
  unfold cdComp
  simp only [hN.ne', if_false, hne, hn, hz, h4, ne_eq, not_true_eq_false, and_false, hq0.ne', Nat.mul_eq_zero, OfNat.ofNat_ne_zero, or_self]
  generalize hom : (linspace (-1) 1 N).map (Real.pi * fs * ·) = omega
  have hl : omega.length = N := by rw [← hom]; simp [linspace_length]
  generalize hH : dispH omega D 0 wl = H
  have hHl : H.length = N := by rw [← hH, length_dispH, hl]
  have hH1 : ∀ n < H.length, at0 H n = 1 := by
    intro n hn
    rw [← hH] at hn ⊢
    rw [length_dispH] at hn
    exact dispH_zero _ _ hn
  generalize hB : E.length / (2 * q) = B
  have hBE : 2 * q * B ≤ E.length := by rw [← hB]; exact Nat.mul_div_le _ _
  have key : ∀ b ≤ B, ∃ acc, (List.range b).foldl (fun acc i => addAt acc (i * (2 * q)) (cdBlock H q ((E.drop (i * (2 * q))).take (2 * q))))
      (List.replicate (2 * q * (B + 1)) 0) = acc ∧ acc.length = 2 * q * (B + 1) ∧
      ∀ j < 2 * q * (B + 1), at0 acc j = if q ≤ j ∧ j < q + 2 * q * b then at0 E (j - q) else 0 := by
    intro b
    induction b with
    | zero =>
      intro _
      refine ⟨_, rfl, by simp, ?_⟩
      intro j hj
      rw [if_neg (by omega)]
      exact at0_of_some (by simp [hj])
    | succ b ih =>
      intro hb
      obtain ⟨acc, h1, h2, h3⟩ := ih (by omega)
      refine ⟨_, rfl, ?_, ?_⟩
      · rw [List.range_succ, List.foldl_append, h1]
        simp [length_addAt, h2]
      · intro j hj
        rw [List.range_succ, List.foldl_append, h1, List.foldl_cons, List.foldl_nil, at0_addAt _ _ _ (by omega), h3 j hj]
        have hbb : 2 * q * (b + 1) ≤ 2 * q * B := Nat.mul_le_mul_left _ hb
        rw [Nat.mul_add, Nat.mul_one] at hbb
        have hbq : b * (2 * q) = 2 * q * b := Nat.mul_comm _ _
        have hel : ((E.drop (b * (2 * q))).take (2 * q)).length = 2 * q := by simp; omega
        rw [cdBlock_one (by rw [hHl, hel]; omega) hH1, at0_padded, hel, hbq, Nat.mul_add, Nat.mul_one]
        by_cases c1 : 2 * q * b ≤ j
        · rw [if_pos c1]
          by_cases c2 : q ≤ j - 2 * q * b ∧ j - 2 * q * b < q + 2 * q
          · rw [if_pos c2, if_neg (by omega), if_pos (by omega), zero_add]
            apply at0_of_some
            rw [List.getElem?_take_of_lt (by omega), List.getElem?_drop, show 2 * q * b + (j - 2 * q * b - q) = j - q by omega,
              at0_getElem? (by omega)]
          · rw [if_neg c2, add_zero]
            by_cases c3 : q ≤ j ∧ j < q + 2 * q * b
            · rw [if_pos c3, if_pos (by omega)]
            · rw [if_neg c3, if_neg (by omega)]
        · rw [if_neg c1]
          by_cases c3 : q ≤ j ∧ j < q + 2 * q * b
          · rw [if_pos c3, if_pos (by omega)]
          · rw [if_neg c3, if_neg (by omega)]
  obtain ⟨acc, h1, h2, h3⟩ := key B le_rfl
  rw [h1, Except.ok.injEq]
  have hc1 : Np.clamp acc.length (q : Int) = q := by
    unfold Np.clamp
    rw [if_neg (by omega), h2]
    rw [Nat.mul_add]
    simp
    omega
  have hc2 : Np.clamp acc.length (-(q : Int)) = q + 2 * q * B := by
    unfold Np.clamp
    rw [if_pos (by omega), h2, Nat.mul_add]
    omega
  unfold Np.slice
  rw [hc1, hc2]
  apply ext_at0
  · simp only [List.length_drop, List.length_take, h2]
    rw [Nat.mul_add]
    omega
  · intro j hj
    simp only [List.length_drop, List.length_take, h2] at hj
    rw [Nat.mul_add] at hj
    apply at0_of_some
    rw [List.getElem?_drop, List.getElem?_take_of_lt (by omega), at0_getElem? (by rw [h2, Nat.mul_add]; omega),
      h3 _ (by rw [Nat.mul_add]; omega), if_pos (by omega), Nat.add_sub_cancel_left]
    congr 1
    symm
    apply at0_of_some
    rw [List.getElem?_take_of_lt (by omega), at0_getElem? (by omega)]

/-- C96: block sizes of at least four that are no multiple of four raise (unless the signal is shorter than half a block). -/
theorem C96_block_size {E : List ℂ} {N : Nat} (h4 : N % 4 ≠ 0) (hN : 4 ≤ N) (hne : N ≠ E.length) (hlen : N / 2 ≤ E.length) (fs L D wl : ℝ) :
    cdComp E fs N L D wl = .error .value := by
  unfold cdComp
  have h1 : N ≠ 0 := by omega
  have h2 : N / 2 ≠ 0 := by omega
  have h3 : N / 4 ≠ 0 := by omega
  have h5 : 0 < E.length / (N / 2) := Nat.div_pos hlen (by omega)
  simp only [h1, hne, h2, h3, h5, h4, if_false, ne_eq, not_false_eq_true, and_self, if_true]

example : (8 : Nat) % 4 = 0 ∧ 8 ≠ (List.replicate 20 (1 : ℂ)).length ∧ 8 / 2 * ((List.replicate 20 (1 : ℂ)).length / (8 / 2)) = 20 := by simp

/-! ### C97 -/

theorem energy_rowMul_le {x h : List ℂ} (hl : h.length = x.length) (hh : ∀ z ∈ h, ‖z‖ ≤ 1) : energy (rowMul x h) ≤ energy x := by
  rw [energy_eq, energy_eq, length_rowMul, hl, min_self]
  refine Finset.sum_le_sum fun n hn => ?_
  have hn := Finset.mem_range.1 hn
  rw [at0_rowMul _ _ hn (hl ▸ hn), norm_mul]
  have := hh _ (List.mem_of_getElem? (at0_getElem? (hl ▸ hn)))
  have h0 := norm_nonneg (at0 x n)
  have h1 := norm_nonneg (at0 h n)
  gcongr
  nlinarith

theorem fftshift_even {α : Type} {x : List α} (h : x.length % 2 = 0) : fftshift x = ifftshift x := by
  unfold fftshift ifftshift
  rw [← roll_length x (-((x.length / 2 : Nat) : Int))]
  congr 1
  omega

theorem length_gaussH (n : Nat) (fs cutoff : ℝ) : (gaussH n fs cutoff).length = n := by simp [gaussH, linspaceOpen]

theorem norm_gaussH {n : Nat} {fs cutoff : ℝ} : ∀ z ∈ gaussH n fs cutoff, ‖z‖ ≤ 1 := by
  intro z hz
  obtain ⟨f, -, rfl⟩ := List.mem_map.1 hz
  unfold gaussResponse
  rw [Complex.norm_real, Real.norm_of_nonneg (Real.exp_pos _).le, Real.exp_le_one_iff]
  apply div_nonpos_of_nonpos_of_nonneg
  · nlinarith [sq_nonneg f]
  · positivity

theorem at0_gaussH {n : Nat} (fs cutoff : ℝ) {k : Nat} (hk : k < n) : at0 (gaussH n fs cutoff) k
    = ((Real.exp (-(-fs / 2 + k * ((fs / 2 - -fs / 2) / n)) ^ 2 / (2 * (cutoff / (2 * Real.sqrt (2 * Real.log 2))) ^ 2)) : ℝ) : ℂ) := by
  apply at0_of_some
  rw [gaussH, linspaceOpen, List.getElem?_map, List.getElem?_map, List.getElem?_range hk]
  rfl

theorem gaussRow_even {x : List ℂ} (h : x.length % 2 = 0) (fs cutoff : ℝ) :
    gaussRow fs cutoff x = unspectrum (rowMul (spectrum x) (gaussH x.length fs cutoff)) := by
  unfold gaussRow unspectrum spectrum
  rw [fftshift_even h, fftshift_even (x := rowMul _ _) (by simp [length_gaussH, h])]

/-- Sum of a row, the component at frequency zero. -/
theorem at0_fft_zero {x : List ℂ} (h0 : x ≠ []) : at0 (fft x) 0 = x.sum := by
  have hN : 0 < x.length := List.length_pos_iff.2 h0
  rw [at0_fft _ hN]
  simp only [Nat.cast_zero, mul_zero, neg_zero, ew_zero, mul_one]
  clear h0 hN
  induction x with
  | nil => simp
  | cons a x ih =>
    rw [List.length_cons, Finset.sum_range_succ', List.sum_cons, ← ih]
    simp [at0, add_comm]

theorem at0_spectrum_dc {x : List ℂ} (h0 : x ≠ []) : at0 (spectrum x) (x.length / 2) = x.sum := by
  have hN : 0 < x.length := List.length_pos_iff.2 h0
  unfold spectrum
  rw [at0_fftshift _ (by simp; omega)]
  simp only [length_fft, length_ifftshift, sub_self, Int.zero_emod, Int.toNat_zero]
  rw [at0_fft_zero (by intro hc; have := congrArg List.length hc; simp at this; exact h0 this)]
  unfold ifftshift
  exact (roll_perm x _).sum_eq

/-- The full claim: the Gaussian filter keeps the mean of every mode and does not increase its energy. -/
def C97_statement : Prop :=
  ∀ (sig : List (List ℂ)) (fs cutoff : ℝ), (∀ r ∈ sig, r ≠ []) → 0 < fs → 0 < cutoff →
    ∀ (m : Nat) (row : List ℂ), sig[m]? = some row → ∃ row', (filterGauss sig fs cutoff)[m]? = some row' ∧ row'.sum = row.sum ∧ energy row' ≤ energy row

theorem filterGauss_rows {sig : List (List ℂ)} (hp : sig.length % 2 = 0 ∨ sig.length = 1) (fs cutoff : ℝ) :
    filterGauss sig fs cutoff = sig.map (gaussRow fs cutoff) := by
  unfold filterGauss
  rcases hp with h | h
  · rw [fftshift_even (x := fftshift _) (by simp [h]), ifftshift_fftshift]
  · unfold fftshift
    simp [h, roll_zero]

/-- C97 for rows of even length and an even number of modes (or one): the filter is the multiplication of the centred spectrum with the Gaussian,
the mean is kept and the energy not increased. -/
theorem C97_even_partial {sig : List (List ℂ)} (hp : sig.length % 2 = 0 ∨ sig.length = 1) (fs cutoff : ℝ) (m : Nat) (row : List ℂ)
    (hrow : sig[m]? = some row) (h0 : row ≠ []) (heven : row.length % 2 = 0) :
    ∃ row', (filterGauss sig fs cutoff)[m]? = some row' ∧ row'.length = row.length ∧ row'.sum = row.sum ∧ energy row' ≤ energy row ∧
      ∀ k < row.length, at0 (spectrum row') k = at0 (spectrum row) k *
        ((Real.exp (-(fs * ((k : ℝ) / row.length - 1 / 2)) ^ 2 / (2 * (cutoff / (2 * Real.sqrt (2 * Real.log 2))) ^ 2)) : ℝ) : ℂ) := by
  rw [filterGauss_rows hp]
  have hN : 0 < row.length := List.length_pos_iff.2 h0
  have hN' : (row.length : ℝ) ≠ 0 := by exact_mod_cast hN.ne'
  refine ⟨gaussRow fs cutoff row, by simp [hrow], ?_, ?_⟩
  · rw [gaussRow_even heven]; simp [length_gaussH]
  rw [gaussRow_even heven]
  have hspec : ∀ k < row.length, at0 (spectrum (unspectrum (rowMul (spectrum row) (gaussH row.length fs cutoff)))) k = at0 (spectrum row) k *
      ((Real.exp (-(fs * ((k : ℝ) / row.length - 1 / 2)) ^ 2 / (2 * (cutoff / (2 * Real.sqrt (2 * Real.log 2))) ^ 2)) : ℝ) : ℂ) := by
    intro k hk
    rw [spectrum_unspectrum, at0_rowMul _ _ (by simpa using hk) (by rw [length_gaussH]; exact hk), at0_gaussH _ _ hk]
    rw [show -fs / 2 + (k : ℝ) * ((fs / 2 - -fs / 2) / row.length) = fs * ((k : ℝ) / row.length - 1 / 2) by ring]
  have hlen : (unspectrum (rowMul (spectrum row) (gaussH row.length fs cutoff))).length = row.length := by simp [length_gaussH]
  refine ⟨?_, ?_, hspec⟩
  · have h1 := hspec (row.length / 2) (by omega)
    rw [at0_spectrum_dc h0] at h1
    have h2 := at0_spectrum_dc (x := unspectrum (rowMul (spectrum row) (gaussH row.length fs cutoff)))
      (by intro hc; rw [hc] at hlen; simp at hlen; omega)
    rw [hlen] at h2
    rw [h2] at h1
    rw [h1]
    have : (((row.length / 2 : Nat) : ℝ) / row.length - 1 / 2) = 0 := by
      have : ((row.length / 2 : Nat) : ℝ) = row.length / 2 := by
        have h3 : row.length = 2 * (row.length / 2) := by omega
        have h4 : (row.length : ℝ) = 2 * (row.length / 2 : Nat) := by exact_mod_cast h3
        linarith
      rw [this]
      field_simp
      norm_num
    rw [this]
    simp
  · have e1 := energy_unspectrum (rowMul (spectrum row) (gaussH row.length fs cutoff))
    have e2 := energy_rowMul_le (x := spectrum row) (h := gaussH row.length fs cutoff) (by simp [length_gaussH]) norm_gaussH
    rw [← e1, energy_spectrum, length_rowMul, length_spectrum, length_gaussH, min_self] at e2
    exact le_of_mul_le_mul_left e2 (by exact_mod_cast hN)

/-- C97 fails for three modes: they are permuted. -/
theorem C97_false : ¬ C97_statement := by
  intro H
  obtain ⟨row', h1, h2, -⟩ := H [[1, 1], [0, 0], [0, 0]] 1 1 (by simp) one_pos one_pos 0 [1, 1] rfl
  have h3 : (filterGauss [[1, 1], [0, 0], [0, 0]] 1 1)[0]? = some (gaussRow 1 1 [0, 0]) := rfl
  rw [h3, Option.some.injEq] at h1
  obtain ⟨r, g1, -, g2, -⟩ := C97_even_partial (sig := [[0, 0]]) (Or.inr rfl) 1 1 0 [0, 0] rfl (by simp) rfl
  rw [filterGauss_rows (Or.inr rfl)] at g1
  simp only [List.map_cons, List.map_nil, List.getElem?_cons_zero, Option.some.injEq] at g1
  rw [← h1, g1, g2] at h2
  norm_num at h2

/-- C97: for a row of odd length (at least three) the filter shifts the spectrum by one bin: a constant row gets mean zero. -/
theorem C97_odd_fails {N : Nat} (hodd : N % 2 = 1) (h3 : 3 ≤ N) (c : ℂ) (fs cutoff : ℝ) : (gaussRow fs cutoff (List.replicate N c)).sum = 0 := by
  have hl : (gaussRow fs cutoff (List.replicate N c)).length = N := by simp [gaussRow, length_gaussH]
  unfold gaussRow at hl ⊢
  unfold fftshift at hl ⊢
  rw [(roll_perm _ _).sum_eq, ← at0_fft_zero (by intro hc; rw [hc] at hl; simp [Np.roll] at hl; omega), fft_ifft, at0_roll _ _ (by simp [length_gaussH]; omega)]
  simp only [length_rowMul, Np.length_roll, length_fft, List.length_replicate, length_gaussH, min_self, Nat.cast_zero, zero_sub]
  have hroll : Np.roll (List.replicate N c) ((N / 2 : Nat) : Int) = List.replicate N c := by
    refine List.eq_replicate_iff.2 ⟨by simp, ?_⟩
    · intro b hb
      exact List.eq_of_mem_replicate ((roll_perm _ _).mem_iff.1 hb)
  rw [hroll]
  have hj := emod_toNat_lt (N := N) (by omega) (-((N / 2 : Nat) : Int))
  have hval : ((-((N / 2 : Nat) : Int) % N).toNat : Int) = N - (N / 2 : Nat) := by
    have h1 : -((N / 2 : Nat) : Int) % N = N - (N / 2 : Nat) := by
      rw [← Int.add_emod_right]
      rw [Int.emod_eq_of_lt (by omega) (by omega)]
      ring
    rw [h1]
    omega
  rw [at0_rowMul _ _ (by simpa using hj) (by rw [length_gaussH]; exact hj), at0_roll _ _ (by simpa using hj)]
  simp only [length_fft, List.length_replicate]
  rw [hval]
  have : (((N : Int) - (N / 2 : Nat) - (N / 2 : Nat)) % N).toNat = 1 := by
    have : ((N : Int) - (N / 2 : Nat) - (N / 2 : Nat)) = 1 := by omega
    rw [this, Int.emod_eq_of_lt (by omega) (by omega)]
    rfl
  rw [this, at0_fft _ (by simp; omega), List.length_replicate]
  have hs : ∑ n ∈ Finset.range N, at0 (List.replicate N c) n * ew N (-((n : ℤ) * (1 : Nat))) = 0 := by
    have h1 : ∀ n ∈ Finset.range N, at0 (List.replicate N c) n * ew N (-((n : ℤ) * (1 : Nat))) = c * ew N (-1 * n) := by
      intro n hn
      rw [at0_of_some (z := c) (by simp [Finset.mem_range.1 hn])]
      congr 2
      push_cast
      ring
    rw [Finset.sum_congr rfl h1, ← Finset.mul_sum, ew_orth (by omega), if_neg, mul_zero]
    intro hd
    have := Int.le_of_dvd one_pos ((Int.dvd_neg).1 hd)
    omega
  rw [hs, zero_mul]

example : (gaussRow 1 1 (List.replicate 5 2)).sum ≠ (List.replicate 5 (2 : ℂ)).sum := by
  rw [C97_odd_fails (by norm_num) (by norm_num)]
  norm_num

/-! ### C98 -/

/-- The full claim: for a fraction `bw < 1` the filter rejects the outer part of the spectrum only, so it keeps the mean. -/
def C98_statement : Prop := ∀ (x : List ℂ) (bw : ℝ), x ≠ [] → 0 < bw → bw < 1 → (preFilterRow bw x).sum = x.sum

theorem length_preFilterRow (bw : ℝ) (x : List ℂ) : (preFilterRow bw x).length = x.length := by
  simp [preFilterRow]

/-- The bins kept by the code. -/
theorem at0_preFilter (bw : ℝ) (x : List ℂ) {k : Nat} (hk : k < x.length) :
    at0 (fftshift (fft (preFilterRow bw x))) k
      = if Np.clamp x.length ⌊(x.length : ℝ) / (bw / 2)⌋ ≤ k ∧ k < Np.clamp x.length (-⌊(x.length : ℝ) / (bw / 2)⌋)
        then at0 (fftshift (fft x)) k else 0 := by
  unfold preFilterRow
  simp only
  rw [fft_ifft, fftshift_ifftshift, at0_rowMul _ _ (by simpa using hk) (by simpa using hk)]
  have : at0 ((List.range x.length).map fun (i : Nat) => if Np.clamp x.length ⌊(x.length : ℝ) / (bw / 2)⌋ ≤ i ∧
      i < Np.clamp x.length (-⌊(x.length : ℝ) / (bw / 2)⌋) then (1 : ℂ) else 0) k
      = if Np.clamp x.length ⌊(x.length : ℝ) / (bw / 2)⌋ ≤ k ∧ k < Np.clamp x.length (-⌊(x.length : ℝ) / (bw / 2)⌋) then 1 else 0 := by
    apply at0_of_some
    rw [List.getElem?_map, List.getElem?_range hk]
    rfl
  rw [this]
  split
  · rw [mul_one]
  · rw [mul_zero]

theorem eq_of_centred {x y : List ℂ} (h : x.length = y.length) (h2 : ∀ k < x.length, at0 (fftshift (fft x)) k = at0 (fftshift (fft y)) k) : x = y := by
  have : fftshift (fft x) = fftshift (fft y) := ext_at0 (by simp [h]) (by intro n hn; exact h2 n (by simpa using hn))
  have h3 := congrArg (fun z => ifft (ifftshift z)) this
  simpa only [ifftshift_fftshift, ifft_fft] using h3

/-- C98: for every `bw ≤ 2` (so for every fraction) the filter rejects everything. -/
theorem C98_rejects_all {x : List ℂ} {bw : ℝ} (h0 : 0 < bw) (h4 : bw ≤ 2) : preFilterRow bw x = List.replicate x.length 0 := by
  rcases eq_or_ne x [] with rfl | hx
  · simp [preFilterRow, rowMul, fftshift, ifftshift, Np.roll, fft, ifft]
  have hN : 0 < x.length := List.length_pos_iff.2 hx
  apply eq_of_centred (by rw [length_preFilterRow]; simp)
  intro k hk
  rw [length_preFilterRow] at hk
  have hz : fft (List.replicate x.length 0) = List.replicate x.length 0 := by
    apply ext_at0 (by simp)
    intro n hn
    have hn : n < x.length := by simpa using hn
    rw [at0_fft _ (by simpa using hn), at0_of_some (z := 0) (by simp [hn])]
    apply Finset.sum_eq_zero
    intro m hm
    rw [at0_of_some (z := 0) (by simpa [List.getElem?_replicate] using Finset.mem_range.1 hm), zero_mul]
  have hr : fftshift (List.replicate x.length (0 : ℂ)) = List.replicate x.length 0 := by
    refine List.eq_replicate_iff.2 ⟨by simp, ?_⟩
    · intro b hb
      exact List.eq_of_mem_replicate ((roll_perm _ _).mem_iff.1 hb)
  rw [at0_preFilter _ _ hk, hz, hr, if_neg, at0_of_some (x := List.replicate x.length 0) (z := 0) (by simp [hk])]
  have hfl : (x.length : Int) ≤ ⌊(x.length : ℝ) / (bw / 2)⌋ := by
    rw [Int.le_floor, le_div_iff₀ (by positivity)]
    have : (0 : ℝ) ≤ x.length := by positivity
    push_cast
    nlinarith
  intro hc
  have h1 := hc.1
  unfold Np.clamp at h1
  rw [if_neg (by omega)] at h1
  omega

/-- C98 fails for every nonzero mean. -/
theorem C98_false : ¬ C98_statement := by
  intro H
  have h1 := H [1] (1 / 2) (by simp) (by norm_num) (by norm_num)
  rw [C98_rejects_all (by norm_num) (by norm_num)] at h1
  simp at h1

/-- C98: what the code does is a projection: applying the filter twice is the same as once, and the energy is not increased. -/
theorem C98_projection_partial (bw : ℝ) (x : List ℂ) :
    preFilterRow bw (preFilterRow bw x) = preFilterRow bw x ∧ energy (preFilterRow bw x) ≤ energy x := by
  constructor
  · apply eq_of_centred (by rw [length_preFilterRow])
    intro k hk
    rw [length_preFilterRow, length_preFilterRow] at hk
    rw [at0_preFilter _ _ (by rw [length_preFilterRow]; exact hk), at0_preFilter _ _ hk, length_preFilterRow]
    split <;> rfl
  · rcases eq_or_ne x [] with rfl | hx
    · simp [preFilterRow, rowMul, fftshift, ifftshift, Np.roll, fft, ifft]
    have hN : 0 < x.length := List.length_pos_iff.2 hx
    have e1 := energy_fft (preFilterRow bw x)
    have e2 := energy_fft x
    rw [length_preFilterRow] at e1
    have r1 : energy (fftshift (fft (preFilterRow bw x))) = energy (fft (preFilterRow bw x)) := energy_roll _ _
    have r2 : energy (fftshift (fft x)) = energy (fft x) := energy_roll _ _
    have hle : energy (fftshift (fft (preFilterRow bw x))) ≤ energy (fftshift (fft x)) := by
      rw [energy_eq, energy_eq]
      simp only [length_fftshift, length_fft, length_preFilterRow]
      refine Finset.sum_le_sum fun k hk => ?_
      rw [at0_preFilter _ _ (Finset.mem_range.1 hk)]
      split
      · exact le_rfl
      · simp
    rw [r1, r2, e1, e2] at hle
    exact le_of_mul_le_mul_left hle (by exact_mod_cast hN)

/-- C98: with `bw` as twice the reciprocal of the rejected fraction the code keeps the bins with index at least `N/(bw/2)` from both ends. -/
theorem C98_bins_partial {x : List ℂ} {bw : ℝ} {a : Nat} (ha : ⌊(x.length : ℝ) / (bw / 2)⌋ = a) (ha0 : 0 < a) {k : Nat} (hk : k < x.length) :
    at0 (fftshift (fft (preFilterRow bw x))) k = if a ≤ k ∧ k + a < x.length then at0 (fftshift (fft x)) k else 0 := by
  rw [at0_preFilter _ _ hk, ha]
  have h1 : Np.clamp x.length (a : Int) = min a x.length := by
    unfold Np.clamp
    rw [if_neg (by omega)]
    simp
  have h2 : Np.clamp x.length (-(a : Int)) = x.length - a := by
    unfold Np.clamp
    rw [if_pos (by omega)]
    omega
  rw [h1, h2]
  by_cases h : a ≤ k ∧ k + a < x.length
  · rw [if_pos h, if_pos (by omega)]
  · rw [if_neg h, if_neg (by omega)]

/-- C98: `a = 0` rejects everything as well: `h[0:-0]` is empty. -/
theorem C98_zero_width {x : List ℂ} {bw : ℝ} (ha : ⌊(x.length : ℝ) / (bw / 2)⌋ = 0) {k : Nat} (hk : k < x.length) :
    at0 (fftshift (fft (preFilterRow bw x))) k = 0 := by
  rw [at0_preFilter _ _ hk, ha, if_neg]
  simp [Np.clamp]

example : ⌊((List.replicate 16 (1 : ℂ)).length : ℝ) / ((16 : ℝ) / 2)⌋ = (2 : Nat) := by norm_num

/-! ### C99 -/

/-- The full claim ("3 dB cutoff frequency of the filter"): the power response at the cutoff is one half, for both filters. -/
def C99_statement : Prop := ∀ cutoff : ℝ, 0 < cutoff → gaussResponse cutoff cutoff ^ 2 = 1 / 2 ∧ expResponse cutoff cutoff ^ 2 = 1 / 2

theorem gaussResponse_scale {cutoff : ℝ} (h : 0 < cutoff) (r : ℝ) : gaussResponse cutoff (r * cutoff) = (1 / 2) ^ (4 * r ^ 2) := by
  unfold gaussResponse
  have hl : 0 < Real.log 2 := Real.log_pos (by norm_num)
  rw [div_pow, mul_pow 2, Real.sq_sqrt (by positivity), one_div, Real.inv_rpow (by norm_num), ← Real.rpow_neg (by norm_num),
    Real.rpow_def_of_pos (by norm_num)]
  congr 1
  field_simp
  ring

/-- C99: the Gaussian amplitude halves at half the cutoff frequency; at the cutoff it is 1/16. -/
theorem C99_gauss_partial {cutoff : ℝ} (h : 0 < cutoff) : gaussResponse cutoff (cutoff / 2) = 1 / 2 ∧ gaussResponse cutoff cutoff = 1 / 16 := by
  have h1 := gaussResponse_scale h (1 / 2)
  have h2 := gaussResponse_scale h 1
  rw [show 1 / 2 * cutoff = cutoff / 2 by ring] at h1
  rw [one_mul] at h2
  constructor
  · rw [h1]; norm_num
  · rw [h2]
    rw [show (4 * 1 ^ 2 : ℝ) = ((4 : Nat) : ℝ) by norm_num, Real.rpow_natCast]
    norm_num

/-- C99: the amplitude of the exponential filter halves at the cutoff. -/
theorem C99_exp_partial {cutoff : ℝ} (h : 0 < cutoff) : expResponse cutoff cutoff = 1 / 2 := by
  unfold expResponse
  have hl : 0 < Real.log 2 := Real.log_pos (by norm_num)
  rw [div_pow, Real.sq_sqrt (by positivity)]
  have : cutoff ^ 2 / (2 * (cutoff ^ 2 / (2 * Real.log 2 ^ 2))) = Real.log 2 ^ 2 := by field_simp
  rw [this, Real.sqrt_sq hl.le, Real.exp_neg, Real.exp_log (by norm_num)]
  norm_num

/-- C99 fails for both filters. -/
theorem C99_false : ¬ C99_statement := by
  intro H
  have := (H 1 one_pos).1
  rw [(C99_gauss_partial one_pos).2] at this
  norm_num at this

/-- C99: the power of the exponential filter at the cutoff is one quarter. -/
theorem C99_exp_fails {cutoff : ℝ} (h : 0 < cutoff) : expResponse cutoff cutoff ^ 2 = 1 / 4 := by
  rw [C99_exp_partial h]
  norm_num

end Qampy
