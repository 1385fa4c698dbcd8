import Verif.Props.Impairments

/-!
C43, C95-C98: dispersion, delays by PMD, dispersion compensation and frequency domain filters.
-/

namespace Qampy

open Complex

/-! ### C95 -/

/-- Linear combination of two rows. -/
noncomputable def rowLin (a b : ℂ) (x y : List ℂ) : List ℂ := List.zipWith (fun u v => a * u + b * v) x y

theorem length_rowLin (a b : ℂ) {x y : List ℂ} (h : x.length = y.length) : (rowLin a b x y).length = x.length := by simp [rowLin, h]

theorem at0_rowLin (a b : ℂ) {x y : List ℂ} (h : x.length = y.length) {n : Nat} (hn : n < x.length) :
    at0 (rowLin a b x y) n = a * at0 x n + b * at0 y n := by
  apply at0_of_some
  rw [rowLin, List.getElem?_zipWith, at0_getElem? hn, at0_getElem? (h ▸ hn)]

theorem emod_toNat_lt {N : Nat} (hN : 0 < N) (z : Int) : (z % N).toNat < N := by
  have := Int.emod_lt_of_pos z (show (0 : Int) < N by omega)
  have := Int.emod_nonneg z (show (N : Int) ≠ 0 by omega)
  omega

theorem roll_rowLin (a b : ℂ) {x y : List ℂ} (h : x.length = y.length) (d : Int) :
    Np.roll (rowLin a b x y) d = rowLin a b (Np.roll x d) (Np.roll y d) := by
  have hr : (Np.roll x d).length = (Np.roll y d).length := by simp [h]
  apply ext_at0 (by rw [Np.length_roll, length_rowLin _ _ h, length_rowLin _ _ hr, Np.length_roll])
  intro n hn
  rw [Np.length_roll, length_rowLin _ _ h] at hn
  rw [at0_roll _ _ (by rw [length_rowLin _ _ h]; exact hn), length_rowLin _ _ h, at0_rowLin _ _ h (emod_toNat_lt (by omega) _),
    at0_rowLin _ _ hr (by simpa using hn), at0_roll _ _ hn, at0_roll _ _ (h ▸ hn), h]

theorem fft_rowLin (a b : ℂ) {x y : List ℂ} (h : x.length = y.length) : fft (rowLin a b x y) = rowLin a b (fft x) (fft y) := by
  have hr : (fft x).length = (fft y).length := by simp [h]
  apply ext_at0 (by rw [length_fft, length_rowLin _ _ h, length_rowLin _ _ hr, length_fft])
  intro n hn
  rw [length_fft, length_rowLin _ _ h] at hn
  rw [at0_fft _ (by rw [length_rowLin _ _ h]; exact hn), length_rowLin _ _ h, at0_rowLin _ _ hr (by simpa using hn), at0_fft _ hn, at0_fft _ (h ▸ hn),
    Finset.mul_sum, Finset.mul_sum, ← h, ← Finset.sum_add_distrib]
  refine Finset.sum_congr rfl fun m hm => ?_
  rw [at0_rowLin _ _ h (Finset.mem_range.1 hm)]
  ring

theorem spectrum_rowLin (a b : ℂ) {x y : List ℂ} (h : x.length = y.length) : spectrum (rowLin a b x y) = rowLin a b (spectrum x) (spectrum y) := by
  unfold spectrum fftshift ifftshift
  rw [length_rowLin _ _ h, roll_rowLin _ _ h, fft_rowLin _ _ (by simp [h])]
  rw [length_rowLin _ _ (by simp [h]), roll_rowLin _ _ (by simp [h])]
  simp [h]

theorem rotateRows_eq (theta : ℝ) (x y : List ℂ) :
    rotateRows theta x y = (rowLin (Real.cos theta) (-Real.sin theta) x y, rowLin (Real.sin theta) (Real.cos theta) x y) := rfl

/-- Row scaled with a constant. -/
noncomputable def scaleRow (c : ℂ) (x : List ℂ) : List ℂ := x.map (c * ·)

theorem scaleRow_one (x : List ℂ) : scaleRow 1 x = x := by simp [scaleRow]

theorem at0_scaleRow (c : ℂ) (x : List ℂ) (n : Nat) : at0 (scaleRow c x) n = c * at0 x n := by
  by_cases h : n < x.length
  · exact at0_of_some (by rw [scaleRow, List.getElem?_map, at0_getElem? h]; rfl)
  · simp [at0, scaleRow, List.getElem?_eq_none (not_lt.1 h)]

theorem scaleRow_eq_rowLin (c : ℂ) (x : List ℂ) : scaleRow c x = rowLin c 0 x x := by
  apply ext_at0 (by simp [scaleRow, rowLin])
  intro n hn
  rw [at0_scaleRow, at0_rowLin _ _ rfl (by simpa [scaleRow] using hn)]
  ring

theorem at0_fftshift (x : List ℂ) {n : Nat} (hn : n < x.length) :
    at0 (fftshift x) n = at0 x (((n : Int) - (x.length / 2 : Nat)) % x.length).toNat := at0_roll x _ hn

/-- The phase error of the frequency axis for a row of odd length. -/
noncomputable def halfBin (N : Nat) (d : Int) : ℂ := exp (Real.pi * I * (d * (N % 2 : Nat) / N))

theorem halfBin_even {N : Nat} (h : N % 2 = 0) (d : Int) : halfBin N d = 1 := by simp [halfBin, h]

theorem at0_pmdH_int {N : Nat} {fs : ℝ} (hfs : fs ≠ 0) (d : Int) {k : Nat} (hk : k < N) :
    at0 (pmdH N fs (2 * d / fs)) k = halfBin N d * ew N (-(d * ((k : Int) - (N / 2 : Nat)))) := by
  rw [at0_pmdH _ _ hk]
  unfold halfBin ew
  rw [← Complex.exp_add]
  congr 1
  have hN : (N : ℝ) ≠ 0 := by
    have : N ≠ 0 := by omega
    exact_mod_cast this
  have hN2 : (N : ℝ) = 2 * (N / 2 : Nat) + (N % 2 : Nat) := by
    have := Nat.div_add_mod N 2
    exact_mod_cast this.symm
  have key : -(2 * Real.pi * (-fs / 2 + k * ((fs / 2 - -fs / 2) / N)) * (2 * d / fs) / 2)
      = Real.pi * (d * (N % 2 : Nat) / N) + 2 * Real.pi * (-(d * ((k : ℝ) - (N / 2 : Nat))) / N) := by
    have h1 : ((N / 2 : Nat) : ℝ) = (N - (N % 2 : Nat)) / 2 := by linarith
    rw [h1]
    field_simp
    ring
  have := congrArg (fun r : ℝ => (r : ℂ) * I) key
  clear hN2 key
  generalize N / 2 = q at this ⊢
  generalize N % 2 = r at this ⊢
  push_cast at this ⊢
  linear_combination this

theorem rowMul_spectrum_pmdH {x : List ℂ} {fs : ℝ} (hfs : fs ≠ 0) (d : Int) :
    rowMul (spectrum x) (pmdH x.length fs (2 * d / fs)) = scaleRow (halfBin x.length d) (spectrum (Np.roll x d)) := by
  apply ext_at0 (by simp [scaleRow])
  intro k hk
  have hk : k < x.length := by simpa using hk
  have hN : 0 < x.length := by omega
  rw [at0_rowMul _ _ (by simpa using hk) (by simpa using hk), at0_pmdH_int hfs d hk, at0_scaleRow]
  unfold spectrum
  rw [at0_fftshift _ (by simpa using hk), at0_fftshift _ (by simpa using hk)]
  simp only [length_fft, length_ifftshift, Np.length_roll]
  have hsh : ifftshift (Np.roll x d) = Np.roll (ifftshift x) d := by
    unfold ifftshift
    rw [Np.length_roll, roll_roll, roll_roll, add_comm]
  have hj := emod_toNat_lt hN ((k : Int) - (x.length / 2 : Nat))
  rw [hsh, at0_fft_roll _ _ (by simpa using hj), length_ifftshift]
  have hval : (((((k : Int) - (x.length / 2 : Nat)) % x.length).toNat : Nat) : Int) = ((k : Int) - (x.length / 2 : Nat)) % x.length :=
    Int.toNat_of_nonneg (Int.emod_nonneg _ (by omega))
  have hew : ew x.length (-(d * ((((k : Int) - (x.length / 2 : Nat)) % x.length).toNat : Nat)))
      = ew x.length (-(d * ((k : Int) - (x.length / 2 : Nat)))) := by
    rw [hval, ← ew_emod _ hN, ← ew_emod _ hN (-(d * ((k : Int) - (x.length / 2 : Nat))))]
    congr 1
    rw [← neg_mul, ← neg_mul, Int.mul_emod, Int.emod_emod, ← Int.mul_emod]
  rw [hew]
  ring

/-- PMD with a delay of a whole number of samples, for every row length. -/
theorem applyPMD_int {x y : List ℂ} (h : x.length = y.length) (h0 : x ≠ []) (theta : ℝ) {fs : ℝ} (hfs : fs ≠ 0) (d : Int) :
    applyPMD [x, y] theta (2 * d / fs) fs =
      (let r := rotateRows theta x y
       rotateField [scaleRow (halfBin x.length d) (Np.roll r.1 d), scaleRow (halfBin x.length (-d)) (Np.roll r.2 (-d))] (-theta)) := by
  rw [applyPMD_eq h h0]
  have l1 := rotateRows_length theta h
  have hspec : rotateRows theta (spectrum x) (spectrum y) = (spectrum (rotateRows theta x y).1, spectrum (rotateRows theta x y).2) := by
    rw [rotateRows_eq, rotateRows_eq, spectrum_rowLin _ _ h, spectrum_rowLin _ _ h]
  simp only [hspec]
  generalize rotateRows theta x y = r at l1 ⊢
  obtain ⟨r1, r2⟩ := r
  simp only at l1 ⊢
  have e1 := rowMul_spectrum_pmdH (x := r1) hfs d
  have e2 := rowMul_spectrum_pmdH (x := r2) hfs (-d)
  rw [l1.1] at e1
  rw [l1.2, ← h] at e2
  have hneg : -(2 * (d : ℝ) / fs) = 2 * ((-d : Int) : ℝ) / fs := by push_cast; ring
  rw [hneg, e1, e2, scaleRow_eq_rowLin, scaleRow_eq_rowLin, scaleRow_eq_rowLin, scaleRow_eq_rowLin, ← spectrum_rowLin _ _ rfl, ← spectrum_rowLin _ _ rfl]
  have hl : (rowLin (halfBin x.length d) 0 (Np.roll r1 d) (Np.roll r1 d)).length
      = (rowLin (halfBin x.length (-d)) 0 (Np.roll r2 (-d)) (Np.roll r2 (-d))).length := by
    rw [length_rowLin _ _ rfl, length_rowLin _ _ rfl]
    simp [l1, h]
  simp only [rotateField, rotateRows_eq]
  rw [← spectrum_rowLin _ _ hl, ← spectrum_rowLin _ _ hl, unspectrum_spectrum, unspectrum_spectrum]

/-- The full claim: PMD with a differential delay of `2d` samples delays one principal axis by `d` samples and advances the other by `d`. -/
def C95_statement : Prop :=
  ∀ (x y : List ℂ) (theta fs : ℝ) (d : Int), x.length = y.length → x ≠ [] → fs ≠ 0 →
    applyPMD [x, y] theta (2 * d / fs) fs =
      (rotateField [x, y] theta >>= fun f => addModalDelay f [d, -d] >>= fun g => rotateField g (-theta))

/-- C95 for rows of even length. -/
theorem C95_even_partial {x y : List ℂ} (h : x.length = y.length) (h0 : x ≠ []) (heven : x.length % 2 = 0) (theta : ℝ) {fs : ℝ} (hfs : fs ≠ 0)
    (d : Int) : applyPMD [x, y] theta (2 * d / fs) fs =
      (rotateField [x, y] theta >>= fun f => addModalDelay f [d, -d] >>= fun g => rotateField g (-theta)) := by
  rw [applyPMD_int h h0 theta hfs d]
  simp only [halfBin_even heven, scaleRow_one]
  rfl

/-- C95 for rows of odd length: the two axes get an additional opposite phase `±pi*d/N`, because the frequency axis is off by half a bin. -/
theorem C95_odd_partial {x y : List ℂ} (h : x.length = y.length) (hodd : x.length % 2 = 1) {fs : ℝ} (hfs : fs ≠ 0) (d : Int) :
    applyPMD [x, y] 0 (2 * d / fs) fs = .ok [(Np.roll x d).map (exp (Real.pi * I * (d / x.length)) * ·),
      (Np.roll y (-d)).map (exp (-(Real.pi * I * (d / x.length))) * ·)] := by
  have h0 : x ≠ [] := by rintro rfl; simp at hodd
  rw [applyPMD_int h h0 0 hfs d, rotateRows_zero h, neg_zero]
  simp only [rotateField]
  rw [rotateRows_zero (by simp [scaleRow, h])]
  have e1 : halfBin x.length d = exp (Real.pi * I * (d / x.length)) := by
    unfold halfBin
    rw [hodd]
    push_cast
    rw [mul_one]
  have e2 : halfBin x.length (-d) = exp (-(Real.pi * I * (d / x.length))) := by
    unfold halfBin
    rw [hodd]
    congr 1
    push_cast
    ring
  rw [e1, e2]
  rfl

/-- C95 fails for rows of odd length. -/
theorem C95_false : ¬ C95_statement := by
  intro H
  have h1 := H [1] [0] 0 1 1 rfl (by simp) one_ne_zero
  rw [C95_odd_partial (x := [1]) (y := [0]) rfl rfl one_ne_zero] at h1
  rw [C38_zero (x := [1]) (y := [0]) rfl] at h1
  simp only [addModalDelay, bind, Except.bind, List.length_cons, List.length_nil, if_true, List.zipWith_cons_cons, List.zipWith_nil_left, neg_zero] at h1
  rw [show Np.roll ([1] : List ℂ) 1 = [1] from rfl, show Np.roll ([0] : List ℂ) (-1) = [0] from rfl, C38_zero (x := [1]) (y := [0]) rfl] at h1
  simp only [List.map_cons, List.map_nil, Except.ok.injEq, List.cons.injEq, and_true] at h1
  have h2 := h1.1
  norm_num at h2

example : ([1, I] : List ℂ).length % 2 = 0 := rfl

/-! ### C43 -/

theorem length_dispH (omega : List ℝ) (D L wl : ℝ) : (dispH omega D L wl).length = omega.length := by simp [dispH]

theorem norm_dispH {omega : List ℝ} {D L wl : ℝ} : ∀ z ∈ dispH omega D L wl, ‖z‖ = 1 := by
  intro z hz
  obtain ⟨w, -, rfl⟩ := List.mem_map.1 hz
  rw [show ∀ r : ℝ, -(I * (r : ℂ)) = ((-r : ℝ) : ℂ) * I from fun r => by push_cast; ring, Complex.norm_exp_ofReal_mul_I]

theorem at0_dispH {omega : List ℝ} {D L wl : ℝ} {n : Nat} {w : ℝ} (h : omega[n]? = some w) :
    at0 (dispH omega D L wl) n = exp (-(I * ((0.5 * w ^ 2 * (D * wl ^ 2 / (cLight * Real.pi * 2)) * L : ℝ) : ℂ))) := by
  apply at0_of_some
  rw [dispH, List.getElem?_map, h]
  rfl

theorem dispH_mul {omega : List ℝ} (D L1 L2 wl : ℝ) {n : Nat} (hn : n < omega.length) :
    at0 (dispH omega D L1 wl) n * at0 (dispH omega D L2 wl) n = at0 (dispH omega D (L1 + L2) wl) n := by
  have hw := List.getElem?_eq_getElem hn
  rw [at0_dispH hw, at0_dispH hw, at0_dispH hw, ← Complex.exp_add]
  congr 1
  push_cast
  ring

theorem dispH_zero {omega : List ℝ} (D wl : ℝ) {n : Nat} (hn : n < omega.length) : at0 (dispH omega D 0 wl) n = 1 := by
  rw [at0_dispH (List.getElem?_eq_getElem hn)]
  simp

theorem length_disperseRow (fs D L wl : ℝ) (x : List ℂ) : (disperseRow fs D L wl x).length = x.length := by
  simp [disperseRow, length_dispH]

theorem energy_disperseRow (fs D L wl : ℝ) (x : List ℂ) : energy (disperseRow fs D L wl x) = energy x := by
  rcases eq_or_ne x [] with rfl | h0
  · simp [disperseRow, energy, fft, ifft, fftshift, ifftshift, Np.roll, rowMul]
  have hN : (x.length : ℝ) ≠ 0 := by
    have : x.length ≠ 0 := fun hc => h0 (List.length_eq_zero_iff.1 hc)
    exact_mod_cast this
  unfold disperseRow
  simp only
  generalize hH : dispH _ D L wl = H
  have hHl : H.length = x.length := by rw [← hH, length_dispH]; simp
  have hH1 : ∀ z ∈ H, ‖z‖ = 1 := by rw [← hH]; exact norm_dispH
  have e1 := energy_ifft (rowMul (fft (ifftshift x)) H)
  rw [energy_rowMul_unit (by simp [hHl]) hH1, energy_fft, length_rowMul, length_fft, length_ifftshift, hHl, min_self] at e1
  have e2 := mul_left_cancel₀ hN e1
  unfold fftshift
  rw [energy_roll, e2]
  unfold ifftshift
  rw [energy_roll]

theorem disperseRow_add (fs D L1 L2 wl : ℝ) (x : List ℂ) :
    disperseRow fs D L2 wl (disperseRow fs D L1 wl x) = disperseRow fs D (L1 + L2) wl x := by
  unfold disperseRow
  simp only [ifftshift_fftshift, fft_ifft, length_fftshift, length_ifft, length_rowMul, length_fft, length_ifftshift, length_dispH, List.length_map,
    List.length_range, min_self]
  congr 2
  generalize hom : (List.range x.length).map (fun (m : Nat) => fftfreq x.length fs m * Real.pi * 2) = omega
  have hl : omega.length = x.length := by rw [← hom]; simp
  apply ext_at0 (by simp [length_dispH, hl])
  intro n hn
  have hn : n < x.length := by simpa [length_dispH, hl] using hn
  rw [at0_rowMul _ _ (by simpa [length_dispH, hl] using hn) (by simpa [length_dispH, hl] using hn),
    at0_rowMul _ _ (by simpa using hn) (by simpa [length_dispH, hl] using hn),
    at0_rowMul _ _ (by simpa using hn) (by simpa [length_dispH, hl] using hn), mul_assoc, dispH_mul _ _ _ _ (by omega)]

theorem disperseRow_zero (fs D wl : ℝ) (x : List ℂ) : disperseRow fs D 0 wl x = x := by
  unfold disperseRow
  simp only
  generalize hom : (List.range x.length).map (fun (m : Nat) => fftfreq x.length fs m * Real.pi * 2) = omega
  have hl : omega.length = x.length := by rw [← hom]; simp
  have : rowMul (fft (ifftshift x)) (dispH omega D 0 wl) = fft (ifftshift x) := by
    apply ext_at0 (by simp [length_dispH, hl])
    intro n hn
    have hn : n < x.length := by simpa [length_dispH, hl] using hn
    rw [at0_rowMul _ _ (by simpa using hn) (by simpa [length_dispH, hl] using hn), dispH_zero _ _ (by omega), mul_one]
  rw [this, ifft_fft, fftshift_ifftshift]

theorem addDispersion_single (x : List ℂ) (fs D L wl : ℝ) : addDispersion [x] fs D L wl = [disperseRow fs D L wl x] := by
  simp [addDispersion, fftshift, Np.roll]

/-- The full claim: every mode of the output has the energy of the same mode of the input, and the opposite dispersion restores the signal. -/
def C43_statement : Prop :=
  ∀ (sig : List (List ℂ)) (fs D L wl : ℝ),
    (∀ (m : Nat) row, sig[m]? = some row → ∃ row', (addDispersion sig fs D L wl)[m]? = some row' ∧ energy row' = energy row) ∧
    addDispersion (addDispersion sig fs D L wl) fs D (-L) wl = sig

/-- C43: the energy of a mode is preserved by the dispersion of its row; a signal with a single mode is treated rightly. -/
theorem C43_single_partial (x : List ℂ) (fs D L wl : ℝ) :
    ∃ x', addDispersion [x] fs D L wl = [x'] ∧ x'.length = x.length ∧ energy x' = energy x ∧ addDispersion [x'] fs D (-L) wl = [x] := by
  refine ⟨disperseRow fs D L wl x, addDispersion_single _ _ _ _ _, length_disperseRow _ _ _ _ _, energy_disperseRow _ _ _ _ _, ?_⟩
  have : addDispersion [disperseRow fs D L wl x] fs D (-L) wl = [disperseRow fs D (-L) wl (disperseRow fs D L wl x)] :=
    addDispersion_single _ _ _ _ _
  rw [this, disperseRow_add, add_neg_cancel, disperseRow_zero]

/-- C43: mode `m` of the output is the dispersed mode `m - p//2` (cyclically) of the input, with its energy. -/
theorem C43_modes_partial (sig : List (List ℂ)) (fs D L wl : ℝ) (m m' : Nat) (row : List ℂ) (hm : sig[m]? = some row)
    (hm' : m' = (m + sig.length / 2) % sig.length) :
    ∃ row', (addDispersion sig fs D L wl)[m']? = some row' ∧ energy row' = energy row ∧ addDispersion [row'] fs D (-L) wl = [row] := by
  have hml : m < sig.length := (List.getElem?_eq_some_iff.1 hm).1
  have hm'l : m' < sig.length := by rw [hm']; exact Nat.mod_lt _ (by omega)
  refine ⟨disperseRow fs D L wl row, ?_, energy_disperseRow _ _ _ _ _, ?_⟩
  · unfold addDispersion fftshift
    obtain ⟨j, h1, h2, h3⟩ := getElem?_roll' (sig.map (disperseRow fs D L wl)) (((sig.map (disperseRow fs D L wl)).length / 2 : Nat) : Int) m'
      (by simpa using hm'l)
    rw [h3]
    simp only [List.length_map] at h1 h2
    have : j = m := by
      have h4 : ((m' : Int) - ((sig.length / 2 : Nat) : Int)) % sig.length = m := by
        rw [hm']
        push_cast
        rw [Int.emod_sub_emod, add_sub_cancel_right]
        exact Int.emod_eq_of_lt (by omega) (by omega)
      omega
    rw [this, List.getElem?_map, hm]
    rfl
  · obtain ⟨x', h1, -, -, h4⟩ := C43_single_partial row fs D L wl
    have : x' = disperseRow fs D L wl row := by
      have : addDispersion [row] fs D L wl = [disperseRow fs D L wl row] := addDispersion_single _ _ _ _ _
      rw [this] at h1
      exact (List.cons.inj h1).1.symm
    rw [← this]
    exact h4

/-- C43: lengths of fibre add up, for an even number of modes after exchanging the two halves of the modes twice. -/
theorem C43_inverse_partial (sig : List (List ℂ)) (fs D L wl : ℝ) (heven : sig.length % 2 = 0) :
    addDispersion (addDispersion sig fs D L wl) fs D (-L) wl = sig := by
  have hmap : ∀ (l : List (List ℂ)) (g : List ℂ → List ℂ) (d : Int), (Np.roll l d).map g = Np.roll (l.map g) d := by
    intro l g d
    simp [Np.roll, List.map_append, List.map_drop, List.map_take]
  unfold addDispersion fftshift
  rw [hmap]
  simp only [Np.length_roll, List.length_map, List.map_map]
  rw [roll_roll]
  have : (disperseRow fs D (-L) wl ∘ disperseRow fs D L wl) = id := by
    funext x
    simp only [Function.comp]
    rw [disperseRow_add, add_neg_cancel, disperseRow_zero]
    rfl
  rw [this, List.map_id]
  have h2 : (((sig.length / 2 : Nat) : Int) + ((sig.length / 2 : Nat) : Int)) = 0 + sig.length := by omega
  rw [h2, roll_length, roll_zero]

/-- C43 fails for two modes: they are exchanged. -/
theorem C43_false : ¬ C43_statement := by
  intro H
  obtain ⟨row', h1, h2⟩ := (H [[1], [0]] 1 0 0 1).1 0 [1] rfl
  have h3 : addDispersion [[1], [0]] 1 0 0 1 = [disperseRow 1 0 0 1 [0], disperseRow 1 0 0 1 [1]] := rfl
  rw [h3] at h1
  simp only [List.getElem?_cons_zero, Option.some.injEq] at h1
  rw [← h1, energy_disperseRow] at h2
  norm_num [energy] at h2

end Qampy
