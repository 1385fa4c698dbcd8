import Verif.Model.ExpFilter
import Verif.Props.Filters2

/-!
C227: the exponential filter.
-/

namespace Qampy

open Complex

/-- One row of the shifted filter for any transfer function. -/
noncomputable def shapedRow (H x : List ℂ) : List ℂ := fftshift (ifft (fftshift (rowMul (fftshift (fft (fftshift x))) H)))

theorem fftshift_map {α β : Type} (f : α → β) (l : List α) : fftshift (l.map f) = (fftshift l).map f := by
  unfold fftshift
  rw [List.length_map]
  apply List.ext_getElem?
  intro i
  by_cases hi : i < l.length
  · rw [Np.getElem?_roll _ _ _ (by simpa using hi), List.getElem?_map, List.getElem?_map, Np.getElem?_roll _ _ _ hi, List.length_map]
  · rw [List.getElem?_eq_none (by simpa using hi), List.getElem?_eq_none (by simpa using hi)]

theorem filterExp_rows (sig : List (List ℂ)) (fs cutoff : ℝ) :
    filterExp sig fs cutoff = fftshift (fftshift (fftshift (fftshift (sig.map (shapedRow (expH (sig.headD []).length fs cutoff)))))) := by
  unfold filterExp fftshift2
  simp only [fftshift_map, List.map_map]
  rfl

theorem foldl_max_ge (l : List ℝ) (a : ℝ) : a ≤ l.foldl max a ∧ ∀ v ∈ l, v ≤ l.foldl max a := by
  induction l generalizing a with
  | nil => simp
  | cons b l ih =>
    obtain ⟨h1, h2⟩ := ih (max a b)
    refine ⟨(le_max_left a b).trans h1, fun v hv => ?_⟩
    rcases List.mem_cons.1 hv with rfl | hv
    · exact (le_max_right a v).trans h1
    · exact h2 v hv

theorem foldl_max_le (l : List ℝ) (a c : ℝ) (ha : a ≤ c) (h : ∀ v ∈ l, v ≤ c) : l.foldl max a ≤ c := by
  induction l generalizing a with
  | nil => simpa
  | cons b l ih => exact ih _ (max_le ha (h b (by simp))) fun v hv => h v (by simp [hv])

/-- The response as a power of two: it halves with every cutoff frequency. -/
theorem expResponse_eq {cutoff : ℝ} (h : 0 < cutoff) (f : ℝ) : expResponse cutoff f = (2 : ℝ) ^ (-(|f| / cutoff)) := by
  unfold expResponse
  have hl : 0 < Real.log 2 := Real.log_pos (by norm_num)
  rw [div_pow, Real.sq_sqrt (by positivity)]
  have : f ^ 2 / (2 * (cutoff ^ 2 / (2 * Real.log 2 ^ 2))) = (|f| / cutoff * Real.log 2) ^ 2 := by
    rw [mul_pow, div_pow, sq_abs]
    field_simp
  rw [this, Real.sqrt_sq (by positivity), Real.rpow_def_of_pos (by norm_num)]
  congr 1
  ring

theorem length_expH (n : Nat) (fs cutoff : ℝ) : (expH n fs cutoff).length = n := by simp [expH, linspaceOpen]

theorem norm_expH {n : Nat} {fs cutoff : ℝ} : ∀ z ∈ expH n fs cutoff, ‖z‖ ≤ 1 := by
  intro z hz
  unfold expH at hz
  obtain ⟨v, hv, rfl⟩ := List.mem_map.1 hz
  have h0 : 0 ≤ v := by
    obtain ⟨f, -, rfl⟩ := List.mem_map.1 hv
    exact (Real.exp_pos _).le
  obtain ⟨h1, h2⟩ := foldl_max_ge ((linspaceOpen (-fs / 2) (fs / 2) n).map (expResponse cutoff)) 0
  rw [Complex.norm_real, Real.norm_of_nonneg (div_nonneg h0 h1)]
  exact div_le_one_of_le₀ (h2 v hv) h1

/-- For an even number of samples frequency zero is on the axis and the maximum is one. -/
theorem at0_expH {n : Nat} (he : n % 2 = 0) (fs : ℝ) {cutoff : ℝ} (hc : 0 < cutoff) {k : Nat} (hk : k < n) :
    at0 (expH n fs cutoff) k = (((2 : ℝ) ^ (-(|fs * ((k : ℝ) / n - 1 / 2)| / cutoff)) : ℝ) : ℂ) := by
  have hn : (n : ℝ) ≠ 0 := by exact_mod_cast (by omega : n ≠ 0)
  have hm : ((linspaceOpen (-fs / 2) (fs / 2) n).map (expResponse cutoff)).foldl max 0 = 1 := by
    apply le_antisymm
    · refine foldl_max_le _ _ _ zero_le_one fun v hv => ?_
      obtain ⟨f, -, rfl⟩ := List.mem_map.1 hv
      rw [expResponse_eq hc]
      exact Real.rpow_le_one_of_one_le_of_nonpos (by norm_num) (neg_nonpos.2 (by positivity))
    · refine (foldl_max_ge _ 0).2 1 (List.mem_map.2 ⟨0, ?_, ?_⟩)
      · refine List.mem_map.2 ⟨n / 2, List.mem_range.2 (by omega), ?_⟩
        have h3 : (n : ℝ) = 2 * (n / 2 : Nat) := by exact_mod_cast (by omega : n = 2 * (n / 2))
        have h4 : ((n / 2 : Nat) : ℝ) = n / 2 := by linarith
        rw [h4]
        field_simp
        ring
      · rw [expResponse_eq hc]
        simp
  apply at0_of_some
  unfold expH
  simp only [hm, div_one]
  rw [linspaceOpen, List.getElem?_map, List.getElem?_map, List.getElem?_map, List.getElem?_range hk]
  simp only [Option.map_some]
  rw [expResponse_eq hc]
  congr 6
  field_simp
  ring

/-- The full claim: the exponential filter keeps the mean of every mode and does not increase its energy. -/
def C227_statement : Prop :=
  ∀ (sig : List (List ℂ)) (fs cutoff : ℝ) (n : Nat), 0 < n → (∀ r ∈ sig, r.length = n) → 0 < fs → 0 < cutoff →
    ∀ (m : Nat) (row : List ℂ), sig[m]? = some row → ∃ row', (filterExp sig fs cutoff)[m]? = some row' ∧ row'.sum = row.sum ∧ energy row' ≤ energy row

/-- C227, modes: after the filter mode `l` is the filtered mode `l`, if the number of modes is even or one; else the filtered mode `l+2`. -/
theorem C227_modes {sig : List (List ℂ)} {n : Nat} (hn : ∀ r ∈ sig, r.length = n) (fs cutoff : ℝ) {l : Nat} (hl : l < sig.length) :
    (filterExp sig fs cutoff)[l]? = (sig[(if sig.length % 2 = 0 then l else l + 2) % sig.length]?).map (shapedRow (expH n fs cutoff)) := by
  have hhead : (sig.headD []).length = n := by
    cases sig with
    | nil => simp at hl
    | cons r s => exact hn r (by simp)
  rw [filterExp_rows, hhead]
  obtain ⟨s, hs⟩ : ∃ s, s = sig.map (shapedRow (expH n fs cutoff)) := ⟨_, rfl⟩
  have hsl : s.length = sig.length := by rw [hs, List.length_map]
  rw [← hs]
  unfold fftshift
  simp only [Np.length_roll, roll_roll]
  rw [Np.getElem?_roll _ _ _ (by omega), hsl, ← List.getElem?_map, ← hs]
  congr 1
  zify
  rw [Int.toNat_of_nonneg (Int.emod_nonneg _ (by omega))]
  split_ifs with h
  · rw [← Int.add_mul_emod_self_right (l - _ : Int) 2]
    congr 1
    omega
  · rw [← Int.add_mul_emod_self_right (l - _ : Int) 2]
    congr 1
    omega

theorem shapedRow_even {H x : List ℂ} (hl : H.length = x.length) (h : x.length % 2 = 0) : shapedRow H x = unspectrum (rowMul (spectrum x) H) := by
  unfold shapedRow unspectrum spectrum
  rw [fftshift_even h, fftshift_even (x := rowMul _ _) (by simp [hl, h])]

/-- C227 for rows of even length and an even number of modes (or one): the centred spectrum of every mode is multiplied with `2^{-|f|/cutoff}`,
the mean is kept and the energy not increased. -/
theorem C227_even_partial {sig : List (List ℂ)} (hp : sig.length % 2 = 0 ∨ sig.length = 1) {n : Nat} (hn0 : 0 < n) (heven : n % 2 = 0) (hn : ∀ r ∈ sig, r.length = n)
    (fs : ℝ) {cutoff : ℝ} (hc : 0 < cutoff) (m : Nat) (row : List ℂ) (hrow : sig[m]? = some row) :
    ∃ row', (filterExp sig fs cutoff)[m]? = some row' ∧ row'.length = n ∧ row'.sum = row.sum ∧ energy row' ≤ energy row ∧
      ∀ k < n, at0 (spectrum row') k = at0 (spectrum row) k * (((2 : ℝ) ^ (-(|fs * ((k : ℝ) / n - 1 / 2)| / cutoff)) : ℝ) : ℂ) := by
  have hm : m < sig.length := (List.getElem?_eq_some_iff.1 hrow).1
  have hrl : row.length = n := hn row (List.mem_of_getElem? hrow)
  have h0 : row ≠ [] := by intro hc; rw [hc] at hrl; simp at hrl; omega
  have hN' : (n : ℝ) ≠ 0 := by exact_mod_cast hn0.ne'
  have hout : (filterExp sig fs cutoff)[m]? = some (shapedRow (expH n fs cutoff) row) := by
    rw [C227_modes hn fs cutoff hm]
    rcases hp with h | h
    · rw [if_pos h, Nat.mod_eq_of_lt hm, hrow]
      rfl
    · have : m = 0 := by omega
      subst this
      rw [h, Nat.mod_one, hrow]
      rfl
  have hHl : (expH n fs cutoff).length = row.length := by rw [length_expH, hrl]
  have hlen : (unspectrum (rowMul (spectrum row) (expH n fs cutoff))).length = n := by simp [length_expH, hrl]
  refine ⟨_, hout, ?_⟩
  rw [shapedRow_even hHl (by omega)]
  have hspec : ∀ k < n, at0 (spectrum (unspectrum (rowMul (spectrum row) (expH n fs cutoff)))) k = at0 (spectrum row) k *
      (((2 : ℝ) ^ (-(|fs * ((k : ℝ) / n - 1 / 2)| / cutoff)) : ℝ) : ℂ) := by
    intro k hk
    rw [spectrum_unspectrum, at0_rowMul _ _ (by simpa [hrl] using hk) (by rw [length_expH]; exact hk), at0_expH heven fs hc hk]
  refine ⟨hlen, ?_, ?_, hspec⟩
  · have h1 := hspec (n / 2) (by omega)
    have h3 := at0_spectrum_dc h0
    rw [hrl] at h3
    rw [h3] at h1
    have h2 := at0_spectrum_dc (x := unspectrum (rowMul (spectrum row) (expH n fs cutoff))) (by intro hc; rw [hc] at hlen; simp at hlen; omega)
    rw [hlen] at h2
    rw [h2] at h1
    rw [h1]
    have : (((n / 2 : Nat) : ℝ) / n - 1 / 2) = 0 := by
      have h4 : (n : ℝ) = 2 * (n / 2 : Nat) := by exact_mod_cast (by omega : n = 2 * (n / 2))
      have : ((n / 2 : Nat) : ℝ) = n / 2 := by linarith
      rw [this]
      field_simp
      norm_num
    rw [this]
    simp
  · have e1 := energy_unspectrum (rowMul (spectrum row) (expH n fs cutoff))
    have e2 := energy_rowMul_le (x := spectrum row) (h := expH n fs cutoff) (by simp [length_expH, hrl]) norm_expH
    rw [← e1, energy_spectrum, length_rowMul, length_spectrum, length_expH, hrl, min_self] at e2
    exact le_of_mul_le_mul_left e2 (by exact_mod_cast hn0)

/-- C227 fails for three modes: they are permuted. -/
theorem C227_false : ¬ C227_statement := by
  intro H
  obtain ⟨row', h1, h2, -⟩ := H [[1, 1], [0, 0], [0, 0]] 1 1 2 (by norm_num) (by simp) one_pos one_pos 0 [1, 1] rfl
  rw [C227_modes (n := 2) (by simp) 1 1 (by simp)] at h1
  simp only [List.length_cons, List.length_nil] at h1
  obtain ⟨r, g1, -, g2, -⟩ := C227_even_partial (sig := [[0, 0]]) (Or.inr rfl) (n := 2) (by norm_num) (by norm_num) (by simp) 1 one_pos 0 [0, 0] rfl
  rw [C227_modes (n := 2) (by simp) 1 1 (by simp)] at g1
  norm_num at h1 g1
  rw [← h1, g1, g2] at h2
  norm_num at h2

/-- C227: for a row of odd length (at least three) the filter shifts the spectrum by one bin: a constant row gets mean zero. -/
theorem C227_odd_fails {N : Nat} (hodd : N % 2 = 1) (h3 : 3 ≤ N) (c : ℂ) (fs cutoff : ℝ) : (shapedRow (expH N fs cutoff) (List.replicate N c)).sum = 0 := by
  have hl : (shapedRow (expH N fs cutoff) (List.replicate N c)).length = N := by simp [shapedRow, length_expH]
  unfold shapedRow at hl ⊢
  unfold fftshift at hl ⊢
  rw [(roll_perm _ _).sum_eq, ← at0_fft_zero (by intro hc; rw [hc] at hl; simp [Np.roll] at hl; omega), fft_ifft, at0_roll _ _ (by simp [length_expH]; omega)]
  simp only [length_rowMul, Np.length_roll, length_fft, List.length_replicate, length_expH, min_self, Nat.cast_zero, zero_sub]
  have hroll : Np.roll (List.replicate N c) ((N / 2 : Nat) : Int) = List.replicate N c := by
    refine List.eq_replicate_iff.2 ⟨by simp, ?_⟩
    · intro b hb
      exact List.eq_of_mem_replicate ((roll_perm _ _).mem_iff.1 hb)
  rw [hroll]
  have hj := emod_toNat_lt (N := N) (by omega) (-((N / 2 : Nat) : Int))
  have hval : ((-((N / 2 : Nat) : Int) % N).toNat : Int) = N - (N / 2 : Nat) := by
    have h1 : -((N / 2 : Nat) : Int) % N = N - (N / 2 : Nat) := by
      rw [← Int.add_emod_right]
      rw [Int.emod_eq_of_lt (by omega) (by omega)]
      ring
    rw [h1]
    omega
  rw [at0_rowMul _ _ (by simpa using hj) (by rw [length_expH]; exact hj), at0_roll _ _ (by simpa using hj)]
  simp only [length_fft, List.length_replicate]
  rw [hval]
  have : (((N : Int) - (N / 2 : Nat) - (N / 2 : Nat)) % N).toNat = 1 := by
    have : ((N : Int) - (N / 2 : Nat) - (N / 2 : Nat)) = 1 := by omega
    rw [this, Int.emod_eq_of_lt (by omega) (by omega)]
    rfl
  rw [this, at0_fft _ (by simp; omega), List.length_replicate]
  have hs : ∑ n ∈ Finset.range N, at0 (List.replicate N c) n * ew N (-((n : ℤ) * (1 : Nat))) = 0 := by
    have h1 : ∀ n ∈ Finset.range N, at0 (List.replicate N c) n * ew N (-((n : ℤ) * (1 : Nat))) = c * ew N (-1 * n) := by
      intro n hn
      rw [at0_of_some (z := c) (by simp [Finset.mem_range.1 hn])]
      congr 2
      push_cast
      ring
    rw [Finset.sum_congr rfl h1, ← Finset.mul_sum, ew_orth (by omega), if_neg, mul_zero]
    intro hd
    have := Int.le_of_dvd one_pos ((Int.dvd_neg).1 hd)
    omega
  rw [hs, zero_mul]

/-- A constant mode of odd length is filtered to a mode of mean zero. -/
theorem C227_odd_mode {N : Nat} (hodd : N % 2 = 1) (h3 : 3 ≤ N) (c : ℂ) (fs cutoff : ℝ) :
    ∃ row', (filterExp [List.replicate N c] fs cutoff)[0]? = some row' ∧ row'.sum = 0 := by
  refine ⟨_, ?_, C227_odd_fails hodd h3 c fs cutoff⟩
  rw [C227_modes (n := N) (by simp) fs cutoff (by simp)]
  simp

/-- Two modes of four samples keep their means. -/
example : ∃ row', (filterExp [[1, 2, 3, 4], [I, 0, 0, 1]] 2 (1 / 3))[1]? = some row' ∧ row'.sum = I + 1 := by
  obtain ⟨r, h1, -, h2, -⟩ := C227_even_partial (sig := [[1, 2, 3, 4], [I, 0, 0, 1]]) (Or.inl rfl) (n := 4) (by norm_num) (by norm_num) (by simp) 2 (cutoff := 1 / 3) (by norm_num) 1 [I, 0, 0, 1] rfl
  exact ⟨r, h1, by rw [h2]; simp⟩

end Qampy
