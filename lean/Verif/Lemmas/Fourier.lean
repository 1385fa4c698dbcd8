import Verif.Model.Fourier
import Verif.Lemmas.Np
import Verif.Tactics
import Mathlib.RingTheory.RootsOfUnity.Complex
import Mathlib.Algebra.BigOperators.Intervals
import Mathlib.Algebra.BigOperators.Field

/-! Lemmas on the discrete Fourier transform: inversion, Parseval, shifts. -/

namespace Qampy

open Complex

/-- Element `n`, zero outside of the row. -/
def at0 (x : List ℂ) (n : Nat) : ℂ := x.getD n 0

theorem at0_getElem? {x : List ℂ} {n : Nat} (h : n < x.length) : x[n]? = some (at0 x n) := by
  simp [at0, List.getElem?_eq_getElem h]

theorem at0_of_some {x : List ℂ} {n : Nat} {z : ℂ} (h : x[n]? = some z) : at0 x n = z := by
  simp [at0, h]

theorem ext_at0 {x y : List ℂ} (h : x.length = y.length) (h2 : ∀ n, n < x.length → at0 x n = at0 y n) : x = y := by
  apply List.ext_getElem? 
  intro n
  by_cases hn : n < x.length
  · rw [at0_getElem? hn, at0_getElem? (h ▸ hn), h2 n hn]
  · rw [List.getElem?_eq_none (by omega), List.getElem?_eq_none (by omega)]

/-- The root `exp(2πi m/N)`. -/
noncomputable def ew (N : Nat) (m : ℤ) : ℂ := exp (2 * Real.pi * I * (m / N))

theorem ew_add (N : Nat) (a b : ℤ) : ew N (a + b) = ew N a * ew N b := by
  unfold ew
  rw [← Complex.exp_add]
  congr 1
  push_cast
  ring

theorem ew_zero (N : Nat) : ew N 0 = 1 := by simp [ew]

theorem ew_mul_self (N : Nat) (hN : 0 < N) (k : ℤ) : ew N (N * k) = 1 := by
  unfold ew
  have : (2 * Real.pi * I * (((N : ℤ) * k : ℤ) / N) : ℂ) = k * (2 * Real.pi * I) := by
    have : (N : ℂ) ≠ 0 := by exact_mod_cast hN.ne'
    push_cast
    field_simp
  rw [this, Complex.exp_int_mul_two_pi_mul_I]

theorem ew_emod (N : Nat) (hN : 0 < N) (m : ℤ) : ew N (m % N) = ew N m := by
  conv_rhs => rw [← Int.emod_add_mul_ediv m N]
  rw [ew_add, ew_mul_self N hN, mul_one]

theorem ew_pow (N : Nat) (m : ℤ) (k : Nat) : ew N m ^ k = ew N (m * k) := by
  unfold ew
  rw [← Complex.exp_nat_mul]
  congr 1
  push_cast
  ring

theorem ew_ne_zero (N : Nat) (m : ℤ) : ew N m ≠ 0 := Complex.exp_ne_zero _

theorem norm_ew (N : Nat) (m : ℤ) : ‖ew N m‖ = 1 := by
  unfold ew
  have : (2 * Real.pi * I * (m / N) : ℂ) = ((2 * Real.pi * (m / N) : ℝ) : ℂ) * I := by push_cast; ring
  rw [this, Complex.norm_exp_ofReal_mul_I]

theorem conj_ew (N : Nat) (m : ℤ) : (starRingEnd ℂ) (ew N m) = ew N (-m) := by
  unfold ew
  rw [← Complex.exp_conj]
  congr 1
  simp only [map_mul, map_div₀, Complex.conj_ofReal, Complex.conj_I, map_intCast, map_natCast, Complex.conj_ofNat]
  push_cast
  ring

theorem ew_eq_one_iff {N : Nat} (hN : 0 < N) (m : ℤ) : ew N m = 1 ↔ (N : ℤ) ∣ m := by
  constructor
  · intro h
    unfold ew at h
    rw [Complex.exp_eq_one_iff] at h
    obtain ⟨n, hn⟩ := h
    have h2 : (2 * Real.pi * I : ℂ) ≠ 0 := by simp [Real.pi_ne_zero]
    rw [mul_comm (n : ℂ)] at hn
    have := mul_left_cancel₀ h2 hn
    have hN' : (N : ℂ) ≠ 0 := by exact_mod_cast hN.ne'
    rw [div_eq_iff hN'] at this
    refine ⟨n, ?_⟩
    have h3 : (m : ℂ) = ((N * n : ℤ) : ℂ) := by push_cast; rw [this]; ring
    exact_mod_cast h3
  · rintro ⟨k, rfl⟩
    exact ew_mul_self N hN k

theorem ew_orth {N : Nat} (hN : 0 < N) (m : ℤ) : ∑ k ∈ Finset.range N, ew N (m * k) = if (N : ℤ) ∣ m then (N : ℂ) else 0 := by
  have h1 : ∑ k ∈ Finset.range N, ew N (m * k) = ∑ k ∈ Finset.range N, ew N m ^ k :=
    Finset.sum_congr rfl fun k _ => (ew_pow N m k).symm
  rw [h1]
  by_cases h : (N : ℤ) ∣ m
  · rw [if_pos h, (ew_eq_one_iff hN m).2 h]
    simp
  · rw [if_neg h, geom_sum_eq (fun h' => h ((ew_eq_one_iff hN m).1 h')), ew_pow, mul_comm, ew_mul_self N hN, sub_self, zero_div]

theorem dvd_sub_iff {N a b : Nat} (ha : a < N) (hb : b < N) : ((N : ℤ) ∣ (a : ℤ) - b) ↔ a = b := by
  constructor
  · intro h
    have : ((a : ℤ) - b) = 0 := Int.eq_zero_of_abs_lt_dvd h (by rw [abs_lt]; omega)
    omega
  · rintro rfl
    simp

@[simp] theorem length_fft (x : List ℂ) : (fft x).length = x.length := by simp [fft]
@[simp] theorem length_ifft (x : List ℂ) : (ifft x).length = x.length := by simp [ifft]
@[simp] theorem length_fftshift {α : Type} (x : List α) : (fftshift x).length = x.length := by simp [fftshift]
@[simp] theorem length_ifftshift {α : Type} (x : List α) : (ifftshift x).length = x.length := by simp [ifftshift]

theorem at0_fft (x : List ℂ) {k : Nat} (hk : k < x.length) :
    at0 (fft x) k = ∑ n ∈ Finset.range x.length, at0 x n * ew x.length (-((n : ℤ) * k)) := by
  have : (fft x)[k]? = some (∑ n ∈ Finset.range x.length, x.getD n 0 * exp (-(I * ((2 * Real.pi * n * k / x.length : ℝ) : ℂ)))) := by
    rw [fft, List.getElem?_map, List.getElem?_range hk]
    rfl
  rw [at0_of_some this]
  apply Finset.sum_congr rfl
  intro n _
  unfold at0 ew
  congr 2
  push_cast
  ring

theorem at0_ifft (x : List ℂ) {n : Nat} (hn : n < x.length) :
    at0 (ifft x) n = (∑ k ∈ Finset.range x.length, at0 x k * ew x.length ((n : ℤ) * k)) / x.length := by
  have : (ifft x)[n]? = some ((∑ k ∈ Finset.range x.length, x.getD k 0 * exp (I * ((2 * Real.pi * n * k / x.length : ℝ) : ℂ))) / x.length) := by
    rw [ifft, List.getElem?_map, List.getElem?_range hn]
    rfl
  rw [at0_of_some this]
  congr 1
  apply Finset.sum_congr rfl
  intro k _
  unfold at0 ew
  congr 2
  push_cast
  ring

theorem ifft_fft (x : List ℂ) : ifft (fft x) = x := by
  apply ext_at0 (by simp)
  intro n hn
  simp only [length_ifft, length_fft] at hn
  have hN : 0 < x.length := by omega
  have hN' : (x.length : ℂ) ≠ 0 := by exact_mod_cast hN.ne'
  rw [at0_ifft _ (by simpa using hn), length_fft, div_eq_iff hN']
  have h1 : ∀ k ∈ Finset.range x.length, at0 (fft x) k * ew x.length ((n : ℤ) * k)
      = ∑ m ∈ Finset.range x.length, at0 x m * ew x.length (((n : ℤ) - m) * k) := by
    intro k hk
    rw [at0_fft _ (Finset.mem_range.1 hk), Finset.sum_mul]
    apply Finset.sum_congr rfl
    intro m _
    rw [mul_assoc, ← ew_add]
    congr 2
    ring
  rw [Finset.sum_congr rfl h1, Finset.sum_comm]
  have h2 : ∀ m ∈ Finset.range x.length, ∑ k ∈ Finset.range x.length, at0 x m * ew x.length (((n : ℤ) - m) * k)
      = if n = m then at0 x m * x.length else 0 := by
    intro m hm
    rw [← Finset.mul_sum, ew_orth hN]
    by_cases h : n = m
    · rw [if_pos h, if_pos ((dvd_sub_iff hn (Finset.mem_range.1 hm)).2 h)]
    · rw [if_neg h, if_neg (fun h' => h ((dvd_sub_iff hn (Finset.mem_range.1 hm)).1 h')), mul_zero]
  rw [Finset.sum_congr rfl h2, Finset.sum_ite_eq, if_pos (Finset.mem_range.2 hn)]

theorem fft_ifft (x : List ℂ) : fft (ifft x) = x := by
  apply ext_at0 (by simp)
  intro n hn
  simp only [length_ifft, length_fft] at hn
  have hN : 0 < x.length := by omega
  have hN' : (x.length : ℂ) ≠ 0 := by exact_mod_cast hN.ne'
  rw [at0_fft _ (by simpa using hn), length_ifft]
  have h1 : ∀ k ∈ Finset.range x.length, at0 (ifft x) k * ew x.length (-((k : ℤ) * n))
      = ∑ m ∈ Finset.range x.length, at0 x m * ew x.length (((m : ℤ) - n) * k) / x.length := by
    intro k hk
    rw [at0_ifft _ (Finset.mem_range.1 hk), div_mul_eq_mul_div, Finset.sum_mul, Finset.sum_div]
    apply Finset.sum_congr rfl
    intro m _
    rw [mul_assoc, ← ew_add]
    congr 3
    ring
  rw [Finset.sum_congr rfl h1, Finset.sum_comm]
  have h2 : ∀ m ∈ Finset.range x.length, ∑ k ∈ Finset.range x.length, at0 x m * ew x.length (((m : ℤ) - n) * k) / x.length
      = if n = m then at0 x m else 0 := by
    intro m hm
    rw [← Finset.sum_div, ← Finset.mul_sum, ew_orth hN]
    by_cases h : n = m
    · rw [if_pos h, if_pos ((dvd_sub_iff (Finset.mem_range.1 hm) hn).2 h.symm), mul_div_cancel_right₀ _ hN']
    · rw [if_neg h, if_neg (fun h' => h ((dvd_sub_iff (Finset.mem_range.1 hm) hn).1 h').symm), mul_zero, zero_div]
  rw [Finset.sum_congr rfl h2, Finset.sum_ite_eq, if_pos (Finset.mem_range.2 hn)]

/-- Energy of a row. -/
noncomputable def energy (x : List ℂ) : ℝ := (x.map fun z => ‖z‖ ^ 2).sum

theorem energy_eq (x : List ℂ) : energy x = ∑ n ∈ Finset.range x.length, ‖at0 x n‖ ^ 2 := by
  unfold energy
  induction x with
  | nil => simp
  | cons a x ih =>
    rw [List.map_cons, List.sum_cons, ih, List.length_cons, Finset.sum_range_succ']
    simp [at0, add_comm]

theorem energy_fft (x : List ℂ) : energy (fft x) = x.length * energy x := by
  rcases Nat.eq_zero_or_pos x.length with h0 | hN
  · have : x = [] := List.length_eq_zero_iff.1 h0
    subst this
    simp [energy, fft]
  have key : ((energy (fft x) : ℝ) : ℂ) = ((x.length * energy x : ℝ) : ℂ) := by
    rw [energy_eq, energy_eq, length_fft]
    push_cast
    have h1 : ∀ k ∈ Finset.range x.length, ((‖at0 (fft x) k‖ : ℝ) : ℂ) ^ 2
        = ∑ n ∈ Finset.range x.length, ∑ m ∈ Finset.range x.length,
          at0 x n * (starRingEnd ℂ) (at0 x m) * ew x.length (((m : ℤ) - n) * k) := by
      intro k hk
      have : ((‖at0 (fft x) k‖ : ℝ) : ℂ) ^ 2 = at0 (fft x) k * (starRingEnd ℂ) (at0 (fft x) k) := by
        rw [Complex.mul_conj, Complex.normSq_eq_norm_sq]; push_cast; rfl
      rw [this, at0_fft _ (Finset.mem_range.1 hk), map_sum, Finset.sum_mul_sum]
      refine Finset.sum_congr rfl fun n _ => Finset.sum_congr rfl fun m _ => ?_
      rw [map_mul, conj_ew, show ((m : ℤ) - n) * k = -((n : ℤ) * k) + - -((m : ℤ) * k) by ring, ew_add]
      ring
    rw [Finset.sum_congr rfl h1, Finset.sum_comm, Finset.mul_sum]
    refine Finset.sum_congr rfl fun n hn => ?_
    rw [Finset.sum_comm]
    have h2 : ∀ m ∈ Finset.range x.length, ∑ k ∈ Finset.range x.length,
        at0 x n * (starRingEnd ℂ) (at0 x m) * ew x.length (((m : ℤ) - n) * k)
        = if m = n then (x.length : ℂ) * (at0 x n * (starRingEnd ℂ) (at0 x m)) else 0 := by
      intro m hm
      rw [← Finset.mul_sum, ew_orth hN]
      by_cases h : m = n
      · rw [if_pos h, if_pos ((dvd_sub_iff (Finset.mem_range.1 hm) (Finset.mem_range.1 hn)).2 h)]
        ring
      · rw [if_neg h, if_neg (fun h' => h ((dvd_sub_iff (Finset.mem_range.1 hm) (Finset.mem_range.1 hn)).1 h')), mul_zero]
    rw [Finset.sum_congr rfl h2, Finset.sum_ite_eq', if_pos hn, Complex.mul_conj, Complex.normSq_eq_norm_sq]
    push_cast
    rfl
  exact_mod_cast key

theorem energy_ifft (x : List ℂ) : x.length * energy (ifft x) = energy x := by
  have := energy_fft (ifft x)
  rw [fft_ifft, length_ifft] at this
  exact this.symm

/-! ### Rolls -/

theorem at0_roll (x : List ℂ) (d : Int) {n : Nat} (hn : n < x.length) :
    at0 (Np.roll x d) n = at0 x (((n : Int) - d) % x.length).toNat := by
  have h := Np.getElem?_roll x d n hn
  have hb : (((n : Int) - d) % (x.length : Int)).toNat < x.length := by
    have := Int.emod_lt_of_pos ((n : Int) - d) (show (0 : Int) < x.length by omega)
    have := Int.emod_nonneg ((n : Int) - d) (show (x.length : Int) ≠ 0 by omega)
    omega
  rw [at0_getElem? hb] at h
  exact at0_of_some h

theorem roll_perm {α : Type} (x : List α) (d : Int) : (Np.roll x d).Perm x := by
  unfold Np.roll
  simp only
  exact (List.perm_append_comm).trans (by rw [List.take_append_drop])

theorem energy_roll (x : List ℂ) (d : Int) : energy (Np.roll x d) = energy x :=
  ((roll_perm x d).map _).sum_eq

theorem getElem?_roll' {α : Type} (l : List α) (k : Int) (i : Nat) (hi : i < l.length) :
    ∃ j : Nat, j < l.length ∧ (j : Int) = ((i : Int) - k) % l.length ∧ (Np.roll l k)[i]? = l[j]? := by
  have h1 := Int.emod_lt_of_pos ((i : Int) - k) (show (0 : Int) < l.length by omega)
  have h2 := Int.emod_nonneg ((i : Int) - k) (show (l.length : Int) ≠ 0 by omega)
  exact ⟨(((i : Int) - k) % (l.length : Int)).toNat, by omega, by omega, Np.getElem?_roll l k i hi⟩

theorem roll_roll {α : Type} (l : List α) (a b : Int) : Np.roll (Np.roll l a) b = Np.roll l (a + b) := by
  apply List.ext_getElem?
  intro i
  by_cases hi : i < l.length
  · obtain ⟨j, h1, h2, h3⟩ := getElem?_roll' (Np.roll l a) b i (by simpa using hi)
    simp only [Np.length_roll] at h1 h2
    obtain ⟨j', g1, g2, g3⟩ := getElem?_roll' l a j h1
    obtain ⟨j'', f1, f2, f3⟩ := getElem?_roll' l (a + b) i hi
    rw [h3, g3, f3]
    congr 1
    have : (j' : Int) = j'' := by
      rw [g2, f2, h2, Int.sub_emod, Int.emod_emod, ← Int.sub_emod]
      congr 1
      ring
    omega
  · rw [List.getElem?_eq_none (by simpa using hi), List.getElem?_eq_none (by simpa using hi)]

theorem roll_zero {α : Type} (l : List α) : Np.roll l 0 = l := by
  simp [Np.roll]

theorem roll_length {α : Type} (l : List α) (k : Int) : Np.roll l (k + l.length) = Np.roll l k := by
  simp [Np.roll]

theorem ifftshift_fftshift {α : Type} (x : List α) : ifftshift (fftshift x) = x := by
  unfold ifftshift fftshift
  rw [Np.length_roll, roll_roll, add_neg_cancel, roll_zero]

theorem fftshift_ifftshift {α : Type} (x : List α) : fftshift (ifftshift x) = x := by
  unfold ifftshift fftshift
  rw [Np.length_roll, roll_roll, neg_add_cancel, roll_zero]

/-- Reindexing a sum over all residues. -/
theorem sum_emod {N : Nat} (f : Nat → ℂ) (d : Int) :
    ∑ n ∈ Finset.range N, f (((n : Int) - d) % N).toNat = ∑ n ∈ Finset.range N, f n := by
  rcases Nat.eq_zero_or_pos N with rfl | hN
  · simp
  have hlt : ∀ z : Int, (z % N).toNat < N := fun z => by
    have := Int.emod_lt_of_pos z (show (0 : Int) < N by omega)
    have := Int.emod_nonneg z (show (N : Int) ≠ 0 by omega)
    omega
  have hval : ∀ z : Int, ((z % N).toNat : Int) = z % N := fun z => Int.toNat_of_nonneg (Int.emod_nonneg z (by omega))
  refine Finset.sum_bij' (fun n _ => (((n : Int) - d) % N).toNat) (fun n _ => (((n : Int) + d) % N).toNat)
    (fun n _ => Finset.mem_range.2 (hlt _)) (fun n _ => Finset.mem_range.2 (hlt _)) ?_ ?_ (fun n _ => rfl)
  · intro n hn
    have hn := Finset.mem_range.1 hn
    have : ((((((n : Int) - d) % N).toNat : Int) + d) % N) = n := by
      rw [hval, Int.emod_add_emod, sub_add_cancel]
      exact Int.emod_eq_of_lt (by omega) (by omega)
    simp only [this, Int.toNat_natCast]
  · intro n hn
    have hn := Finset.mem_range.1 hn
    have : ((((((n : Int) + d) % N).toNat : Int) - d) % N) = n := by
      rw [hval, Int.emod_sub_emod, add_sub_cancel_right]
      exact Int.emod_eq_of_lt (by omega) (by omega)
    simp only [this, Int.toNat_natCast]

/-- Shift theorem. -/
theorem at0_fft_roll (x : List ℂ) (d : Int) {k : Nat} (hk : k < x.length) :
    at0 (fft (Np.roll x d)) k = at0 (fft x) k * ew x.length (-(d * k)) := by
  have hN : 0 < x.length := by omega
  rw [at0_fft _ (by simpa using hk), at0_fft _ hk, Np.length_roll, Finset.sum_mul,
    ← sum_emod (fun n => at0 x n * ew x.length (-((n : ℤ) * k)) * ew x.length (-(d * k))) d]
  apply Finset.sum_congr rfl
  intro n hn
  rw [at0_roll _ _ (Finset.mem_range.1 hn), mul_assoc, ← ew_add]
  congr 1
  have hval : (((((n : Int) - d) % x.length).toNat : Nat) : Int) = ((n : Int) - d) % x.length :=
    Int.toNat_of_nonneg (Int.emod_nonneg _ (by omega))
  rw [hval, ← ew_emod _ hN, ← ew_emod _ hN (-(((n : Int) - d) % x.length * k) + -(d * k))]
  congr 1
  have e : ((n : Int) - d) = (((n : Int) - d) % x.length) + x.length * (((n : Int) - d) / x.length) := (Int.emod_add_mul_ediv _ _).symm
  have : -((n : Int) * k) = (-(((n : Int) - d) % x.length * k) + -(d * k)) + x.length * (-(((n : Int) - d) / x.length) * k) := by
    have e' : (n : Int) = (((n : Int) - d) % x.length) + x.length * (((n : Int) - d) / x.length) + d := by omega
    generalize ((n : Int) - d) % x.length = A at e' ⊢
    generalize ((n : Int) - d) / x.length = B at e' ⊢
    rw [e']
    ring
  rw [this, Int.add_mul_emod_self_left]

/-! ### Products of rows -/

@[simp] theorem length_rowMul (x y : List ℂ) : (rowMul x y).length = min x.length y.length := by simp [rowMul]

theorem at0_rowMul (x y : List ℂ) {n : Nat} (h : n < x.length) (h2 : n < y.length) : at0 (rowMul x y) n = at0 x n * at0 y n := by
  apply at0_of_some
  rw [rowMul, List.getElem?_zipWith, at0_getElem? h, at0_getElem? h2]

theorem energy_rowMul_unit {x h : List ℂ} (hl : h.length = x.length) (hh : ∀ z ∈ h, ‖z‖ = 1) : energy (rowMul x h) = energy x := by
  rw [energy_eq, energy_eq, length_rowMul, hl, min_self]
  refine Finset.sum_congr rfl fun n hn => ?_
  have hn := Finset.mem_range.1 hn
  rw [at0_rowMul _ _ hn (hl ▸ hn), norm_mul, hh _ (List.mem_of_getElem? (at0_getElem? (hl ▸ hn))), mul_one]

theorem rowMul_inv {x h g : List ℂ} (hl : h.length = x.length) (gl : g.length = x.length)
    (hg : ∀ n < x.length, at0 h n * at0 g n = 1) : rowMul (rowMul x h) g = x := by
  apply ext_at0 (by simp [hl, gl])
  intro n hn
  have hn : n < x.length := by simpa [hl, gl] using hn
  rw [at0_rowMul _ _ (by simpa [hl] using hn) (gl ▸ hn), at0_rowMul _ _ hn (hl ▸ hn), mul_assoc, hg n hn, mul_one]

end Qampy
