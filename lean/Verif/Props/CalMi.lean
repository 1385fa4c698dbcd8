import Verif.Model.CalMi
import Verif.Props.Quality

/-!
# The two estimators of the mutual information: C171
-/

namespace Qampy

/-- Complex conjugation. -/
noncomputable abbrev cj (z : ℂ) : ℂ := (starRingEnd ℂ) z

theorem cj_cj (z : ℂ) : cj (cj z) = z := Complex.conj_conj z

/-- The exponent of both estimators. -/
theorem mi_exponent (s c z : ℂ) : ‖s + z - c‖ ^ 2 - ‖z‖ ^ 2 = ‖s - c‖ ^ 2 + 2 * ((s - c) * cj z).re := by
  rw [← Complex.normSq_eq_norm_sq, ← Complex.normSq_eq_norm_sq, ← Complex.normSq_eq_norm_sq]
  simp only [Complex.normSq_apply, Complex.add_re, Complex.add_im, Complex.sub_re, Complex.sub_im, Complex.mul_re, Complex.conj_re, Complex.conj_im]
  ring

theorem calMiMcFast_constant (noise symbols : List ℂ) (s : ℂ) (N0 : ℝ) :
    calMiMcFast (noise.map fun z => s + z) (noise.map fun _ => s) symbols N0 = Real.logb 2 symbols.length -
      ((noise.map cj).map fun z => Real.logb 2 (symbols.map fun sj => Real.exp (-(‖s - sj‖ ^ 2 + 2 * ((s - sj) * z).re) / N0)).sum).sum / noise.length := by
  unfold calMiMcFast
  have h : (noise.map fun z => s + z).zip (noise.map fun _ => s) = noise.map fun z => (s + z, s) := by
    induction noise with
    | nil => rfl
    | cons z l ih => simp only [List.map_cons, List.zip_cons_cons, ih]
  rw [h]
  simp only [List.map_map, List.length_map]
  congr 4
  funext z
  simp only [Function.comp_apply]
  congr 3
  funext c
  rw [← mi_exponent, add_sub_cancel_left]

theorem sum_map_affine (l : List ℂ) (a L : ℝ) (f : ℂ → ℝ) : (l.map fun s => a - f s / L).sum = l.length * a - (l.map f).sum / L := by
  induction l with
  | nil => simp
  | cons s l ih =>
    simp only [List.map_cons, List.sum_cons, List.length_cons, ih]
    push_cast
    ring

/-- C171: for any alphabet the slow estimator is the fast one averaged over all transmitted symbols, for the conjugate of the noise. -/
theorem C171_conjugate_noise (noise symbols : List ℂ) (N0 : ℝ) (hs : symbols ≠ []) :
    calMiMc (noise.map cj) symbols N0 =
      (symbols.map fun s => calMiMcFast (noise.map fun z => s + z) (noise.map fun _ => s) symbols N0).sum / symbols.length := by
  have hM : (symbols.length : ℝ) ≠ 0 := by
    rw [Nat.cast_ne_zero]
    exact fun h => hs (List.length_eq_zero_iff.1 h)
  simp only [calMiMcFast_constant]
  rw [sum_map_affine]
  unfold calMiMc
  simp only [List.length_map]
  field_simp

/-- The alphabet is symmetric about the real axis. -/
def ConjClosed (symbols : List ℂ) : Prop := (symbols.map cj).Perm symbols

theorem calMiMc_conj (noise : List ℂ) {symbols : List ℂ} (hc : ConjClosed symbols) (N0 : ℝ) : calMiMc (noise.map cj) symbols N0 = calMiMc noise symbols N0 := by
  have key : ∀ si z : ℂ, (symbols.map fun sj => Real.exp (-(‖si - sj‖ ^ 2 + 2 * ((si - sj) * cj z).re) / N0)).sum
      = (symbols.map fun sj => Real.exp (-(‖cj si - sj‖ ^ 2 + 2 * ((cj si - sj) * z).re) / N0)).sum := by
    intro si z
    rw [← (hc.map fun sj => Real.exp (-(‖cj si - sj‖ ^ 2 + 2 * ((cj si - sj) * z).re) / N0)).sum_eq, List.map_map]
    congr 1
    apply List.map_congr_left
    intro sj _
    simp only [Function.comp_apply]
    have h1 : cj si - cj sj = cj (si - sj) := (map_sub _ _ _).symm
    rw [h1, RCLike.norm_conj]
    congr 5
    simp [Complex.mul_re]
    ring
  unfold calMiMc
  simp only [List.length_map, List.map_map]
  congr 3
  rw [← (hc.map fun si => (noise.map fun z => Real.logb 2 (symbols.map fun sj => Real.exp (-(‖si - sj‖ ^ 2 + 2 * ((si - sj) * z).re) / N0)).sum).sum).sum_eq, List.map_map]
  congr 1
  apply List.map_congr_left
  intro si _
  simp only [Function.comp_apply]
  congr 1
  apply List.map_congr_left
  intro z _
  simp only [Function.comp_apply]
  rw [key]

/-- C171: for an alphabet symmetric about the real axis `cal_mi(fast=False)` is the average of `cal_mi(fast=True)` over all symbols of the alphabet as transmitted symbol, with the same noise. -/
theorem C171_slow_is_average_partial (sig tx alphabet : List ℂ) (N0 : ℝ) (ha : alphabet ≠ []) (hc : ConjClosed alphabet) :
    calMi sig tx alphabet N0 false = (alphabet.map fun s => calMi ((List.zipWith (fun r t => r - t) sig tx).map fun z => s + z)
      ((List.zipWith (fun r t => r - t) sig tx).map fun _ => s) alphabet N0 true).sum / alphabet.length := by
  simp only [calMi, if_true, Bool.false_eq_true, if_false]
  rw [← C171_conjugate_noise _ _ _ ha, calMiMc_conj _ hc]

theorem conjClosed_qam (k : Nat) (hk : 2 ≤ k) (scale : ℝ) (hs : scale ≠ 0) : ConjClosed (qamCodedSymbols k scale) := by
  obtain ⟨-, hp, hnd, -⟩ := C13_gray_bijection k scale hs
  unfold ConjClosed
  have hsym : ∀ a b : Int, (a, b) ∈ symbolsQam k → (a, -b) ∈ symbolsQam k := by
    intro a b hab
    unfold symbolsQam at hab ⊢
    split_ifs at hab ⊢ with h
    · exact ((C12_cross_qam (k / 2) (by omega)).2.2.2 a b hab).2
    · have := (C10_square_qam (k / 2) (by omega)).2.2
      rw [this] at hab ⊢
      rw [abs_neg]
      exact ⟨hab.1, hab.2.1.neg, hab.2.2⟩
  have hmem : ∀ z, z ∈ qamCodedSymbols k scale → cj z ∈ qamCodedSymbols k scale := by
    intro z hz
    rw [hp.mem_iff, List.mem_map] at hz ⊢
    obtain ⟨⟨a, b⟩, hab, rfl⟩ := hz
    refine ⟨(a, -b), hsym a b hab, ?_⟩
    unfold toComplex
    simp only [cj]
    rw [map_div₀, Complex.conj_ofReal]
    congr 1
    apply Complex.ext <;> simp
  rw [List.perm_ext_iff_of_nodup _ hnd]
  · intro z
    rw [List.mem_map]
    constructor
    · rintro ⟨y, hy, rfl⟩
      exact hmem y hy
    · intro hz
      exact ⟨cj z, hmem z hz, cj_cj z⟩
  · exact hnd.map fun a b h => by simpa using congrArg cj h

/-- C171 for the QAM alphabets of the library. -/
theorem C171_qam (k : Nat) (hk : 2 ≤ k) (scale : ℝ) (hs : scale ≠ 0) (sig tx : List ℂ) (N0 : ℝ) :
    calMi sig tx (qamCodedSymbols k scale) N0 false = ((qamCodedSymbols k scale).map fun s => calMi ((List.zipWith (fun r t => r - t) sig tx).map fun z => s + z)
      ((List.zipWith (fun r t => r - t) sig tx).map fun _ => s) (qamCodedSymbols k scale) N0 true).sum / (2 ^ k : Nat) := by
  have hl : (qamCodedSymbols k scale).length = 2 ^ k := by
    obtain ⟨-, hp, -, -⟩ := C13_gray_bijection k scale hs
    rw [hp.length_eq, length_scaled]
  have hne : qamCodedSymbols k scale ≠ [] := by
    intro h
    rw [h] at hl
    have := Nat.pos_of_ne_zero (pow_ne_zero k (two_ne_zero (α := Nat)))
    simp only [List.length_nil] at hl
    omega
  rw [C171_slow_is_average_partial sig tx _ N0 hne (conjClosed_qam k hk scale hs), hl]

/-- C171 in general: `fast` only selects whether the average runs over the alphabet. -/
def C171_statement : Prop := ∀ (sig tx alphabet : List ℂ) (N0 : ℝ), alphabet ≠ [] → 0 < N0 → sig.length = tx.length → (∀ t ∈ tx, t ∈ alphabet) →
  calMi sig tx alphabet N0 false = (alphabet.map fun s => calMi ((List.zipWith (fun r t => r - t) sig tx).map fun z => s + z)
    ((List.zipWith (fun r t => r - t) sig tx).map fun _ => s) alphabet N0 true).sum / alphabet.length

/-- The alphabet 1, i with the noise 1 + i: the sum in `cal_mi_mc` lacks a conjugation. -/
theorem C171_false : ¬ C171_statement := by
  intro h
  have := h [⟨2, 1⟩] [1] [1, Complex.I] 1 (by simp) one_pos rfl (by simp)
  simp only [calMi, if_true, Bool.false_eq_true, if_false, List.zipWith_cons_cons, List.zipWith_nil_left] at this
  rw [← C171_conjugate_noise _ _ _ (by simp)] at this
  simp only [List.map_cons, List.map_nil, calMiMc, ← Complex.normSq_eq_norm_sq, Complex.normSq_apply, List.sum_cons, List.sum_nil, List.length_cons, List.length_nil] at this
  norm_num at this
  have h1 : 0 < Real.logb 2 (1 + Real.exp (-6)) := Real.logb_pos (by norm_num) (by linarith [Real.exp_pos (-6)])
  have h2 : 2 ≤ Real.logb 2 (Real.exp 2 + 1) := by
    rw [Real.le_logb_iff_rpow_le (by norm_num) (by positivity)]
    have := Real.add_one_le_exp (2 : ℝ)
    norm_num
    linarith
  have h3 : Real.logb 2 (1 + Real.exp (-2)) < 1 := by
    rw [Real.logb_lt_iff_lt_rpow (by norm_num) (by positivity), Real.rpow_one]
    have : Real.exp (-2) < 1 := by rw [Real.exp_lt_one_iff]; norm_num
    linarith
  rw [add_comm (Real.exp (-2)) 1] at this
  linarith

/-- Binary phase shift keying is symmetric about the real axis. -/
example : ConjClosed [1, -1] := by
  unfold ConjClosed
  simp

/-- A 16-QAM symbol received with noise. -/
example : calMi [⟨11 / 10, 7 / 10⟩] [⟨1, 1⟩] (qamCodedSymbols 4 1) 1 false = ((qamCodedSymbols 4 1).map fun s =>
    calMi [s + (⟨11 / 10, 7 / 10⟩ - ⟨1, 1⟩)] [s] (qamCodedSymbols 4 1) 1 true).sum / (16 : Nat) := by
  have := C171_qam 4 (by norm_num) 1 one_ne_zero [⟨11 / 10, 7 / 10⟩] [⟨1, 1⟩] 1
  simpa using this

end Qampy
