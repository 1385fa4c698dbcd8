import Verif.Model.Correlate
import Verif.Lemmas.Np
import Mathlib.Tactic.Linarith
import Mathlib.Tactic.Ring
import Mathlib.Analysis.Complex.Basic
import Mathlib.Algebra.BigOperators.Intervals

/-! Helper lemmas for the correlation based synchronisation. -/

set_option linter.unusedSectionVars false

namespace Qampy

variable {R K : Type _} [CommRing R] [LinearOrder K] [Zero K]

/-- Sample `k` of `x`, zero outside. -/
def xat (x : List R) (k : Int) : R := if 0 ≤ k then x.getD k.toNat 0 else 0

theorem length_crossCorr (ops : SampleOps R K) (x y : List R) (hx : x ≠ []) (hy : y ≠ []) :
    (crossCorr ops x y).length = x.length + y.length - 1 := by
  simp only [crossCorr, convFull]
  rw [if_neg (by simp [hx, hy])]
  simp

theorem crossCorr_getElem? (ops : SampleOps R K) (x y : List R) (hx : x ≠ []) (hy : y ≠ []) (n : Nat)
    (hn : n < x.length + y.length - 1) :
    (crossCorr ops x y)[n]? = some (∑ j ∈ Finset.range y.length,
      xat x ((n : Int) - (y.length - 1) + j) * ops.conj (y.getD j 0)) := by
  have hyl : 0 < y.length := List.length_pos_iff.2 hy
  simp only [crossCorr, convFull]
  rw [if_neg (by simp [hx, hy])]
  rw [List.getElem?_map, List.getElem?_range (by simpa using hn)]
  simp only [Option.map_some, Option.some.injEq]
  -- both sides as sums over pairs
  have hrev : ∀ m, ((y.map ops.conj).reverse).getD m 0
      = if m < y.length then ops.conj (y.getD (y.length - 1 - m) 0) else 0 := by
    intro m
    by_cases hm : m < y.length
    · rw [if_pos hm, List.getD_eq_getElem?_getD, List.getElem?_reverse (by simpa using hm)]
      simp only [List.length_map, List.getElem?_map]
      rw [List.getD_eq_getElem?_getD, List.getElem?_eq_getElem (by omega)]
      simp
    · rw [if_neg hm, List.getD_eq_getElem?_getD, List.getElem?_eq_none (by simpa using hm)]
      simp
  simp only [hrev]
  refine Finset.sum_bij_ne_zero (fun i _ _ => y.length - 1 - (n - i)) ?_ ?_ ?_ ?_
  · intro i hi h0
    rw [Finset.mem_range]; omega
  · intro i hi h0 i' hi' h0' he
    rw [Finset.mem_range] at hi hi'
    have h1 : n - i < y.length := by by_contra h; simp [h] at h0
    have h2 : n - i' < y.length := by by_contra h; simp [h] at h0'
    omega
  · intro j hj h0
    rw [Finset.mem_range] at hj
    have hk : 0 ≤ (n : Int) - (y.length - 1) + j := by
      by_contra h; simp [xat, h] at h0
    refine ⟨n + j - (y.length - 1), by rw [Finset.mem_range]; omega, ?_, by omega⟩
    have e1 : n - (n + j - (y.length - 1)) < y.length := by omega
    have e2 : y.length - 1 - (n - (n + j - (y.length - 1))) = j := by omega
    have e3 : ((n : Int) - (y.length - 1) + j).toNat = n + j - (y.length - 1) := by omega
    rw [if_pos e1, e2]
    simp only [xat, if_pos hk, e3] at h0
    exact h0
  · intro i hi h0
    rw [Finset.mem_range] at hi
    have h1 : n - i < y.length := by by_contra h; simp [h] at h0
    have e : (n : Int) - (y.length - 1) + ((y.length - 1 - (n - i) : Nat) : Int) = i := by omega
    simp only [if_pos h1, e, xat]
    simp

/-- The correlation at lag `k` (zero padded). -/
noncomputable def corrAt (x y : List ℂ) (k : Int) : ℂ :=
  ∑ j ∈ Finset.range y.length, xat x (k + j) * (starRingEnd ℂ) (y.getD j 0)

/-- Equality case of the triangle inequality: terms of modulus at most one whose sum has modulus `n`. -/
theorem all_eq_of_norm_sum_eq {n : Nat} (hn : 0 < n) (z : Nat → ℂ) (hz : ∀ j < n, ‖z j‖ ≤ 1)
    (h : (n : ℝ) ≤ ‖∑ j ∈ Finset.range n, z j‖) : ∃ c : ℂ, ‖c‖ = 1 ∧ ∀ j < n, z j = c := by
  set S := ∑ j ∈ Finset.range n, z j with hS
  have hnpos : (0 : ℝ) < n := by exact_mod_cast hn
  have hSpos : 0 < ‖S‖ := lt_of_lt_of_le hnpos h
  have hS0 : S ≠ 0 := norm_pos_iff.1 hSpos
  let u : ℂ := S / ‖S‖
  have hu : ‖u‖ = 1 := by simp [u, hS0]
  have hre_le : ∀ j < n, ((starRingEnd ℂ) u * z j).re ≤ 1 := by
    intro j hj
    calc ((starRingEnd ℂ) u * z j).re ≤ ‖(starRingEnd ℂ) u * z j‖ := Complex.re_le_norm _
      _ = ‖z j‖ := by rw [norm_mul, RCLike.norm_conj, hu, one_mul]
      _ ≤ 1 := hz j hj
  have hsum : ∑ j ∈ Finset.range n, ((starRingEnd ℂ) u * z j).re = ‖S‖ := by
    rw [← Complex.re_sum, ← Finset.mul_sum, ← hS]
    have : (starRingEnd ℂ) u * S = ((‖S‖ : ℝ) : ℂ) := by
      simp only [u, map_div₀, Complex.conj_ofReal]
      rw [div_mul_eq_mul_div, mul_comm, Complex.mul_conj, Complex.normSq_eq_norm_sq]
      push_cast
      field_simp
    rw [this, Complex.ofReal_re]
  have hall : ∀ j < n, ((starRingEnd ℂ) u * z j).re = 1 := by
    by_contra hcon
    push Not at hcon
    obtain ⟨j, hj, hne⟩ := hcon
    have hlt : ∑ j ∈ Finset.range n, ((starRingEnd ℂ) u * z j).re < ∑ j ∈ Finset.range n, (1 : ℝ) :=
      Finset.sum_lt_sum (fun i hi => hre_le i (Finset.mem_range.1 hi))
        ⟨j, Finset.mem_range.2 hj, lt_of_le_of_ne (hre_le j hj) hne⟩
    rw [hsum] at hlt
    simp at hlt
    linarith
  refine ⟨u, hu, fun j hj => ?_⟩
  set w := (starRingEnd ℂ) u * z j with hw
  have hwn : ‖w‖ ≤ 1 := by
    rw [hw, norm_mul, RCLike.norm_conj, hu, one_mul]; exact hz j hj
  have hw1 : w = 1 := by
    have hre := hall j hj
    have hsq : w.re ^ 2 + w.im ^ 2 ≤ 1 := by
      have := Complex.normSq_eq_norm_sq w
      rw [Complex.normSq_apply] at this
      nlinarith [norm_nonneg w]
    rw [← hw] at hre
    have him : w.im = 0 := by
      rw [hre] at hsq
      have : w.im ^ 2 ≤ 0 := by linarith
      exact pow_eq_zero_iff (two_ne_zero) |>.1 (le_antisymm this (sq_nonneg _))
    exact Complex.ext (by simpa using hre) (by simpa using him)
  calc z j = (u * (starRingEnd ℂ) u) * z j := by
        rw [Complex.mul_conj, Complex.normSq_eq_norm_sq, hu]; simp
    _ = u * w := by rw [hw]; ring
    _ = u := by rw [hw1, mul_one]

/-- Rotation loop: the result is the initial state or one of the tried rotations, and its correlation is at
least that of every rotation tried. -/
theorem rotLoop_spec (ops : SampleOps R K) (x y : List R) (is : List Nat) (st st' : Option (Nat × Int × K))
    (h : rotLoop ops x y is st = .ok st') :
    (st' = st ∨ ∃ i ∈ is, ∃ idx act, st' = some (i, idx, act) ∧
        findSequenceOffset ops x (y.map (· * ops.I ^ i)) = .ok idx ∧
        act ∈ (crossCorr ops x (y.map (· * ops.I ^ i))).map ops.re) ∧
    (∀ i ∈ is, ∀ v ∈ (crossCorr ops x (y.map (· * ops.I ^ i))).map ops.re, 0 < v →
      ∃ s, st' = some s ∧ v ≤ s.2.2) ∧
    (∀ s, st = some s → ∃ s', st' = some s' ∧ s.2.2 ≤ s'.2.2) := by
  induction is generalizing st with
  | nil =>
    simp only [rotLoop, Except.ok.injEq] at h
    subst h
    exact ⟨Or.inl rfl, by simp, fun s hs => ⟨s, hs, le_rfl⟩⟩
  | cons i is ih =>
    simp only [rotLoop] at h
    cases hf : findSequenceOffset ops x (y.map (· * ops.I ^ i)) with
    | error e => rw [hf] at h; simp [bind, Except.bind] at h
    | ok idx =>
      rw [hf] at h
      simp only [bind, Except.bind] at h
      cases ha : Np.argmax ((crossCorr ops x (y.map (· * ops.I ^ i))).map ops.re) with
      | none => rw [ha] at h; simp at h
      | some m =>
        rw [ha] at h
        simp only at h
        obtain ⟨v, hv, hvmax, -⟩ := Np.argmax_spec ha
        have hgetD : ((crossCorr ops x (y.map (· * ops.I ^ i))).map ops.re).getD m 0 = v := by
          rw [List.getD_eq_getElem?_getD, hv]; rfl
        rw [hgetD] at h
        have hvmem := List.mem_of_getElem? hv
        obtain ⟨h1, h2, h3⟩ := ih _ h
        refine ⟨?_, ?_, ?_⟩
        · rcases h1 with h1 | ⟨i', hi', idx', act', h4, h5, h6⟩
          · by_cases hc : (st.map (·.2.2)).getD 0 < v
            · rw [if_pos hc] at h1
              exact Or.inr ⟨i, by simp, idx, v, h1, hf, hvmem⟩
            · rw [if_neg hc] at h1
              exact Or.inl h1
          · exact Or.inr ⟨i', by simp [hi'], idx', act', h4, h5, h6⟩
        · intro i' hi' w hw hpos
          rcases List.mem_cons.1 hi' with rfl | hi'
          · have hwv := hvmax w hw
            by_cases hc : (st.map (·.2.2)).getD 0 < v
            · rw [if_pos hc] at h3
              obtain ⟨s', hs', hle⟩ := h3 _ rfl
              exact ⟨s', hs', hwv.trans hle⟩
            · rw [if_neg hc] at h3
              cases st with
              | none => exact absurd (lt_of_lt_of_le hpos hwv) hc
              | some s =>
                obtain ⟨s', hs', hle⟩ := h3 _ rfl
                exact ⟨s', hs', hwv.trans ((not_lt.1 hc).trans hle)⟩
          · exact h2 i' hi' w hw hpos
        · intro s hs
          subst hs
          simp only [Option.map_some, Option.getD_some] at h3
          by_cases hc : s.2.2 < v
          · simp only [if_pos hc] at h3
            obtain ⟨s', hs', hle⟩ := h3 _ rfl
            exact ⟨s', hs', hc.le.trans hle⟩
          · simp only [if_neg hc] at h3
            exact h3 _ rfl

theorem rotLoop_ok (ops : SampleOps R K) (x y : List R) (hx : x ≠ []) (hy : y ≠ []) (is : List Nat)
    (st : Option (Nat × Int × K)) : ∃ st', rotLoop ops x y is st = .ok st' := by
  have hxl : 0 < x.length := List.length_pos_iff.2 hx
  have hyl : 0 < y.length := List.length_pos_iff.2 hy
  induction is generalizing st with
  | nil => exact ⟨st, rfl⟩
  | cons i is ih =>
    have hne : crossCorr ops x (y.map (· * ops.I ^ i)) ≠ [] := by
      rw [← List.length_pos_iff, length_crossCorr _ _ _ hx (by simpa using hy)]
      simp; omega
    obtain ⟨m, hm⟩ := Np.argmax_isSome (l := (crossCorr ops x (y.map (· * ops.I ^ i))).map ops.re)
      (by simpa using hne)
    obtain ⟨m', hm'⟩ := Np.argmax_isSome (l := (crossCorr ops x (y.map (· * ops.I ^ i))).map ops.mag)
      (by simpa using hne)
    have hf : findSequenceOffset ops x (y.map (· * ops.I ^ i)) = .ok ((m' : Int) - ((y.length : Int) - 1)) := by
      simp only [findSequenceOffset, hm', List.length_map]
    simp only [rotLoop, hf, bind, Except.bind, hm]
    exact ih _

end Qampy
