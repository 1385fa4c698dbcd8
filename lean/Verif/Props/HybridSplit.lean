import Verif.Model.HybridSplit
import Verif.Props.Pilots

/-!
C224: splitting a hybrid signal into its parts.
-/

namespace Qampy

/-- What a user expects from `_divide_signal_frame`: a created hybrid signal is split into the two symbol streams it was made of. -/
def C224_statement : Prop :=
  ∀ (N : Nat) (fr : ℚ) (b : Bool) (s1 s2 out : List ℂ), 0 ≤ fr → fr ≤ 1 → tdhNew 0 N fr s1 s2 = .ok out →
    divideSignalFrame (createdShape fr b) [out] = .ok [(s1, s2)]

/-- C224: no created signal can be split, the attribute `_frame_len` does not exist. -/
theorem C224_attr (fr : ℚ) (b : Bool) (row : List ℂ) (rows : List (List ℂ)) : divideSignalFrame (createdShape fr b) (row :: rows) = .error .attr := by
  simp [divideSignalFrame, divideRow, createdShape, List.mapM_cons, bind, Except.bind]

/-- C224 is violated. -/
theorem C224_false : ¬ C224_statement := by
  intro h
  have hs : calFractions (1 / 3) = (3, ((2 : Nat) : Int), ((1 : Nat) : Int)) := by decide +kernel
  obtain ⟨out, ho, -⟩ := C23_round_trip (0 : ℂ) 3 (1 / 3) (by norm_num) (by norm_num) 3 2 1 hs [1, 2] [3] rfl rfl
  have h2 := h 3 (1 / 3) false [1, 2] [3] out (by norm_num) (by norm_num) ho
  rw [C224_attr] at h2
  cases h2

/-- The samples read for the position set of the larger format at a shift `j`, as a sum of moduli. -/
noncomputable def shiftSum (row : List ℂ) (idx : List Nat) (j : Nat) : ℝ := (idx.map fun n => ‖row.getD ((n + j) % (row.length - 1)) 0‖).sum

theorem meanModulus_read (row : List ℂ) (hl : 2 ≤ row.length) (idx : List Nat) (hne : idx ≠ []) (j : Nat) :
    meanModulus (shiftedRead row idx j) = some (shiftSum row idx j / idx.length) := by
  have h0 : idx.length ≠ 0 := by simpa using hne
  have h1 : row.length - 1 ≠ 0 := by omega
  simp [meanModulus, shiftedRead, shiftSum, npModNat, h0, h1, Function.comp_def]

theorem shiftSum_nonneg (row : List ℂ) (idx : List Nat) (j : Nat) : 0 ≤ shiftSum row idx j := by
  apply List.sum_nonneg
  intro x hx
  obtain ⟨n, -, rfl⟩ := List.mem_map.1 hx
  exact norm_nonneg _

theorem frameShift_state (row : List ℂ) (hl : 2 ≤ row.length) (idx : List Nat) (hne : idx ≠ []) (n : Nat) :
    (List.range (n + 1)).foldl (shiftStep row idx) (0, -10) =
      (frameShift row idx (n + 1), shiftSum row idx (frameShift row idx (n + 1)) / idx.length) ∧
    frameShift row idx (n + 1) < n + 1 ∧ (∀ j < n + 1, shiftSum row idx j ≤ shiftSum row idx (frameShift row idx (n + 1))) ∧
    ∀ j < frameShift row idx (n + 1), shiftSum row idx j < shiftSum row idx (frameShift row idx (n + 1)) := by
  have hpos : (0 : ℝ) < idx.length := by
    have : idx.length ≠ 0 := by simpa using hne
    exact_mod_cast Nat.pos_of_ne_zero this
  induction n with
  | zero =>
    have hb : (-10 : ℝ) < shiftSum row idx 0 / idx.length := by
      have := div_nonneg (shiftSum_nonneg row idx 0) hpos.le
      linarith
    have h : (List.range 1).foldl (shiftStep row idx) (0, -10) = (0, shiftSum row idx 0 / idx.length) := by
      simp [shiftStep, meanModulus_read row hl idx hne, hb]
    have h2 : frameShift row idx (0 + 1) = 0 := by simp only [frameShift, h]
    rw [h2]
    refine ⟨h, by omega, ?_, by omega⟩
    intro j hj
    rw [show j = 0 by omega]
  | succ n ih =>
    obtain ⟨h1, h2, h3, h4⟩ := ih
    generalize frameShift row idx (n + 1) = k at h1 h2 h3 h4
    have hst : (List.range (n + 1 + 1)).foldl (shiftStep row idx) (0, -10) =
        if shiftSum row idx k < shiftSum row idx (n + 1) then (n + 1, shiftSum row idx (n + 1) / idx.length) else (k, shiftSum row idx k / idx.length) := by
      rw [List.range_succ, List.foldl_append, h1]
      simp [shiftStep, meanModulus_read row hl idx hne, div_lt_div_iff_of_pos_right hpos]
    by_cases hc : shiftSum row idx k < shiftSum row idx (n + 1)
    · rw [if_pos hc] at hst
      have hk : frameShift row idx (n + 1 + 1) = n + 1 := by simp only [frameShift, hst]
      rw [hk]
      refine ⟨hst, by omega, ?_, ?_⟩
      · intro j hj
        rcases Nat.lt_or_eq_of_le (Nat.le_of_lt_succ hj) with h | h
        · exact (h3 j h).trans hc.le
        · rw [h]
      · intro j hj
        exact (h3 j hj).trans_lt hc
    · rw [if_neg hc] at hst
      have hk : frameShift row idx (n + 1 + 1) = k := by simp only [frameShift, hst]
      rw [hk]
      refine ⟨hst, by omega, ?_, h4⟩
      intro j hj
      rcases Nat.lt_or_eq_of_le (Nat.le_of_lt_succ hj) with h | h
      · exact h3 j h
      · rw [h]; exact not_lt.1 hc

/-- C224: with a frame length `n`, the shift found is the first one below `n` at which the samples at the positions of the larger format have the largest
total modulus. -/
theorem C224_shift (row : List ℂ) (hl : 2 ≤ row.length) (idx : List Nat) (hne : idx ≠ []) (n : Nat) (hn : 0 < n) :
    frameShift row idx n < n ∧
    (∀ j < n, (idx.map fun i => ‖row.getD ((i + j) % (row.length - 1)) 0‖).sum ≤ (idx.map fun i => ‖row.getD ((i + frameShift row idx n) % (row.length - 1)) 0‖).sum) ∧
    ∀ j < frameShift row idx n, (idx.map fun i => ‖row.getD ((i + j) % (row.length - 1)) 0‖).sum <
      (idx.map fun i => ‖row.getD ((i + frameShift row idx n) % (row.length - 1)) 0‖).sum := by
  obtain ⟨m, rfl⟩ : ∃ m, n = m + 1 := ⟨n - 1, by omega⟩
  exact (frameShift_state row hl idx hne m).2

example : (2 : Nat) ≤ ([1, 2, 3] : List ℂ).length ∧ ([0, 2] : List Nat) ≠ [] := by simp

theorem shiftedRead_last (init : List ℂ) (hi : init ≠ []) (a b : ℂ) (idx : List Nat) (j : Nat) :
    shiftedRead (init ++ [a]) idx j = shiftedRead (init ++ [b]) idx j := by
  have hl : init.length ≠ 0 := by simpa using hi
  unfold shiftedRead
  apply List.map_congr_left
  intro n _
  have hlt : (n + j) % init.length < init.length := Nat.mod_lt _ (by omega)
  simp only [List.length_append, List.length_cons, List.length_nil, Nat.zero_add, Nat.add_sub_cancel, npModNat, hl, if_false, List.getD_eq_getElem?_getD]
  rw [List.getElem?_append_left hlt, List.getElem?_append_left hlt]

/-- C224: whatever the frame length, the last sample of a mode is never used: replacing it changes nothing in the result. -/
theorem C224_last_unread (s : HybridShape) (init : List ℂ) (hi : init ≠ []) (a b : ℂ) : divideRow s (init ++ [a]) = divideRow s (init ++ [b]) := by
  have hj : ∀ idx n, frameShift (init ++ [a]) idx n = frameShift (init ++ [b]) idx n := by
    intro idx n
    have : shiftStep (init ++ [a]) idx = shiftStep (init ++ [b]) idx := by
      funext st j
      unfold shiftStep
      rw [shiftedRead_last init hi a b]
    rw [frameShift, frameShift, this]
  have hlen : (init ++ [a]).length = (init ++ [b]).length := by simp
  unfold divideRow
  simp only [hlen, hj, shiftedRead_last init hi a b]

example : divideRow ⟨3, 2, false, some 3⟩ ([1, 2] ++ [5]) = divideRow ⟨3, 2, false, some 3⟩ ([1, 2] ++ [-7]) :=
  C224_last_unread _ _ (by simp) _ _

theorem frameShift_zero (row : List ℂ) (hl : 2 ≤ row.length) (idx : List Nat) (n : Nat)
    (h : ∀ j < n, shiftSum row idx j ≤ shiftSum row idx 0) : frameShift row idx n = 0 := by
  rcases Nat.eq_zero_or_pos n with rfl | hn
  · rfl
  by_cases hne : idx = []
  · subst hne
    have : ∀ l : List Nat, l.foldl (shiftStep row []) (0, -10) = (0, -10) := by
      intro l
      induction l with
      | nil => rfl
      | cons a l ih => simpa [shiftStep, shiftedRead, meanModulus] using ih
    simp [frameShift, this]
  obtain ⟨m, rfl⟩ : ∃ m, n = m + 1 := ⟨n - 1, by omega⟩
  obtain ⟨-, h2, -, h4⟩ := frameShift_state row hl idx hne m
  by_contra h0
  exact absurd (h4 0 (Nat.pos_of_ne_zero h0)) (not_lt.2 (h _ h2))

theorem shiftedRead_zero (init : List ℂ) (hi : init ≠ []) (z : ℂ) (P : Nat → Bool) :
    shiftedRead (init ++ [z]) ((List.range (init.length + 1)).filter P) 0 =
      samplesAt init P ++ if P init.length then [init.getD 0 0] else [] := by
  have hl : init.length ≠ 0 := by simpa using hi
  rw [List.range_succ, List.filter_append, shiftedRead, List.map_append]
  congr 1
  · rw [samplesAt, ← List.filterMap_eq_map]
    apply List.filterMap_congr
    intro i h
    have hlt : i < init.length := List.mem_range.1 (List.mem_filter.1 h).1
    simp [npModNat, hl, Nat.mod_eq_of_lt hlt, hlt, List.getElem?_append_left hlt]
  · by_cases h : P init.length
    · simp only [List.filter_cons, List.filter_nil, h, if_true, List.map_cons, List.map_nil, List.length_append, List.length_cons, List.length_nil,
        Nat.zero_add, Nat.add_sub_cancel, Nat.add_zero, npModNat, hl, if_false, Nat.mod_self, List.getD_eq_getElem?_getD]
      rw [List.getElem?_append_left (by omega)]
    · simp [h]

theorem samplesAt_snoc (init : List ℂ) (z : ℂ) (P : Nat → Bool) :
    samplesAt (init ++ [z]) P = samplesAt init P ++ if P init.length then [z] else [] := by
  unfold samplesAt
  rw [List.length_append, List.length_singleton, List.range_succ, List.filter_append, List.filterMap_append]
  congr 1
  · apply List.filterMap_congr
    intro i h
    rw [List.getElem?_append_left (List.mem_range.1 (List.mem_filter.1 h).1)]
  · by_cases h : P init.length <;> simp [h]

/-- C224 when a frame length has been set and the signal is in place, that is, the shift zero gives the largest total modulus at the positions of the larger format:
the parts are recovered except for the last symbol of the second part, which is replaced by the first sample of the signal.
Missing: the last symbol, and signals without the attribute, see `C224_false`. -/
theorem C224_parts_partial (N : Nat) (fr : ℚ) (h0 : 0 < fr) (h1 : fr ≤ 1) (fM f1 f2 : Nat) (hfr : calFractions fr = (fM, (f1 : Int), (f2 : Int)))
    (s1 s2 : List ℂ) (hs1 : s1.length = N / fM * f1) (hs2 : s2.length = N / fM * f2) (b : Bool) (n : Nat) (hN : 2 ≤ N / fM * fM) :
    ∃ out, tdhNew 0 N fr s1 s2 = .ok out ∧ ((∀ j < n,
        (((List.range out.length).filter fun i => decide (i % fM < f1) == b).map fun i => ‖out.getD ((i + j) % (out.length - 1)) 0‖).sum ≤
        (((List.range out.length).filter fun i => decide (i % fM < f1) == b).map fun i => ‖out.getD (i % (out.length - 1)) 0‖).sum) →
      divideSignalFrame ⟨fM, f1, b, some n⟩ [out] = .ok [(s1, s2.dropLast ++ [out.getD 0 0])]) := by
  obtain ⟨out, ho, hlen, e1, e2⟩ := C23_round_trip (0 : ℂ) N fr h0.le h1 fM f1 f2 hfr s1 s2 hs1 hs2
  refine ⟨out, ho, fun hj => ?_⟩
  obtain ⟨fM', f1', f2', hfr', hsum, hpos, -⟩ := C23_partition fr h0.le h1 0
  rw [hfr] at hfr'
  simp only [Prod.mk.injEq, Int.natCast_inj] at hfr'
  obtain ⟨rfl, rfl, rfl⟩ := hfr'
  have hf2 : 0 < f2 := by
    have hnum : (0 : Int) < fr.num := Rat.num_pos.2 h0
    have : fr.num = (f2 : Int) := by
      have := hfr
      simp only [calFractions, Prod.mk.injEq] at this
      exact this.2.2
    omega
  have hshift : frameShift out ((⟨fM, f1, b, some n⟩ : HybridShape).idxM out.length) n = 0 := by
    apply frameShift_zero out (by omega)
    have hidx : (⟨fM, f1, b, some n⟩ : HybridShape).idxM out.length = (List.range out.length).filter fun i => decide (i % fM < f1) == b := by
      unfold HybridShape.idxM HybridShape.idx1 HybridShape.idx2
      cases b
      · simp only [Bool.false_eq_true, if_false]
        apply List.filter_congr
        intro i _
        by_cases h : i % fM < f1
        · simp [h]
        · simp [h, Nat.not_lt.1 h]
      · simp
    rw [hidx]
    exact hj
  have hne : out ≠ [] := by rintro rfl; rw [List.length_nil] at hlen; omega
  obtain ⟨init, z, rfl⟩ : ∃ init z, out = init ++ [z] := ⟨out.dropLast, out.getLast hne, (List.dropLast_append_getLast hne).symm⟩
  have hil : init.length + 1 = N / fM * fM := by simpa using hlen
  have hi : init ≠ [] := by rintro rfl; rw [List.length_nil] at hil; omega
  have hmod : init.length % fM = fM - 1 := by
    have h3 : 0 < N / fM := by
      rcases Nat.eq_zero_or_pos (N / fM) with h | h
      · rw [h] at hN; omega
      · exact h
    obtain ⟨q, hq⟩ : ∃ q, N / fM = q + 1 := ⟨N / fM - 1, by omega⟩
    rw [hq, Nat.add_mul, Nat.one_mul] at hil
    rw [show init.length = fM - 1 + q * fM by omega, Nat.add_mul_mod_self_right, Nat.mod_eq_of_lt (by omega)]
  have hP1 : decide (init.length % fM < f1) = false := by simp only [hmod, decide_eq_false_iff_not]; omega
  have hP2 : decide (f1 ≤ init.length % fM) = true := by simp only [hmod, decide_eq_true_eq]; omega
  rw [samplesAt_snoc] at e1 e2
  simp only [hP1, hP2, if_true, Bool.false_eq_true, if_false, List.append_nil] at e1 e2
  have hz : (init ++ [z]).getD 0 0 = init.getD 0 0 := by
    rw [List.getD_eq_getElem?_getD, List.getD_eq_getElem?_getD, List.getElem?_append_left (List.length_pos_iff.2 hi)]
  have hr1 : shiftedRead (init ++ [z]) ((⟨fM, f1, b, some n⟩ : HybridShape).idx1 (init ++ [z]).length) 0 = s1 := by
    rw [HybridShape.idx1, List.length_append, List.length_singleton, shiftedRead_zero init hi]
    simp only [hP1, Bool.false_eq_true, if_false, List.append_nil, e1]
  have hr2 : shiftedRead (init ++ [z]) ((⟨fM, f1, b, some n⟩ : HybridShape).idx2 (init ++ [z]).length) 0 = s2.dropLast ++ [(init ++ [z]).getD 0 0] := by
    rw [HybridShape.idx2, List.length_append, List.length_singleton, shiftedRead_zero init hi, ← e2, hz]
    simp only [hP2, if_true, List.dropLast_concat]
  simp only [divideSignalFrame, List.mapM_cons, List.mapM_nil, divideRow, hshift, hr1, hr2]
  simp [bind, Except.bind, pure, Except.pure]

/-- A frame length of one leaves only the shift zero: the hypothesis on the shift holds. -/
example : ∃ out, tdhNew (0 : ℂ) 6 (1 / 3) [1, 2, 3, 4] [8, 9] = .ok out ∧
    divideSignalFrame ⟨3, 2, false, some 1⟩ [out] = .ok [([1, 2, 3, 4], [8] ++ [out.getD 0 0])] := by
  obtain ⟨out, h, h2⟩ := C224_parts_partial 6 (1 / 3) (by norm_num) (by norm_num) 3 2 1 (by decide +kernel) [1, 2, 3, 4] [8, 9] rfl rfl false 1 (by norm_num)
  refine ⟨out, h, ?_⟩
  simpa using h2 (by
    intro j hj
    rw [show j = 0 by omega]
    simp)

theorem shiftedRead_rotate (init : List ℂ) (hi : init ≠ []) (z : ℂ) (idx : List Nat) (k : Nat) :
    shiftedRead (init ++ [z]) idx k = shiftedRead (init.rotate k ++ [z]) idx 0 := by
  have hl : 0 < init.length := List.length_pos_iff.2 hi
  unfold shiftedRead
  apply List.map_congr_left
  intro n _
  have h1 : (n + k) % init.length < init.length := Nat.mod_lt _ hl
  have h2 : n % init.length < init.length := Nat.mod_lt _ hl
  simp only [List.length_append, List.length_rotate, List.length_cons, List.length_nil, Nat.zero_add, Nat.add_sub_cancel, npModNat, hl.ne', if_false, Nat.add_zero,
    List.getD_eq_getElem?_getD]
  rw [List.getElem?_append_left h1, List.getElem?_append_left (by rw [List.length_rotate]; exact h2), List.getElem?_rotate h2, Nat.mod_add_mod]

/-- C224 for any shift: when `k` is the first shift below the frame length with the largest total modulus at the positions of the larger format, the signal without its
last sample is rotated by `k` and continued by one sample, and its two position classes are returned, the first `f1` of each `fM` samples and the rest. -/
theorem C224_rotated (fM f1 n k : Nat) (b : Bool) (init : List ℂ) (hi : init ≠ []) (z : ℂ) (hk : k < n) (idx : List Nat)
    (hidx : idx = (List.range (init.length + 1)).filter fun i => decide (i % fM < f1) == b) (hne : idx ≠ [])
    (hmax : ∀ j < n, (idx.map fun i => ‖init.getD ((i + j) % init.length) 0‖).sum ≤ (idx.map fun i => ‖init.getD ((i + k) % init.length) 0‖).sum)
    (hfirst : ∀ j < k, (idx.map fun i => ‖init.getD ((i + j) % init.length) 0‖).sum < (idx.map fun i => ‖init.getD ((i + k) % init.length) 0‖).sum) :
    divideRow ⟨fM, f1, b, some n⟩ (init ++ [z]) =
      .ok (samplesAt (init.rotate k ++ [(init.rotate k).getD 0 0]) (fun i => decide (i % fM < f1)),
        samplesAt (init.rotate k ++ [(init.rotate k).getD 0 0]) (fun i => decide (f1 ≤ i % fM))) := by
  have hl : 0 < init.length := List.length_pos_iff.2 hi
  have hss : ∀ j, shiftSum (init ++ [z]) idx j = (idx.map fun i => ‖init.getD ((i + j) % init.length) 0‖).sum := by
    intro j
    unfold shiftSum
    congr 1
    apply List.map_congr_left
    intro i _
    simp only [List.length_append, List.length_cons, List.length_nil, Nat.zero_add, Nat.add_sub_cancel, List.getD_eq_getElem?_getD]
    rw [List.getElem?_append_left (Nat.mod_lt _ hl)]
  have hM : (⟨fM, f1, b, some n⟩ : HybridShape).idxM (init ++ [z]).length = idx := by
    rw [hidx, List.length_append, List.length_singleton]
    unfold HybridShape.idxM HybridShape.idx1 HybridShape.idx2
    cases b
    · simp only [Bool.false_eq_true, if_false]
      apply List.filter_congr
      intro i _
      by_cases h : i % fM < f1
      · simp [h]
      · simp [h, Nat.not_lt.1 h]
    · simp
  have hfs : frameShift (init ++ [z]) idx n = k := by
    obtain ⟨m, rfl⟩ : ∃ m, n = m + 1 := ⟨n - 1, by omega⟩
    obtain ⟨-, h2, h3, h4⟩ := frameShift_state (init ++ [z]) (by simp; omega) idx hne m
    generalize frameShift (init ++ [z]) idx (m + 1) = f at h2 h3 h4 ⊢
    simp only [hss] at h3 h4
    rcases Nat.lt_trichotomy f k with h | h | h
    · exact absurd (h3 k hk) (not_le.2 (hfirst f h))
    · exact h
    · exact absurd (h4 k h) (not_lt.2 (hmax f h2))
  have hr : ∀ P : Nat → Bool, shiftedRead (init ++ [z]) ((List.range (init.length + 1)).filter P) k =
      samplesAt (init.rotate k ++ [(init.rotate k).getD 0 0]) P := by
    intro P
    have hrot : init.rotate k ≠ [] := by simpa using hi
    rw [shiftedRead_rotate init hi, samplesAt_snoc]
    have := shiftedRead_zero (init.rotate k) hrot z P
    rwa [List.length_rotate] at this ⊢
  unfold divideRow
  simp only [hM, hfs]
  rw [if_neg (by simp)]
  rw [HybridShape.idx1, HybridShape.idx2, List.length_append, List.length_singleton, hr, hr]

/-- Two formats with the moduli 2 and 3, the signal late by one sample: the shift 1 is found and the weak samples are the first part. -/
example : divideRow ⟨2, 1, false, some 2⟩ [3, 2, 3, 2, 0] = .ok ([2, 2, 2], [3, 3]) := by
  have h := C224_rotated 2 1 2 1 false [3, 2, 3, 2] (by simp) 0 (by norm_num) [1, 3] (by decide) (by simp)
    (by intro j hj; interval_cases j <;> norm_num) (by intro j hj; interval_cases j; norm_num)
  rw [show ([3, 2, 3, 2, 0] : List ℂ) = [3, 2, 3, 2] ++ [0] from rfl, h]
  simp [samplesAt, List.range_succ, List.rotate]

end Qampy
