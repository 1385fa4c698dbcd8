import Verif.Tactics
import Verif.Model.IqStream

/-!
C208: interleaving two bit streams.
-/

namespace Qampy

/-- The stream `out` has `nbits` bits per symbol, the first `⌈nbits/2⌉` of them the next bits of `idat`, the others the next bits of `qdat`, for as many symbols as both streams allow. -/
def Interleaved {α : Type} (idat qdat : List α) (nbits : Nat) (out : List α) : Prop :=
  let n0 := (nbits + 1) / 2
  let n1 := nbits / 2
  let l := min (idat.length / n0) (qdat.length / n1)
  out.length = l * nbits ∧ ∀ k < l, ∀ j < nbits, out[k * nbits + j]? = if j < n0 then idat[k * n0 + j]? else qdat[k * n1 + (j - n0)]?

/-- C208: with the division of Python 3 no call returns: without bits per symbol the division by zero is reported, otherwise the size of the reshaped array is a float. -/
theorem C208_raises {α : Type} (idat qdat : List α) (nbits : Nat) : convertIq trueDiv idat qdat nbits = .error (if nbits = 0 then .zeroDiv else .typ) := by
  unfold convertIq iqReshape trueDiv iqSplit
  by_cases h0 : nbits = 0
  · subst h0; rfl
  · by_cases h1 : nbits % 2 = 0
    · have h2 : nbits / 2 ≠ 0 := by omega
      simp [h0, h1, h2, bind, Except.bind]
    · simp [h0, h1, bind, Except.bind]

theorem iqReshape_floor {α : Type} (dat : List α) {N : Nat} (hN : 0 < N) :
    iqReshape floorDiv dat N = .ok ((List.range N).map fun r => (dat.drop (r * (dat.length / N))).take (dat.length / N)) := by
  have hl : (dat.take (dat.length - dat.length % N)).length = N * (dat.length / N) := by
    rw [List.length_take, min_eq_left (Nat.sub_le _ _)]
    have := Nat.div_add_mod dat.length N
    omega
  unfold iqReshape
  rw [if_neg (by omega)]
  simp only [floorDiv]
  rw [hl, Nat.mul_div_cancel_left _ hN]
  congr 1
  apply List.map_congr_left
  intro r hr
  rw [List.mem_range] at hr
  have hle : dat.length - dat.length % N = N * (dat.length / N) := by
    have := Nat.div_add_mod dat.length N
    omega
  have hr2 : r * (dat.length / N) + dat.length / N ≤ N * (dat.length / N) := by
    have := Nat.mul_le_mul_right (dat.length / N) (show r + 1 ≤ N by omega)
    rw [Nat.succ_mul] at this
    exact this
  rw [hle, List.drop_take, List.take_take, min_eq_left (by omega)]

theorem iq_row_length {α : Type} (dat : List α) {N : Nat} (hN : 0 < N) : (((List.range N).map fun r => (dat.drop (r * (dat.length / N))).take (dat.length / N)).headD []).length = dat.length / N := by
  obtain ⟨m, rfl⟩ : ∃ m, N = m + 1 := ⟨N - 1, by omega⟩
  rw [List.range_succ_eq_map]
  simp only [List.map_cons, List.headD_cons, zero_mul, List.drop_zero, List.length_take]
  exact min_eq_left (Nat.div_le_self _ _)

/-- C208: with the division of Python 2 on integers the streams would be cut into `nbits/2` long rows, and the result is row after row of both: for an even number of bits. -/
theorem C208_rows {α : Type} (idat qdat : List α) {N : Nat} (hN : 0 < N) (hl : N ≤ idat.length / N) (hq : N ≤ qdat.length / N) :
    convertIq floorDiv idat qdat (2 * N) = .ok ((List.range N).flatMap fun r =>
      (idat.drop (r * (idat.length / N))).take (idat.length / N) ++ (qdat.drop (r * (qdat.length / N))).take (qdat.length / N)) := by
  have e : iqSplit (2 * N) = (N, N) := by
    unfold iqSplit
    rw [if_neg (by omega)]
    simp
  unfold convertIq
  rw [e]
  simp only [iqReshape_floor _ hN]
  show (if _ then _ else _) = _
  rw [iq_row_length _ hN, iq_row_length _ hN, List.take_of_length_le (by simp; omega), List.take_of_length_le (by simp; omega)]
  rw [if_neg (by simp)]
  congr 1
  rw [List.flatMap, List.zipWith_map, List.zipWith_self]

/-- C208: for an odd number of bits the rows of the two streams could not be joined even with the division of Python 2, if the streams allow at least as many symbols as bits are taken from the first. -/
theorem C208_odd {α : Type} (idat qdat : List α) {N : Nat} (hN : 0 < N) (hl : N + 1 ≤ idat.length / (N + 1)) (hq : N + 1 ≤ qdat.length / N) :
    convertIq floorDiv idat qdat (2 * N + 1) = .error .value := by
  have e : iqSplit (2 * N + 1) = (N + 1, N) := by
    unfold iqSplit
    rw [if_pos (by omega)]
    have : (2 * N + 1) / 2 = N := by omega
    rw [this]
  unfold convertIq
  rw [e]
  simp only [iqReshape_floor _ hN, iqReshape_floor _ (Nat.succ_pos N)]
  show (if _ then _ else _) = _
  rw [iq_row_length _ hN, iq_row_length _ (Nat.succ_pos N), List.take_of_length_le (by simp; omega), List.take_of_length_le (by simp; omega)]
  rw [if_pos (by simp)]

/-- C208 as stated, for one kind of division: the call returns the interleaved stream. -/
def C208_statement (divide : Nat → Nat → Option Nat) : Prop := ∀ (idat qdat : List Bool) (nbits : Nat), 2 ≤ nbits → ∃ out, convertIq divide idat qdat nbits = .ok out ∧ Interleaved idat qdat nbits out

theorem C208_false : ¬ C208_statement trueDiv ∧ ¬ C208_statement floorDiv := by
  constructor
  · intro h
    obtain ⟨out, h1, -⟩ := h [] [] 2 le_rfl
    rw [C208_raises] at h1
    cases h1
  · intro h
    obtain ⟨out, h1, h2, h3⟩ := h [true, true] [false, false] 2 le_rfl
    have h4 : convertIq floorDiv [true, true] [false, false] 2 = .ok [true, true, false, false] := by decide +kernel
    rw [h4] at h1
    cases h1
    have := h3 0 (by decide) 1 (by decide)
    revert this
    decide

/-- The hypotheses of C208 are met: four bits per symbol, two symbols of each stream. -/
example : convertIq floorDiv [1, 2, 3, 4] [5, 6, 7, 8] 4 = .ok [1, 2, 5, 6, 3, 4, 7, 8] := by
  rw [C208_rows (N := 2) [1, 2, 3, 4] [5, 6, 7, 8] (by norm_num) (by decide) (by decide)]
  decide

end Qampy
