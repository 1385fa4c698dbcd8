import Verif.Model.Pilots
import Mathlib.Analysis.Complex.Norm

/-!
Splitting a received time domain hybrid signal into its two parts, `TDHQAMSymbols._divide_signal_frame`, qampy/signals.py:1396-1421.
The last step, `from_symbol_array` of the two arrays (1418-1419), is C73; other power methods raise NotImplementedError.
-/

namespace Qampy

/-- What `_divide_signal_frame` reads from the object: `f_M`, `f_M1`, whether `M[0] > M[1]`, and `_frame_len`. The last one is an instance attribute
(1411) which neither `__new__` (1251-1258) nor `from_symbol_arrays` (1359-1365) sets; `none` when it is not there. -/
structure HybridShape where
  fM : Nat
  fM1 : Nat
  firstLarger : Bool
  frameLen : Option Nat

/-- The shape of a signal created by `__new__` or `from_symbol_arrays` with the fraction `fr`, signals.py:1251-1258, 1278-1298, 1359-1365. -/
def createdShape (fr : ℚ) (firstLarger : Bool) : HybridShape := ⟨(calFractions fr).1, (calFractions fr).2.1.toNat, firstLarger, none⟩

/-- `idx1`, signals.py:1397-1398. -/
def HybridShape.idx1 (s : HybridShape) (L : Nat) : List Nat := (List.range L).filter fun i => decide (i % s.fM < s.fM1)

/-- `idx2`, signals.py:1399. -/
def HybridShape.idx2 (s : HybridShape) (L : Nat) : List Nat := (List.range L).filter fun i => decide (s.fM1 ≤ i % s.fM)

/-- `idx_m`, signals.py:1402-1405: the positions of the larger format. -/
def HybridShape.idxM (s : HybridShape) (L : Nat) : List Nat := if s.firstLarger then s.idx1 L else s.idx2 L

/-- Integer `a % b` of numpy: zero (with a warning) for `b = 0`. -/
def npModNat (a b : Nat) : Nat := if b = 0 then 0 else a % b

/-- `signal[i, (idx + j) % idx.max()]`, signals.py:1412, 1416-1417, for the full index array `np.arange(L)`, whose maximum is `L-1`. -/
noncomputable def shiftedRead (row : List ℂ) (idx : List Nat) (j : Nat) : List ℂ :=
  idx.map fun n => row.getD (npModNat (n + j) (row.length - 1)) 0

/-- `np.mean(abs(...))`, signals.py:1412; the mean of an empty array is nan. -/
noncomputable def meanModulus (l : List ℂ) : Option ℝ := if l.length = 0 then none else some ((l.map (‖·‖)).sum / l.length)

/-- One step of the search, signals.py:1412-1415; a comparison with nan is false. -/
noncomputable def shiftStep (row : List ℂ) (idxm : List Nat) (st : Nat × ℝ) (j : Nat) : Nat × ℝ :=
  match meanModulus (shiftedRead row idxm j) with
  | none => st
  | some p => if st.2 < p then (j, p) else st

/-- The search for the shift, signals.py:1409-1415. -/
noncomputable def frameShift (row : List ℂ) (idxm : List Nat) (n : Nat) : Nat := ((List.range n).foldl (shiftStep row idxm) (0, -10)).1

/-- The loop body for one mode, signals.py:1408-1417: `_frame_len` is read first, then the maximum of an empty index array raises ValueError. -/
noncomputable def divideRow (s : HybridShape) (row : List ℂ) : Except PyErr (List ℂ × List ℂ) :=
  match s.frameLen with
  | none => .error .attr
  | some n =>
    if row.length = 0 then .error .value
    else
      let j := frameShift row (s.idxM row.length) n
      .ok (shiftedRead row (s.idx1 row.length) j, shiftedRead row (s.idx2 row.length) j)

/-- `_divide_signal_frame(signal)` up to the creation of the two signal objects, signals.py:1396-1417. -/
noncomputable def divideSignalFrame (s : HybridShape) (signal : List (List ℂ)) : Except PyErr (List (List ℂ × List ℂ)) := signal.mapM (divideRow s)

end Qampy
