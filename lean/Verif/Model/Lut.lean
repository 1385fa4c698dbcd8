import Verif.Model.Np
import Verif.Tactics
import Mathlib.Analysis.Normed.Group.Basic
import Mathlib.Analysis.Complex.Norm
import Mathlib.Data.Finset.Sort

/-!
Pattern look-up tables: `rolling_window` (qampy/core/utils.py), `find_sym_patterns` and `cal_lut` (qampy/core/digital_pre_compensation.py) and `cal_lut_avg`
(qampy/core/pythran_dsp.py). `none` is a memory access outside of an array.
-/

namespace Qampy

open Complex

/-- `rolling_window(data, size, wrap=True)`, core/utils.py:182-192: the strided view reads `data[i+j]` of the array extended by its first `size-1`
elements (all of them if there are fewer), without a check of the bounds. -/
def rollingWindowWrap {α : Type} (data : List α) (size : Nat) : Option (List (List α)) :=
  let d := data ++ data.take (size - 1)
  (List.range data.length).mapM fun (i : Nat) => (List.range size).mapM fun (j : Nat) => d[i + j]?

/-- `rolling_window(data, size)`, core/utils.py:182-192; a negative dimension raises ValueError. -/
def rollingWindow {α : Type} (data : List α) (size : Nat) : Except PyErr (Option (List (List α))) :=
  if data.length + 1 < size then .error .value
  else .ok ((List.range (data.length + 1 - size)).mapM fun (i : Nat) => (List.range size).mapM fun (j : Nat) => data[i + j]?)

/-- `idx[tuple(w)]` for `idx = np.arange(M**N).reshape(N*[M])`, digital_pre_compensation.py:120-123: position in row-major order. numpy's limit on the
number of dimensions is not modelled. -/
def ravelIdx (M : Nat) (w : List Nat) : Nat := w.foldl (fun a d => a * M + d) 0

/-- `np.unravel_index(p, N*[M])`. -/
def unravelIdx (M N p : Nat) : List Nat := (List.range N).map fun (j : Nat) => p / M ^ (N - 1 - j) % M

section
variable {E : Type} [NormedAddCommGroup E]

/-- The decided symbol indices, digital_pre_compensation.py:121; the arrays are real or complex. An empty alphabet (ValueError in
`argmin`) is `none` as well. -/
noncomputable def decideIdx (sig ref : List E) : Option (List Nat) := sig.mapM fun x => Np.argmin (ref.map fun r => ‖x - r‖)

/-- `find_sym_patterns(sig, ref_sym, N)`, digital_pre_compensation.py:98-128, for pattern length `N ≥ 1`. -/
noncomputable def findSymPatterns (sig ref : List E) (N : Nat) : Option (List Nat) := do
  let si ← decideIdx sig ref
  let w ← rollingWindowWrap si N
  return w.map (ravelIdx ref.length)

/-- The table of patterns returned with `ret_ptrns=True`, digital_pre_compensation.py:124-126. -/
def symPatterns (ref : List E) (N : Nat) : Option (List (List E)) :=
  (List.range (ref.length ^ N)).mapM fun (p : Nat) => (unravelIdx ref.length N p).mapM fun (d : Nat) => ref[d]?

end

/-- One pass of the first loop of `cal_lut_avg` for one quadrature, pythran_dsp.py:227-231. -/
def lutStep (vals : List ℝ) (idx : List Nat) (st : List ℝ × List Nat) (i : Nat) : Option (List ℝ × List Nat) := do
  let p ← idx[i]?
  let v ← vals[i]?
  let a ← st.1[p]?
  let c ← st.2[p]?
  return (st.1.set p (a + v), st.2.set p (c + 1))

/-- Sums and counts of one quadrature, pythran_dsp.py:223-231; the two quadratures use separate arrays. -/
def lutAccum (N : Nat) (vals : List ℝ) (idx : List Nat) : Option (List ℝ × List Nat) :=
  (List.range vals.length).foldlM (lutStep vals idx) (List.replicate N 0, List.replicate N 0)

/-- `cal_lut_avg(err, idx_I, idx_Q, N)`, pythran_dsp.py:201-237. The module is compiled with `NDEBUG`, so the assertions in 221-222 are not executed
(they require more indices than errors, see `C51_assertion`); accesses are unchecked. -/
noncomputable def calLutAvg (err : List ℂ) (idxI idxQ : List Nat) (N : Nat) : Option (List ℂ) := do
  let (sI, nI) ← lutAccum N (err.map (·.re)) idxI
  let (sQ, nQ) ← lutAccum N (err.map (·.im)) idxQ
  let aI := List.zipWith (fun (s : ℝ) (n : Nat) => s / ((if n = 0 then 1 else n : Nat) : ℝ)) sI nI
  let aQ := List.zipWith (fun (s : ℝ) (n : Nat) => s / ((if n = 0 then 1 else n : Nat) : ℝ)) sQ nQ
  return List.zipWith (fun (a b : ℝ) => (a : ℂ) + I * (b : ℂ)) aI aQ

/-- `np.unique` of real numbers. -/
noncomputable def uniqueR (x : List ℝ) : List ℝ := x.toFinset.sort (· ≤ ·)

/-- `a[i]` with negative indices counted from the end. -/
def pyIndex {α : Type} (a : List α) (i : Int) : Option α :=
  if 0 ≤ i then a[i.toNat]? else if -(a.length : Int) ≤ i then a[(a.length + i).toNat]? else none

/-- `a[idx]` with an index array with possibly negative entries. -/
def fancyGet {α : Type} (a : List α) (idx : List Int) : Except PyErr (List α) :=
  idx.mapM fun i => match pyIndex a i with
    | some x => .ok x
    | none => .error .index

/-- `cal_lut(tx_sig, rx_sig, ref_sym, mem_len, idx_data, real_ptrns=True)`, digital_pre_compensation.py:162-180. The mask has the length of the signal
(other lengths raise IndexError). -/
noncomputable def calLut (tx rx ref : List ℂ) (memLen : Nat) (mask : Option (List Bool)) : Except PyErr (Option (List ℂ × List Nat × List Nat)) := do
  if tx.length ≠ rx.length then throw .assertion
  let m := mask.getD (List.replicate tx.length true)
  if m.length ≠ tx.length then throw .index
  let err := List.zipWith (fun a b => a - b) tx rx
  let pos := (List.range m.length).filter fun i => m.getD i false
  let idx : List Int := pos.map fun (i : Nat) => (i : Int) - ((memLen / 2 : Nat) : Int)
  let refI := uniqueR (ref.map (·.re))
  let refQ := uniqueR (ref.map (·.im))
  let N := refI.length ^ memLen
  match findSymPatterns (tx.map (·.re)) refI memLen, findSymPatterns (tx.map (·.im)) refQ memLen with
  | some pI, some pQ =>
    let iI ← fancyGet pI idx
    let iQ ← fancyGet pQ idx
    let sel := pos.map fun i => err.getD i 0
    return (calLutAvg sel iI iQ N).map fun ea => (ea, iI, iQ)
  | _, _ => return none

end Qampy
