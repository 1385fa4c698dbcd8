import Verif.Model.Sync
import Mathlib.Algebra.BigOperators.Group.Finset.Basic
import Mathlib.Analysis.Complex.Basic

/-!
Model of the correlation based synchronisation of qampy/core/ber_functions.py:33-161.

The functions are written once over an abstract sample type so that the same definitions can be used with
integers (real data, decidable counterexamples) and complex numbers.
-/

namespace Qampy

/-- The operations on samples that the correlation code uses: `conj`, `abs`, `.real` and `1.j`. -/
structure SampleOps (R K : Type _) where
  conj : R → R
  mag : R → K
  re : R → K
  I : R

/-- Complex samples. -/
noncomputable def complexOps : SampleOps ℂ ℝ where
  conj := fun z => (starRingEnd ℂ) z
  mag := fun z => ‖z‖
  re := Complex.re
  I := Complex.I

/-- Integer samples (real dtype): conjugation does nothing, `1.j` is never used. -/
def intOps : SampleOps ℤ ℤ where
  conj := id
  mag := fun z => |z|
  re := id
  I := 0

variable {R K : Type _} [CommRing R] [LinearOrder K] [Zero K]

/-- `scipy.signal.fftconvolve(a, b, 'full')` as an exact convolution (rounding of the FFT is not
modelled); of length `len(a)+len(b)-1`, empty if one of the inputs is empty. -/
def convFull (a b : List R) : List R :=
  if a = [] ∨ b = [] then []
  else (List.range (a.length + b.length - 1)).map fun n =>
    ∑ i ∈ Finset.range (n + 1), a.getD i 0 * b.getD (n - i) 0

/-- The cross correlation computed in `find_sequence_offset`, ber_functions.py:59-67. (For a real dtype
`conj` is the identity, so both branches are one expression.) -/
def crossCorr (ops : SampleOps R K) (x y : List R) : List R :=
  convFull x ((y.map ops.conj).reverse)

/-- `find_sequence_offset(x, y)`, ber_functions.py:33-72: the lag of the first maximum of the absolute
cross correlation. `argmax` of an empty array raises ValueError. -/
def findSequenceOffset (ops : SampleOps R K) (x y : List R) : Except PyErr Int :=
  match Np.argmax ((crossCorr ops x y).map ops.mag) with
  | none => .error .value
  | some n => .ok ((n : Int) - ((y.length : Int) - 1))

/-- Loop of `find_sequence_offset_complex`, ber_functions.py:97-105: state `(ii, ix, acm)`, which is
unset before the first improvement over `acm = 0`. `ac.real.max()` raises ValueError for empty arrays. -/
def rotLoop (ops : SampleOps R K) (x y : List R) :
    List Nat → Option (Nat × Int × K) → Except PyErr (Option (Nat × Int × K))
  | [], st => .ok st
  | i :: is, st => do
    let rx := y.map (· * ops.I ^ i)
    let idx ← findSequenceOffset ops x rx
    let re := (crossCorr ops x rx).map ops.re
    match Np.argmax re with
    | none => .error .value
    | some m =>
      let act := re.getD m 0
      let acm := (st.map (·.2.2)).getD 0
      rotLoop ops x y is (if acm < act then some (i, idx, act) else st)

/-- `find_sequence_offset_complex(x, y)`, ber_functions.py:74-106. `cplx` says whether one of the inputs has a
complex dtype. The returned correlation (`acm`) is only kept in the complex case, where it is
a number; for real data the code returns the whole correlation array, which no caller modelled here uses.
If no rotation has a positive real correlation the local names are unbound. -/
def findSequenceOffsetComplex (ops : SampleOps R K) (cplx : Bool) (x y : List R) :
    Except PyErr (Int × List R × Nat × Option K) :=
  if cplx = false then do
    let idx ← findSequenceOffset ops x y
    return (idx, y, 0, none)
  else do
    match ← rotLoop ops x y [0, 1, 2, 3] none with
    | none => .error .unbound
    | some (ii, ix, acm) => .ok (ix, y.map (· * ops.I ^ ii), ii, some acm)

/-- The `adjust` argument; other strings raise AssertionError in the code. -/
inductive Adjust where
  | tx | rx
  deriving DecidableEq, Repr

/-- `sync_and_adjust(data_tx, data_rx, adjust)`, ber_functions.py:108-161 (without the returned
correlation value). -/
def syncAndAdjust (ops : SampleOps R K) (cplx : Bool) (dtx drx : List R) (adjust : Adjust) :
    Except PyErr (List R × List R) :=
  if dtx.length > drx.length then
    match adjust with
    | .tx => do
      let (off, tx, _, _) ← findSequenceOffsetComplex ops cplx drx dtx
      adjustDataLength (Np.roll tx off) drx .truncate 0
    | .rx => do
      let (off, rx, _, _) ← findSequenceOffsetComplex ops cplx dtx drx
      adjustDataLength dtx rx .extend off
  else if dtx.length < drx.length then
    match adjust with
    | .tx => do
      let (off, tx, _, _) ← findSequenceOffsetComplex ops cplx drx dtx
      adjustDataLength tx drx .extend off
    | .rx => do
      let (off, rx, _, _) ← findSequenceOffsetComplex ops cplx dtx drx
      adjustDataLength dtx (Np.roll rx off) .truncate 0
  else
    match adjust with
    | .tx => do
      let (off, tx, _, _) ← findSequenceOffsetComplex ops cplx drx dtx
      return (Np.roll tx off, drx)
    | .rx => do
      let (off, rx, _, _) ← findSequenceOffsetComplex ops cplx dtx drx
      return (dtx, Np.roll rx off)

end Qampy
