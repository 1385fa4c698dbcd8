import Verif.Model.SymbolOnly
import Verif.Model.Waveform

/-!
Model of loading signals from Matlab files: qampy/core/io.py:66-127 and qampy/io.py:28-74.

A file is the map from array names to the two-dimensional arrays which `scipy.io.loadmat` returns (a list of rows; real arrays are arrays of
complex numbers with vanishing imaginary part). The file format itself is not modelled. Arrays without rows have no columns here.
-/

namespace Qampy

open Complex (I)

/-- Exceptions of the loading functions: `KeyError` or one of the other classes. -/
inductive LoadErr where
  | key
  | py (e : PyErr)

/-- What `loadmat` returns. -/
abbrev MatFile := String → Option (List (List ℂ))

/-- `mat_dict[key]` -/
def MatFile.get (file : MatFile) (key : String) : Except LoadErr (List (List ℂ)) :=
  match file key with
  | none => .error .key
  | some A => .ok A

/-- `keys[i][n]` -/
def keyAt (k : List String) (n : Nat) : Except LoadErr String :=
  match k[n]? with
  | none => .error (.py .index)
  | some s => .ok s

/-- numpy's broadcasting along one axis: equal lengths, or one of them is one. -/
def bcast {α β γ : Type} (f : α → β → γ) (x : List α) (y : List β) : Option (List γ) :=
  if x.length = y.length then some (List.zipWith f x y)
  else match x, y with
    | [a], y => some (y.map fun b => f a b)
    | x, [b] => some (x.map fun a => f a b)
    | _, _ => none

/-- `a + 1j*b` for numbers. -/
def addJ (a b : ℂ) : ℂ := a + I * b

/-- `A + 1j*B` for two-dimensional arrays, core/io.py:103; `none` if the shapes do not fit (`ValueError`). -/
def matAddJ (A B : List (List ℂ)) : Option (List (List ℂ)) := (bcast (bcast addJ) A B).bind fun rows => rows.mapM id

/-- `np.transpose(symbs)` -/
def matTranspose (A : List (List ℂ)) : List (List ℂ) := (List.range (A.headD []).length).map fun (j : Nat) => A.filterMap fun r => r[j]?

def orValue {α : Type} : Option α → Except LoadErr α
  | none => .error (.py .value)
  | some a => .ok a

/-- core/io.py:101-109: one entry in `keys`. -/
def loadSingle (file : MatFile) (k : List String) (transpose : Bool) : Except LoadErr (List (List ℂ)) := do
  let symbs ← match k with
    | [a, b] => do
      let A ← file.get a
      let B ← file.get b
      orValue (matAddJ A B)
    | [a] => file.get a
    | _ => .error (.py .value)
  return if transpose then matTranspose symbs else symbs

/-- core/io.py:111-117: the array of one mode; `n0 = len(keys[0])`. -/
def loadMode (file : MatFile) (n0 : Nat) (k : List String) : Except LoadErr (List ℂ) :=
  if n0 = 2 then do
    let a ← keyAt k 0
    let A ← file.get a
    let b ← keyAt k 1
    let B ← file.get b
    orValue (bcast addJ A.flatten B.flatten)
  else if n0 = 1 then do
    let a ← keyAt k 0
    let A ← file.get a
    return A.flatten
  else .error (.py .value)

/-- core/io.py:118-121 for the modes after the first: `np.vstack` refuses rows of another length. -/
def loadModes (file : MatFile) (n0 : Nat) : List (List String) → List (List ℂ) → Except LoadErr (List (List ℂ))
  | [], acc => .ok acc
  | k :: ks, acc => do
    let out ← loadMode file n0 k
    if out.length ≠ (acc.headD []).length then .error (.py .value) else loadModes file n0 ks (acc ++ [out])

/-- core/io.py:122-126. The pairs in `portmap` have two entries each, which are not negative. -/
def portsToComplex (symbs : List (List ℂ)) (portmap : List (Nat × Nat)) : Except LoadErr (List (List ℂ)) :=
  portmap.mapM fun p =>
    match symbs[p.1]?, symbs[p.2]? with
    | some a, some b => orValue (bcast addJ a b)
    | _, _ => .error (.py .index)

/-- `ndarray_from_matlab`, core/io.py:66-127. Without any keys `symbs` is never assigned. -/
def ndarrayFromMatlab (file : MatFile) (keys : List (List String)) (transpose dim2cmplx : Bool) (portmap : List (Nat × Nat)) :
    Except LoadErr (List (List ℂ)) := do
  let symbs ← match keys with
    | [] => .error (.py .unbound)
    | [k] => loadSingle file k transpose
    | k :: ks => do
      let out ← loadMode file k.length k
      loadModes file k.length ks [out]
  if dim2cmplx then portsToComplex symbs portmap else return symbs

/-- The default of `portmap`. -/
def defaultPorts : List (Nat × Nat) := [(0, 1), (2, 3)]

/-- `np.roll(symbs, d)` of a two-dimensional array without an axis: the flattened array is rolled and brought back to its shape. -/
def rollFlat (A : List (List ℂ)) (d : Int) : List (List ℂ) :=
  let c := (A.headD []).length
  (List.range A.length).map fun (i : Nat) => ((Np.roll A.flatten d).drop (i * c)).take c

/-- `load_symbols_from_matlab_file`, io.py:28-74, for `M = 2^k`: the symbols and the bits of the signal object. `none` stands for nan. -/
noncomputable def loadSymbols (file : MatFile) (k : Nat) (keys : List (List String)) (fakePolmux : Bool) (fakeDelay : Int) (normalise : Bool)
    (transpose dim2cmplx : Bool) (portmap : List (Nat × Nat)) : Except LoadErr (Option (List (List ℂ) × List Bool)) := do
  let symbs ← ndarrayFromMatlab file keys transpose dim2cmplx portmap
  let symbs := if fakePolmux then rollFlat symbs fakeDelay ++ symbs else symbs
  match (if normalise then normaliseAndCenter symbs else some symbs) with
  | none => return none
  | some s =>
    match fromSymbols k s with
    | .error e => .error (.py e)
    | .ok r => return some r

end Qampy
