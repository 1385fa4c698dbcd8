import Verif.Model.Np

/-!
`convert_iqtosinglebitstream`, a function on plain arrays that no other function of the library calls.
-/

namespace Qampy

/-- Bits per symbol taken from the two streams, core/utils.py:219-222. -/
def iqSplit (nbits : Nat) : Nat × Nat := if nbits % 2 ≠ 0 then (nbits / 2 + 1, nbits / 2) else (nbits / 2, nbits / 2)

/-- `dat[:len(dat)-(len(dat)%N)]` and `.reshape(N, len(dat)/N)`, core/utils.py:223-226. `divide` is the quotient as a size: `none` stands for a number that is not an integer (a Python float), which
`reshape` rejects with TypeError. -/
def iqReshape {α : Type} (divide : Nat → Nat → Option Nat) (dat : List α) (N : Nat) : Except PyErr (List (List α)) :=
  if N = 0 then .error .zeroDiv
  else
    let d := dat.take (dat.length - dat.length % N)
    match divide d.length N with
    | none => .error .typ
    | some a => .ok ((List.range N).map fun r => (d.drop (r * a)).take a)

/-- `convert_iqtosinglebitstream(idat, qdat, nbits)`, core/utils.py:202-229. `hstack` of two dimensional arrays needs equal numbers of rows. -/
def convertIq {α : Type} (divide : Nat → Nat → Option Nat) (idat qdat : List α) (nbits : Nat) : Except PyErr (List α) := do
  let i ← iqReshape divide idat (iqSplit nbits).1
  let q ← iqReshape divide qdat (iqSplit nbits).2
  let l := min (i.headD []).length (q.headD []).length
  if (i.take l).length ≠ (q.take l).length then .error .value
  else .ok (List.zipWith (· ++ ·) (i.take l) (q.take l)).flatten

/-- The operator `/` of Python 3 (and of Python 2 with the import in core/utils.py:22): always a float. -/
def trueDiv (_ _ : Nat) : Option Nat := none

/-- The operator `/` of Python 2 on integers, for comparison. -/
def floorDiv (a b : Nat) : Option Nat := some (a / b)

end Qampy
