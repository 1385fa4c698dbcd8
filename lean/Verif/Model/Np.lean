/-
Primitives of Python / numpy used by QAMpy, as total functions on lists.

They are modelled from their documented behaviour (they are library code, not part of /repo); the
call sites are cited where the primitives are used.
-/

/-- Exception classes that the modelled functions can raise. -/
inductive PyErr where
  | value        -- ValueError
  | index        -- IndexError
  | typ          -- TypeError
  | assertion    -- AssertionError
  | zeroDiv      -- ZeroDivisionError
  | name         -- NameError
  | unbound      -- UnboundLocalError
  | attr         -- AttributeError
  | dataSync     -- qampy.core.ber_functions.DataSyncError (ber_functions.py:30-31)
  deriving DecidableEq, Repr

namespace Np

variable {α : Type _}

/-- Python's clamping of a slice bound `a` for a sequence of length `n`:
negative bounds count from the end, everything is clamped to `0..n`. -/
def clamp (n : Nat) (a : Int) : Nat :=
  if a < 0 then (n + a).toNat else min a.toNat n

/-- `l[a:]` -/
def sliceFrom (l : List α) (a : Int) : List α := l.drop (clamp l.length a)

/-- `l[:b]` -/
def sliceTo (l : List α) (b : Int) : List α := l.take (clamp l.length b)

/-- `l[a:b]` -/
def slice (l : List α) (a b : Int) : List α :=
  (l.take (clamp l.length b)).drop (clamp l.length a)

/-- `l[::k]` for `k ≥ 1`: every `k`-th element starting with the first. -/
def strided (l : List α) (k : Nat) : List α :=
  ((List.range l.length).filter (fun i => i % k = 0)).filterMap (fun i => l[i]?)

/-- `np.roll(l, k)` for a one dimensional array: element `i` of the result is `l[(i-k) mod n]`. -/
def roll (l : List α) (k : Int) : List α :=
  let n := l.length
  let s := (k % (n : Int)).toNat
  l.drop (n - s) ++ l.take (n - s)

/-- `np.hstack([data for i in range(K)])` for `K ≥ 1`, `[]` for `K ≤ 0`; also `np.tile(data, K)`. -/
def tile (l : List α) (k : Nat) : List α := (List.replicate k l).flatten

/-- Boolean mask indexing `l[mask]` with a mask of the same length. -/
def select : List α → List Bool → List α
  | a :: l, true :: m => a :: select l m
  | _ :: l, false :: m => select l m
  | _, _ => []

/-- `out[mask] = vals` for a mask of the length of `out` and `vals` of `count_nonzero(mask)` entries:
positions with a `true` mask bit take the values in order. -/
def assign : List α → List Bool → List α → List α
  | _ :: l, true :: m, v :: vs => v :: assign l m vs
  | a :: l, true :: m, [] => a :: assign l m []
  | a :: l, false :: m, vs => a :: assign l m vs
  | l, [], _ => l
  | [], _, _ => []

/-- `np.count_nonzero(mask)` -/
def countNonzero (m : List Bool) : Nat := m.count true

section order
variable {K : Type _} [LT K] [DecidableLT K]

/-- Position of the first maximum, scanning `l` whose first index is `i`, with the best so far `(j, b)`. -/
def argmaxGo : List K → Nat → Nat → K → Nat
  | [], _, j, _ => j
  | a :: l, i, j, b => if b < a then argmaxGo l (i + 1) i a else argmaxGo l (i + 1) j b

/-- `np.argmax`: index of the first maximal element; `none` (ValueError) on empty input. -/
def argmax : List K → Option Nat
  | [] => none
  | a :: l => some (argmaxGo l 1 0 a)

/-- Position of the first minimum. -/
def argminGo : List K → Nat → Nat → K → Nat
  | [], _, j, _ => j
  | a :: l, i, j, b => if a < b then argminGo l (i + 1) i a else argminGo l (i + 1) j b

/-- `np.argmin`: index of the first minimal element; `none` (ValueError) on empty input. -/
def argmin : List K → Option Nat
  | [] => none
  | a :: l => some (argminGo l 1 0 a)

end order

end Np
