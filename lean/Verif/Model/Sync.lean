import Verif.Model.Np

/-!
Model of qampy/core/ber_functions.py and the search helper of qampy/core/utils.py.
-/

namespace Qampy

variable {α : Type _}

/-- `_adjust_to(data, N, back)`, qampy/core/ber_functions.py:308-320.
`N//L` and `N%L` are floor division/modulo (Lean's `Int` operations for a positive divisor); an empty
`data` raises ZeroDivisionError; `np.hstack` of an empty list raises ValueError, which is caught
(313-316), hence `tile` with `K.toNat` copies. `data[-rem:]` with `rem = 0` is the whole array. -/
def adjustTo (data : List α) (N : Int) (back : Bool) : Except PyErr (List α) :=
  if data.length = 0 then .error .zeroDiv
  else
    let L : Int := data.length
    let K := N / L
    let rem := N % L
    let tmp := Np.tile data K.toNat
    if back then .ok (tmp ++ Np.sliceTo data rem)
    else .ok (Np.sliceFrom data (-rem) ++ tmp)

/-- The `method` argument of `adjust_data_length`. Strings other than the documented three fall
through all branches in Python (returning `None`) and are not modelled. -/
inductive AdjustMethod where
  | none | truncate | extend
  deriving DecidableEq, Repr

/-- The extension of one sequence used in the branch `method="extend"`,
ber_functions.py:286-292 and 295-301: the second part fills up to the reference length. -/
def extendTo (data : List α) (N : Nat) (offset : Int) : Except PyErr (List α) :=
  if offset = 0 then adjustTo data N true
  else do
    let d1 ← adjustTo data offset false
    let d2 ← adjustTo data ((N : Int) - d1.length) true
    return d1 ++ d2

/-- The extension of `data_tx` used in the branch `method=None`, ber_functions.py:271-277: the second
part has length `N - offset`. -/
def extendToNone (data : List α) (N : Nat) (offset : Int) : Except PyErr (List α) :=
  if offset = 0 then adjustTo data N true
  else do
    let d1 ← adjustTo data offset false
    let d2 ← adjustTo data ((N : Int) - offset) true
    return d1 ++ d2

/-- `adjust_data_length(data_tx, data_rx, method, offset)`, ber_functions.py:243-306. -/
def adjustDataLength (tx rx : List α) (method : AdjustMethod) (offset : Int) :
    Except PyErr (List α × List α) :=
  match method with
  | .none =>
    if tx.length > rx.length then .ok (Np.sliceTo tx rx.length, rx)
    else if tx.length < rx.length then do
      let t ← extendToNone tx rx.length offset
      return (t, rx)
    else .ok (tx, rx)
  | .truncate =>
    if tx.length > rx.length then .ok (Np.sliceTo tx rx.length, rx)
    else if tx.length < rx.length then .ok (tx, Np.sliceTo rx tx.length)
    else .ok (tx, rx)
  | .extend =>
    if tx.length > rx.length then do
      let r ← extendTo rx tx.length offset
      return (tx, r)
    else if tx.length < rx.length then do
      let t ← extendTo tx rx.length offset
      return (t, rx)
    else .ok (tx, rx)

/-- `bytes.index`: the smallest position at which `seq` occurs in `data`; `none` is ValueError.
An empty `seq` is found at position 0. -/
def bytesIndex [DecidableEq α] (seq : List α) : List α → Option Nat
  | [] => if seq = [] then some 0 else none
  | a :: l => if seq <+: (a :: l) then some 0 else (bytesIndex seq l).map (· + 1)

/-- `find_offset(sequence, data)`, qampy/core/utils.py:128-153, for arrays whose elements are encoded
in `enc` (all codes have the item size `sz`): search of the byte strings, then floor division by the
item size. Both arrays have the same dtype (otherwise the code raises a `Warning`, not modelled). -/
def findOffsetBytes {β : Type _} [DecidableEq β] (enc : α → List β) (sz : Nat) (seq data : List α) :
    Except PyErr Nat :=
  if ¬ data.length > seq.length then .error .assertion
  else match bytesIndex (seq.flatMap enc) (data.flatMap enc) with
    | none => .error .value
    | some i => .ok (i / sz)

/-- `find_offset` for one-byte elements (bool, uint8): the bytes are the elements themselves. -/
def findOffset [DecidableEq α] (seq data : List α) : Except PyErr Nat :=
  findOffsetBytes (fun a => [a]) 1 seq data

/-- The search loop shared by `sync_rx2tx` and `sync_tx2rx`, ber_functions.py:191-199, 232-240:
`fuel` tries are left, the next window starts at `i`. Only `ValueError` is caught. -/
def syncLoop [DecidableEq α] (tx rx : List α) (Lsync : Nat) : Nat → Nat → Except PyErr Int
  | 0, _ => .error .dataSync
  | fuel + 1, i =>
    match findOffset (Np.slice rx i (i + Lsync)) tx with
    | .ok o => .ok ((o : Int) - i)
    | .error .value => syncLoop tx rx Lsync fuel (i + Lsync)
    | .error e => .error e

/-- `sync_rx2tx(data_tx, data_rx, Lsync, imax)`, ber_functions.py:163-200. -/
def syncRx2Tx [DecidableEq α] (tx rx : List α) (Lsync imax : Nat) : Except PyErr (Int × List α) := do
  let o ← syncLoop tx rx Lsync imax 0
  return (o, Np.roll rx o)

/-- `sync_tx2rx(data_tx, data_rx, Lsync, imax)`, ber_functions.py:203-241. -/
def syncTx2Rx [DecidableEq α] (tx rx : List α) (Lsync imax : Nat) : Except PyErr (Int × List α) := do
  let o ← syncLoop tx rx Lsync imax 0
  return (o, Np.roll tx (-o))

/-- `np.count_nonzero(data_rx != data_tx)` for two arrays of equal length. -/
def countDiff [DecidableEq α] : List α → List α → Nat
  | a :: l, b :: m => (if a ≠ b then 1 else 0) + countDiff l m
  | _, _ => 0

/-- `cal_ber_syncd(data_rx, data_tx, threshold)`, ber_functions.py:322-356, over an exact rational
number type in place of floats. Arrays of different length are not comparable (numpy returns a scalar or
raises); the caller passes equal lengths, which the theorems assume. `N = 0` divides by zero. -/
def calBerSyncd [DecidableEq α] {K : Type _} [Div K] [NatCast K] [LT K] [DecidableLT K]
    (rx tx : List α) (threshold : K) : Except PyErr (K × Nat × Nat) :=
  let errs := countDiff rx tx
  let N := tx.length
  if N = 0 then .error .zeroDiv
  else
    let ber : K := (errs : K) / (N : K)
    if threshold < ber then .error .value else .ok (ber, errs, N)

end Qampy
