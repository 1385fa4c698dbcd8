import Verif.Model.Equaliser

/-!
Model of qampy/core/segmentaxis.py (framing of an array) for one dimensional arrays, and of the Python version of the equaliser
filter that is built on it.
-/

namespace Qampy

/-- The `end` argument of `segment_axis`; other strings leave the array as it is. -/
inductive SegEnd where
  | cut | pad | wrap
deriving DecidableEq, Repr

/-- The frames of an array that fills a whole number of frames, segmentaxis.py:97-128: frame `k` is the view with
stride `length - overlap`. -/
def frames {α : Type _} (a : List α) (length hop : Nat) : List (List α) :=
  (List.range (1 + (a.length - length) / hop)).map fun k => (a.drop (k * hop)).take length

/-- `b = empty(n); b[:l] = a; b[l:] = v` for the wrap mode, segmentaxis.py:85-93: numpy assigns `v` if its length is the one of the
slice, broadcasts a single element, and raises ValueError otherwise. -/
def fillTail {α : Type _} (a v : List α) (n : Nat) : Except PyErr (List α) :=
  if v.length = n - a.length then .ok (a ++ v)
  else match v with
    | [x] => .ok (a ++ List.replicate (n - a.length) x)
    | _ => .error .value

/-- The adjustment of the array to whole frames, segmentaxis.py:68-95. -/
def segAdjust {α : Type _} (a : List α) (len hop : Nat) (e : SegEnd) (endvalue : α) : Except PyErr (List α) :=
  let l := a.length
  if l < len ∨ (l - len) % hop ≠ 0 then
    let roundup := if len < l then len + (1 + (l - len) / hop) * hop else len
    let rounddown := if len < l then len + (l - len) / hop * hop else 0
    if rounddown < l ∧ l < roundup then
      match e with
      | .cut => .ok (a.take rounddown)
      | .pad => .ok (a ++ List.replicate (roundup - l) endvalue)
      | .wrap => fillTail a (a.take (roundup - l)) roundup
    else .error .assertion
  else .ok a

/-- `segment_axis(a, length, overlap, axis=None, end, endvalue)`, segmentaxis.py:26-128. `length` and `overlap` are integers. -/
def segmentAxis {α : Type _} (a : List α) (length overlap : Int) (e : SegEnd) (endvalue : α) : Except PyErr (List (List α)) :=
  if overlap ≥ length then .error .value
  else if overlap < 0 ∨ length ≤ 0 then .error .value
  else
    let len := length.toNat
    let hop := (length - overlap).toNat
    match segAdjust a len hop e endvalue with
    | .error x => .error x
    | .ok b =>
      if b.length = 0 then .error .value
      else if b.length < len ∨ (b.length - len) % hop ≠ 0 then .error .assertion
      else .ok (frames b len hop)

/-- `apply_filter_py(E, os, wxy)`, equalisation.py:190-251, with `modes=None`. `np.hstack` of the frames of all modes, the matrix
product with the flattened taps, one row per output mode. `wxy` has as many output as input modes. -/
def applyFilterPy {K : Type} [RCLike K] (E : List (List K)) (os : Nat) (wx : List (List (List K))) (ntaps : Nat) :
    Except PyErr (List (List K)) := do
  let segs ← ((List.range wx.length).mapM fun m => do
    let r ← (E[m]?).elim (.error .index) .ok
    segmentAxis r ntaps ((ntaps : Int) - os) .cut 0)
  let n := (segs.headD []).length
  let X := (List.range n).map fun i => (segs.map fun s => s.getD i []).flatten
  .ok (wx.map fun w => X.map fun x => (List.zipWith (· * ·) x w.flatten).sum)

end Qampy
