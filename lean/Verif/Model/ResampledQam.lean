import Verif.Model.Signal

/-!
`ResampledQAM`, qampy/signals.py:1142-1178: signals that are generated or taken over at another sampling rate.
-/

namespace Qampy

variable {α : Type _}

/-- `cls._resample_array(arr, fnew, fold, fb, **kwargs)`, signals.py:222-237, as a class method: the result has the class `cls`. For a quotient of the rates close to
one it is a view of a copy, otherwise a new array with the attributes of `arr`; `vals` is the output of the resampling filter. -/
def opResampleArray (cls : SClass) (h : Heap α) (a : Nat) (fnew fold : ℚ) (vals : List α) : Except PyErr (Heap α × Nat) := do
  let o ← h.deref a
  if fold = 0 then throw .zeroDiv
  if isCloseOne (fnew / fold) then do
    let (h, c) ← opCopy h a
    let oc ← h.deref c
    return h.allocView cls oc.buf oc.sel (finalizeAttrs cls (some (c, oc)))
  else do
    let f ← copyInherits o (finalizeAttrs cls none)
    return h.allocFresh cls vals f

/-- `ResampledQAM.__new__(cls, M, N, fb, fs, resamplekwargs, **kwargs)`, signals.py:1167-1172: the signal of `SignalQAMGrayCoded.__new__` at the address 0 is resampled
from `fb` to `fs`. -/
def resampledNew (cls : SClass) (syms : List α) (M : Val) (fb fs : ℚ) (params : List (String × Val)) (vals : List α) : Except PyErr (Heap α × Nat) := do
  let (h, out) ← opResampleArray cls (newSignal cls syms M (.num fb) params) 0 fs fb vals
  return (h.set out "_fs" (.num fs), out)

/-- `ResampledQAM.from_symbol_array(cls, array, fs, **kwargs)`, signals.py:1174-1178. -/
def resampledFrom (cls : SClass) (h : Heap α) (a : Nat) (fs : ℚ) (vals : List α) : Except PyErr (Heap α × Nat) := do
  let o ← h.deref a
  let fold ← match o.attrs "_fs" with
    | some (.num fs) => pure fs
    | none => throw .attr
    | _ => throw .typ
  let _ ← match o.attrs "_fb" with
    | none => throw .attr
    | some _ => pure ()
  let (h, out) ← opResampleArray cls h a fs fold vals
  return (h.set out "_fs" (.num fs), out)

end Qampy
