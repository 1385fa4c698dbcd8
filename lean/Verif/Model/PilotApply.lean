import Verif.Model.Receiver

/-!
Equalising a signal with pilots as a whole: qampy/equalisation.py:117-119, 184-188 and 255-259, and `recreate_from_np_array` of `SignalWithPilots`, qampy/signals.py:1949-1952.
-/

namespace Qampy

/-- `SignalWithPilots.nframes`, qampy/signals.py:1675-1677, of an array with `cols` columns; division by zero raises. -/
def pilotFrames (cols os fl : Nat) : Except PyErr Nat := if os * fl = 0 then .error .zeroDiv else .ok (cols / (os * fl))

/-- `SignalWithPilots.recreate_from_np_array(arr, fs=...)`, qampy/signals.py:1949-1952: the samples and the number of frames of the result. `os` is the oversampling of the result; the attributes are copied (C53). -/
def recreatePilots (rows : List (List ℂ)) (cols os fl : Nat) : Except PyErr (List (List ℂ) × Nat) := do
  let n ← pilotFrames cols os fl
  if n > 0 then return (rows, n) else throw .assertion

/-- `apply_filter(sig, wxy, frames=None)` of a signal with pilots, qampy/equalisation.py:117-119, complex taps, compiled filter; also the last step of `equalise_signal` (184-188) and `dual_mode_equalisation`
(255-259) with `apply=True`. With `fs=sig.fb` the oversampling of the result is one. The filter returns `(L-Ntaps+1)//os` columns (pythran_equalisation.py:69). Inner `none`: the filter rejects its input. -/
noncomputable def applyWhole (E : List (List ℂ)) (L os fl : Nat) (wx : List (List (List ℂ))) (ntaps : Nat) : Except PyErr (Option (List (List ℂ) × Nat)) :=
  match applyFilterToSignal E L os wx ntaps (List.range wx.length) with
  | none => .ok none
  | some out => (recreatePilots out ((L + 1 - ntaps) / os) 1 fl).map some

end Qampy
