import Verif.Model.Pilots

/-!
Model of the masks of payload and pilots of `SignalWithPilots`, qampy/signals.py:1687-1695.
-/

namespace Qampy

variable {α : Type _}

/-- `SignalWithPilots.idx_payload`, qampy/signals.py:1687-1690, for `L` samples per mode and `os` samples per symbol. -/
def idxPayload (s : PilotSignal α) (L os : Nat) : Except PyErr (List Bool) :=
  (nFrames L os s.frameLen).map fun n : Nat => (Np.tile s.idxDat n).take L

/-- `SignalWithPilots.idx_pilots`, qampy/signals.py:1692-1695. -/
def idxPilots (s : PilotSignal α) (L os : Nat) : Except PyErr (List Bool) :=
  (nFrames L os s.frameLen).map fun n : Nat => (Np.tile (s.idxDat.map not) n).take L

/-- `sig[:, mask]` for a mask of the object, qampy/signals.py:1687-1695 (numpy raises IndexError unless the mask is as long as the rows). -/
def selectMask (mask : Except PyErr (List Bool)) (s : PilotSignal α) : Except PyErr (List (List α)) := do
  let m ← mask
  s.rows.mapM (boolIndex m)

end Qampy
