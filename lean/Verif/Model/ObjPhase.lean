import Verif.Model.Phase
import Verif.Model.Pilots

/-!
Blind phase recovery of signal objects with several modes: `bps`, `bps_twostage` and `viterbiviterbi` of qampy/phaserec.py with the loops over the modes of the functions they call.
-/

namespace Qampy

/-- `bps(E, Mtestangles, symbols, N)` for a two dimensional array with at least one mode, core/phaserecovery.py:145-159: the loop over the modes, the phases of all modes unwrapped along the
last axis. -/
noncomputable def bpsModes (E : List (List ℂ)) (M : Nat) (symbols : List ℂ) (N : Nat) : Option (List (List ℂ) × List (List ℝ)) :=
  (E.mapM fun r => bps r M symbols N).map List.unzip

/-- `bps_twostage(E, Mtestangles, symbols, N, B)` for a two dimensional array with at least one mode, core/phaserecovery.py:272-288. -/
noncomputable def bpsTwostageModes (E : List (List ℂ)) (M : Nat) (symbols : List ℂ) (N B : Nat) : Option (List (List ℂ) × List (List ℝ)) :=
  (E.mapM fun r => bpsTwostage r M symbols N B).map List.unzip

/-- `viterbiviterbi(E, N, M)` for a two dimensional array, core/phaserecovery.py:58-79. `phase_est` is assigned in every pass of the loop over the modes and returned as it is after the last;
without modes it is unbound. -/
noncomputable def viterbiModes (E : List (List ℂ)) (N M : Nat) : Except PyErr (List (List ℂ) × List ℝ) := do
  let out ← E.mapM fun r => viterbiviterbi r N M
  match out.getLast? with
  | none => .error .unbound
  | some l => .ok (out.map (·.1), l.2)

/-- `bps(E, Mtestangles, N)` of a signal with pilots, qampy/phaserec.py:62-92: `E.coded_symbols` is the alphabet of the payload (`__getattr__`, qampy/signals.py:1806-1807), the samples are
those of the whole signal. -/
noncomputable def pilotBps (coded : List ℂ) (s : PilotSignal ℂ) (M N : Nat) : Option (List (List ℂ) × List (List ℝ)) := bpsModes s.rows M coded N

end Qampy
