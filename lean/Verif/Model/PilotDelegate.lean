import Verif.Model.PilotMetrics
import Verif.Model.CalMi
import Verif.Model.Decided
import Verif.Model.Waveform

/-!
What signals with pilots do when a method is called that `SignalWithPilots` does not define: methods of `SignalBase` run on the whole signal with the properties and methods that
`SignalWithPilots` overrides (qampy/signals.py:509-568), all others are looked up in the payload (`__getattr__`, qampy/signals.py:1806-1807).
-/

namespace Qampy

/-- The order of complex numbers used by numpy in `max` and in comparisons: real parts first, then imaginary parts. -/
def lexLe (a b : ℂ) : Prop := a.re < b.re ∨ a.re = b.re ∧ a.im ≤ b.im

/-- As `lexLe`, without equality. -/
def lexLt (a b : ℂ) : Prop := a.re < b.re ∨ a.re = b.re ∧ a.im < b.im

open Classical in
/-- `np.max` of a complex array with entries `z` and `l`. -/
noncomputable def lexMax (z : ℂ) (l : List ℂ) : ℂ := l.foldl (fun m w => if lexLe m w then w else m) z

/-- `SignalBase.cal_mi(signal_rx, synced, snr, fast)` of a signal without pilots, qampy/signals.py:529-547. `1/snr` is real division (zero for zero, where the code has infinity). -/
noncomputable def calMiRows (coded : List ℂ) (synced : Bool) (snr : Option (List ℝ)) (fast : Bool) (symbols rx : List (List ℂ)) : Except PyErr (List ℝ) := do
  let (t, r) ← alignRows synced symbols rx
  let snr ← snrArg coded snr t r rx.length
  (List.range rx.length).mapM fun i => match t[i]?, r[i]?, snr[i]? with
    | some a, some b, some x => .ok (calMi b a coded (1 / x) fast)
    | _, _, _ => .error .index

open Classical in
/-- `self.est_snr(rx, synced=True, symbols_tx=tx)`, qampy/signals.py:535, for a signal with pilots: the first argument of `SignalWithPilots.est_snr` (1919) is `frames`, so that
`get_data(frames=rx)` (1766-1781) takes the samples for frame numbers. Their maximum is compared with the number of frames; below one the first frame is used, otherwise
`np.zeros(frame_len*max)` raises TypeError for a complex number. -/
noncomputable def pilotMiSnr (coded : List ℂ) (s : PilotSignal ℂ) (L os : Nat) (t r : List (List ℂ)) : Except PyErr (List ℝ) :=
  match r.flatten with
  | [] => .error .value
  | z :: l =>
    match nFrames L os s.frameLen with
    | .error e => .error e
    | .ok n =>
      if ¬ lexLe (lexMax z l) (n : ℂ) then .error .assertion
      else if lexLt (lexMax z l) 1 then do
        let d ← s.rows.mapM (boolIndex (s.idxDat.take L))
        let e ← estSnrRows coded true t d
        return e.map (·.1)
      else .error .typ

/-- `sig.cal_mi(synced=synced, snr=snr, fast=fast)` of a signal with pilots, qampy/signals.py:529-547: the method of `SignalBase` with `self.symbols` the payload (1671-1673),
`self.est_snr` as above and `self.coded_symbols` those of the payload. -/
noncomputable def pilotCalMi (coded : List ℂ) (s : PilotSignal ℂ) (L os : Nat) (synced : Bool) (snr : Option (List ℝ)) (fast : Bool) : Except PyErr (List ℝ) := do
  let (t, r) ← alignRows synced s.symbols s.rows
  let snr ← match snr with
    | none => pilotMiSnr coded s L os t r
    | some v => snrArg coded (some v) t r s.rows.length
  (List.range s.rows.length).mapM fun i => match t[i]?, r[i]?, snr[i]? with
    | some a, some b, some x => .ok (calMi b a coded (1 / x) fast)
    | _, _, _ => .error .index

/-- `sig.make_decision(signal)` of a signal with pilots: the attribute is that of the payload (qampy/signals.py:1806-1807), so `self` in 861-866 is the payload. The decided symbols. -/
noncomputable def pilotMakeDecision (coded : List ℂ) (s : PilotSignal ℂ) (signal : Option (List (List ℂ))) : Option (List (List ℂ)) :=
  (decideObj coded (signal.getD s.symbols)).map fun rows => rows.map (·.1)

/-- `sig.demodulate(signal)` of a signal with pilots, looked up in the payload as well. -/
noncomputable def pilotDemodulate (k : Nat) (coded : List ℂ) (_ : PilotSignal ℂ) (signal : List (List ℂ)) : Option (List (List Bool)) := demodulateObj k coded signal

/-- `sig.normalize_and_center(symbol_based)` of a signal with pilots, qampy/signals.py:561-568: the samples afterwards (`none` for nan) and the exception. The call
`self.est_snr(synced=synced, verbose=True)` raises TypeError, as the method of `SignalWithPilots` (1919) has no argument `verbose`; the mean has been removed in place by then. -/
noncomputable def pilotNormalize (s : PilotSignal ℂ) (symbolBased : Bool) : Option (List (List ℂ)) × Option PyErr :=
  if symbolBased then (some (s.rows.map fun r => r.map fun z => z - meanC r), some .typ)
  else (normaliseAndCenter s.rows, none)

end Qampy
