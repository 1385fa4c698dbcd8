import Verif.Model.Correlate
import Verif.Model.Quality
import Verif.Model.Receiver

/-!
The metrics of signal objects on all modes, with the alignment of transmitted and received symbols (qampy/signals.py).
-/

namespace Qampy

/-- `ber_functions.sync_and_adjust(tx, rx)` for complex rows with the returned correlation, core/ber_functions.py:108-161. -/
noncomputable def syncPair (tx rx : List ℂ) : Except PyErr ((List ℂ × List ℂ) × ℝ) := do
  let (_, _, _, acm) ← findSequenceOffsetComplex complexOps true rx tx
  let p ← syncAndAdjust complexOps true tx rx .tx
  return (p, acm.getD 0)

/-- `ber_functions.sync_and_adjust(tx[i], rx[j])`, signals.py:258. -/
noncomputable def syncEntry (tx rx : List (List ℂ)) (i j : Nat) : Except PyErr ((List ℂ × List ℂ) × ℝ) :=
  match tx[i]?, rx[j]? with
  | some t, some x => syncPair t x
  | _, _ => .error .index

/-- `_sync_and_adjust(tx, rx)` on two dimensional complex arrays, signals.py:245-266. -/
noncomputable def syncRows (tx rx : List (List ℂ)) : Except PyErr (List (List ℂ) × List (List ℂ)) := do
  let r ← syncModes (syncEntry tx rx) tx.length rx.length
  return (r.map (·.2.1), r.map (·.2.2))

/-- `_adjust_only(tx, rx, which="tx")`, signals.py:268-292, for rectangular arrays. -/
def adjustOnly {α : Type _} (tx rx : List (List α)) : Except PyErr (List (List α) × List (List α)) :=
  let tx := if tx.length > rx.length then tx.take rx.length else tx
  let nt := (tx.headD []).length
  let nr := (rx.headD []).length
  if tx.length = rx.length ∧ nt = nr then .ok (tx, rx)
  else do
    let ps ← (List.range tx.length).mapM fun i => match tx[i]?, rx[i]? with
      | some t, some x => adjustDataLength t x (if nt > nr then .truncate else .extend) 0
      | _, _ => .error .index
    return (ps.map (·.1), ps.map (·.2))

/-- `_sync_and_adjust(tx, rx, synced)`, signals.py:245-292. -/
noncomputable def alignRows (synced : Bool) (tx rx : List (List ℂ)) : Except PyErr (List (List ℂ) × List (List ℂ)) :=
  if synced then adjustOnly tx rx else syncRows tx rx

/-- `cal_ser(signal_rx, synced)`, signals.py:326-335: one number per mode. `make_decision` with no symbols is an unchecked access, here IndexError. -/
noncomputable def calSerRows (coded : List ℂ) (synced : Bool) (symbols rx : List (List ℂ)) : Except PyErr (List ℚ) := do
  let (t, r) ← alignRows synced symbols rx
  (List.zip t r).mapM fun p => (calSer coded p.2 p.1).elim (.error .index) .ok

/-- `cal_ber(signal_rx, synced)`, signals.py:369-379. -/
noncomputable def calBerRows (k : Nat) (coded : List ℂ) (synced : Bool) (symbols rx : List (List ℂ)) : Except PyErr (List ℚ) := do
  let (t, r) ← alignRows synced symbols rx
  (List.zip t r).mapM fun p => (calBer k coded p.2 p.1).elim (.error .index) .ok

/-- `cal_evm(signal_rx, synced)` with known symbols, signals.py:413-421. -/
noncomputable def calEvmRows (synced : Bool) (symbols rx : List (List ℂ)) : Except PyErr (List ℝ) := do
  let (t, r) ← alignRows synced symbols rx
  return (List.zip t r).map fun p => evm p.1 p.2

/-- `est_snr(signal_rx, synced)`, signals.py:441-454: the loop runs over the modes of the given signal and indexes the aligned arrays. -/
noncomputable def estSnrRows (coded : List ℂ) (synced : Bool) (symbols rx : List (List ℂ)) : Except PyErr (List (ℝ × ℝ × ℝ)) := do
  let (t, r) ← alignRows synced symbols rx
  (List.range rx.length).mapM fun i => match t[i]?, r[i]? with
    | some a, some b => (estimateSnr b a coded).elim (.error .index) .ok
    | _, _ => .error .index

end Qampy
