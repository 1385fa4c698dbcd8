import Verif.Model.Quality

/-!
# Decisions and demodulation of signal objects, qampy/signals.py:847-932

The index of the decided symbol is stored in an array of type uint16, so only its remainder modulo `2^16` survives.
-/

namespace Qampy

/-- One round of the loop of `make_decision(signal, verbose=True)`, signals.py:865-866: the symbols, the distances and the indices, the latter
stored as uint16 (line 864; the assignment of the int32 array of pythran_equalisation.py:327 wraps without a message). -/
noncomputable def decideRow (coded row : List ℂ) : Option (List ℂ × List ℝ × List Nat) :=
  (makeDecision row coded).map fun d => (d.map (·.1), d.map (·.2.1), d.map fun x => x.2.2 % 2 ^ 16)

/-- `make_decision(signal, verbose=True)`, signals.py:847-870; with `verbose=False` the first component of every row. -/
noncomputable def decideObj (coded : List ℂ) (signal : List (List ℂ)) : Option (List (List ℂ × List ℝ × List Nat)) :=
  signal.mapM (decideRow coded)

/-- `demodulate(symbols)` for a two dimensional array of samples, signals.py:907-932, with `_demodulate` (lines 678-702) row by row. -/
noncomputable def demodulateObj (k : Nat) (coded : List ℂ) (signal : List (List ℂ)) : Option (List (List Bool)) :=
  (decideObj coded signal).map fun rows => rows.map fun r => demodulateIdx k r.2.2

/-- `cal_ber` after the alignment, signals.py:373-379, for one mode. -/
noncomputable def calBerObj (k : Nat) (coded rx tx : List ℂ) : Option ℚ :=
  match demodulateObj k coded [rx], demodulateObj k coded [tx] with
  | some [bRx], some [bTx] => some (((bTx.zip bRx).countP fun p => p.1 ^^ p.2 : ℚ) / bRx.length)
  | _, _ => none

end Qampy
