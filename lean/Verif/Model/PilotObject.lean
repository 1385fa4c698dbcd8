import Verif.Model.Pilots
import Verif.Model.Phase

/-!
State that `SignalWithPilots` keeps between calls, qampy/signals.py: the default dictionaries of `from_symbol_array`, the pilot scale of the two constructions, and the frequency offset found by
`sync2frame` that `corr_foe` uses up.
-/

namespace Qampy

/-! ### The dictionary arguments of `from_symbol_array` -/

/-- The dictionaries a program passes as `payload_kwargs`, by identity: `heap r` is the entry `"M"` of object `r`. Object 0 is the one made once when the function is defined
(`payload_kwargs={}`, qampy/signals.py:1550) and used by every call that leaves out the argument. Other entries of the dictionaries are not modelled. -/
abbrev KwHeap := Nat → Option Nat

/-- One call of `SignalWithPilots.from_symbol_array`: the dictionary passed, `M` among the keywords, whether the payload fills the frame (1599), and whether the payload has to be turned into a
signal object (a plain array, or `payload_is_frame`). -/
structure FromArrayCall where
  ref : Nat
  m : Option Nat
  long : Bool
  plain : Bool
deriving DecidableEq

/-- The order of the payload constellation in the returned signal: that of the payload object, a given number, or found from the symbols because none is given. -/
inductive PayloadOrder where
  | ofObject
  | given (m : Nat)
  | fromSymbols
deriving DecidableEq

/-- The order used when the payload is turned into a signal object with `**payload_kwargs`, qampy/signals.py:1611, 1626-1627. -/
def payloadOrder (entry : Option Nat) (plain : Bool) : PayloadOrder :=
  if plain then match entry with
    | some m => .given m
    | none => .fromSymbols
  else .ofObject

/-- `SignalWithPilots.from_symbol_array` as far as the dictionary is concerned, qampy/signals.py:1599-1627: the length assertion (1599), the assertion that `M` is not in the dictionary (1601), the
store into the dictionary (1602-1603), the use of the dictionary. -/
def fromArrayCall (heap : KwHeap) (c : FromArrayCall) : KwHeap × Except PyErr PayloadOrder :=
  if c.long = false then (heap, .error .assertion)
  else match c.m with
    | none => (heap, .ok (payloadOrder (heap c.ref) c.plain))
    | some m => match heap c.ref with
      | some _ => (heap, .error .assertion)
      | none => (fun r => if r = c.ref then some m else heap r, .ok (payloadOrder (some m) c.plain))

/-- The dictionaries after a sequence of calls. -/
def heapAfter (heap : KwHeap) (cs : List FromArrayCall) : KwHeap := cs.foldl (fun hp c => (fromArrayCall hp c).1) heap

/-! ### The pilot scale -/

/-- The pilots of `SignalWithPilots(...)`: the drawn symbols times the scale, qampy/signals.py:1499, 1501. -/
noncomputable def scaledPilotsNew (draw : List (List ℂ)) (scale : ℝ) : List (List ℂ) := draw.map fun r => r.map fun x => x * (scale : ℂ)

/-- The pilots of `from_symbol_array`: the drawn symbols divided by the square root of the scale, qampy/signals.py:1615-1616, or the given pilots as they are (1618-1625). -/
noncomputable def scaledPilotsFromArray (given : Option (List (List ℂ))) (draw : List (List ℂ)) (scale : ℝ) : List (List ℂ) :=
  match given with
  | some p => p
  | none => draw.map fun r => r.map fun x => x / ((Real.sqrt scale : ℝ) : ℂ)

/-- `SignalWithPilots(..., pilot_scale)`, qampy/signals.py:1494-1530. -/
noncomputable def pilotNewScaled (junk : ℂ) (frameLen seqLen rat nframes : Nat) (pilotDraw dataDraw : List (List ℂ)) (scale : ℝ) (repeatData : Bool) : Except PyErr (PilotSignal ℂ) :=
  pilotNew junk frameLen seqLen rat nframes (scaledPilotsNew pilotDraw scale) dataDraw repeatData true

/-- `SignalWithPilots.from_symbol_array(payload, ..., pilots, pilot_scale)`, qampy/signals.py:1547-1645; `draw` are the symbols drawn when no pilots are given. -/
noncomputable def pilotFromSymbolArrayScaled (junk : ℂ) (payload : List (List ℂ)) (N frameLen seqLen rat : Nat) (given : Option (List (List ℂ))) (draw : List (List ℂ)) (scale : ℝ) (nframes : Nat) :
    Except PyErr (PilotSignal ℂ) :=
  pilotFromSymbolArray junk payload N frameLen seqLen rat (scaledPilotsFromArray given draw scale) nframes

/-! ### `corr_foe` -/

/-- The attribute `_foe`: `None` until `sync2frame` has run (`__array_finalize__` sets missing attributes to `None`), the array of offsets (one per mode) it stores (qampy/signals.py:1740), the
integer 0 after `corr_foe` (1749). -/
inductive FoeAttr where
  | absent
  | found (f : List ℝ)
  | zero

/-- The part of the object that `corr_foe` reads and writes. -/
structure FoeObject where
  rows : List (List ℂ)
  os : ℝ
  foe : FoeAttr

/-- `SignalWithPilots.corr_foe(additional_foe)`, qampy/signals.py:1747-1750: the object afterwards and what the call raises. `None.shape` and `(0).shape` raise AttributeError before anything is
changed. -/
noncomputable def corrFoe (o : FoeObject) (additional : ℝ) : FoeObject × Except PyErr Unit :=
  match o.foe with
  | .absent => (o, .error .attr)
  | .zero => (o, .error .attr)
  | .found f =>
    match compFreqOffset o.rows (f.map fun _ => f.sum / f.length + additional) o.os with
    | .error e => ({ rows := o.rows, os := o.os, foe := .zero }, .error e)
    | .ok out => ({ rows := out, os := o.os, foe := .zero }, .ok ())

end Qampy
