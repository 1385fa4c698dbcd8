import Verif.Model.Metrics
import Verif.Model.Pilots

/-!
The metrics of signals with pilots (qampy/signals.py:1809-1947) and the information rates of signal objects with their SNR argument (signals.py:458-547).
-/

namespace Qampy

/-- The symbols which the metrics of the payload compare with, `self.symbols.symbols`: views, slices, copies and `np.tile` of a signal object keep its attribute `_symbols` (signals.py:192-202).
`SignalWithPilots.__new__` (1506-1522) stores the (possibly tiled) drawn data signal, whose `_symbols` are the drawn symbols. -/
def refNew {α : Type _} (dataDraw : List (List α)) : List (List α) := dataDraw

/-- `self.symbols.symbols` of `from_symbol_array(payload, ...)`, signals.py:1624-1638: `payload[:, :Ndat].copy()` keeps the attribute `_symbols` of `payload`, which are all its symbols when it is a signal as created or an array converted in 1626-1627. -/
def refFromArray {α : Type _} (payload : List (List α)) : List (List α) := payload

/-- `SignalWithPilots.cal_ser(frames, synced)`, signals.py:1830-1832. `get_data` returns the payload as an object with reference symbols `ref`. -/
noncomputable def pilotCalSer (coded : List ℂ) (s : PilotSignal ℂ) (ref : List (List ℂ)) (L os : Nat) (frames : Option (List Nat)) (synced : Bool) : Except PyErr (List ℚ) := do
  let d ← getData s L os frames
  calSerRows coded synced ref d

/-- `SignalWithPilots.cal_ber(frames, synced)`, signals.py:1855-1857. -/
noncomputable def pilotCalBer (k : Nat) (coded : List ℂ) (s : PilotSignal ℂ) (ref : List (List ℂ)) (L os : Nat) (frames : Option (List Nat)) (synced : Bool) : Except PyErr (List ℚ) := do
  let d ← getData s L os frames
  calBerRows k coded synced ref d

/-- `SignalWithPilots.cal_evm(frames, synced)`, signals.py:1881-1883. -/
noncomputable def pilotCalEvm (s : PilotSignal ℂ) (ref : List (List ℂ)) (L os : Nat) (frames : Option (List Nat)) (synced : Bool) : Except PyErr (List ℝ) := do
  let d ← getData s L os frames
  calEvmRows synced ref d

/-- `SignalWithPilots.est_snr(frames, synced, use_pilots)`, signals.py:1942-1947; `refP` and `codedP` are reference symbols and alphabet of the pilots. -/
noncomputable def pilotEstSnr (coded codedP : List ℂ) (s : PilotSignal ℂ) (ref refP : List (List ℂ)) (L os : Nat) (frames : Option (List Nat)) (synced usePilots : Bool) : Except PyErr (List (ℝ × ℝ × ℝ)) :=
  if usePilots then do
    let p ← extractPilots s L os frames
    estSnrRows codedP synced refP p
  else do
    let d ← getData s L os frames
    estSnrRows coded synced ref d

/-- `bits.reshape(nmodes, -1, Nbits)[mode]`, signals.py:495. -/
def bitRows (k : Nat) (bits : List Bool) : List (List Bool) := (List.range (bits.length / k)).map fun i => (bits.drop (i * k)).take k

/-- GMI of one mode for the linear SNR `snr`, signals.py:494-506; `bitsMap` is `_bitmap_mtx`. -/
noncomputable def gmiMode (k : Nat) (coded : List ℂ) (bitsMap : List (List ℂ × List ℂ)) (minmax : Bool) (tx rx : List ℂ) (snr : ℝ) : Except PyErr ℝ :=
  match demodulate k coded tx with
  | none => .error .index
  | some bits => .ok (calGmi k (bitRows k bits) (if minmax then softLValueDemapperMinmax rx snr bitsMap else softLValueDemapper rx snr bitsMap))

/-- The linear SNRs used for the modes, signals.py:486-493 and 533-543: an estimate of the aligned signal, or the given values in dB, one per mode or one for all modes (numpy broadcasting). -/
noncomputable def snrArg (coded : List ℂ) (snr : Option (List ℝ)) (t r : List (List ℂ)) (nmodes : Nat) : Except PyErr (List ℝ) :=
  match snr with
  | none => (estSnrRows coded true t r).map fun l => l.map (·.1)
  | some l =>
    if l.length ≠ nmodes then match l with
      | [x] => .ok (List.replicate nmodes ((10 : ℝ) ^ (x / 10)))
      | _ => .error .value
    else .ok (l.map fun x => (10 : ℝ) ^ (x / 10))

/-- `cal_gmi(signal_rx, synced, snr, llr_minmax)`, signals.py:482-507: the total GMI per mode. -/
noncomputable def calGmiRows (k : Nat) (coded : List ℂ) (bitsMap : List (List ℂ × List ℂ)) (minmax synced : Bool) (snr : Option (List ℝ)) (symbols rx : List (List ℂ)) : Except PyErr (List ℝ) := do
  let (t, r) ← alignRows synced symbols rx
  let snr ← snrArg coded snr t r rx.length
  (List.range rx.length).mapM fun i => match t[i]?, r[i]?, snr[i]? with
    | some a, some b, some x => gmiMode k coded bitsMap minmax a b x
    | _, _, _ => .error .index

/-- `SignalWithPilots.cal_gmi(frames, synced, snr, use_pilot_snr)`, signals.py:1908-1917. -/
noncomputable def pilotCalGmi (k : Nat) (coded codedP : List ℂ) (bitsMap : List (List ℂ × List ℂ)) (s : PilotSignal ℂ) (ref refP : List (List ℂ)) (L os : Nat) (frames : Option (List Nat)) (synced : Bool)
    (snr : Option (List ℝ)) (usePilotSnr : Bool) : Except PyErr (List ℝ) :=
  if usePilotSnr ∧ snr ≠ none then .error .assertion else
    match nFrames L os s.frameLen with
    | .error e => .error e
    | .ok n => do
      let d ← getData s L os (some (frames.getD (List.range n)))
      if usePilotSnr then do
        let p ← pilotEstSnr coded codedP s ref refP L os none true true
        calGmiRows k coded bitsMap false synced (some (p.map (·.1))) ref d
      else calGmiRows k coded bitsMap false synced snr ref d

end Qampy
