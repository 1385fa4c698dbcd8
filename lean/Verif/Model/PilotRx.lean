import Verif.Model.FrameSync
import Verif.Model.Receiver
import Verif.Model.PilotTrain
import Verif.Model.Phase
import Verif.Model.Pilots

/-!
Model of the pilot based receiver as a user calls it: `sig.sync2frame(...)`, `pilot_equaliser(sig, mu, Ntaps, ...)`, `pilot_cpe(eq, ...)` and `get_data()` of the result.
-/

namespace Qampy

/-- `pilot_equaliser(signal, mu, Ntaps, apply=True, foe_comp=foeComp, frame=frame)`, qampy/equalisation.py:307-333, with `_apply_to_pilotsignal` for `frames=[frame]` (89-117), without given taps, for complex
valued methods: the equalised signal. `E` are the samples of the signal, `L` their number, `shifts` and `synctaps` the attributes left by the frame synchronisation. The compensation of the frequency offset uses
`sig.os` (phaserec.py). -/
noncomputable def pilotEqualiser (P : PilotEqParams) (E : List (List ℂ)) (L fl : Nat) (shifts : List Int) (synctaps : Nat) (foeComp : Bool) (frame : Nat) : Except PyErr (Option (List (List ℂ))) :=
  match eqShifts shifts L P.os fl P.ntaps synctaps frame with
  | .error e => .error e
  | .ok t => thenTry (equalizePilotSequence P E t foeComp none) fun (w : List (List (List ℂ)) × List ℝ) =>
    match (if foeComp = true then compFreqOffset E w.2 P.os else .ok E) with
    | .error e => .error e
    | .ok E' => (applyToPilotSignal E' L P.os fl shifts synctaps (.cplx w.1) P.ntaps [frame]).map Prod.fst

/-- The positions and symbols of the pilots used by `pilot_cpe`, qampy/phaserec.py:181-188. -/
def cpePilots (sig : PilotSignal ℂ) (useSeq : Bool) : List Nat × List (List ℂ) :=
  if useSeq then (nonzero sig.idxPil, sig.pilots) else ((nonzero sig.idxPil).drop sig.seqLen, sig.pilots.map fun r => r.drop sig.seqLen)

/-- `pilot_cpe(signal, N, pilot_rat, max_blocks, nframes, use_seq)`, qampy/phaserec.py:156-189: the compensated samples. `L` is `signal.shape[-1]`. -/
noncomputable def pilotCpe (sig : PilotSignal ℂ) (L numAverage ratio : Nat) (maxBlocks : Option Nat) (nframes : Nat) (useSeq : Bool) : Except PyErr (PilotSignal ℂ) :=
  (pilotBasedCpe sig.rows (cpePilots sig useSeq).2 L (cpePilots sig useSeq).1 sig.frameLen numAverage ratio maxBlocks nframes).map fun (out : List (List ℂ × List ℝ)) => { sig with rows := out.map Prod.fst }

/-- Settings of the receiver. -/
structure RxSettings where
  /-- arguments of the synchronisation, signals.py:1726-1735 (`os` and frame length are those of the signal) -/
  sync : SyncParams
  /-- arguments of the equaliser (pilots, their number and `os` are those of the signal) -/
  eq : PilotEqParams
  foeComp : Bool
  numAverage : Nat
  ratio : Nat
  maxBlocks : Option Nat
  useSeq : Bool

/-- The search for the frame with the attributes of the signal, signals.py:1731-1736. -/
def RxSettings.syncFor (R : RxSettings) (sig : PilotSignal ℂ) : SyncParams := { R.sync with frameLen := sig.frameLen }

/-- The equaliser with the attributes of the signal, qampy/equalisation.py:322-323. -/
def RxSettings.eqFor (R : RxSettings) (sig : PilotSignal ℂ) : PilotEqParams := { R.eq with ref := sig.pilots.map fun r => r.take sig.seqLen, seqLen := sig.seqLen, os := R.sync.os }

/-- The receiver for the first frame: `sync2frame` (signals.py:1708-1746), `pilot_equaliser` with `frame=0`, `pilot_cpe` with `nframes=1` and `get_data` of the result. `sig` is the received signal of `L`
samples with the attributes of the transmitted one; its oversampling is `R.sync.os`. -/
noncomputable def pilotReceiver (R : RxSettings) (sig : PilotSignal ℂ) (L : Nat) : Except PyErr (Option (List (List ℂ))) :=
  thenTry (frameSync (R.syncFor sig) sig.rows L (sig.pilots.map fun r => r.take sig.seqLen) sig.seqLen) fun (st : SyncState) =>
    match syncToFrame sig.rows st.shifts st.order (sig.frameLen * R.sync.os) with
    | .error e => .error e
    | .ok rs => thenTry (pilotEqualiser (R.eqFor sig) rs.1 L sig.frameLen rs.2 R.sync.ntaps R.foeComp 0) fun (E : List (List ℂ)) =>
      match pilotCpe { sig with rows := E } sig.frameLen R.numAverage R.ratio R.maxBlocks 1 R.useSeq with
      | .error e => .error e
      | .ok out => (getData out sig.frameLen 1 none).map some

end Qampy
