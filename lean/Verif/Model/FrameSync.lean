import Verif.Model.PilotTrain
import Verif.Model.Correlate

/-!
The search for the pilot sequence: `frame_sync` of core/pilotbased_receiver.py.
-/

namespace Qampy

/-- The arguments of `frame_sync`, core/pilotbased_receiver.py:329-330, apart from the signal and the pilot sequence. `syms` is the scaled constellation of `M_pilot`; `trSyms`, `nIter`, `method` and
`adaptive` are the entries of `eqargs` (or the defaults of `equalise_signal`); other entries are not modelled. -/
structure SyncParams where
  syms : List ℂ
  os : Nat
  frameLen : Nat
  mu : ℝ
  ntaps : Nat
  trSyms : Option Int
  nIter : Nat
  method : String
  adaptive : Bool

/-- `search_window`, core/pilotbased_receiver.py:386; `seqLen = ref_symbs.shape[-1]`. -/
def searchWindow (S : SyncParams) (seqLen : Nat) : Nat := seqLen * S.os

/-- `step`, core/pilotbased_receiver.py:385-387. -/
def searchStep (S : SyncParams) (seqLen : Nat) : Nat := searchWindow S seqLen / 2

/-- `num_steps`, core/pilotbased_receiver.py:389. -/
def searchCount (S : SyncParams) (seqLen : Nat) : Nat := S.frameLen * S.os / searchStep S seqLen + 1

/-- `np.var` of a row of errors; nan (`none`) for an empty row. -/
noncomputable def errVar (e : List ℂ) : Option ℝ :=
  if e.length = 0 then none else some ((e.map fun x => ‖x - e.sum / (e.length : ℂ)‖ ^ 2).sum / (e.length : ℝ))

/-- `np.argmin` of a row with nans: the first nan if there is one. -/
noncomputable def argminNan (v : List (Option ℝ)) : Option Nat :=
  if v.any Option.isNone then some (v.findIdx Option.isNone) else Np.argmin (v.filterMap id)

/-- `tmp`, core/pilotbased_receiver.py:397. -/
def searchSlice (S : SyncParams) (seqLen : Nat) (rx : List (List ℂ)) (i : Nat) : List (List ℂ) :=
  rx.map fun r => Np.slice r (i * searchStep S seqLen : Nat) ((i * searchStep S seqLen + searchWindow S seqLen : Nat) : Int)

/-- One window of the search, core/pilotbased_receiver.py:397-400: the trained taps and the variances of the errors of the modes. -/
noncomputable def searchTrain (S : SyncParams) (seqLen : Nat) (rx : List (List ℂ)) (i : Nat) : Except PyErr (Option (List (List (List ℂ)) × List (Option ℝ))) :=
  thenTry (equaliseSignal S.syms (searchSlice S seqLen rx i) (columns (searchSlice S seqLen rx i)) S.os S.mu none S.ntaps S.trSyms S.nIter S.method S.adaptive none none) fun r =>
    .ok (some (r.wx, r.err.map errVar))

/-- The loop over the windows, core/pilotbased_receiver.py:396-400. -/
noncomputable def searchAll (S : SyncParams) (seqLen : Nat) (rx : List (List ℂ)) : List Nat → Except PyErr (Option (List (List (List (List ℂ)) × List (Option ℝ))))
  | [] => .ok (some [])
  | i :: is => thenTry (searchTrain S seqLen rx i) fun t => thenTry (searchAll S seqLen rx is) fun ts => .ok (some (t :: ts))

/-- `wxys` and `sub_vars` after the loop, core/pilotbased_receiver.py:394-400: the first two windows are left out, they keep zero taps and the value 100. -/
noncomputable def searchTable (S : SyncParams) (nmodes n : Nat) (ts : List (List (List (List ℂ)) × List (Option ℝ))) : List (List (List (List ℂ)) × List (Option ℝ)) :=
  List.replicate (min 2 n) (List.replicate nmodes (List.replicate nmodes (List.replicate S.ntaps 0)), List.replicate nmodes (some 100)) ++ ts

/-- `min_range[l]` with the taps of that window, core/pilotbased_receiver.py:402-403. -/
noncomputable def bestWindow (table : List (List (List (List ℂ)) × List (Option ℝ))) (l : Nat) : Except PyErr (Nat × List (List (List ℂ))) :=
  match argminNan (table.map fun t => (t.2[l]?).getD none) with
  | none => .error .value
  | some i => .ok (i, (table.getD i ([], [])).1)

/-- `longSeq`, core/pilotbased_receiver.py:407. -/
def longSlice (S : SyncParams) (seqLen : Nat) (rx : List (List ℂ)) (i : Nat) : List (List ℂ) :=
  rx.map fun r => Np.slice r ((i * searchStep S seqLen : Nat) - (searchWindow S seqLen : Nat) : Int) ((i * searchStep S seqLen + searchWindow S seqLen : Nat) : Int)

/-- The symbols of the long sequence, with the coarse frequency offset removed, and that offset, core/pilotbased_receiver.py:407-412. The filter rejects a sequence shorter than the taps
(inner `none`, as for reads outside of an array). -/
noncomputable def longSymbols (S : SyncParams) (seqLen : Nat) (rx : List (List ℂ)) (i : Nat) (wx : List (List (List ℂ))) : Except PyErr (Option (List (List ℂ) × List ℝ)) :=
  match applyFilterToSignal (longSlice S seqLen rx i) (columns (longSlice S seqLen rx i)) S.os wx S.ntaps (List.range wx.length) with
  | none => .ok none
  | some out => match findFreqOffset out 1 true (2 ^ 16) with
    | none => .ok none
    | some foe => (compFreqOffset out foe 1).bind fun sy => .ok (some (sy, foe))

/-- The correlation of the symbols of one received mode with one row of the pilots, core/pilotbased_receiver.py:417-419: delay and largest value. -/
noncomputable def pilotDelay (ref : List (List ℂ)) (sy : List ℂ) (r : Nat) : Except PyErr (Int × ℝ) :=
  match ref[r]? with
  | none => .error .index
  | some x => (findSequenceOffsetComplex complexOps true x sy).bind fun f => .ok (-f.1, f.2.2.2.getD 0)

/-- State of the loop over the received modes. `foe` and `taps` are the local variables `foe_corse` and `wx1`, unset before the first pass. -/
structure SyncState where
  notFound : List Nat
  shifts : List Int
  order : List Nat
  good : Bool
  last : Option (List ℝ × List (List (List ℂ)))

/-- The rows `max_phase_rot` or `found_delay`, core/pilotbased_receiver.py:414-419: zero for the modes that are not searched. -/
def spread {β : Type} (zero : β) (nmodes : Nat) (cand : List Nat) (vals : List β) : List β :=
  (List.range nmodes).map fun r => ((cand.zip vals).lookup r).getD zero

/-- The end of one pass, core/pilotbased_receiver.py:421-431. -/
noncomputable def syncPick (S : SyncParams) (seqLen nmodes i : Nat) (st : SyncState) (found : List (Int × ℝ)) (foe : List ℝ) (wx : List (List (List ℂ))) : Except PyErr SyncState :=
  match Np.argmax (spread 0 nmodes st.notFound (found.map Prod.snd)) with
  | none => .error .value
  | some m => .ok {
      notFound := st.notFound.filter (· ≠ m)
      shifts := st.shifts ++ [(i * searchStep S seqLen : Nat) + S.os * (spread 0 nmodes st.notFound (found.map Prod.fst)).getD m 0 - (searchWindow S seqLen : Nat)]
      order := st.order ++ [m]
      good := st.good && decide (120 ≤ (spread 0 nmodes st.notFound (found.map Prod.snd)).getD m 0)
      last := some (foe, wx) }

/-- One pass of the loop over the received modes, core/pilotbased_receiver.py:404-431. -/
noncomputable def syncMode (S : SyncParams) (seqLen : Nat) (rx ref : List (List ℂ)) (table : List (List (List (List ℂ)) × List (Option ℝ))) (st : SyncState) (l : Nat) : Except PyErr (Option SyncState) :=
  (bestWindow table l).bind fun b =>
    thenTry (longSymbols S seqLen rx b.1 b.2) fun s =>
      (st.notFound.mapM (pilotDelay ref (s.1.getD l []))).bind fun found =>
        (syncPick S seqLen rx.length b.1 st found s.2 b.2).bind fun st' => .ok (some st')

/-- The loop over the received modes. -/
noncomputable def frameLoop (S : SyncParams) (seqLen : Nat) (rx ref : List (List ℂ)) (table : List (List (List (List ℂ)) × List (Option ℝ))) : List Nat → SyncState → Except PyErr (Option SyncState)
  | [], st => .ok (some st)
  | l :: ls, st => thenTry (syncMode S seqLen rx ref table st l) fun st' => frameLoop S seqLen rx ref table ls st'

/-- The return statement, core/pilotbased_receiver.py:434: without any mode the local variables are unset. -/
def finishSync (st : SyncState) : Except PyErr (Option SyncState) :=
  match st.last with
  | none => .error .unbound
  | some _ => .ok (some st)

/-- `frame_sync(rx_signal, ref_symbs, os, frame_len, M_pilot, mu, Ntaps, **eqargs)`, core/pilotbased_receiver.py:329-434, for a complex signal of `L` samples and two dimensional pilots with rows of
length `seqLen`. Returns shift factors, mode order, whether all correlations reach the threshold, and frequency offset and taps of the last mode. -/
noncomputable def frameSync (S : SyncParams) (rx : List (List ℂ)) (L : Nat) (ref : List (List ℂ)) (seqLen : Nat) : Except PyErr (Option SyncState) :=
  if ¬ (S.frameLen + 2 * seqLen) * S.os ≤ L then .error .assertion
  else if S.method ∈ realValued ∨ S.method ∈ dataAided then .error .value
  else if searchStep S seqLen = 0 then .error .zeroDiv
  else thenTry (searchAll S seqLen rx (List.range' 2 (searchCount S seqLen - 2))) fun (ts : List (List (List (List ℂ)) × List (Option ℝ))) =>
    thenTry (frameLoop S seqLen rx ref (searchTable S rx.length (searchCount S seqLen) ts) (List.range rx.length) { notFound := List.range rx.length, shifts := [], order := [], good := true, last := none }) fun (st : SyncState) => finishSync st

end Qampy
