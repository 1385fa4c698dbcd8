import Verif.Model.Equaliser
import Verif.Model.Pilots

/-!
Model of the pilot based receiver: core/pilotbased_receiver.py (shifts, training windows, mode search), `_apply_to_pilotsignal` and
`pilot_equaliser` of qampy/equalisation.py, `find_pilot_idx` of helpers.py, the mode handling of `sync2frame` and `_sync_and_adjust`
of signals.py.
-/

namespace Qampy

open Complex

/-! ### Shifts -/

/-- `correct_shifts(shift_factors, ntaps, os)`, core/pilotbased_receiver.py:436-443; `int(x/2)` truncates towards zero. An integer
modulo by zero raises ZeroDivisionError. (The argument is changed in place; only the returned value is modelled.) -/
def correctShifts (shifts : List Int) (n0 n1 os : Int) : Except PyErr (List Int) :=
  if os = 0 then .error .zeroDiv
  else if (n1 - n0).fmod os ≠ 0 then .error .value
  else .ok (shifts.map (· - (n1 - n0).tdiv 2))

/-- `shift_signal(sig, shift_factors)`, core/pilotbased_receiver.py:445-452. With several factors row `i` is rolled by minus factor `i` (IndexError
for missing rows, further rows stay); with one factor all rows are rolled by plus the factor; without a factor `np.roll` copies. -/
def shiftSignal {α : Type _} (sig : List (List α)) (shifts : List Int) : Except PyErr (List (List α)) :=
  match shifts with
  | [] => .ok sig
  | [s] => .ok (sig.map fun r => Np.roll r s)
  | _ =>
    if sig.length < shifts.length then .error .index
    else .ok (List.zipWith (fun r s => Np.roll r (-s)) sig shifts ++ sig.drop shifts.length)

/-! ### Applying the taps to frames -/

/-- Taps of the complex or the real valued equaliser. -/
inductive Taps where
  | cplx (w : List (List (List ℂ)))
  | real (w : List (List (List ℝ)))

/-- `wxy.shape[0]`. -/
def Taps.rows : Taps → Nat
  | .cplx w => w.length
  | .real w => w.length

/-- `apply_filter(E, os, wxy, modes=modes)`, core/equalisation/equalisation.py:166-184, method "pyt", for a complex signal of `L` columns. -/
noncomputable def coreApplyFilter (E : List (List ℂ)) (L os : Nat) (wx : Taps) (ntaps : Nat) (modes : List Nat) : Option (List (List ℂ)) :=
  match wx with
  | .cplx w => applyFilterToSignal E L os w ntaps modes
  | .real w => (applyFilterToSignal (convertSigToReal E) L os w ntaps modes).bind fun r => convertSigToCmplx r modes.length

/-- The shift factors used by `_apply_to_pilotsignal`, qampy/equalisation.py:44-48; `period = os*frame_len`. ValueError for an empty
array (`np.min`). -/
def pilotShifts (shifts : List Int) (ntaps synctaps : Nat) (period : Int) : Except PyErr (List Int) :=
  let s := if ntaps ≠ synctaps then shifts.map (· - ((ntaps : Int) - synctaps) / 2) else shifts
  match s.min? with
  | none => .error .value
  | some m => .ok (if m < 0 then s.map (· + period) else s)

/-- `np.all(np.diff(frames) == 1)`. -/
def consecutive : List Nat → Bool
  | a :: b :: l => decide (b = a + 1) && consecutive (b :: l)
  | _ => true

/-- `np.unique(x).shape[0] > 1`. -/
def severalValues (s : List Int) : Bool := s.any fun x => x != s.headD 0

/-- One call of the filter on `n` frames starting at sample `i0`: `apply_filter(sig[:, idx_0:idx_end], os, wxy, modes)` with
`idx_end = idx_0 + n*frame_len*os + Ntaps - 1`, qampy/equalisation.py:57-60, 63-66, 73-77, 83-86. -/
noncomputable def filterFrames (E : List (List ℂ)) (L os fl : Nat) (wx : Taps) (ntaps : Nat) (modes : List Nat) (i0 : Int) (n : Nat) :
    Option (List (List ℂ)) :=
  let i1 := i0 + n * fl * os + ntaps - 1
  coreApplyFilter (E.map fun r => Np.slice r i0 i1) (Np.clamp L i1 - Np.clamp L i0) os wx ntaps modes

/-- `np.hstack` of two dimensional arrays (row counts agree at all call sites). -/
def hstack {α : Type _} : List (List (List α)) → List (List α)
  | [] => []
  | [a] => a
  | a :: l => List.zipWith (· ++ ·) a (hstack l)

/-- `_apply_to_pilotsignal(sig, wxy, frames)`, qampy/equalisation.py:42-87, for the samples `E` (`L` columns), `synctaps` and shift factors of the
signal. Returns the samples of the result and the shift factors that were used. Inner `none`: the compiled filter reads outside its arrays or
rejects its input. `np.squeeze` (61, 78) is modelled for several modes and more than one output sample, where it removes the axis of the
single row returned for each mode. -/
noncomputable def applyToPilotSignal (E : List (List ℂ)) (L os fl : Nat) (shifts : List Int) (synctaps : Nat) (wx : Taps) (ntaps : Nat)
    (frames : List Nat) : Except PyErr (Option (List (List ℂ)) × List Int) := do
  let s ← pilotShifts shifts ntaps synctaps (os * fl)
  let fmax ← match frames.max? with | none => throw .value | some m => pure m
  let smax ← match s.max? with | none => throw .value | some m => pure m
  if ¬ (smax + os * fl * (fmax + 1) < L - ((ntaps : Int) - 1)) then throw .assertion
  let runs : List (Nat × Nat) :=
    if consecutive frames then [(frames.headD 0, frames.getLastD 0 - frames.headD 0 + 1)] else frames.map fun f => (f, 1)
  if severalValues s then
    if E.length = 0 ∨ wx.rows % E.length ≠ 0 then throw .value
    let modes := (List.range E.length).map fun m => (List.range (wx.rows / E.length)).map fun g => g * E.length + m
    if s.length < E.length then throw .index
    let outs : Option (List (List (List ℂ))) := runs.mapM fun r => do
      let rows ← modes.mapM fun mode => filterFrames E L os fl wx ntaps mode (s.getD (mode.headD 0) 0 + r.1 * os * fl) r.2
      some rows.flatten
    return (outs.map hstack, s)
  else
    let outs : Option (List (List (List ℂ))) := runs.mapM fun r =>
      filterFrames E L os fl wx ntaps (List.range wx.rows) (s.headD 0 + r.1 * os * fl) r.2
    return (outs.map hstack, s)

/-! ### Training windows -/

/-- The shift factors of `pilot_equaliser`, qampy/equalisation.py:308-321, with the assertion on the length `L`. -/
def eqShifts (shifts : List Int) (L os fl ntaps synctaps frame : Nat) : Except PyErr (List Int) := do
  if ((ntaps : Int) - synctaps).natAbs % 2 ≠ 0 then throw .value
  let s := if ntaps ≠ synctaps then shifts.map fun s => s - ((ntaps : Int) - synctaps) / 2 + os * fl * frame else shifts
  let smax ← match s.max? with | none => throw .value | some m => pure m
  if ¬ ((L : Int) - smax > fl * os) then throw .assertion
  return s

/-- The stretch of one row used for training with shift factor `s`: `rx_signal[:, s : s + pilot_seq_len*os + Ntaps - 1]`,
core/pilotbased_receiver.py:508, 516, 535, 544. -/
def trainSlice {α : Type _} (row : List α) (s : Int) (seqLen os ntaps : Nat) : List α := Np.slice row s (s + seqLen * os + ntaps - 1)

/-! ### Pilot mask of an oversampled signal -/

/-- numpy integer remainder: `x % 0` is 0 (with a warning). -/
def npIMod (x : Int) (m : Int) : Int := if m = 0 then 0 else x.fmod m

/-- `find_pilot_idx(nframe, frame_len, os_rate, pilot_seq_len, pilot_ins_rat)`, helpers.py:129-145: the disjunction over the frames, position by
position. -/
def findPilotIdx (nframe fl os seqLen rat : Nat) : List Bool :=
  (List.range (fl * nframe * os)).map fun (j : Nat) => (List.range nframe).any fun (i : Nat) =>
    let t : Int := fl * os * i
    let d : Int := j - seqLen * os - t
    (decide (t ≤ j) && decide ((j : Int) < t + seqLen * os)) ||
      ((decide (npIMod d (rat * os) = 0) || decide (npIMod d (rat * os) = 1)) && decide (0 ≤ d) && decide ((j : Int) < t + fl * os))

/-! ### Assignment of modes -/

/-- The inner loop of `_sync_and_adjust`, signals.py:255-261: best candidate among `cand` for one received mode. `sync i` is the result of
`ber_functions.sync_and_adjust(tx[i], rx[j])`: the pair of sequences and the correlation value. The state is the best value so far and
the variables `itmp, t_tmp, r_tmp` (unset before the first improvement of the whole run). -/
noncomputable def bestMode {β : Type _} (sync : Nat → Except PyErr (β × ℝ)) (cand : List Nat) (st : ℝ × Option (Nat × β)) :
    Except PyErr (ℝ × Option (Nat × β)) :=
  cand.foldlM (fun st i => do
    let (p, act) ← sync i
    return if act > st.1 then (act, some (i, p)) else st) st

/-- One received mode, signals.py:254-264. `idxx.remove` raises ValueError when the value is not in the list. -/
noncomputable def assignStep {β : Type _} (sync : Nat → Nat → Except PyErr (β × ℝ)) (st : List Nat × Option (Nat × β) × List (Nat × β)) (j : Nat) :
    Except PyErr (List Nat × Option (Nat × β) × List (Nat × β)) := do
  let (_, best) ← bestMode (fun i => sync i j) st.1 (-100, st.2.1)
  match best with
  | none => throw .unbound
  | some b => if b.1 ∈ st.1 then return (st.1.erase b.1, best, st.2.2 ++ [b]) else throw .value

/-- `_sync_and_adjust(tx, rx, synced=False)`, signals.py:245-266: the list of the chosen transmitted modes with the pairs of sequences.
`tx[i]` raises IndexError for `i ≥ txmodes`. -/
noncomputable def syncModes {β : Type _} (sync : Nat → Nat → Except PyErr (β × ℝ)) (txmodes rxmodes : Nat) : Except PyErr (List (Nat × β)) := do
  let sync' : Nat → Nat → Except PyErr (β × ℝ) := fun i j => if i < txmodes then sync i j else throw .index
  let r ← (List.range rxmodes).foldlM (assignStep sync') (List.range (max txmodes rxmodes), none, [])
  return r.2.2

/-- One pass of the mode search of `frame_sync`, core/pilotbased_receiver.py:411-427: `ac l r` is the correlation maximum of received mode `l` with
reference mode `r`; the best mode not found yet is taken (`max_phase_rot` is zero for the others) and removed. State: `not_found_modes`, the
order so far. -/
noncomputable def modeStep (ac : Nat → Nat → ℝ) (nmodes : Nat) (st : List Nat × List Nat) (l : Nat) : Except PyErr (List Nat × List Nat) :=
  match Np.argmax ((List.range nmodes).map fun r => if r ∈ st.1 then ac l r else 0) with
  | none => .error .value
  | some m => .ok (st.1.filter (· ≠ m), st.2 ++ [m])

/-- `mode_sync_order` of `frame_sync`, core/pilotbased_receiver.py:383-384, 401-429. -/
noncomputable def modeSyncOrder (ac : Nat → Nat → ℝ) (nmodes : Nat) : Except PyErr (List Nat) := do
  let r ← (List.range nmodes).foldlM (modeStep ac nmodes) (List.range nmodes, [])
  return r.2

/-- What `sync2frame` does with the samples and the shift factors, signals.py:1737-1739. -/
def syncToFrame {α : Type _} (E : List (List α)) (shifts : List Int) (order : List Nat) (period : Int) :
    Except PyErr (List (List α) × List Int) := do
  let rows ← fancyIndex order E
  let sh ← fancyIndex order (shifts.map fun s => if s < 0 then s + period else s)
  return (rows, sh)

end Qampy
