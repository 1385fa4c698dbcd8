import Verif.Model.Phase

/-!
The older pilot based carrier phase recovery (qampy/core/pilotbased_receiver.py), still used by the scripts.
-/

namespace Qampy

/-- The number of processed blocks in `pilot_based_cpe`, core/pilotbased_receiver.py:195-216: complete blocks of the signal, at most `max_num_blocks`, rounded down to a multiple of `use_pilot_ratio`, then at most the number of reference pilots (not rounded again). -/
def cpeOldBlocks (len numRef ins use : Nat) (maxBlocks : Option Nat) : Nat :=
  let nb := len / ins
  let nb := match maxBlocks with
    | none => nb
    | some m => if nb > m then m else nb
  let nb := nb - nb % use
  if nb > numRef then numRef else nb

/-- The used received pilots of a mode, core/pilotbased_receiver.py:206-213,221. The two slices with the old and new block number are one, since the number only shrinks. -/
def cpeOldRec (r : List ℂ) (nb ins use : Nat) : List ℂ := Np.strided ((Np.strided r ins).take nb) use

/-- `pilot_phase_base` of a mode, core/pilotbased_receiver.py:221-222,235-236. -/
noncomputable def cpeOldBase (r p : List ℂ) (nb ins use : Nat) : List ℝ := pilotPhase (Np.strided (p.take nb) use) (cpeOldRec r nb ins use)

/-- `pilot_phase` of a mode, core/pilotbased_receiver.py:237-243: the first `(N-1)/2` phases, the moving average, and the last average repeated `(N-1)/2` times (IndexError if there is no average). -/
noncomputable def cpeOldPhase (base : List ℝ) (N : Nat) : Except PyErr (List ℝ) :=
  match movingAverage base N with
  | none => .error .value
  | some avg =>
    match avg.getLast? with
    | none => .error .index
    | some e => .ok (base.take ((N - 1) / 2) ++ avg ++ (base.take ((N - 1) / 2)).map fun _ => e)

/-- The phase trace of a mode, core/pilotbased_receiver.py:244-248: linear interpolation at all samples of the blocks; assigning it to a row of `n` entries raises ValueError for another length. -/
noncomputable def cpeOldTrace (phase : List ℝ) (ins use n : Nat) : Except PyErr (List ℝ) :=
  if phase.length * (ins * use) ≠ n then .error .value
  else (List.range n).mapM fun k : ℕ => (interp k (phase.mapIdx fun j v => (((j * (ins * use) : ℕ) : ℝ), v))).elim (.error .value) .ok

/-- One mode, core/pilotbased_receiver.py:235-254: the compensated symbols, without those at the pilot positions if `remove`, and the trace. -/
noncomputable def cpeOldMode (nb ins use N : Nat) (remove : Bool) (rp : List ℂ × List ℂ) : Except PyErr (List ℂ × List ℝ) := do
  let phase ← cpeOldPhase (cpeOldBase rp.1 rp.2 nb ins use) N
  let trace ← cpeOldTrace phase ins use (nb * ins)
  let data := rotateBy (rp.1.take (nb * ins)) (trace.map (- ·))
  return (if remove then ((List.range data.length).filter fun i => decide (i % ins ≠ 0)).filterMap (fun i => data[i]?) else data, trace)

/-- `pilot_based_cpe(rec_symbs, pilot_symbs, pilot_ins_ratio, num_average, use_pilot_ratio, max_num_blocks, remove_phase_pilots)`, core/pilotbased_receiver.py:167-256: data and phase trace of every mode.
The rows of each array have the length of the first. Different numbers of modes raise ValueError (broadcasting of a single row is not modelled). `np.floor` makes the number of blocks a float, without effect here. `reshape(2,1)` of the vector with one entry per mode raises ValueError unless there are two modes. The averaging number is at least one. -/
noncomputable def pilotBasedCpeOld (rec ref : List (List ℂ)) (ins numAverage use : Nat) (maxBlocks : Option Nat) (remove : Bool) : Except PyErr (List (List ℂ × List ℝ)) :=
  let nb := cpeOldBlocks (rec.headD []).length (ref.headD []).length ins use maxBlocks
  if ins = 0 ∨ use = 0 then .error .zeroDiv
  else if use ≥ nb then .error .value
  else if (nb + use - 1) / use ≤ numAverage then .error .value
  else if rec.length ≠ ref.length then .error .value
  else if rec.length ≠ 2 then .error .value
  else (List.zip rec ref).mapM (cpeOldMode nb ins use (if numAverage % 2 = 0 then numAverage + 1 else numAverage) remove)

end Qampy
