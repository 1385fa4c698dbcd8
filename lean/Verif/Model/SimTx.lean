import Verif.Model.Matlab
import Verif.Model.Transmission

/-!
Model of `sim_tx` (core/pilotbased_transmitter.py:188-238) for two dimensional frames of the complex type. Random numbers are inputs as in
`Model/Transmission`. Outer `Except`: python exception; inner `Option`: `none` if nan appears anywhere (constant row in the normalisation, all zero
row in the quantiser) or a row is empty. The arguments `num_frames` and `beta` are not used by the code.
-/

namespace Qampy

open Complex

/-- The parameters of `sim_tx`; `none` is Python's `None`. -/
structure SimTxParams where
  os : ℝ
  symbRate : ℝ := 24000000000
  modalDelay : Option (List Int) := none
  snr : Option ℝ := none
  freqoff : Option ℝ := none
  linewidth : Option ℝ := none
  rotAngle : Option ℝ := none
  resTx : Option Nat := none
  resRx : Option Nat := none

/-- The caller's array, the array the loop works on, and whether they are the same memory (`sig = frame`, line 196). -/
structure SimTxState where
  caller : List (List ℂ)
  sig : List (List ℂ)
  shared : Bool

/-- What is written into row `l` in one pass, core/pilotbased_transmitter.py:213-227: quantiser, noise, frequency offset, phase noise. -/
noncomputable def simTxRow (p : SimTxParams) (d : TxDraws) (l : Nat) (r : List ℂ) : Option (List ℂ) := do
  let r ← match p.resTx with
    | none => some r
    | some b => quantizeOldRow b true true r
  let r := match p.snr with
    | none => r
    | some s => addAwgn r ((10 : ℝ) ^ (-s / 20) * Real.sqrt p.os) ((List.range r.length).map (d.re l)) ((List.range r.length).map (d.im l))
  let r := match p.freqoff with
    | none => r
    | some fo => addCarrierOffset r fo (p.symbRate * p.os)
  let r := match p.linewidth with
    | none => r
    | some df => List.zipWith (fun x (ph : ℝ) => x * exp (I * (ph : ℂ))) r (phaseNoiseRow df (p.symbRate * p.os) (d.ph l) r.length)
  return r

/-- core/pilotbased_transmitter.py:203-206: `np.roll` without an axis rolls the flattened array and makes a new one. The check of the number of delays
is in `simPilotTx`. -/
def simTxRoll (p : SimTxParams) (l : Nat) (st : SimTxState) : SimTxState :=
  match p.modalDelay with
  | none => st
  | some ds => { st with sig := rollFlat st.sig (ds.getD l 0), shared := false }

/-- `sig[l, :] = r`: seen by the caller as long as the memory is shared. -/
def SimTxState.write (st : SimTxState) (l : Nat) (r : List ℂ) : SimTxState :=
  { st with sig := st.sig.set l r, caller := if st.shared then st.caller.set l r else st.caller }

/-- One pass of the loop, core/pilotbased_transmitter.py:198-230; the normalisation of all rows makes a new array. -/
noncomputable def simTxPass (p : SimTxParams) (d : TxDraws) (st : SimTxState) (l : Nat) : Option SimTxState := do
  let st := simTxRoll p l st
  let r ← st.sig[l]?
  let r ← simTxRow p d l r
  let st := st.write l r
  let s ← normaliseAndCenter st.sig
  return { st with sig := s, shared := false }

/-- `sim_tx(frame, os, ...)`, core/pilotbased_transmitter.py:188-238: the returned array and the caller's array afterwards. A wrong number of delays
raises in the first pass; the module `utils` has no `rotate_field` (line 233), which raises AttributeError after the loop. Whether nan appears before
has no influence on these exceptions, so they come first in the model. -/
noncomputable def simPilotTx (p : SimTxParams) (d : TxDraws) (frame : List (List ℂ)) : Except PyErr (Option (List (List ℂ) × List (List ℂ))) := do
  if p.modalDelay.any (fun ds => ds.length ≠ frame.length) && decide (frame ≠ []) then throw .value
  if decide (frame.length = 2) && p.rotAngle.isSome then throw .attr
  return do
    let st ← (List.range frame.length).foldlM (simTxPass p d) ⟨frame, frame, true⟩
    let out ← match p.resRx with
      | none => some st.sig
      | some b => st.sig.mapM (quantizeOldRow b true true)
    return (out, st.caller)

end Qampy
