import Verif.Model.Waveform
import Verif.Model.Np

/-!
The transmitter model of core/impairments.py: converter (`sim_DAC_response`), amplifier and modulator (`sim_tx_response`). Signals of several modes (a one
dimensional array fails in `rescale_signal`, helpers.py:105). The outer `Except` is a python exception, the inner `Option` as in `Model/Waveform`. The two
functions of the same name of qampy/impairments.py:173-227 pass their arguments and `sig.fs` on.
-/

namespace Qampy

/-- `np.isclose(a, b)` with its default tolerances. -/
def isclose (a b : ℝ) : Prop := |a - b| ≤ 1e-8 + 1e-5 * |b|

open Classical in
/-- The clipping of `sim_DAC_response`, core/impairments.py:503-507. -/
noncomputable def dacClip (sig : List (List ℂ)) (clipRat : ℝ) : Option (List (List ℂ)) :=
  if isclose clipRat 1 then some sig
  else (sig.mapM (rescaleRow (1 / clipRat))).map fun s => s.map fun r => r.map (clipper 1)

/-- `apply_enob_as_awgn(sig, enob)` for a signal of several modes, core/impairments.py:551-587: one maximum over all modes; `n1`, `n2` are the draws. -/
noncomputable def applyEnobModes (sig : List (List ℂ)) (enob : ℝ) (n1 n2 : List (List ℝ)) : Option (List (List ℂ)) := do
  let xmax ← absMax sig.flatten
  let delta := xmax / (2 : ℝ) ^ (enob - 1)
  let pn := delta ^ 2 / 12
  return List.zipWith (fun r (m : List ℝ × List ℝ) => addAwgn r (Real.sqrt (2 * pn)) m.1 m.2) sig (n1.zip n2)

/-- The keyword arguments of `apply_DAC_filter`: no file name, or the name of a measured response. -/
inductive DacParams where
  | bessel (cutoff : ℝ)
  | file (fn : String)

/-- `apply_DAC_filter(sig, fs, cutoff, fn, ch)`, core/impairments.py:518-549. `bessel fs cutoff` is the filter of scipy for one mode (second order sections,
core/filter.py:128-143), not modelled. With a file name line 546 calls `astype` with the signal itself as the type, which numpy rejects with TypeError. -/
def applyDacFilter (bessel : ℝ → ℝ → List ℂ → List ℂ) (fs : ℝ) (prm : DacParams) (sig : List (List ℂ)) : Except PyErr (List (List ℂ)) :=
  match prm with
  | .bessel cutoff => .ok (sig.map (bessel fs cutoff))
  | .file _ => .error .typ

/-- The quantiser of `sim_DAC_response`, core/impairments.py:508-509. -/
noncomputable def dacQuant (s : List (List ℂ)) (quantBits : Nat) : Option (List (List ℂ)) :=
  if quantBits = 0 then some s else quantizeNew s quantBits true true

open Classical in
/-- The noise of `sim_DAC_response`, core/impairments.py:510-511. -/
noncomputable def dacNoise (q : List (List ℂ)) (enob : ℝ) (n1 n2 : List (List ℝ)) : Option (List (List ℂ)) :=
  if isclose enob 0 then some q else applyEnobModes q enob n1 n2

/-- The converter without its filter, core/impairments.py:503-511. -/
noncomputable def dacCore (sig : List (List ℂ)) (enob clipRat : ℝ) (quantBits : Nat) (n1 n2 : List (List ℝ)) : Option (List (List ℂ)) :=
  (dacClip sig clipRat).bind fun s => (dacQuant s quantBits).bind fun q => dacNoise q enob n1 n2

/-- `sim_DAC_response(sig, fs, enob, clip_rat, quant_bits, **dac_params)`, core/impairments.py:477-516; `none` are no further keyword arguments. -/
noncomputable def simDac (bessel : ℝ → ℝ → List ℂ → List ℂ) (sig : List (List ℂ)) (fs enob clipRat : ℝ) (quantBits : Nat) (prm : Option DacParams)
    (n1 n2 : List (List ℝ)) : Except PyErr (Option (List (List ℂ))) :=
  match dacCore sig enob clipRat quantBits n1 n2, prm with
  | none, _ => .ok none
  | some s, none => .ok (some s)
  | some s, some p => (applyDacFilter bessel fs p s).map some

/-- `sim_tx_response(sig, fs, enob, tgt_v, clip_rat, quant_bits, dac_params)`, core/impairments.py:622-656, with the default modulator. -/
noncomputable def simTx (bessel : ℝ → ℝ → List ℂ → List ℂ) (sig : List (List ℂ)) (fs enob tgtV clipRat : ℝ) (quantBits : Nat) (prm : Option DacParams)
    (n1 n2 : List (List ℝ)) : Except PyErr (Option (List (List ℂ))) := do
  let d ← simDac bessel sig fs enob clipRat quantBits prm n1 n2
  return (d.bind fun s => idealAmplifier s tgtV).map fun a => a.map fun r => r.map (modulatorResponse 1 1 0 (1 / 2) 1)

end Qampy
