import Verif.Model.Metrics
import Verif.Model.Waveform

/-!
`normalize_and_center` of the signal classes, qampy/signals.py:549-568. It works in place; the model returns the new content.
-/

namespace Qampy

/-- The classes by their `est_snr`: of `SignalBase` (signals.py:423), of `SignalWithPilots` (1919) without the argument `verbose`, of `SymbolOnlySignal` (1139)
without `synced` and `verbose`. -/
inductive SigClass where
  | base
  | pilots
  | symbolOnly
  deriving DecidableEq

/-- `self - self.mean(axis=-1)`, signals.py:565. -/
noncomputable def centred (x : List ℂ) : List ℂ := x.map fun z => z - meanC x

/-- The division by `sqrt(p[i])`, signals.py:567-568; `none` for nan. -/
noncomputable def divSqrt (p : ℝ) (x : List ℂ) : Option (List ℂ) := if p = 0 then none else some (x.map fun z => z / (Real.sqrt p : ℂ))

/-- `normalize_and_center(symbol_based=True, synced)`, signals.py:564-568. The keyword `verbose` which `est_snr` of the subclasses does not take is a TypeError. -/
noncomputable def normalizeSymbols (cls : SigClass) (coded : List ℂ) (synced : Bool) (symbols sig : List (List ℂ)) : Except PyErr (Option (List (List ℂ))) :=
  match cls with
  | .base => (estSnrRows coded synced symbols (sig.map centred)).map fun l =>
      ((List.range sig.length).mapM fun i => match l[i]?, (sig.map centred)[i]? with
        | some p, some x => divSqrt p.2.1 x
        | _, _ => none)
  | _ => .error .typ

end Qampy
