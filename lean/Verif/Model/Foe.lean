import Verif.Model.Phase

/-!
Pilot based frequency offset estimation (qampy/core/pilotbased_receiver.py).
-/

namespace Qampy

/-- `np.polyfit(np.arange(n), y, 1)`: slope and value at zero of the regression line, for `n ≥ 2` (the least squares problem is singular for one point; not modelled). -/
noncomputable def polyfit1 (y : List ℝ) : ℝ × ℝ :=
  let n : ℝ := y.length
  let c := (n - 1) / 2
  let s := (y.mapIdx fun k v => ((k : ℝ) - c) * v).sum / ((List.range y.length).map fun k : ℕ => ((k : ℝ) - c) ^ 2).sum
  (s, y.sum / n - s * c)

/-- The fit of one mode in `pilot_based_foe`, core/pilotbased_receiver.py:61-67: frequency offset per symbol and phase of the first symbol. -/
noncomputable def pilotFoeMode (rec ref : List ℂ) : ℝ × ℝ := ((polyfit1 (pilotPhase ref rec)).1 / (2 * Real.pi), (polyfit1 (pilotPhase ref rec)).2)

/-- `pilot_based_foe(rec_symbs, pilot_symbs)`, core/pilotbased_receiver.py:32-73: average, offset of each mode, phase of each mode. Missing pilot modes raise IndexError, different lengths do not broadcast (ValueError; lengths one are not modelled). -/
noncomputable def pilotBasedFoe (rec ref : List (List ℂ)) : Except PyErr (ℝ × List ℝ × List ℝ) := do
  let fits ← (List.range rec.length).mapM fun l =>
    match rec[l]?, ref[l]? with
    | some r, some p => if r.length = p.length then Except.ok (pilotFoeMode r p) else .error .value
    | _, _ => .error .index
  return ((fits.map Prod.fst).sum / fits.length, fits.map Prod.fst, fits.map Prod.snd)

end Qampy
