import Verif.Model.Phase
import Verif.Model.RoundedEq

/-!
The blind phase search with rounded arithmetic. Every real operation of the source is followed by the rounding function `fl`, in the order of the source.
-/

namespace Qampy

/-- The array `dists` of `bps`, pythran_dsp.py:66-84, with rounded operations; compare `bpsDists`. `comp` is the computed `np.exp(1j*testangles)` (line 72). -/
noncomputable def bpsDistsFl (fl : ℝ → ℝ) (comp : ℝ → ℂ) (E : List ℂ) (angles : List (List ℝ)) (symbols : List ℂ) : Option (List (List ℝ)) :=
  (List.range E.length).mapM fun i => do
    let e ← E[i]?
    let row ← angles[if 1 < angles.length then i else 0]?
    some (row.map fun φ : ℝ =>
      let d := (detSymbolBy (distSqFl fl) (mulFl fl e (comp φ)) symbols 1 1000).2
      if d < 100 then d else 100)

/-- `bps(E, testangles, symbols, N)`, pythran_dsp.py:45-85, with rounded operations; compare `bpsIdx`. -/
noncomputable def bpsIdxFl (fl : ℝ → ℝ) (comp : ℝ → ℂ) (E : List ℂ) (angles : List (List ℝ)) (symbols : List ℂ) (N : Nat) : Option (List Nat) := do
  let d ← bpsDistsFl fl comp E angles symbols
  selectAngleIndexFl fl d (2 * N)

end Qampy
