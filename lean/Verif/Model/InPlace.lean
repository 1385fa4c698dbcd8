import Verif.Model.Waveform
import Verif.Model.Theory

/-!
Functions that change the array of the caller: `quantize_signal`, core/impairments.py:330-368, and `sim_mi_mc`, theory.py:312-334. The state is the
content of the array; several calls in a row work on the same array.
-/

namespace Qampy

/-- `sig[pol] /= np.abs(sig[pol]).max()`, core/impairments.py:349-351, the new content of the row. `none`: the row is empty (ValueError) or zero (nan). -/
noncomputable def peakRow (x : List ℂ) : Option (List ℂ) :=
  (x.map fun z => ‖z‖).max?.bind fun m => if m = 0 then none else some (x.map fun z => z / (m : ℂ))

/-- The arguments of a call of `quantize_signal` besides the array. -/
structure QuantCall where
  nbits : Nat
  rescale : Bool
  renorm : Bool

/-- One call of `quantize_signal`, core/impairments.py:330-368, on a complex array: the result and the content of the array afterwards.
`np.atleast_2d` (345) returns a view, so that line 351 writes into the array of the caller, also if it is one dimensional. -/
noncomputable def QuantCall.run (c : QuantCall) (arr : List (List ℂ)) : Option (List (List ℂ) × List (List ℂ)) := do
  let arr' ← if c.rescale then arr.mapM peakRow else some arr
  let out ← arr'.mapM (quantizeOldRow c.nbits false c.renorm)
  return (out, arr')

/-- Several calls on the same array: the results and the content of the array at the end. -/
noncomputable def runQuant : List QuantCall → List (List ℂ) → Option (List (List (List ℂ)) × List (List ℂ))
  | [], arr => some ([], arr)
  | c :: cs, arr => do
    let (o, arr1) ← c.run arr
    let (os, arr2) ← runQuant cs arr1
    return (o :: os, arr2)

/-- `symbols /= np.sqrt(np.mean(abs(symbols)**2))`, theory.py:330, the new content of the array (for a positive mean power). -/
noncomputable def unitPower (symbols : List ℂ) : List ℂ := symbols.map fun s => s / (Real.sqrt (meanR (symbols.map fun s => ‖s‖ ^ 2)) : ℂ)

/-- One call of `sim_mi_mc`, theory.py:330-334: the value and the content of the array of symbols afterwards. -/
noncomputable def simMiCall (snrDb : ℝ) (draws : List (ℝ × ℝ)) (symbols : List ℂ) : ℝ × List ℂ :=
  let symbols' := unitPower symbols
  let N0 := (10 : ℝ) ^ (-snrDb / 10)
  (calMiMc (draws.map fun d => (⟨d.1, d.2⟩ : ℂ) * (Real.sqrt (N0 / 2) : ℂ)) symbols' N0, symbols')

/-- Several calls of `sim_mi_mc` with the same array of symbols, as in a sweep over the SNR. -/
noncomputable def runMi : List (ℝ × List (ℝ × ℝ)) → List ℂ → List ℝ × List ℂ
  | [], symbols => ([], symbols)
  | c :: cs, symbols =>
    let r := simMiCall c.1 c.2 symbols
    let rs := runMi cs r.2
    (r.1 :: rs.1, rs.2)

end Qampy
