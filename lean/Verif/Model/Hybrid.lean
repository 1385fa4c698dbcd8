import Verif.Model.Metrics
import Mathlib.Data.Finset.Sort
import Mathlib.Data.Prod.Lex

/-!
Power of the two parts of a time domain hybrid signal, qampy/signals.py:1230-1259, 1318-1394.
-/

namespace Qampy

/-- Key of the order of complex numbers in numpy: real part first. -/
def lexKey (z : ℂ) : ℝ ×ₗ ℝ := toLex (z.re, z.im)

/-- The number with a given key. -/
def ofLexKey (p : ℝ ×ₗ ℝ) : ℂ := ⟨(ofLex p).1, (ofLex p).2⟩

/-- `np.unique` of a complex array: the distinct values, sorted by real and then by imaginary part. -/
noncomputable def npUnique (l : List ℂ) : List ℂ := ((l.map lexKey).toFinset.sort).map ofLexKey

/-- `np.min(abs(np.diff(np.unique(symbols))))`, signals.py:1388-1389; the minimum of an empty array raises ValueError. -/
noncomputable def minStep (symbols : List ℂ) : Except PyErr ℝ :=
  let u := npUnique symbols
  match (List.zipWith (fun a b => ‖b - a‖) u u.tail).min? with
  | none => .error .value
  | some d => .ok d

/-- `TDHQAMSymbols.calculate_power_ratio(M1symbols, M2symbols, "dist")`, signals.py:1368-1394 (other methods raise NotImplementedError). -/
noncomputable def powerRatio (symbols1 symbols2 : List ℂ) : Except PyErr ℝ := do
  let d1 ← minStep symbols1
  let d2 ← minStep symbols2
  return (d2 / d1) ^ 2

/-- `syms2 /= np.sqrt(scale)` for the samples of one mode, signals.py:1246 and 1346. -/
noncomputable def scalePart (scale : ℝ) (syms : List ℂ) : List ℂ := syms.map (· / (Real.sqrt scale : ℂ))

/-- The parts of a signal object that matter here: samples, reference symbols (`_symbols`) and alphabet (`_coded_symbols`). -/
structure PartSignal where
  data : List (List ℂ)
  symbols : List (List ℂ)
  coded : List ℂ

/-- A drawn signal: the reference symbols are a copy of the samples, signals.py:668-674. -/
def PartSignal.fresh (coded : List ℂ) (draw : List (List ℂ)) : PartSignal := ⟨draw, draw, coded⟩

/-- `syms2 /= np.sqrt(scale)` of a signal object, signals.py:1245-1246 and 1345-1346: an in-place operation on the samples. The reference symbols are another array and, like the alphabet, keep their values. -/
noncomputable def PartSignal.rescale (scale : ℝ) (s : PartSignal) : PartSignal := { s with data := s.data.map (scalePart scale) }

/-- The second part as stored in a hybrid signal of the parts `s1`, `s2`, signals.py:1245-1246, 1252 and 1345-1346, 1361; for `from_symbol_arrays` it is the changed argument itself. -/
noncomputable def hybridPart2 (s1 s2 : PartSignal) : Except PyErr PartSignal := do
  let scale ← powerRatio s1.coded s2.coded
  return s2.rescale scale

/-- `cal_ser(synced=True)` of a part. -/
noncomputable def PartSignal.ser (s : PartSignal) : Except PyErr (List ℚ) := calSerRows s.coded true s.symbols s.data

end Qampy
