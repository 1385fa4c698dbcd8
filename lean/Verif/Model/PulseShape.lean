import Verif.Model.Fourier
import Verif.Model.Phase
import Mathlib.Analysis.SpecialFunctions.Trigonometric.Basic
import Mathlib.Analysis.SpecialFunctions.Pow.Real

/-!
Raised cosine spectra (qampy/core/special_fcts.py) and pulse shaping in the spectral domain (qampy/core/filter.py). Exact real numbers; the result has
the type of the frequency vector, which is floating point in all callers.
-/

namespace Qampy

open Complex

/-- `rcos_freq(f, beta, T)`, core/special_fcts.py:134-143, one frequency. -/
noncomputable def rcosFreq (beta T f : ℝ) : ℝ :=
  if |f| ≤ (1 - beta) / (2 * T) then T
  else if |f| ≤ (1 + beta) / (2 * T) then T / 2 * (1 + Real.cos (Real.pi * T / beta * (|f| - (1 - beta) / (2 * T))))
  else 0

/-- `rrcos_freq(f, beta, T)`, core/special_fcts.py:146-169. -/
noncomputable def rrcosFreq (beta T f : ℝ) : ℝ := Real.sqrt (rcosFreq beta T f)

/-- The filter of `_rrcos_pulseshaping_freq`, core/filter.py:170-172; `max` of an empty array raises ValueError. -/
noncomputable def rrcosFilter (n : Nat) (fs T beta : ℝ) : Except PyErr (List ℝ) :=
  let nyq := (List.range n).map fun m => rrcosFreq beta T (fftfreq n 1 m * fs)
  match nyq.max? with
  | none => .error .value
  | some m => .ok (nyq.map (· / m))

/-- `_rrcos_pulseshaping_freq(sig, fs, T, beta)`, core/filter.py:149-175 (also `rrcos_pulseshaping` with `taps=None`, 199-200), one dimensional signal. -/
noncomputable def rrcosPulseFreq (fs T beta : ℝ) (sig : List ℂ) : Except PyErr (List ℂ) := do
  let h ← rrcosFilter sig.length fs T beta
  return ifft (rowMul (fft sig) (h.map fun (v : ℝ) => (v : ℂ)))

end Qampy
