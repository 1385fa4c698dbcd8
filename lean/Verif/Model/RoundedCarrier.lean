import Verif.Model.Phase
import Verif.Model.RoundedEq

/-!
Adding and removing a carrier offset with rounded arithmetic. Every real operation of the source is followed by the rounding function of the type in which it is done.
-/

namespace Qampy

/-- The imaginary part of `2.j * np.pi * np.arange(N, dtype=sign.dtype) * fo / fs` for sample `n`, core/impairments.py:255-257, with rounded operations. The array
has the type of the signal, so the constant, the sample number, `fo` and `fs` are rounded to this type as well; the real parts are zeros. The complex division
multiplies by the rounded reciprocal. -/
noncomputable def offsetPhaseFl (fl : ℝ → ℝ) (fo fs : ℝ) (n : Nat) : ℝ :=
  fl (fl (fl (fl (2 * Real.pi) * fl n) * fl fo) * fl (1 / fl fs))

/-- `add_carrier_offset(sig, fo, fs)` for one mode, core/impairments.py:235-257, with rounded operations; compare `addCarrierOffset`. `expF θ` is the computed
exponential of `iθ` in the type of the signal. -/
noncomputable def addCarrierOffsetFl (fl : ℝ → ℝ) (expF : ℝ → ℂ) (sig : List ℂ) (fo fs : ℝ) : List ℂ :=
  sig.mapIdx fun n x => mulFl fl x (expF (offsetPhaseFl fl fo fs n))

/-- `lin_phase` for sample `n`, core/phaserecovery.py:466-468, in the type `float` of `time_vec`; the first sample has the time 1. -/
noncomputable def linPhaseFl (fl : ℝ → ℝ) (f os : ℝ) (n : Nat) : ℝ := fl (fl (fl (fl (2 * Real.pi) * fl (n + 1 : Nat)) * f) / os)

/-- One mode of `comp_freq_offset(sig, freq_offset, os)`, core/phaserecovery.py:461-469, with rounded operations: phase, exponential and product are computed with `fl2`
(the type `float`), the result is stored with the type of the signal (`fl1`). `expF θ` is the computed exponential of `iθ` in the former type. -/
noncomputable def compFreqOffsetFl (fl2 fl1 : ℝ → ℝ) (expF : ℝ → ℂ) (sig : List ℂ) (f os : ℝ) : List ℂ :=
  sig.mapIdx fun n x =>
    let y := mulFl fl2 x (expF (-linPhaseFl fl2 f os n))
    ⟨fl1 y.re, fl1 y.im⟩

end Qampy
