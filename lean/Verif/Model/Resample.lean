import Verif.Model.Np
import Verif.Tactics
import Mathlib.Data.Rat.Defs
import Mathlib.Data.Rat.Floor

/-!
Rational resampling factors and the upsampling/decimation frame of `rrcos_resample` (qampy/core/resample.py).
-/

namespace Qampy

/-- Variables of the loop of `Fraction.limit_denominator`. -/
structure FracState where
  p0 : Int
  q0 : Int
  p1 : Int
  q1 : Int
  n : Int
  d : Int

/-- The loop of CPython's `fractions.Fraction.limit_denominator` (standard library, called in core/resample.py:33 and signals.py:1268); the fuel is
the denominator, which decreases in every pass. -/
def limitLoop (maxDen : Int) : Nat → FracState → FracState
  | 0, s => s
  | fuel + 1, s =>
    let a := s.n / s.d
    let q2 := s.q0 + a * s.q1
    if q2 > maxDen then s
    else limitLoop maxDen fuel ⟨s.p1, s.q1, s.p0 + a * s.p1, q2, s.d, s.n - a * s.d⟩

/-- `Fraction(x).limit_denominator(max_denominator)` of the CPython standard library. -/
def limitDenominator (maxDen : Int) (x : ℚ) : ℚ :=
  if (x.den : Int) ≤ maxDen then x
  else
    let s := limitLoop maxDen (x.den + 1) ⟨0, 1, 1, 0, x.num, x.den⟩
    let k := (maxDen - s.q0) / s.q1
    let bound1 : ℚ := ((s.p0 + k * s.p1 : Int) : ℚ) / ((s.q0 + k * s.q1 : Int) : ℚ)
    let bound2 : ℚ := (s.p1 : ℚ) / (s.q1 : ℚ)
    if |bound2 - x| ≤ |bound1 - x| then bound2 else bound1

/-- `_resamplingfactors(fold, fnew)`, core/resample.py:32-34: `(up, down)`; `x` is the floating point quotient `fnew/fold`, a rational number. -/
def resamplingFactors (x : ℚ) : Int × Nat :=
  let r := limitDenominator 1000000 x
  (r.num, r.den)

variable {α : Type _}

/-- `sig_new = zeros(up*size); sig_new[::up] = signal`, core/resample.py:113-114, for `up ≥ 1`. -/
def insertZeros (zero : α) (up : Nat) (sig : List α) : List α := sig.flatMap fun s => s :: List.replicate (up - 1) zero

/-- `rrcos_resample` with `fftconv=True`, core/resample.py:108-117, without the normalisation. `filt` is `rrcos_pulseshaping` (a convolution in mode
"same" or a multiplication of the spectrum, both keep the length; it may raise). A factor `up = 0` makes the slice `[::up]` raise ValueError, a negative one
the allocation. -/
def rrcosResample (zero : α) (filt : List α → Except PyErr (List α)) (up : Int) (down : Nat) (sig : List α) : Except PyErr (List α) :=
  if up ≤ 0 then .error .value
  else do
    let y ← filt (insertZeros zero up.toNat sig)
    return Np.strided y down

end Qampy
