import Mathlib.Data.Int.Log
import Mathlib.Algebra.Order.Floor.Ring
import Mathlib.Data.Rat.Floor
import Verif.Tactics
import Verif.Model.Pilots

/-!
The oversampling ratio of signal objects in double precision.
-/

namespace Qampy

/-- The nearest integer, ties to even. -/
def roundHalfEven (q : ℚ) : ℤ :=
  if q - ⌊q⌋ < 1 / 2 then ⌊q⌋ else if 1 / 2 < q - ⌊q⌋ then ⌊q⌋ + 1 else if ⌊q⌋ % 2 = 0 then ⌊q⌋ else ⌊q⌋ + 1

/-- Rounding of a positive number to double precision (IEEE 754 binary64, round to nearest, ties to even): 53 significant bits. Overflow and subnormal numbers are not modelled. -/
def fl64 (q : ℚ) : ℚ := roundHalfEven (q / 2 ^ (Int.log 2 q - 52)) * 2 ^ (Int.log 2 q - 52)

/-- `SignalBase.os`, `int(self.fs/self.fb)`, qampy/signals.py:179-181, for positive rates in double precision. -/
def osDouble (fs fb : ℚ) : ℤ := ⌊fl64 (fs / fb)⌋

/-- `fs = self.os * fb` of `recreate_from_np_array(arr, fb=fb)`, qampy/signals.py:212-213, in double precision; also what a user passes to `resample` for `n` samples per symbol. -/
def recreateFs (n : Nat) (fb : ℚ) : ℚ := fl64 (n * fb)

end Qampy
