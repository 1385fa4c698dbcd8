import Verif.Model.Rounded

/-!
Integers computed with rounded arithmetic.
-/

namespace Qampy

/-- `int(self.fs/self.fb)`, the property `os` of all signals, signals.py:179-181. For positive rates truncation is the floor. -/
noncomputable def osFl (fl : ℝ → ℝ) (fs fb : ℝ) : ℤ := ⌊fl (fs / fb)⌋

/-- The sampling rate `k*fb` that a user passes to get `k` samples per symbol, for example to `resample(fnew)`, signals.py:241-245, which stores it. -/
noncomputable def rateFor (fl : ℝ → ℝ) (k : Nat) (fb : ℝ) : ℝ := fl (k * fb)

/-- Length of `np.arange(start, stop, step)`: numpy computes `ceil((stop - start)/step)` in floating point, zero if it is negative. -/
noncomputable def arangeLen (fl : ℝ → ℝ) (start stop step : ℝ) : Nat := ⌈fl (fl (stop - start) / step)⌉.toNat

/-- Length of `linspacestep(start, step, N)`, core/utils.py:34-53. -/
noncomputable def linspacestepLen (fl : ℝ → ℝ) (start step : ℝ) (N : Nat) : Nat := arangeLen fl start (fl (start + fl (N * step))) step

end Qampy
