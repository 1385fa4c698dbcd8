import Verif.Model.Partition
import Verif.Model.Np

/-!
Model of the error vector magnitude on plain arrays, qampy/core/signal_quality.py:142-193.

The arrays are one-dimensional. `none` stands for a nan. `M = 2^k`; the kurtosis `_cal_gamma(M)` used inside `norm_to_s0` is
`calGamma k` of `Model/Partition.lean`.
-/

namespace Qampy

/-- `abs(a.real-b.real)**2 + abs(a.imag-b.imag)**2`, signal_quality.py:161-162, 190-191. -/
noncomputable def sqDist (a b : ℂ) : ℝ := |a.re - b.re| ^ 2 + |a.im - b.im| ^ 2

/-- `np.mean` of a real array; nan for an empty one. -/
noncomputable def meanNan (l : List ℝ) : Option ℝ := if l = [] then none else some (l.sum / l.length)

/-- `np.min` of a real row. -/
noncomputable def minRow (l : List ℝ) : Option ℝ := (Np.argmin l).bind fun j => l[j]?

/-- `evm /= np.mean(abs(Pi)**2); return np.sqrt(evm)`, signal_quality.py:163-164, 192-193; nan for a division by zero. -/
noncomputable def evmFrom (err : ℝ) (Pi : List ℂ) : Option ℝ :=
  (meanNan (Pi.map fun p => ‖p‖ ^ 2)).bind fun p => if p = 0 then none else some (Real.sqrt (err / p))

/-- `cal_symbols_qam(M).flatten()` as complex numbers, for `M = 2^k`. -/
noncomputable def idealQam (k : Nat) : List ℂ := (symbolsQam k).map fun p => (⟨(p.1 : ℝ), (p.2 : ℝ)⟩ : ℂ)

/-- `_cal_evm_blind(sig, M)`, signal_quality.py:142-164. -/
noncomputable def blindEvm (k : Nat) (sig : List ℂ) : Option ℝ :=
  (normToS0 (idealQam k) (calGamma k)).bind fun Pi =>
  (normToS0 sig (calGamma k)).bind fun Pm =>
  (Pm.mapM fun z => minRow (Pi.map fun p => sqDist z p)).bind fun ds =>
  (meanNan ds).bind fun err => evmFrom err Pi

/-- `cal_evm(sig, M, known)`, signal_quality.py:167-193. Arrays of different lengths cannot be subtracted, `ValueError` (lengths one,
which numpy broadcasts, are left out of the model). The subtraction comes after both normalisations, which raise nothing. -/
noncomputable def calEvm (k : Nat) (sig : List ℂ) (known : Option (List ℂ)) : Except PyErr (Option ℝ) :=
  match known with
  | none => .ok (blindEvm k sig)
  | some kn =>
    if kn.length ≠ sig.length then .error .value
    else .ok <|
      (normToS0 kn (calGamma k)).bind fun Pi =>
      (normToS0 sig (calGamma k)).bind fun Ps =>
      (meanNan (List.zipWith sqDist Pi Ps)).bind fun err => evmFrom err Pi

end Qampy
