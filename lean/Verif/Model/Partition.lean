import Verif.Model.Phase
import Verif.Model.Constellation
import Mathlib.Analysis.SpecialFunctions.Trigonometric.Arctan
import Mathlib.Analysis.SpecialFunctions.Pow.Complex

/-!
Model of the moment based signal power and SNR estimators (qampy/core/signal_quality.py:111-128, 196-273) and of the 16-QAM partition
phase recovery (qampy/core/phaserecovery.py:292-385).

A float that is nan is `none`. Comparisons with nan are false.
-/

namespace Qampy

open Complex (I)

/-- `np.mean(abs(E)**n)` -/
noncomputable def absMoment (n : Nat) (E : List ℂ) : ℝ := (E.map fun e => ‖e‖ ^ n).sum / E.length

/-- `_cal_gamma(M)`, signal_quality.py:227-231, from the symbols, the scaling factor and `M`. The sum over the unique amplitudes
weighted by their counts is written as the sum over all symbols. -/
noncomputable def gammaOf (symbols : List ℂ) (scale M : ℝ) : ℝ :=
  (symbols.map fun s => (‖s‖ / Real.sqrt scale) ^ 4 / M).sum

/-- `_cal_gamma(M)` for `M = 2^k`: symbols and scaling factor of theory.py:110-193. -/
noncomputable def calGamma (k : Nat) : ℝ :=
  gammaOf ((symbolsQam k).map fun p => (⟨(p.1 : ℝ), (p.2 : ℝ)⟩ : ℂ)) (scalingFactor k : ℚ) (2 ^ k)

/-- `cal_symbols_qam(M)` for a real `M` with `1 ≤ M < 4`: `log2(M) % 2 < 0.5` for `M < sqrt 2`, so the square branch is taken,
theory.py:151-158. `np.mgrid` has `int(sqrt(M)) = 1` point in each direction, the start value `-(2*sqrt(M)/2 - 1)`. -/
noncomputable def symbolsSmall (M : ℝ) : List ℂ :=
  [(⟨-(2 * Real.sqrt M / 2 - 1), -(2 * Real.sqrt M / 2 - 1)⟩ : ℂ)]

/-- `_cal_gamma(M)` for a real `1 < M < sqrt 2`; `log2(M)` is no even integer, so `cal_scaling_factor_qam` takes the mean of the
symbols' squared moduli, theory.py:139-149. -/
noncomputable def calGammaSmall (M : ℝ) : ℝ :=
  gammaOf (symbolsSmall M) (((symbolsSmall M).map fun s => ‖s‖ ^ 2).sum / (symbolsSmall M).length) M

/-- `S1` and `S2` of `cal_snr_qam` and `cal_s0`, signal_quality.py:217-223, 250-255. nan for a vanishing fourth moment (this includes
an empty array) or a negative radicand. -/
noncomputable def momentS (E : List ℂ) (gamma : ℝ) : Option (ℝ × ℝ) :=
  let r2 := absMoment 2 E
  let r4 := absMoment 4 E
  let rad := (2 - gamma) * (2 * r2 ^ 4 / r4 ^ 2 - r2 ^ 2 / r4)
  if r4 = 0 ∨ rad < 0 then none
  else some (1 - 2 * r2 ^ 2 / r4 - Real.sqrt rad, gamma * r2 ^ 2 / r4 - 1)

/-- `cal_snr_qam`, signal_quality.py:196-224; `none` stands for nan and infinities. -/
noncomputable def calSnrQam (E : List ℂ) (gamma : ℝ) : Option ℝ :=
  (momentS E gamma).bind fun s => if s.2 = 0 then none else some (s.1 / s.2)

/-- `cal_s0`, signal_quality.py:234-258. For `S1 = 0` the quotient is infinite (`S2 < 0` as `gamma < 2`) and the result zero. The
denominator `1 + S2/S1` does not vanish for `gamma < 2`. -/
noncomputable def calS0 (E : List ℂ) (gamma : ℝ) : Option ℝ :=
  (momentS E gamma).map fun s => if s.1 = 0 then 0 else absMoment 2 E / (1 + s.2 / s.1)

/-- `norm_to_s0`, signal_quality.py:111-128. -/
noncomputable def normToS0 (E : List ℂ) (gamma : ℝ) : Option (List ℂ) :=
  (calS0 E gamma).bind fun s0 => if s0 ≤ 0 then none else some (E.map fun e => e / (Real.sqrt s0 : ℝ))

/-- `cal_snr_blind_qpsk`, signal_quality.py:261-272, linear: the pair `P`, `var` instead of `10*log10(P/var)`. `E4**(1/4)` is the
principal power. -/
noncomputable def blindSnrQpsk (E : List ℂ) : ℝ × ℝ :=
  let Eref : List ℂ := E.map fun e => (-e ^ 4) ^ ((1 : ℂ) / 4)
  let mu := Eref.sum / Eref.length
  (absMoment 2 Eref, (Eref.map fun e => ‖e - mu‖ ^ 2).sum / Eref.length)

/-- `partition_16qam(E)`, phaserecovery.py:318-325: the two masks. `cal_s0(E, 1.32)` takes 1.32 as QAM order. -/
noncomputable def partition16 (E : List ℂ) : List Bool × List Bool :=
  let class1 := match calS0 E (calGammaSmall (33 / 25)) with
    | none => E.map fun _ => false
    | some S0 =>
      if S0 < 0 then E.map fun _ => false
      else
        let inner := (Real.sqrt (S0 / 5) + Real.sqrt S0) / 2
        let outer := (Real.sqrt (9 * S0 / 5) + Real.sqrt S0) / 2
        E.map fun e => decide (‖e‖ < inner) || decide (outer < ‖e‖)
  (class1, class1.map not)

/-- `np.min` of two complex numbers: lexicographic order. -/
noncomputable def complexMin (a b : ℂ) : ℂ := if b.re < a.re ∨ (b.re = a.re ∧ b.im < a.im) then b else a

/-- `dphi`, phaserecovery.py:357. -/
noncomputable def dphi16 : ℝ := Real.pi / 4 + Real.arctan (1 / 3)

/-- The estimate for one block, phaserecovery.py:373-378; the block is given by its samples with their class 1 flag. -/
noncomputable def blockPhase16 (b : List (ℂ × Bool)) : ℝ :=
  let s1 := (b.map fun p => if p.2 then p.1 ^ 4 else 0).sum
  let sx := (b.filter fun p => !p.2).map fun p =>
    complexMin (s1 - (p.1 * Complex.exp (I * (dphi16 : ℂ))) ^ 4) (s1 - (p.1 * Complex.exp (I * ((-dphi16 : ℝ) : ℂ))) ^ 4)
  Complex.arg (s1 + sx.sum)

/-- `phi_est` of one mode, phaserecovery.py:361-378, for `0 < Nblock`. -/
noncomputable def phiEst16 (E : List ℂ) (Nblock : Nat) : List ℝ :=
  let z := E.zip (partition16 E).1
  (List.range ((E.length + Nblock - 1) / Nblock)).flatMap fun i =>
    let b := (z.drop (i * Nblock)).take Nblock
    List.replicate b.length (blockPhase16 b)

/-- `phase_partition_16qam(E, Nblock)`, phaserecovery.py:328-385. All modes have equal lengths. `phi_est` is the array of the last
mode after the loop. `range(0, L, 0)` raises ValueError; no mode at all leaves `phi_est` unbound. -/
noncomputable def phasePartition16 (E : List (List ℂ)) (Nblock : Nat) : Except PyErr (List (List ℂ) × List (List ℝ)) :=
  match E.getLast? with
  | none => .error .unbound
  | some last =>
    if Nblock = 0 then .error .value
    else
      let phi := phiEst16 last Nblock
      .ok (E.map fun r => List.zipWith (fun (e : ℂ) (p : ℝ) => e * Complex.exp (-I * (p : ℂ))) r phi,
        E.map fun r => (unwrap (phiEst16 r Nblock)).map fun p => p / 4 - Real.pi / 4)

end Qampy
