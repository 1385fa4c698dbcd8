import Verif.Model.Constellation
import Verif.Model.Waveform
import Verif.Model.Quality
import Mathlib.MeasureTheory.Integral.IntervalIntegral.Basic
import Mathlib.Analysis.SpecialFunctions.Log.Base
import Mathlib.Analysis.SpecialFunctions.Trigonometric.Basic

/-!
Model of the analytic formulas of qampy/theory.py and of `q_function` of core/special_fcts.py. Exact real arithmetic.
-/

namespace Qampy

open MeasureTheory

/-- `scipy.special.erfc`: complementary error function. -/
noncomputable def erfc (x : ℝ) : ℝ := 2 / Real.sqrt Real.pi * ∫ t in Set.Ioi x, Real.exp (-t ^ 2)

/-- `q_function(x)`, core/special_fcts.py:206-215. -/
noncomputable def qFunction (x : ℝ) : ℝ := 0.5 * erfc (x / Real.sqrt 2)

/-- `ser_vs_es_over_n0_qam(snr, M)`, theory.py:34-39. -/
noncomputable def serQam (snr M : ℝ) : ℝ :=
  2 * (1 - 1 / Real.sqrt M) * erfc (Real.sqrt (3 * snr / (2 * (M - 1)))) - (1 - 2 / Real.sqrt M + 1 / M) * erfc (Real.sqrt (3 * snr / (2 * (M - 1)))) ^ 2

/-- `ber_vs_evm_qam(evm_dB, M)`, theory.py:41-69. -/
noncomputable def berEvm (evmDb M : ℝ) : ℝ :=
  2 * (1 - 1 / Real.sqrt M) / Real.logb 2 (Real.sqrt M) *
    qFunction (Real.sqrt (3 * Real.logb 2 (Real.sqrt M) / (Real.sqrt M ^ 2 - 1) * (2 / (dB2lin evmDb * Real.logb 2 M))))

/-- `ber_vs_es_over_n0_qam(snr, M)`, theory.py:72-97. -/
noncomputable def berQam (snr M : ℝ) : ℝ :=
  2 * (1 - 1 / Real.sqrt M) / Real.logb 2 (Real.sqrt M) * qFunction (Real.sqrt (3 * Real.logb 2 (Real.sqrt M) / (Real.sqrt M ^ 2 - 1) * (2 * snr / Real.logb 2 M)))

/-- `ser_vs_es_over_n0_psk(snr, M)`, theory.py:99-102. -/
noncomputable def serPsk (snr M : ℝ) : ℝ := erfc (Real.sqrt snr * Real.sin (Real.pi / M))

/-- `ser_vs_es_over_n0_4pam(snr)`, theory.py:105-108. -/
noncomputable def ser4pam (snr : ℝ) : ℝ := 0.75 * erfc (Real.sqrt (snr / 5))

/-- `cal_ps_probablts(symbols, nu)`, theory.py:195-222, applied to the list of different real parts (`np.unique`, sorted). -/
noncomputable def psProbs (symbs : List ℝ) (nu : ℝ) : List ℝ :=
  let divFactor := (symbs.map fun s => Real.exp (-nu * |s| ^ 2)).sum
  symbs.map fun s => Real.exp (-nu * |s| ^ 2) / divFactor

/-- `sim_mi_mc(symbols, snr, N)`, theory.py:312-334, `draws` are the `N` pairs of values of `np.random.randn`. The symbols are also changed in place, not modelled. -/
noncomputable def simMiMc (symbols : List ℂ) (snrDb : ℝ) (draws : List (ℝ × ℝ)) : ℝ :=
  let syms := symbols.map fun s => s / (Real.sqrt (meanR (symbols.map fun s => ‖s‖ ^ 2)) : ℂ)
  let N0 := (10 : ℝ) ^ (-snrDb / 10)
  let sigma := Real.sqrt (N0 / 2)
  calMiMc (draws.map fun d => (⟨d.1, d.2⟩ : ℂ) * (sigma : ℂ)) syms N0

/-- `cal_gmi(M, snr, N)` for one SNR, theory.py:282-310 with the noise of `cal_gmi_mc`, pythran_dsp.py:187-188; `draws` are the values of `np.random.randn`. -/
noncomputable def theoryGmi (k : Nat) (coded : List ℂ) (snrDb : ℝ) (draws : List (ℝ × ℝ)) : Except PyErr ℝ :=
  let snr := (10 : ℝ) ^ (snrDb / 10)
  let z := draws.map fun d => ((Real.sqrt (1 / snr) : ℝ) : ℂ) * (⟨d.1, d.2⟩ : ℂ) / (Real.sqrt 2 : ℂ)
  match bitmapMtx k coded with
  | .error e => .error e
  | .ok bm => .ok (calGmiMc coded snr z k bm)

end Qampy
