import Verif.Model.PulseShape

/-!
Pre-compensation of the frequency response of the converter: qampy/core/digital_pre_compensation.py:58-96.
-/

namespace Qampy

/-- The power spectrum `n_f` of the pulses, digital_pre_compensation.py:78-84. -/
noncomputable def dacPulse (fb : ℝ) (n : Nat) (beta os : ℝ) : Except PyErr (List ℝ) := do
  let rrc ← rrcosFilter n (fb * os) (1 / fb) beta
  return rrc.map (· ^ 2)

/-- The noise term `alpha`, digital_pre_compensation.py:93-94; `d` is the response of the converter. -/
noncomputable def dacAlpha (fb : ℝ) (n : Nat) (papr enob os : ℝ) (d : List ℂ) (nf : List ℝ) : ℝ :=
  (10 : ℝ) ^ (papr / 10) / (6 * fb * (2 : ℝ) ^ (2 * enob)) * (List.zipWith (fun (dk : ℂ) (nk : ℝ) => ‖dk‖ ^ 2 * nk * (fb * os / n)) d nf).sum

/-- One bin of `p_f`, digital_pre_compensation.py:95; `none` is the nan of a division by zero (the numerator vanishes as well there). -/
noncomputable def dacBin (alpha : ℝ) (dk : ℂ) (nk : ℝ) : Option ℂ :=
  if nk * ‖dk‖ ^ 2 + alpha = 0 then none else some ((nk : ℂ) * (starRingEnd ℂ) dk / ((nk * ‖dk‖ ^ 2 + alpha : ℝ) : ℂ))

/-- `comp_dac_resp(dpe_fb, sim_len, rrc_beta, PAPR, prms_dac, os)`, digital_pre_compensation.py:58-96. The response `d_f` of the Bessel filter, which scipy computes from `prms_dac` at the frequencies
`k fs / sim_len` (`sosfreqz` with `whole=True`, the order of `fftfreq`), is an argument. -/
noncomputable def compDacResp (fb : ℝ) (n : Nat) (beta papr enob os : ℝ) (d : List ℂ) : Except PyErr (List (Option ℂ)) := do
  let nf ← dacPulse fb n beta os
  return List.zipWith (dacBin (dacAlpha fb n papr enob os d nf)) d nf

end Qampy
