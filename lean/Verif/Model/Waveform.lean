import Verif.Model.Impairments
import Mathlib.Analysis.SpecialFunctions.Log.Base
import Mathlib.Analysis.SpecialFunctions.Trigonometric.Inverse

/-!
Model of sample-wise waveform processing: helpers.py (decibel, normalisation, scaling, edges), core/analog_frontend.py, the quantisers, the
modulator and the noise loading of core/impairments.py and clipper / comp_mod_sin of core/digital_pre_compensation.py. Exact real and complex
numbers. `Option`: `none` where the code produces nan or infinity (division by zero, arcsin outside its range) or numpy raises ValueError for
the maximum of an empty array.
-/

namespace Qampy

open Complex

/-- `dB2lin`, helpers.py:31-35. -/
noncomputable def dB2lin (x : ℝ) : ℝ := (10 : ℝ) ^ (x / 10)

/-- `lin2dB`, helpers.py:38-42, for positive arguments. -/
noncomputable def lin2dB (x : ℝ) : ℝ := 10 * Real.logb 10 x

/-- Mean of a row of complex numbers, `np.mean`. -/
noncomputable def meanC (x : List ℂ) : ℂ := x.sum / x.length

/-- Mean of a row of real numbers, `np.mean`. -/
noncomputable def meanR (x : List ℝ) : ℝ := x.sum / x.length

/-- One row of `normalise_and_center`, helpers.py:45-57; `none` for zero power (and for the empty row), where the result is nan. The one
dimensional branch (53-56) subtracts the means of both quadratures, which is the same. -/
noncomputable def normRow (x : List ℂ) : Option (List ℂ) :=
  let y := x.map fun z => z - meanC x
  let P := Real.sqrt (meanR (y.map cabsq))
  if P = 0 then none else some (y.map fun z => z / P)

/-- `normalise_and_center(E)`, helpers.py:45-57. -/
noncomputable def normaliseAndCenter (E : List (List ℂ)) : Option (List (List ℂ)) := E.mapM normRow

/-- One row of `normalise_and_center_pil`, helpers.py:59-75, `idx` the positions of the pilots. -/
noncomputable def normRowPil (idx : List Nat) (x : List ℂ) : Option (List ℂ) := do
  let pil ← idx.mapM fun i => x[i]?
  let ct := -meanC pil
  let P := Real.sqrt (meanR ((pil.map fun z => z + ct).map fun z => ‖z‖ ^ 2))
  if P = 0 then none else some (x.map fun z => (z + ct) / P)

/-- `dump_edges(E, N)` for one row, helpers.py:77-84: the python slice `E[N:-N]`, where `-0` is `0`. -/
def dumpEdges {α : Type} (E : List α) (N : Nat) : List α :=
  Np.slice E N (-(N : Int))

/-- The scale factor of `rescale_signal` for a complex row, helpers.py:104: the largest modulus of a quadrature. -/
noncomputable def absMax (x : List ℂ) : Option ℝ := (x.map fun z => max |z.re| |z.im|).max?

/-- One row of `rescale_signal(E, swing)`, helpers.py:98-108 (complex branch). -/
noncomputable def rescaleRow (swing : ℝ) (x : List ℂ) : Option (List ℂ) := do
  let s ← absMax x
  if s = 0 then none else some (x.map fun z => z / s * swing)

/-- `np.digitize(x, bins, right=False)` for increasing `bins`: the number of bins which are at most `x`. -/
noncomputable def digitize (x : ℝ) (bins : List ℝ) : Nat := bins.countP fun b => decide (b ≤ x)

/-- The levels of `quantize_signal_New`, core/impairments.py:394-396. -/
noncomputable def levelsOut (nbits : Nat) : List ℝ :=
  let delta : ℝ := 2 / 2 ^ nbits
  linspace (-1 + delta / 2) (1 - delta / 2) (2 ^ nbits)

/-- One quadrature in `quantize_signal_New`, core/impairments.py:397, 401. `none`: index out of bounds. -/
noncomputable def quantNew (nbits : Nat) (x : ℝ) : Option ℝ :=
  let delta : ℝ := 2 / 2 ^ nbits
  (levelsOut nbits)[digitize x ((levelsOut nbits).map (· + delta / 2)).dropLast]?

/-- One quadrature in `quantize_signal`, core/impairments.py:357-361. -/
noncomputable def quantOld (nbits : Nat) (x : ℝ) : Option ℝ :=
  (linspace (-1) 1 (2 ^ nbits))[digitize x (linspace (-1) 1 (2 ^ nbits)).dropLast]?

/-- Both quadratures of a sample through a quantiser of one quadrature. -/
noncomputable def quantC (q : ℝ → Option ℝ) (z : ℂ) : Option ℂ := do
  let a ← q z.re
  let b ← q z.im
  return ⟨a, b⟩

/-- `quantize_signal_New(sig_in, nbits, rescale_in, rescale_out)`, core/impairments.py:370-413 for complex signals of the package's own type
(a plain numpy array fails in line 413). Without `rescale_in` the array of zeros of line 389 is quantised. -/
noncomputable def quantizeNew (sig : List (List ℂ)) (nbits : Nat) (rescaleIn rescaleOut : Bool) : Option (List (List ℂ)) := do
  let s ← if rescaleIn then sig.mapM (rescaleRow 1) else some (sig.map fun r => r.map fun _ => 0)
  let q ← s.mapM fun r => r.mapM (quantC (quantNew nbits))
  if rescaleOut then
    let m ← absMax sig.flatten
    return q.map fun r => r.map fun z => z * m
  else return q

/-- One row of `quantize_signal(sig, nbits, rescale, re_normalize)`, core/impairments.py:330-368, for complex signals. -/
noncomputable def quantizeOldRow (nbits : Nat) (rescale renorm : Bool) (x : List ℂ) : Option (List ℂ) := do
  let s : List ℂ ← if rescale then (x.map fun z => ‖z‖).max?.bind fun m => if m = 0 then none else some (x.map fun z => z / (m : ℂ)) else some x
  let q ← s.mapM (quantC (quantOld nbits))
  if renorm then normRow q else return q

/-- `clipper(sig, clipping_level)` for one sample, core/digital_pre_compensation.py:30-38. `np.sign` is `SignType.sign`. -/
noncomputable def clipper (level : ℝ) (z : ℂ) : ℂ :=
  ⟨(SignType.sign z.re : ℝ) * min |z.re| level, (SignType.sign z.im : ℝ) * min |z.im| level⟩

/-- `comp_mod_sin(sig, vpi)` for one sample, core/digital_pre_compensation.py:40-56; a real `vpi` is `⟨vpi, vpi⟩`. `none`: nan of arcsin. -/
noncomputable def compModSin (vpi : ℂ) (z : ℂ) : Option ℂ :=
  if |z.re| ≤ 1 ∧ |z.im| ≤ 1 then some ⟨2 * vpi.re * Real.arcsin z.re, 2 * vpi.im * Real.arcsin z.im⟩ else none

/-- A real parameter stands for both quadratures, core/impairments.py:447-452. -/
noncomputable def bothQuad (p : ℂ) : ℂ := if p.im = 0 then p + I * p else p

/-- One Mach-Zehnder modulator, core/impairments.py:455-458. -/
noncomputable def mzm (v g c : ℝ) : ℂ :=
  -(exp (I * ((Real.pi * v * (1 + c) / 2 : ℝ) : ℂ)) + g * exp (-(I * ((Real.pi * v * (1 - c) / 2 : ℝ) : ℂ)))) / (1 + g)

/-- `modulator_response(rfsig, dcbias, gfactr, cfactr, dcbias_out, gfactr_out)` for one sample, core/impairments.py:415-461. -/
noncomputable def modulatorResponse (dcbias gfactr cfactr : ℂ) (dcbiasOut gfactrOut : ℝ) (z : ℂ) : ℂ :=
  let b := bothQuad dcbias
  let g := bothQuad gfactr
  let c := bothQuad cfactr
  let ei := mzm (z.re + b.re) g.re c.re
  let eq := mzm (z.im + b.im) g.im c.im
  exp (I * ((Real.pi / 4 : ℝ) : ℂ)) * (ei * exp (-(I * ((Real.pi * dcbiasOut / 2 : ℝ) : ℂ)))
    + gfactrOut * eq * exp (I * ((Real.pi * dcbiasOut / 2 : ℝ) : ℂ))) / (1 + gfactrOut)

/-- `er_to_g(ext_rat)`, core/impairments.py:463-475. -/
noncomputable def erToG (er : ℝ) : ℝ := ((10 : ℝ) ^ (er / 20) - 1) / ((10 : ℝ) ^ (er / 20) + 1)

/-- `comp_IQ_inbalance(signal)` for one row, core/analog_frontend.py:30-52. `none`: nan or division by zero. The mean is taken over the whole
array, so the model is for one dimensional input. -/
noncomputable def compIQ (x : List ℂ) : Option (List ℂ) :=
  let y := x.map fun z => z - meanC x
  let sII := (y.map fun z => z.re ^ 2).sum
  let mon := (y.map fun z => z.re * z.im).sum / sII
  let ph := Real.arcsin (-mon)
  let qb := y.map fun z => (z.im + Real.sin ph * z.re) / Real.cos ph
  let sQQ := (qb.map fun q => q ^ 2).sum
  if sII = 0 ∨ 1 < |mon| ∨ Real.cos ph = 0 ∨ sQQ = 0 then none
  else some (List.zipWith (fun (z : ℂ) (q : ℝ) => (⟨z.re, q * Real.sqrt (sII / sQQ)⟩ : ℂ)) y qb)

/-- One row of `orthonormalize_signal(E, os)`, core/analog_frontend.py:91-131. -/
noncomputable def orthonormRow (os : Nat) (x : List ℂ) : Option (List ℂ) :=
  let re := x.map fun z => z.re - meanR (x.map fun z => z.re)
  let im := x.map fun z => z.im - meanR (x.map fun z => z.im)
  let pI := meanR (re.map fun a => a ^ 2)
  let pQ := meanR (im.map fun a => a ^ 2)
  let pX := meanR (List.zipWith (· * ·) re im)
  if pI = 0 ∨ pQ = 0 then none else
  let s := List.zipWith (fun a b => (⟨a / Real.sqrt pI, (b - pX * a / pI) / Real.sqrt pQ⟩ : ℂ)) re im
  let e := s.map fun z => z - meanC (Np.strided s os)
  let P := Real.sqrt (meanR ((Np.strided e os).map fun z => ‖z‖ ^ 2))
  if P = 0 then none else some (e.map fun z => z / P)

/-- One row of `comp_rf_delay(signal, delay, sampling_rate)`, core/analog_frontend.py:54-88. The second argument of `np.fft.fftfreq` is the
sample spacing: `sampling_rate/2` there. -/
noncomputable def compRfDelay (x : List ℂ) (delay fs : ℝ) : List ℝ :=
  let f := (List.range x.length).map fun (m : Nat) => fftfreq x.length (1 / (fs / 2)) m
  (ifft (rowMul (f.map fun v => exp (-(I * ((2 * Real.pi * delay * v : ℝ) : ℂ)))) (fft x))).map (·.re)

/-- `add_awgn(sig, strgth)`, core/impairments.py:188-205, one row; `n1`, `n2` are what the two calls of `np.random.randn` return. -/
noncomputable def addAwgn (sig : List ℂ) (strgth : ℝ) (n1 n2 : List ℝ) : List ℂ :=
  List.zipWith (· + ·) sig (List.zipWith (fun (a b : ℝ) => (strgth : ℂ) * (a + I * b) / (Real.sqrt 2 : ℝ)) n1 n2)

/-- `change_snr(sig, snr, fb, fs)`, core/impairments.py:210-233; the power is the mean over all modes. -/
noncomputable def changeSnr (sig : List (List ℂ)) (snr fb fs : ℝ) (n1 n2 : List (List ℝ)) : List (List ℂ) :=
  let os := fs / fb
  let p := meanR (sig.flatten.map fun z => ‖z‖ ^ 2)
  let n := (10 : ℝ) ^ (-snr / 20) * Real.sqrt os
  List.zipWith (fun r (m : List ℝ × List ℝ) => addAwgn r (Real.sqrt p * n) m.1 m.2) sig (n1.zip n2)

/-- `apply_enob_as_awgn(sig, enob, verbose=True)`, core/impairments.py:551-587 for a complex row: the noisy signal and the SNR in dB. -/
noncomputable def applyEnob (sig : List ℂ) (enob : ℝ) (n1 n2 : List ℝ) : Option (List ℂ × ℝ) := do
  let p := meanR (sig.map fun z => ‖z‖ ^ 2)
  let m ← absMax sig
  let delta := m / (2 : ℝ) ^ (enob - 1)
  let pn := delta ^ 2 / 12
  if p = 0 ∨ pn = 0 then none
  else return (addAwgn sig (Real.sqrt (2 * pn)) n1 n2, 10 * Real.logb 10 (p / 2 / pn))

/-- `ideal_amplifier_response(sig, out_volt)`, core/impairments.py:658-671: one maximum over all modes. -/
noncomputable def idealAmplifier (sig : List (List ℂ)) (outVolt : ℝ) : Option (List (List ℂ)) := do
  let m ← absMax sig.flatten
  if m = 0 then none else some (sig.map fun r => r.map fun z => z / m * outVolt)

/-- `cal_ps_probablts(symbols, nu)`, theory.py:195-222; `levels` is `np.unique(symbols.real)`. -/
noncomputable def psLevels (symbols : List ℂ) : List ℝ := ((symbols.map (·.re)).toFinset.sort (· ≤ ·))

/-- The probabilities of `cal_ps_probablts(symbols, nu)`, theory.py:215-222. -/
noncomputable def calPsProbablts (symbols : List ℂ) (nu : ℝ) : List ℝ × List ℝ :=
  let symbs := psLevels symbols
  let div := (symbs.map fun s => Real.exp (-nu * |s| ^ 2)).sum
  (symbs, symbs.map fun s => Real.exp (-nu * |s| ^ 2) / div)

end Qampy
