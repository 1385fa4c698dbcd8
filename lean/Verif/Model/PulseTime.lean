import Verif.Model.PulseShape

/-!
Raised cosine pulses in the time domain (qampy/core/special_fcts.py) and the time domain pulse shaping of qampy/core/filter.py. Exact real numbers; `none` is the nan of `0/0`.
-/

namespace Qampy

/-- A quotient of floating point numbers that is not a number (or infinite) for a vanishing denominator. -/
noncomputable def fdiv (a b : ℝ) : Option ℝ := if b = 0 then none else some (a / b)

/-- `np.sinc` -/
noncomputable def npSinc (x : ℝ) : ℝ := if x = 0 then 1 else Real.sin (Real.pi * x) / (Real.pi * x)

/-- `rcos_time(t, beta, T)`, core/special_fcts.py:128-131, one time. -/
noncomputable def rcosTime (beta T t : ℝ) : Option ℝ := fdiv (npSinc (t / T) * Real.cos (t / T * Real.pi * beta)) (1 - 4 * (beta * t / T) ^ 2)

/-- The value of `rrcos_time` at one time before the replacements, core/special_fcts.py:197. -/
noncomputable def rrcosRaw (beta T t : ℝ) : Option ℝ :=
  (fdiv (Real.sin (Real.pi * t / T * (1 - beta)) + 4 * beta * t / T * Real.cos (Real.pi * t / T * (1 + beta))) (Real.pi * t / T * (1 - (4 * beta * t / T) ^ 2))).map fun v => 1 / T * v

/-- The value of `rrcos_time` at one time, core/special_fcts.py:197-202: replaced around the two exceptional times, the second replacement comes last. -/
noncomputable def rrcosPoint (beta T eps t : ℝ) : Option ℝ :=
  if |(|t| - |T / (4 * beta)|)| < eps then
    some (beta / (T * Real.sqrt 2) * ((1 + 2 / Real.pi) * Real.sin (Real.pi / (4 * beta)) + (1 - 2 / Real.pi) * Real.cos (Real.pi / (4 * beta))))
  else if |t| < eps then some (1 / T * (1 + beta * (4 / Real.pi - 1)))
  else rrcosRaw beta T t

/-- `rrcos_time(t, beta, T)`, core/special_fcts.py:172-203. Fewer than two times raise IndexError, `beta = 0` ZeroDivisionError (Python floats). -/
noncomputable def rrcosTime (beta T : ℝ) : List ℝ → Except PyErr (List (Option ℝ))
  | t0 :: t1 :: l => if beta = 0 then .error .zeroDiv else .ok ((t0 :: t1 :: l).map (rrcosPoint beta T (|t0 - t1| / 4)))
  | _ => .error .index

/-- The times of the filter taps, core/filter.py:201-203: `(k - (taps-1)//2)/fs`. -/
noncomputable def tapTimes (taps : Nat) (fs : ℝ) : List ℝ := (List.range taps).map fun k : ℕ => ((k : ℝ) - ((taps - 1) / 2 : ℕ)) / fs

/-- The filter of `rrcos_pulseshaping`, core/filter.py:201-205. A nan in the impulse response makes the maximum and all taps nan (`none`). -/
noncomputable def rrcosTaps (taps : Nat) (fs T beta : ℝ) : Except PyErr (Option (List ℝ)) := do
  let h ← rrcosTime beta T (tapTimes taps fs)
  return do
    let h ← h.mapM id
    let m ← h.max?
    return h.map (· / m)

/-- `scipy.signal.fftconvolve(x, h, 'same')`: the samples `(len(h)-1)//2 ...` of the full convolution, as many as `x` has. -/
noncomputable def convSame (x : List ℂ) (h : List ℝ) : List ℂ :=
  (List.range x.length).map fun i => ((List.range h.length).map fun j => if j ≤ i + (h.length - 1) / 2 then (h.getD j 0 : ℂ) * x.getD (i + (h.length - 1) / 2 - j) 0 else 0).sum

/-- `rrcos_pulseshaping(sig, fs, T, beta, taps)`, core/filter.py:177-213, one mode. -/
noncomputable def rrcosPulseTime (fs T beta : ℝ) (taps : Nat) (sig : List ℂ) : Except PyErr (Option (List ℂ)) := do
  let h ← rrcosTaps taps fs T beta
  return h.map (convSame sig)

end Qampy
