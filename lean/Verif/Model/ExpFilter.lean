import Verif.Model.Impairments

/-!
The exponential filter of `filter_signal`, core/filter.py:119-128.
-/

namespace Qampy

/-- The transfer function on the frequency axis, core/filter.py:120-123: normalised by its maximum. (The axis has the complex type of the signal; all values are real.) -/
noncomputable def expH (n : Nat) (fs cutoff : ℝ) : List ℂ :=
  let g := (linspaceOpen (-fs / 2) (fs / 2) n).map (expResponse cutoff)
  let m := g.foldl max 0
  g.map fun v => ((v / m : ℝ) : ℂ)

/-- `scifft.fftshift` of a two dimensional array without `axes`: modes and samples are shifted. -/
def fftshift2 (s : List (List ℂ)) : List (List ℂ) := fftshift (s.map fftshift)

/-- `filter_signal(signal, fs, cutoff, ftype="exp")`, core/filter.py:119-128, for a signal of several modes. -/
noncomputable def filterExp (sig : List (List ℂ)) (fs cutoff : ℝ) : List (List ℂ) :=
  let g := expH (sig.headD []).length fs cutoff
  let fsignal := (fftshift2 ((fftshift2 sig).map fft)).map fun r => rowMul r g
  fftshift2 ((fftshift2 fsignal).map ifft)

end Qampy
