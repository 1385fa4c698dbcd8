import Verif.Model.Fourier
import Verif.Model.Phase

/-!
Model of linear impairments and filters: core/impairments.py, core/filter.py (frequency domain filters) and `CDcomp` of
core/equalisation/equalisation.py. Fields are lists of rows of equal length; exact complex numbers (`astype` back to the complex type of the
field is the identity).
-/

namespace Qampy

open Complex

/-- The product with the rotation matrix for two rows, core/impairments.py:81-82. -/
noncomputable def rotateRows (theta : ℝ) (x y : List ℂ) : List ℂ × List ℂ :=
  (List.zipWith (fun a b => (Real.cos theta : ℂ) * a + (-Real.sin theta : ℂ) * b) x y,
   List.zipWith (fun a b => (Real.sin theta : ℂ) * a + (Real.cos theta : ℂ) * b) x y)

/-- `rotate_field(field, theta)`, core/impairments.py:63-82: `np.dot` of a 2x2 matrix raises ValueError unless there are two rows. -/
noncomputable def rotateField (field : List (List ℂ)) (theta : ℝ) : Except PyErr (List (List ℂ)) :=
  match field with
  | [x, y] => .ok [(rotateRows theta x y).1, (rotateRows theta x y).2]
  | _ => .error .value

/-- Centred spectrum of a row, core/impairments.py:95 (and 700 without the outer shift). -/
noncomputable def spectrum (x : List ℂ) : List ℂ := fftshift (fft (ifftshift x))

/-- Row of a centred spectrum, core/impairments.py:100. -/
noncomputable def unspectrum (x : List ℂ) : List ℂ := fftshift (ifft (ifftshift x))

/-- `apply_PMD_to_field(field, theta, t_dgd, fs)`, core/impairments.py:106-131 with `_applyPMD_dot` 94-104. The transform of empty rows raises
ValueError. -/
noncomputable def applyPMD (field : List (List ℂ)) (theta tdgd fs : ℝ) : Except PyErr (List (List ℂ)) := do
  if field.any (·.isEmpty) then throw .value
  let omega := (linspaceOpen (-fs / 2) (fs / 2) (field.headD []).length).map (2 * Real.pi * ·)
  let sff ← rotateField (field.map spectrum) theta
  let sn := List.zipWith rowMul sff
    [omega.map fun w => exp (-(I * ((w * tdgd / 2 : ℝ) : ℂ))), omega.map fun w => exp (I * ((w * tdgd / 2 : ℝ) : ℂ))]
  let sf2 ← rotateField sn (-theta)
  return sf2.map unspectrum

/-- `add_modal_delay(sig, delay)`, core/impairments.py:259-281. -/
def addModalDelay {α : Type} (sig : List (List α)) (delay : List Int) : Except PyErr (List (List α)) :=
  if delay.length = sig.length then .ok (List.zipWith Np.roll sig delay) else .error .assertion

/-- Speed of light in core/impairments.py:695 and equalisation.py:630. -/
noncomputable def cLight : ℝ := 299792458

/-- The transfer function of the dispersion for the angular frequencies `omega`, core/impairments.py:698-699, equalisation.py:643-645. -/
noncomputable def dispH (omega : List ℝ) (D L wl : ℝ) : List ℂ :=
  omega.map fun w => exp (-(I * ((0.5 * w ^ 2 * (D * wl ^ 2 / (cLight * Real.pi * 2)) * L : ℝ) : ℂ)))

/-- What `add_dispersion` does to one row. -/
noncomputable def disperseRow (fs D L wl : ℝ) (x : List ℂ) : List ℂ :=
  let omega := (List.range x.length).map fun (m : Nat) => fftfreq x.length fs m * Real.pi * 2
  fftshift (ifft (rowMul (fft (ifftshift x)) (dispH omega D L wl)))

/-- `add_dispersion(sig, fs, D, L, wl0)`, core/impairments.py:673-702, for a signal of several modes: the last `fftshift` (701) has no `axes`, so
it shifts the modes as well. -/
noncomputable def addDispersion (sig : List (List ℂ)) (fs D L wl : ℝ) : List (List ℂ) :=
  fftshift (sig.map (disperseRow fs D L wl))

/-- One block of `CDcomp`, equalisation.py:660-664: zero padded block of length `N` filtered with `H`. -/
noncomputable def cdBlock (H : List ℂ) (zp : Nat) (e : List ℂ) : List ℂ :=
  ifft (rowMul (fft (List.replicate zp 0 ++ e ++ List.replicate zp 0)) H)

/-- `acc[s:s+len(b)] += b`. -/
noncomputable def addAt (acc : List ℂ) (s : Nat) (b : List ℂ) : List ℂ :=
  acc.mapIdx fun (i : Nat) a => if s ≤ i then a + b.getD (i - s) 0 else a

/-- `CDcomp(E, fs, N, L, D, wl)`, core/equalisation/equalisation.py:596-669, the signal of the result. In block mode the assignment
`sigB[zp:-zp] = E[i*n:i*n+n]` (661) raises ValueError for a block size that is no multiple of four (`4 ≤ N`); for `N = 2, 3` the slice is empty
and the result is empty; `N = 1` divides by zero. -/
noncomputable def cdComp (E : List ℂ) (fs : ℝ) (N0 : Nat) (L D wl : ℝ) : Except PyErr (List ℂ) :=
  let samp := E.length
  let N := if N0 = 0 then samp else N0
  let omega := (linspace (-1) 1 N).map (Real.pi * fs * ·)
  let H := dispH omega D L wl
  if N = samp then
    if samp = 0 then .error .value
    else .ok (ifft (ifftshift (rowMul (fftshift (fft E)) H)))
  else
    let n := N / 2
    let zp := N / 4
    if n = 0 then .error .zeroDiv
    else if zp = 0 then .ok []
    else
      let B := samp / n
      if 0 < B ∧ N % 4 ≠ 0 then .error .value
      else
        let sigEQ := (List.range B).foldl (fun acc i => addAt acc (i * n) (cdBlock H zp ((E.drop (i * n)).take n)))
          (List.replicate (n * (B + 1)) 0)
        .ok (Np.slice sigEQ zp (-(zp : Int)))

/-- Amplitude response of the exponential filter, core/filter.py:121-122: `exp(-sqrt(f**2/(2*w**2)))` with `w = cutoff/sqrt(2*log(2)**2)`. -/
noncomputable def expResponse (cutoff f : ℝ) : ℝ :=
  Real.exp (-Real.sqrt (f ^ 2 / (2 * (cutoff / Real.sqrt (2 * Real.log 2 ^ 2)) ^ 2)))

/-- Amplitude response of the Gaussian filter, core/filter.py:112-113. -/
noncomputable def gaussResponse (cutoff f : ℝ) : ℝ := Real.exp (-f ^ 2 / (2 * (cutoff / (2 * Real.sqrt (2 * Real.log 2))) ^ 2))

/-- The Gaussian transfer function of `filter_signal` on its frequency axis, core/filter.py:111-113. -/
noncomputable def gaussH (n : Nat) (fs cutoff : ℝ) : List ℂ :=
  (linspaceOpen (-fs / 2) (fs / 2) n).map fun f => ((gaussResponse cutoff f : ℝ) : ℂ)

/-- One row of the Gaussian filter: all shifts of core/filter.py:114-118 along the row. -/
noncomputable def gaussRow (fs cutoff : ℝ) (x : List ℂ) : List ℂ :=
  fftshift (ifft (fftshift (rowMul (fftshift (fft (fftshift x))) (gaussH x.length fs cutoff))))

/-- `filter_signal(signal, fs, cutoff, ftype="gauss")`, core/filter.py:109-118, for a signal of several modes. The two shifts of line 118
have no `axes` and shift the modes too. -/
noncomputable def filterGauss (sig : List (List ℂ)) (fs cutoff : ℝ) : List (List ℂ) :=
  fftshift (fftshift (sig.map (gaussRow fs cutoff)))

/-- `pre_filter(signal, bw)`, core/filter.py:28-49, one row. `int` truncates towards zero. -/
noncomputable def preFilterRow (bw : ℝ) (x : List ℂ) : List ℂ :=
  let N := x.length
  let a : Int := ⌊(N : ℝ) / (bw / 2)⌋
  let lo := Np.clamp N a
  let hi := Np.clamp N (-a)
  let h : List ℂ := (List.range N).map fun (i : Nat) => if lo ≤ i ∧ i < hi then 1 else 0
  ifft (ifftshift (rowMul (fftshift (fft x)) h))

end Qampy
