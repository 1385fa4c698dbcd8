import Verif.Model.Phase
import Verif.Tactics
import Mathlib.Data.Int.Log

/-!
Rounding of the running sums. The other models compute with real numbers; here every addition, subtraction and division of the source is followed by a rounding function `fl`, in the order of the source.
`flP p` is rounding to the nearest number with `p` significant bits, ties to even (`p = 24`: float32, `p = 53`: float64), without limits of the exponent.
-/

namespace Qampy

/-- Rounding to the nearest integer, ties to even. -/
noncomputable def rne (x : ℝ) : ℤ :=
  if x - ⌊x⌋ < 1 / 2 then ⌊x⌋ else if 1 / 2 < x - ⌊x⌋ then ⌊x⌋ + 1 else if ⌊x⌋ % 2 = 0 then ⌊x⌋ else ⌊x⌋ + 1

/-- The exponent of the last of the `p` significant bits of `x`. -/
noncomputable def lastBit (p : Nat) (x : ℝ) : ℤ := Int.log 2 |x| + 1 - p

/-- Rounding to `p` significant bits (IEEE 754 round-to-nearest-even without overflow and underflow). -/
noncomputable def flP (p : Nat) (x : ℝ) : ℝ := if x = 0 then 0 else (rne (x / 2 ^ lastBit p x) : ℝ) * 2 ^ lastBit p x

/-- One pass of the loop of `select_angle_index`, pythran_dsp.py:30-41, with rounded operations; compare `selStep`. -/
noncomputable def selStepFl (fl : ℝ → ℝ) (x : List (List ℝ)) (N : Nat) (st : List (List ℝ) × List Nat) (i : Nat) : Option (List (List ℝ) × List Nat) := do
  let prev ← st.1[i - 1]?
  let xi ← x[i]?
  let csum := st.1.set i (List.zipWith (fun a b => fl (a + b)) prev xi)
  if i < N then some (csum, st.2)
  else do
    let old ← csum[i - N]?
    let cur ← st.2[i - N / 2]?
    some (csum, st.2.set (i - N / 2) (scanBest (List.zipWith (fun a b => fl (a - b)) (List.zipWith (fun a b => fl (a + b)) prev xi) old) 0 cur 1000))

/-- `select_angle_index(x, N)`, pythran_dsp.py:26-42, with rounded operations. -/
noncomputable def selectAngleIndexFl (fl : ℝ → ℝ) (x : List (List ℝ)) (N : Nat) : Option (List Nat) :=
  ((List.range' 1 (x.length - 1)).foldlM (selStepFl fl x N) (x.map fun r => r.map fun _ => (0 : ℝ), List.replicate x.length 0)).map (·.2)

/-- `np.cumsum` with rounded additions, from the left; `c` is the sum so far. -/
noncomputable def cumsumFl (fl : ℝ → ℝ) : ℝ → List ℝ → List ℝ
  | _, [] => []
  | c, x :: l => fl (c + x) :: cumsumFl fl (fl (c + x)) l

/-- `moving_average(sig, N)`, core/filter.py:215-237, one row, with rounded operations; compare `movingAverage`. The inserted zero is the first running sum. -/
noncomputable def movingAverageFl (fl : ℝ → ℝ) (sig : List ℝ) (N : Nat) : Option (List ℝ) :=
  if N = 0 then none else
    let ret := 0 :: cumsumFl fl 0 sig
    some (List.zipWith (fun a b => fl (fl (a - b) / (N : ℝ))) (ret.drop N) (ret.take (ret.length - N)))

end Qampy
