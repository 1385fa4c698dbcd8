import Verif.Model.Prbs
import Verif.Model.Constellation

/-!
Model of `QPSKfromBERT`, qampy/signals.py:951-1002.
-/

namespace Qampy

/-- `bits[:, ::2] = bitsI; bits[:, 1::2] = bitsQ` for one mode, signals.py:988-990. -/
def interleave (I Q : List Bool) : List Bool := (List.zip I Q).flatMap fun p => [p.1, p.2]

/-- One of the two bit arrays, signals.py:980-987: PRBS bits of all modes without seeds, delayed and possibly inverted. -/
def bertBits (draw : Nat → Nat × Nat) (N nmodes : Nat) (order : List Nat) (shift : Int) (invert : Bool) : Except PyErr (List (List Bool)) := do
  let (_, _, bits) ← prbsBits draw N nmodes [.none, .none] order
  let bits := bits.map fun r => Np.roll r shift
  return if invert then bits.map (List.map not) else bits

/-- `QPSKfromBERT(N, nmodes, fb, prbsorders, prbsshifts, prbsinvert)`, signals.py:974-1002: the samples of all modes. `drawI`, `drawQ` are the random orders and seeds of `PRBSBits`, used when orders are missing. -/
noncomputable def qpskFromBert (drawI drawQ : Nat → Nat × Nat) (N nmodes : Nat) (orders : List Nat × List Nat) (shifts : Int × Int) (inverts : Bool × Bool) : Except PyErr (List (List ℂ)) := do
  let bitsI ← bertBits drawI N nmodes orders.1 shifts.1 inverts.1
  let bitsQ ← bertBits drawQ N nmodes orders.2 shifts.2 inverts.2
  return List.zipWith (fun a b => modulate 2 (qamCodedSymbols 2 (Real.sqrt (scalingFactor 2 : ℝ))) (interleave a b)) bitsI bitsQ

end Qampy
