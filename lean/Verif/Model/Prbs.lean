import Verif.Model.Np

/-!
Model of the pseudo random bit sequence generators: qampy/core/prbs.py, qampy/core/pythran_dsp.py:155-178 and the
generators of qampy/core/utils.py. Registers are natural numbers; the compiled functions use 64 bit integers,
which never overflow for the supported orders (at most 31 bits) and seeds of that many bits.
-/

namespace Qampy

/-- The inner loop over the taps, pythran_dsp.py:160-163 (and utils.py:106-109). -/
def feedback (taps : List Nat) (nbits sr : Nat) : Nat :=
  taps.foldl (fun xor t => if sr &&& (1 <<< (nbits - t)) ≠ 0 then xor ^^^ 1 else xor) 0

/-- `prbs_ext(seed, taps, nbits, N)`, pythran_dsp.py:155-166. -/
def prbsExt (taps : List Nat) (nbits : Nat) : (N : Nat) → (sr : Nat) → List Nat
  | 0, _ => []
  | N + 1, sr =>
    let xor := feedback taps nbits sr
    xor :: prbsExt taps nbits N ((xor <<< (nbits - 1)) + (sr >>> 1))

/-- `lfsr_ext(seed, taps, nbits)`, utils.py:85-113: the `i`-th yielded pair `(xor, state)` of the
infinite generator. -/
def lfsrExt (seed : Nat) (taps : List Nat) (nbits : Nat) : Nat → Nat × Nat
  | 0 => let xor := feedback taps nbits seed
         (xor, (xor <<< (nbits - 1)) + (seed >>> 1))
  | i + 1 => let sr := (lfsrExt seed taps nbits i).2
             let xor := feedback taps nbits sr
             (xor, (xor <<< (nbits - 1)) + (sr >>> 1))

/-- One step of the Galois register, utils.py:78-83; `bit_length() - 1` of a positive mask is `log2`. -/
def lfsrIntStep (mask state : Nat) : Nat × Nat :=
  let nbits := Nat.log2 mask
  let state := state <<< 1
  let xor := state >>> nbits
  let state := if xor ≠ 0 then state ^^^ mask else state
  (xor, state)

/-- `lfsr_int(seed, mask)`, utils.py:56-83: the `i`-th yielded pair `(xor, state)`. -/
def lfsrInt (seed mask : Nat) : Nat → Nat × Nat
  | 0 => lfsrIntStep mask seed
  | i + 1 => lfsrIntStep mask (lfsrInt seed mask i).2

/-- `bool2bin(x)`, utils.py:115-125: first element is the least significant bit; at most 63 elements. -/
def bool2binGo : List Bool → Nat → Nat → Nat
  | [], _, y => y
  | b :: l, i, y => bool2binGo l (i + 1) (y + (b.toNat <<< i))

def bool2bin (x : List Bool) : Except PyErr Nat :=
  if x.length < 64 then .ok (bool2binGo x 0 0) else .error .assertion

/-- The `seed` argument of `make_prbs_extXOR`: nothing, an integer (for which `len` raises TypeError,
which is caught) or an array. Negative integers are not modelled. -/
inductive Seed where
  | none | int (k : Nat) | bits (x : List Bool)

/-- `tapdict`, prbs.py:49. -/
def tapdict : Nat → Option (List Nat)
  | 7 => some [7, 6]
  | 15 => some [15, 14]
  | 23 => some [23, 18]
  | 31 => some [31, 28]
  | _ => none

/-- `make_prbs_extXOR(order, nbits, seed)`, prbs.py:27-58. The assertion restricts the order to the keys
of `tapdict`. -/
def makePrbsExtXOR (order nbits : Nat) (seed : Seed) : Except PyErr (List Bool) :=
  match tapdict order with
  | none => .error .assertion
  | some taps => do
    let s ← match seed with
      | .none => bool2bin (List.replicate order true)
      | .int k => .ok k
      | .bits x => bool2bin x
    return (prbsExt taps order nbits s).map (· != 0)

/-- The masks of `make_prbs_intXOR`, prbs.py:81-86. -/
def masks : Nat → Option Nat
  | 7 => some (2 ^ 7 + 2 ^ 6 + 1)
  | 15 => some (2 ^ 15 + 2 ^ 14 + 1)
  | 23 => some (2 ^ 23 + 2 ^ 18 + 1)
  | 31 => some (2 ^ 31 + 2 ^ 28 + 1)
  | _ => none

end Qampy

namespace Qampy

/-- Body of the loop of `PRBSBits.__new__`, qampy/signals.py:121-128, at iteration `i`. `order` and `seed` are the lists
read in this iteration, `(orderN, seedN)` the lists being built. `draw i` is the random pair of iteration `i`
(`np.random.choice([15, 23])`, `np.random.randint(0, 2**o)`). If `order[i]` exists but `seed[i]` does not, the order has
already been appended when the exception is caught. -/
def prbsBitsBody (draw : Nat → Nat × Nat) (order : List Nat) (seed : List Seed) (i : Nat)
    (st : List Nat × List Seed) : List Nat × List Seed :=
  match order[i]? with
  | none => (st.1 ++ [(draw i).1], st.2 ++ [.int (draw i).2])
  | some o =>
    match seed[i]? with
    | none => (st.1 ++ [o] ++ [(draw i).1], st.2 ++ [.int (draw i).2])
    | some s => (st.1 ++ [o], st.2 ++ [s])

/-- The loop of signals.py:117-130. The assignments `order = order_n` and `seed = seed_n` stand inside the loop
body, so from the second iteration on the lists read are the lists being built. -/
def prbsBitsLoop (draw : Nat → Nat × Nat) (order : List Nat) (seed : List Seed) : Nat → List Nat × List Seed
  | 0 => (order, seed)
  | n + 1 =>
    let (o, s) := prbsBitsLoop draw order seed n
    let st := if n = 0 then ([], []) else (o, s)
    prbsBitsBody draw o s n st

/-- The rows `i, i+1, ..., i+k-1` of signals.py:131-133. -/
def prbsBitsRows (N : Nat) (order : List Nat) (seed : List Seed) : (k i : Nat) → Except PyErr (List (List Bool))
  | 0, _ => .ok []
  | k + 1, i => do
    match order[i]?, seed[i]? with
    | some o, some s =>
      let row ← makePrbsExtXOR o N s
      let rows ← prbsBitsRows N order seed k (i + 1)
      return row :: rows
    | _, _ => .error .index

/-- `PRBSBits(N, nmodes, seed, order)`, signals.py:114-137: the orders, the seeds and the bits. -/
def prbsBits (draw : Nat → Nat × Nat) (N nmodes : Nat) (seed : List Seed) (order : List Nat) :
    Except PyErr (List Nat × List Seed × List (List Bool)) := do
  let (o, s) := if order.length < nmodes then prbsBitsLoop draw order seed nmodes else (order, seed)
  let rows ← prbsBitsRows N o s nmodes 0
  return (o, s, rows)

end Qampy
