import Verif.Model.Phase
import Verif.Model.Quality
import Verif.Model.TrainAlt
import Verif.Model.Prbs

/-!
Model of qampy/core/dsp_cython.pyx, the Cython versions of the compiled functions of qampy/core/pythran_dsp.py, and of the Galois generator of
qampy/core/prbs.py. setup.py builds the Pythran modules only. The `prange` loops write disjoint elements.
-/

namespace Qampy

/-- The loop of `unwrap_discont(seq, max_diff, period)`, dsp_cython.pyx:42-54: `prev` is `new_array[i-1]`. -/
noncomputable def unwrapDiscontGo (maxDiff period : ℝ) : ℝ → Int → List ℝ → List ℝ
  | _, _, [] => []
  | prev, n, x :: l =>
    let diff := x - prev
    if period < diff then (x + period * ((n - 1 : Int) : ℝ)) :: unwrapDiscontGo maxDiff period (x + period * ((n - 1 : Int) : ℝ)) (n - 1) l
    else if maxDiff < diff then prev :: unwrapDiscontGo maxDiff period prev n l
    else if diff < -period then (x + period * ((n + 1 : Int) : ℝ)) :: unwrapDiscontGo maxDiff period (x + period * ((n + 1 : Int) : ℝ)) (n + 1) l
    else if diff < -maxDiff then prev :: unwrapDiscontGo maxDiff period prev n l
    else (x + period * (n : ℝ)) :: unwrapDiscontGo maxDiff period (x + period * (n : ℝ)) n l

/-- `unwrap_discont(seq, max_diff, period)`, dsp_cython.pyx:36-55; `none` is the access to the first element of an empty array. -/
noncomputable def unwrapDiscont (maxDiff period : ℝ) : List ℝ → Option (List ℝ)
  | [] => none
  | x :: l => some (x :: unwrapDiscontGo maxDiff period x 0 l)

/-- `bps(E, testangles, symbols, N)`, dsp_cython.pyx:57-89: the distances use `det_symbol` of cython_equalisation.pyx. `select_angle_index` (91-112) has the
loops of the Pythran version. `none` is an access outside of an array. -/
noncomputable def cyBps (E : List ℂ) (angles : List (List ℝ)) (symbols : List ℂ) (N : Nat) : Option (List Nat) := do
  let dists ← (List.range E.length).mapM fun i => do
    let e ← E[i]?
    let row ← angles[if 1 < angles.length then i else 0]?
    some (row.map fun φ : ℝ =>
      let dtmp := (cyDetSymbol symbols (e * Complex.exp (Complex.I * (φ : ℂ)))).2
      if dtmp < 100 then dtmp else 100)
  selectAngleIndex dists (2 * N)

/-- The innermost loop of `soft_l_value_demapper`, dsp_cython.pyx:140-143: `(tmp, tmp2)` for the rows `(bits_map[bit,l,0], bits_map[bit,l,1])`. -/
noncomputable def cyExpSums (snr : ℝ) (rx : ℂ) (rows : List (ℂ × ℂ)) : ℝ × ℝ :=
  rows.foldl (fun t b => (t.1 + Real.exp (-snr * cabsq (b.2 - rx)), t.2 + Real.exp (-snr * cabsq (b.1 - rx)))) (0, 0)

/-- The two outer loops of the demappers, dsp_cython.pyx:137-144 and 157-169: a flat array, element `symb*num_bits + bit`. -/
def cyDemapLoop (N numBits : Nat) (val : Nat → Nat → ℝ) : List ℝ :=
  (List.range numBits).foldl (fun L bit => (List.range N).foldl (fun L symb => L.set (symb * numBits + bit) (val symb bit)) L) (List.replicate (N * numBits) 0)

/-- `soft_l_value_demapper(rx_symbs, M, snr, bits_map)`, dsp_cython.pyx:129-145, for `M = 2^num_bits`. -/
noncomputable def cySoftLValueDemapper (rx : List ℂ) (numBits : Nat) (snr : ℝ) (bitsMap : List (List ℂ × List ℂ)) : List ℝ :=
  cyDemapLoop rx.length numBits fun symb bit =>
    let b := bitsMap.getD bit ([], [])
    let t := cyExpSums snr (rx.getD symb 0) (b.1.zip b.2)
    Real.log t.1 - Real.log t.2

/-- The innermost loop of `soft_l_value_demapper_minmax`, dsp_cython.pyx:162-168. -/
noncomputable def cyMinmax (rx : ℂ) (rows : List (ℂ × ℂ)) : ℝ × ℝ :=
  rows.foldl (fun t b => (if cabsq (b.2 - rx) < t.1 then cabsq (b.2 - rx) else t.1, if cabsq (b.1 - rx) < t.2 then cabsq (b.1 - rx) else t.2)) (10000, 10000)

/-- `soft_l_value_demapper_minmax(rx_symbs, M, snr, bits_map)`, dsp_cython.pyx:147-170, for `M = 2^num_bits`. -/
noncomputable def cySoftLValueDemapperMinmax (rx : List ℂ) (numBits : Nat) (snr : ℝ) (bitsMap : List (List ℂ × List ℂ)) : List ℝ :=
  cyDemapLoop rx.length numBits fun symb bit =>
    let b := bitsMap.getD bit ([], [])
    let t := cyMinmax (rx.getD symb 0) (b.1.zip b.2)
    snr * (t.2 - t.1)

/-- `cal_gmi_mc(symbols, snr, ns, bit_map)`, dsp_cython.pyx:238-253; `z` are the noise samples drawn there. Without samples nothing is added. -/
noncomputable def cyCalGmiMc (symbols : List ℂ) (snr : ℝ) (z : List ℂ) (nbits : Nat) (bitMap : List (List ℂ × List ℂ)) : ℝ :=
  let gmi := (bitMap.map fun c => ([c.1, c.2].map fun col => (col.map fun sym => (z.map fun zl =>
    Real.logb 2 (calExpSum sym symbols zl snr / calExpSum sym col zl snr) / z.length).sum).sum).sum).sum
  nbits - gmi / symbols.length

/-- `prbs_int(seed, mask, N)`, dsp_cython.pyx:208-219; the output array has eight bit integers. The register is a natural number, no overflow. -/
def cyPrbsInt (mask : Nat) : (N : Nat) → (state : Nat) → List Nat
  | 0, _ => []
  | N + 1, state =>
    let nbits := Nat.log2 mask
    let state := state <<< 1
    let xor := state >>> nbits
    (xor % 256) :: cyPrbsInt mask N (if xor ≠ 0 then state ^^^ mask else state)

/-- `prbs_int(seed, mask, nbits, N)`, pythran_dsp.py:169-178: the loop. -/
def pytPrbsIntLoop (mask nbits : Nat) : (N : Nat) → (state : Nat) → List Nat
  | 0, _ => []
  | N + 1, state =>
    let state := state <<< 1
    let xor := state >>> nbits
    (xor % 256) :: pytPrbsIntLoop mask nbits N (if xor ≠ 0 then state ^^^ mask else state)

/-- The exported function `prbs_int` of the compiled module: it takes four integers (pythran_dsp.py:168-169), any other call raises TypeError. -/
def pytPrbsInt : List Nat → Except PyErr (List Nat)
  | [seed, mask, nbits, N] => .ok (pytPrbsIntLoop mask nbits N seed)
  | _ => .error .typ

/-- `make_prbs_intXOR(order, nbits, seed)`, prbs.py:61-95, calling a given `prbs_int` with three arguments (line 94). -/
def makePrbsIntXORWith (prbsInt : List Nat → Except PyErr (List Nat)) (order nbits : Nat) (seed : Seed) : Except PyErr (List Bool) :=
  match masks order with
  | none => .error .assertion
  | some mask => do
    let s ← match seed with
      | .none => bool2bin (List.replicate order true)
      | .int k => .ok k
      | .bits x => bool2bin x
    let out ← prbsInt [s, mask, nbits]
    return out.map (· != 0)

/-- `make_prbs_intXOR`, prbs.py:61-95, with the `prbs_int` that prbs.py imports (line 25). -/
def makePrbsIntXOR : (order nbits : Nat) → (seed : Seed) → Except PyErr (List Bool) := makePrbsIntXORWith pytPrbsInt

/-- `make_prbs_intXOR` with `prbs_int` of dsp_cython.pyx, which takes three arguments. -/
def makePrbsIntXORCython : (order nbits : Nat) → (seed : Seed) → Except PyErr (List Bool) :=
  makePrbsIntXORWith fun
    | [seed, mask, N] => .ok (cyPrbsInt mask N seed)
    | _ => .error .typ

end Qampy
