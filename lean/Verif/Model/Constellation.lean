import Verif.Model.Np
import Mathlib.Analysis.SpecialFunctions.Trigonometric.Basic

/-!
Model of the constellations and of the bit mapping: qampy/theory.py:112-193, qampy/core/utils.py:195-200,
qampy/core/signal_quality.py:298-305, qampy/signals.py:678-731, 832-845, 934-947,
qampy/core/equalisation/pythran_equalisation.py:233-236, 304-334.

`M = 2^k` is given by its number of bits `k` (all entry points compute `log2(M)` first). Unscaled constellation points
are pairs of integers `(re, im)`.
-/

namespace Qampy

/-- `np.mgrid[-(n-1):n-1:n*1j]` for one axis: `n` values from `-(n-1)` to `n-1` in steps of two. -/
def axisPts (n : Nat) : List Int := (List.range n).map fun i : Nat => 2 * (i : Int) - ((n : Int) - 1)

/-- `cal_symbols_square_qam(M)` for `M = 4^N`, theory.py:151-158 (row-major `flatten`, first axis real). -/
def squareQam (N : Nat) : List (Int × Int) :=
  (axisPts (2 ^ N)).flatMap fun a => (axisPts (2 ^ N)).map fun b => (a, b)

/-- The displacement of one point of the rectangle, theory.py:170-177. With `t = 2s = 2^N` the conditions
`|re| > 3s`, `|im| > s` are written without fractions. -/
def crossMap (N : Nat) (p : Int × Int) : Int × Int :=
  let t : Int := 2 ^ N
  let a := p.1
  let b := p.2
  if 3 * t < 2 * |a| ∧ t < 2 * |b| then
    (Int.sign a * (|a| - t), Int.sign b * (2 * t - |b|))
  else if 3 * t < 2 * |a| ∧ 2 * |b| ≤ t then
    (Int.sign a * (2 * t - |a|), Int.sign b * (|b| + t))
  else (a, b)

/-- `cal_symbols_cross_qam(M)` for `M = 2^(2N+1)`, theory.py:161-178. -/
def crossQam (N : Nat) : List (Int × Int) :=
  ((axisPts (2 ^ (N + 1))).flatMap fun a => (axisPts (2 ^ N)).map fun b => (a, b)).map (crossMap N)

/-- `cal_symbols_qam(M)` for `M = 2^k`, theory.py:112-119. -/
def symbolsQam (k : Nat) : List (Int × Int) :=
  if k % 2 = 1 then crossQam (k / 2) else squareQam (k / 2)

/-- Squared modulus of an integer point. -/
def sqNorm (p : Int × Int) : Int := p.1 ^ 2 + p.2 ^ 2

/-- `cal_scaling_factor_qam(M)` for `M = 2^k`, theory.py:139-149, exact rational arithmetic. -/
def scalingFactor (k : Nat) : ℚ :=
  if k % 2 = 0 then 2 / 3 * ((2 : ℚ) ^ k - 1)
  else (((symbolsQam k).map sqNorm).sum : ℚ) / (symbolsQam k).length

/-- `bin2gray(value)`, utils.py:195-200. -/
def bin2gray (v : Nat) : Nat := v ^^^ (v >>> 1)

/-- `gray_code_qam(M)` for `M = 2^k`, theory.py:181-193: rows `0..2^(k-N)`, columns `0..2^N` with `N = k // 2`. -/
def grayCodeQam (k : Nat) : List Nat :=
  let N := k / 2
  (List.range (2 ^ (k - N))).flatMap fun i => (List.range (2 ^ N)).map fun j => (bin2gray i <<< N) ||| bin2gray j

/-- `theory.bin2gray(np.arange(M))`, signals.py:938. -/
def grayCodePsk (k : Nat) : List Nat := (List.range (2 ^ k)).map bin2gray

/-- `u = zeros; u[code] = arange(size)`, signals.py:839-840. (numpy: later assignments win.) -/
def scatter (code : List Nat) : List Nat :=
  (code.zipIdx).foldl (fun u (g, i) => u.set g i) (List.replicate code.length 0)

/-- `symbols[u]`, fancy indexing; `default` is never used for indices in range. -/
def gather {α : Type _} (symbols : List α) (u : List Nat) : List α := u.filterMap fun i => symbols[i]?

/-- `coded_symbols` of `_generate_mapping`, signals.py:835-841, for given scaled symbols and code. -/
def codedSymbols {α : Type _} (symbols : List α) (code : List Nat) : List α := gather symbols (scatter code)

/-- Row `i` of `encoding`, signals.py:842-844: the `k` bits of `i`, most significant first. -/
def encodingRow (k i : Nat) : List Bool :=
  ((List.range k).map fun t => decide (i &&& (1 <<< t) > 0)).reverse

/-- `encoding`, signals.py:842-844. -/
def encoding (k : Nat) : List (List Bool) := (List.range (2 ^ k)).map (encodingRow k)

/-- An integer point as a complex number divided by the scale, signals.py:835-837. -/
noncomputable def toComplex (scale : ℝ) (p : Int × Int) : ℂ := (⟨(p.1 : ℝ), (p.2 : ℝ)⟩ : ℂ) / (scale : ℂ)

/-- `coded_symbols` of a QAM signal, signals.py:832-845. -/
noncomputable def qamCodedSymbols (k : Nat) (scale : ℝ) : List ℂ :=
  codedSymbols ((symbolsQam k).map (toComplex scale)) (grayCodeQam k)

/-- `cal_symbols_psk(M)` for `M = 2^k`, theory.py:121-137. -/
noncomputable def symbolsPsk (k : Nat) : List ℂ :=
  (List.range (2 ^ k)).map fun (i : Nat) =>
    if k = 2 then Complex.exp (Complex.I * (((i : ℝ) * 2 * Real.pi / (2 ^ k : ℝ) + Real.pi / (2 ^ k : ℝ) : ℝ) : ℂ))
    else Complex.exp (Complex.I * ((2 * (i : ℝ) * Real.pi / (2 ^ k : ℝ) : ℝ) : ℂ))

/-- `coded_symbols` of a PSK signal, signals.py:934-947. -/
noncomputable def pskCodedSymbols (k : Nat) : List ℂ := codedSymbols (symbolsPsk k) (grayCodePsk k)

/-- `datab.dot(cov)` with `cov = 2**arange(k-1,-1,-1)` for one row, signals.py:727-730. -/
def bitsToIdx : List Bool → Nat
  | [] => 0
  | b :: l => b.toNat * 2 ^ l.length + bitsToIdx l

/-- The rows of `data[i, :N].reshape(-1, bitspsym)`: consecutive complete groups of `k`. -/
def chunks (k : Nat) : Nat → List Bool → List (List Bool)
  | 0, _ => []
  | n + 1, l => l.take k :: chunks k n (l.drop k)

/-- `_modulate` for one mode, signals.py:705-731. -/
def modulate {α : Type _} (k : Nat) (coded : List α) (data : List Bool) : List α :=
  gather coded ((chunks k (data.length / k) data).map bitsToIdx)

/-- `det_symbol_argmin(X, symbs)`, pythran_equalisation.py:233-236: symbol, distance, index. -/
noncomputable def detSymbolArgmin (X : ℂ) (symbs : List ℂ) : Option (ℂ × ℝ × Nat) :=
  let dist := symbs.map fun s => ‖X - s‖
  match Np.argmin dist with
  | none => none
  | some i => some (symbs.getD i 0, dist.getD i 0, i)

/-- `make_decision(E, symbols)`, pythran_equalisation.py:304-334 (an empty alphabet has no argmin). -/
noncomputable def makeDecision (E symbols : List ℂ) : Option (List (ℂ × ℝ × Nat)) :=
  E.mapM fun x => detSymbolArgmin x symbols

/-- `_demodulate(symbol_idx, encoding)` for one mode, signals.py:678-702. -/
def demodulateIdx (k : Nat) (idx : List Nat) : List Bool := (gather (encoding k) idx).flatten

/-- `demodulate(symbols)` for one mode of complex samples, signals.py:910-932. -/
noncomputable def demodulate (k : Nat) (coded : List ℂ) (symbols : List ℂ) : Option (List Bool) :=
  (makeDecision symbols coded).map fun d => demodulateIdx k (d.map (·.2.2))

/-- `generate_bitmapping_mtx(coded_symbs, coded_bits, M)` for one bit position, signal_quality.py:298-305: the
symbols whose label has a zero, and a one, at this position. -/
def bitmapColumn {α : Type _} (k : Nat) (coded : List α) (bit : Nat) : List α × List α :=
  let col := (encoding k).map fun row => row.getD bit false
  (Np.select coded (col.map not), Np.select coded col)

/-- The assignment `bit_map[bit,:,c] = ...` needs exactly `M/2` entries, otherwise numpy raises ValueError. -/
def bitmapMtx {α : Type _} (k : Nat) (coded : List α) : Except PyErr (List (List α × List α)) :=
  (List.range k).mapM fun bit =>
    let c := bitmapColumn k coded bit
    if c.1.length = 2 ^ k / 2 ∧ c.2.length = 2 ^ k / 2 then .ok c else .error .value

/-- `from_symbol_array`, signals.py:762-770, for given mapping: decided symbols of all modes and the bits. The loop
variable `idx` is overwritten in every iteration, so only the last mode is demodulated. -/
noncomputable def fromSymbolArray (k : Nat) (coded : List ℂ) (symbs : List (List ℂ)) :
    Except PyErr (List (List ℂ) × List Bool) :=
  match symbs.mapM fun row => makeDecision row coded with
  | none => .error .value
  | some decs =>
    match decs.getLast? with
    | none => .error .unbound
    | some d => .ok (decs.map fun d => d.map (·.1), demodulateIdx k (d.map (·.2.2)))

/-- `from_bit_array` for one mode, signals.py:806-830, for given mapping: the symbols and the stored `bits`. The
truncated array is modulated, the argument itself is stored. -/
def fromBitArray {α : Type _} (k : Nat) (coded : List α) (bits : List Bool) : List α × List Bool :=
  let arr := if bits.length % k > 0 then bits.take (bits.length / k * k) else bits
  (modulate k coded arr, bits)

end Qampy
