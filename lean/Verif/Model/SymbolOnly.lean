import Verif.Model.Metrics
import Mathlib.Data.List.Sort

/-!
Signals made from given symbols: `SignalQAMGrayCoded.from_symbol_array` with its estimate of order and scale (qampy/signals.py:732-783) and `SymbolOnlySignal`
(qampy/signals.py:1004-1140).
-/

namespace Qampy

open Classical in
/-- `np.unique` of a complex array: without repetitions, sorted by real and then by imaginary part. -/
noncomputable def uniqueComplex (l : List ℂ) : List ℂ :=
  l.dedup.insertionSort fun a b => a.re < b.re ∨ (a.re = b.re ∧ a.im ≤ b.im)

/-- `(abs(np.unique(symbs))**2).mean()`, signals.py:758 and 761. (For an empty array numpy returns nan, here 0; the loop over the rows then does nothing.) -/
noncomputable def uniquePower (symbs : List (List ℂ)) : ℝ :=
  ((uniqueComplex symbs.flatten).map fun z => ‖z‖ ^ 2).sum / ((uniqueComplex symbs.flatten).length : ℝ)

/-- The scale handed to `_generate_mapping`, signals.py:761. -/
noncomputable def estimatedScale (k : Nat) (symbs : List (List ℂ)) : ℝ := Real.sqrt (scalingFactor k : ℝ) / Real.sqrt (uniquePower symbs)

/-- `from_symbol_array(symbs, M)` for `M = 2^k`, signals.py:756-770: all symbols and the bits. -/
noncomputable def fromSymbols (k : Nat) (symbs : List (List ℂ)) : Except PyErr (List (List ℂ) × List Bool) :=
  fromSymbolArray k (qamCodedSymbols k (estimatedScale k symbs)) symbs

/-- `from_symbol_array(symbs)`, signals.py:753-770: the order is the number of different symbols. Orders that are no power of two are outside of the model (`none`). -/
noncomputable def fromSymbolsGuess (symbs : List (List ℂ)) : Option (Except PyErr (List (List ℂ) × List Bool)) :=
  let M := (uniqueComplex symbs.flatten).length
  if M = 2 ^ Nat.log2 M then some (fromSymbols (Nat.log2 M) symbs) else none

/-- Element types of numpy arrays. -/
inductive NumType where
  | real
  | complex64
  | complex128
  deriving DecidableEq

/-- `make_decision(row, symbols)[0]` with the dispatch of the compiled function on its exported signatures, pythran_equalisation.py:304-307: both arrays complex128 or
both complex64, everything else is a TypeError. -/
noncomputable def decideTyped (ts ta : NumType) (alphabet row : List ℂ) : Except PyErr (List ℂ) :=
  if (ts = .complex128 ∧ ta = .complex128) ∨ (ts = .complex64 ∧ ta = .complex64) then
    (makeDecision row alphabet).elim (.error .index) fun d => .ok (d.map (·.1))
  else .error .typ

/-- The content of a `SymbolOnlySignal`: its samples with their type, alphabet with its type, order, stored symbols. -/
structure SymbolOnly where
  sigType : NumType
  codedType : NumType
  data : List (List ℂ)
  coded : List ℂ
  order : Nat
  symbols : List (List ℂ)

/-- `SymbolOnlySignal(M, N, symbols, nmodes, dtype)`, signals.py:1046-1058. The draws of `np.random.choice` are given by the indices into the alphabet; an empty alphabet
is a ValueError. Conversion between the complex types does not change the (exact) values. -/
noncomputable def symbolOnlyNew (M : Nat) (ta : NumType) (alphabet : List ℂ) (dtype : Option NumType) (draws : List (List Nat)) : Except PyErr SymbolOnly :=
  if alphabet = [] then .error .value
  else .ok ⟨ta, dtype.getD ta, draws.map (gather alphabet), alphabet, M, draws.map (gather alphabet)⟩

/-- The alphabet of `SymbolOnlySignal.from_symbol_array`, signals.py:1101-1102. -/
noncomputable def alphabetOf (ts : NumType) (symbs : List (List ℂ)) : Option (NumType × List ℂ) → NumType × List ℂ
  | none => (ts, uniqueComplex symbs.flatten)
  | some a => a

/-- `SymbolOnlySignal.from_symbol_array(symbs, coded_symbols)`, signals.py:1080-1113. -/
noncomputable def symbolOnlyFrom (ts : NumType) (symbs : List (List ℂ)) (given : Option (NumType × List ℂ)) : Except PyErr SymbolOnly :=
  let a := alphabetOf ts symbs given
  (symbs.mapM (decideTyped ts a.1 a.2)).map fun out => ⟨ts, a.1, out, a.2, a.2.length, out⟩

/-- `SymbolOnlySignal.make_decision(signal)`, signals.py:1060-1078. -/
noncomputable def SymbolOnly.decide (o : SymbolOnly) (ts : NumType) (sig : List (List ℂ)) : Except PyErr (List (List ℂ)) :=
  sig.mapM (decideTyped ts o.codedType o.coded)

/-- `cal_ser(signal_rx, synced)` of a `SymbolOnlySignal`, signals.py:326-335 with 1060-1078: the rate per mode. -/
noncomputable def SymbolOnly.calSer (o : SymbolOnly) (ts : NumType) (synced : Bool) (rx : List (List ℂ)) : Except PyErr (List ℚ) :=
  (alignRows synced o.symbols rx).bind fun p => (o.decide ts p.2).map fun d =>
    (List.zip d p.1).map fun q => (((List.zip q.1 q.2).filter fun s => s.1 - s.2 ≠ 0).length : ℚ) / ((d.headD []).length : ℚ)

/-- `cal_mi(signal_rx, synced, snr)` of a `SymbolOnlySignal` up to the noise power of each mode, signals.py:530-544: `est_snr` of the class (1139) does not take the
keyword `synced`. Given one SNR in dB for all modes. -/
noncomputable def SymbolOnly.miNoise (o : SymbolOnly) (synced : Bool) (rx : List (List ℂ)) : Option ℝ → Except PyErr (List ℝ)
  | none => (alignRows synced o.symbols rx).bind fun _ => .error .typ
  | some snr => (alignRows synced o.symbols rx).map fun _ => List.replicate rx.length ((10 : ℝ) ^ (-snr / 10))

end Qampy
