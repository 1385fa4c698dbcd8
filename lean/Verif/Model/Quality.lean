import Verif.Model.Constellation
import Mathlib.Analysis.SpecialFunctions.Log.Base

/-!
Model of soft demapping and signal quality measures: qampy/core/pythran_dsp.py:7-13, 87-131, 180-197, 242-313,
qampy/signals.py:295-421, 423-507.

All functions are modelled for one mode and after synchronisation (the synchronisation itself is in
`Model/Sync.lean` and `Model/Correlate.lean`).  The column pair `bits_map[bit,:,:]` is the pair of its two columns, as
produced by `bitmapColumn`.
-/

namespace Qampy

/-- `cal_exp_sum(sym, syms, z, sigma)`, pythran_dsp.py:7-13. -/
noncomputable def calExpSum (sym : ℂ) (syms : List ℂ) (z : ℂ) (sigma : ℝ) : ℝ :=
  (syms.map fun s => Real.exp (-sigma * (2 * (z * (sym - s)).re + ‖sym - s‖ ^ 2))).sum

/-- `cal_l_values(btx, rx, snr)`, pythran_dsp.py:87-89. -/
noncomputable def calLValues (btx : List ℂ × List ℂ) (rx : ℂ) (snr : ℝ) : ℝ :=
  Real.log (btx.2.map fun s => Real.exp (-snr * ‖s - rx‖ ^ 2)).sum
    - Real.log (btx.1.map fun s => Real.exp (-snr * ‖s - rx‖ ^ 2)).sum

/-- The loop of `find_minmax`, pythran_dsp.py:110-116, on the rows `(btx[l,0], btx[l,1])`; state `(tmp, tmp2)`. -/
noncomputable def findMinmaxLoop (rx : ℂ) : List (ℂ × ℂ) → ℝ × ℝ → ℝ × ℝ
  | [], st => st
  | (s0, s1) :: l, (tmp, tmp2) =>
    let tmp3 := ‖s1 - rx‖ ^ 2
    let tmp4 := ‖s0 - rx‖ ^ 2
    findMinmaxLoop rx l (if tmp3 < tmp then tmp3 else tmp, if tmp4 < tmp2 then tmp4 else tmp2)

/-- `find_minmax(btx, rx)`, pythran_dsp.py:106-117, including the start values 10000. -/
noncomputable def findMinmax (btx : List ℂ × List ℂ) (rx : ℂ) : ℝ × ℝ :=
  findMinmaxLoop rx (btx.1.zip btx.2) (10000, 10000)

/-- One entry of `soft_l_value_demapper_minmax`, pythran_dsp.py:129-130. -/
noncomputable def maxLogLValue (btx : List ℂ × List ℂ) (rx : ℂ) (snr : ℝ) : ℝ :=
  snr * ((findMinmax btx rx).2 - (findMinmax btx rx).1)

/-- `soft_l_value_demapper(rx_symbs, num_bits, snr, bits_map)`, pythran_dsp.py:95-104. -/
noncomputable def softLValueDemapper (rx : List ℂ) (snr : ℝ) (bitsMap : List (List ℂ × List ℂ)) : List (List ℝ) :=
  rx.map fun r => bitsMap.map fun btx => calLValues btx r snr

/-- `soft_l_value_demapper_minmax(rx_symbs, num_bits, snr, bits_map)`, pythran_dsp.py:121-131. -/
noncomputable def softLValueDemapperMinmax (rx : List ℂ) (snr : ℝ) (bitsMap : List (List ℂ × List ℂ)) :
    List (List ℝ) :=
  rx.map fun r => bitsMap.map fun btx => maxLogLValue btx r snr

/-- `cal_mi_mc(noise, symbols, N0)`, pythran_dsp.py:289-300. -/
noncomputable def calMiMc (noise symbols : List ℂ) (N0 : ℝ) : ℝ :=
  let mi := (symbols.map fun si => (noise.map fun z =>
    Real.logb 2 (symbols.map fun sj => Real.exp (-(‖si - sj‖ ^ 2 + 2 * ((si - sj) * z).re) / N0)).sum).sum).sum
  Real.logb 2 symbols.length - mi / symbols.length / noise.length

/-- `cal_mi_mc_fast(sig, sig_tx, symbols, N0)`, pythran_dsp.py:303-313 (`sig` and `sig_tx` of the same length). -/
noncomputable def calMiMcFast (sig sigTx symbols : List ℂ) (N0 : ℝ) : ℝ :=
  let mi := ((sig.zip sigTx).map fun p =>
    Real.logb 2 (symbols.map fun sj => Real.exp (-(‖p.1 - sj‖ ^ 2 - ‖p.1 - p.2‖ ^ 2) / N0)).sum).sum
  Real.logb 2 symbols.length - mi / sig.length

/-- `cal_gmi_mc(symbols, snr, ns, bit_map)`, pythran_dsp.py:181-197, `z` are the noise samples drawn there. -/
noncomputable def calGmiMc (symbols : List ℂ) (snr : ℝ) (z : List ℂ) (nbits : Nat) (bitMap : List (List ℂ × List ℂ)) :
    ℝ :=
  let col := fun (b : Bool) (c : List ℂ × List ℂ) => if b then c.2 else c.1
  let gmi := (bitMap.map fun c => ([false, true].map fun b => (z.map fun zl => ((col b c).map fun sym =>
    Real.logb 2 (calExpSum sym symbols zl snr / calExpSum sym (col b c) zl snr)).sum).sum).sum).sum
  nbits - gmi / (symbols.length * z.length)

/-- `cal_gmi` for one mode, signals.py:496-505: the list of `GMI_per_bit`; `bits` are the rows of transmitted bits,
`lvalues` the rows of L-values. -/
noncomputable def gmiPerBit (k : Nat) (bits : List (List Bool)) (lvalues : List (List ℝ)) : List ℝ :=
  (List.range k).map fun bit =>
    1 - ((bits.zip lvalues).map fun p =>
      Real.logb 2 (1 + Real.exp ((-1) ^ (p.1.getD bit false).toNat * p.2.getD bit 0))).sum / bits.length

/-- The sum of `GMI_per_bit`, signals.py:506. -/
noncomputable def calGmi (k : Nat) (bits : List (List Bool)) (lvalues : List (List ℝ)) : ℝ :=
  (gmiPerBit k bits lvalues).sum

/-- `cal_ser` for one mode, signals.py:329-335: number of nonzero entries of `data_demod - symbols_tx`, divided by the
number of symbols. -/
noncomputable def calSer (coded rx tx : List ℂ) : Option ℚ :=
  (makeDecision rx coded).map fun d =>
    ((d.zip tx).countP fun p => decide (p.1.1 - p.2 ≠ 0) : ℚ) / d.length

/-- `cal_ber` for one mode, signals.py:373-379. -/
noncomputable def calBer (k : Nat) (coded rx tx : List ℂ) : Option ℚ :=
  match demodulate k coded rx, demodulate k coded tx with
  | some bRx, some bTx => some (((bTx.zip bRx).countP fun p => p.1 ^^ p.2 : ℚ) / bRx.length)
  | _, _ => none

/-- `cal_evm` for one mode, signals.py:420-421. -/
noncomputable def evm (tx rx : List ℂ) : ℝ :=
  Real.sqrt (((tx.zip rx).map fun p => ‖p.1 - p.2‖ ^ 2).sum / rx.length)

/-- `cal_evm(blind=True)` for one mode, signals.py:416-421. -/
noncomputable def evmBlind (coded rx : List ℂ) : Option ℝ :=
  (makeDecision rx coded).map fun d => evm (d.map (·.1)) rx

/-- The samples received for one transmitted symbol, pythran_dsp.py:277. -/
noncomputable def selSymbs (rx tx : List ℂ) (s : ℂ) : List ℂ := ((rx.zip tx).filter fun p => decide (p.2 = s)).map (·.1)

/-- `np.mean` -/
noncomputable def cmean (l : List ℂ) : ℂ := l.sum / l.length

/-- One pass of the loop of `estimate_snr`, pythran_dsp.py:276-284: `(in_pow, N0)` contributed by symbol `s`. `none`
stands for the NaN that results when the symbol does not occur (`K = 0`). -/
noncomputable def snrTerm (rx tx : List ℂ) (s : ℂ) : Option (ℝ × ℝ) :=
  let sel := selSymbs rx tx s
  let K := sel.length
  if K = 0 then none else
    let Px : ℝ := (K : ℝ) / rx.length
    let mu := cmean sel
    let sigma := Real.sqrt ((sel.map fun x => ‖x - mu‖ ^ 2).sum / K)
    some (‖mu‖ ^ 2 * Px, |sigma| ^ 2 * Px)

/-- `estimate_snr(signal_rx, symbols_tx, gray_symbols)`, pythran_dsp.py:244-286: `(snr, in_pow, N0)`; `none` for NaN. -/
noncomputable def estimateSnr (rx tx gray : List ℂ) : Option (ℝ × ℝ × ℝ) :=
  (gray.mapM (snrTerm rx tx)).map fun l =>
    let inPow := (l.map (·.1)).sum
    let n0 := (l.map (·.2)).sum
    (inPow / n0, inPow, n0)

end Qampy
