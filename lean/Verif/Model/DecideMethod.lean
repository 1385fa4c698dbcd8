import Verif.Model.Constellation
import Verif.Model.Pilots

/-!
# Choice of the decision routine and error rate of plain arrays, qampy/core/signal_quality.py:46-119, 274-296

`af.broadcast`, `af.abs` and `af.imin` (position of the first minimum) do what their documentation says, an empty slice of a device array
is an empty array. The conversion to the precision of the device is the identity (exact arithmetic).
-/

namespace Qampy

/-- What a decision call may raise; `runtime` is RuntimeError. -/
inductive DecErr where
  | py (e : PyErr)
  | runtime
  deriving DecidableEq

/-- What a caller passes as `symbols`: an array, or a number as `cal_ser_qam` does. -/
inductive SymbolArg where
  | arr (symbols : List ℂ)
  | num (M : Nat)

/-- What a decision call returns: a tuple of three arrays (compiled routine), or the array of symbols (device routine). -/
inductive DecResult where
  | tuple (symbols : List ℂ) (dist : List ℝ) (idx : List Nat)
  | array (symbols : List ℂ)

/-- One block of decisions on the device, signal_quality.py:108-109, 114-115 and 116-117. -/
noncomputable def afDecideBlock (sig symbols : List ℂ) : Except PyErr (List ℂ) :=
  match sig.mapM fun x => Np.argmin (symbols.map fun s => ‖x - s‖) with
  | none => .error .value
  | some idx => .ok (idx.map fun i => symbols.getD i 0)

/-- One round of the loop over the blocks, signal_quality.py:113-115. -/
noncomputable def afDecideStep (sig symbols : List ℂ) (Nmax : Nat) (tmp : List ℂ) (i : Nat) : Except PyErr (List ℂ) :=
  (afDecideBlock (Np.slice sig ((i * Nmax : Nat) : Int) (((i + 1) * Nmax : Nat) : Int)) symbols).bind fun b =>
    setSlice tmp (i * Nmax) ((i + 1) * Nmax) b

/-- `_decision_af(signal, symbols, precision)`, signal_quality.py:77-119. `NMAX` is the value of the global name of that name in the module,
`none` if the module does not have one. A number has no `flatten`. -/
noncomputable def decisionAf (NMAX : Option Nat) (signal : List ℂ) (symbols : SymbolArg) (precision : Int) : Except PyErr (List ℂ) :=
  if precision ≠ 16 ∧ precision ≠ 8 then .error .value
  else match NMAX with
    | none => .error .name
    | some nm => match symbols with
      | .num _ => .error .attr
      | .arr syms =>
        if syms.length = 0 then .error .zeroDiv
        else
          let Nmax := nm / syms.length / 16
          let L := signal.length
          if L < Nmax then afDecideBlock signal syms
          else if Nmax = 0 then .error .zeroDiv
          else do
            let tmp ← (List.range (L / Nmax)).foldlM (afDecideStep signal syms Nmax) (List.replicate L 0)
            let last ← afDecideBlock (signal.drop (L / Nmax * Nmax)) syms
            setSlice tmp (L / Nmax * Nmax) L last

/-- The module signal_quality.py has no global `NMAX` (lines 23-34 and the function definitions; the one of phaserecovery.py:38 is not imported). -/
def signalQualityNMAX : Option Nat := none

/-- `make_decision(signal, symbols, method, precision)` of signal_quality.py:46-74 with `precision` the only keyword the routines know, `none`
if not given. The compiled routine takes two arrays and no keywords (pythran_equalisation.py:304-306), everything else is a TypeError there. -/
noncomputable def coreMakeDecision (afLoaded : Bool) (NMAX : Option Nat) (signal : List ℂ) (symbols : SymbolArg) (method : String)
    (precision : Option Int) : Except DecErr DecResult :=
  if method = "pyt" then
    match precision, symbols with
    | none, .arr syms =>
      match makeDecision signal syms with
      | none => .error (.py .value)
      | some d => .ok (.tuple (d.map (·.1)) (d.map (·.2.1)) (d.map (·.2.2)))
    | _, _ => .error (.py .typ)
  else if method = "af" then
    if afLoaded = false then .error .runtime
    else match decisionAf NMAX signal symbols (precision.getD 16) with
      | .error e => .error (.py e)
      | .ok d => .ok (.array d)
  else .error (.py .value)

/-- `np.count_nonzero(data_demod - symbol_tx) / len(data_rx)`, signal_quality.py:296, for one dimensional arrays of the same length (other lengths
are taken as the ValueError of the subtraction; arrays with one element are not treated apart). A tuple minus an array stacks the three arrays
of the tuple, so that distances and indices are compared with the symbols as well. -/
noncomputable def serCount (d : DecResult) (tx : List ℂ) (n : Nat) : Except DecErr ℚ :=
  let rows : List (List ℂ) := match d with
    | .array s => [s]
    | .tuple s dist idx => [s, dist.map fun x : ℝ => (x : ℂ), idx.map fun i : Nat => (i : ℂ)]
  if rows.any fun r => r.length ≠ tx.length then .error (.py .value)
  else if n = 0 then .error (.py .zeroDiv)
  else .ok (((rows.map fun r => (r.zip tx).countP fun p => decide (p.1 - p.2 ≠ 0)).sum : ℚ) / n)

/-- `cal_ser_qam(data_rx, symbol_tx, M, method)`, signal_quality.py:274-296: the order is passed where the alphabet is expected. -/
noncomputable def calSerQam (afLoaded : Bool) (NMAX : Option Nat) (rx tx : List ℂ) (M : Nat) (method : String) : Except DecErr ℚ :=
  (coreMakeDecision afLoaded NMAX rx (.num M) method none).bind fun d => serCount d tx rx.length

end Qampy
