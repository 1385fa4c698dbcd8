import Verif.Model.Np
import Mathlib.Data.Rat.Defs

/-!
Model of the frame handling of `SignalWithPilots` and `TDHQAMSymbols`, qampy/signals.py.

A two dimensional array of shape `(nmodes, N)` is a list of `nmodes` rows of length `N`; the sample type is arbitrary
because the code only moves samples.
-/

namespace Qampy

variable {α : Type _}

/-- `row[mask]` with a boolean mask (numpy): IndexError unless the lengths agree. -/
def boolIndex (mask : List Bool) (row : List α) : Except PyErr (List α) :=
  if row.length = mask.length then .ok (Np.select row mask) else .error .index

/-- `row[mask] = vals` (numpy): IndexError unless mask and array agree, ValueError unless `vals` has
`count_nonzero(mask)` entries or can be broadcast (one entry). -/
def boolAssign (mask : List Bool) (row vals : List α) : Except PyErr (List α) :=
  if row.length ≠ mask.length then .error .index
  else if vals.length = Np.countNonzero mask then .ok (Np.assign row mask vals)
  else match vals with
    | [v] => .ok (Np.assign row mask (List.replicate (Np.countNonzero mask) v))
    | _ => .error .value

/-- `arr[a:b] = vals` for `0 ≤ a ≤ b`: the bounds are clamped to the array, ValueError unless `vals` has the length of
the clamped slice or one entry. -/
def setSlice (arr : List α) (a b : Nat) (vals : List α) : Except PyErr (List α) :=
  let a' := min a arr.length
  let b' := min b arr.length
  if vals.length = b' - a' then .ok (arr.take a' ++ vals ++ arr.drop b')
  else match vals with
    | [v] => .ok (arr.take a' ++ List.replicate (b' - a') v ++ arr.drop b')
    | _ => .error .value

/-- `SignalWithPilots._cal_pilot_idx`, qampy/signals.py:1532-1545; returns `(idx_dat, idx_pil)` (the first returned
value, `idx`, is `np.arange(frame_len)`). `rat = 0` stands for both `0` and `None` (1536). Differences are integers, `%`
with the positive `rat` is Lean's `Int` modulo. Negative arguments are not modelled. -/
def calPilotIdx (frameLen seqLen rat : Nat) : Except PyErr (List Bool × List Bool) :=
  if rat = 0 then
    let idxPil := (List.range frameLen).map fun i : Nat => decide (i < seqLen)
    .ok (idxPil.map not, idxPil)
  else if ((frameLen : Int) - seqLen) % rat ≠ 0 then .error .value
  else
    let idxPh := (List.range frameLen).map fun i : Nat =>
      decide (((i : Int) - seqLen) % rat ≠ 0) && decide (((i : Int) - seqLen) > 0)
    let idxPil := idxPh.map not
    .ok (idxPil.map not, idxPil)

/-- A signal with pilots: the samples and the attributes of `_inheritattr_` used by the frame functions
(qampy/signals.py:1490-1492). -/
structure PilotSignal (α : Type _) where
  rows : List (List α)
  frameLen : Nat
  seqLen : Nat
  insRat : Nat
  symbols : List (List α)
  pilots : List (List α)
  idxDat : List Bool
  idxPil : List Bool

/-- `SignalWithPilots.from_symbol_array` for `pilot_idx=None`, `payload_is_frame=False` and given pilots,
qampy/signals.py:1547-1645. `N` is `payload.shape[1]`, `nmodes` the number of payload rows. Randomly generated pilots
are a case of `pilots` (the draw is an argument). `junk` is the unspecified content of `np.empty`. The conversion of plain
arrays to signal classes (1624-1627) keeps the samples and is omitted, as are sampling rate and pilot scale. -/
def pilotFromSymbolArray (junk : α) (payload : List (List α)) (N frameLen seqLen rat : Nat) (pilots : List (List α))
    (nframes : Nat) : Except PyErr (PilotSignal α) := do
  let nmodes := payload.length
  let (idxDat, idxPil) ← calPilotIdx frameLen seqLen rat
  let nDat := Np.countNonzero idxDat
  if ¬ nDat ≤ N then throw .assertion
  let pilots ← if pilots.length = nmodes then pure pilots
    else match pilots with
      | [p] => pure (List.replicate nmodes p)
      | _ => throw .assertion
  let payload := payload.map fun r => r.take nDat
  let rows ← (pilots.zip payload).mapM fun (p, r) => do
    let out ← boolAssign idxPil (List.replicate frameLen junk) p
    boolAssign idxDat out r
  return { rows := rows.map fun r => Np.tile r nframes, frameLen, seqLen, insRat := rat, symbols := payload,
           pilots, idxDat, idxPil }

/-- `SignalWithPilots.from_symbol_array(..., payload_is_frame=True)`, qampy/signals.py:1609-1611: pilots and payload are
taken out of the given frame. -/
def pilotFromFrame (junk : α) (frame : List (List α)) (N frameLen seqLen rat nframes : Nat) :
    Except PyErr (PilotSignal α) := do
  let (idxDat, idxPil) ← calPilotIdx frameLen seqLen rat
  if ¬ Np.countNonzero idxDat ≤ N then throw .assertion
  let pilots ← frame.mapM (boolIndex idxPil)
  let payload ← frame.mapM (boolIndex idxDat)
  pilotFromSymbolArray junk payload (Np.countNonzero idxDat) frameLen seqLen rat pilots nframes

/-- `SignalWithPilots.__new__`, qampy/signals.py:1494-1530. `pilotDraw` has the `count_nonzero(idx_pil)` symbols per mode
drawn in 1499/1501 (scaled), `dataDraw` the data symbols drawn in 1507/1509. -/
def pilotNew (junk : α) (frameLen seqLen rat nframes : Nat) (pilotDraw dataDraw : List (List α))
    (repeatData repeatPilots : Bool) : Except PyErr (PilotSignal α) := do
  let (idxDat, idxPil) ← calPilotIdx frameLen seqLen rat
  let pilots := if repeatPilots then pilotDraw.map fun r => Np.tile r nframes else pilotDraw
  let symbs := if repeatData then dataDraw.map fun r => Np.tile r nframes else dataDraw
  let rows ← (pilots.zip symbs).mapM fun (p, r) => do
    let out ← boolAssign (Np.tile idxPil nframes) (List.replicate (frameLen * nframes) junk) p
    boolAssign (Np.tile idxDat nframes) out r
  return { rows, frameLen, seqLen, insRat := rat, symbols := symbs, pilots, idxDat, idxPil }

/-- `SignalWithPilots.nframes`, qampy/signals.py:1675-1676, for `L` samples per mode and oversampling `os`. -/
def nFrames (L os frameLen : Nat) : Except PyErr Nat :=
  if os * frameLen = 0 then .error .zeroDiv else .ok (L / (os * frameLen))

/-- The argument handling shared by `get_data` (qampy/signals.py:1766-1772) and `extract_pilots` (1797-1802): the list of
frames and its length or maximum. `frames = none` is the default argument; frame numbers are naturals. `np.max` of an
empty list raises ValueError. -/
def framesArg (L os frameLen : Nat) (frames : Option (List Nat)) : Except PyErr (List Nat × Nat) :=
  match nFrames L os frameLen with
  | .error e => .error e
  | .ok n =>
    match frames with
    | none => .ok (List.range n, n)
    | some fs =>
      match fs.max? with
      | none => .error .value
      | some m => if m ≤ n then .ok (fs, m) else .error .assertion

/-- The mask built in `get_data`, qampy/signals.py:1774-1779. -/
def dataMask (idxDat : List Bool) (L frameLen : Nat) (frs : List Nat) (nfr : Nat) : Except PyErr (List Bool) :=
  if nfr < 1 then .ok (idxDat.take L)
  else frs.foldlM (fun idx i => setSlice idx (i * frameLen) ((i + 1) * frameLen) idxDat)
    (List.replicate (frameLen * nfr) false)

/-- `SignalWithPilots.get_data`, qampy/signals.py:1753-1781. `L` is `self.shape[-1]`. The returned object is represented by
its samples. -/
def getData (s : PilotSignal α) (L os : Nat) (frames : Option (List Nat)) : Except PyErr (List (List α)) := do
  let (frs, nfr) ← framesArg L os s.frameLen frames
  let idx ← dataMask s.idxDat L s.frameLen frs nfr
  s.rows.mapM (boolIndex idx)

/-- `np.nonzero(mask)[0]` -/
def nonzero (mask : List Bool) : List Nat := (List.range mask.length).filter fun i => mask[i]? = some true

/-- `row[idx]` with an integer index array: IndexError if an index is out of range. -/
def fancyIndex (idx : List Nat) (row : List α) : Except PyErr (List α) :=
  idx.mapM fun i => match row[i]? with
    | some x => .ok x
    | none => .error .index

/-- `SignalWithPilots.extract_pilots`, qampy/signals.py:1783-1804. `np.hstack([])` raises ValueError. -/
def extractPilots (s : PilotSignal α) (L os : Nat) (frames : Option (List Nat)) : Except PyErr (List (List α)) := do
  let (frs, _) ← framesArg L os s.frameLen frames
  if frs = [] then throw .value
  s.rows.mapM (fancyIndex (frs.flatMap fun i => (nonzero s.idxPil).map fun j => j + i * s.frameLen))

/-! ### Pilots at given positions (`pilot_idx`) -/

/-- `out[idx] = vals` with an integer index array: IndexError if an index is out of range, ValueError unless `vals` has the
length of `idx` or one entry. -/
def fancyAssign (idx : List Nat) (row vals : List α) : Except PyErr (List α) :=
  if ¬ (∀ i ∈ idx, i < row.length) then .error .index
  else if vals.length = idx.length then .ok ((idx.zip vals).foldl (fun r p => r.set p.1 p.2) row)
  else match vals with
    | [v] => .ok (idx.foldl (fun r i => r.set i v) row)
    | _ => .error .value

/-- `np.count_nonzero` of an integer array: the number of entries different from zero. -/
def countNonzeroInt (l : List Nat) : Nat := l.countP fun i => i ≠ 0

/-- The index arrays of `from_symbol_array` when `pilot_idx` is given, qampy/signals.py:1593-1597:
*integer* arrays, unlike the boolean masks of `_cal_pilot_idx`. Returns `(idx_dat, idx_pil)`. -/
def pilotIdxGiven (frameLen : Nat) (pilotIdx : List Nat) : Except PyErr (List Nat × List Nat) :=
  if ¬ (∀ i ∈ pilotIdx, i < frameLen) then .error .index
  else .ok ((List.range frameLen).filter (fun i => i ∉ pilotIdx), (List.range frameLen).filter (fun i => i ∈ pilotIdx))

/-- `from_symbol_array(payload, frame_len, ..., pilots, pilot_idx)` for one mode and one frame, qampy/signals.py:1591-1631.
`np.count_nonzero(idx_dat)` (1598, 1613) counts the nonzero *indices*. -/
def pilotFromSymbolArrayIdx (junk : α) (payload : List α) (frameLen : Nat) (pilotIdx : List Nat) (pilots : List α) :
    Except PyErr (List α) := do
  let (idxDat, idxPil) ← pilotIdxGiven frameLen pilotIdx
  let nDat := countNonzeroInt idxDat
  if ¬ nDat ≤ payload.length then throw .assertion
  let out ← fancyAssign idxPil (List.replicate frameLen junk) pilots
  fancyAssign idxDat out (payload.take nDat)

/-! ### Time domain hybrid QAM -/

/-- `TDHQAMSymbols._cal_fractions`, qampy/signals.py:1262-1268, returning `(f_M, f_M1, f_M2)`. The argument is the rational
`fractions.Fraction(fr).limit_denominator()`; the rounding of a float to it is library code. -/
def calFractions (fr : ℚ) : Nat × Int × Int := (fr.den, fr.den - fr.num, fr.num)

/-- `TDHQAMSymbols._cal_symbol_idx`, qampy/signals.py:1270-1275, the masks `(idx1, idx2)`; `idx % 0` does not occur
because `f_M` is the denominator of a fraction. -/
def calSymbolIdx (N fM : Nat) (fM1 : Int) : List Bool × List Bool :=
  ((List.range N).map fun i : Nat => decide (((i % fM : Nat) : Int) < fM1),
   (List.range N).map fun i : Nat => decide (((i % fM : Nat) : Int) ≥ fM1))

/-- Assembly in `TDHQAMSymbols.__new__`, qampy/signals.py:1234-1253, for one mode, with the drawn (and scaled) symbols
`syms1`, `syms2`; the length is truncated to whole frames. Draw lengths: `N1 = frms * f_M1`, `N2 = frms * f_M2`. -/
def tdhNew (zero : α) (N : Nat) (fr : ℚ) (syms1 syms2 : List α) : Except PyErr (List α) := do
  let (fM, fM1, _) := calFractions fr
  let frms := N / fM
  let N' := if N % fM > 0 then fM * frms else N
  let (i1, i2) := calSymbolIdx N' fM fM1
  let out ← boolAssign i1 (List.replicate N' zero) syms1
  boolAssign i2 out syms2

/-- `TDHQAMSymbols.from_symbol_arrays`, qampy/signals.py:1318-1366, the assembly for one mode of the already scaled
symbols. The warning (1350) is silent; `min(N1 // f_M1, N2 // f_M2)` can divide by zero. -/
def tdhFromSymbolArrays (zero : α) (fr : ℚ) (syms1 syms2 : List α) : Except PyErr (List α) := do
  let (fM, fM1, fM2) := calFractions fr
  let N1 : Int := syms1.length
  let N2 : Int := syms2.length
  let nfr0 : Int := (N1 + N2) / fM
  let nfr ← if nfr0 * fM1 > N1 ∨ nfr0 * fM2 > N2 then
      if fM1 = 0 ∨ fM2 = 0 then throw .zeroDiv else pure (min (N1 / fM1) (N2 / fM2))
    else pure nfr0
  let N := (nfr * fM).toNat
  let (i1, i2) := calSymbolIdx N fM fM1
  let out ← boolAssign i1 (List.replicate N zero) syms1
  boolAssign i2 out syms2

end Qampy
