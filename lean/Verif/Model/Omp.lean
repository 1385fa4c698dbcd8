import Verif.Model.Equaliser
import Verif.Model.Phase
import Verif.Model.Quality

/-!
Execution of the OpenMP loops of the compiled modules (`#omp parallel for`, pythran_equalisation.py and pythran_dsp.py; setup.py:24-27
builds with `-fopenmp`).

An iteration is a list of atomic steps on its private variables and on the memory shared by all iterations. Every interleaving of
the iterations is a possible execution (OpenMP runs the iterations of one thread after each other, so this allows more executions than
the runtime has). Variables assigned only inside the loop are private; arguments and variables from outside the loop are shared.
-/

namespace Qampy

/-- An atomic step of an iteration; `none` is an access outside of an array. -/
abbrev OmpOp (S L : Type) := L → S → Option (L × S)

/-- Shared memory, private variables and number of steps done of each iteration. -/
structure OmpState (S L : Type) where
  shared : S
  priv : Nat → L
  pc : Nat → Nat

/-- The next step of iteration `k` (nothing if it has ended). -/
def ompStep {S L : Type} (prog : Nat → List (OmpOp S L)) (st : OmpState S L) (k : Nat) : Option (OmpState S L) :=
  match (prog k)[st.pc k]? with
  | none => some st
  | some f => (f (st.priv k) st.shared).map fun r => { shared := r.2, priv := Function.update st.priv k r.1, pc := Function.update st.pc k (st.pc k + 1) }

/-- The loop, executed in the order given by `sched`. -/
def ompRun {S L : Type} (prog : Nat → List (OmpOp S L)) (sched : List Nat) (s : S) (l : Nat → L) : Option (OmpState S L) :=
  sched.foldlM (ompStep prog) { shared := s, priv := l, pc := fun _ => 0 }

/-- A sequence of steps without interruption. -/
def ompSeq {S L : Type} (ops : List (OmpOp S L)) (p : L × S) : Option (L × S) := ops.foldlM (fun p f => f p.1 p.2) p

section train
variable {K : Type} [RCLike K]

/-- Private variables of the training loop: `Xest` and the register which holds `mu` while the new value is calculated. -/
structure TrainPriv (K : Type) where
  xest : K
  reg : ℝ

/-- `Xest = E.dtype.type(0)`, pythran_equalisation.py:27. -/
def opReset : OmpOp (TrainResult K) (TrainPriv K) := fun l s => some ({ l with xest := 0 }, s)

/-- `Xest += E[k, i]*wx[k, i]`, pythran_equalisation.py:28-30: reads one tap. -/
def opLoad (m : Nat) (X : List (List K)) (k i : Nat) : OmpOp (TrainResult K) (TrainPriv K) := fun l s => do
  let w ← s.wx[m]?
  let e ← at2 X k i
  let c ← at2 w k i
  some ({ l with xest := l.xest + e * c }, s)

/-- `err[mode, idx] = errorfct(Xest, symbols[mode], i)`, pythran_equalisation.py:168 (104). -/
def opError (errf : K → List K → Nat → Option K) (symbols : List (List K)) (m idx i : Nat) : OmpOp (TrainResult K) (TrainPriv K) := fun l s => do
  let symbs ← symbols[m]?
  let e ← errf l.xest symbs i
  let row ← s.err[m]?
  if idx < row.length then some (l, { s with err := s.err.set m (row.set idx e) }) else none

/-- `wx[mode] += mu * err[mode, idx] * np.conj(X)`, pythran_equalisation.py:170 (105): reads the step size and changes one tap. -/
def opStore (m : Nat) (X : List (List K)) (idx k i : Nat) : OmpOp (TrainResult K) (TrainPriv K) := fun l s => do
  let w ← s.wx[m]?
  let row ← w[k]?
  let e ← at2 s.err m idx
  let x ← at2 X k i
  let a ← row[i]?
  some (l, { s with wx := s.wx.set m (w.set k (row.set i (a + ((s.mu : K) * e) * star x))) })

/-- The read of the shared `mu` in `mu = adapt_step(mu, ...)`, pythran_equalisation.py:172 (107). -/
def opReadMu : OmpOp (TrainResult K) (TrainPriv K) := fun l s => some ({ l with reg := s.mu }, s)

/-- The write of the shared `mu`, pythran_equalisation.py:172 (107). -/
def opWriteMu (adapt : ℝ → K → K → ℝ) (m idx : Nat) : OmpOp (TrainResult K) (TrainPriv K) := fun l s => do
  let e ← at2 s.err m idx
  let p ← if idx = 0 then none else at2 s.err m (idx - 1)
  some (l, { s with mu := adapt l.reg e p })

/-- The body of the inner loop for iteration `it` and symbol `i`, pythran_equalisation.py:166-172 (102-107). -/
def trainOps (errf : K → List K → Nat → Option K) (adapt : ℝ → K → K → ℝ) (adaptive : Bool) (E : List (List K)) (trSyms os ntaps : Nat) (symbols : List (List K)) (m it i : Nat) :
    List (OmpOp (TrainResult K) (TrainPriv K)) :=
  [opReset] ++ ((List.range E.length).flatMap fun k => (List.range ntaps).map fun j => opLoad m (window E (i * os) ntaps) k j)
    ++ [opError errf symbols m (it * trSyms + i) i]
    ++ ((List.range E.length).flatMap fun k => (List.range ntaps).map fun j => opStore m (window E (i * os) ntaps) (it * trSyms + i) k j)
    ++ if adaptive && decide (0 < i) then [opReadMu, opWriteMu adapt m (it * trSyms + i)] else []

/-- The iteration for one mode of `for mode in modes`, pythran_equalisation.py:163-172 (99-107). -/
def trainProg (errf : K → List K → Nat → Option K) (adapt : ℝ → K → K → ℝ) (adaptive : Bool) (E : List (List K)) (trSyms nIter os ntaps : Nat) (symbols : List (List K)) (modes : List Nat) (m : Nat) :
    List (OmpOp (TrainResult K) (TrainPriv K)) :=
  if m ∈ modes then (List.range nIter).flatMap fun it => (List.range trSyms).flatMap fun i => trainOps errf adapt adaptive E trSyms os ntaps symbols m it i else []

/-- `train_equaliser` with the parallel loop over the modes executed in the order `sched`, pythran_equalisation.py:161-173 (97-108); the iterations are named by
their mode, so the modes have to be different. -/
def trainParallel (errf : K → List K → Nat → Option K) (adapt : ℝ → K → K → ℝ) (adaptive : Bool) (E : List (List K)) (trSyms nIter os : Nat) (mu : ℝ) (wx : List (List (List K)))
    (ntaps : Nat) (modes : List Nat) (symbols : List (List K)) (sched : List Nat) : Option (TrainResult K) :=
  (ompRun (trainProg errf adapt adaptive E trSyms nIter os ntaps symbols modes) sched
    { err := List.replicate E.length (List.replicate (trSyms * nIter) 0), wx := wx, mu := mu } fun _ => { xest := 0, reg := 0 }).map (·.shared)

end train

/-- A parallel loop which computes the elements of an array: iteration `k` runs steps which read the inputs and change private variables and element `k` only. -/
def mapOps {α L : Type} (body : Nat → List (L × α → Option (L × α))) (k : Nat) : List (OmpOp (List α) L) :=
  (body k).map fun f => fun l out => do
    let a ← out[k]?
    let r ← f (l, a)
    some (r.1, out.set k r.2)

/-- The result array of such a loop over `init.length` iterations, executed in the order `sched`. -/
def mapParallel {α L : Type} (body : Nat → List (L × α → Option (L × α))) (l0 : L) (init : List α) (sched : List Nat) : Option (List α) :=
  (ompRun (fun k => if k < init.length then mapOps body k else []) sched init fun _ => l0).map (·.shared)

/-- The body of the loop of `apply_filter_to_signal`, pythran_equalisation.py:71-75 with `apply_filter` 24-31; `collapse(2)` makes one loop over `q = j*N + i`. -/
def filterBody {K : Type} [RCLike K] (E : List (List K)) (os : Nat) (wx : List (List (List K))) (ntaps : Nat) (modes : List Nat) (N : Nat) (q : Nat) : List (K × K → Option (K × K)) :=
  [fun p => some (0, p.2)] ++ ((List.range E.length).flatMap fun k => (List.range ntaps).map fun t => fun p => do
    let m ← modes[q / N]?
    let w ← wx[m]?
    let e ← at2 (window E (q % N * os) ntaps) k t
    let c ← at2 w k t
    some (p.1 + e * c, p.2)) ++ [fun p => some (p.1, p.1)]

/-- The body of the loop of `make_decision`, pythran_equalisation.py:329-333: `dist`, `det_symbs` and `idx` are stored one after the other. -/
noncomputable def decisionBody (E symbols : List ℂ) (i : Nat) : List (Option (ℂ × ℝ × Nat) × (ℂ × ℝ × Nat) → Option (Option (ℂ × ℝ × Nat) × (ℂ × ℝ × Nat))) :=
  [fun p => do
      let e ← E[i]?
      let d ← detSymbolArgmin e symbols
      some (some d, p.2),
    fun p => p.1.map fun d => (some d, (p.2.1, d.2.1, p.2.2.2)),
    fun p => p.1.map fun d => (some d, (d.1, p.2.2)),
    fun p => p.1.map fun d => (some d, (p.2.1, p.2.2.1, d.2.2))]

/-- The body of the loop of `bps`, pythran_dsp.py:75-84: element `i` is the row `dists[i]`. -/
noncomputable def bpsBody (E : List ℂ) (angles : List (List ℝ)) (symbols : List ℂ) (ntest : Nat) (i : Nat) : List (Unit × List ℝ → Option (Unit × List ℝ)) :=
  (List.range ntest).map fun j => fun p => do
    let e ← E[i]?
    let φ ← at2 angles (if 1 < angles.length then i else 0) j
    let old ← p.2[j]?
    let d := detDist (e * Complex.exp (Complex.I * (φ : ℂ))) symbols
    some ((), if d < old then p.2.set j d else p.2)

/-- The body of the loop of the demappers, pythran_dsp.py:101-103 and 127-130, `collapse(2)`: one loop over `q = symb*num_bits + bit`. -/
noncomputable def demapBody (lvalue : List ℂ × List ℂ → ℂ → ℝ) (rx : List ℂ) (bitsMap : List (List ℂ × List ℂ)) (q : Nat) : List (Unit × ℝ → Option (Unit × ℝ)) :=
  [fun _ => do
    let r ← rx[q / bitsMap.length]?
    let b ← bitsMap[q % bitsMap.length]?
    some ((), lvalue b r)]

/-- The body of the loops of `select_angles`, pythran_dsp.py:143-147 and 150-152. -/
def selectBody {α : Type} (angles : List (List α)) (idx : List Nat) (i : Nat) : List (Unit × α → Option (Unit × α)) :=
  [fun _ => do
    let r ← angles[if 1 < angles.length then i else 0]?
    let k ← idx[i]?
    let v ← r[k]?
    some ((), v)]

/-- A parallel loop with `reduction(+:acc)`, pythran_dsp.py:189, 275, 293, 307: the iterations are distributed to threads (`who`), every thread adds the values of its iterations to a private
copy which starts at zero, the copies are added to the variable in the order `order` in which the threads end. -/
def ompReduce {α : Type} [Add α] [Zero α] (vals : List α) (who : Nat → Nat) (order : List Nat) : α :=
  order.foldl (fun acc t => acc + ((vals.zipIdx.filter fun p => who p.2 = t).map (·.1)).foldl (fun a x => a + x) 0) 0

/-- `estimate_snr` with the parallel loop, pythran_dsp.py:275-286. -/
noncomputable def estimateSnrParallel (rx tx gray : List ℂ) (who : Nat → Nat) (order : List Nat) : Option (ℝ × ℝ × ℝ) :=
  (gray.mapM (snrTerm rx tx)).map fun l =>
    let inPow := ompReduce (l.map (·.1)) who order
    let n0 := ompReduce (l.map (·.2)) who order
    (inPow / n0, inPow, n0)

/-- `cal_mi_mc` with the parallel loop (`collapse(2)`), pythran_dsp.py:289-300. -/
noncomputable def calMiMcParallel (noise symbols : List ℂ) (N0 : ℝ) (who : Nat → Nat) (order : List Nat) : ℝ :=
  Real.logb 2 symbols.length - ompReduce (symbols.flatMap fun si => noise.map fun z =>
    Real.logb 2 (symbols.map fun sj => Real.exp (-(‖si - sj‖ ^ 2 + 2 * ((si - sj) * z).re) / N0)).sum) who order / symbols.length / noise.length

/-- `cal_mi_mc_fast` with the parallel loop, pythran_dsp.py:303-313. -/
noncomputable def calMiMcFastParallel (sig sigTx symbols : List ℂ) (N0 : ℝ) (who : Nat → Nat) (order : List Nat) : ℝ :=
  Real.logb 2 symbols.length - ompReduce ((sig.zip sigTx).map fun p =>
    Real.logb 2 (symbols.map fun sj => Real.exp (-(‖p.1 - sj‖ ^ 2 - ‖p.1 - p.2‖ ^ 2) / N0)).sum) who order / sig.length

/-- `cal_gmi_mc` with the parallel loop (`collapse(3)`, the inner loop over the symbols belongs to one iteration), pythran_dsp.py:181-197. -/
noncomputable def calGmiMcParallel (symbols : List ℂ) (snr : ℝ) (z : List ℂ) (nbits : Nat) (bitMap : List (List ℂ × List ℂ)) (who : Nat → Nat) (order : List Nat) : ℝ :=
  let col := fun (b : Bool) (c : List ℂ × List ℂ) => if b then c.2 else c.1
  let gmi := ompReduce (bitMap.flatMap fun c => [false, true].flatMap fun b => z.map fun zl => ((col b c).map fun sym =>
    Real.logb 2 (calExpSum sym symbols zl snr / calExpSum sym (col b c) zl snr)).sum) who order
  nbits - gmi / (symbols.length * z.length)

end Qampy
