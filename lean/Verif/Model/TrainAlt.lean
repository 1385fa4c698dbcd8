import Verif.Model.Equaliser

/-!
Model of the two other implementations of the equaliser: qampy/core/equalisation/cython_equalisation.pyx with
qampy/core/equalisation/cython_errorfcts.pyx, and qampy/core/equalisation/numba_equalisation.py. They train one mode in one pass; the taps are
those with which the signal is multiplied after conjugation.

Double precision is taken as exact; the single precision classes (`_f`, `calc_errorf`) have the same formulas and are not modelled separately. The
Cython modules are compiled with `boundscheck=False, wraparound=False`: `none` is an access outside of an array.
-/

namespace Qampy

open Complex

/-! ### Cython -/

/-- `scblas.zdotc(Ntaps, &wx[k,0], 1, &E[k,0], 1)`: the first vector is conjugated, cython_equalisation.pyx:127-129. -/
noncomputable def zdotc (n : Nat) (w e : List ℂ) : Option ℂ :=
  (List.range n).foldlM (fun acc j => do
    let a ← w[j]?
    let b ← e[j]?
    some (acc + star a * b)) 0

/-- `apply_filter(E, Ntaps, wx, pols)`, cython_equalisation.pyx:121-130. -/
noncomputable def cyApplyFilter (E : List (List ℂ)) (ntaps : Nat) (wx : List (List ℂ)) (pols : Nat) : Option ℂ :=
  (List.range pols).foldlM (fun acc k => do
    let w ← wx[k]?
    let e ← E[k]?
    let d ← zdotc ntaps w e
    some (acc + d)) 0

/-- `update_filter(E, Ntaps, mu, err, wx, modes)`, cython_equalisation.pyx:169-174. The loops write every element of the `modes × Ntaps` array
`wx` once and read only this element of it, so the new array is built element by element. -/
noncomputable def cyUpdateFilter (E : List (List ℂ)) (ntaps : Nat) (mu : ℝ) (err : ℂ) (wx : List (List ℂ)) (modes : Nat) : Option (List (List ℂ)) :=
  (List.range modes).mapM fun k => (List.range ntaps).mapM fun j => do
    let a ← at2 wx k j
    let b ← at2 E k j
    some (a + (mu : ℂ) * star err * b)

/-- `adapt_step(mu, err_p, err)`, cython_equalisation.pyx:113-119. -/
noncomputable def cyAdaptStep (mu : ℝ) (errP err : ℂ) : ℝ :=
  let lm : ℝ := if err.re * errP.re > 0 ∧ err.im * errP.im > 0 then 0 else 1
  mu / (1 + lm * mu * (err.re * err.re + err.im * err.im))

/-- The variables of the loop of `train_eq`: taps, step size, errors so far (newest first) and the error object. -/
structure CyState (σ : Type) where
  w : List (List ℂ)
  mu : ℝ
  errs : List ℂ
  obj : σ

/-- The loop body of `train_eq`, cython_equalisation.pyx:217-227. `calcErr` is the method `calc_error` of the error object: it may change the object. The
slice `E[:, i*os:]` is not cut at its end. -/
noncomputable def cyTrainStep {σ : Type} (calcErr : σ → ℂ → Option (ℂ × σ)) (adaptive : Bool) (E : List (List ℂ)) (os ntaps : Nat) (st : CyState σ) (i : Nat) :
    Option (CyState σ) := do
  let X := E.map fun r => r.drop (i * os)
  let xest ← cyApplyFilter X ntaps st.w E.length
  let (err, obj) ← calcErr st.obj xest
  let w ← cyUpdateFilter X ntaps st.mu err st.w E.length
  let mu ← if adaptive && decide (0 < i) then (st.errs.head?).map fun prev => cyAdaptStep st.mu prev err else some st.mu
  some { w := w, mu := mu, errs := err :: st.errs, obj := obj }

/-- `train_eq(E, TrSyms, os, mu, wx, errfct, adaptive)`, cython_equalisation.pyx:176-228: errors, taps and step size. -/
noncomputable def cyTrainEq {σ : Type} (calcErr : σ → ℂ → Option (ℂ × σ)) (obj : σ) (adaptive : Bool) (E : List (List ℂ)) (trSyms os : Nat) (mu : ℝ)
    (wx : List (List ℂ)) (ntaps : Nat) : Option (List ℂ × List (List ℂ) × ℝ) := do
  let st ← (List.range trSyms).foldlM (cyTrainStep calcErr adaptive E os ntaps) { w := wx, mu := mu, errs := [], obj := obj }
  some (st.errs.reverse, st.w, st.mu)

/-- `apply_filter_to_signal(E, os, wx)`, cython_equalisation.pyx:132-167; `L = E.shape[1]` and `Ntaps = wx.shape[2]` are passed. A negative number
of samples makes `np.zeros` raise, `os = 0` is a division by zero; both are the outer `none`. The parallel loop over `idx` computes every
element from the inputs alone. -/
noncomputable def cyApplyFilterToSignal (E : List (List ℂ)) (L os : Nat) (wx : List (List (List ℂ))) (ntaps : Nat) : Option (List (List ℂ)) :=
  if os = 0 ∨ ((L : Int) - ntaps + os) / os < 0 then none
  else
    (List.range E.length).mapM fun j => (List.range (((L : Int) - ntaps + os) / os).toNat).mapM fun i => do
      let w ← wx[j]?
      cyApplyFilter (window E (i * os) ntaps) ntaps w E.length

/-- `det_symbol`, cython_equalisation.pyx:53-64: start with symbol 0 and squared distance 10000. -/
noncomputable def cyDetSymbolGo (value : ℂ) : List ℂ → ℂ → ℝ → ℂ × ℝ
  | [], symbol, d0 => (symbol, d0)
  | c :: cs, symbol, d0 =>
    let d := (c.re - value.re) ^ 2 + (c.im - value.im) ^ 2
    if d < d0 then cyDetSymbolGo value cs c d else cyDetSymbolGo value cs symbol d0

noncomputable def cyDetSymbol (symbs : List ℂ) (value : ℂ) : ℂ × ℝ := cyDetSymbolGo value symbs 0 10000

/-- `make_decision`, cython_equalisation.pyx:66-100. -/
noncomputable def cyMakeDecision (E symbols : List ℂ) : List ℂ := E.map fun x => (cyDetSymbol symbols x).1

/-- `partition_value`, cython_equalisation.pyx:102-111: the loop, from `index`; `none` is a codebook shorter than needed. -/
noncomputable def cyPartitionIndex (signal : ℝ) (partitions : List ℝ) : Nat → Nat → Nat
  | 0, index => index
  | fuel + 1, index =>
    match partitions[index]? with
    | some p => if signal > p then cyPartitionIndex signal partitions fuel (index + 1) else index
    | none => index

noncomputable def cyPartitionValue (signal : ℝ) (partitions codebook : List ℝ) : Option ℝ :=
  codebook[cyPartitionIndex signal partitions partitions.length 0]?

/-- `ErrorFctCMA.calc_error`, cython_errorfcts.pyx:155-160. -/
noncomputable def cyCma (R : ℝ) (x : ℂ) : Option ℂ := some (((R - x.re ^ 2 - x.im ^ 2 : ℝ) : ℂ) * x)

/-- `ErrorFctMCMA.calc_error`, cython_errorfcts.pyx:143-150. -/
noncomputable def cyMcma (R x : ℂ) : Option ℂ :=
  some ((((R.re - x.re ^ 2) * x.re : ℝ) : ℂ) + I * (((R.im - x.im ^ 2) * x.im : ℝ) : ℂ))

/-- `ErrorFctRDE.calc_error`, cython_errorfcts.pyx:164-175. -/
noncomputable def cyRde (partition codebook : List ℝ) (x : ℂ) : Option ℂ := do
  let ssq := x.re ^ 2 + x.im ^ 2
  let s ← cyPartitionValue ssq partition codebook
  some (x * ((s - ssq : ℝ) : ℂ))

/-- `ErrorFctMRDE.calc_error`, cython_errorfcts.pyx:177-193. -/
noncomputable def cyMrde (partition codebook : List ℂ) (x : ℂ) : Option ℂ := do
  let ssq : ℂ := ((x.re ^ 2 : ℝ) : ℂ) + I * ((x.im ^ 2 : ℝ) : ℂ)
  let a ← cyPartitionValue ssq.re (partition.map re) (codebook.map re)
  let b ← cyPartitionValue ssq.im (partition.map im) (codebook.map im)
  let s : ℂ := (a : ℂ) + I * (b : ℂ)
  some ((((s.re - ssq.re) * x.re : ℝ) : ℂ) + I * (((s.im - ssq.im) * x.im : ℝ) : ℂ))

/-- `ErrorFctSBD_d.calc_error`, cython_errorfcts.pyx:88-92. The distance kept in the object is not used. -/
noncomputable def cySbd (symbs : List ℂ) (x : ℂ) : Option ℂ :=
  let R := (cyDetSymbol symbs x).1
  some ((((R.re - x.re) * |R.re| : ℝ) : ℂ) + I * (((R.im - x.im) * |R.im| : ℝ) : ℂ))

/-- `ErrorFctMDDMA_d.calc_error`, cython_errorfcts.pyx:107-111. -/
noncomputable def cyMddma (symbs : List ℂ) (x : ℂ) : Option ℂ :=
  let R := (cyDetSymbol symbs x).1
  some ((((R.re ^ 2 - x.re ^ 2) * x.re : ℝ) : ℂ) + I * (((R.im ^ 2 - x.im ^ 2) * x.im : ℝ) : ℂ))

/-- `ErrorFctDD_d.calc_error`, cython_errorfcts.pyx:125-129. -/
noncomputable def cyDd (symbs : List ℂ) (x : ℂ) : Option ℂ := some ((cyDetSymbol symbs x).1 - x)

/-- An object without changing fields. -/
def constCalc (f : ℂ → Option ℂ) (u : Unit) (x : ℂ) : Option (ℂ × Unit) := (f x).map fun e => (e, u)

/-- The fields of `ErrorFctGenericDataAided_d`, cython_errorfcts.pyx:45-53. -/
structure DataAidedObj where
  symbols : List (List ℂ)
  i : Nat
  mode : Nat

/-- `ErrorFctSBDDataAided_d.calc_error`, cython_errorfcts.pyx:65-70: the counter of the object goes on with every call. -/
noncomputable def cySbdData (o : DataAidedObj) (x : ℂ) : Option (ℂ × DataAidedObj) := do
  let R ← at2 o.symbols o.mode o.i
  some ((((R.re - x.re) * |R.re| : ℝ) : ℂ) + I * (((R.im - x.im) * |R.im| : ℝ) : ℂ), { o with i := o.i + 1 })

/-- `A` and `B` of `ErrorFctSCA.calc_error`, cython_errorfcts.pyx:201-211, and of `sca_fct`, numba_equalisation.py:351-359. -/
noncomputable def scaSides (x : ℂ) : ℝ × ℝ :=
  if |x.re| ≥ |x.im| then (1, if |x.re| = |x.im| then 1 else 0) else (0, 1)

/-- `ErrorFctSCA.calc_error`, cython_errorfcts.pyx:196-212; the radius is a complex number. -/
noncomputable def cySca (R x : ℂ) : Option ℂ :=
  some (4 * (x.re : ℂ) * (4 * R ^ 2 - 4 * (x.re : ℂ) ^ 2) * (((scaSides x).1 : ℝ) : ℂ)
    + I * 4 * (x.im : ℂ) * (4 * R ^ 2 - 4 * (x.im : ℂ) ^ 2) * (((scaSides x).2 : ℝ) : ℂ))

/-- `ErrorFctCME.calc_error`, cython_errorfcts.pyx:228-237. -/
noncomputable def cyCme (R d beta : ℝ) (x : ℂ) : Option ℂ :=
  some (((R - ‖x‖ ^ 2 : ℝ) : ℂ) * x + ((beta * Real.pi / (2 * d) : ℝ) : ℂ) * ((Real.sin (x.re * Real.pi / d) : ℂ) + I * (Real.sin (x.im * Real.pi / d) : ℂ)))

/-! ### Numba -/

/-- `sum(np.conj(wx)*X)`, numba_equalisation.py:86-92 and 126: the product needs equal shapes (otherwise `none`; the broadcasting of rows or columns of
length one is not modelled), the sum runs over the flattened array. -/
noncomputable def nbApply (wx X : List (List ℂ)) : Option ℂ :=
  if wx.length = X.length ∧ ∀ p ∈ wx.zip X, p.1.length = p.2.length then
    some (((List.zipWith (List.zipWith fun a x => star a * x) wx X).flatten).foldl (· + ·) 0)
  else none

/-- `wx += mu * np.conj(err[i]) * X`, numba_equalisation.py:128. -/
noncomputable def nbUpdate (wx X : List (List ℂ)) (mu : ℝ) (err : ℂ) : Option (List (List ℂ)) :=
  if wx.length = X.length ∧ ∀ p ∈ wx.zip X, p.1.length = p.2.length then
    some (List.zipWith (List.zipWith fun a x => a + (mu : ℂ) * star err * x) wx X)
  else none

/-- The loop body of `train_eq`, numba_equalisation.py:124-130; `adapt_step` (52-57) is the function of the compiled module. -/
noncomputable def nbTrainStep (errf : ℂ → Option ℂ) (adaptive : Bool) (E : List (List ℂ)) (os ntaps : Nat) (st : TrainState ℂ) (i : Nat) :
    Option (TrainState ℂ) := do
  let X := window E (i * os) ntaps
  let xest ← nbApply st.w X
  let err ← errf xest
  let w ← nbUpdate st.w X st.mu err
  let mu ← if adaptive && decide (0 < i) then (st.errs.head?).map fun prev => adaptStep st.mu err prev else some st.mu
  some { w := w, mu := mu, errs := err :: st.errs }

/-- `train_eq`, numba_equalisation.py:96-131. -/
noncomputable def nbTrainEq (errf : ℂ → Option ℂ) (adaptive : Bool) (E : List (List ℂ)) (trSyms os : Nat) (mu : ℝ) (wx : List (List ℂ)) (ntaps : Nat) :
    Option (List ℂ × List (List ℂ) × ℝ) := do
  let st ← (List.range trSyms).foldlM (nbTrainStep errf adaptive E os ntaps) { w := wx, mu := mu, errs := [] }
  some (st.errs.reverse, st.w, st.mu)

/-- `symbols[np.argmin(np.abs(Xest-symbols))]`, numba_equalisation.py:250, 275, 298. -/
noncomputable def nbNearest (symbs : List ℂ) (x : ℂ) : Option ℂ := do
  let j ← Np.argmin (symbs.map fun s => ‖x - s‖)
  symbs[j]?

/-- `cma_fct`, numba_equalisation.py:149-150. -/
noncomputable def nbCma (R : ℝ) (x : ℂ) : Option ℂ := some (((R - ‖x‖ ^ 2 : ℝ) : ℂ) * x)

/-- `mcma_fct`, numba_equalisation.py:172-173. -/
noncomputable def nbMcma (R x : ℂ) : Option ℂ :=
  some ((((R.re - x.re ^ 2) * x.re : ℝ) : ℂ) + (((R.im - x.im ^ 2) * x.im : ℝ) : ℂ) * I)

/-- `sbd_fct`, numba_equalisation.py:249-251. -/
noncomputable def nbSbd (symbs : List ℂ) (x : ℂ) : Option ℂ := do
  let R ← nbNearest symbs x
  some ((((R.re - x.re) * |R.re| : ℝ) : ℂ) + ((R.im - x.im : ℝ) : ℂ) * I * ((|R.im| : ℝ) : ℂ))

/-- `mddma_fct`, numba_equalisation.py:274-276. -/
noncomputable def nbMddma (symbs : List ℂ) (x : ℂ) : Option ℂ := do
  let R ← nbNearest symbs x
  some ((((R.re ^ 2 - x.re ^ 2) * x.re : ℝ) : ℂ) + I * (((R.im ^ 2 - x.im ^ 2) * x.im : ℝ) : ℂ))

/-- `dd_fct`, numba_equalisation.py:297-299. -/
noncomputable def nbDd (symbs : List ℂ) (x : ℂ) : Option ℂ := do
  let R ← nbNearest symbs x
  some (R - x)

/-- `sca_fct`, numba_equalisation.py:350-360; the radius is a real number. -/
noncomputable def nbSca (R : ℝ) (x : ℂ) : Option ℂ :=
  some (((16 * x.re * (R ^ 2 - x.re ^ 2) * (scaSides x).1 : ℝ) : ℂ) + I * ((16 * x.im * (R ^ 2 - x.im ^ 2) * (scaSides x).2 : ℝ) : ℂ))

/-- `cme_fct`, numba_equalisation.py:325-328. -/
noncomputable def nbCme (R d beta : ℝ) (x : ℂ) : Option ℂ :=
  let err := ((R - ‖x‖ ^ 2 : ℝ) : ℂ) * x
  some (err + ((beta * Real.pi / (2 * d) : ℝ) : ℂ) * ((Real.sin (x.re * Real.pi / d) : ℂ) + I * (Real.sin (x.im * Real.pi / d) : ℂ)))

end Qampy
