import Verif.Model.Np
import Verif.Tactics
import Mathlib.Algebra.Order.Floor.Ring
import Mathlib.Data.Rat.Floor

/-!
Signal objects: attributes, buffers, views and copies (`SignalBase`, qampy/signals.py:144-243), pickling, and the request/reply worker of
core/processing.py.

Objects live in a heap. The samples of an object are a selection of a buffer, so that views share memory with their base as in numpy.
-/

namespace Qampy

/-- Python values stored in attributes: `None`, a number, a reference to another signal object, anything else. -/
inductive Val
  | none
  | num (q : ℚ)
  | obj (a : Nat)
  | other (n : Nat)
  deriving DecidableEq

/-- The class attributes `_inheritbase_` and `_inheritattr_`, signals.py:146-147. -/
structure SClass where
  base : List String
  attr : List String
  deriving DecidableEq

/-- An instance: class, memory (buffer and positions in it) and instance attributes. -/
structure SObj where
  cls : SClass
  buf : Nat
  sel : List Nat
  attrs : String → Option Val

/-- All objects and buffers created so far. -/
structure Heap (α : Type _) where
  objs : List SObj
  bufs : List (List α)

variable {α : Type _}

/-- The samples an object shows. -/
def Heap.samples (h : Heap α) (o : SObj) : List α := o.sel.filterMap fun i => (h.bufs.getD o.buf [])[i]?

/-- `setattr(self, k, v)` on an attribute dictionary. -/
def setAttr (f : String → Option Val) (k : String) (v : Val) : String → Option Val := fun x => if x = k then some v else f x

/-- `SignalBase.__array_finalize__`, signals.py:190-201: the attributes of a new object made from `src` (address and object), or from a plain
array (`none`, which has none of the attributes). -/
def finalizeAttrs (cls : SClass) (src : Option (Nat × SObj)) : String → Option Val :=
  match src with
  | none => (cls.base ++ cls.attr).foldl (fun f a => setAttr f a .none) fun _ => none
  | some (addr, o) =>
    let f := (cls.base ++ cls.attr).foldl (fun f a => setAttr f a ((o.attrs a).getD .none)) fun _ => none
    match o.attrs "_symbols" with
    | none => f
    | some .none => setAttr f "_symbols" (.obj addr)
    | some v => setAttr f "_symbols" v

/-- `SignalBase._copy_inherits`, signals.py:183-188: AttributeError when the old object lacks an attribute. -/
def copyInherits (old : SObj) (f : String → Option Val) : Except PyErr (String → Option Val) :=
  (old.cls.base ++ old.cls.attr).foldlM (fun f a =>
    match old.attrs a with
    | none => .error .attr
    | some v => .ok (setAttr f a v)) f

/-- Allocation of an object with a buffer of its own. -/
def Heap.allocFresh (h : Heap α) (cls : SClass) (vals : List α) (attrs : String → Option Val) : Heap α × Nat :=
  (⟨h.objs ++ [⟨cls, h.bufs.length, List.range vals.length, attrs⟩], h.bufs ++ [vals]⟩, h.objs.length)

/-- Allocation of a view: same buffer. -/
def Heap.allocView (h : Heap α) (cls : SClass) (buf : Nat) (sel : List Nat) (attrs : String → Option Val) : Heap α × Nat :=
  (⟨h.objs ++ [⟨cls, buf, sel, attrs⟩], h.bufs⟩, h.objs.length)

/-- Dereference; a dangling address cannot occur in python and is an error here. -/
def Heap.deref (h : Heap α) (a : Nat) : Except PyErr SObj :=
  match h.objs[a]? with
  | none => .error .name
  | some o => .ok o

/-- `setattr` on the object at address `a`. -/
def Heap.set (h : Heap α) (a : Nat) (k : String) (v : Val) : Heap α :=
  match h.objs[a]? with
  | none => h
  | some o => ⟨h.objs.set a ⟨o.cls, o.buf, o.sel, setAttr o.attrs k v⟩, h.bufs⟩

/-- A slice `sig[:, a:b]`: the object shows some of the positions of its base, `idx` are indices into them. -/
def opView (h : Heap α) (a : Nat) (idx : List Nat) : Except PyErr (Heap α × Nat) := do
  let o ← h.deref a
  return h.allocView o.cls o.buf (idx.filterMap fun i => o.sel[i]?) (finalizeAttrs o.cls (some (a, o)))

/-- The result of an arithmetic operation (numpy ufunc): a new object made from `a` with new samples. -/
def opUfunc (h : Heap α) (a : Nat) (vals : List α) : Except PyErr (Heap α × Nat) := do
  let o ← h.deref a
  return h.allocFresh o.cls vals (finalizeAttrs o.cls (some (a, o)))

/-- `sig.copy()`. -/
def opCopy (h : Heap α) (a : Nat) : Except PyErr (Heap α × Nat) := do
  let o ← h.deref a
  return h.allocFresh o.cls (h.samples o) (finalizeAttrs o.cls (some (a, o)))

/-- Writing `vals` to the positions `sel` of a buffer, from the left. -/
def writeSel (b : List α) : List Nat → List α → List α
  | i :: sel, v :: vals => writeSel (b.set i v) sel vals
  | _, _ => b

/-- `sig[:] = vals`, `sig += ...`: changes the buffer of the object. -/
def opInplace (h : Heap α) (a : Nat) (vals : List α) : Except PyErr (Heap α) := do
  let o ← h.deref a
  return ⟨h.objs, h.bufs.set o.buf (writeSel (h.bufs.getD o.buf []) o.sel vals)⟩

/-- `int(self.fs/self.fb)`, signals.py:180-182 (`int` truncates towards zero). -/
def osOf (o : SObj) : Except PyErr Int :=
  match o.attrs "_fs", o.attrs "_fb" with
  | some (.num fs), some (.num fb) => if fb = 0 then .error .zeroDiv else .ok (if 0 ≤ fs / fb then ⌊fs / fb⌋ else ⌈fs / fb⌉)
  | none, _ => .error .attr
  | _, none => .error .attr
  | _, _ => .error .typ

/-- The name under which `recreate_from_np_array` stores a keyword argument, signals.py:215-218. -/
def kwName (cls : SClass) (k : String) : String :=
  let k := if "_" ++ k ∈ cls.attr then "_" ++ k else k
  if "_" ++ k ∈ cls.base then "_" ++ k else k

/-- `SignalBase.recreate_from_np_array(arr, **kwargs)`, signals.py:209-220, for a plain array `arr` with samples `vals` that is not used
elsewhere (the callers pass newly computed arrays). -/
def opRecreate (h : Heap α) (a : Nat) (vals : List α) (kw : List (String × Val)) : Except PyErr (Heap α × Nat) := do
  let o ← h.deref a
  let f ← copyInherits o (finalizeAttrs o.cls none)
  let kw ← match kw.lookup "fb", kw.lookup "fs" with
    | some v, none => do
      let os ← osOf o
      match v with
      | .num fb => pure (kw ++ [("fs", .num (os * fb))])
      | _ => throw .typ
    | _, _ => pure kw
  return h.allocFresh o.cls vals (kw.foldl (fun f p => setAttr f (kwName o.cls p.1) p.2) f)

/-- `np.isclose(x, 1)` with the default tolerances. -/
def isCloseOne (x : ℚ) : Prop := |x - 1| ≤ 1 / 10 ^ 8 + 1 / 10 ^ 5

instance (x : ℚ) : Decidable (isCloseOne x) := by unfold isCloseOne; infer_instance

/-- `SignalBase._resample_array` and `SignalBase.resample(fnew)`, signals.py:222-243; `vals` is the output of the resampling filter. -/
def opResample (h : Heap α) (a : Nat) (fnew : ℚ) (vals : List α) : Except PyErr (Heap α × Nat) := do
  let o ← h.deref a
  let fs ← match o.attrs "_fs" with
    | some (.num fs) => pure fs
    | none => throw .attr
    | _ => throw .typ
  let _ ← match o.attrs "_fb" with
    | none => throw .attr
    | some _ => pure ()
  if fs = 0 then throw .zeroDiv
  let (h, out) ←
    if isCloseOne (fnew / fs) then do
      let (h, c) ← opCopy h a
      let oc ← h.deref c
      pure (h.allocView o.cls oc.buf oc.sel (finalizeAttrs o.cls (some (c, oc))))
    else do
      let f ← copyInherits o (finalizeAttrs o.cls none)
      pure (h.allocFresh o.cls vals f)
  match o.attrs "_symbols" with
  | some (.obj s) => do
    let (h, s') ← opCopy h s
    return ((h.set out "_symbols" (.obj s')).set out "_fs" (.num fnew), out)
  | _ => throw .attr

/-- `SignalQAMGrayCoded.__new__` after the modulation, signals.py:665-675: `params` are the attributes set there (bits, encoding, ...). The
signal is at address 0, its reference symbols at address 1. -/
def newSignal (cls : SClass) (syms : List α) (M fb : Val) (params : List (String × Val)) : Heap α :=
  let f := params.foldl (fun f p => setAttr f p.1 p.2) (finalizeAttrs cls none)
  let f := setAttr (setAttr (setAttr f "_M" M) "_fb" fb) "_fs" fb
  let o : SObj := ⟨cls, 0, List.range syms.length, f⟩
  let h : Heap α := ⟨[o], [syms]⟩
  let (h, c) := h.allocFresh cls (h.samples o) (finalizeAttrs cls (some (0, o)))
  h.set 0 "_symbols" (.obj c)

/-- The operations of a processing chain; the first argument is the number of the signal in the list of those obtained so far. -/
inductive SOp (α : Type _)
  | view (i : Nat) (idx : List Nat)
  | ufunc (i : Nat) (vals : List α)
  | copy (i : Nat)
  | inplace (i : Nat) (vals : List α)
  | recreate (i : Nat) (vals : List α) (kw : List (String × Val))
  | resample (i : Nat) (fnew : ℚ) (vals : List α)

/-- One operation on the heap and the list of addresses of the signals obtained so far. -/
def sigStep (st : Heap α × List Nat) (op : SOp α) : Except PyErr (Heap α × List Nat) :=
  let live (i : Nat) : Except PyErr Nat := match st.2[i]? with
    | none => .error .name
    | some a => .ok a
  match op with
  | .view i idx => do let a ← live i; let (h, n) ← opView st.1 a idx; return (h, st.2 ++ [n])
  | .ufunc i vals => do let a ← live i; let (h, n) ← opUfunc st.1 a vals; return (h, st.2 ++ [n])
  | .copy i => do let a ← live i; let (h, n) ← opCopy st.1 a; return (h, st.2 ++ [n])
  | .inplace i vals => do let a ← live i; let h ← opInplace st.1 a vals; return (h, st.2)
  | .recreate i vals kw => do let a ← live i; let (h, n) ← opRecreate st.1 a vals kw; return (h, st.2 ++ [n])
  | .resample i fnew vals => do let a ← live i; let (h, n) ← opResample st.1 a fnew vals; return (h, st.2 ++ [n])

/-- The attribute list of `SignalBase`, signals.py:146. -/
def baseAttrs : List String := ["_fs", "_fb", "_M"]

/-- `SignalQAMGrayCoded`, signals.py:612-613. -/
def qamClass : SClass := ⟨baseAttrs, ["_symbols", "_bits", "_encoding", "_bitmap_mtx", "_code", "_coded_symbols"]⟩

/-- `TDHQAMSymbols`, signals.py:1229. -/
def tdhClass : SClass := ⟨baseAttrs, ["_symbols_M1", "_symbols_M2", "_fr", "_powratio"]⟩

/-- `SymbolOnlySignal`, signals.py:1044. -/
def symbolOnlyClass : SClass := ⟨baseAttrs, ["_symbols", "_coded_symbols"]⟩

/-- `SignalWithPilots`, signals.py:1490-1492. -/
def pilotClass : SClass := ⟨baseAttrs, ["_pilots", "_symbols", "_frame_len", "_pilot_seq_len", "_nframes", "_idx_dat", "_pilot_scale",
  "_pilot_ins_rat", "_shiftfctrs", "_synctaps", "_idx_pil", "_foe"]⟩

/-! ### Pickling -/

/-- `SignalBase.__reduce__`, signals.py:150-155: the state tuple; `arr` is the state of the array itself (numpy), values are pickled
recursively (trusted). -/
def reduceState {V : Type _} (attrsList : List String) (arr : List V) (attrs : String → Option V) : Except PyErr (List V) :=
  attrsList.foldlM (fun st a =>
    match attrs a with
    | none => .error .attr
    | some v => .ok (st ++ [v])) arr

/-- Python's `l[i]` (negative indices count from the end). -/
def pyItem {V : Type _} (l : List V) (i : Int) : Option V :=
  if 0 ≤ i then l[i.toNat]? else if 0 ≤ i + l.length then l[(i + l.length).toNat]? else none

/-- One pass of the loop of `SignalBase.__setstate__`, signals.py:163-165: `setattr(self, att, state[ls+i])`. -/
def setStateStep {V : Type _} (attrsList : List String) (state : List V) (ls : Int) (f : String → Option V) (i : Nat) :
    Except PyErr (String → Option V) :=
  match attrsList[i]?, pyItem state (ls + i) with
  | some a, some v => .ok fun x => if x = a then some v else f x
  | _, _ => .error .index

/-- `SignalBase.__setstate__`, signals.py:157-165, on the new object that unpickling creates (no attributes): the array state and the attributes. -/
def setState {V : Type _} (attrsList : List String) (state : List V) : Except PyErr (List V × (String → Option V)) := do
  let l := attrsList.length
  let ls : Int := (state.length : Int) - l
  let r ← (List.range l).foldlM (setStateStep attrsList state ls) (fun _ => none)
  return (Np.sliceTo state (-(l : Int)), r)

/-! ### Worker -/

/-- What the handler called for a request does: return a value, or raise an `Exception` or another `BaseException`. -/
inductive Outcome (V : Type _)
  | ret (v : V)
  | exc (repr : String)
  | base
  deriving DecidableEq

/-- A reply: the status (`OK` is true) and the payload. -/
abbrev Reply (V : Type _) := Bool × (V ⊕ String)

/-- `str.encode("ascii")` succeeds. -/
def isAscii (s : String) : Bool := s.toList.all fun c => c.toNat < 128

/-- The `try`/`except` part of `RepWorker.process`, core/processing.py:87-92: the local variables `result` and `success` (when bound) and whether
an exception is pending. The error text is encoded to ASCII bytes. -/
def tryBlock {V : Type _} (o : Outcome V) : Option (V ⊕ String) × Option Bool × Bool :=
  match o with
  | .ret v => (some (.inl v), some true, false)
  | .exc r => if isAscii r then (some (.inr r), some false, false) else (none, some false, true)
  | .base => (none, none, true)

/-- `RepWorker.process`, core/processing.py:85-94: the messages sent and whether the worker is still running. `packable` tells whether msgpack can
serialise a result (bytes always can). The `finally` clause sends; an unbound variable or a failing serialisation raises there, and an exception
that leaves `process` ends `run`. A request that is no handler name is an `AttributeError`, one of the outcomes. -/
def process {V : Type _} (packable : V → Bool) (o : Outcome V) : List (Reply V) × Bool :=
  match tryBlock o with
  | (some p, some s, pending) => if p.elim packable fun _ => true then ([(s, p)], !pending) else ([], false)
  | _ => ([], false)

/-- `RepWorker.run`, core/processing.py:96-98, on a sequence of requests (by the outcome of their handlers). -/
def runWorker {V : Type _} (packable : V → Bool) : List (Outcome V) → List (Reply V) × Bool
  | [] => ([], true)
  | o :: os =>
    match process packable o with
    | (rs, true) => let (rs', b) := runWorker packable os; (rs ++ rs', b)
    | (rs, false) => (rs, false)

end Qampy
