import Verif.Model.Signal
import Verif.Lemmas.Constellation

/-!
C53 histories of signal objects, C55 pickling, C56 the worker.
-/

namespace Qampy

/-! ### C56 -/

/-- The reply a client expects for a request. -/
def expectedReply {V : Type} : Outcome V → Option (Reply V)
  | .ret v => some (true, .inl v)
  | .exc r => some (false, .inr r)
  | .base => none

/-- C56, the full property: as long as handlers return or raise ordinary exceptions, every request is answered with exactly one reply, in order,
and the worker keeps running. -/
def C56_statement : Prop := ∀ (packable : Nat → Bool) (os : List (Outcome Nat)), (∀ o ∈ os, o ≠ .base) →
  (runWorker packable os).1.map some = os.map expectedReply ∧ (runWorker packable os).2 = true

/-- An exception whose text is not ASCII stops the worker, without a reply. -/
theorem C56_false : ¬ C56_statement := by
  intro h
  have := (h (fun _ => true) [.exc "ValueError('µ')"] (by simp)).2
  revert this
  decide +kernel

/-- So does a result which cannot be serialised. -/
theorem C56_false_result : runWorker (fun n : Nat => decide (n ≠ 1)) [.ret 0, .ret 1, .ret 2] = ([(true, .inl 0)], false) := by decide +kernel

/-- A request that gets its reply: a serialisable result or an exception with ASCII text. -/
def answered {V : Type} (packable : V → Bool) : Outcome V → Bool
  | .ret v => packable v
  | .exc r => isAscii r
  | .base => false

/-- C56 for every sequence of requests: the requests before the first one that cannot be answered get exactly one reply each, in order and with the
right status; nothing is sent afterwards, and the worker is running iff all have been answered. -/
theorem C56_replies {V : Type} (packable : V → Bool) (os : List (Outcome V)) :
    (runWorker packable os).1.map some = (os.takeWhile (answered packable)).map expectedReply ∧
      ((runWorker packable os).2 = true ↔ ∀ o ∈ os, answered packable o = true) := by
  induction os with
  | nil => simp [runWorker]
  | cons o os ih =>
    have hp : process packable o = if answered packable o then ((expectedReply o).toList, true) else ([], false) := by
      cases o with
      | ret v => by_cases h : packable v = true <;> simp [process, tryBlock, answered, expectedReply, h]
      | exc r => by_cases h : isAscii r = true <;> simp [process, tryBlock, answered, expectedReply, h]
      | base => simp [process, tryBlock, answered]
    by_cases h : answered packable o = true
    · rw [if_pos h] at hp
      rw [runWorker, hp, List.takeWhile_cons_of_pos h]
      simp only [List.map_append, List.map_cons, List.mem_cons, forall_eq_or_imp]
      refine ⟨?_, by rw [ih.2]; simp [h]⟩
      rw [ih.1]
      cases o with
      | ret v => rfl
      | exc r => rfl
      | base => simp [answered] at h
    · rw [if_neg h] at hp
      rw [runWorker, hp, List.takeWhile_cons_of_neg h]
      simp [h]

/-- C56 when all results can be serialised and all error texts are ASCII: one reply per request, and the worker never stops. -/
theorem C56_one_reply_partial {V : Type} (packable : V → Bool) (os : List (Outcome V)) (h : ∀ o ∈ os, answered packable o = true) :
    (runWorker packable os).1.map some = os.map expectedReply ∧ (runWorker packable os).2 = true := by
  obtain ⟨h1, h2⟩ := C56_replies packable os
  refine ⟨?_, h2.2 h⟩
  rw [h1]
  congr 1
  induction os with
  | nil => rfl
  | cons o os ih =>
    rw [List.takeWhile_cons_of_pos (h o (by simp))]
    obtain ⟨g1, g2⟩ := C56_replies packable os
    rw [ih (fun x hx => h x (by simp [hx])) g1 g2]

example : runWorker (fun _ : Nat => true) [.ret 3, .exc "KeyError('id')", .ret 4] =
    ([(true, .inl 3), (false, .inr "KeyError('id')"), (true, .inl 4)], true) := by decide +kernel

/-! ### C55 -/

theorem reduceState_spec {V : Type} (l : List String) (arr : List V) (attrs : String → Option V) (st : List V)
    (h : reduceState l arr attrs = .ok st) : ∃ vs, st = arr ++ vs ∧ vs.map some = l.map attrs := by
  induction l generalizing arr with
  | nil =>
    simp only [reduceState, List.foldlM_nil, pure, Except.pure, Except.ok.injEq] at h
    exact ⟨[], by simp [h], rfl⟩
  | cons a l ih =>
    simp only [reduceState, List.foldlM_cons, bind, Except.bind] at h
    cases ha : attrs a with
    | none => rw [ha] at h; cases h
    | some v =>
      rw [ha] at h
      obtain ⟨vs, h1, h2⟩ := ih (arr ++ [v]) h
      exact ⟨v :: vs, by rw [h1]; simp, by simp [h2, ha]⟩

theorem reduceState_ok {V : Type} (l : List String) (arr : List V) (attrs : String → Option V) (h : ∀ a ∈ l, attrs a ≠ none) :
    ∃ st, reduceState l arr attrs = .ok st := by
  induction l generalizing arr with
  | nil => exact ⟨arr, rfl⟩
  | cons a l ih =>
    obtain ⟨v, hv⟩ := Option.ne_none_iff_exists'.1 (h a (by simp))
    obtain ⟨st, hs⟩ := ih (arr ++ [v]) fun b hb => h b (by simp [hb])
    refine ⟨st, ?_⟩
    simp only [reduceState, List.foldlM_cons, bind, Except.bind, hv]
    exact hs

theorem setState_fold {V : Type} (l : List String) (state : List V) (ls : Nat) (vs : List V) (hvs : vs.length = l.length)
    (hst : ∀ i < l.length, state[ls + i]? = vs[i]?) (n : Nat) (hn : n ≤ l.length) :
    ∃ f, (List.range n).foldlM (setStateStep l state ls) (fun _ => none) = .ok f ∧
      ∀ x, (x ∉ l.take n → f x = none) ∧ (x ∈ l.take n → ∃ i v, i < n ∧ l[i]? = some x ∧ vs[i]? = some v ∧ f x = some v) := by
  induction n with
  | zero => exact ⟨_, rfl, by simp⟩
  | succ n ih =>
    obtain ⟨f, h1, h2⟩ := ih (by omega)
    have hln : l[n]? = some l[n] := List.getElem?_eq_getElem (by omega)
    have hvn : vs[n]? = some vs[n] := List.getElem?_eq_getElem (by omega)
    have hpy : pyItem state ((ls : Int) + n) = some vs[n] := by
      rw [pyItem, if_pos (by omega), show ((ls : Int) + n).toNat = ls + n by omega, hst n (by omega), hvn]
    refine ⟨fun x => if x = l[n] then some vs[n] else f x, ?_, ?_⟩
    · rw [List.range_succ, List.foldlM_append, h1]
      simp only [bind, Except.bind, List.foldlM_cons, List.foldlM_nil, setStateStep, hln, hpy, pure, Except.pure]
    · intro x
      rw [List.take_add_one, hln]
      simp only [Option.toList_some, List.mem_append, List.mem_singleton, not_or]
      constructor
      · rintro ⟨h3, h4⟩
        rw [if_neg h4]
        exact (h2 x).1 h3
      · intro hx
        by_cases hxn : x = l[n]
        · exact ⟨n, vs[n], by omega, by rw [hln, hxn], hvn, by rw [if_pos hxn]⟩
        · rw [if_neg hxn]
          obtain ⟨i, v, hi, h3, h4, h5⟩ := (h2 x).2 (hx.resolve_right hxn)
          exact ⟨i, v, by omega, h3, h4, h5⟩

/-- C55: for any nonempty list of declared attributes (`_inheritbase_` alone has three) pickling and unpickling restores the array and every declared
attribute, and nothing else. -/
theorem C55_round_trip {V : Type} (l : List String) (hl : l ≠ []) (arr : List V) (attrs : String → Option V) (h : ∀ a ∈ l, attrs a ≠ none) :
    ∃ st f, reduceState l arr attrs = .ok st ∧ setState l st = .ok (arr, f) ∧ (∀ a ∈ l, f a = attrs a) ∧ ∀ a, a ∉ l → f a = none := by
  obtain ⟨st, hst⟩ := reduceState_ok l arr attrs h
  obtain ⟨vs, hs, hv⟩ := reduceState_spec l arr attrs st hst
  have hlen : vs.length = l.length := by have := congrArg List.length hv; simpa using this
  obtain ⟨f, h1, h2⟩ := setState_fold l st arr.length vs hlen (by
    intro i _
    rw [hs, List.getElem?_append_right (by omega), Nat.add_sub_cancel_left]) l.length le_rfl
  refine ⟨st, f, hst, ?_, ?_, ?_⟩
  · unfold setState
    have e : ((st.length : Int) - (l.length : Int)) = (arr.length : Int) := by rw [hs, List.length_append, hlen]; push_cast; ring
    have e' : Np.sliceTo st (-(l.length : Int)) = arr := ?_
    · simp only [e, h1, bind, Except.bind, pure, Except.pure, e']
    have hpos : 0 < l.length := List.length_pos_iff.2 hl
    have hc : Np.clamp st.length (-(l.length : Int)) = arr.length := by
      rw [hs, List.length_append, hlen, Np.clamp]
      push_cast
      split <;> omega
    rw [Np.sliceTo, hc, hs, List.take_left]
  · intro a ha
    obtain ⟨i, v, -, h3, h4, h5⟩ := (h2 a).2 (by rwa [List.take_length])
    have := congrArg (fun L => L[i]?) hv
    simp only [List.getElem?_map, h3, h4, Option.map_some, Option.some.injEq] at this
    rw [h5, this]
  · intro a ha
    exact (h2 a).1 (by rwa [List.take_length])

/-- The attribute `_power_method` of hybrid signals (signals.py:1263) is not declared, it does not survive. -/
theorem C55_undeclared_lost {V : Type} (arr : List V) (attrs : String → Option V) (h : ∀ a ∈ tdhClass.base ++ tdhClass.attr, attrs a ≠ none) :
    ∃ st f, reduceState (tdhClass.base ++ tdhClass.attr) arr attrs = .ok st ∧ setState (tdhClass.base ++ tdhClass.attr) st = .ok (arr, f) ∧
      f "_power_method" = none := by
  obtain ⟨st, f, h1, h2, -, h3⟩ := C55_round_trip _ (by decide) arr attrs h
  exact ⟨st, f, h1, h2, h3 _ (by decide)⟩

example : reduceState ["_fs", "_fb"] [10, 20, 30] (fun s => if s = "_fs" then some 2 else if s = "_fb" then some 1 else none) =
    .ok [10, 20, 30, 2, 1] := by decide +kernel

/-! ### C53 -/

theorem foldl_setAttr (l : List String) (g : String → Val) (f : String → Option Val) (k : String) :
    (l.foldl (fun f a => setAttr f a (g a)) f) k = if k ∈ l then some (g k) else f k := by
  induction l generalizing f with
  | nil => simp
  | cons a l ih =>
    rw [List.foldl_cons, ih]
    by_cases h1 : k ∈ l
    · simp [h1]
    · by_cases h2 : k = a
      · simp [h2, setAttr]
      · simp [h1, h2, setAttr]

theorem foldl_setAttr_pairs_ne (kw : List (String × Val)) (n : String × Val → String) (f : String → Option Val) (k : String)
    (h : ∀ p ∈ kw, n p ≠ k) : (kw.foldl (fun f p => setAttr f (n p) p.2) f) k = f k := by
  induction kw generalizing f with
  | nil => rfl
  | cons p kw ih =>
    rw [List.foldl_cons, ih _ fun q hq => h q (by simp [hq]), setAttr, if_neg (Ne.symm (h p (by simp)))]

theorem foldl_setAttr_pairs_present (kw : List (String × Val)) (n : String × Val → String) (f : String → Option Val) (k : String)
    (h : ∃ v, f k = some v) : ∃ v, (kw.foldl (fun f p => setAttr f (n p) p.2) f) k = some v := by
  induction kw generalizing f with
  | nil => exact h
  | cons p kw ih =>
    rw [List.foldl_cons]
    apply ih
    unfold setAttr
    split
    · exact ⟨_, rfl⟩
    · exact h

theorem finalize_some (cls : SClass) (a : Nat) (o : SObj) (k : String) (hk : k ∈ cls.base ++ cls.attr) (hs : k ≠ "_symbols") :
    finalizeAttrs cls (some (a, o)) k = some ((o.attrs k).getD .none) := by
  unfold finalizeAttrs
  rcases ho : o.attrs "_symbols" with _ | v
  · simp only [ho]
    rw [foldl_setAttr, if_pos hk]
  · cases v <;> simp only [ho] <;> rw [setAttr, if_neg hs, foldl_setAttr, if_pos hk]

theorem finalize_symbols (cls : SClass) (a : Nat) (o : SObj) (s : Nat) (h : o.attrs "_symbols" = some (.obj s)) :
    finalizeAttrs cls (some (a, o)) "_symbols" = some (.obj s) := by
  unfold finalizeAttrs
  simp [h, setAttr]

theorem finalize_none (cls : SClass) (k : String) (hk : k ∈ cls.base ++ cls.attr) : finalizeAttrs cls none k = some .none := by
  unfold finalizeAttrs
  simp only
  rw [foldl_setAttr, if_pos hk]

theorem finalize_present (cls : SClass) (src : Option (Nat × SObj)) (k : String) (hk : k ∈ cls.base ++ cls.attr) :
    ∃ v, finalizeAttrs cls src k = some v := by
  cases src with
  | none => exact ⟨_, finalize_none cls k hk⟩
  | some p =>
    by_cases hs : k = "_symbols"
    · unfold finalizeAttrs
      rcases ho : p.2.attrs "_symbols" with _ | v
      · simp only [ho]
        rw [foldl_setAttr, if_pos hk]; exact ⟨_, rfl⟩
      · cases v <;> simp only [ho] <;> exact ⟨_, by rw [setAttr, if_pos hs]⟩
    · exact ⟨_, finalize_some cls p.1 p.2 k hk hs⟩

theorem copyInherits_ok (old : SObj) (h : ∀ k ∈ old.cls.base ++ old.cls.attr, ∃ v, old.attrs k = some v) (f : String → Option Val) :
    ∃ f', copyInherits old f = .ok f' ∧ ∀ k, f' k = if k ∈ old.cls.base ++ old.cls.attr then old.attrs k else f k := by
  unfold copyInherits
  generalize old.cls.base ++ old.cls.attr = l at h
  induction l generalizing f with
  | nil => exact ⟨f, rfl, by simp⟩
  | cons a l ih =>
    obtain ⟨v, hv⟩ := h a (by simp)
    obtain ⟨f', h1, h2⟩ := ih (setAttr f a v) (fun k hk => h k (by simp [hk]))
    refine ⟨f', ?_, ?_⟩
    · simp only [List.foldlM_cons, hv, bind, Except.bind]
      exact h1
    · intro k
      rw [h2]
      by_cases h1 : k ∈ l
      · simp [h1]
      · by_cases h2 : k = a
        · simp [h2, setAttr, hv]
        · simp [h1, h2, setAttr]

variable {α : Type}

/-- A signal object with the given order, symbol rate and sampling rate, all declared attributes present. -/
structure GoodObj (cls : SClass) (M : Val) (fb fs : ℚ) (o : SObj) : Prop where
  hcls : o.cls = cls
  pres : ∀ k ∈ cls.base ++ cls.attr, ∃ v, o.attrs k = some v
  hM : o.attrs "_M" = some M
  hfb : o.attrs "_fb" = some (.num fb)
  hfs : o.attrs "_fs" = some (.num fs)

/-- The object refers to reference symbols with the samples `syms`, in one of the buffers `P`. -/
def HasSymbols (P : Nat → Prop) (syms : List α) (h : Heap α) (o : SObj) : Prop :=
  ∃ s so, o.attrs "_symbols" = some (.obj s) ∧ h.objs[s]? = some so ∧ P so.buf ∧ so.buf < h.bufs.length ∧ h.samples so = syms

/-- Invariant of a processing history: `P` are the buffers that hold reference symbols; no signal of the user owns one of them. -/
structure SigInv (cls : SClass) (M : Val) (fb : ℚ) (syms : List α) (P : Nat → Prop) (h : Heap α) (live : List Nat) (fss : List ℚ) : Prop where
  len : live.length = fss.length
  lt : ∀ b, P b → b < h.bufs.length
  obj : ∀ (i a : Nat) (fs : ℚ), live[i]? = some a → fss[i]? = some fs → ∃ o, h.objs[a]? = some o ∧ GoodObj cls M fb fs o ∧ ¬ P o.buf ∧
    o.buf < h.bufs.length ∧ HasSymbols P syms h o

/-- `h'` has all objects and buffers of `h`, unchanged. -/
structure HeapExt (h h' : Heap α) : Prop where
  objs : ∀ (a : Nat) (o : SObj), h.objs[a]? = some o → h'.objs[a]? = some o
  bufs : ∀ b : Nat, b < h.bufs.length → h'.bufs[b]? = h.bufs[b]?
  len : h.bufs.length ≤ h'.bufs.length

theorem HeapExt.refl (h : Heap α) : HeapExt h h := ⟨fun _ _ h => h, fun _ _ => rfl, le_rfl⟩

theorem HeapExt.trans {h h' h'' : Heap α} (a : HeapExt h h') (b : HeapExt h' h'') : HeapExt h h'' :=
  ⟨fun x o hx => b.objs x o (a.objs x o hx), fun x hx => by rw [b.bufs x (lt_of_lt_of_le hx a.len), a.bufs x hx], a.len.trans b.len⟩

theorem HeapExt.samples {h h' : Heap α} (e : HeapExt h h') (o : SObj) (ho : o.buf < h.bufs.length) : h'.samples o = h.samples o := by
  unfold Heap.samples
  rw [List.getD_eq_getElem?_getD, List.getD_eq_getElem?_getD, e.bufs _ ho]

theorem HeapExt.hasSymbols {h h' : Heap α} (e : HeapExt h h') {P P' : Nat → Prop} (hP : ∀ b, P b → P' b) {syms : List α} {o : SObj}
    (hs : HasSymbols P syms h o) : HasSymbols P' syms h' o := by
  obtain ⟨s, so, h1, h2, h3, h4, h5⟩ := hs
  exact ⟨s, so, h1, e.objs _ _ h2, hP _ h3, lt_of_lt_of_le h4 e.len, by rw [e.samples so h4, h5]⟩

theorem SigInv.ext {cls : SClass} {M : Val} {fb : ℚ} {syms : List α} {P P' : Nat → Prop} {h h' : Heap α} {live : List Nat} {fss : List ℚ}
    (I : SigInv cls M fb syms P h live fss) (e : HeapExt h h') (hP : ∀ b, P b → P' b) (hP' : ∀ b, P' b → P b ∨ h.bufs.length ≤ b)
    (hb : ∀ b, P' b → b < h'.bufs.length) : SigInv cls M fb syms P' h' live fss := by
  refine ⟨I.len, hb, ?_⟩
  intro i a fs h1 h2
  obtain ⟨o, h3, h4, h5, h6, h7⟩ := I.obj i a fs h1 h2
  refine ⟨o, e.objs _ _ h3, h4, ?_, lt_of_lt_of_le h6 e.len, e.hasSymbols hP h7⟩
  intro h8
  rcases hP' _ h8 with h9 | h9
  · exact h5 h9
  · omega

theorem SigInv.add {cls : SClass} {M : Val} {fb : ℚ} {syms : List α} {P : Nat → Prop} {h : Heap α} {live : List Nat} {fss : List ℚ}
    (I : SigInv cls M fb syms P h live fss) (n : Nat) (fs : ℚ) (o : SObj) (ho : h.objs[n]? = some o) (hg : GoodObj cls M fb fs o)
    (hP : ¬ P o.buf) (hb : o.buf < h.bufs.length) (hs : HasSymbols P syms h o) : SigInv cls M fb syms P h (live ++ [n]) (fss ++ [fs]) := by
  refine ⟨by simp [I.len], I.lt, ?_⟩
  intro i a fs' h1 h2
  by_cases hi : i < live.length
  · rw [List.getElem?_append_left hi] at h1
    rw [List.getElem?_append_left (by rw [← I.len]; exact hi)] at h2
    exact I.obj i a fs' h1 h2
  · have hi' : i = live.length := by
      have := (List.getElem?_eq_some_iff.1 h1).1
      simp at this
      omega
    subst hi'
    rw [List.getElem?_append_right le_rfl, Nat.sub_self, List.getElem?_cons_zero, Option.some.injEq] at h1
    rw [I.len, List.getElem?_append_right le_rfl, Nat.sub_self, List.getElem?_cons_zero, Option.some.injEq] at h2
    subst h1 h2
    exact ⟨o, ho, hg, hP, hb, hs⟩

theorem allocFresh_ext (h : Heap α) (cls : SClass) (vals : List α) (f : String → Option Val) : HeapExt h (h.allocFresh cls vals f).1 := by
  refine ⟨?_, ?_, ?_⟩
  · intro a o ha
    rw [Heap.allocFresh, List.getElem?_append_left (List.getElem?_eq_some_iff.1 ha).1, ha]
  · intro b hb
    rw [Heap.allocFresh, List.getElem?_append_left hb]
  · simp [Heap.allocFresh]

theorem allocView_ext (h : Heap α) (cls : SClass) (b : Nat) (sel : List Nat) (f : String → Option Val) : HeapExt h (h.allocView cls b sel f).1 := by
  refine ⟨?_, ?_, ?_⟩
  · intro a o ha
    rw [Heap.allocView, List.getElem?_append_left (List.getElem?_eq_some_iff.1 ha).1, ha]
  · intro b hb; rfl
  · exact le_rfl

theorem set_ext (h h' : Heap α) (e : HeapExt h h') (n : Nat) (hn : h.objs.length ≤ n) (k : String) (v : Val) : HeapExt h (h'.set n k v) := by
  unfold Heap.set
  split
  · exact e
  · refine ⟨?_, e.bufs, e.len⟩
    intro a o ha
    have := (List.getElem?_eq_some_iff.1 ha).1
    rw [List.getElem?_set_ne (by omega)]
    exact e.objs a o ha

theorem allocFresh_obj (h : Heap α) (cls : SClass) (vals : List α) (f : String → Option Val) :
    (h.allocFresh cls vals f).1.objs[(h.allocFresh cls vals f).2]? = some ⟨cls, h.bufs.length, List.range vals.length, f⟩ := by
  simp [Heap.allocFresh]

theorem allocView_obj (h : Heap α) (cls : SClass) (b : Nat) (sel : List Nat) (f : String → Option Val) :
    (h.allocView cls b sel f).1.objs[(h.allocView cls b sel f).2]? = some ⟨cls, b, sel, f⟩ := by
  simp [Heap.allocView]

theorem allocFresh_bufs (h : Heap α) (cls : SClass) (vals : List α) (f : String → Option Val) :
    (h.allocFresh cls vals f).1.bufs.length = h.bufs.length + 1 := by simp [Heap.allocFresh]

theorem allocFresh_samples (h : Heap α) (cls : SClass) (vals : List α) (f : String → Option Val) :
    (h.allocFresh cls vals f).1.samples ⟨cls, h.bufs.length, List.range vals.length, f⟩ = vals := by
  simp only [Heap.samples, Heap.allocFresh, List.getD_eq_getElem?_getD, List.getElem?_append_right (le_refl h.bufs.length), Nat.sub_self,
    List.getElem?_cons_zero, Option.getD_some]
  induction vals with
  | nil => rfl
  | cons a l ih =>
    rw [List.length_cons, List.range_succ_eq_map, List.filterMap_cons, List.getElem?_cons_zero, List.filterMap_map]
    simp only [List.cons.injEq, true_and]
    refine Eq.trans ?_ ih
    apply List.filterMap_congr
    intro i _
    rfl

/-- Keyword arguments of the calls of `recreate_from_np_array` in the package: none, or a sampling rate. -/
def kwOk (kw : List (String × Val)) (fs fs' : ℚ) : Prop := (kw = [] ∧ fs' = fs) ∨ kw = [("fs", .num fs')]

/-- The sampling rates a user expects: copies, slices and results of arithmetic keep it, filtering and the like keep it or set it to a given value,
resampling sets it. -/
inductive SpecStep (α : Type) : List ℚ → SOp α → List ℚ → Prop
  | view {l i idx fs} : l[i]? = some fs → SpecStep α l (.view i idx) (l ++ [fs])
  | ufunc {l i vals fs} : l[i]? = some fs → SpecStep α l (.ufunc i vals) (l ++ [fs])
  | copy {l i fs} : l[i]? = some fs → SpecStep α l (.copy i) (l ++ [fs])
  | inplace {l i vals fs} : l[i]? = some fs → SpecStep α l (.inplace i vals) l
  | recreate {l i vals kw fs fs'} : l[i]? = some fs → kwOk kw fs fs' → SpecStep α l (.recreate i vals kw) (l ++ [fs'])
  | resample {l i fnew vals fs} : l[i]? = some fs → fs ≠ 0 → SpecStep α l (.resample i fnew vals) (l ++ [fnew])

/-- Expected sampling rates after a history. -/
inductive SpecRun (α : Type) : List ℚ → List (SOp α) → List ℚ → Prop
  | nil {l} : SpecRun α l [] l
  | cons {l l' l'' op ops} : SpecStep α l op l' → SpecRun α l' ops l'' → SpecRun α l (op :: ops) l''

theorem good_finalize {cls : SClass} {M : Val} {fb fs : ℚ} {o : SObj} (hb : baseAttrs ⊆ cls.base) (hg : GoodObj cls M fb fs o) (a buf : Nat)
    (sel : List Nat) : GoodObj cls M fb fs ⟨o.cls, buf, sel, finalizeAttrs o.cls (some (a, o))⟩ := by
  have hm : ∀ k ∈ baseAttrs, k ∈ cls.base ++ cls.attr := fun k hk => List.mem_append_left _ (hb hk)
  refine ⟨hg.hcls, ?_, ?_, ?_, ?_⟩
  · intro k hk
    dsimp only
    rw [hg.hcls]; exact finalize_present _ _ _ hk
  · dsimp only
    rw [hg.hcls, finalize_some _ _ _ _ (hm _ (by decide)) (by decide), hg.hM]; rfl
  · dsimp only
    rw [hg.hcls, finalize_some _ _ _ _ (hm _ (by decide)) (by decide), hg.hfb]; rfl
  · dsimp only
    rw [hg.hcls, finalize_some _ _ _ _ (hm _ (by decide)) (by decide), hg.hfs]; rfl

theorem symbols_finalize {P : Nat → Prop} {syms : List α} {h : Heap α} {o : SObj} (hs : HasSymbols P syms h o) (cls cls' : SClass) (a buf : Nat)
    (sel : List Nat) : HasSymbols P syms h ⟨cls', buf, sel, finalizeAttrs cls (some (a, o))⟩ := by
  obtain ⟨s, so, h1, h2, h3, h4, h5⟩ := hs
  exact ⟨s, so, finalize_symbols _ _ _ _ h1, h2, h3, h4, h5⟩

theorem deref_ok {h : Heap α} {a : Nat} {o : SObj} (ha : h.objs[a]? = some o) : h.deref a = .ok o := by rw [Heap.deref, ha]

theorem sigStep_inv {cls : SClass} {M : Val} {fb : ℚ} {syms : List α} (hbase : baseAttrs ⊆ cls.base) (hkw : kwName cls "fs" = "_fs")
    (hsym : "_symbols" ∈ cls.attr)
    {P : Nat → Prop} {h : Heap α} {live : List Nat} {fss fss' : List ℚ} {op : SOp α} (I : SigInv cls M fb syms P h live fss)
    (hop : SpecStep α fss op fss') : ∃ h' live' P', sigStep (h, live) op = .ok (h', live') ∧ SigInv cls M fb syms P' h' live' fss' := by
  have get : ∀ (i : Nat) (fs : ℚ), fss[i]? = some fs → ∃ a o, live[i]? = some a ∧ h.objs[a]? = some o ∧ GoodObj cls M fb fs o ∧ ¬ P o.buf ∧
      o.buf < h.bufs.length ∧ HasSymbols P syms h o := by
    intro i fs hi
    have hlt : i < live.length := by rw [I.len]; exact (List.getElem?_eq_some_iff.1 hi).1
    obtain ⟨o, h1⟩ := I.obj i live[i] fs (List.getElem?_eq_getElem hlt) hi
    exact ⟨live[i], o, List.getElem?_eq_getElem hlt, h1⟩
  cases hop with
  | @view i idx fs hi =>
    obtain ⟨a, o, h1, h2, h3, h4, h5, h6⟩ := get i fs hi
    have hstep : sigStep (h, live) (.view i idx) = Except.ok ((h.allocView o.cls o.buf (idx.filterMap fun i => o.sel[i]?) (finalizeAttrs o.cls (some (a, o)))).1, live ++ [(h.allocView o.cls o.buf (idx.filterMap fun i => o.sel[i]?) (finalizeAttrs o.cls (some (a, o)))).2]) := by
      simp only [sigStep, h1, opView, deref_ok h2, bind, Except.bind, pure, Except.pure]
    refine ⟨_, _, P, hstep, ?_⟩
    have e := allocView_ext h o.cls o.buf (idx.filterMap fun i => o.sel[i]?) (finalizeAttrs o.cls (some (a, o)))
    exact (I.ext e (fun _ h => h) (fun _ h => Or.inl h) I.lt).add _ fs _ (allocView_obj _ _ _ _ _) (good_finalize hbase h3 a _ _) h4 h5
      (e.hasSymbols (fun _ h => h) (symbols_finalize h6 _ _ _ _ _))
  | @ufunc i vals fs hi =>
    obtain ⟨a, o, h1, h2, h3, h4, h5, h6⟩ := get i fs hi
    have hstep : sigStep (h, live) (.ufunc i vals) = Except.ok ((h.allocFresh o.cls vals (finalizeAttrs o.cls (some (a, o)))).1, live ++ [(h.allocFresh o.cls vals (finalizeAttrs o.cls (some (a, o)))).2]) := by
      simp only [sigStep, h1, opUfunc, deref_ok h2, bind, Except.bind, pure, Except.pure]
    refine ⟨_, _, P, hstep, ?_⟩
    have e := allocFresh_ext h o.cls vals (finalizeAttrs o.cls (some (a, o)))
    exact (I.ext e (fun _ h => h) (fun _ h => Or.inl h) fun b hb => lt_of_lt_of_le (I.lt b hb) e.len).add _ fs _ (allocFresh_obj _ _ _ _)
      (good_finalize hbase h3 a _ _) (fun hP => absurd (I.lt _ hP) (lt_irrefl _)) (by simp [Heap.allocFresh])
      (e.hasSymbols (fun _ h => h) (symbols_finalize h6 _ _ _ _ _))
  | @copy i fs hi =>
    obtain ⟨a, o, h1, h2, h3, h4, h5, h6⟩ := get i fs hi
    have hstep : sigStep (h, live) (.copy i) = Except.ok ((h.allocFresh o.cls (h.samples o) (finalizeAttrs o.cls (some (a, o)))).1, live ++ [(h.allocFresh o.cls (h.samples o) (finalizeAttrs o.cls (some (a, o)))).2]) := by
      simp only [sigStep, h1, opCopy, deref_ok h2, bind, Except.bind, pure, Except.pure]
    refine ⟨_, _, P, hstep, ?_⟩
    have e := allocFresh_ext h o.cls (h.samples o) (finalizeAttrs o.cls (some (a, o)))
    exact (I.ext e (fun _ h => h) (fun _ h => Or.inl h) fun b hb => lt_of_lt_of_le (I.lt b hb) e.len).add _ fs _ (allocFresh_obj _ _ _ _)
      (good_finalize hbase h3 a _ _) (fun hP => absurd (I.lt _ hP) (lt_irrefl _)) (by simp [Heap.allocFresh])
      (e.hasSymbols (fun _ h => h) (symbols_finalize h6 _ _ _ _ _))
  | @inplace i vals fs hi =>
    obtain ⟨a, o, h1, h2, h3, h4, h5, h6⟩ := get i fs hi
    have hstep : sigStep (h, live) (.inplace i vals) = Except.ok (⟨h.objs, h.bufs.set o.buf (writeSel (h.bufs.getD o.buf []) o.sel vals)⟩, live) := by
      simp only [sigStep, h1, opInplace, deref_ok h2, bind, Except.bind, pure, Except.pure]
    refine ⟨_, _, P, hstep, ⟨I.len, ?_, ?_⟩⟩
    · intro b hb; simpa using I.lt b hb
    · intro j a' fs' g1 g2
      obtain ⟨o', k1, k2, k3, k4, s, so, k5, k6, k7, k8, k9⟩ := I.obj j a' fs' g1 g2
      refine ⟨o', k1, k2, k3, by simpa using k4, s, so, k5, k6, k7, by simpa using k8, ?_⟩
      have hb : o.buf ≠ so.buf := by rintro h; exact h4 (h ▸ k7)
      rw [← k9]
      simp only [Heap.samples, List.getD_eq_getElem?_getD, List.getElem?_set_ne hb]
  | @recreate i vals kw fs fs' hi hk =>
    obtain ⟨a, o, h1, h2, h3, h4, h5, h6⟩ := get i fs hi
    obtain ⟨f, c1, c2⟩ := copyInherits_ok o (by rw [h3.hcls]; exact h3.pres) (finalizeAttrs o.cls none)
    have hm : ∀ k ∈ baseAttrs, k ∈ o.cls.base ++ o.cls.attr := fun k hk => by rw [h3.hcls]; exact List.mem_append_left _ (hbase hk)
    have hsm : "_symbols" ∈ o.cls.base ++ o.cls.attr := by rw [h3.hcls]; exact List.mem_append_right _ hsym
    have hrun : opRecreate h a vals kw = .ok (h.allocFresh o.cls vals (kw.foldl (fun f p => setAttr f (kwName o.cls p.1) p.2) f)) := by
      rcases hk with ⟨rfl, -⟩ | rfl <;> simp only [opRecreate, deref_ok h2, c1, bind, Except.bind, pure, Except.pure] <;> rfl
    have hstep : sigStep (h, live) (.recreate i vals kw) = Except.ok ((h.allocFresh o.cls vals (kw.foldl (fun f p => setAttr f (kwName o.cls p.1) p.2) f)).1, live ++ [(h.allocFresh o.cls vals (kw.foldl (fun f p => setAttr f (kwName o.cls p.1) p.2) f)).2]) := by
      simp only [sigStep, h1, hrun, bind, Except.bind, pure, Except.pure]
    refine ⟨_, _, P, hstep, ?_⟩
    have e := allocFresh_ext h o.cls vals (kw.foldl (fun f p => setAttr f (kwName o.cls p.1) p.2) f)
    have hne : ∀ k, k ≠ "_fs" → (kw.foldl (fun f p => setAttr f (kwName o.cls p.1) p.2) f) k = f k := by
      intro k hk'
      apply foldl_setAttr_pairs_ne kw (fun p => kwName o.cls p.1)
      intro p hp
      rcases hk with ⟨rfl, -⟩ | rfl
      · simp at hp
      · rw [List.mem_singleton] at hp
        subst hp
        simp only [h3.hcls, hkw]
        exact hk'.symm
    have hfs : (kw.foldl (fun f p => setAttr f (kwName o.cls p.1) p.2) f) "_fs" = some (.num fs') := by
      rcases hk with ⟨rfl, rfl⟩ | rfl
      · simp only [List.foldl_nil]
        rw [c2, if_pos (hm _ (by decide)), h3.hfs]
      · simp only [List.foldl_cons, List.foldl_nil, h3.hcls, hkw, setAttr, if_true]
    refine (I.ext e (fun _ h => h) (fun _ h => Or.inl h) fun b hb => lt_of_lt_of_le (I.lt b hb) e.len).add _ fs' _ (allocFresh_obj _ _ _ _)
      ⟨h3.hcls, ?_, ?_, ?_, hfs⟩ (fun hP => absurd (I.lt _ hP) (lt_irrefl _)) (by simp [Heap.allocFresh]) (e.hasSymbols (fun _ h => h) ?_)
    · intro k hk'
      apply foldl_setAttr_pairs_present kw (fun p => kwName o.cls p.1)
      rw [c2, h3.hcls, if_pos hk']
      exact h3.pres k hk'
    · show (kw.foldl (fun f p => setAttr f (kwName o.cls p.1) p.2) f) _ = _
      rw [hne _ (by decide), c2, if_pos (hm _ (by decide)), h3.hM]
    · show (kw.foldl (fun f p => setAttr f (kwName o.cls p.1) p.2) f) _ = _
      rw [hne _ (by decide), c2, if_pos (hm _ (by decide)), h3.hfb]
    · obtain ⟨s, so, k1, k2⟩ := h6
      refine ⟨s, so, ?_, k2⟩
      show (kw.foldl (fun f p => setAttr f (kwName o.cls p.1) p.2) f) _ = _
      rw [hne _ (by decide), c2, if_pos hsm, k1]
  | @resample i fnew vals fs hi h0 =>
    obtain ⟨a, o, h1, h2, h3, h4, h5, s, so, k1, k2, k3, k4, k5⟩ := get i fs hi
    have hm : ∀ k ∈ baseAttrs, k ∈ o.cls.base ++ o.cls.attr := fun k hk => by rw [h3.hcls]; exact List.mem_append_left _ (hbase hk)
    -- the resampled object before the reference symbols are attached
    have mid : ∃ hh out oo, HeapExt h hh ∧ hh.objs[out]? = some oo ∧ h.objs.length ≤ out ∧ GoodObj cls M fb fs oo ∧
        h.bufs.length ≤ oo.buf ∧ oo.buf < hh.bufs.length ∧ opResample h a fnew vals =
          (opCopy hh s).bind fun r => .ok ((r.1.set out "_symbols" (.obj r.2)).set out "_fs" (.num fnew), out) := by
      by_cases hc : isCloseOne (fnew / fs)
      · have e1 := allocFresh_ext h o.cls (h.samples o) (finalizeAttrs o.cls (some (a, o)))
        have g1 := good_finalize hbase h3 a h.bufs.length (List.range (h.samples o).length)
        have d1 := deref_ok (allocFresh_obj h o.cls (h.samples o) (finalizeAttrs o.cls (some (a, o))))
        have hcp : opCopy h a = .ok (h.allocFresh o.cls (h.samples o) (finalizeAttrs o.cls (some (a, o)))) := by
          simp only [opCopy, deref_ok h2, bind, Except.bind, pure, Except.pure]
        have lf := allocFresh_bufs h o.cls (h.samples o) (finalizeAttrs o.cls (some (a, o)))
        have lo : h.objs.length ≤ (h.allocFresh o.cls (h.samples o) (finalizeAttrs o.cls (some (a, o)))).1.objs.length := by
          simp [Heap.allocFresh]
        generalize (h.allocFresh o.cls (h.samples o) (finalizeAttrs o.cls (some (a, o)))) = r at *
        set o1 : SObj := ⟨o.cls, h.bufs.length, List.range (h.samples o).length, finalizeAttrs o.cls (some (a, o))⟩ with ho1
        have g2 := good_finalize hbase g1 r.2 h.bufs.length (List.range (h.samples o).length)
        refine ⟨(r.1.allocView o.cls o1.buf o1.sel (finalizeAttrs o.cls (some (r.2, o1)))).1,
          (r.1.allocView o.cls o1.buf o1.sel (finalizeAttrs o.cls (some (r.2, o1)))).2, _, e1.trans (allocView_ext _ _ _ _ _),
          allocView_obj _ _ _ _ _, lo, g2, le_rfl, ?_, ?_⟩
        · show h.bufs.length < r.1.bufs.length
          omega
        · simp only [opResample, deref_ok h2, h3.hfs, h3.hfb, if_neg h0, if_pos hc, bind, Except.bind, pure, Except.pure, k1, hcp, d1]
      · obtain ⟨f, c1, c2⟩ := copyInherits_ok o (by rw [h3.hcls]; exact h3.pres) (finalizeAttrs o.cls none)
        refine ⟨_, _, _, allocFresh_ext h o.cls vals f, allocFresh_obj h o.cls vals f, le_rfl, ⟨h3.hcls, ?_, ?_, ?_, ?_⟩, le_rfl,
          by simp [Heap.allocFresh], ?_⟩
        · intro k hk'
          show ∃ v, f k = some v
          rw [c2, h3.hcls, if_pos hk']
          exact h3.pres k hk'
        · show f _ = _
          rw [c2, if_pos (hm _ (by decide)), h3.hM]
        · show f _ = _
          rw [c2, if_pos (hm _ (by decide)), h3.hfb]
        · show f _ = _
          rw [c2, if_pos (hm _ (by decide)), h3.hfs]
        · simp only [opResample, deref_ok h2, h3.hfs, h3.hfb, if_neg h0, if_neg hc, bind, Except.bind, pure, Except.pure, k1, c1]
    obtain ⟨hh, out, oo, e, m1, m2, m3, m4, m5, m6⟩ := mid
    have hcp : opCopy hh s = .ok (hh.allocFresh so.cls (hh.samples so) (finalizeAttrs so.cls (some (s, so)))) := by
      simp only [opCopy, deref_ok (e.objs _ _ k2), bind, Except.bind, pure, Except.pure]
    rw [hcp] at m6
    simp only [Except.bind] at m6
    have hstep : ∀ x, opResample h a fnew vals = .ok x → sigStep (h, live) (.resample i fnew vals) = .ok (x.1, live ++ [x.2]) := by
      intro x hx
      simp only [sigStep, h1, hx, bind, Except.bind, pure, Except.pure]
    refine ⟨_, _, fun b => P b ∨ b = hh.bufs.length, hstep _ m6, ?_⟩
    have ef := allocFresh_ext hh so.cls (hh.samples so) (finalizeAttrs so.cls (some (s, so)))
    have of := allocFresh_obj hh so.cls (hh.samples so) (finalizeAttrs so.cls (some (s, so)))
    have sf := allocFresh_samples hh so.cls (hh.samples so) (finalizeAttrs so.cls (some (s, so)))
    have lf := allocFresh_bufs hh so.cls (hh.samples so) (finalizeAttrs so.cls (some (s, so)))
    have n2 : (hh.allocFresh so.cls (hh.samples so) (finalizeAttrs so.cls (some (s, so)))).2 = hh.objs.length := rfl
    generalize (hh.allocFresh so.cls (hh.samples so) (finalizeAttrs so.cls (some (s, so)))) = r at *
    have eo := ef.objs _ _ m1
    have houtlt := (List.getElem?_eq_some_iff.1 m1).1
    have hset1 : r.1.set out "_symbols" (.obj r.2) = ⟨r.1.objs.set out ⟨oo.cls, oo.buf, oo.sel, setAttr oo.attrs "_symbols" (.obj r.2)⟩, r.1.bufs⟩ := by
      rw [Heap.set, eo]
    have houtr := (List.getElem?_eq_some_iff.1 eo).1
    have hset2 : (r.1.set out "_symbols" (.obj r.2)).set out "_fs" (.num fnew) =
        ⟨r.1.objs.set out ⟨oo.cls, oo.buf, oo.sel, setAttr (setAttr oo.attrs "_symbols" (.obj r.2)) "_fs" (.num fnew)⟩, r.1.bufs⟩ := by
      rw [hset1, Heap.set]
      simp only [List.getElem?_set_self houtr, List.set_set]
    rw [hset2]
    have e2 : HeapExt h ⟨r.1.objs.set out ⟨oo.cls, oo.buf, oo.sel, setAttr (setAttr oo.attrs "_symbols" (.obj r.2)) "_fs" (.num fnew)⟩, r.1.bufs⟩ := by
      rw [← hset2]
      exact set_ext _ _ (set_ext _ _ (e.trans ef) _ m2 _ _) _ m2 _ _
    refine (I.ext e2 (fun _ h => Or.inl h) ?_ ?_).add out fnew _ (List.getElem?_set_self houtr) ⟨m3.hcls, ?_, ?_, ?_, ?_⟩ ?_ ?_ ?_
    · rintro b (hb | rfl)
      · exact Or.inl hb
      · exact Or.inr e.len
    · rintro b (hb | rfl)
      · exact lt_of_lt_of_le (I.lt b hb) (e.trans ef).len
      · show _ < r.1.bufs.length
        omega
    · intro k hk'
      show ∃ v, setAttr (setAttr oo.attrs "_symbols" (.obj r.2)) "_fs" (.num fnew) k = some v
      unfold setAttr
      split
      · exact ⟨_, rfl⟩
      · split
        · exact ⟨_, rfl⟩
        · exact m3.pres k hk'
    · show setAttr (setAttr oo.attrs "_symbols" (.obj r.2)) "_fs" (.num fnew) "_M" = _
      rw [setAttr, if_neg (by decide), setAttr, if_neg (by decide), m3.hM]
    · show setAttr (setAttr oo.attrs "_symbols" (.obj r.2)) "_fs" (.num fnew) "_fb" = _
      rw [setAttr, if_neg (by decide), setAttr, if_neg (by decide), m3.hfb]
    · show setAttr (setAttr oo.attrs "_symbols" (.obj r.2)) "_fs" (.num fnew) "_fs" = _
      rw [setAttr, if_pos rfl]
    · rintro (hb | hb)
      · have := I.lt _ hb
        simp only at this
        omega
      · simp only at hb
        omega
    · show oo.buf < r.1.bufs.length
      omega
    · refine ⟨r.2, ⟨so.cls, hh.bufs.length, List.range (hh.samples so).length, finalizeAttrs so.cls (some (s, so))⟩, ?_, ?_, Or.inr rfl, ?_, ?_⟩
      · show setAttr (setAttr oo.attrs "_symbols" (.obj r.2)) "_fs" (.num fnew) "_symbols" = _
        rw [setAttr, if_neg (by decide), setAttr, if_pos rfl]
      · show (r.1.objs.set out _)[r.2]? = _
        rw [List.getElem?_set_ne (by omega), of]
      · show hh.bufs.length < r.1.bufs.length
        omega
      · show r.1.samples _ = _
        rw [sf, e.samples so k4, k5]

theorem newSignal_inv (cls : SClass) (syms : List α) (M : Val) (fb : ℚ)
    (params : List (String × Val)) : SigInv cls M fb syms (fun b => b = 1) (newSignal cls syms M (.num fb) params) [0] [fb] := by
  set f := setAttr (setAttr (setAttr (params.foldl (fun f p => setAttr f p.1 p.2) (finalizeAttrs cls none)) "_M" M) "_fb" (.num fb)) "_fs"
    (.num fb) with hf
  set o : SObj := ⟨cls, 0, List.range syms.length, f⟩ with ho
  have e : newSignal cls syms M (.num fb) params = ⟨[⟨cls, 0, List.range syms.length, setAttr f "_symbols" (.obj 1)⟩,
      ⟨cls, 1, List.range (Heap.samples ⟨[o], [syms]⟩ o).length, finalizeAttrs cls (some (0, o))⟩], [syms, Heap.samples ⟨[o], [syms]⟩ o]⟩ := rfl
  have hs : Heap.samples ⟨[o], [syms]⟩ o = syms := allocFresh_samples ⟨[], []⟩ cls syms f
  rw [e, hs]
  refine ⟨rfl, ?_, ?_⟩
  · rintro b rfl; simp
  · intro i a fs h1 h2
    have hi : i = 0 := by have := (List.getElem?_eq_some_iff.1 h1).1; simpa using this
    subst hi
    simp only [List.getElem?_cons_zero, Option.some.injEq] at h1 h2
    subst h1 h2
    refine ⟨_, rfl, ⟨rfl, ?_, ?_, ?_, ?_⟩, by simp, by simp, 1, _, ?_, rfl, rfl, by simp, ?_⟩
    · intro k hk
      show ∃ v, setAttr f "_symbols" (.obj 1) k = some v
      rw [hf]
      unfold setAttr
      split
      · exact ⟨_, rfl⟩
      · split
        · exact ⟨_, rfl⟩
        · split
          · exact ⟨_, rfl⟩
          · split
            · exact ⟨_, rfl⟩
            · exact foldl_setAttr_pairs_present params (fun p => p.1) _ k ⟨_, finalize_none cls k hk⟩
    · show setAttr f "_symbols" (.obj 1) "_M" = _
      simp [setAttr, hf]
    · show setAttr f "_symbols" (.obj 1) "_fb" = _
      simp [setAttr, hf]
    · show setAttr f "_symbols" (.obj 1) "_fs" = _
      simp [setAttr, hf]
    · show setAttr f "_symbols" (.obj 1) "_symbols" = _
      simp [setAttr]
    · exact allocFresh_samples ⟨[o], [syms]⟩ cls syms (finalizeAttrs cls (some (0, o)))

/-- C53: through any history of slicing, arithmetic, copying, changes in place, recreation and resampling, every signal obtained keeps the order,
the symbol rate and reference symbols equal to the transmitted ones, and has the sampling rate of the last step that set it. No step fails. -/
theorem C53_history_partial (cls : SClass) (hbase : baseAttrs ⊆ cls.base) (hkw : kwName cls "fs" = "_fs") (hsym : "_symbols" ∈ cls.attr) (syms : List α)
    (M : Val) (fb : ℚ) (params : List (String × Val)) (ops : List (SOp α)) (fss : List ℚ) (hrun : SpecRun α [fb] ops fss) :
    ∃ h live, ops.foldlM sigStep (newSignal cls syms M (.num fb) params, [0]) = .ok (h, live) ∧ live.length = fss.length ∧
      ∀ (i a : Nat) (fs : ℚ), live[i]? = some a → fss[i]? = some fs → ∃ o s so, h.objs[a]? = some o ∧ o.cls = cls ∧
        o.attrs "_M" = some M ∧ o.attrs "_fb" = some (.num fb) ∧ o.attrs "_fs" = some (.num fs) ∧
        o.attrs "_symbols" = some (.obj s) ∧ h.objs[s]? = some so ∧ h.samples so = syms := by
  have key : ∀ (ops : List (SOp α)) (l fss : List ℚ) (P : Nat → Prop) (h : Heap α) (live : List Nat), SpecRun α l ops fss →
      SigInv cls M fb syms P h live l → ∃ h' live' P', ops.foldlM sigStep (h, live) = .ok (h', live') ∧ SigInv cls M fb syms P' h' live' fss := by
    intro ops
    induction ops with
    | nil =>
      intro l fss P h live hr I
      cases hr
      exact ⟨h, live, P, rfl, I⟩
    | cons op ops ih =>
      intro l fss P h live hr I
      cases hr with
      | cons h1 h2 =>
        obtain ⟨h', live', P', g1, g2⟩ := sigStep_inv hbase hkw hsym I h1
        obtain ⟨h'', live'', P'', g3, g4⟩ := ih _ _ P' h' live' h2 g2
        refine ⟨h'', live'', P'', ?_, g4⟩
        rw [List.foldlM_cons, g1]
        exact g3
  obtain ⟨h, live, P, g1, I⟩ := key ops [fb] fss _ _ _ hrun (newSignal_inv cls syms M fb params)
  refine ⟨h, live, g1, I.len, ?_⟩
  intro i a fs h1 h2
  obtain ⟨o, h3, h4, -, -, s, so, h5, h6, -, -, h7⟩ := I.obj i a fs h1 h2
  exact ⟨o, s, so, h3, h4.hcls, h4.hM, h4.hfb, h4.hfs, h5, h6, h7⟩

/-- The class hypotheses hold for the classes of the package that have reference symbols. -/
example : ∀ cls ∈ [qamClass, symbolOnlyClass], baseAttrs ⊆ cls.base ∧ kwName cls "fs" = "_fs" ∧ "_symbols" ∈ cls.attr := by
  decide +kernel

/-- A chain: resample, add noise in place, filter, slice, equalise (which sets the sampling rate). -/
example : SpecRun Nat [1] [.resample 0 2 [1, 1, 2, 2], .inplace 1 [9, 9, 9, 9], .recreate 1 [5, 6, 7, 8] [], .view 2 [0, 1],
    .recreate 3 [4] [("fs", .num 1)]] [1, 2, 2, 2, 1] :=
  .cons (.resample (fs := 1) rfl (by norm_num)) (.cons (.inplace (fs := 2) rfl) (.cons (.recreate (fs := 2) rfl (Or.inl ⟨rfl, rfl⟩))
    (.cons (.view rfl) (.cons (.recreate (fs := 2) rfl (Or.inr rfl)) .nil))))

/-- C53, the full property for `resample`: every signal object can be resampled. -/
def C53_statement : Prop := ∀ (h : Heap Nat) (a : Nat) (o : SObj) (fs fb fnew : ℚ) (vals : List Nat), h.objs[a]? = some o →
  (∀ k ∈ o.cls.base ++ o.cls.attr, ∃ v, o.attrs k = some v) → o.attrs "_fs" = some (.num fs) → o.attrs "_fb" = some (.num fb) → fs ≠ 0 →
  ∃ r, opResample h a fnew vals = .ok r

/-- Hybrid signals have no `_symbols`: resampling raises AttributeError. -/
theorem C53_tdh_fails (h : Heap α) (a : Nat) (o : SObj) (fs fnew : ℚ) (fb : Val) (vals : List α) (ho : h.objs[a]? = some o)
    (hp : ∀ k ∈ o.cls.base ++ o.cls.attr, ∃ v, o.attrs k = some v) (hfs : o.attrs "_fs" = some (.num fs)) (hfb : o.attrs "_fb" = some fb)
    (h0 : fs ≠ 0) (hno : o.attrs "_symbols" = none) : opResample h a fnew vals = .error .attr := by
  simp only [opResample, deref_ok ho, hfs, hfb, if_neg h0, bind, Except.bind, pure, Except.pure, hno]
  by_cases hc : isCloseOne (fnew / fs)
  · rw [if_pos hc]
    have d1 := deref_ok (allocFresh_obj h o.cls (h.samples o) (finalizeAttrs o.cls (some (a, o))))
    rw [show opCopy h a = .ok (h.allocFresh o.cls (h.samples o) (finalizeAttrs o.cls (some (a, o)))) by
      simp only [opCopy, deref_ok ho, bind, Except.bind, pure, Except.pure]]
    simp only [d1]
    rfl
  · rw [if_neg hc]
    obtain ⟨f, c1, -⟩ := copyInherits_ok o hp (finalizeAttrs o.cls none)
    rw [c1]
    rfl

theorem C53_false : ¬ C53_statement := by
  intro h
  set f : String → Option Val := fun k => if k ∈ tdhClass.base ++ tdhClass.attr then some (Val.num 1) else none with hf
  have hp : ∀ k ∈ tdhClass.base ++ tdhClass.attr, ∃ v, f k = some v := fun k hk => ⟨.num 1, if_pos hk⟩
  have h1 : f "_fs" = some (.num 1) := rfl
  have h2 : f "_fb" = some (.num 1) := rfl
  have h3 : f "_symbols" = none := rfl
  obtain ⟨r, hr⟩ := h ⟨[⟨tdhClass, 0, [0], f⟩], [[5]]⟩ 0 _ 1 1 2 [1] rfl hp h1 h2 one_ne_zero
  rw [C53_tdh_fails ⟨[⟨tdhClass, 0, [0], f⟩], [[5]]⟩ 0 _ 1 2 (.num 1) [1] rfl hp h1 h2 one_ne_zero h3] at hr
  cases hr

/-- `recreate_from_np_array(arr, fb=...)` without a sampling rate keeps the truncated oversampling factor, so that a signal with 1.5 samples per
symbol gets one sample per symbol. -/
theorem C53_fb_truncates (h : Heap α) (a : Nat) (o : SObj) (fs fb fb' : ℚ) (vals : List α) (ho : h.objs[a]? = some o)
    (hp : ∀ k ∈ o.cls.base ++ o.cls.attr, ∃ v, o.attrs k = some v) (hfs : o.attrs "_fs" = some (.num fs)) (hfb : o.attrs "_fb" = some (.num fb))
    (hpos : 0 < fb) (hfs0 : 0 ≤ fs) (hk : kwName o.cls "fs" = "_fs") :
    ∃ r o', opRecreate h a vals [("fb", .num fb')] = .ok r ∧ r.1.objs[r.2]? = some o' ∧ o'.attrs "_fs" = some (.num (⌊fs / fb⌋ * fb')) := by
  obtain ⟨f, c1, -⟩ := copyInherits_ok o hp (finalizeAttrs o.cls none)
  have hos : osOf o = .ok ⌊fs / fb⌋ := by
    simp only [osOf, hfs, hfb, if_neg hpos.ne', if_pos (div_nonneg hfs0 hpos.le)]
  have hrun : opRecreate h a vals [("fb", .num fb')] = .ok (h.allocFresh o.cls vals
      (setAttr (setAttr f (kwName o.cls "fb") (.num fb')) (kwName o.cls "fs") (.num (⌊fs / fb⌋ * fb')))) := by
    simp only [opRecreate, deref_ok ho, c1, bind, Except.bind, pure, Except.pure, hos]
    rfl
  exact ⟨_, _, hrun, allocFresh_obj _ _ _ _, if_pos hk.symm⟩

example : ⌊(3 / 2 : ℚ) / 1⌋ = 1 := by norm_num

/-- The reference symbols are themselves a signal whose reference is the signal they were copied from: noise added in place to the signal changes
the reference of `sig.symbols`. -/
theorem C53_reference_of_symbols (cls : SClass) (hsym : "_symbols" ∈ cls.attr) (syms noisy : List α) (M : Val)
    (fb : ℚ) (hl : noisy.length = syms.length) :
    ∃ h o s so r ro, opInplace (newSignal cls syms M (.num fb) []) 0 noisy = .ok h ∧ h.objs[0]? = some o ∧ o.attrs "_symbols" = some (.obj s) ∧
      h.objs[s]? = some so ∧ h.samples so = syms ∧ so.attrs "_symbols" = some (.obj r) ∧ h.objs[r]? = some ro ∧ h.samples ro = noisy := by
  set f := setAttr (setAttr (setAttr (finalizeAttrs cls none) "_M" M) "_fb" (.num fb)) "_fs" (.num fb) with hf
  set o : SObj := ⟨cls, 0, List.range syms.length, f⟩ with ho
  have hs : Heap.samples ⟨[o], [syms]⟩ o = syms := allocFresh_samples ⟨[], []⟩ cls syms f
  have e : newSignal cls syms M (.num fb) [] = ⟨[⟨cls, 0, List.range syms.length, setAttr f "_symbols" (.obj 1)⟩,
      ⟨cls, 1, List.range (Heap.samples ⟨[o], [syms]⟩ o).length, finalizeAttrs cls (some (0, o))⟩], [syms, Heap.samples ⟨[o], [syms]⟩ o]⟩ := rfl
  have hw : ∀ (p b v : List α), b.length = v.length → writeSel (p ++ b) ((List.range b.length).map (· + p.length)) v = p ++ v := by
    intro p b v
    induction v generalizing p b with
    | nil => intro h; have := List.length_eq_zero_iff.1 h; subst this; rfl
    | cons x v ih =>
      intro h
      cases b with
      | nil => simp at h
      | cons y b =>
        rw [List.length_cons, List.range_succ_eq_map, List.map_cons, writeSel]
        have h1 : (p ++ y :: b).set (0 + p.length) x = (p ++ [x]) ++ b := by
          rw [Nat.zero_add, List.set_append_right _ _ le_rfl, Nat.sub_self, List.set_cons_zero]; simp
        have h2 : List.map (· + p.length) (List.map Nat.succ (List.range b.length)) = (List.range b.length).map (· + (p ++ [x]).length) := by
          rw [List.map_map]
          apply List.map_congr_left
          intro i _
          simp
          omega
        rw [h1, h2, ih (p ++ [x]) b (by simpa using h)]
        simp
  have hw0 : writeSel syms (List.range syms.length) noisy = noisy := by
    have := hw [] syms noisy hl.symm
    simpa using this
  refine ⟨⟨[⟨cls, 0, List.range syms.length, setAttr f "_symbols" (.obj 1)⟩, ⟨cls, 1, List.range syms.length, finalizeAttrs cls (some (0, o))⟩],
    [noisy, syms]⟩, ⟨cls, 0, List.range syms.length, setAttr f "_symbols" (.obj 1)⟩, 1, ⟨cls, 1, List.range syms.length,
    finalizeAttrs cls (some (0, o))⟩, 0, ⟨cls, 0, List.range syms.length, setAttr f "_symbols" (.obj 1)⟩, ?_, rfl, ?_, rfl, ?_, ?_, rfl, ?_⟩
  · rw [e, hs]
    simp only [opInplace, Heap.deref, List.getElem?_cons_zero, bind, Except.bind, pure, Except.pure, List.getD_cons_zero, hw0, List.set_cons_zero]
  · simp [setAttr]
  · have := allocFresh_samples ⟨[o], [noisy]⟩ cls syms (finalizeAttrs cls (some (0, o)))
    exact this
  · have : f "_symbols" = some .none := by
      rw [hf]
      simp only [setAttr]
      rw [if_neg (by decide), if_neg (by decide), if_neg (by decide), finalize_none cls _ (List.mem_append_right _ hsym)]
    simp only [finalizeAttrs, ho, this, setAttr, if_true]
  · rw [← hl]
    exact allocFresh_samples ⟨[], []⟩ cls noisy (setAttr f "_symbols" (.obj 1))

end Qampy
