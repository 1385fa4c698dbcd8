import Verif.Model.ResampledQam
import Verif.Props.Signal

/-!
C232: signals generated at another sampling rate (`ResampledQAM`).
-/

namespace Qampy

variable {α : Type}

theorem resampleArray_inv {cls : SClass} {M : Val} {fb : ℚ} {syms : List α} (hbase : baseAttrs ⊆ cls.base) (hsym : "_symbols" ∈ cls.attr)
    {P : Nat → Prop} {h : Heap α} {live : List Nat} {fss : List ℚ} (I : SigInv cls M fb syms P h live fss) (i a : Nat) (fold fnew : ℚ) (vals : List α)
    (hi : live[i]? = some a) (hf : fss[i]? = some fold) (h0 : fold ≠ 0) :
    ∃ h' out, opResampleArray cls h a fnew fold vals = .ok (h', out) ∧ SigInv cls M fb syms P (h'.set out "_fs" (.num fnew)) (live ++ [out]) (fss ++ [fnew]) ∧
      ∃ o oo, h.objs[a]? = some o ∧ (h'.set out "_fs" (.num fnew)).objs[out]? = some oo ∧ h.bufs.length ≤ oo.buf ∧
        (h'.set out "_fs" (.num fnew)).samples oo = if |fnew / fold - 1| ≤ 1 / 10 ^ 8 + 1 / 10 ^ 5 then h.samples o else vals := by
  obtain ⟨o, h2, h3, h4, h5, h6⟩ := I.obj i a fold hi hf
  have hm : ∀ k ∈ baseAttrs, k ∈ o.cls.base ++ o.cls.attr := fun k hk => by rw [h3.hcls]; exact List.mem_append_left _ (hbase hk)
  have hsm : "_symbols" ∈ o.cls.base ++ o.cls.attr := by rw [h3.hcls]; exact List.mem_append_right _ hsym
  have mid : ∃ hh out oo, HeapExt h hh ∧ hh.objs[out]? = some oo ∧ h.objs.length ≤ out ∧ GoodObj cls M fb fold oo ∧
      h.bufs.length ≤ oo.buf ∧ oo.buf < hh.bufs.length ∧ opResampleArray cls h a fnew fold vals = .ok (hh, out) ∧ HasSymbols P syms hh oo ∧
      hh.samples oo = if |fnew / fold - 1| ≤ 1 / 10 ^ 8 + 1 / 10 ^ 5 then h.samples o else vals := by
    by_cases hc : isCloseOne (fnew / fold)
    · have e1 := allocFresh_ext h o.cls (h.samples o) (finalizeAttrs o.cls (some (a, o)))
      have g1 := good_finalize hbase h3 a h.bufs.length (List.range (h.samples o).length)
      have d1 := deref_ok (allocFresh_obj h o.cls (h.samples o) (finalizeAttrs o.cls (some (a, o))))
      have s1 := allocFresh_samples h o.cls (h.samples o) (finalizeAttrs o.cls (some (a, o)))
      have hcp : opCopy h a = .ok (h.allocFresh o.cls (h.samples o) (finalizeAttrs o.cls (some (a, o)))) := by
        simp only [opCopy, deref_ok h2, bind, Except.bind, pure, Except.pure]
      have lf := allocFresh_bufs h o.cls (h.samples o) (finalizeAttrs o.cls (some (a, o)))
      have lo : h.objs.length ≤ (h.allocFresh o.cls (h.samples o) (finalizeAttrs o.cls (some (a, o)))).1.objs.length := by
        simp [Heap.allocFresh]
      have y1 := e1.hasSymbols (fun _ h => h) (symbols_finalize h6 o.cls o.cls a h.bufs.length (List.range (h.samples o).length))
      generalize (h.allocFresh o.cls (h.samples o) (finalizeAttrs o.cls (some (a, o)))) = r at *
      obtain ⟨o1, ho1⟩ : ∃ o1 : SObj, o1 = ⟨o.cls, h.bufs.length, List.range (h.samples o).length, finalizeAttrs o.cls (some (a, o))⟩ := ⟨_, rfl⟩
      rw [← ho1] at g1 d1 y1 s1
      have b1 : o1.buf = h.bufs.length := by rw [ho1]
      have g2 := good_finalize hbase g1 r.2 o1.buf o1.sel
      rw [g1.hcls] at g2
      refine ⟨(r.1.allocView cls o1.buf o1.sel (finalizeAttrs cls (some (r.2, o1)))).1, (r.1.allocView cls o1.buf o1.sel (finalizeAttrs cls (some (r.2, o1)))).2, _,
        e1.trans (allocView_ext _ _ _ _ _), allocView_obj _ _ _ _ _, lo, g2, b1.ge, ?_, ?_, ?_, ?_⟩
      · change o1.buf < r.1.bufs.length
        omega
      · simp only [opResampleArray, deref_ok h2, if_neg h0, if_pos hc, bind, Except.bind, pure, Except.pure, hcp, d1]
      · exact (allocView_ext _ _ _ _ _).hasSymbols (fun _ h => h) (symbols_finalize y1 _ _ _ _ _)
      · rw [if_pos (show |fnew / fold - 1| ≤ 1 / 10 ^ 8 + 1 / 10 ^ 5 from hc)]
        exact s1
    · obtain ⟨f, c1, c2⟩ := copyInherits_ok o (by rw [h3.hcls]; exact h3.pres) (finalizeAttrs cls none)
      refine ⟨_, _, _, allocFresh_ext h cls vals f, allocFresh_obj h cls vals f, le_rfl, ⟨rfl, ?_, ?_, ?_, ?_⟩, le_rfl, by simp [Heap.allocFresh], ?_, ?_, ?_⟩
      · intro k hk'
        change ∃ v, f k = some v
        rw [c2, h3.hcls, if_pos hk']
        exact h3.pres k hk'
      · change f _ = _
        rw [c2, if_pos (hm _ (by decide)), h3.hM]
      · change f _ = _
        rw [c2, if_pos (hm _ (by decide)), h3.hfb]
      · change f _ = _
        rw [c2, if_pos (hm _ (by decide)), h3.hfs]
      · simp only [opResampleArray, deref_ok h2, if_neg h0, if_neg hc, bind, Except.bind, pure, Except.pure, c1]
      · obtain ⟨s, so, k1, k2⟩ := h6
        refine (allocFresh_ext h cls vals f).hasSymbols (fun _ h => h) ⟨s, so, ?_, k2⟩
        change f _ = _
        rw [c2, if_pos hsm, k1]
      · rw [if_neg (show ¬ |fnew / fold - 1| ≤ 1 / 10 ^ 8 + 1 / 10 ^ 5 from hc)]
        exact allocFresh_samples h cls vals f
  obtain ⟨hh, out, oo, e, m1, m2, m3, m4, m5, m6, ⟨s, so, k1, k2, k3, k4, k5⟩, m8⟩ := mid
  have houtr := (List.getElem?_eq_some_iff.1 m1).1
  have hset : hh.set out "_fs" (.num fnew) = ⟨hh.objs.set out ⟨oo.cls, oo.buf, oo.sel, setAttr oo.attrs "_fs" (.num fnew)⟩, hh.bufs⟩ := by rw [Heap.set, m1]
  have e2 : HeapExt h (hh.set out "_fs" (.num fnew)) := set_ext _ _ e _ m2 _ _
  refine ⟨hh, out, m6, ?_, o, ⟨oo.cls, oo.buf, oo.sel, setAttr oo.attrs "_fs" (.num fnew)⟩, h2, ?_, m4, ?_⟩
  · refine (I.ext e2 (fun _ h => h) (fun _ h => Or.inl h) fun b hb => lt_of_lt_of_le (I.lt b hb) e2.len).add out fnew
      ⟨oo.cls, oo.buf, oo.sel, setAttr oo.attrs "_fs" (.num fnew)⟩ (by rw [hset]; exact List.getElem?_set_self houtr) ⟨m3.hcls, ?_, ?_, ?_, ?_⟩ ?_ ?_ ?_
    · intro k hk'
      change ∃ v, setAttr oo.attrs "_fs" (.num fnew) k = some v
      unfold setAttr
      split
      · exact ⟨_, rfl⟩
      · exact m3.pres k hk'
    · change setAttr oo.attrs "_fs" (.num fnew) "_M" = _
      rw [setAttr, if_neg (by decide), m3.hM]
    · change setAttr oo.attrs "_fs" (.num fnew) "_fb" = _
      rw [setAttr, if_neg (by decide), m3.hfb]
    · change setAttr oo.attrs "_fs" (.num fnew) "_fs" = _
      rw [setAttr, if_pos rfl]
    · intro hb
      have := I.lt _ hb
      simp only at this
      omega
    · rw [hset]; exact m5
    · have hso : so.buf < h.bufs.length := I.lt _ k3
      have hse : s ≠ out := by
        rintro rfl
        rw [m1, Option.some.injEq] at k2
        subst k2
        omega
      refine ⟨s, so, ?_, ?_, k3, by rw [hset]; exact k4, ?_⟩
      · change setAttr oo.attrs "_fs" (.num fnew) "_symbols" = _
        rw [setAttr, if_neg (by decide), k1]
      · rw [hset]
        change (hh.objs.set out _)[s]? = _
        rw [List.getElem?_set_ne hse.symm, k2]
      · rw [hset]
        exact k5
  · rw [hset]; exact List.getElem?_set_self houtr
  · rw [hset]
    exact m8

theorem history_inv {cls : SClass} (hbase : baseAttrs ⊆ cls.base) (hkw : kwName cls "fs" = "_fs") (hsym : "_symbols" ∈ cls.attr) {syms : List α} {M : Val} {fb : ℚ} :
    ∀ (ops : List (SOp α)) (l fss : List ℚ) (P : Nat → Prop) (h : Heap α) (live : List Nat), SpecRun α l ops fss →
      SigInv cls M fb syms P h live l → ∃ h' live' P', ops.foldlM sigStep (h, live) = .ok (h', live') ∧ SigInv cls M fb syms P' h' live' fss := by
  intro ops
  induction ops with
  | nil =>
    intro l fss P h live hr I
    cases hr
    exact ⟨h, live, P, rfl, I⟩
  | cons op ops ih =>
    intro l fss P h live hr I
    cases hr with
    | cons h1 h2 =>
      obtain ⟨h', live', P', g1, g2⟩ := sigStep_inv hbase hkw hsym I h1
      obtain ⟨h'', live'', P'', g3, g4⟩ := ih _ _ P' h' live' h2 g2
      refine ⟨h'', live'', P'', ?_, g4⟩
      rw [List.foldlM_cons, g1]
      exact g3

/-- **C232** A signal generated by `ResampledQAM` with non-zero symbol rate: the samples are those of the resampling filter (of the symbols for equal rates). Through any history of
slicing, arithmetic, copying, changes in place, recreation and resampling that starts with it, every signal has the order, the symbol rate and, as reference, the symbols at one sample
per symbol, and the sampling rate of the last step that set it. No step fails. -/
theorem C232_new (cls : SClass) (hbase : baseAttrs ⊆ cls.base) (hkw : kwName cls "fs" = "_fs") (hsym : "_symbols" ∈ cls.attr) (syms : List α)
    (M : Val) (fb fs : ℚ) (hfb : fb ≠ 0) (params : List (String × Val)) (vals : List α) :
    ∃ h0 out oo, resampledNew cls syms M fb fs params vals = .ok (h0, out) ∧ h0.objs[out]? = some oo ∧
      h0.samples oo = (if |fs / fb - 1| ≤ 1 / 10 ^ 8 + 1 / 10 ^ 5 then syms else vals) ∧
      ∀ (ops : List (SOp α)) (fss : List ℚ), SpecRun α [fs] ops fss → ∃ h live, ops.foldlM sigStep (h0, [out]) = .ok (h, live) ∧ live.length = fss.length ∧
        ∀ (i a : Nat) (r : ℚ), live[i]? = some a → fss[i]? = some r → ∃ o s so, h.objs[a]? = some o ∧ o.cls = cls ∧
          o.attrs "_M" = some M ∧ o.attrs "_fb" = some (.num fb) ∧ o.attrs "_fs" = some (.num r) ∧
          o.attrs "_symbols" = some (.obj s) ∧ h.objs[s]? = some so ∧ h.samples so = syms := by
  have I0 := newSignal_inv cls syms M fb params
  obtain ⟨h', out, g1, I, o, oo, g2, g3, -, g4⟩ := resampleArray_inv hbase hsym I0 0 0 fb fs vals rfl rfl hfb
  refine ⟨h'.set out "_fs" (.num fs), out, oo, ?_, g3, ?_, ?_⟩
  · simp only [resampledNew, g1, bind, Except.bind, pure, Except.pure]
  · rw [g4]
    have hs : (newSignal cls syms M (.num fb) params).samples o = syms := by
      have e : o.buf = 0 ∧ o.sel = List.range syms.length := by
        have : (newSignal cls syms M (.num fb) params).objs[0]? = some o := g2
        unfold newSignal at this
        simp only [Heap.allocFresh, Heap.set, List.cons_append, List.nil_append, List.getElem?_cons_zero, List.set_cons_zero, Option.some.injEq] at this
        rw [← this]
        exact ⟨rfl, rfl⟩
      have hb : (newSignal cls syms M (.num fb) params).bufs[0]? = some syms := rfl
      unfold Heap.samples
      rw [e.1, e.2, List.getD_eq_getElem?_getD, hb, Option.getD_some]
      exact allocFresh_samples (⟨[], []⟩ : Heap α) cls syms fun _ => none
    rw [hs]
  · intro ops fss hrun
    have I1 : SigInv cls M fb syms (fun b => b = 1) (h'.set out "_fs" (.num fs)) [out] [fs] := by
      refine ⟨rfl, I.lt, ?_⟩
      intro i a r h1 h2
      have hi : i = 0 := by have := (List.getElem?_eq_some_iff.1 h1).1; simpa using this
      subst hi
      exact I.obj 1 a r h1 h2
    obtain ⟨h, live, P, k1, J⟩ := history_inv hbase hkw hsym ops [fs] fss _ _ _ hrun I1
    refine ⟨h, live, k1, J.len, ?_⟩
    intro i a r h1 h2
    obtain ⟨o, h3, h4, -, -, s, so, h5, h6, -, -, h7⟩ := J.obj i a r h1 h2
    exact ⟨o, s, so, h3, h4.hcls, h4.hM, h4.hfb, h4.hfs, h5, h6, h7⟩

/-- **C232** `ResampledQAM.from_symbol_array` of any signal of any history: it has the new sampling rate, and order, symbol rate and reference symbols of the given signal; the
histories of both go on as if they were unrelated, e.g. changing one in place leaves the references of both unchanged. -/
theorem C232_from (cls : SClass) (hbase : baseAttrs ⊆ cls.base) (hkw : kwName cls "fs" = "_fs") (hsym : "_symbols" ∈ cls.attr) (syms : List α)
    (M : Val) (fb fs fold : ℚ) (params : List (String × Val)) (vals : List α) (ops ops' : List (SOp α)) (fss fss' : List ℚ) (h1 : Heap α) (live1 : List Nat) (i a : Nat)
    (hrun : SpecRun α [fb] ops fss) (hok : ops.foldlM sigStep (newSignal cls syms M (.num fb) params, [0]) = .ok (h1, live1))
    (hi : live1[i]? = some a) (hf : fss[i]? = some fold) (h0 : fold ≠ 0) (hrun' : SpecRun α (fss ++ [fs]) ops' fss') :
    ∃ h2 out oa oo, resampledFrom cls h1 a fs vals = .ok (h2, out) ∧ h1.objs[a]? = some oa ∧ h2.objs[out]? = some oo ∧
      h2.samples oo = (if |fs / fold - 1| ≤ 1 / 10 ^ 8 + 1 / 10 ^ 5 then h1.samples oa else vals) ∧ oo.buf ≠ oa.buf ∧
      ∃ h live, ops'.foldlM sigStep (h2, live1 ++ [out]) = .ok (h, live) ∧ live.length = fss'.length ∧
        ∀ (i a : Nat) (r : ℚ), live[i]? = some a → fss'[i]? = some r → ∃ o s so, h.objs[a]? = some o ∧ o.cls = cls ∧
          o.attrs "_M" = some M ∧ o.attrs "_fb" = some (.num fb) ∧ o.attrs "_fs" = some (.num r) ∧
          o.attrs "_symbols" = some (.obj s) ∧ h.objs[s]? = some so ∧ h.samples so = syms := by
  obtain ⟨hh, ll, P, k1, I⟩ := history_inv hbase hkw hsym ops [fb] fss _ _ _ hrun (newSignal_inv cls syms M fb params)
  rw [hok, Except.ok.injEq, Prod.mk.injEq] at k1
  obtain ⟨rfl, rfl⟩ := k1
  obtain ⟨h', out, g1, I', o, oo, g2, g3, g5, g4⟩ := resampleArray_inv hbase hsym I i a fold fs vals hi hf h0
  obtain ⟨o', q1, q2, -, q4, -⟩ := I.obj i a fold hi hf
  rw [g2, Option.some.injEq] at q1
  subst q1
  obtain ⟨h, live, P', k1, J⟩ := history_inv hbase hkw hsym ops' _ fss' _ _ _ hrun' I'
  refine ⟨h'.set out "_fs" (.num fs), out, o, oo, ?_, g2, g3, g4, by omega, h, live, k1, J.len, ?_⟩
  · simp only [resampledFrom, deref_ok g2, q2.hfs, q2.hfb, g1, bind, Except.bind, pure, Except.pure]
  · intro i a r h1 h2
    obtain ⟨o, h3, h4, -, -, s, so, h5, h6, -, -, h7⟩ := J.obj i a r h1 h2
    exact ⟨o, s, so, h3, h4.hcls, h4.hM, h4.hfb, h4.hfs, h5, h6, h7⟩

/-- A signal of three symbols generated at two samples per symbol, changed in place and sliced; the hypotheses on the class hold for `SignalQAMGrayCoded`, whose lists `ResampledQAM`
inherits. -/
example : SpecRun Nat [40] [.inplace 0 [9, 9, 9, 9, 9, 9], .view 0 [0, 2, 4], .recreate 1 [4, 5, 6] [("fs", .num 20)]] [40, 40, 20] ∧
    baseAttrs ⊆ qamClass.base ∧ kwName qamClass "fs" = "_fs" ∧ "_symbols" ∈ qamClass.attr :=
  ⟨.cons (.inplace (fs := 40) rfl) (.cons (.view (fs := 40) rfl) (.cons (.recreate (fs := 40) rfl (Or.inr rfl)) .nil)), by decide +kernel⟩

end Qampy
