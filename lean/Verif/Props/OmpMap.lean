import Verif.Props.Omp

/-!
C175: the parallel loops other than the training give the result of the sequential loops for every order of the threads.
-/

namespace Qampy

/-- Two arrays agree in length and at `k`. -/
def ElemAgree {α : Type} (k : Nat) (a b : List α) : Prop := a.length = b.length ∧ a[k]? = b[k]?

/-- Running the steps of iteration `k` alone changes element `k` only. -/
theorem mapOps_seq {α L : Type} (fs : List (L × α → Option (L × α))) (k : Nat) (out : List α) (l l' : L) (a b : α) (ha : out[k]? = some a)
    (h : fs.foldlM (fun p f => f p) (l, a) = some (l', b)) : ompSeq (mapOps (fun _ => fs) k) (l, out) = some (l', out.set k b) := by
  induction fs generalizing l a out with
  | nil =>
    obtain ⟨rfl, rfl⟩ : l = l' ∧ a = b := by simpa using h
    have : out.set k a = out := by
      apply List.ext_getElem?
      intro i
      rw [List.getElem?_set]
      split
      · rename_i h; subst h
        obtain ⟨hk, -⟩ := List.getElem?_eq_some_iff.1 ha
        rw [if_pos hk, ha]
      · rfl
    simp [mapOps, ompSeq, this]
  | cons f fs ih =>
    rw [List.foldlM_cons] at h
    cases hf : f (l, a) with
    | none => rw [hf] at h; cases h
    | some r =>
      obtain ⟨r1, r2⟩ := r
      rw [hf] at h
      have hk : k < out.length := (List.getElem?_eq_some_iff.1 ha).1
      have := ih (out.set k r2) r1 r2 (by simp [hk]) h
      rw [List.set_set] at this
      unfold ompSeq mapOps at this ⊢
      rw [List.map_cons, List.foldlM_cons]
      simp only [ha, Option.bind_eq_bind, Option.bind_some, hf]
      exact this

/-- A step on element `k`, as a step on the array. -/
def elemOp {α L : Type} (k : Nat) (g : L × α → Option (L × α)) : OmpOp (List α) L := fun l out => (out[k]?).bind fun a => (g (l, a)).bind fun r => some (r.1, out.set k r.2)

/-- A parallel loop whose iteration `k` uses the inputs, private variables and element `k` of the result only: every complete execution gives the array of the values which the iterations compute alone. -/
theorem mapParallel_complete {α L : Type} {body : Nat → List (L × α → Option (L × α))} {l0 : L} {init out : List α} (hlen : out.length = init.length)
    (hb : ∀ k a b, init[k]? = some a → out[k]? = some b → ∃ l', (body k).foldlM (fun p f => f p) (l0, a) = some (l', b))
    (sched : List Nat) (hs : ∀ k < init.length, (body k).length ≤ sched.count k) : mapParallel body l0 init sched = some out := by
  unfold mapParallel
  obtain ⟨prog, hprog⟩ : ∃ prog : Nat → List (OmpOp (List α) L), prog = fun k => if k < init.length then mapOps body k else [] := ⟨_, rfl⟩
  rw [← hprog]
  have hmem : ∀ k, ∀ f ∈ prog k, ∃ g : L × α → Option (L × α), f = elemOp k g := by
    intro k f hf
    rw [hprog] at hf
    dsimp only at hf
    split at hf
    · obtain ⟨g, -, rfl⟩ := List.mem_map.1 hf
      exact ⟨g, rfl⟩
    · cases hf
  have hseq : ∀ k a b, init[k]? = some a → out[k]? = some b → ∃ l', ompSeq (prog k) (l0, init) = some (l', init.set k b) := by
    intro k a b ha hbk
    obtain ⟨l', h⟩ := hb k a b ha hbk
    refine ⟨l', ?_⟩
    rw [hprog]
    dsimp only
    rw [if_pos (List.getElem?_eq_some_iff.1 ha).1]
    exact mapOps_seq (body k) k init l0 l' a b ha h
  have hout : ∀ k, init.length ≤ k → prog k = [] := by
    intro k hk
    rw [hprog]
    dsimp only
    rw [if_neg (by omega)]
  obtain ⟨st, h1, h2⟩ := ompRun_complete (prog := prog) (agree := ElemAgree) (fun k s => ⟨rfl, rfl⟩)
    (fun k a b c h h' => ⟨h.1.trans h'.1, h.2.trans h'.2⟩) (by
      intro k f hf l s s' hss
      obtain ⟨g, rfl⟩ := hmem k f hf
      unfold OpRel elemOp
      rw [← hss.2]
      cases hs : s[k]? with
      | none => trivial
      | some a =>
        simp only [Option.bind_some]
        cases g (l, a) with
        | none => trivial
        | some r => exact ⟨rfl, by simpa using hss.1, getElem?_set_congr hss.2 r.2⟩) (by
      intro j k hjk f hf l s r hr
      obtain ⟨g, rfl⟩ := hmem j f hf
      unfold elemOp at hr
      cases hs : s[j]? with
      | none => rw [hs] at hr; cases hr
      | some a =>
        rw [hs] at hr
        simp only [Option.bind_some] at hr
        cases hg : g (l, a) with
        | none => rw [hg] at hr; cases hr
        | some q =>
          rw [hg] at hr
          cases hr
          exact ⟨by simp, by rw [List.getElem?_set_ne hjk]⟩)
    init (fun _ => l0) (by
      intro k
      by_cases hk : k < init.length
      · obtain ⟨l', h⟩ := hseq k init[k] (out[k]'(by omega)) (by simp [hk]) (by simp [hlen, hk])
        exact ⟨_, h⟩
      · rw [hout k (by omega)]
        exact ⟨_, rfl⟩) sched (by
      intro k
      by_cases hk : k < init.length
      · rw [hprog]
        dsimp only
        rw [if_pos hk, mapOps, List.length_map]
        exact hs k hk
      · rw [hout k (by omega)]
        simp)
  rw [h1]
  refine congrArg some ?_
  apply List.ext_getElem?
  intro k
  obtain ⟨p, hp1, hp2⟩ := h2 k
  by_cases hk : k < init.length
  · obtain ⟨l', h⟩ := hseq k init[k] (out[k]'(by omega)) (by simp [hk]) (by simp [hlen, hk])
    rw [h] at hp1
    cases hp1
    rw [← hp2.2]
    simp [hk, hlen]
  · rw [hout k (by omega)] at hp1
    cases hp1
    rw [← hp2.2, List.getElem?_eq_none (by dsimp only; omega), List.getElem?_eq_none (by omega)]

/-- Row-major indexing: element `q` of the flat array is the element `q % N` of row `q / N`. -/
theorem getElem?_flatten_rows {α : Type} {N : Nat} (hN : 0 < N) (l : List (List α)) (h : ∀ r ∈ l, r.length = N) (q : Nat) : l.flatten[q]? = l[q / N]?.bind fun r => r[q % N]? := by
  induction l generalizing q with
  | nil => simp
  | cons r l ih =>
    have hr : r.length = N := h r (by simp)
    rw [List.flatten_cons, List.getElem?_append]
    split
    · rename_i hq
      rw [hr] at hq
      rw [Nat.div_eq_of_lt hq, Nat.mod_eq_of_lt hq]
      simp
    · rename_i hq
      rw [hr] at hq ⊢
      rw [ih (fun r hr => h r (by simp [hr]))]
      obtain ⟨c, rfl⟩ : ∃ c, q = c + N := ⟨q - N, by omega⟩
      rw [Nat.add_sub_cancel, Nat.add_div_right _ hN, Nat.add_mod_right]
      simp

theorem length_flatten_rows {α : Type} {N : Nat} (l : List (List α)) (h : ∀ r ∈ l, r.length = N) : l.flatten.length = l.length * N := by
  induction l with
  | nil => simp
  | cons r l ih =>
    rw [List.flatten_cons, List.length_append, ih (fun r hr => h r (by simp [hr])), h r (by simp), List.length_cons]
    ring

/-- The steps of one output sample are the loop of `apply_filter`. -/
theorem filterBody_seq {K : Type} [RCLike K] {E : List (List K)} {os ntaps N q m : Nat} {wx : List (List (List K))} {modes : List Nat} {w : List (List K)} {x : K}
    (hm : modes[q / N]? = some m) (hw : wx[m]? = some w) (h : applyFilter (window E (q % N * os) ntaps) w ntaps = some x) (a : K) :
    (filterBody E os wx ntaps modes N q).foldlM (fun p f => f p) ((0 : K), a) = some (x, x) := by
  unfold filterBody
  rw [List.foldlM_append, List.foldlM_append]
  have hlen : (window E (q % N * os) ntaps).length = E.length := by simp [window]
  have key : ∀ (ks : List Nat) (c x : K), ks.foldlM (fun acc k => (List.range ntaps).foldlM (fun acc i => do
      let e ← at2 (window E (q % N * os) ntaps) k i
      let w ← at2 w k i
      some (acc + e * w)) acc) c = some x →
      (ks.flatMap fun k => (List.range ntaps).map fun t => fun p : K × K => do
        let m ← modes[q / N]?
        let w ← wx[m]?
        let e ← at2 (window E (q % N * os) ntaps) k t
        let c ← at2 w k t
        some (p.1 + e * c, p.2)).foldlM (fun p f => f p) (c, a) = some (x, a) := by
    intro ks
    induction ks with
    | nil => intro c x h; simpa using h
    | cons k ks ih =>
      intro c x h
      rw [List.foldlM_cons] at h
      rw [List.flatMap_cons, List.foldlM_append]
      have row : ∀ (ts : List Nat) (c : K), (ts.map fun t => fun p : K × K => do
          let m ← modes[q / N]?
          let w ← wx[m]?
          let e ← at2 (window E (q % N * os) ntaps) k t
          let c ← at2 w k t
          some (p.1 + e * c, p.2)).foldlM (fun p f => f p) (c, a) = (ts.foldlM (fun acc i => do
            let e ← at2 (window E (q % N * os) ntaps) k i
            let w ← at2 w k i
            some (acc + e * w)) c).map fun y => (y, a) := by
        intro ts
        induction ts with
        | nil => intro c; rfl
        | cons t ts iht =>
          intro c
          rw [List.map_cons, List.foldlM_cons, List.foldlM_cons]
          simp only [hm, hw, Option.bind_eq_bind, Option.bind_some]
          cases at2 (window E (q % N * os) ntaps) k t with
          | none => rfl
          | some e =>
            cases hc : at2 w k t with
            | none => rfl
            | some c' =>
              have := iht (c + e * c')
              simp only [hm, hw, Option.bind_eq_bind, Option.bind_some] at this ⊢
              exact this
      rw [row]
      obtain ⟨y, hy⟩ : ∃ y, y = (List.range ntaps).foldlM (fun acc i => do
            let e ← at2 (window E (q % N * os) ntaps) k i
            let w ← at2 w k i
            some (acc + e * w)) c := ⟨_, rfl⟩
      rw [← hy] at h ⊢
      cases y with
      | none => cases h
      | some y => exact ih y x h
  unfold applyFilter at h
  rw [hlen] at h
  have h0 : List.foldlM (fun p f => f p) ((0 : K), a) [fun p : K × K => some ((0 : K), p.2)] = some ((0 : K), a) := rfl
  rw [h0]
  simp only [Option.bind_eq_bind, Option.bind_some]
  have hk := key (List.range E.length) 0 x h
  simp only [Option.bind_eq_bind] at hk
  rw [hk]
  rfl

/-- `mapM` over a list, element by element. -/
theorem mapM_some_getElem? {α β : Type} {f : α → Option β} {l : List α} {out : List β} (h : l.mapM f = some out) : out.length = l.length ∧ ∀ (k : Nat) (b : β), out[k]? = some b → ∃ a, l[k]? = some a ∧ f a = some b := by
  induction l generalizing out with
  | nil =>
    cases h
    simp
  | cons a l ih =>
    rw [List.mapM_cons] at h
    cases hf : f a with
    | none => rw [hf] at h; cases h
    | some b =>
      cases hl : l.mapM f with
      | none => rw [hf, hl] at h; cases h
      | some bs =>
        rw [hf, hl] at h
        cases h
        obtain ⟨h1, h2⟩ := ih hl
        refine ⟨by simp [h1], fun k c hc => ?_⟩
        cases k with
        | zero =>
          simp only [List.getElem?_cons_zero, Option.some.injEq] at hc
          subst hc
          exact ⟨a, rfl, hf⟩
        | succ k => exact h2 k c hc

/-- `apply_filter_to_signal`: every execution gives the output of the sequential loops (in row-major order). -/
theorem C175_filter {K : Type} [RCLike K] {E : List (List K)} {L os ntaps N : Nat} {wx : List (List (List K))} {modes : List Nat} {out : List (List K)}
    (h : applyFilterToSignal E L os wx ntaps modes = some out) (hN : N = (((L : Int) - ntaps + 1) / os).toNat)
    (sched : List Nat) (hs : ∀ q < modes.length * N, (filterBody E os wx ntaps modes N q).length ≤ sched.count q) :
    mapParallel (filterBody E os wx ntaps modes N) 0 (List.replicate (modes.length * N) 0) sched = some out.flatten := by
  unfold applyFilterToSignal at h
  split at h
  · cases h
  · dsimp only at h
    rw [← hN] at h
    obtain ⟨h1, h2⟩ := mapM_some_getElem? h
    have hrow : ∀ r ∈ out, r.length = N := by
      intro r hr
      obtain ⟨j, hj⟩ := List.mem_iff_getElem?.1 hr
      obtain ⟨m, -, hm⟩ := h2 j r hj
      cases hw : wx[m]? with
      | none => rw [hw] at hm; cases hm
      | some w =>
        rw [hw] at hm
        simpa using (mapM_some_getElem? hm).1
    refine mapParallel_complete ?_ ?_ sched ?_
    · rw [length_flatten_rows out hrow, h1, List.length_replicate]
    · intro q a x ha hx
      have hq : q < modes.length * N := by
        simpa using (List.getElem?_eq_some_iff.1 ha).1
      have hNp : 0 < N := by
        rcases Nat.eq_zero_or_pos N with h0 | h0
        · rw [h0] at hq; simp at hq
        · exact h0
      rw [getElem?_flatten_rows hNp out hrow] at hx
      cases hj : out[q / N]? with
      | none => rw [hj] at hx; cases hx
      | some r =>
        rw [hj] at hx
        simp only [Option.bind_some] at hx
        obtain ⟨m, hm, hm'⟩ := h2 _ _ hj
        cases hw : wx[m]? with
        | none => rw [hw] at hm'; cases hm'
        | some w =>
          rw [hw] at hm'
          simp only [Option.bind_eq_bind, Option.bind_some] at hm'
          obtain ⟨i, hi, hi'⟩ := (mapM_some_getElem? hm').2 _ _ hx
          obtain ⟨hlt, hie⟩ := List.getElem?_eq_some_iff.1 hi
          rw [List.getElem_range] at hie
          subst hie
          exact ⟨x, filterBody_seq hm hw hi' a⟩
    · simpa using hs

/-- `make_decision`: every execution gives the symbols, distances and indices of the sequential loop, whatever was in the arrays before. -/
theorem C175_decision {E symbols : List ℂ} {out : List (ℂ × ℝ × Nat)} (h : makeDecision E symbols = some out) (init : List (ℂ × ℝ × Nat)) (hi : init.length = E.length)
    (sched : List Nat) (hs : ∀ i < E.length, 4 ≤ sched.count i) : mapParallel (decisionBody E symbols) none init sched = some out := by
  obtain ⟨h1, h2⟩ := mapM_some_getElem? h
  refine mapParallel_complete (h1.trans hi.symm) ?_ sched (fun k hk => hs k (hi ▸ hk))
  intro k a b _ hb
  obtain ⟨e, he, hd⟩ := h2 k b hb
  refine ⟨some b, ?_⟩
  unfold decisionBody
  simp only [List.foldlM_cons, List.foldlM_nil, he, hd, Option.bind_eq_bind, Option.bind_some, Option.map_some]
  rfl

/-- The demappers: every execution gives the L-values of the sequential loops. -/
theorem demap_complete (lvalue : List ℂ × List ℂ → ℂ → ℝ) (rx : List ℂ) (bitsMap : List (List ℂ × List ℂ)) (sched : List Nat) (hs : ∀ q < rx.length * bitsMap.length, q ∈ sched) :
    mapParallel (demapBody lvalue rx bitsMap) () (List.replicate (rx.length * bitsMap.length) 0) sched = some (rx.map fun r => bitsMap.map fun b => lvalue b r).flatten := by
  have hrow : ∀ r ∈ rx.map fun r => bitsMap.map fun b => lvalue b r, r.length = bitsMap.length := by
    intro r hr
    obtain ⟨x, -, rfl⟩ := List.mem_map.1 hr
    simp
  refine mapParallel_complete ?_ ?_ sched ?_
  · rw [length_flatten_rows _ hrow]
    simp
  · intro q a x ha hx
    have hq : q < rx.length * bitsMap.length := by simpa using (List.getElem?_eq_some_iff.1 ha).1
    have hNp : 0 < bitsMap.length := by
      rcases Nat.eq_zero_or_pos bitsMap.length with h0 | h0
      · rw [h0] at hq; simp at hq
      · exact h0
    rw [getElem?_flatten_rows hNp _ hrow, List.getElem?_map] at hx
    cases hr : rx[q / bitsMap.length]? with
    | none => rw [hr] at hx; cases hx
    | some r =>
      rw [hr] at hx
      simp only [Option.map_some, Option.bind_some, List.getElem?_map] at hx
      cases hb : bitsMap[q % bitsMap.length]? with
      | none => rw [hb] at hx; cases hx
      | some b =>
        rw [hb] at hx
        simp only [Option.map_some, Option.some.injEq] at hx
        subst hx
        refine ⟨(), ?_⟩
        simp [demapBody, hr, hb]
  · intro q hq
    simp only [List.length_replicate] at hq
    exact List.count_pos_iff.2 (hs q hq)

/-- `soft_l_value_demapper` and `soft_l_value_demapper_minmax`. -/
theorem C175_demapper (rx : List ℂ) (snr : ℝ) (bitsMap : List (List ℂ × List ℂ)) (sched : List Nat) (hs : ∀ q < rx.length * bitsMap.length, q ∈ sched) :
    mapParallel (demapBody (fun b r => calLValues b r snr) rx bitsMap) () (List.replicate (rx.length * bitsMap.length) 0) sched = some (softLValueDemapper rx snr bitsMap).flatten ∧
    mapParallel (demapBody (fun b r => maxLogLValue b r snr) rx bitsMap) () (List.replicate (rx.length * bitsMap.length) 0) sched = some (softLValueDemapperMinmax rx snr bitsMap).flatten :=
  ⟨demap_complete _ rx bitsMap sched hs, demap_complete _ rx bitsMap sched hs⟩

/-- The loop over the test angles in one row. -/
theorem bpsBody_seq {E : List ℂ} {angles : List (List ℝ)} (symbols : List ℂ) {i : Nat} {e : ℂ} {row : List ℝ} (he : E[i]? = some e) (hr : angles[if 1 < angles.length then i else 0]? = some row) :
    (bpsBody E angles symbols row.length i).foldlM (fun p f => f p) ((), List.replicate row.length 100) = some ((), row.map fun φ : ℝ =>
      if detDist (e * Complex.exp (Complex.I * (φ : ℂ))) symbols < 100 then detDist (e * Complex.exp (Complex.I * (φ : ℂ))) symbols else 100) := by
  obtain ⟨g, hg⟩ : ∃ g : ℝ → ℝ, g = fun φ : ℝ => detDist (e * Complex.exp (Complex.I * (φ : ℂ))) symbols := ⟨_, rfl⟩
  have key : ∀ n, n ≤ row.length → (bpsBody E angles symbols n i).foldlM (fun p f => f p) ((), List.replicate row.length 100) =
      some ((), ((row.take n).map fun φ => if g φ < 100 then g φ else 100) ++ List.replicate (row.length - n) 100) := by
    intro n hn
    induction n with
    | zero => simp [bpsBody]
    | succ n ih =>
      have ih := ih (by omega)
      unfold bpsBody at ih ⊢
      rw [List.range_succ, List.map_append, List.foldlM_append, ih]
      have hφ : row[n]? = some row[n] := by simp
      have h2 : at2 angles (if 1 < angles.length then i else 0) n = some row[n] := by
        simp [at2, hr]
      obtain ⟨pre, hpre⟩ : ∃ pre, pre = (row.take n).map fun φ => if g φ < 100 then g φ else (100 : ℝ) := ⟨_, rfl⟩
      have hl : pre.length = n := by rw [hpre]; simp; omega
      obtain ⟨c, hc⟩ : ∃ c, row.length - n = c + 1 := ⟨row.length - n - 1, by omega⟩
      have hc' : row.length - (n + 1) = c := by omega
      have hidx : (pre ++ List.replicate (row.length - n) (100 : ℝ))[n]? = some 100 := by
        rw [List.getElem?_append_right (by omega), hl, hc]
        simp
      simp only [Option.bind_eq_bind, Option.bind_some, List.map_cons, List.map_nil, List.foldlM_cons, List.foldlM_nil, he, h2, ← hpre, hidx]
      have ht : row.take (n + 1) = row.take n ++ [row[n]] := by simp
      rw [ht, List.map_append, ← hpre, hc', hc]
      have hgn : detDist (e * Complex.exp (Complex.I * ((row[n] : ℝ) : ℂ))) symbols = g row[n] := by rw [hg]
      rw [hgn]
      have hset : ∀ v : ℝ, (pre ++ List.replicate (c + 1) (100 : ℝ)).set n v = pre ++ v :: List.replicate c 100 := by
        intro v
        rw [List.set_append, if_neg (by omega), hl, Nat.sub_self, List.replicate_succ, List.set_cons_zero]
      simp only [List.map_cons, List.map_nil, List.append_assoc, List.singleton_append]
      split
      · rw [hset]; rfl
      · rw [List.replicate_succ]; rfl
  have := key row.length le_rfl
  rw [this]
  simp [hg]

/-- `bps`: every execution of the loop over the samples gives the sequential distances (all rows of test angles have `ntest` entries). -/
theorem C175_bps {E : List ℂ} {angles : List (List ℝ)} {symbols : List ℂ} {ntest : Nat} (hn : ∀ r ∈ angles, r.length = ntest) {out : List (List ℝ)} (h : bpsDists E angles symbols = some out)
    (sched : List Nat) (hs : ∀ i < E.length, ntest ≤ sched.count i) :
    mapParallel (bpsBody E angles symbols ntest) () (List.replicate E.length (List.replicate ntest 100)) sched = some out := by
  obtain ⟨h1, h2⟩ := mapM_some_getElem? h
  refine mapParallel_complete (by simpa using h1) ?_ sched ?_
  · intro k a b ha hb
    obtain ⟨i, hi, hd⟩ := h2 k b hb
    obtain ⟨hlt, hie⟩ := List.getElem?_eq_some_iff.1 hi
    rw [List.getElem_range] at hie
    subst hie
    have hk : k < E.length := by simpa using hlt
    rw [List.getElem?_replicate, if_pos hk, Option.some.injEq] at ha
    subst ha
    cases he : E[k]? with
    | none => rw [he] at hd; cases hd
    | some e =>
      rw [he] at hd
      cases hr : angles[if 1 < angles.length then k else 0]? with
      | none => rw [hr] at hd; cases hd
      | some row =>
        rw [hr] at hd
        cases hd
        have : row.length = ntest := hn row (List.mem_of_getElem? hr)
        subst this
        exact ⟨(), bpsBody_seq symbols he hr⟩
  · intro k hk
    simpa [bpsBody] using hs k (by simpa using hk)

/-- `select_angles`: every execution gives the selected angles. -/
theorem C175_select {angles : List (List ℝ)} {idx : List Nat} {out : List ℝ} (h : selectAngles angles idx = some out) (init : List ℝ) (hi : init.length = if 1 < angles.length then angles.length else idx.length)
    (sched : List Nat) (hs : ∀ i < init.length, i ∈ sched) : mapParallel (selectBody angles idx) () init sched = some out := by
  have hcount : ∀ k < init.length, (selectBody angles idx k).length ≤ sched.count k := fun k hk => List.count_pos_iff.2 (hs k hk)
  unfold selectAngles at h
  split at h
  · rename_i h1
    rw [if_pos h1] at hi
    obtain ⟨h2, h3⟩ := mapM_some_getElem? h
    refine mapParallel_complete (by rw [h2, hi, List.length_range]) ?_ sched hcount
    intro k a b _ hb
    obtain ⟨i, hik, hd⟩ := h3 k b hb
    obtain ⟨hlt, hie⟩ := List.getElem?_eq_some_iff.1 hik
    rw [List.getElem_range] at hie
    subst hie
    refine ⟨(), ?_⟩
    simp only [selectBody, if_pos h1, List.foldlM_cons, List.foldlM_nil]
    cases hr : angles[k]? with
    | none => rw [hr] at hd; cases hd
    | some r =>
      cases hx : idx[k]? with
      | none => rw [hr, hx] at hd; cases hd
      | some x =>
        rw [hr, hx] at hd
        simp only [Option.bind_eq_bind, Option.bind_some] at hd
        simp [hd]
  · rename_i h1
    rw [if_neg h1] at hi
    obtain ⟨h2, h3⟩ := mapM_some_getElem? h
    refine mapParallel_complete (by rw [h2, hi]) ?_ sched hcount
    intro k a b _ hb
    obtain ⟨x, hx, hd⟩ := h3 k b hb
    refine ⟨(), ?_⟩
    simp only [selectBody, if_neg h1, List.foldlM_cons, List.foldlM_nil]
    cases hr : angles[0]? with
    | none => rw [hr] at hd; cases hd
    | some r =>
      rw [hr] at hd
      simp only [Option.bind_eq_bind, Option.bind_some] at hd
      simp [hd, hx]

/-- The sum of a `reduction(+)` loop does not depend on the number of threads, on the distribution of the iterations and on the order in which the threads end. -/
theorem ompReduce_sum {α : Type} [AddCommMonoid α] (vals : List α) (who : Nat → Nat) (order : List Nat) (hnd : order.Nodup) (hw : ∀ i < vals.length, who i ∈ order) :
    ompReduce vals who order = vals.sum := by
  unfold ompReduce
  have hf : ∀ (l : List α) (a : α), l.foldl (fun a x => a + x) a = a + l.sum := by
    intro l
    induction l with
    | nil => simp
    | cons x l ih => intro a; rw [List.foldl_cons, ih, List.sum_cons, add_assoc]
  have hg : ∀ (l : List Nat) (g : Nat → α) (a : α), l.foldl (fun a t => a + g t) a = a + (l.map g).sum := by
    intro l g
    induction l with
    | nil => simp
    | cons x l ih => intro a; rw [List.foldl_cons, ih, List.map_cons, List.sum_cons, add_assoc]
  simp only [hf, zero_add]
  rw [hg, zero_add]
  have key : ∀ ps : List (α × Nat), (∀ p ∈ ps, who p.2 ∈ order) → (order.map fun t => ((ps.filter fun p => who p.2 = t).map (·.1)).sum).sum = (ps.map (·.1)).sum := by
    intro ps
    induction ps with
    | nil => intro _; simp
    | cons p ps ih =>
      intro h
      rw [List.map_cons, List.sum_cons, ← ih fun q hq => h q (by simp [hq])]
      have hp := h p (by simp)
      clear h ih hg hf hw
      have : ∀ order : List Nat, order.Nodup → (order.map fun t => (((p :: ps).filter fun q => who q.2 = t).map (·.1)).sum).sum =
          (if who p.2 ∈ order then p.1 else 0) + (order.map fun t => ((ps.filter fun q => who q.2 = t).map (·.1)).sum).sum := by
        intro order hnd
        induction order with
        | nil => simp
        | cons t order ih =>
          rw [List.nodup_cons] at hnd
          rw [List.map_cons, List.sum_cons, List.map_cons, List.sum_cons, ih hnd.2]
          by_cases ht : who p.2 = t
          · have hn : who p.2 ∉ order := by rw [ht]; exact hnd.1
            rw [if_neg hn, List.filter_cons_of_pos (by simpa using ht), List.map_cons, List.sum_cons, if_pos (by rw [ht]; simp), zero_add, add_assoc]
          · rw [List.filter_cons_of_neg (by simpa using ht)]
            have : (who p.2 ∈ t :: order) ↔ who p.2 ∈ order := by simp [ht]
            simp only [this]
            rw [add_left_comm]
      rw [this order hnd, if_pos hp]
  rw [key]
  · simp
  · intro p hp
    have : p.2 < vals.length := by
      have := List.snd_lt_of_mem_zipIdx hp
      omega
    exact hw _ this

theorem sum_flatMap {α β : Type} [AddCommMonoid β] (l : List α) (g : α → List β) : (l.flatMap g).sum = (l.map fun a => (g a).sum).sum := by
  induction l with
  | nil => rfl
  | cons a l ih => rw [List.flatMap_cons, List.sum_append, ih, List.map_cons, List.sum_cons]

/-- The loops with `reduction(+)`: the results are those of the sequential loops, for every number of threads, every distribution of the iterations and every order of the final additions. -/
theorem C175_reduction (who : Nat → Nat) (order : List Nat) (hnd : order.Nodup) (hw : ∀ i, who i ∈ order) :
    (∀ rx tx gray : List ℂ, estimateSnrParallel rx tx gray who order = estimateSnr rx tx gray) ∧
    (∀ (noise symbols : List ℂ) (N0 : ℝ), calMiMcParallel noise symbols N0 who order = calMiMc noise symbols N0) ∧
    (∀ (sig sigTx symbols : List ℂ) (N0 : ℝ), calMiMcFastParallel sig sigTx symbols N0 who order = calMiMcFast sig sigTx symbols N0) ∧
    (∀ (symbols : List ℂ) (snr : ℝ) (z : List ℂ) (nbits : Nat) (bitMap : List (List ℂ × List ℂ)), calGmiMcParallel symbols snr z nbits bitMap who order = calGmiMc symbols snr z nbits bitMap) := by
  have h : ∀ vals : List ℝ, ompReduce vals who order = vals.sum := fun vals => ompReduce_sum vals who order hnd fun i _ => hw i
  refine ⟨?_, ?_, ?_, ?_⟩
  · intro rx tx gray
    simp only [estimateSnrParallel, estimateSnr, h]
  · intro noise symbols N0
    simp only [calMiMcParallel, calMiMc, h, sum_flatMap]
  · intro sig sigTx symbols N0
    simp only [calMiMcFastParallel, calMiMcFast, h]
  · intro symbols snr z nbits bitMap
    simp only [calGmiMcParallel, calGmiMc, h, sum_flatMap]

/-- Two samples and one tap: the steps of the two output samples interleaved. -/
example : mapParallel (filterBody [[(2 : ℝ), 5]] 1 [[[3]]] 1 [0] 2) 0 (List.replicate 2 0) [1, 0, 0, 1, 1, 0] = some [6, 15] := by
  have h := C175_filter (K := ℝ) (E := [[2, 5]]) (L := 2) (os := 1) (ntaps := 1) (N := 2) (wx := [[[3]]]) (modes := [0]) (out := [[6, 15]])
    (by norm_num [applyFilterToSignal, applyFilter, window, at2, List.range_succ, show Int.toNat 2 = 2 from rfl]) (by norm_num; rfl) [1, 0, 0, 1, 1, 0] (fun q hq => by
      have : q = 0 ∨ q = 1 := by simp at hq; omega
      rcases this with rfl | rfl <;> simp [filterBody])
  simpa using h

/-- Two samples, the same test angles for both; the loop over the angles of the samples interleaved. -/
example (a b φ ψ : ℝ) : ∃ out, mapParallel (bpsBody [(a : ℂ), b] [[φ, ψ]] [1, -1] 2) () (List.replicate 2 (List.replicate 2 100)) [1, 0, 1, 0] = some out ∧ bpsDists [(a : ℂ), b] [[φ, ψ]] [1, -1] = some out :=
  ⟨_, C175_bps (E := [(a : ℂ), b]) (ntest := 2) (by simp) rfl [1, 0, 1, 0] (show ∀ i < 2, 2 ≤ List.count i [1, 0, 1, 0] by decide), rfl⟩

/-- One row of angles, three indices, the iterations in another order. -/
example (a b : ℝ) : mapParallel (selectBody [[a, b]] [1, 0, 1]) () [0, 0, 0] [2, 0, 1] = some [b, a, b] :=
  C175_select (angles := [[a, b]]) (idx := [1, 0, 1]) rfl [0, 0, 0] rfl [2, 0, 1] (by decide)

/-- Three values, two threads, the second thread ends first. -/
example : ompReduce [(1 : ℝ), 2, 4] (fun i => i % 2) [1, 0] = 7 := by
  rw [ompReduce_sum _ _ _ (by decide) (by intro i _; rcases Nat.mod_two_eq_zero_or_one i with h | h <;> simp [h])]
  norm_num

end Qampy
