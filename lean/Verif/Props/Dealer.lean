import Verif.Model.Dealer
import Verif.Props.Signal

/-!
# Distributed processing: C169
-/

namespace Qampy

variable {R V : Type}

/-- What the caller of the dealer expects for a request: the value returned by the handler, or an exception with the text of that of the
handler. -/
def expectedResult (handler : R → Outcome V) (r : R) : Except (V ⊕ String) (V ⊕ String) :=
  match handler r with
  | .ret v => .ok (.inl v)
  | .exc e => .error (.inr e)
  | .base => .error (.inr "")

/-- No step is possible any more. -/
def FarmDone (packable : V → Bool) (handler : R → Outcome V) (s : Farm R V) : Prop := ∀ t, ¬ FarmStep packable handler s t

/-- C169: however the requests are distributed and scheduled, every execution that has come to an end has received exactly one result for every
request, if the handlers return or raise ordinary exceptions. -/
def C169_statement : Prop := ∀ (packable : Nat → Bool) (handler : Nat → Outcome Nat) (reqs : List Nat) (n k : Nat) (s : Farm Nat Nat),
  1 ≤ n → (∀ r ∈ reqs, handler r ≠ .base) → FarmRun packable handler k (farmStart reqs n) s → FarmDone packable handler s →
  s.got.Perm (reqs.map (expectedResult handler))

theorem process_reply (packable : V → Bool) (o : Outcome V) :
    process packable o = if answered packable o then ((expectedReply o).toList, true) else ([], false) := by
  cases o with
  | ret v => by_cases h : packable v = true <;> simp [process, tryBlock, answered, expectedReply, h]
  | exc r => by_cases h : isAscii r = true <;> simp [process, tryBlock, answered, expectedReply, h]
  | base => simp [process, tryBlock, answered]

/-- All results received, under way or still to be computed. -/
def farmAll (handler : R → Outcome V) (s : Farm R V) : List (Except (V ⊕ String) (V ⊕ String)) :=
  s.got ++ s.workers.flatMap (fun w => w.out.map recvMsg ++ w.queue.map (expectedResult handler)) ++ s.todo.map (expectedResult handler)

theorem recv_expected (packable : V → Bool) (handler : R → Outcome V) (r : R) (h : answered packable (handler r) = true) :
    ((process packable (handler r)).1).map recvMsg = [expectedResult handler r] ∧ (process packable (handler r)).2 = true := by
  rw [process_reply, if_pos h]
  refine ⟨?_, rfl⟩
  unfold expectedResult
  cases hr : handler r with
  | ret v => rfl
  | exc e => rfl
  | base => rw [hr] at h; simp [answered] at h

theorem recv_dead (packable : V → Bool) (handler : R → Outcome V) (r : R) (h : answered packable (handler r) ≠ true) :
    process packable (handler r) = ([], false) := by
  rw [process_reply, if_neg h]

theorem step_count [DecidableEq (Except (V ⊕ String) (V ⊕ String))] (packable : V → Bool) (handler : R → Outcome V) {s t : Farm R V}
    (h : FarmStep packable handler s t) (x : Except (V ⊕ String) (V ⊕ String)) :
    (farmAll handler t).count x ≤ (farmAll handler s).count x := by
  cases h with
  | send r rs a w b got =>
    simp only [farmAll, List.flatMap_append, List.flatMap_cons, List.count_append, List.map_append, List.map_cons, List.map_nil, List.count_cons,
      List.count_nil]
    omega
  | work r q out a b todo got =>
    by_cases ha : answered packable (handler r) = true
    · have h1 := (recv_expected packable handler r ha).1
      simp only [farmAll, List.flatMap_append, List.flatMap_cons, List.count_append, List.map_append, List.map_cons, List.count_cons, h1,
        List.count_nil]
      omega
    · have h1 := recv_dead packable handler r ha
      simp only [farmAll, List.flatMap_append, List.flatMap_cons, List.count_append, List.map_append, List.map_cons, List.count_cons, h1,
        List.count_nil, List.map_nil]
      omega
  | recv y q up out a b todo got =>
    simp only [farmAll, List.flatMap_append, List.flatMap_cons, List.count_append, List.map_cons, List.count_cons, List.count_nil]
    omega

/-- Invariant of the executions in which every request can be answered. -/
structure FarmOk (packable : V → Bool) (handler : R → Outcome V) (reqs : List R) (n : Nat) (s : Farm R V) : Prop where
  ans : ∀ r ∈ s.todo ++ s.workers.flatMap (·.queue), answered packable (handler r) = true
  up : ∀ w ∈ s.workers, w.up = true
  len : s.workers.length = n
  perm : (farmAll handler s).Perm (reqs.map (expectedResult handler))

theorem farmOk_step (packable : V → Bool) (handler : R → Outcome V) (reqs : List R) (n : Nat) {s t : Farm R V}
    (h : FarmStep packable handler s t) (hs : FarmOk packable handler reqs n s) : FarmOk packable handler reqs n t := by
  classical
  obtain ⟨h1, h2, h3, h4⟩ := hs
  cases h with
  | send r rs a w b got =>
    refine ⟨?_, ?_, by simpa using h3, ?_⟩
    · intro x hx
      apply h1
      simp only [List.flatMap_append, List.flatMap_cons, List.mem_append, List.mem_cons, List.not_mem_nil, or_false] at hx ⊢
      tauto
    · intro v hv
      rcases List.mem_append.1 hv with h | h
      · exact h2 v (by simp [h])
      · rcases List.mem_cons.1 h with h | h
        · subst h
          exact h2 w (by simp)
        · exact h2 v (by simp [h])
    · refine List.Perm.trans ?_ h4
      rw [List.perm_iff_count]
      intro x
      simp only [farmAll, List.flatMap_append, List.flatMap_cons, List.count_append, List.map_append, List.map_cons, List.map_nil,
        List.count_cons, List.count_nil]
      omega
  | work r q out a b todo got =>
    have ha : answered packable (handler r) = true := by apply h1; simp
    obtain ⟨e1, e2⟩ := recv_expected packable handler r ha
    refine ⟨?_, ?_, by simpa using h3, ?_⟩
    · intro x hx
      apply h1
      simp only [List.flatMap_append, List.flatMap_cons, List.mem_append, List.mem_cons] at hx ⊢
      tauto
    · intro v hv
      rcases List.mem_append.1 hv with h | h
      · exact h2 v (by simp [h])
      · rcases List.mem_cons.1 h with h | h
        · subst h
          exact e2
        · exact h2 v (by simp [h])
    · refine List.Perm.trans ?_ h4
      rw [List.perm_iff_count]
      intro x
      simp only [farmAll, List.flatMap_append, List.flatMap_cons, List.count_append, List.map_append, List.map_cons, List.count_cons, e1,
        List.count_nil]
      omega
  | recv y q up out a b todo got =>
    refine ⟨?_, ?_, by simpa using h3, ?_⟩
    · intro x hx
      apply h1
      simpa only [List.flatMap_append, List.flatMap_cons, List.mem_append] using hx
    · intro v hv
      rcases List.mem_append.1 hv with h | h
      · exact h2 v (by simp [h])
      · rcases List.mem_cons.1 h with h | h
        · subst h
          exact h2 ⟨q, up, y :: out⟩ (by simp)
        · exact h2 v (by simp [h])
    · refine List.Perm.trans ?_ h4
      rw [List.perm_iff_count]
      intro x
      simp only [farmAll, List.flatMap_append, List.flatMap_cons, List.count_append, List.map_cons, List.count_cons, List.count_nil]
      omega

theorem farmAll_start (handler : R → Outcome V) (reqs : List R) (n : Nat) :
    farmAll handler (farmStart reqs n) = reqs.map (expectedResult handler) := by
  have : (List.replicate n (⟨[], true, []⟩ : FarmWorker R V)).flatMap (fun w => w.out.map recvMsg ++ w.queue.map (expectedResult handler)) = [] := by
    rw [List.flatMap_eq_nil_iff]
    intro w hw
    rw [List.eq_of_mem_replicate hw]
    rfl
  unfold farmAll farmStart
  rw [this]
  rfl

theorem farmOk_run (packable : V → Bool) (handler : R → Outcome V) (reqs : List R) (n k : Nat) {s : Farm R V}
    (ha : ∀ r ∈ reqs, answered packable (handler r) = true) (h : FarmRun packable handler k (farmStart reqs n) s) :
    FarmOk packable handler reqs n s := by
  generalize hs0 : farmStart reqs n = s0 at h
  induction h with
  | nil s =>
    subst hs0
    refine ⟨?_, ?_, by simp [farmStart], by rw [farmAll_start]⟩
    · intro r hr
      rcases List.mem_append.1 hr with h | h
      · exact ha r h
      · obtain ⟨w, hw, hrw⟩ := List.mem_flatMap.1 h
        rw [List.eq_of_mem_replicate hw] at hrw
        simp at hrw
    · intro w hw
      rw [List.eq_of_mem_replicate hw]
  | snoc k s t u _ h2 ih => exact farmOk_step packable handler reqs n h2 (ih hs0)

/-- The number of steps that can still come. -/
def farmMeasure (s : Farm R V) : Nat := 3 * s.todo.length + (s.workers.map fun w => 2 * w.queue.length + w.out.length).sum

theorem measure_step (packable : V → Bool) (handler : R → Outcome V) {s t : Farm R V} (h : FarmStep packable handler s t) :
    farmMeasure t + 1 ≤ farmMeasure s := by
  cases h with
  | send r rs a w b got =>
    simp only [farmMeasure, List.length_cons, List.map_append, List.map_cons, List.sum_append, List.sum_cons, List.length_append,
      List.length_nil]
    omega
  | work r q out a b todo got =>
    have hl : (process packable (handler r)).1.length ≤ 1 := by
      rw [process_reply]
      split
      · cases handler r <;> simp [expectedReply]
      · simp
    simp only [farmMeasure, List.length_cons, List.map_append, List.map_cons, List.sum_append, List.sum_cons, List.length_append]
    omega
  | recv y q up out a b todo got =>
    simp only [farmMeasure, List.length_cons, List.map_append, List.map_cons, List.sum_append, List.sum_cons]
    omega

/-- C169: every execution comes to an end: it has at most three steps per request. -/
theorem C169_terminates (packable : V → Bool) (handler : R → Outcome V) (reqs : List R) (n k : Nat) (s : Farm R V)
    (h : FarmRun packable handler k (farmStart reqs n) s) : k ≤ 3 * reqs.length := by
  have key : k + farmMeasure s ≤ farmMeasure (farmStart reqs n : Farm R V) := by
    generalize hs0 : farmStart reqs n = s0 at h
    induction h with
    | nil s => omega
    | snoc k s t u _ h2 ih =>
      have h3 := measure_step packable handler h2
      have := ih hs0
      omega
  have h0 : farmMeasure (farmStart reqs n : Farm R V) = 3 * reqs.length := by
    unfold farmMeasure farmStart
    simp
  omega

/-- C169: nothing is invented or delivered twice, whatever the handlers do, workers that stop included. -/
theorem C169_at_most_once (packable : V → Bool) (handler : R → Outcome V) (reqs : List R) (n k : Nat) (s : Farm R V)
    (h : FarmRun packable handler k (farmStart reqs n) s) : s.got.Subperm (reqs.map (expectedResult handler)) := by
  classical
  rw [List.subperm_ext_iff]
  intro x hx
  clear hx
  have key : (farmAll handler s).count x ≤ (reqs.map (expectedResult handler)).count x := by
    rw [← farmAll_start handler reqs n]
    generalize hs0 : farmStart reqs n = s0 at h
    induction h with
    | nil s => exact le_rfl
    | snoc k s t u _ h2 ih => exact (step_count packable handler h2 x).trans (ih hs0)
  unfold farmAll at key
  rw [List.count_append, List.count_append] at key
  omega

/-- An ended execution in which all requests could be answered has nothing left. -/
theorem farmDone_empty (packable : V → Bool) (handler : R → Outcome V) (reqs : List R) (n : Nat) (hn : 1 ≤ n) {s : Farm R V}
    (h : FarmOk packable handler reqs n s) (hd : FarmDone packable handler s) : s.got.Perm (reqs.map (expectedResult handler)) := by
  obtain ⟨todo, workers, got⟩ := s
  obtain ⟨-, h2, h3, h4⟩ := h
  have e1 : todo = [] := by
    cases todo with
    | nil => rfl
    | cons r rs =>
      cases workers with
      | nil => simp at h3; omega
      | cons w b => exact absurd (FarmStep.send r rs [] w b got) (hd _)
  have e2 : ∀ w ∈ workers, w.out = [] ∧ w.queue = [] := by
    intro w hw
    obtain ⟨a, b, hab⟩ := List.append_of_mem hw
    have hup := h2 w hw
    obtain ⟨q, up, out⟩ := w
    simp only at hup
    subst hup hab
    constructor
    · cases out with
      | nil => rfl
      | cons x xs => exact absurd (FarmStep.recv x q true xs a b todo got) (hd _)
    · cases q with
      | nil => rfl
      | cons r q => exact absurd (FarmStep.work r q out a b todo got) (hd _)
  have e3 : workers.flatMap (fun w => w.out.map recvMsg ++ w.queue.map (expectedResult handler)) = [] := by
    rw [List.flatMap_eq_nil_iff]
    intro w hw
    rw [(e2 w hw).1, (e2 w hw).2]
    rfl
  unfold farmAll at h4
  simp only [e1, e3, List.append_nil, List.map_nil] at h4
  exact h4

/-- C169 if every result can be serialised and every error text is ASCII. -/
theorem C169_results_partial (packable : V → Bool) (handler : R → Outcome V) (reqs : List R) (n k : Nat) (s : Farm R V) (hn : 1 ≤ n)
    (ha : ∀ r ∈ reqs, answered packable (handler r) = true)
    (h : FarmRun packable handler k (farmStart reqs n) s) (hd : FarmDone packable handler s) :
    s.got.Perm (reqs.map (expectedResult handler)) :=
  farmDone_empty packable handler reqs n hn (farmOk_run packable handler reqs n k ha h) hd

/-- The result with the given id. -/
def hasId {B : Type} (i : Nat) : Except ((B × Nat) ⊕ String) ((B × Nat) ⊕ String) → Bool
  | .ok (.inl v) => decide (v.2 = i)
  | _ => false

/-- C169: the phase recovery of segments with distinct ids, collected by id, does not depend on the number of workers or the scheduling: looking
for the id among the results received gives the result of the search on that segment. -/
theorem C169_by_id {A B : Type} (search : A → Except String B) (reqs : List (PhReq A)) (n k : Nat) (s : Farm (PhReq A) (B × Nat)) (hn : 1 ≤ n)
    (hid : (reqs.map PhReq.id).Nodup) (hs : ∀ p ∈ reqs, ∃ b, search p.args = .ok b)
    (h : FarmRun (fun _ => true) (doPhaseRec search) k (farmStart reqs n) s) (hd : FarmDone (fun _ => true) (doPhaseRec search) s) :
    ∀ p ∈ reqs, ∃ b, search p.args = .ok b ∧
      s.got.find? (hasId p.id) = some (.ok (.inl (b, p.id))) := by
  intro p hp
  obtain ⟨b, hb⟩ := hs p hp
  have hexp : ∀ q ∈ reqs, ∃ b, search q.args = .ok b ∧ expectedResult (doPhaseRec search) q = .ok (.inl (b, q.id)) := by
    intro q hq
    obtain ⟨b, hb⟩ := hs q hq
    refine ⟨b, hb, ?_⟩
    unfold expectedResult doPhaseRec
    rw [hb]
  have hperm := C169_results_partial (fun _ => true) (doPhaseRec search) reqs n k s hn (by
    intro q hq
    obtain ⟨b, hb⟩ := hs q hq
    unfold doPhaseRec
    rw [hb]
    rfl) h hd
  refine ⟨b, hb, ?_⟩
  have hmem : (.ok (.inl (b, p.id)) : Except ((B × Nat) ⊕ String) ((B × Nat) ⊕ String)) ∈ s.got := by
    rw [hperm.mem_iff, List.mem_map]
    refine ⟨p, hp, ?_⟩
    obtain ⟨b', hb', he⟩ := hexp p hp
    rw [hb] at hb'
    cases hb'
    exact he
  cases hf : s.got.find? (hasId p.id) with
  | none =>
    have := List.find?_eq_none.1 hf _ hmem
    simp [hasId] at this
  | some g =>
    have h1 := List.find?_some hf
    have h2 := List.mem_of_find?_eq_some hf
    rw [hperm.mem_iff, List.mem_map] at h2
    obtain ⟨q, hq, rfl⟩ := h2
    obtain ⟨b', hb', he⟩ := hexp q hq
    rw [he] at h1 ⊢
    have hqp : q.id = p.id := by simpa [hasId] using h1
    have : q = p := List.inj_on_of_nodup_map hid hq hp hqp
    subst this
    rw [hb] at hb'
    cases hb'
    rfl

/-- C169: with one worker the results come in the order of the requests. -/
theorem C169_one_worker (packable : V → Bool) (handler : R → Outcome V) (reqs : List R) (k : Nat) (s : Farm R V)
    (ha : ∀ r ∈ reqs, answered packable (handler r) = true)
    (h : FarmRun packable handler k (farmStart reqs 1) s) : s.got <+: reqs.map (expectedResult handler) := by
  have key : farmAll handler s = reqs.map (expectedResult handler) := by
    generalize hs0 : farmStart reqs 1 = s0 at h
    have hgen : ∀ {k : Nat} {s0 s : Farm R V}, farmStart reqs 1 = s0 → FarmRun packable handler k s0 s →
        farmAll handler s = reqs.map (expectedResult handler) := by
      intro k s0 s hs0 h
      induction h with
      | nil s => rw [← hs0, farmAll_start]
      | snoc k s0 t u h1 h2 ih =>
        have hok := farmOk_run packable handler reqs 1 k ha (by rw [hs0]; exact h1)
        have iht := ih hs0
        have hans := hok.ans
        have hlen := hok.len
        rw [← iht]
        cases h2 with
        | send r rs a w b got =>
          have : a = [] ∧ b = [] := by
            simp only [List.length_append, List.length_cons] at hlen
            exact ⟨List.length_eq_zero_iff.1 (by omega), List.length_eq_zero_iff.1 (by omega)⟩
          obtain ⟨rfl, rfl⟩ := this
          simp [farmAll]
        | work r q out a b todo got =>
          have : a = [] ∧ b = [] := by
            simp only [List.length_append, List.length_cons] at hlen
            exact ⟨List.length_eq_zero_iff.1 (by omega), List.length_eq_zero_iff.1 (by omega)⟩
          obtain ⟨rfl, rfl⟩ := this
          have e1 := (recv_expected packable handler r (by apply hans; simp)).1
          simp [farmAll, e1]
        | recv y q up out a b todo got =>
          have : a = [] ∧ b = [] := by
            simp only [List.length_append, List.length_cons] at hlen
            exact ⟨List.length_eq_zero_iff.1 (by omega), List.length_eq_zero_iff.1 (by omega)⟩
          obtain ⟨rfl, rfl⟩ := this
          simp [farmAll]
    exact hgen hs0 h
  rw [← key]
  unfold farmAll
  rw [List.append_assoc]
  exact List.prefix_append _ _

theorem farmDone_of_measure (packable : V → Bool) (handler : R → Outcome V) (s : Farm R V) (h : farmMeasure s = 0) : FarmDone packable handler s := by
  intro t ht
  have := measure_step packable handler ht
  omega

/-- A worker stops at an error text that is not ASCII, its request is never answered. -/
theorem C169_false : ¬ C169_statement := by
  intro H
  have h1 : FarmRun (fun _ => true) (fun _ => Outcome.exc "ValueError('µ')") 2 (farmStart [0] 1 : Farm Nat Nat) ⟨[], [⟨[], false, []⟩], []⟩ := by
    refine FarmRun.snoc 1 _ ⟨[], [⟨[0], true, []⟩], []⟩ _ (FarmRun.snoc 0 _ _ _ (FarmRun.nil _) ?_) ?_
    · exact FarmStep.send 0 [] [] ⟨[], true, []⟩ [] []
    · have h := FarmStep.work (packable := fun _ : Nat => true) (handler := fun _ : Nat => Outcome.exc "ValueError('µ')") 0 [] [] [] [] [] []
      have e : process (fun _ : Nat => true) (Outcome.exc "ValueError('µ')") = ([], false) := by decide +kernel
      rw [e] at h
      exact h
  have h2 := H (fun _ => true) (fun _ => .exc "ValueError('µ')") [0] 1 2 _ le_rfl (by simp) h1 (farmDone_of_measure _ _ _ rfl)
  simp at h2

/-- C169: with two workers the results of two requests may come in the other order. -/
theorem C169_order (packable : Nat → Bool) (u v : Nat) (hu : packable u = true) (hv : packable v = true) :
    ∃ s : Farm Nat Nat, FarmRun packable Outcome.ret 6 (farmStart [u, v] 2) s ∧ FarmDone packable Outcome.ret s ∧
      s.got = [.ok (.inl v), .ok (.inl u)] := by
  have hp : ∀ x, packable x = true → process packable (Outcome.ret x) = ([(true, .inl x)], true) := by
    intro x hx
    rw [process_reply]
    simp [answered, hx, expectedReply]
  refine ⟨⟨[], [⟨[], true, []⟩, ⟨[], true, []⟩], [.ok (.inl v), .ok (.inl u)]⟩, ?_, farmDone_of_measure _ _ _ rfl, rfl⟩
  have s1 := FarmStep.send (packable := packable) (handler := Outcome.ret) u [v] [] ⟨[], true, []⟩ [⟨[], true, []⟩] []
  have s2 := FarmStep.send (packable := packable) (handler := Outcome.ret) v [] [⟨[u], true, []⟩] ⟨[], true, []⟩ [] []
  have s3 := FarmStep.work (packable := packable) (handler := Outcome.ret) v [] [] [⟨[u], true, []⟩] [] [] []
  have s4 := FarmStep.recv (packable := packable) (handler := Outcome.ret) (true, .inl v) [] true [] [⟨[u], true, []⟩] [] [] []
  have s5 := FarmStep.work (packable := packable) (handler := Outcome.ret) u [] [] [] [⟨[], true, []⟩] [] [.ok (.inl v)]
  have s6 := FarmStep.recv (packable := packable) (handler := Outcome.ret) (true, .inl u) [] true [] [] [⟨[], true, []⟩] [] [.ok (.inl v)]
  rw [hp v hv] at s3
  rw [hp u hu] at s5
  exact .snoc 5 _ _ _ (.snoc 4 _ _ _ (.snoc 3 _ _ _ (.snoc 2 _ _ _ (.snoc 1 _ _ _ (.snoc 0 _ _ _ (.nil _) s1) s2) s3) s4) s5) s6

/-- Three segments on two workers. -/
example (k : Nat) (s : Farm (PhReq Nat) (Nat × Nat))
    (h : FarmRun (fun _ => true) (doPhaseRec fun x => .ok (x * x)) k (farmStart [⟨7, 10⟩, ⟨8, 11⟩, ⟨9, 12⟩] 2) s)
    (hd : FarmDone (fun _ => true) (doPhaseRec fun x => .ok (x * x)) s) :
    s.got.find? (hasId 8) = some (.ok (.inl (121, 8))) := by
  obtain ⟨b, hb, h2⟩ := C169_by_id (fun x : Nat => .ok (x * x)) [⟨7, 10⟩, ⟨8, 11⟩, ⟨9, 12⟩] 2 k s (by norm_num) (by decide) (by simp) h hd
    ⟨8, 11⟩ (by simp)
  cases hb
  exact h2

end Qampy
