import Verif.Model.Names
import Verif.Tactics

/-!
# C196: functions that read a name which is never bound
-/

namespace Qampy

/-- The outcome is a result: the function returns a value or reaches its end. -/
def NameOut.isResult : NameOut → Bool
  | .done _ => true
  | .returned => true
  | .raised _ _ => false

/-- Can the name be loaded if at most the names `u` are bound? -/
def NameScope.canLoad (sc : NameScope) (u : List String) (x : String) : Bool :=
  if x ∈ sc.locals then decide (x ∈ u) else decide (x ∈ sc.globals)

/-- The names of both lists. -/
def nameJoin (u w : List String) : List String := u ++ w.filter fun x => decide (x ∉ u)

theorem mem_nameJoin {u w : List String} {x : String} : x ∈ nameJoin u w ↔ x ∈ u ∨ x ∈ w := by
  simp only [nameJoin, List.mem_append, List.mem_filter, decide_eq_true_eq]
  tauto

theorem nameJoin_twice (u w : List String) : nameJoin (nameJoin u w) w = nameJoin u w := by
  obtain ⟨v, hv⟩ : ∃ v, v = nameJoin u w := ⟨_, rfl⟩
  have h : ∀ x ∈ w, x ∈ v := fun x hx => hv ▸ mem_nameJoin.2 (Or.inr hx)
  rw [← hv]
  unfold nameJoin
  rw [List.filter_eq_nil_iff.2, List.append_nil]
  intro x hx
  simp [h x hx]

/-- An upper bound of what a body can do from at most the bound names `u`: the names that may be bound at its normal end (`none`: it
never ends normally) and whether it may return. -/
def nameFlow (sc : NameScope) : NameCmd → List String → Option (List String) × Bool
  | .skip, u => (some u, false)
  | .use x, u => (if sc.canLoad u x then some u else none, false)
  | .set x, u => (some (x :: u), false)
  | .call, u => (some u, false)
  | .ret, _ => (none, true)
  | .seq a b, u =>
    match nameFlow sc a u with
    | (none, r) => (none, r)
    | (some v, r) => ((nameFlow sc b v).1, r || (nameFlow sc b v).2)
  | .ite a b, u =>
    (match (nameFlow sc a u).1, (nameFlow sc b u).1 with
      | none, y => y
      | some x, none => some x
      | some x, some y => some (x ++ y), (nameFlow sc a u).2 || (nameFlow sc b u).2)
  | .loop b, u => (some (nameJoin u b.bound), (nameFlow sc b (nameJoin u b.bound)).2)
  | .tryE _ a h, u =>
    (match (nameFlow sc a u).1, (nameFlow sc h (u ++ a.bound)).1 with
      | none, y => y
      | some x, none => some x
      | some x, some y => some (x ++ y), (nameFlow sc a u).2 || (nameFlow sc h (u ++ a.bound)).2)

/-- Only names that the body binds are added. -/
theorem nameRun_bound {sc : NameScope} {c : NameCmd} {env : List String} {o : NameOut} (h : NameRun sc c env o) :
    (∀ env', o = .done env' → env' ⊆ env ++ c.bound) ∧ ∀ e env', o = .raised e env' → env' ⊆ env ++ c.bound := by
  have app : ∀ {a b c d : List String}, a ⊆ b ++ c → b ⊆ d ++ c → a ⊆ d ++ c := by
    intro a b c d h1 h2 x hx
    rcases List.mem_append.1 (h1 hx) with h | h
    · exact h2 h
    · exact List.mem_append_right _ h
  induction h with
  | skip env => exact ⟨by rintro _ ⟨⟩; simp, by rintro _ _ ⟨⟩⟩
  | use_local x env h hb => exact ⟨by rintro _ ⟨⟩; simp, by rintro _ _ ⟨⟩⟩
  | use_unbound x env h hb => exact ⟨by rintro _ ⟨⟩, by rintro _ _ ⟨⟩; simp⟩
  | use_global x env h hg => exact ⟨by rintro _ ⟨⟩; simp, by rintro _ _ ⟨⟩⟩
  | use_missing x env h hg => exact ⟨by rintro _ ⟨⟩, by rintro _ _ ⟨⟩; simp⟩
  | set x env =>
    refine ⟨?_, by rintro _ _ ⟨⟩⟩
    rintro _ ⟨⟩
    intro y hy
    rcases List.mem_cons.1 hy with rfl | hy
    · exact List.mem_append_right _ (by simp [NameCmd.bound])
    · exact List.mem_append_left _ hy
  | call_ok env => exact ⟨by rintro _ ⟨⟩; simp, by rintro _ _ ⟨⟩⟩
  | call_raises env e => exact ⟨by rintro _ ⟨⟩, by rintro _ _ ⟨⟩; simp⟩
  | ret env => exact ⟨by rintro _ ⟨⟩, by rintro _ _ ⟨⟩⟩
  | seq_done a b env env' o ha hb iha ihb =>
    have h1 := iha.1 _ rfl
    have step : ∀ l : List String, l ⊆ env' ++ b.bound → l ⊆ env ++ (NameCmd.seq a b).bound := by
      intro l hl x hx
      simp only [NameCmd.bound]
      rcases List.mem_append.1 (hl hx) with h | h
      · rcases List.mem_append.1 (h1 h) with h | h
        · exact List.mem_append_left _ h
        · exact List.mem_append_right _ (List.mem_append_left _ h)
      · exact List.mem_append_right _ (List.mem_append_right _ h)
    exact ⟨fun env'' he => step _ (ihb.1 _ he), fun e env'' he => step _ (ihb.2 _ _ he)⟩
  | seq_ret a b env ha iha => exact ⟨by rintro _ ⟨⟩, by rintro _ _ ⟨⟩⟩
  | seq_raised a b env e env' ha iha =>
    refine ⟨by rintro _ ⟨⟩, ?_⟩
    rintro _ _ ⟨⟩ x hx
    rcases List.mem_append.1 (iha.2 _ _ rfl hx) with h | h
    · exact List.mem_append_left _ h
    · exact List.mem_append_right _ (by simp [NameCmd.bound, h])
  | ite_then a b env o ha iha =>
    have step : ∀ l : List String, l ⊆ env ++ a.bound → l ⊆ env ++ (NameCmd.ite a b).bound := by
      intro l hl x hx
      rcases List.mem_append.1 (hl hx) with h | h
      · exact List.mem_append_left _ h
      · exact List.mem_append_right _ (by simp [NameCmd.bound, h])
    exact ⟨fun env'' he => step _ (iha.1 _ he), fun e env'' he => step _ (iha.2 _ _ he)⟩
  | ite_else a b env o hb ihb =>
    have step : ∀ l : List String, l ⊆ env ++ b.bound → l ⊆ env ++ (NameCmd.ite a b).bound := by
      intro l hl x hx
      rcases List.mem_append.1 (hl hx) with h | h
      · exact List.mem_append_left _ h
      · exact List.mem_append_right _ (by simp [NameCmd.bound, h])
    exact ⟨fun env'' he => step _ (ihb.1 _ he), fun e env'' he => step _ (ihb.2 _ _ he)⟩
  | loop_end b env => exact ⟨by rintro _ ⟨⟩; simp, by rintro _ _ ⟨⟩⟩
  | loop_step b env env' o hb hl ihb ihl =>
    have h1 := ihb.1 _ rfl
    exact ⟨fun env'' he => app (ihl.1 _ he) h1, fun e env'' he => app (ihl.2 _ _ he) h1⟩
  | loop_ret b env hb ihb => exact ⟨by rintro _ ⟨⟩, by rintro _ _ ⟨⟩⟩
  | loop_raised b env e env' hb ihb =>
    refine ⟨by rintro _ ⟨⟩, ?_⟩
    rintro _ _ ⟨⟩
    exact ihb.2 _ _ rfl
  | try_done e a h env env' ha iha =>
    refine ⟨?_, by rintro _ _ ⟨⟩⟩
    rintro _ ⟨⟩ x hx
    rcases List.mem_append.1 (iha.1 _ rfl hx) with h | h
    · exact List.mem_append_left _ h
    · exact List.mem_append_right _ (by simp [NameCmd.bound, h])
  | try_ret e a h env ha iha => exact ⟨by rintro _ ⟨⟩, by rintro _ _ ⟨⟩⟩
  | try_handled e a h env env' o ha hh iha ihh =>
    have h1 := iha.2 _ _ rfl
    have step : ∀ l : List String, l ⊆ env' ++ h.bound → l ⊆ env ++ (NameCmd.tryE e a h).bound := by
      intro l hl x hx
      simp only [NameCmd.bound]
      rcases List.mem_append.1 (hl hx) with h | h
      · rcases List.mem_append.1 (h1 h) with h | h
        · exact List.mem_append_left _ h
        · exact List.mem_append_right _ (List.mem_append_left _ h)
      · exact List.mem_append_right _ (List.mem_append_right _ h)
    exact ⟨fun env'' he => step _ (ihh.1 _ he), fun e env'' he => step _ (ihh.2 _ _ he)⟩
  | try_raised e a h env e' env' ha hne iha =>
    refine ⟨by rintro _ ⟨⟩, ?_⟩
    rintro _ _ ⟨⟩ x hx
    rcases List.mem_append.1 (iha.2 _ _ rfl hx) with h | h
    · exact List.mem_append_left _ h
    · exact List.mem_append_right _ (by simp [NameCmd.bound, h])

/-- The bound covers every run. -/
theorem nameFlow_sound {sc : NameScope} {c : NameCmd} {env : List String} {o : NameOut} (h : NameRun sc c env o) :
    ∀ u : List String, env ⊆ u → (∀ env', o = .done env' → ∃ v, (nameFlow sc c u).1 = some v ∧ env' ⊆ v) ∧
      (o = .returned → (nameFlow sc c u).2 = true) := by
  induction h with
  | skip env => exact fun u hu => ⟨by rintro _ ⟨⟩; exact ⟨u, rfl, hu⟩, by rintro ⟨⟩⟩
  | use_local x env h hb =>
    refine fun u hu => ⟨?_, by rintro ⟨⟩⟩
    rintro _ ⟨⟩
    refine ⟨u, ?_, hu⟩
    simp [nameFlow, NameScope.canLoad, h, hu hb]
  | use_unbound x env h hb => exact fun u hu => ⟨by rintro _ ⟨⟩, by rintro ⟨⟩⟩
  | use_global x env h hg =>
    refine fun u hu => ⟨?_, by rintro ⟨⟩⟩
    rintro _ ⟨⟩
    refine ⟨u, ?_, hu⟩
    simp [nameFlow, NameScope.canLoad, h, hg]
  | use_missing x env h hg => exact fun u hu => ⟨by rintro _ ⟨⟩, by rintro ⟨⟩⟩
  | set x env =>
    refine fun u hu => ⟨?_, by rintro ⟨⟩⟩
    rintro _ ⟨⟩
    exact ⟨x :: u, rfl, List.cons_subset_cons x hu⟩
  | call_ok env => exact fun u hu => ⟨by rintro _ ⟨⟩; exact ⟨u, rfl, hu⟩, by rintro ⟨⟩⟩
  | call_raises env e => exact fun u hu => ⟨by rintro _ ⟨⟩, by rintro ⟨⟩⟩
  | ret env => exact fun u hu => ⟨by rintro _ ⟨⟩, fun _ => rfl⟩
  | seq_done a b env env' o ha hb iha ihb =>
    intro u hu
    obtain ⟨v, hv, hsub⟩ := (iha u hu).1 _ rfl
    obtain ⟨r, hr⟩ : ∃ r, nameFlow sc a u = (some v, r) := ⟨(nameFlow sc a u).2, Prod.ext hv rfl⟩
    have hb' := ihb v hsub
    simp only [nameFlow, hr]
    exact ⟨hb'.1, fun ho => by simp [hb'.2 ho]⟩
  | seq_ret a b env ha iha =>
    refine fun u hu => ⟨by rintro _ ⟨⟩, fun _ => ?_⟩
    have := (iha u hu).2 rfl
    obtain ⟨n, hn⟩ : ∃ n, nameFlow sc a u = (n, true) := ⟨(nameFlow sc a u).1, Prod.ext rfl this⟩
    simp only [nameFlow, hn]
    cases n <;> simp
  | seq_raised a b env e env' ha iha => exact fun u hu => ⟨by rintro _ ⟨⟩, by rintro ⟨⟩⟩
  | ite_then a b env o ha iha =>
    intro u hu
    have h1 := iha u hu
    refine ⟨fun env' he => ?_, fun ho => ?_⟩
    · obtain ⟨v, hv, hsub⟩ := h1.1 env' he
      simp only [nameFlow, hv]
      rcases (nameFlow sc b u).1 with _ | y
      · exact ⟨v, rfl, hsub⟩
      · exact ⟨v ++ y, rfl, fun x hx => List.mem_append_left _ (hsub hx)⟩
    · simp [nameFlow, h1.2 ho]
  | ite_else a b env o hb ihb =>
    intro u hu
    have h1 := ihb u hu
    refine ⟨fun env' he => ?_, fun ho => ?_⟩
    · obtain ⟨v, hv, hsub⟩ := h1.1 env' he
      simp only [nameFlow, hv]
      rcases (nameFlow sc a u).1 with _ | y
      · exact ⟨v, rfl, hsub⟩
      · exact ⟨y ++ v, rfl, fun x hx => List.mem_append_right _ (hsub hx)⟩
    · simp [nameFlow, h1.2 ho]
  | loop_end b env =>
    exact fun u hu => ⟨by rintro _ ⟨⟩; exact ⟨_, rfl, fun x hx => mem_nameJoin.2 (Or.inl (hu hx))⟩, by rintro ⟨⟩⟩
  | loop_step b env env' o hb hl ihb ihl =>
    intro u hu
    have hsub : env' ⊆ nameJoin u b.bound := by
      intro x hx
      rcases List.mem_append.1 ((nameRun_bound hb).1 _ rfl hx) with h | h
      · exact mem_nameJoin.2 (Or.inl (hu h))
      · exact mem_nameJoin.2 (Or.inr h)
    have h1 := ihl (nameJoin u b.bound) hsub
    simp only [nameFlow, nameJoin_twice] at h1 ⊢
    exact h1
  | loop_ret b env hb ihb =>
    refine fun u hu => ⟨by rintro _ ⟨⟩, fun _ => ?_⟩
    exact (ihb (nameJoin u b.bound) (fun x hx => mem_nameJoin.2 (Or.inl (hu hx)))).2 rfl
  | loop_raised b env e env' hb ihb => exact fun u hu => ⟨by rintro _ ⟨⟩, by rintro ⟨⟩⟩
  | try_done e a h env env' ha iha =>
    refine fun u hu => ⟨?_, by rintro ⟨⟩⟩
    rintro _ ⟨⟩
    obtain ⟨v, hv, hsub⟩ := (iha u hu).1 _ rfl
    simp only [nameFlow, hv]
    rcases (nameFlow sc h (u ++ a.bound)).1 with _ | y
    · exact ⟨v, rfl, hsub⟩
    · exact ⟨v ++ y, rfl, fun x hx => List.mem_append_left _ (hsub hx)⟩
  | try_ret e a h env ha iha =>
    exact fun u hu => ⟨by rintro _ ⟨⟩, fun _ => by simp [nameFlow, (iha u hu).2 rfl]⟩
  | try_handled e a h env env' o ha hh iha ihh =>
    intro u hu
    have hsub : env' ⊆ u ++ a.bound := by
      intro x hx
      rcases List.mem_append.1 ((nameRun_bound ha).2 _ _ rfl hx) with h | h
      · exact List.mem_append_left _ (hu h)
      · exact List.mem_append_right _ h
    have h1 := ihh (u ++ a.bound) hsub
    refine ⟨fun env'' he => ?_, fun ho => ?_⟩
    · obtain ⟨v, hv, hs⟩ := h1.1 env'' he
      simp only [nameFlow, hv]
      rcases (nameFlow sc a u).1 with _ | y
      · exact ⟨v, rfl, hs⟩
      · exact ⟨y ++ v, rfl, fun x hx => List.mem_append_right _ (hs hx)⟩
    · simp [nameFlow, h1.2 ho]
  | try_raised e a h env e' env' ha hne iha => exact fun u hu => ⟨by rintro _ ⟨⟩, by rintro ⟨⟩⟩

/-- The functions that read a name which is never bound before. -/
def deadFunctions : List NameFun :=
  [calBerNosyncd, preFilterWdm, hybridQamBer, genWithPilots, genWithoutPilots, genHybrid, pilotBasedCpe2]

/-- The statement of C196: every function can be called such that it returns. -/
def C196_statement : Prop := ∀ f ∈ calBerSyncdNames :: deadFunctions, ∃ o, f.Ends o ∧ o.isResult = true

/-- A function whose flow bound is empty raises in every run. -/
theorem C196_sound (f : NameFun) (h : nameFlow f.scope f.body f.params = (none, false)) (o : NameOut) (ho : f.Ends o) :
    o.isResult = false := by
  have := nameFlow_sound ho f.params (fun x hx => hx)
  rw [h] at this
  cases o with
  | done env =>
    obtain ⟨v, hv, -⟩ := this.1 env rfl
    cases hv
  | returned => exact absurd (this.2 rfl) (by simp)
  | raised e env => rfl

/-- None of these functions ever returns: whatever the arguments, every call raises. -/
theorem C196_dead (f : NameFun) (hf : f ∈ deadFunctions) (o : NameOut) (ho : f.Ends o) : o.isResult = false := by
  apply C196_sound f _ o ho
  simp only [deadFunctions, List.mem_cons, List.not_mem_nil, or_false] at hf
  rcases hf with rfl | rfl | rfl | rfl | rfl | rfl | rfl <;> decide +kernel

theorem C196_false : ¬ C196_statement := by
  intro h
  obtain ⟨o, h1, h2⟩ := h preFilterWdm (by simp [deadFunctions])
  rw [C196_dead preFilterWdm (by simp [deadFunctions]) o h1] at h2
  cases h2

/-- Loading bound names and calling succeeds. -/
theorem nameExpr_done {sc : NameScope} {env xs : List String}
    (h : ∀ x ∈ xs, (x ∈ sc.locals ∧ x ∈ env) ∨ (x ∉ sc.locals ∧ x ∈ sc.globals)) : NameRun sc (nameExpr xs) env (.done env) := by
  refine .seq_done _ _ _ env _ ?_ (.call_ok env)
  induction xs with
  | nil => exact .skip env
  | cons x xs ih =>
    refine .seq_done _ _ _ env _ ?_ (ih fun y hy => h y (by simp [hy]))
    rcases h x (by simp) with ⟨h1, h2⟩ | ⟨h1, h2⟩
    · exact .use_local x env h1 h2
    · exact .use_global x env h1 h2

theorem nameAssign_done {sc : NameScope} {env xs : List String} {y : String}
    (h : ∀ x ∈ xs, (x ∈ sc.locals ∧ x ∈ env) ∨ (x ∉ sc.locals ∧ x ∈ sc.globals)) :
    NameRun sc (nameAssign [y] xs) env (.done (y :: env)) :=
  .seq_done _ _ _ env _ (nameExpr_done h) (.seq_done _ _ _ _ _ (.set y env) (.skip _))

/-- A function whose names are all bound can return: the model does not refuse everything. -/
theorem C196_alive : ∃ o, calBerSyncdNames.Ends o ∧ o.isResult = true := by
  refine ⟨.returned, ?_, rfl⟩
  unfold NameFun.Ends
  refine .seq_done _ _ _ _ _ (nameAssign_done (by decide)) ?_
  refine .seq_done _ _ _ _ _ (nameAssign_done (by decide)) ?_
  refine .seq_done _ _ _ _ _ (nameAssign_done (by decide)) ?_
  refine .seq_done _ _ _ _ _ (nameExpr_done (by decide)) ?_
  refine .seq_done _ _ _ _ _ (.ite_else _ _ _ _ (.skip _)) ?_
  exact .seq_ret _ _ _ (.seq_done _ _ _ _ _ (nameExpr_done (by decide)) (.ret _))

/-- The missing names are reached: `cal_ber_nosyncd` after a successful search, the transmitter functions at once. -/
theorem C196_reached : (∃ env, calBerNosyncd.Ends (.raised .unbound env)) ∧ (∃ env, genWithPilots.Ends (.raised .name env)) ∧
    ∃ env, preFilterWdm.Ends (.raised .name env) := by
  refine ⟨⟨"idx" :: calBerNosyncd.params, ?_⟩, ⟨genWithPilots.params, ?_⟩, ⟨"N" :: preFilterWdm.params, ?_⟩⟩
  · refine .seq_done _ _ _ _ _ (.try_done _ _ _ _ _ (nameAssign_done (by decide))) ?_
    refine .seq_raised _ _ _ _ _ (.seq_raised _ _ _ _ _ (.seq_raised _ _ _ _ _ ?_))
    refine .seq_done _ _ _ _ _ (.use_global _ _ (by decide) (by decide)) ?_
    exact .seq_raised _ _ _ _ _ (.use_unbound _ _ (by decide) (by decide))
  · refine .seq_raised _ _ _ _ _ (.seq_raised _ _ _ _ _ (.seq_raised _ _ _ _ _ ?_))
    exact .seq_raised _ _ _ _ _ (.use_missing _ _ (by decide) (by decide))
  · refine .seq_done _ _ _ _ _ (nameAssign_done (by decide)) ?_
    refine .seq_raised _ _ _ _ _ (.seq_raised _ _ _ _ _ (.seq_raised _ _ _ _ _ ?_))
    refine .seq_done _ _ _ _ _ (.use_global _ _ (by decide) (by decide)) ?_
    refine .seq_done _ _ _ _ _ (.use_local _ _ (by decide) (by decide)) ?_
    exact .seq_raised _ _ _ _ _ (.use_missing _ _ (by decide) (by decide))

end Qampy
