import Verif.Model.Receiver
import Verif.Lemmas.Np
import Verif.Lemmas.Pilots
import Verif.Props.Pilots

/-! Assignment of modes: C54 (synchronisation to the transmitted modes), C106 (order of the modes after the frame synchronisation). -/

namespace Qampy

/-! ### C54 -/

theorem bestMode_spec {β : Type _} (sync : Nat → Except PyErr (β × ℝ)) (pair : Nat → β) (act : Nat → ℝ) (cand : List Nat)
    (h : ∀ i ∈ cand, sync i = .ok (pair i, act i)) (b : ℝ) (st : Option (Nat × β)) :
    ∃ b' st', bestMode sync cand (b, st) = .ok (b', st') ∧ ((b' = b ∧ st' = st ∧ ∀ k ∈ cand, act k ≤ b) ∨
      ∃ i ∈ cand, b' = act i ∧ st' = some (i, pair i) ∧ b < act i ∧ ∀ k ∈ cand, act k ≤ act i) := by
  induction cand generalizing b st with
  | nil => exact ⟨b, st, rfl, Or.inl ⟨rfl, rfl, by simp⟩⟩
  | cons c cand ih =>
    have hc := h c (by simp)
    have hstep : bestMode sync (c :: cand) (b, st) = bestMode sync cand (if act c > b then (act c, some (c, pair c)) else (b, st)) := by
      rw [bestMode, List.foldlM_cons, hc]
      rfl
    rw [hstep]
    by_cases hb : act c > b
    · rw [if_pos hb]
      obtain ⟨b', st', h1, h2⟩ := ih (fun i hi => h i (by simp [hi])) (act c) (some (c, pair c))
      refine ⟨b', st', h1, Or.inr ?_⟩
      rcases h2 with ⟨h3, h4, h5⟩ | ⟨i, hi, h3, h4, h5, h6⟩
      · refine ⟨c, by simp, h3, h4, hb, ?_⟩
        intro k hk
        rcases List.mem_cons.1 hk with rfl | hk
        · exact le_refl _
        · exact h5 k hk
      · refine ⟨i, by simp [hi], h3, h4, lt_trans hb h5, ?_⟩
        intro k hk
        rcases List.mem_cons.1 hk with rfl | hk
        · exact h5.le
        · exact h6 k hk
    · rw [if_neg hb]
      obtain ⟨b', st', h1, h2⟩ := ih (fun i hi => h i (by simp [hi])) b st
      refine ⟨b', st', h1, ?_⟩
      rcases h2 with ⟨h3, h4, h5⟩ | ⟨i, hi, h3, h4, h5, h6⟩
      · refine Or.inl ⟨h3, h4, ?_⟩
        intro k hk
        rcases List.mem_cons.1 hk with rfl | hk
        · exact not_lt.1 hb
        · exact h5 k hk
      · refine Or.inr ⟨i, by simp [hi], h3, h4, h5, ?_⟩
        intro k hk
        rcases List.mem_cons.1 hk with rfl | hk
        · exact le_trans (not_lt.1 hb) h5.le
        · exact h6 k hk

/-- What is known after `j` received modes: the chosen modes `c`, the remaining ones. -/
structure ModeInv (txmodes : Nat) (act : Nat → Nat → ℝ) (j : Nat) (rem c : List Nat) : Prop where
  len : c.length = j
  nodup : c.Nodup
  rnodup : rem.Nodup
  mem : ∀ i, i ∈ rem ↔ i < txmodes ∧ i ∉ c
  lt : ∀ i ∈ c, i < txmodes
  best : ∀ k b, c[k]? = some b → ∀ i < txmodes, i ∉ c.take k → act i k ≤ act b k

theorem assign_fold {β : Type _} (sync : Nat → Nat → Except PyErr (β × ℝ)) (pair : Nat → Nat → β) (act : Nat → Nat → ℝ) (txmodes : Nat)
    (rxmodes : Nat) (h : ∀ i j, i < txmodes → j < rxmodes → sync i j = .ok (pair i j, act i j))
    (hact : ∀ i j, i < txmodes → j < rxmodes → -100 < act i j) (hle : rxmodes ≤ txmodes) (j : Nat) (hj : j ≤ rxmodes) :
    ∃ rem best c, (List.range j).foldlM (assignStep sync) (List.range txmodes, none, []) =
        .ok (rem, best, c.mapIdx fun (k : Nat) b => (b, pair b k)) ∧ ModeInv txmodes act j rem c := by
  induction j with
  | zero =>
    exact ⟨List.range txmodes, none, [], rfl, ⟨rfl, List.nodup_nil, List.nodup_range, by simp, by simp, by simp⟩⟩
  | succ j ih =>
    obtain ⟨rem, best, c, h1, hI⟩ := ih (by omega)
    have hrem : ∀ i ∈ rem, i < txmodes := fun i hi => ((hI.mem i).1 hi).1
    have hne : rem ≠ [] := by
      intro h0
      have hsub : List.range txmodes ⊆ c := by
        intro i hi
        by_contra hc
        have := (hI.mem i).2 ⟨List.mem_range.1 hi, hc⟩
        rw [h0] at this
        simp at this
      have := (List.nodup_range (n := txmodes)).subperm hsub |>.length_le
      rw [List.length_range, hI.len] at this
      omega
    obtain ⟨b', st', h2, h3⟩ := bestMode_spec (fun i => sync i j) (fun i => pair i j) (fun i => act i j) rem
      (fun i hi => h i j (hrem i hi) (by omega)) (-100) best
    rcases h3 with ⟨-, -, h5⟩ | ⟨i, hi, -, rfl, -, h6⟩
    · exfalso
      obtain ⟨x, hx⟩ := List.exists_mem_of_ne_nil rem hne
      have := h5 x hx
      have := hact x j (hrem x hx) (by omega)
      linarith
    have hi' := (hI.mem i).1 hi
    refine ⟨rem.erase i, some (i, pair i j), c ++ [i], ?_, ?_⟩
    · rw [List.range_succ, List.foldlM_append, h1]
      simp only [bind, Except.bind, List.foldlM_cons, List.foldlM_nil]
      rw [assignStep]
      simp only [bind, Except.bind, h2, if_pos hi, pure, Except.pure]
      rw [List.mapIdx_append]
      simp [hI.len]
    · refine ⟨by rw [List.length_append, hI.len]; rfl, ?_, hI.rnodup.erase _, ?_, ?_, ?_⟩
      · rw [List.nodup_append]
        refine ⟨hI.nodup, by simp, ?_⟩
        intro a ha b hb
        rw [List.mem_singleton] at hb
        rintro rfl
        subst hb
        exact hi'.2 ha
      · intro k
        rw [hI.rnodup.mem_erase_iff, hI.mem k]
        simp only [List.mem_append, List.mem_singleton, not_or]
        tauto
      · intro k hk
        rcases List.mem_append.1 hk with hk | hk
        · exact hI.lt k hk
        · rw [List.mem_singleton] at hk; rw [hk]; exact hi'.1
      · intro k b hb x hx hxc
        by_cases hk : k < j
        · rw [List.getElem?_append_left (by rw [hI.len]; exact hk)] at hb
          rw [List.take_append_of_le_length (by rw [hI.len]; omega)] at hxc
          exact hI.best k b hb x hx hxc
        · have hkj : k = j := by
            have := (List.getElem?_eq_some_iff.1 hb).1
            rw [List.length_append, hI.len] at this
            simp at this
            omega
          subst hkj
          rw [List.getElem?_append_right (by rw [hI.len]), hI.len, Nat.sub_self] at hb
          simp only [List.getElem?_cons_zero, Option.some.injEq] at hb
          subst hb
          rw [List.take_append_of_le_length (by rw [hI.len]), List.take_of_length_le (by rw [hI.len])] at hxc
          exact h6 x ((hI.mem x).2 ⟨hx, hxc⟩)

/-- C54: as long as there are at least as many transmitted as received modes, every received mode gets a transmitted mode, all different; received
mode `j` is paired with the best matching one of those not given to an earlier mode, and the returned sequences are the ones of that pair. -/
theorem C54_assignment {β : Type} (sync : Nat → Nat → Except PyErr (β × ℝ)) (pair : Nat → Nat → β) (act : Nat → Nat → ℝ)
    (txmodes rxmodes : Nat) (h : ∀ i j, i < txmodes → j < rxmodes → sync i j = .ok (pair i j, act i j))
    (hact : ∀ i j, i < txmodes → j < rxmodes → -100 < act i j) (hle : rxmodes ≤ txmodes) :
    ∃ c : List Nat, syncModes sync txmodes rxmodes = .ok (c.mapIdx fun (k : Nat) b => (b, pair b k)) ∧ c.length = rxmodes ∧ c.Nodup ∧
      (∀ i ∈ c, i < txmodes) ∧ ∀ k b, c[k]? = some b → ∀ i < txmodes, i ∉ c.take k → act i k ≤ act b k := by
  obtain ⟨rem, best, c, h1, hI⟩ := assign_fold (fun i j => if i < txmodes then sync i j else .error .index) pair act txmodes rxmodes
    (fun i j hi hj => by rw [if_pos hi]; exact h i j hi hj) hact hle rxmodes (le_refl _)
  refine ⟨c, ?_, hI.len, hI.nodup, hI.lt, hI.best⟩
  unfold syncModes
  rw [Nat.max_eq_left hle]
  simp only [bind, Except.bind, throw, throwThe, MonadExceptOf.throw, h1, pure, Except.pure]

/-- C54: when each received mode correlates best with its own transmitted mode, that mode is found, whatever the order of the modes. -/
theorem C54_permutation {β : Type} (sync : Nat → Nat → Except PyErr (β × ℝ)) (pair : Nat → Nat → β) (act : Nat → Nat → ℝ)
    (txmodes rxmodes : Nat) (h : ∀ i j, i < txmodes → j < rxmodes → sync i j = .ok (pair i j, act i j))
    (hact : ∀ i j, i < txmodes → j < rxmodes → -100 < act i j) (tau : Nat → Nat) (ht : ∀ j < rxmodes, tau j < txmodes)
    (hinj : ∀ j k, j < rxmodes → k < rxmodes → tau j = tau k → j = k)
    (hbest : ∀ j < rxmodes, ∀ i < txmodes, i ≠ tau j → act i j < act (tau j) j) :
    syncModes sync txmodes rxmodes = .ok ((List.range rxmodes).map fun j => (tau j, pair (tau j) j)) := by
  have hle : rxmodes ≤ txmodes := by
    have hn : ((List.range rxmodes).map tau).Nodup := by
      rw [List.nodup_map_iff_inj_on List.nodup_range]
      intro a ha b hb
      exact hinj a b (List.mem_range.1 ha) (List.mem_range.1 hb)
    have := hn.subperm (l₂ := List.range txmodes) (by
      intro x hx
      obtain ⟨j, hj, rfl⟩ := List.mem_map.1 hx
      exact List.mem_range.2 (ht j (List.mem_range.1 hj))) |>.length_le
    simpa using this
  obtain ⟨c, h1, h2, h3, h4, h5⟩ := C54_assignment sync pair act txmodes rxmodes h hact hle
  have key : ∀ k, k < rxmodes → c[k]? = some (tau k) := by
    intro k
    induction k using Nat.strong_induction_on with
    | _ k ih =>
      intro hk
      have hk' : k < c.length := by omega
      have hb := h5 k c[k] (List.getElem?_eq_getElem hk') (tau k) (ht k hk) (by
        intro hmem
        rw [List.mem_take_iff_getElem] at hmem
        obtain ⟨l, hl, he⟩ := hmem
        have hl' : l < k := by omega
        have := ih l hl' (by omega)
        rw [List.getElem?_eq_getElem (by omega), Option.some.injEq] at this
        have := hinj l k (by omega) hk (this.symm.trans he)
        omega)
      rw [List.getElem?_eq_getElem hk', Option.some.injEq]
      by_contra hne
      have := hbest k hk c[k] (h4 _ (List.getElem_mem hk')) hne
      linarith
  rw [h1]
  congr 1
  apply List.ext_getElem?
  intro k
  rw [List.getElem?_mapIdx, List.getElem?_map]
  by_cases hk : k < rxmodes
  · rw [key k hk, List.getElem?_range hk]; rfl
  · rw [List.getElem?_eq_none (by omega), List.getElem?_eq_none (by simp; omega)]; rfl

/-- With more received than transmitted modes the comparison fails with an IndexError, it does not return a wrong pairing. -/
theorem C54_too_many {β : Type} (sync : Nat → Nat → Except PyErr (β × ℝ)) (pair : Nat → Nat → β) (act : Nat → Nat → ℝ)
    (txmodes rxmodes : Nat) (h : ∀ i j, i < txmodes → j < rxmodes → sync i j = .ok (pair i j, act i j)) (hlt : txmodes < rxmodes) :
    syncModes sync txmodes rxmodes = .error .index := by
  have hbest : bestMode (fun i => if i < txmodes then sync i 0 else .error .index) (List.range rxmodes) (-100, none) = .error .index := by
    have hr : List.range rxmodes = List.range txmodes ++ (List.range (rxmodes - txmodes)).map (txmodes + ·) := by
      rw [← List.range_add]; congr 1; omega
    obtain ⟨b', st', h1, -⟩ := bestMode_spec (fun i => if i < txmodes then sync i 0 else .error .index) (fun i => pair i 0)
      (fun i => act i 0) (List.range txmodes) (fun i hi => by
        rw [if_pos (List.mem_range.1 hi)]
        exact h i 0 (List.mem_range.1 hi) (by omega)) (-100) none
    rw [bestMode] at h1 ⊢
    rw [hr, List.foldlM_append, h1]
    simp only [bind, Except.bind]
    obtain ⟨d, hd⟩ : ∃ d, rxmodes - txmodes = d + 1 := ⟨rxmodes - txmodes - 1, by omega⟩
    rw [hd, List.range_succ_eq_map, List.map_cons, List.foldlM_cons]
    simp [bind, Except.bind]
  unfold syncModes
  rw [Nat.max_eq_right hlt.le]
  simp only [bind, Except.bind, throw, throwThe, MonadExceptOf.throw]
  obtain ⟨d, hd⟩ : ∃ d, List.range rxmodes = 0 :: d := by
    obtain ⟨e, rfl⟩ : ∃ e, rxmodes = e + 1 := ⟨rxmodes - 1, by omega⟩
    exact ⟨_, List.range_succ_eq_map⟩
  have hf : ∀ st, (0 :: d).foldlM (assignStep fun i j => if i < txmodes then sync i j else Except.error PyErr.index) st =
      (assignStep (fun i j => if i < txmodes then sync i j else Except.error PyErr.index) st 0).bind
        (d.foldlM (assignStep fun i j => if i < txmodes then sync i j else Except.error PyErr.index)) := fun _ => rfl
  rw [hd] at hbest ⊢
  rw [hf, assignStep]
  simp only [bind, Except.bind, hbest]

/-- The two modes swapped. -/
example : syncModes (fun i j => .ok ((i, j), if i = j then (1 : ℝ) else 2)) 2 2 = .ok [(1, (1, 0)), (0, (0, 1))] := by
  rw [C54_permutation _ (fun i j => (i, j)) (fun i j => if i = j then (1 : ℝ) else 2) 2 2 (fun _ _ _ _ => rfl)
    (fun i j _ _ => by split <;> norm_num) (fun j => 1 - j) (fun j hj => by omega) (fun j k hj hk h => by omega)]
  · rfl
  · intro j hj i hi hne
    rw [if_pos (by omega), if_neg (by omega)]
    norm_num

/-! ### C106 -/

theorem modeSyncOrder_spec (ac : Nat → Nat → ℝ) (n : Nat) (hpos : ∀ l r, l < n → r < n → 0 < ac l r) :
    ∃ c : List Nat, modeSyncOrder ac n = .ok c ∧ c.length = n ∧ c.Nodup ∧ (∀ i ∈ c, i < n) ∧
      ∀ k b, c[k]? = some b → ∀ i < n, i ∉ c.take k → ac k i ≤ ac k b := by
  have key : ∀ j ≤ n, ∃ rem c, (List.range j).foldlM (modeStep ac n) (List.range n, []) = .ok (rem, c) ∧
      ModeInv n (fun i k => ac k i) j rem c := by
    intro j
    induction j with
    | zero => intro _; exact ⟨_, _, rfl, ⟨rfl, List.nodup_nil, List.nodup_range, by simp, by simp, by simp⟩⟩
    | succ j ih =>
      intro hj
      obtain ⟨rem, c, h1, hI⟩ := ih (by omega)
      have hne : ∃ x, x ∈ rem := by
        by_contra h0
        push Not at h0
        have hsub : List.range n ⊆ c := by
          intro i hi
          by_contra hc
          exact h0 i ((hI.mem i).2 ⟨List.mem_range.1 hi, hc⟩)
        have := (List.nodup_range (n := n)).subperm hsub |>.length_le
        rw [List.length_range, hI.len] at this
        omega
      obtain ⟨x, hx⟩ := hne
      have hxn := ((hI.mem x).1 hx).1
      obtain ⟨m, hm⟩ := Np.argmax_isSome (l := (List.range n).map fun r => if r ∈ rem then ac j r else 0) (by
        intro h0
        have := congrArg List.length h0
        simp at this
        omega)
      have hmn : m < n := by have := Np.argmax_lt hm; simpa using this
      obtain ⟨v, hv, hmax, -⟩ := Np.argmax_spec hm
      rw [List.getElem?_map, List.getElem?_range hmn, Option.map_some, Option.some.injEq] at hv
      have hge : ∀ r ∈ rem, ac j r ≤ v := by
        intro r hr
        have hrn := ((hI.mem r).1 hr).1
        have := hmax (if r ∈ rem then ac j r else 0) (List.mem_map.2 ⟨r, List.mem_range.2 hrn, rfl⟩)
        rwa [if_pos hr] at this
      have hmem : m ∈ rem := by
        by_contra hmem
        rw [if_neg hmem] at hv
        have h2 := hge x hx
        have h3 := hpos j x (by omega) hxn
        linarith
      rw [if_pos hmem] at hv
      subst hv
      refine ⟨rem.filter (· ≠ m), c ++ [m], ?_, ?_⟩
      · rw [List.range_succ, List.foldlM_append, h1]
        simp only [bind, Except.bind, List.foldlM_cons, List.foldlM_nil, modeStep, hm, pure, Except.pure]
      · have hi' := (hI.mem m).1 hmem
        refine ⟨by rw [List.length_append, hI.len]; rfl, ?_, hI.rnodup.filter _, ?_, ?_, ?_⟩
        · rw [List.nodup_append]
          refine ⟨hI.nodup, by simp, ?_⟩
          intro a ha b hb
          rw [List.mem_singleton] at hb
          rintro rfl
          subst hb
          exact hi'.2 ha
        · intro k
          rw [List.mem_filter, hI.mem k]
          simp only [List.mem_append, List.mem_singleton, not_or, ne_eq, decide_not, Bool.not_eq_true', decide_eq_false_iff_not]
          tauto
        · intro k hk
          rcases List.mem_append.1 hk with hk | hk
          · exact hI.lt k hk
          · rw [List.mem_singleton] at hk; rw [hk]; exact hi'.1
        · intro k b hb y hy hyc
          by_cases hk : k < j
          · rw [List.getElem?_append_left (by rw [hI.len]; exact hk)] at hb
            rw [List.take_append_of_le_length (by rw [hI.len]; omega)] at hyc
            exact hI.best k b hb y hy hyc
          · have hkj : k = j := by
              have := (List.getElem?_eq_some_iff.1 hb).1
              rw [List.length_append, hI.len] at this
              simp at this
              omega
            subst hkj
            rw [List.getElem?_append_right (by rw [hI.len]), hI.len, Nat.sub_self] at hb
            simp only [List.getElem?_cons_zero, Option.some.injEq] at hb
            subst hb
            rw [List.take_append_of_le_length (by rw [hI.len]), List.take_of_length_le (by rw [hI.len])] at hyc
            exact hge y ((hI.mem y).2 ⟨hy, hyc⟩)
  obtain ⟨rem, c, h1, hI⟩ := key n (le_refl _)
  refine ⟨c, ?_, hI.len, hI.nodup, hI.lt, hI.best⟩
  unfold modeSyncOrder
  simp only [bind, Except.bind, h1, pure, Except.pure]

/-- C106: the order found by the frame synchronisation is a permutation of the modes: no reference mode is used twice. -/
theorem C106_permutation (ac : Nat → Nat → ℝ) (n : Nat) (hpos : ∀ l r, l < n → r < n → 0 < ac l r) :
    ∃ c : List Nat, modeSyncOrder ac n = .ok c ∧ c.Perm (List.range n) := by
  obtain ⟨c, h1, h2, h3, h4, -⟩ := modeSyncOrder_spec ac n hpos
  refine ⟨c, h1, ?_⟩
  refine (List.subperm_of_subset h3 fun i hi => List.mem_range.2 (h4 i hi)).perm_of_length_le ?_
  rw [List.length_range, h2]

/-- C106: when every received mode correlates best with the pilots of one reference mode `tau l`, these modes are found. -/
theorem C106_order (ac : Nat → Nat → ℝ) (n : Nat) (hpos : ∀ l r, l < n → r < n → 0 < ac l r) (tau : Nat → Nat)
    (ht : ∀ j < n, tau j < n) (hinj : ∀ j k, j < n → k < n → tau j = tau k → j = k)
    (hbest : ∀ j < n, ∀ i < n, i ≠ tau j → ac j i < ac j (tau j)) : modeSyncOrder ac n = .ok ((List.range n).map tau) := by
  obtain ⟨c, h1, h2, h3, h4, h5⟩ := modeSyncOrder_spec ac n hpos
  have key : ∀ k, k < n → c[k]? = some (tau k) := by
    intro k
    induction k using Nat.strong_induction_on with
    | _ k ih =>
      intro hk
      have hk' : k < c.length := by omega
      have hb := h5 k c[k] (List.getElem?_eq_getElem hk') (tau k) (ht k hk) (by
        intro hmem
        rw [List.mem_take_iff_getElem] at hmem
        obtain ⟨l, hl, he⟩ := hmem
        have := ih l (by omega) (by omega)
        rw [List.getElem?_eq_getElem (by omega), Option.some.injEq] at this
        have := hinj l k (by omega) hk (this.symm.trans he)
        omega)
      rw [List.getElem?_eq_getElem hk', Option.some.injEq]
      by_contra hne
      have := hbest k hk c[k] (h4 _ (List.getElem_mem hk')) hne
      linarith
  rw [h1]
  congr 1
  apply List.ext_getElem?
  intro k
  rw [List.getElem?_map]
  by_cases hk : k < n
  · rw [key k hk, List.getElem?_range hk]; rfl
  · rw [List.getElem?_eq_none (by omega), List.getElem?_eq_none (by simp; omega)]; rfl

theorem fancyIndex_map_range {α : Type _} (n : Nat) (tau : Nat → Nat) (l : List α) (hl : l.length = n) (ht : ∀ j < n, tau j < n) :
    ∃ o, fancyIndex ((List.range n).map tau) l = .ok o ∧ ∀ j < n, o[j]? = l[tau j]? := by
  have : fancyIndex ((List.range n).map tau) l = .ok (((List.range n).map tau).filterMap fun i => l[i]?) := by
    have hall : ∀ i ∈ (List.range n).map tau, i < l.length := by
      intro i hi
      obtain ⟨j, hj, rfl⟩ := List.mem_map.1 hi
      rw [hl]; exact ht j (List.mem_range.1 hj)
    generalize (List.range n).map tau = L at hall
    induction L with
    | nil => rfl
    | cons a L ih =>
      have ha := hall a (by simp)
      have := ih fun i hi => hall i (by simp [hi])
      rw [fancyIndex] at this ⊢
      rw [List.mapM_cons, this, List.filterMap_cons, List.getElem?_eq_getElem ha]
      rfl
  refine ⟨_, this, ?_⟩
  intro j hj
  have e : (((List.range n).map tau).filterMap fun i => l[i]?) = (List.range n).filterMap fun j => l[tau j]? := by
    rw [List.filterMap_map]; rfl
  rw [e]
  have e2 : ((List.range n).filterMap fun j => l[tau j]?).map some = (List.range n).map fun j => l[tau j]? := by
    have hall : ∀ j ∈ List.range n, ∃ x, l[tau j]? = some x := fun j hj =>
      ⟨_, List.getElem?_eq_getElem (by rw [hl]; exact ht j (List.mem_range.1 hj))⟩
    generalize List.range n = L at hall
    induction L with
    | nil => rfl
    | cons a L ih =>
      obtain ⟨x, hx⟩ := hall a (by simp)
      rw [List.filterMap_cons, hx, List.map_cons, List.map_cons, hx]
      simp only [List.cons.injEq, true_and]
      exact ih fun j hj => hall j (by simp [hj])
  have e3 := congrArg (fun L => L[j]?) e2
  simp only [List.getElem?_map, List.getElem?_range hj, Option.map_some] at e3
  cases hx : ((List.range n).filterMap fun j => l[tau j]?)[j]? with
  | none => rw [hx] at e3; simp at e3
  | some x => rw [hx] at e3; simpa using e3

/-- C106, the full property: when received mode `l` carries the pilots of mode `tau l`, then after the frame synchronisation mode `tau l` of
the signal holds the samples of the received mode `l`, so that every mode is compared with its own pilots. -/
def C106_statement : Prop := ∀ (n : Nat) (ac : Nat → Nat → ℝ) (tau : Nat → Nat) (E rows : List (List Nat)) (shifts sh : List Int)
  (order : List Nat) (period : Int), E.length = n → shifts.length = n → (∀ l r, l < n → r < n → 0 < ac l r) → (∀ j < n, tau j < n) →
  (∀ j k, j < n → k < n → tau j = tau k → j = k) → (∀ j < n, ∀ i < n, i ≠ tau j → ac j i < ac j (tau j)) →
  modeSyncOrder ac n = .ok order → syncToFrame E shifts order period = .ok (rows, sh) → ∀ l < n, rows[tau l]? = E[l]?

/-- Three modes permuted cyclically: the code applies the permutation instead of its inverse. -/
theorem C106_false : ¬ C106_statement := by
  intro h
  have hb : ∀ j < 3, ∀ i < 3, i ≠ (j + 1) % 3 → (if i = (j + 1) % 3 then (2 : ℝ) else 1) < if (j + 1) % 3 = (j + 1) % 3 then 2 else 1 := by
    intro j _ i _ hne
    rw [if_neg hne, if_pos rfl]
    norm_num
  have hp : ∀ l r, l < 3 → r < 3 → (0 : ℝ) < if r = (l + 1) % 3 then 2 else 1 := by
    intro l r _ _
    split <;> norm_num
  have ho := C106_order (fun j i => if i = (j + 1) % 3 then (2 : ℝ) else 1) 3 hp (fun j => (j + 1) % 3) (fun j _ => Nat.mod_lt _ (by omega))
    (fun j k hj hk h => by omega) hb
  have := h 3 (fun j i => if i = (j + 1) % 3 then (2 : ℝ) else 1) (fun j => (j + 1) % 3) [[0], [1], [2]] [[1], [2], [0]] [0, 0, 0] [0, 0, 0]
    [1, 2, 0] 10 rfl rfl hp (fun j _ => Nat.mod_lt _ (by omega)) (fun j k hj hk h => by omega) hb ho rfl 0 (by omega)
  simp at this

/-- C106 for permutations that are their own inverse, in particular for up to two modes: samples and shift factors of the received mode end in
the row of its pilots. -/
theorem C106_involution_partial {α : Type} (n : Nat) (ac : Nat → Nat → ℝ) (tau : Nat → Nat) (E : List (List α)) (shifts : List Int)
    (period : Int) (hE : E.length = n) (hs : shifts.length = n) (hpos : ∀ l r, l < n → r < n → 0 < ac l r) (ht : ∀ j < n, tau j < n)
    (hinv : ∀ j < n, tau (tau j) = j) (hbest : ∀ j < n, ∀ i < n, i ≠ tau j → ac j i < ac j (tau j)) :
    ∃ order rows sh, modeSyncOrder ac n = .ok order ∧ syncToFrame E shifts order period = .ok (rows, sh) ∧
      ∀ l < n, rows[tau l]? = E[l]? ∧ sh[tau l]? = (shifts[l]?).map fun s => if s < 0 then s + period else s := by
  have ho := C106_order ac n hpos tau ht (fun j k hj hk h => by rw [← hinv j hj, h, hinv k hk]) hbest
  obtain ⟨rows, h1, h2⟩ := fancyIndex_map_range n tau E hE ht
  obtain ⟨sh, h3, h4⟩ := fancyIndex_map_range n tau (shifts.map fun s => if s < 0 then s + period else s) (by simp [hs]) ht
  refine ⟨_, rows, sh, ho, ?_, ?_⟩
  · unfold syncToFrame
    simp only [bind, Except.bind, h1, h3, pure, Except.pure]
  · intro l hl
    rw [h2 _ (ht l hl), h4 _ (ht l hl), hinv l hl, List.getElem?_map]
    exact ⟨rfl, rfl⟩

/-- Any permutation of two modes is its own inverse. -/
example (tau : Nat → Nat) (ht : ∀ j < 2, tau j < 2) (hinj : ∀ j k, j < 2 → k < 2 → tau j = tau k → j = k) : ∀ j < 2, tau (tau j) = j := by
  intro j hj
  have h0 := ht 0 (by omega)
  have h1 := ht 1 (by omega)
  have hne : tau 0 ≠ tau 1 := fun h => by have := hinj 0 1 (by omega) (by omega) h; omega
  rcases (by omega : tau 0 = 0 ∨ tau 0 = 1) with e0 | e0 <;> rcases (by omega : tau 1 = 0 ∨ tau 1 = 1) with e1 | e1 <;>
    rcases (by omega : j = 0 ∨ j = 1) with rfl | rfl <;> simp_all

end Qampy
