import Verif.Props.Normalise

/-!
# Alignment of signals with any gain: C173, and the normalisation of unsynchronised signals (C142)
-/

namespace Qampy

/-- A mode with a gain. -/
noncomputable def gainRow (g : ℝ) (x : List ℂ) : List ℂ := x.map fun z => (g : ℂ) * z

/-- Every mode with its own gain. -/
noncomputable def gainRows (g : Nat → ℝ) (rx : List (List ℂ)) : List (List ℂ) := rx.mapIdx fun j x => gainRow (g j) x

theorem length_gainRow (g : ℝ) (x : List ℂ) : (gainRow g x).length = x.length := by simp [gainRow]

theorem getD_gainRow (g : ℝ) (x : List ℂ) (i : Nat) : (gainRow g x).getD i 0 = (g : ℂ) * x.getD i 0 := by
  rw [gainRow, List.getD_eq_getElem?_getD, List.getD_eq_getElem?_getD, List.getElem?_map]
  cases x[i]? <;> simp

theorem convFull_scale (g : ℝ) (x y : List ℂ) : convFull (gainRow g x) y = gainRow g (convFull x y) := by
  unfold convFull
  have : (gainRow g x = []) ↔ (x = []) := by simp [gainRow]
  simp only [this]
  split_ifs
  · rfl
  · rw [length_gainRow]
    unfold gainRow
    rw [List.map_map]
    apply List.map_congr_left
    intro n _
    simp only [Function.comp_apply]
    rw [Finset.mul_sum]
    apply Finset.sum_congr rfl
    intro i _
    rw [← mul_assoc]
    congr 1
    exact getD_gainRow g x i

theorem crossCorr_scale (g : ℝ) (x y : List ℂ) : crossCorr complexOps (gainRow g x) y = gainRow g (crossCorr complexOps x y) := convFull_scale g x _

theorem argmaxGo_mono {f : ℝ → ℝ} (hf : StrictMono f) (l : List ℝ) (i j : Nat) (b : ℝ) : Np.argmaxGo (l.map f) i j (f b) = Np.argmaxGo l i j b := by
  induction l generalizing i j b with
  | nil => rfl
  | cons a l ih =>
    simp only [List.map_cons, Np.argmaxGo, hf.lt_iff_lt]
    split_ifs
    · exact ih _ _ _
    · exact ih _ _ _

theorem argmax_mono {f : ℝ → ℝ} (hf : StrictMono f) (l : List ℝ) : Np.argmax (l.map f) = Np.argmax l := by
  cases l with
  | nil => rfl
  | cons a l =>
    simp only [List.map_cons, Np.argmax]
    rw [argmaxGo_mono hf]

theorem strictMono_gain {g : ℝ} (hg : 0 < g) : StrictMono fun a : ℝ => g * a := fun _ _ h => mul_lt_mul_of_pos_left h hg

theorem findSequenceOffset_scale {g : ℝ} (hg : 0 < g) (x y : List ℂ) : findSequenceOffset complexOps (gainRow g x) y = findSequenceOffset complexOps x y := by
  unfold findSequenceOffset
  rw [crossCorr_scale]
  have : (gainRow g (crossCorr complexOps x y)).map complexOps.mag = ((crossCorr complexOps x y).map complexOps.mag).map fun a => g * a := by
    unfold gainRow
    rw [List.map_map, List.map_map]
    apply List.map_congr_left
    intro z _
    simp only [Function.comp_apply, complexOps, norm_mul, Complex.norm_real, Real.norm_eq_abs, abs_of_pos hg]
  rw [this, argmax_mono (strictMono_gain hg)]

theorem rotLoop_scale {g : ℝ} (hg : 0 < g) (x y : List ℂ) (l : List Nat) (st : Option (Nat × Int × ℝ)) :
    rotLoop complexOps (gainRow g x) y l (st.map fun s => (s.1, s.2.1, g * s.2.2)) = (rotLoop complexOps x y l st).map (Option.map fun s => (s.1, s.2.1, g * s.2.2)) := by
  induction l generalizing st with
  | nil => rfl
  | cons i l ih =>
    simp only [rotLoop]
    rw [findSequenceOffset_scale hg, crossCorr_scale]
    cases findSequenceOffset complexOps x (List.map (fun x => x * complexOps.I ^ i) y) with
    | error e => rfl
    | ok idx =>
      simp only [bind, Except.bind]
      have : (gainRow g (crossCorr complexOps x (List.map (fun x => x * complexOps.I ^ i) y))).map complexOps.re =
          ((crossCorr complexOps x (List.map (fun x => x * complexOps.I ^ i) y)).map complexOps.re).map fun a => g * a := by
        unfold gainRow
        rw [List.map_map, List.map_map]
        apply List.map_congr_left
        intro z _
        simp [complexOps]
      rw [this, argmax_mono (strictMono_gain hg)]
      obtain ⟨re, hre⟩ : ∃ re, re = (crossCorr complexOps x (List.map (fun x => x * complexOps.I ^ i) y)).map complexOps.re := ⟨_, rfl⟩
      rw [← hre]
      cases Np.argmax re with
      | none => rfl
      | some m =>
        dsimp only
        have h1 : (re.map fun a => g * a).getD m 0 = g * re.getD m 0 := by
          rw [List.getD_eq_getElem?_getD, List.getD_eq_getElem?_getD, List.getElem?_map]
          cases re[m]? <;> simp
        have h2 : ((st.map fun s => (s.1, s.2.1, g * s.2.2)).map (·.2.2)).getD 0 = g * (st.map (·.2.2)).getD 0 := by
          cases st <;> simp
        rw [h1, h2, ← ih]
        congr 1
        by_cases h : (st.map (·.2.2)).getD 0 < re.getD m 0
        · rw [if_pos h, if_pos (mul_lt_mul_of_pos_left h hg)]
          rfl
        · rw [if_neg h, if_neg fun hc => h (lt_of_mul_lt_mul_left hc hg.le)]

/-- The correlation found is positive. -/
theorem rotLoop_pos (x y : List ℂ) (l : List Nat) (st : Option (Nat × Int × ℝ)) (h0 : ∀ s, st = some s → 0 < s.2.2) {r : Option (Nat × Int × ℝ)} (h : rotLoop complexOps x y l st = .ok r) :
    ∀ s, r = some s → 0 < s.2.2 := by
  induction l generalizing st with
  | nil =>
    simp only [rotLoop, Except.ok.injEq] at h
    rw [← h]
    exact h0
  | cons i l ih =>
    simp only [rotLoop] at h
    cases hf : findSequenceOffset complexOps x (List.map (fun x => x * complexOps.I ^ i) y) with
    | error e => rw [hf] at h; cases h
    | ok idx =>
      rw [hf] at h
      simp only [bind, Except.bind] at h
      obtain ⟨re, hre⟩ : ∃ re, re = (crossCorr complexOps x (List.map (fun x => x * complexOps.I ^ i) y)).map complexOps.re := ⟨_, rfl⟩
      rw [← hre] at h
      cases ha : Np.argmax re with
      | none => rw [ha] at h; cases h
      | some m =>
        rw [ha] at h
        dsimp only at h
        refine ih _ ?_ h
        intro s hs
        split_ifs at hs with hc
        · rw [Option.some.injEq] at hs
          rw [← hs]
          refine lt_of_le_of_lt ?_ hc
          cases hst : st with
          | none => simp
          | some s => simpa using (h0 s hst).le
        · exact h0 s hs

theorem findComplex_scale {g : ℝ} (hg : 0 < g) (x y : List ℂ) : findSequenceOffsetComplex complexOps true (gainRow g x) y =
    (findSequenceOffsetComplex complexOps true x y).map fun q => (q.1, q.2.1, q.2.2.1, q.2.2.2.map fun a => g * a) := by
  unfold findSequenceOffsetComplex
  rw [if_neg (by decide), if_neg (by decide)]
  have := rotLoop_scale hg x y [0, 1, 2, 3] none
  rw [Option.map_none] at this
  rw [this]
  cases rotLoop complexOps x y [0, 1, 2, 3] none with
  | error e => rfl
  | ok r => cases r <;> rfl

theorem findComplex_pos {x y : List ℂ} {q : Int × List ℂ × Nat × Option ℝ} (h : findSequenceOffsetComplex complexOps true x y = .ok q) : 0 < q.2.2.2.getD 0 := by
  unfold findSequenceOffsetComplex at h
  rw [if_neg (by decide)] at h
  cases hr : rotLoop complexOps x y [0, 1, 2, 3] none with
  | error e => rw [hr] at h; cases h
  | ok r =>
    rw [hr] at h
    cases r with
    | none => cases h
    | some s =>
      have := rotLoop_pos x y _ none (by simp) hr s rfl
      simp only [bind, Except.bind, Except.ok.injEq] at h
      rw [← h]
      exact this

theorem syncAndAdjust_scale {g : ℝ} (hg : 0 < g) (tx rx : List ℂ) : syncAndAdjust complexOps true tx (gainRow g rx) .tx =
    (syncAndAdjust complexOps true tx rx .tx).map fun p => (p.1, gainRow g p.2) := by
  have hlen : ∀ q, findSequenceOffsetComplex complexOps true rx tx = .ok q → q.2.1.length = tx.length := by
    intro q hq
    unfold findSequenceOffsetComplex at hq
    rw [if_neg (by decide)] at hq
    cases hr : rotLoop complexOps rx tx [0, 1, 2, 3] none with
    | error e => rw [hr] at hq; cases hq
    | ok r =>
      rw [hr] at hq
      cases r with
      | none => cases hq
      | some s =>
        simp only [bind, Except.bind, Except.ok.injEq] at hq
        rw [← hq]
        simp
  unfold syncAndAdjust
  rw [length_gainRow, findComplex_scale hg]
  cases hf : findSequenceOffsetComplex complexOps true rx tx with
  | error e => split_ifs <;> rfl
  | ok q =>
    have hq := hlen q hf
    split_ifs with h1 h2
    · simp only [Except.map, bind, Except.bind, adjustDataLength, Np.length_roll, hq, length_gainRow, h1, if_true]
    · simp only [Except.map, bind, Except.bind, adjustDataLength, hq, length_gainRow, h1, h2, if_true, if_false]
      cases extendTo q.2.1 rx.length q.1 <;> rfl
    · rfl

theorem syncPair_scale {g : ℝ} (hg : 0 < g) (tx rx : List ℂ) : syncPair tx (gainRow g rx) = (syncPair tx rx).map fun q => ((q.1.1, gainRow g q.1.2), g * q.2) := by
  unfold syncPair
  rw [findComplex_scale hg, syncAndAdjust_scale hg]
  cases findSequenceOffsetComplex complexOps true rx tx with
  | error e => rfl
  | ok q =>
    cases syncAndAdjust complexOps true tx rx .tx with
    | error e => rfl
    | ok p =>
      obtain ⟨a, b, c, d⟩ := q
      simp only [Except.map, bind, Except.bind, pure, Except.pure]
      cases d <;> simp

theorem syncPair_pos {tx rx : List ℂ} {q : (List ℂ × List ℂ) × ℝ} (h : syncPair tx rx = .ok q) : 0 < q.2 := by
  unfold syncPair at h
  cases hf : findSequenceOffsetComplex complexOps true rx tx with
  | error e => rw [hf] at h; cases h
  | ok p =>
    rw [hf] at h
    cases hs : syncAndAdjust complexOps true tx rx .tx with
    | error e => rw [hs] at h; cases h
    | ok r =>
      rw [hs] at h
      simp only [bind, Except.bind, pure, Except.pure, Except.ok.injEq] at h
      rw [← h]
      exact findComplex_pos hf

section modes
variable {β : Type}

theorem bestMode_scale_some {sync sync' : Nat → Except PyErr (β × ℝ)} {F : β → β} {g : ℝ} (hg : 0 < g) (hs : ∀ i, sync' i = (sync i).map fun q => (F q.1, g * q.2))
    (cand : List Nat) (a : ℝ) (b : Nat × β) :
    bestMode sync' cand (g * a, some (b.1, F b.2)) = (bestMode sync cand (a, some b)).map fun s => (g * s.1, s.2.map fun b => (b.1, F b.2)) := by
  unfold bestMode
  induction cand generalizing a b with
  | nil => rfl
  | cons i cand ih =>
    rw [List.foldlM_cons, List.foldlM_cons, hs]
    cases sync i with
    | error e => rfl
    | ok q =>
      simp only [Except.map, bind, Except.bind, pure, Except.pure, gt_iff_lt] at ih ⊢
      by_cases h : a < q.2
      · rw [if_pos h, if_pos (mul_lt_mul_of_pos_left h hg)]
        exact ih q.2 (i, q.1)
      · rw [if_neg h, if_neg fun hc => h (lt_of_mul_lt_mul_left hc hg.le)]
        exact ih a b

theorem bestMode_scale {sync sync' : Nat → Except PyErr (β × ℝ)} {F : β → β} {g : ℝ} (hg : 0 < g) (hs : ∀ i, sync' i = (sync i).map fun q => (F q.1, g * q.2))
    (hpos : ∀ i q, sync i = .ok q → 0 < q.2) (i : Nat) (cand : List Nat) (o o' : Option (Nat × β)) :
    bestMode sync' (i :: cand) (-100, o') = (bestMode sync (i :: cand) (-100, o)).map fun s => (g * s.1, s.2.map fun b => (b.1, F b.2)) := by
  have h1 := hs i
  cases hq : sync i with
  | error e =>
    rw [hq] at h1
    unfold bestMode
    rw [List.foldlM_cons, List.foldlM_cons, h1, hq]
    rfl
  | ok q =>
    have hp := hpos i q hq
    rw [hq] at h1
    have e1 : bestMode sync' (i :: cand) (-100, o') = bestMode sync' cand (g * q.2, some (i, F q.1)) := by
      unfold bestMode
      rw [List.foldlM_cons, h1]
      simp only [Except.map, bind, Except.bind, pure, Except.pure, gt_iff_lt]
      rw [if_pos (by have := mul_pos hg hp; linarith)]
    have e2 : bestMode sync (i :: cand) (-100, o) = bestMode sync cand (q.2, some (i, q.1)) := by
      unfold bestMode
      rw [List.foldlM_cons, hq]
      simp only [bind, Except.bind, pure, Except.pure, gt_iff_lt]
      rw [if_pos (by linarith)]
    rw [e1, e2]
    exact bestMode_scale_some hg hs cand q.2 (i, q.1)

/-- The state of the assignment for the scaled signal. -/
def AssignRel (F : Nat → β → β) (st st' : List Nat × Option (Nat × β) × List (Nat × β)) : Prop :=
  st'.1 = st.1 ∧ st'.2.1.map (·.1) = st.2.1.map (·.1) ∧ st'.2.2 = st.2.2.mapIdx fun j b => (b.1, F j b.2)

/-- Results which are both errors or related. -/
def ExceptRel {α : Type} (R : α → α → Prop) (a b : Except PyErr α) : Prop :=
  match a, b with
  | .error e, .error e' => e = e'
  | .ok x, .ok y => R x y
  | _, _ => False

theorem assignStep_scale {sync sync' : Nat → Nat → Except PyErr (β × ℝ)} {F : Nat → β → β} {g : Nat → ℝ} (hg : ∀ j, 0 < g j)
    (hs : ∀ i j, sync' i j = (sync i j).map fun q => (F j q.1, g j * q.2)) (hpos : ∀ i j q, sync i j = .ok q → 0 < q.2)
    {st st' : List Nat × Option (Nat × β) × List (Nat × β)} (hr : AssignRel F st st') :
    ExceptRel (fun s s' => AssignRel F s s' ∧ s.2.2.length = st.2.2.length + 1) (assignStep sync st st.2.2.length) (assignStep sync' st' st.2.2.length) := by
  obtain ⟨avail, best, out⟩ := st
  obtain ⟨avail', best', out'⟩ := st'
  obtain ⟨h1, h2, h3⟩ := hr
  dsimp only at h1 h2 h3
  subst h1
  unfold assignStep
  dsimp only
  cases avail' with
  | nil =>
    simp only [bestMode, List.foldlM_nil, pure, Except.pure, bind, Except.bind]
    cases best with
    | none =>
      cases best' with
      | none => rfl
      | some b => cases h2
    | some b =>
      cases best' with
      | none => cases h2
      | some b' =>
        simp only [List.not_mem_nil, if_false]
        rfl
  | cons i cand =>
    rw [bestMode_scale (hg out.length) (fun i => hs i out.length) (fun i => hpos i out.length) i cand best best']
    cases bestMode (fun i => sync i out.length) (i :: cand) (-100, best) with
    | error e => rfl
    | ok s =>
      obtain ⟨a, o⟩ := s
      simp only [Except.map, bind, Except.bind]
      cases o with
      | none => rfl
      | some b =>
        simp only [Option.map_some]
        split_ifs
        · simp only [pure, Except.pure, ExceptRel, AssignRel]
          refine ⟨⟨trivial, rfl, ?_⟩, by simp⟩
          rw [h3, List.mapIdx_append]
          simp
        · rfl

theorem assignFold_scale {sync sync' : Nat → Nat → Except PyErr (β × ℝ)} {F : Nat → β → β} {g : Nat → ℝ} (hg : ∀ j, 0 < g j)
    (hs : ∀ i j, sync' i j = (sync i j).map fun q => (F j q.1, g j * q.2)) (hpos : ∀ i j q, sync i j = .ok q → 0 < q.2) (n : Nat)
    {st st' : List Nat × Option (Nat × β) × List (Nat × β)} (hr : AssignRel F st st') :
    ExceptRel (AssignRel F) ((List.range' st.2.2.length n).foldlM (assignStep sync) st) ((List.range' st.2.2.length n).foldlM (assignStep sync') st') := by
  induction n generalizing st st' with
  | zero => exact hr
  | succ n ih =>
    rw [List.range'_succ, List.foldlM_cons, List.foldlM_cons]
    have h := assignStep_scale hg hs hpos hr
    cases ha : assignStep sync st st.2.2.length with
    | error e =>
      cases hb : assignStep sync' st' st.2.2.length with
      | error e' => rw [ha, hb] at h; exact h
      | ok s' => rw [ha, hb] at h; exact h.elim
    | ok s =>
      cases hb : assignStep sync' st' st.2.2.length with
      | error e' => rw [ha, hb] at h; exact h.elim
      | ok s' =>
        rw [ha, hb] at h
        obtain ⟨h1, h2⟩ := h
        have := ih h1
        rw [h2] at this
        exact this

theorem syncModes_scale {sync sync' : Nat → Nat → Except PyErr (β × ℝ)} {F : Nat → β → β} {g : Nat → ℝ} (hg : ∀ j, 0 < g j)
    (hs : ∀ i j, sync' i j = (sync i j).map fun q => (F j q.1, g j * q.2)) (hpos : ∀ i j q, sync i j = .ok q → 0 < q.2) (txm rxm : Nat) :
    syncModes sync' txm rxm = (syncModes sync txm rxm).map fun l => l.mapIdx fun j b => (b.1, F j b.2) := by
  unfold syncModes
  dsimp only
  have h := assignFold_scale (sync := fun i j => if i < txm then sync i j else throw .index) (sync' := fun i j => if i < txm then sync' i j else throw .index) (F := F) hg
    (by
      intro i j
      split_ifs
      · exact hs i j
      · rfl)
    (by
      intro i j q hq
      split_ifs at hq
      exact hpos i j q hq) rxm (st := (List.range (max txm rxm), none, [])) (st' := (List.range (max txm rxm), none, [])) ⟨rfl, rfl, rfl⟩
  rw [List.length_nil, ← List.range_eq_range'] at h
  cases ha : (List.range rxm).foldlM (assignStep fun i j => if i < txm then sync i j else throw .index) (List.range (max txm rxm), none, []) with
  | error e =>
    cases hb : (List.range rxm).foldlM (assignStep fun i j => if i < txm then sync' i j else throw .index) (List.range (max txm rxm), none, []) with
    | error e' => rw [ha, hb] at h; rw [show e = e' from h]; rfl
    | ok s' => rw [ha, hb] at h; exact h.elim
  | ok s =>
    cases hb : (List.range rxm).foldlM (assignStep fun i j => if i < txm then sync' i j else throw .index) (List.range (max txm rxm), none, []) with
    | error e' => rw [ha, hb] at h; exact h.elim
    | ok s' =>
      rw [ha, hb] at h
      simp only [bind, Except.bind, pure, Except.pure, Except.map, Except.ok.injEq]
      exact h.2.2

end modes

theorem getElem?_gainRows (g : Nat → ℝ) (rx : List (List ℂ)) (j : Nat) : (gainRows g rx)[j]? = rx[j]?.map (gainRow (g j)) := by
  unfold gainRows
  rw [List.getElem?_mapIdx]

/-- C173: the alignment (delay, quarter turn and assignment of the modes, including every error) does not depend on the gain of the received modes: the transmitted sequences come out the same, the
received ones with the gain they had. -/
theorem C173_align (tx rx : List (List ℂ)) (g : Nat → ℝ) (hg : ∀ j, 0 < g j) :
    syncRows tx (gainRows g rx) = (syncRows tx rx).map fun p => (p.1, gainRows g p.2) := by
  unfold syncRows
  have h := syncModes_scale (sync := syncEntry tx rx) (sync' := syncEntry tx (gainRows g rx)) (F := fun j p => (p.1, gainRow (g j) p.2)) hg
    (by
      intro i j
      unfold syncEntry
      rw [getElem?_gainRows]
      cases tx[i]? with
      | none => rfl
      | some t =>
        cases rx[j]? with
        | none => rfl
        | some x => exact syncPair_scale (hg j) t x)
    (by
      intro i j q hq
      unfold syncEntry at hq
      cases ht : tx[i]? with
      | none => rw [ht] at hq; cases hq
      | some t =>
        cases hx : rx[j]? with
        | none => rw [ht, hx] at hq; cases hq
        | some x => rw [ht, hx] at hq; exact syncPair_pos hq) tx.length rx.length
  have hl : (gainRows g rx).length = rx.length := by simp [gainRows]
  rw [hl, h]
  cases syncModes (syncEntry tx rx) tx.length rx.length with
  | error e => rfl
  | ok l =>
    simp only [Except.map, bind, Except.bind, pure, Except.pure, Except.ok.injEq, Prod.mk.injEq]
    refine ⟨?_, ?_⟩
    · apply List.ext_getElem? 
      intro i
      simp only [List.getElem?_map, List.getElem?_mapIdx, Option.map_map]
      rfl
    · unfold gainRows
      apply List.ext_getElem? 
      intro i
      simp only [List.getElem?_map, List.getElem?_mapIdx, Option.map_map]
      rfl

theorem estimateSnr_gain {g : ℝ} (hg : 0 < g) (rx tx coded : List ℂ) :
    estimateSnr (gainRow g rx) tx coded = (estimateSnr rx tx coded).map fun p => (p.1, g ^ 2 * p.2.1, g ^ 2 * p.2.2) := by
  have hn : ‖(g : ℂ)‖ ^ 2 = g ^ 2 := by rw [Complex.norm_real, Real.norm_eq_abs, sq_abs]
  have hsel : ∀ s, selSymbs (gainRow g rx) tx s = (selSymbs rx tx s).map fun x => (g : ℂ) * x := by
    intro s
    rw [gainRow, selSymbs, selSymbs, List.zip_map_left, List.filter_map, List.map_map, List.map_map]
    congr 1
  have hterm : ∀ s, snrTerm (gainRow g rx) tx s = (snrTerm rx tx s).map fun p => (g ^ 2 * p.1, g ^ 2 * p.2) := by
    intro s
    by_cases h : selSymbs rx tx s = []
    · have h' : selSymbs (gainRow g rx) tx s = [] := by rw [hsel, h]; rfl
      simp [snrTerm, h, h']
    · have h' : selSymbs (gainRow g rx) tx s ≠ [] := by rw [hsel]; simpa using h
      rw [snrTerm_eq h, snrTerm_eq h', hsel]
      have hm : cmean ((selSymbs rx tx s).map fun x => (g : ℂ) * x) = g * cmean (selSymbs rx tx s) := by
        rw [cmean, cmean, List.sum_map_mul_left, List.map_id', List.length_map, mul_div_assoc]
      rw [hm]
      simp only [Option.map_some, Option.some.injEq, Prod.mk.injEq, List.length_map, List.map_map, length_gainRow]
      constructor
      · rw [norm_mul, mul_pow, hn]; ring
      · rw [← mul_div_assoc]
        congr 1
        rw [← List.sum_map_mul_left]
        congr 1
        apply List.map_congr_left
        intro x _
        rw [Function.comp_apply, ← mul_sub, norm_mul, mul_pow, hn]
  have hmap : coded.mapM (snrTerm (gainRow g rx) tx) = (coded.mapM (snrTerm rx tx)).map fun l => l.map fun p => (g ^ 2 * p.1, g ^ 2 * p.2) := by
    induction coded with
    | nil => rfl
    | cons s coded ih =>
      rw [List.mapM_cons, List.mapM_cons, ih, hterm]
      cases snrTerm rx tx s with
      | none => rfl
      | some p =>
        cases coded.mapM (snrTerm rx tx) with
        | none => rfl
        | some l => rfl
  rw [estimateSnr, estimateSnr, hmap]
  cases coded.mapM (snrTerm rx tx) with
  | none => rfl
  | some l =>
    simp only [Option.map_some, Option.some.injEq, List.map_map, Function.comp_def]
    rw [List.sum_map_mul_left, List.sum_map_mul_left, mul_div_mul_left _ _ (pow_pos hg 2).ne']

theorem mapM_range_mapIdx {α : Type} (f f' : Nat → Except PyErr α) (F : Nat → α → α) (h : ∀ i, f' i = (f i).map (F i)) (n : Nat) :
    (List.range n).mapM f' = ((List.range n).mapM f).map (List.mapIdx F) ∧ ∀ l, (List.range n).mapM f = .ok l → l.length = n := by
  induction n with
  | zero => exact ⟨rfl, fun l hl => by cases hl; rfl⟩
  | succ n ih =>
    rw [List.range_succ, List.mapM_append, List.mapM_append, ih.1]
    simp only [List.mapM_cons, List.mapM_nil, h]
    cases hl : (List.range n).mapM f with
    | error e => exact ⟨rfl, fun l hl => by cases hl⟩
    | ok l =>
      have hlen := ih.2 l hl
      cases f n with
      | error e => exact ⟨rfl, fun l hl => by cases hl⟩
      | ok a =>
        simp only [Except.map, bind, Except.bind, pure, Except.pure, Except.ok.injEq]
        refine ⟨?_, ?_⟩
        · rw [List.mapIdx_append, hlen]
          simp
        · rintro l' rfl
          simp [hlen]

/-- C173: the signal to noise ratios do not depend on the gain of the modes, the powers go with its square. -/
theorem C173_snr (coded : List ℂ) (tx rx : List (List ℂ)) (g : Nat → ℝ) (hg : ∀ j, 0 < g j) :
    estSnrRows coded false tx (gainRows g rx) = (estSnrRows coded false tx rx).map (List.mapIdx fun j p => (p.1, g j ^ 2 * p.2.1, g j ^ 2 * p.2.2)) := by
  unfold estSnrRows alignRows
  rw [if_neg (by decide), if_neg (by decide), C173_align tx rx g hg]
  cases syncRows tx rx with
  | error e => rfl
  | ok p =>
    have hl : (gainRows g rx).length = rx.length := by simp [gainRows]
    simp only [Except.map, bind, Except.bind]
    rw [hl]
    refine (mapM_range_mapIdx _ _ _ ?_ rx.length).1
    intro i
    rw [getElem?_gainRows]
    cases p.1[i]? with
    | none => rfl
    | some a =>
      cases p.2[i]? with
      | none => rfl
      | some b =>
        simp only [Option.map_some]
        rw [estimateSnr_gain (hg i)]
        cases estimateSnr b a coded <;> rfl

theorem centred_affine {g : ℝ} (b : ℂ) (x : List ℂ) : centred (x.map fun z => (g : ℂ) * z + b) = gainRow g (centred x) := by
  cases x with
  | nil => rfl
  | cons a l =>
    have hl : ((a :: l).length : ℂ) ≠ 0 := by exact_mod_cast (List.length_pos_iff.2 (List.cons_ne_nil a l)).ne'
    obtain ⟨x, hx⟩ : ∃ x, x = a :: l := ⟨_, rfl⟩
    rw [← hx] at hl ⊢
    have hs : ∀ l : List ℂ, (l.map fun z => (g : ℂ) * z + b).sum = g * l.sum + l.length * b := by
      intro l
      induction l with
      | nil => simp
      | cons a l ih => rw [List.map_cons, List.sum_cons, ih, List.sum_cons, List.length_cons]; push_cast; ring
    unfold centred gainRow meanC
    rw [List.map_map, List.map_map, hs, List.length_map]
    apply List.map_congr_left
    intro z _
    simp only [Function.comp_apply]
    field_simp
    ring

theorem divSqrt_gain {g : ℝ} (hg : 0 < g) (p : ℝ) (x : List ℂ) : divSqrt (g ^ 2 * p) (gainRow g x) = divSqrt p x := by
  have hc : (g : ℂ) ≠ 0 := by exact_mod_cast hg.ne'
  unfold divSqrt
  have : g ^ 2 * p = 0 ↔ p = 0 := by
    constructor
    · intro h
      exact (mul_eq_zero.1 h).resolve_left (pow_pos hg 2).ne'
    · rintro rfl
      simp
  simp only [this]
  split_ifs
  · rfl
  · congr 1
    unfold gainRow
    rw [List.map_map]
    apply List.map_congr_left
    intro z _
    simp only [Function.comp_apply]
    rw [Real.sqrt_mul (sq_nonneg g), Real.sqrt_sq hg.le]
    push_cast
    rw [mul_div_mul_left _ _ hc]

/-- C173: the normalisation to the power of the symbols returns the same signal, whatever gain and offset its modes have (and fails in the same cases). -/
theorem C173_normalise (cls : SigClass) (coded : List ℂ) (tx sig : List (List ℂ)) (g : Nat → ℝ) (b : Nat → ℂ) (hg : ∀ j, 0 < g j) :
    normalizeSymbols cls coded false tx (sig.mapIdx fun j x => x.map fun z => (g j : ℂ) * z + b j) = normalizeSymbols cls coded false tx sig := by
  have hc : (sig.mapIdx fun j x => x.map fun z => (g j : ℂ) * z + b j).map centred = gainRows g (sig.map centred) := by
    apply List.ext_getElem?
    intro i
    rw [getElem?_gainRows, List.getElem?_map, List.getElem?_mapIdx, List.getElem?_map, Option.map_map, Option.map_map]
    congr 1
    funext x
    exact centred_affine (b i) x
  cases cls with
  | pilots => rfl
  | symbolOnly => rfl
  | base =>
    unfold normalizeSymbols
    dsimp only
    rw [hc, C173_snr coded tx _ g hg, List.length_mapIdx]
    cases estSnrRows coded false tx (sig.map centred) with
    | error e => rfl
    | ok l =>
      simp only [Except.map, Except.ok.injEq]
      congr 1
      funext i
      rw [List.getElem?_mapIdx, getElem?_gainRows]
      cases l[i]? with
      | none => rfl
      | some p =>
        cases (sig.map centred)[i]? with
        | none => rfl
        | some x =>
          simp only [Option.map_some]
          exact divSqrt_gain (hg i) p.2.1 x

/-- C142, signals which are not synchronised: the centred modes are the transmitted ones in any order, each with its own delay, quarter turn, gain and bounded noise (the conditions of C131 on the
correlations of the sequences). The result is the one for known alignment. -/
theorem C142_unsynced_partial (s w : Nat → Nat → ℂ) (tau d r : Nat → Nat) (N L Lr : Nat) (hN : 0 < N) (c0 ε S : ℝ) (hc0 : 0 ≤ c0) (hε : 0 ≤ ε)
    (htau : ∀ j < Lr, tau j < L) (hinj : ∀ j k, j < Lr → k < Lr → tau j = tau k → j = k) (hd : ∀ j < Lr, d j < N) (hr : ∀ j < Lr, r j < 4)
    (hw : ∀ j < Lr, ∀ n < N, ‖w j n‖ ≤ ε) (hS : ∀ i < L, ∑ m ∈ Finset.range N, ‖s i m‖ ≤ S) (hnz : ∀ i < L, ∃ m < N, s i m ≠ 0)
    (hside : ∀ j < Lr, ∀ i < L, ∀ k : Int, -(N : Int) < k → k < N → (i ≠ tau j ∨ ¬ k % N = d j % N) →
      ‖∑ m ∈ Finset.range N, (if 0 ≤ k + m ∧ k + m < N then delayed N (s (tau j)) (d j) (k + m).toNat else 0) * (starRingEnd ℂ) (s i m)‖ ≤ c0)
    (hpeak : ∀ j < Lr, c0 + 2 * ε * S < max (∑ m ∈ Finset.Ico 0 (N - d j), ‖s (tau j) m‖ ^ 2) (∑ m ∈ Finset.Ico (N - d j) N, ‖s (tau j) m‖ ^ 2))
    (g : Nat → ℝ) (b : Nat → ℂ) (hg : ∀ j, 0 < g j) (coded : List ℂ) (hnd : coded.Nodup)
    (tx sig sent rx : List (List ℂ)) (htx : tx = (List.range L).map fun i => (List.range N).map (s i))
    (hsent : sent = (List.range Lr).map fun j => (List.range N).map fun n => delayed N (s (tau j)) (d j) n * Complex.I ^ r j)
    (hrx : rx = (List.range Lr).map fun j => (List.range N).map fun n => delayed N (s (tau j)) (d j) n * Complex.I ^ r j + w j n)
    (hcent : ∀ x ∈ rx, x.sum = 0) (hsig : sig = rx.mapIdx fun j x => x.map fun z => (g j : ℂ) * z + b j)
    (hin : ∀ t ∈ sent, ∀ z ∈ t, z ∈ coded) (hall : ∀ t ∈ sent, ∀ z ∈ coded, z ∈ t)
    (hpow : ∀ (i : Nat) (t x : List ℂ), sent[i]? = some t → rx[i]? = some x → ∃ z ∈ t, classMean (centred x) t z ≠ 0) :
    ∃ out : List (List ℂ), normalizeSymbols .base coded false tx sig = .ok (some out) ∧ out.length = sig.length
      ∧ ∀ (i : Nat) (t x : List ℂ), sent[i]? = some t → rx[i]? = some x → ∃ (o : List ℂ) (snr N0 : ℝ), out[i]? = some o ∧ o.length = x.length ∧ o.sum = 0
        ∧ (∃ h : ℝ, 0 < h ∧ o = x.map fun z => (h : ℂ) * z) ∧ estimateSnr o t coded = some (snr, 1, N0)
        ∧ (estimateSnr x t coded).map (·.1) = some snr ∧ (o.map fun z => ‖z‖ ^ 2).sum / o.length = 1 + N0 := by
  have hceq : ∀ x ∈ rx, centred x = x := by
    intro x hx
    unfold centred meanC
    rw [hcent x hx]
    simp
  have hcrx : rx.map centred = rx := by
    conv_rhs => rw [← List.map_id rx]
    exact List.map_congr_left hceq
  have hnorm : normalizeSymbols .base coded false tx sig = normalizeSymbols .base coded true sent rx := by
    rw [hsig, C173_normalise .base coded tx rx g b hg]
    unfold normalizeSymbols
    dsimp only
    rw [hcrx, (C131_metrics s w tau d r N L Lr hN c0 ε S hc0 hε htau hinj hd hr hw hS hnz hside hpeak 0 coded tx rx sent htx hrx hsent).2.2.2]
  obtain ⟨out, h1, h2, h3⟩ := C142_synced_partial coded sent rx N (by rw [hsent, hrx]; simp) (by rw [hsent]; simp) (by rw [hrx]; simp) hnd hin hall hpow
  refine ⟨out, by rw [hnorm, h1], by rw [h2, hsig]; simp, ?_⟩
  intro i t x ht hx
  obtain ⟨o, snr, N0, e1, e2, e3, ⟨h, hh, e4⟩, e5, e6, e7⟩ := h3 i t x ht hx
  have hm := hcent x (List.mem_of_getElem? hx)
  rw [hm] at e4 e6
  refine ⟨o, snr, N0, e1, e2, e3, ⟨h, hh, ?_⟩, e5, ?_, e7⟩
  · rw [e4]
    simp
  · simpa using e6

/-- A mode with a quarter turn, gain 2, an offset and noise. -/
example : ∃ out : List (List ℂ), normalizeSymbols .base [Complex.I, -Complex.I] false [[1, -1]] [[2 * (Complex.I + 1 / 8) + 5, 2 * (-Complex.I - 1 / 8) + 5]] = .ok (some out) ∧ out.length = 1 := by
  obtain ⟨out, h1, h2, -⟩ := C142_unsynced_partial (fun _ m => if m = 0 then 1 else -1) (fun _ m => if m = 0 then 1 / 8 else -(1 / 8)) (fun _ => 0) (fun _ => 0) (fun _ => 1) 2 1 1
    (by norm_num) 1 (1 / 8) 2 (by norm_num) (by norm_num) (by intro j hj; omega) (by intro j k hj hk _; omega) (by intro j _; norm_num) (by intro j _; norm_num)
    (by intro j _ n _; split_ifs <;> norm_num) (by intro i _; norm_num [Finset.sum_range_succ]) (by intro i _; exact ⟨0, by norm_num, by norm_num⟩)
    (by
      intro j hj i hi k hk1 hk2 hne
      have hk : k = -1 ∨ k = 0 ∨ k = 1 := by omega
      interval_cases j; interval_cases i
      rcases hk with rfl | rfl | rfl <;> first | (exfalso; revert hne; decide) | norm_num [Finset.sum_range_succ, delayed])
    (by intro j _; norm_num [Finset.sum_Ico_eq_sum_range, Finset.sum_range_succ])
    (fun _ => 2) (fun _ => 5) (by norm_num) [Complex.I, -Complex.I] (by simp [Complex.ext_iff]; norm_num)
    [[1, -1]] [[2 * (Complex.I + 1 / 8) + 5, 2 * (-Complex.I - 1 / 8) + 5]] [[Complex.I, -Complex.I]] [[Complex.I + 1 / 8, -Complex.I - 1 / 8]]
    (by simp [List.range_succ]) (by simp [List.range_succ, delayed]) (by simp [List.range_succ, delayed, sub_eq_add_neg])
    (by simp) (by simp) (by simp) (by simp)
    (by
      intro i t x ht hx
      have hi : i = 0 := by have := (List.getElem?_eq_some_iff.1 ht).1; simp at this; omega
      subst hi
      simp only [List.getElem?_cons_zero, Option.some.injEq] at ht hx
      subst ht; subst hx
      refine ⟨Complex.I, by simp, ?_⟩
      have hc : ([-Complex.I] : List ℂ).count Complex.I = 0 := by
        rw [List.count_eq_zero]
        simp [Complex.ext_iff]
        norm_num
      simp [classMean, centred, meanC, Complex.ext_iff, hc]
      norm_num)
  exact ⟨out, h1, by simpa using h2⟩

end Qampy
