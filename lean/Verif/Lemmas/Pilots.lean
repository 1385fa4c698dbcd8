import Verif.Model.Pilots
import Verif.Lemmas.Np
import Verif.Tactics

/-! Helper lemmas for masks and frames. -/

namespace Qampy

variable {α β : Type _}

theorem mapM_ok {f : α → Except PyErr β} {g : α → β} {l : List α} (h : ∀ x ∈ l, f x = .ok (g x)) :
    l.mapM f = .ok (l.map g) := by
  induction l with
  | nil => rfl
  | cons x l ih =>
    rw [List.mapM_cons, h x (by simp), ih (fun y hy => h y (by simp [hy]))]
    rfl

/-- The entries of `r` at the positions satisfying `P`, in order. -/
def samplesAt (r : List α) (P : Nat → Bool) : List α := ((List.range r.length).filter P).filterMap (r[·]?)

theorem samplesAt_cons (a : α) (r : List α) (P : Nat → Bool) :
    samplesAt (a :: r) P = (if P 0 then [a] else []) ++ samplesAt r (fun i => P (i + 1)) := by
  simp only [samplesAt, List.length_cons, List.range_succ_eq_map, List.filter_cons, List.filter_map]
  have : List.filterMap (fun x => (a :: r)[x]?) ((List.filter (P ∘ Nat.succ) (List.range r.length)).map Nat.succ)
      = List.filterMap (fun x => r[x]?) (List.filter (fun i => P (i + 1)) (List.range r.length)) := by
    rw [List.filterMap_map]
    rfl
  split <;> simp [this]

theorem select_eq_samplesAt (r : List α) (m : List Bool) (h : r.length = m.length) :
    Np.select r m = samplesAt r (fun i => m[i]? == some true) := by
  induction r generalizing m with
  | nil => cases m <;> rfl
  | cons a r ih =>
    cases m with
    | nil => simp at h
    | cons b m =>
      rw [samplesAt_cons]
      have := ih m (by simpa using h)
      cases b <;> simp [Np.select, this]

theorem samplesAt_congr (r : List α) (P Q : Nat → Bool) (h : ∀ i < r.length, P i = Q i) : samplesAt r P = samplesAt r Q := by
  unfold samplesAt
  congr 1
  apply List.filter_congr
  intro i hi
  exact h i (by simpa using hi)

theorem tile_succ (l : List α) (k : Nat) : Np.tile l (k + 1) = l ++ Np.tile l k := by
  simp [Np.tile, List.replicate_succ]

theorem tile_succ' (l : List α) (k : Nat) : Np.tile l (k + 1) = Np.tile l k ++ l := by
  simp [Np.tile, List.replicate_succ']

theorem tile_map (f : α → β) (l : List α) (k : Nat) : Np.tile (l.map f) k = (Np.tile l k).map f := by
  simp [Np.tile, List.map_flatten]

theorem countNonzero_tile (m : List Bool) (k : Nat) : Np.countNonzero (Np.tile m k) = k * Np.countNonzero m := by
  induction k with
  | zero => simp [Np.tile, Np.countNonzero]
  | succ k ih =>
    rw [tile_succ]
    simp only [Np.countNonzero, List.count_append] at *
    rw [ih]; ring

theorem select_tile (r : List α) (m : List Bool) (h : r.length = m.length) (k : Nat) :
    Np.select (Np.tile r k) (Np.tile m k) = Np.tile (Np.select r m) k := by
  induction k with
  | zero => simp [Np.tile, Np.select]
  | succ k ih => rw [tile_succ, tile_succ, tile_succ, Np.select_append _ _ _ _ h, ih]

theorem select_not (m : List Bool) : (m.map not).map not = m := by
  rw [List.map_map]
  simp [Function.comp_def]

theorem dataMask_range (idxDat : List Bool) (L n : Nat) (hn : 1 ≤ n) :
    dataMask idxDat L idxDat.length (List.range n) n = .ok (Np.tile idxDat n) := by
  rw [dataMask, if_neg (by omega)]
  have key : ∀ k ≤ n, (List.range k).foldlM (fun idx i => setSlice idx (i * idxDat.length) ((i + 1) * idxDat.length) idxDat)
      (List.replicate (idxDat.length * n) false)
      = (.ok (Np.tile idxDat k ++ List.replicate (idxDat.length * (n - k)) false) : Except PyErr _) := by
    intro k hk
    induction k with
    | zero => simp [Np.tile]; rfl
    | succ k ih =>
      rw [List.range_succ, List.foldlM_append, ih (by omega)]
      obtain ⟨c, hc⟩ : ∃ c, n - k = c + 1 := ⟨n - k - 1, by omega⟩
      have hc' : n - (k + 1) = c := by omega
      have hlen : (Np.tile idxDat k ++ List.replicate (idxDat.length * (c + 1)) false).length
          = k * idxDat.length + idxDat.length * c + idxDat.length := by simp; ring
      simp only [List.foldlM_cons, List.foldlM_nil, hc, hc', bind, Except.bind, pure, Except.pure]
      unfold setSlice
      simp only [hlen]
      have e1 : min (k * idxDat.length) (k * idxDat.length + idxDat.length * c + idxDat.length) = k * idxDat.length := by
        omega
      have e2 : min ((k + 1) * idxDat.length) (k * idxDat.length + idxDat.length * c + idxDat.length)
          = k * idxDat.length + idxDat.length := by
        have : (k + 1) * idxDat.length = k * idxDat.length + idxDat.length := by ring
        omega
      rw [e1, e2, if_pos (by omega)]
      rw [tile_succ', List.take_append_of_le_length (by simp), List.take_of_length_le (by simp)]
      rw [List.drop_append, List.drop_of_length_le (by simp)]
      simp only [Np.length_tile, List.nil_append, Nat.add_sub_cancel_left, List.drop_replicate]
      rw [show idxDat.length * (c + 1) - idxDat.length = idxDat.length * c by rw [Nat.mul_add]; omega]
  rw [key n le_rfl]
  simp

theorem mapM_boolIndex (rows : List (List α)) (m : List Bool) (h : ∀ r ∈ rows, r.length = m.length) :
    rows.mapM (boolIndex m) = .ok (rows.map fun r => Np.select r m) :=
  mapM_ok fun r hr => by rw [boolIndex, if_pos (h r hr)]

theorem nonzero_cons (b : Bool) (m : List Bool) :
    nonzero (b :: m) = (if b then [0] else []) ++ (nonzero m).map (· + 1) := by
  simp only [nonzero, List.length_cons, List.range_succ_eq_map, List.filter_cons, List.filter_map]
  cases b <;> simp [Function.comp_def]

theorem fancyIndex_map {idx : List Nat} {row : List α} {v : List α} (h : idx.map (row[·]?) = v.map some) :
    fancyIndex idx row = .ok v := by
  induction idx generalizing v with
  | nil =>
    have : v = [] := by simpa using h.symm
    subst this; rfl
  | cons i idx ih =>
    cases v with
    | nil => simp at h
    | cons x v =>
      simp only [List.map_cons, List.cons.injEq] at h
      have := ih h.2
      rw [fancyIndex] at this
      rw [fancyIndex, List.mapM_cons, this, h.1]
      rfl

theorem nonzero_select (row : List α) (m : List Bool) (h : row.length = m.length) :
    (nonzero m).map (row[·]?) = (Np.select row m).map some := by
  induction row generalizing m with
  | nil =>
    have : m = [] := List.length_eq_zero_iff.1 (by simpa using h.symm)
    subst this; rfl
  | cons a row ih =>
    cases m with
    | nil => simp at h
    | cons b m =>
      rw [nonzero_cons]
      have := ih m (by simpa using h)
      cases b
      · simp only [Bool.false_eq_true, if_false, List.nil_append, List.map_map, Np.select]
        rw [← this]; rfl
      · simp only [if_true, List.singleton_append, List.map_cons, List.map_map, Np.select]
        rw [← this]; rfl

theorem nonzero_lt (m : List Bool) {j : Nat} (h : j ∈ nonzero m) : j < m.length := by
  simp only [nonzero, List.mem_filter, List.mem_range] at h
  exact h.1

theorem fancyIndex_frames (row : List α) (m : List Bool) (n : Nat) (h : row.length = n * m.length) (fs : List Nat)
    (hfs : ∀ f ∈ fs, f < n) :
    fancyIndex (fs.flatMap fun i => (nonzero m).map fun j => j + i * m.length) row
      = .ok (fs.flatMap fun f => Np.select ((row.drop (f * m.length)).take m.length) m) := by
  apply fancyIndex_map
  rw [List.map_flatMap, List.map_flatMap]
  apply List.flatMap_congr
  intro f hf
  have hlt := hfs f hf
  have hle : (f + 1) * m.length ≤ row.length := by
    rw [h]; exact Nat.mul_le_mul_right _ hlt
  have hlen : ((row.drop (f * m.length)).take m.length).length = m.length := by
    rw [List.length_take, List.length_drop]
    rw [Nat.add_mul] at hle
    omega
  rw [← nonzero_select _ _ hlen, List.map_map]
  apply List.map_congr_left
  intro j hj
  have := nonzero_lt m hj
  rw [Function.comp_apply, List.getElem?_take_of_lt this, List.getElem?_drop, Nat.add_comm]

theorem tile_frame (r : List α) (n f : Nat) (h : f < n) :
    ((Np.tile r n).drop (f * r.length)).take r.length = r := by
  induction f generalizing n with
  | zero =>
    obtain ⟨n, rfl⟩ : ∃ k, n = k + 1 := ⟨n - 1, by omega⟩
    rw [tile_succ]; simp
  | succ f ih =>
    obtain ⟨n, rfl⟩ : ∃ k, n = k + 1 := ⟨n - 1, by omega⟩
    rw [tile_succ, List.drop_append, List.drop_of_length_le (by rw [Nat.add_mul]; omega), List.nil_append,
      show (f + 1) * r.length - r.length = f * r.length by rw [Nat.add_mul]; omega]
    exact ih n (by omega)

end Qampy
