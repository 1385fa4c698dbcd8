import Verif.Lemmas.Phase
import Verif.Props.Segment
import Verif.Model.Constellation
import Mathlib.RingTheory.RootsOfUnity.Complex

/-!
# Phase recovery: blind phase search (C33, C34, C35, C85), Viterbi-Viterbi (C86)
-/

namespace Qampy

open Complex (I)

/-! ## C33: compiled and reference search -/

/-- `d` is the smallest squared distance of `z` from an element of `symbols`. -/
def IsNearestSq (symbols : List ℂ) (z : ℂ) (d : ℝ) : Prop :=
  (∀ s ∈ symbols, d ≤ ‖z - s‖ ^ 2) ∧ ∃ s ∈ symbols, d = ‖z - s‖ ^ 2

/-- Test angle `k` of sample `i`: one row for all samples, or one row per sample. -/
def angleAt (angles : List (List ℝ)) (i k : Nat) : ℝ := (angles.getD (if angles.length = 1 then 0 else i) []).getD k 0

/-- Sum of the distances for test angle `k` over the window of `2N` samples around `t`. -/
def windowCost (D : Nat → Nat → ℝ) (N t k : Nat) : ℝ := ∑ j ∈ Finset.Ioc (t - N) (t + N), D j k

/-- What the blind phase search has to return: at every position that has a complete window the first of the angles with the smallest
windowed distance, zero elsewhere. -/
def BpsSpec (D : Nat → Nat → ℝ) (L M N : Nat) (idx : List Nat) : Prop :=
  idx.length = L ∧ ∀ t, t < L → ∃ k, idx[t]? = some k ∧
    ((N ≤ t ∧ t + N < L) → k < M ∧ (∀ k', k' < M → windowCost D N t k ≤ windowCost D N t k') ∧
      ∀ k', k' < k → windowCost D N t k < windowCost D N t k') ∧
    (¬ (N ≤ t ∧ t + N < L) → k = 0)

theorem BpsSpec.unique {D : Nat → Nat → ℝ} {L M N : Nat} {a b : List Nat} (ha : BpsSpec D L M N a) (hb : BpsSpec D L M N b) :
    a = b := by
  apply List.ext_getElem?
  intro t
  by_cases ht : t < L
  · obtain ⟨k, h1, h2, h3⟩ := ha.2 t ht
    obtain ⟨k', g1, g2, g3⟩ := hb.2 t ht
    rw [h1, g1]
    by_cases hw : N ≤ t ∧ t + N < L
    · obtain ⟨p1, p2, p3⟩ := h2 hw
      obtain ⟨q1, q2, q3⟩ := g2 hw
      rcases lt_trichotomy k k' with h | h | h
      · exact absurd (q3 k h) (not_lt.2 (p2 k' q1))
      · rw [h]
      · exact absurd (p3 k' h) (not_lt.2 (q2 k p1))
    · rw [h3 hw, g3 hw]
  · rw [List.getElem?_eq_none (by rw [ha.1]; omega), List.getElem?_eq_none (by rw [hb.1]; omega)]

/-- The matrix of capped distances. -/
theorem bpsDists_spec (E : List ℂ) (angles : List (List ℝ)) (symbols : List ℂ) (M : Nat)
    (hrows : ∀ r ∈ angles, r.length = M) (hlen : angles.length = 1 ∨ angles.length = E.length) :
    ∃ d, bpsDists E angles symbols = some d ∧ d.length = E.length ∧ (∀ r ∈ d, r.length = M) ∧
      ∀ i k, i < E.length → k < M → mval d i k =
        min 100 (detDist (E.getD i 0 * Complex.exp (I * (angleAt angles i k : ℝ))) symbols) := by
  have hrow : ∀ i, i < E.length → ∃ row, angles[if 1 < angles.length then i else 0]? = some row ∧ row.length = M ∧
      ∀ k, row.getD k 0 = angleAt angles i k := by
    intro i hi
    have hlt : (if 1 < angles.length then i else 0) < angles.length := by
      split_ifs with h <;> omega
    refine ⟨_, List.getElem?_eq_getElem hlt, hrows _ (List.getElem_mem hlt), ?_⟩
    intro k
    unfold angleAt
    have : (if angles.length = 1 then 0 else i) = (if 1 < angles.length then i else 0) := by
      split_ifs <;> omega
    rw [this]
    congr 1
    simp [List.getD, List.getElem?_eq_getElem hlt]
  let f : Nat → List ℝ := fun i => (List.range M).map fun k =>
    min 100 (detDist (E.getD i 0 * Complex.exp (I * (angleAt angles i k : ℝ))) symbols)
  have hm : bpsDists E angles symbols = some ((List.range E.length).map f) := by
    unfold bpsDists
    refine mapM_range_some _ f _ fun i hi => ?_
    obtain ⟨row, h1, h2, h3⟩ := hrow i hi
    simp only [List.getElem?_eq_getElem hi, Option.bind_eq_bind, Option.bind_some, h1,
      Option.some.injEq, f]
    conv_lhs => rw [row_eq_map row M h2]
    rw [List.map_map]
    refine List.map_congr_left fun k _ => ?_
    simp only [Function.comp, h3]
    rw [show E.getD i 0 = E[i] by simp [List.getD, List.getElem?_eq_getElem hi], min_def]
    split_ifs <;> first | rfl | linarith
  refine ⟨_, hm, by simp, ?_, ?_⟩
  · intro r hr
    obtain ⟨i, _, rfl⟩ := List.mem_map.1 hr
    simp [f]
  · intro i k hi hk
    simp [mval, f, List.getD, List.getElem?_map, List.getElem?_range hi, List.getElem?_range hk]

theorem bpsIdx_spec (E : List ℂ) (angles : List (List ℝ)) (symbols : List ℂ) (N M : Nat) (hN : 1 ≤ N)
    (hrows : ∀ r ∈ angles, r.length = M) (hlen : angles.length = 1 ∨ angles.length = E.length)
    (D : Nat → Nat → ℝ)
    (hD : ∀ i k, i < E.length → k < M → D i k =
      min 100 (detDist (E.getD i 0 * Complex.exp (I * (angleAt angles i k : ℝ))) symbols))
    (h1000 : ∀ t, N ≤ t → t + N < E.length → ∃ k, k < M ∧ windowCost D N t k < 1000) :
    ∃ idx, bpsIdx E angles symbols N = some idx ∧ BpsSpec D E.length M N idx := by
  obtain ⟨d, h1, h2, h3, h4⟩ := bpsDists_spec E angles symbols M hrows hlen
  obtain ⟨idx, g1, g2, g3⟩ := selectAngleIndex_spec d M (2 * N) h3
  refine ⟨idx, ?_, by rw [g2, h2], ?_⟩
  · unfold bpsIdx
    rw [h1]
    exact g1
  · intro t ht
    have hcost : ∀ k, k < M → N ≤ t → t + N < E.length → winCost d (2 * N) (t + N) k = windowCost D N t k := by
      intro k hk hNt htN
      unfold winCost windowCost
      rw [show t + N - 2 * N = t - N by omega]
      refine Finset.sum_congr rfl fun j hj => ?_
      rw [Finset.mem_Ioc] at hj
      rw [h4 j k (by omega) hk, hD j k (by omega) hk]
    have hidx := g3 t (by rw [h2]; exact ht)
    rw [show 2 * N / 2 = N by omega, h2] at hidx
    refine ⟨_, hidx, ?_, ?_⟩
    · rintro ⟨hNt, htN⟩
      rw [if_pos (by omega)]
      obtain ⟨k0, hk0, hlt⟩ := h1000 t hNt htN
      obtain ⟨j, hj, hs⟩ := scanBest_eq_argmin ((List.range M).map (winCost d (2 * N) (t + N))) 1000 0 0
        ⟨_, List.mem_map.2 ⟨k0, List.mem_range.2 hk0, rfl⟩, by rw [hcost k0 hk0 hNt htN]; exact hlt⟩
      rw [hs, zero_add]
      obtain ⟨hjl, p1, p2⟩ := (argmin_map_range _ _ _).1 hj
      refine ⟨hjl, ?_, ?_⟩
      · intro k hk
        rw [← hcost j hjl hNt htN, ← hcost k hk hNt htN]
        exact p1 k hk
      · intro k hk
        rw [← hcost j hjl hNt htN, ← hcost k (by omega) hNt htN]
        exact p2 k hk
    · intro h
      rw [if_neg (by omega)]

theorem detDist_eq (symbols : List ℂ) (z : ℂ) (d : ℝ) (h : IsNearestSq symbols z d) (hd : d ≤ 1000) :
    detDist z symbols = d := by
  obtain ⟨h1, h2, h3⟩ := detDist_go z symbols 1000
  obtain ⟨g1, s, hs, g2⟩ := h
  refine le_antisymm ?_ ?_
  · rw [g2]; exact h2 s hs
  · unfold detDist
    rcases h3 with h3 | ⟨c, hc, h3⟩
    · rw [h3]; exact hd
    · rw [h3]; exact g1 c hc

/-- The compiled search returns, at every position with a complete window, the first test angle with the smallest sum of squared
distances over the window, provided that no distance exceeds the built-in start value 100 and that the best sum stays below the built-in
start value 1000. -/
theorem C33_compiled (E : List ℂ) (angles : List (List ℝ)) (symbols : List ℂ) (N M : Nat) (hN : 1 ≤ N)
    (hrows : ∀ r ∈ angles, r.length = M) (hlen : angles.length = 1 ∨ angles.length = E.length)
    (D : Nat → Nat → ℝ)
    (hD : ∀ i k, i < E.length → k < M →
      IsNearestSq symbols (E.getD i 0 * Complex.exp (I * (angleAt angles i k : ℝ))) (D i k))
    (h100 : ∀ i k, i < E.length → k < M → D i k ≤ 100)
    (h1000 : ∀ t, N ≤ t → t + N < E.length → ∃ k, k < M ∧ windowCost D N t k < 1000) :
    ∃ idx, bpsIdx E angles symbols N = some idx ∧ BpsSpec D E.length M N idx := by
  refine bpsIdx_spec E angles symbols N M hN hrows hlen D ?_ h1000
  intro i k hi hk
  rw [detDist_eq symbols _ _ (hD i k hi hk) (by linarith [h100 i k hi hk]), min_eq_right (h100 i k hi hk)]

theorem listMin_eq (l : List ℝ) (d : ℝ) (h1 : ∀ x ∈ l, d ≤ x) (h2 : d ∈ l) : listMin l = some d := by
  unfold listMin
  rw [List.min?_eq_some_iff]
  exact ⟨h2, h1⟩

theorem cumsumRows_spec (M : Nat) (x : List (List ℝ)) (hM : ∀ r ∈ x, r.length = M) (acc : Nat → ℝ) :
    (cumsumRows ((List.range M).map acc) x).length = x.length ∧ ∀ r, r < x.length →
      (cumsumRows ((List.range M).map acc) x)[r]? =
        some ((List.range M).map fun k => acc k + ∑ j ∈ Finset.range (r + 1), mval x j k) := by
  induction x generalizing acc with
  | nil => simp [cumsumRows]
  | cons a x ih =>
    have ha : List.zipWith (· + ·) ((List.range M).map acc) a = (List.range M).map fun k => acc k + a.getD k 0 := by
      conv_lhs => rw [row_eq_map a M (hM a (by simp))]
      rw [zipWith_map_range]
    obtain ⟨h1, h2⟩ := ih (fun r hr => hM r (by simp [hr])) (fun k => acc k + a.getD k 0)
    refine ⟨by simp only [cumsumRows, ha, List.length_cons, h1], ?_⟩
    intro r hr
    cases r with
    | zero =>
      simp only [cumsumRows, ha, List.getElem?_cons_zero, mval, zero_add, Finset.sum_range_one, List.getD_cons_zero]
    | succ r =>
      simp only [cumsumRows, ha, List.getElem?_cons_succ]
      rw [h2 r (by simpa using hr)]
      congr 1
      refine List.map_congr_left fun k _ => ?_
      rw [Finset.sum_range_succ' _ (r + 1)]
      simp only [mval, List.getD_cons_succ, List.getD_cons_zero]
      ring

/-- The Python version returns, without any bound on the distances, the first test angle with the smallest sum of squared distances. -/
theorem C33_reference (E : List ℂ) (angles : List ℝ) (symbols : List ℂ) (N : Nat) (hN : 1 ≤ N) (ha : angles ≠ [])
    (D : Nat → Nat → ℝ)
    (hD : ∀ i k, i < E.length → k < angles.length →
      IsNearestSq symbols (E.getD i 0 * Complex.exp (I * (angleAt [angles] i k : ℝ))) (D i k)) :
    ∃ idx, bpsIdxPy E angles symbols N = .ok idx ∧ BpsSpec D E.length angles.length N idx := by
  have hang : ∀ i k, angleAt [angles] i k = angles.getD k 0 := by intro i k; simp [angleAt]
  have hd : E.mapM (fun e => angles.mapM fun φ : ℝ => listMin (symbols.map fun s => ‖e * Complex.exp (I * (φ : ℂ)) - s‖ ^ 2)) =
      some ((List.range E.length).map fun i => (List.range angles.length).map fun k => D i k) := by
    rw [mapM_eq_some_iff]
    apply List.ext_getElem
    · simp
    intro i h1 h2
    simp only [List.length_map, List.length_range] at h1 h2
    simp only [List.getElem_map, List.getElem_range]
    rw [mapM_eq_some_iff]
    apply List.ext_getElem
    · simp
    intro k h3 h4
    simp only [List.length_map, List.length_range] at h3 h4
    simp only [List.getElem_map, List.getElem_range]
    have h := hD i k h1 h3
    rw [hang, show E.getD i 0 = E[i] by simp [List.getD, List.getElem?_eq_getElem h1],
      show angles.getD k 0 = angles[k] by simp [List.getD, List.getElem?_eq_getElem h3]] at h
    obtain ⟨g1, s, hs, g2⟩ := h
    refine listMin_eq _ _ ?_ ?_
    · intro x hx
      obtain ⟨s, hs, rfl⟩ := List.mem_map.1 hx
      exact g1 s hs
    · exact List.mem_map.2 ⟨s, hs, g2.symm⟩
  have hMpos : 0 < angles.length := List.length_pos_iff.2 ha
  set M := angles.length with hMdef
  set dist := (List.range E.length).map fun i => (List.range M).map fun k => D i k with hdist
  have hdl : dist.length = E.length := by simp [hdist]
  have hdM : ∀ r ∈ dist, r.length = M := by
    intro r hr
    obtain ⟨i, _, rfl⟩ := List.mem_map.1 hr
    simp
  have hval : ∀ j k, j < E.length → k < M → mval dist j k = D j k := by
    intro j k hj hk
    simp [mval, hdist, List.getD, List.getElem?_range hj, List.getElem?_range hk]
  obtain ⟨c1, c2⟩ := cumsumRows_spec M dist hdM (fun _ => 0)
  have hz : List.replicate M (0 : ℝ) = (List.range M).map fun _ => 0 := by simp [List.map_const']
  have hmvg : ∀ csum, csum = cumsumRows (List.replicate M 0) dist →
      List.zipWith (List.zipWith (· - ·)) (csum.drop (2 * N)) (csum.take (csum.length - 2 * N)) =
      (List.range (E.length - 2 * N)).map fun t => (List.range M).map fun k => windowCost D N (t + N) k := by
    rintro _ rfl
    rw [hz]
    apply List.ext_getElem?
    intro t
    by_cases ht : t < E.length - 2 * N
    · rw [List.getElem?_zipWith, List.getElem?_drop, List.getElem?_take_of_lt (by rw [c1, hdl]; exact ht),
        c2 _ (by omega), c2 _ (by omega)]
      simp only [List.getElem?_map, List.getElem?_range ht, Option.map_some, Option.some.injEq]
      rw [zipWith_map_range]
      refine List.map_congr_left fun k hk => ?_
      have hk := List.mem_range.1 hk
      unfold windowCost
      rw [show t + N - N = t by omega, show t + N + N = 2 * N + t by omega, zero_add, zero_add]
      rw [← Finset.sum_sdiff_eq_sub (by intro x; simp; omega)]
      refine Finset.sum_congr ?_ ?_
      · ext x; simp; omega
      · intro j hj
        rw [Finset.mem_Ioc] at hj
        exact hval j k (by omega) hk
    · rw [List.getElem?_eq_none, List.getElem?_eq_none]
      · simp only [List.length_map, List.length_range]; omega
      · simp only [List.length_zipWith, List.length_drop, List.length_take, c1, hdl]; omega
  have harg : ∀ t, ∃ j, Np.argmin ((List.range M).map fun k => windowCost D N (t + N) k) = some j :=
    fun t => Np.argmin_isSome (by simp; omega)
  choose g hg using harg
  have hargs : ((List.range (E.length - 2 * N)).map fun t => (List.range M).map fun k => windowCost D N (t + N) k).mapM Np.argmin =
      some ((List.range (E.length - 2 * N)).map g) := by
    rw [mapM_eq_some_iff, List.map_map, List.map_map]
    exact List.map_congr_left fun t _ => hg t
  unfold bpsIdxPy
  rw [hd]
  simp only [if_neg (by omega : ¬ N = 0), ← hMdef, hmvg _ rfl, hargs]
  refine ⟨_, rfl, ?_, ?_⟩
  · split_ifs with h
    · simp
    · simp; omega
  · intro t ht
    by_cases hL : E.length ≤ 2 * N
    · rw [if_pos hL]
      exact ⟨0, by simp [ht], fun h => by omega, fun _ => rfl⟩
    · rw [if_neg hL]
      by_cases h1 : t < N
      · refine ⟨0, ?_, fun h => by omega, fun _ => rfl⟩
        rw [List.append_assoc, List.getElem?_append_left (by simpa using h1)]
        simp [h1]
      · by_cases h2 : t + N < E.length
        · refine ⟨g (t - N), ?_, fun _ => ?_, fun h => by omega⟩
          · rw [List.append_assoc, List.getElem?_append_right (by simpa using (by omega : N ≤ t)),
              List.getElem?_append_left (by simp; omega)]
            simp [List.getElem?_range (by omega : t - N < E.length - 2 * N)]
          · have := hg (t - N)
            rw [show t - N + N = t by omega] at this
            exact (argmin_map_range _ _ _).1 this
        · refine ⟨0, ?_, fun h => by omega, fun _ => rfl⟩
          rw [List.getElem?_append_right (by simp; omega), List.getElem?_replicate, if_pos (by simp; omega)]

/-- Compiled and Python version agree under the bounds of `C33_compiled`. -/
theorem C33_agree_partial (E : List ℂ) (angles : List ℝ) (symbols : List ℂ) (N : Nat) (hN : 1 ≤ N) (ha : angles ≠ [])
    (D : Nat → Nat → ℝ)
    (hD : ∀ i k, i < E.length → k < angles.length →
      IsNearestSq symbols (E.getD i 0 * Complex.exp (I * (angleAt [angles] i k : ℝ))) (D i k))
    (h100 : ∀ i k, i < E.length → k < angles.length → D i k ≤ 100)
    (h1000 : ∀ t, N ≤ t → t + N < E.length → ∃ k, k < angles.length ∧ windowCost D N t k < 1000) :
    ∃ idx, bpsIdx E [angles] symbols N = some idx ∧ bpsIdxPy E angles symbols N = .ok idx := by
  obtain ⟨a, ha1, ha2⟩ := C33_compiled E [angles] symbols N angles.length hN (by simp) (Or.inl rfl) D hD h100 h1000
  obtain ⟨b, hb1, hb2⟩ := C33_reference E angles symbols N hN ha D hD
  exact ⟨a, ha1, by rw [hb1, ha2.unique hb2]⟩

theorem bpsIdx_false_ref : IsNearestSq [40] (20 * Complex.exp (I * ((Real.pi : ℝ) : ℂ))) 3600 ∧
    IsNearestSq [40] (20 * Complex.exp (I * ((0 : ℝ) : ℂ))) 400 := by
  have e1 : Complex.exp (I * ((Real.pi : ℝ) : ℂ)) = -1 := by rw [mul_comm]; exact Complex.exp_pi_mul_I
  constructor
  · rw [e1]
    have : ‖(20 * -1 - 40 : ℂ)‖ ^ 2 = 3600 := by
      rw [← Complex.normSq_eq_norm_sq, Complex.normSq_apply]; norm_num
    exact ⟨by intro s hs; simp only [List.mem_singleton] at hs; rw [hs, this], 40, by simp, this.symm⟩
  · have : ‖(20 * Complex.exp (I * ((0 : ℝ) : ℂ)) - 40 : ℂ)‖ ^ 2 = 400 := by
      rw [← Complex.normSq_eq_norm_sq, Complex.normSq_apply]; norm_num
    exact ⟨by intro s hs; simp only [List.mem_singleton] at hs; rw [hs, this], 40, by simp, this.symm⟩

/-- C33 as stated: whenever the Python version returns a result the compiled version returns the same. -/
def C33_statement : Prop := ∀ (E : List ℂ) (angles : List ℝ) (symbols : List ℂ) (N : Nat) (idx : List Nat), 1 ≤ N → angles ≠ [] →
  symbols ≠ [] → bpsIdxPy E angles symbols N = .ok idx → bpsIdx E [angles] symbols N = some idx

/-- Distances above the start value 100 of the compiled code are all treated as equal: with the single symbol 40 and samples 20 the
better test angle is not found. -/
theorem C33_false : ¬ C33_statement := by
  intro h
  obtain ⟨r1, r2⟩ := bpsIdx_false_ref
  have hang : ∀ i k, angleAt [[Real.pi, 0]] i k = if k = 0 then Real.pi else 0 := by
    intro i k
    rcases k with _ | _ | k <;> simp [angleAt]
  have hE : ∀ i, i < 3 → ([20, 20, 20] : List ℂ).getD i 0 = 20 := by
    intro i hi
    interval_cases i <;> rfl
  have hD : ∀ i k, i < ([20, 20, 20] : List ℂ).length → k < [Real.pi, 0].length → IsNearestSq [40]
      (([20, 20, 20] : List ℂ).getD i 0 * Complex.exp (I * (angleAt [[Real.pi, 0]] i k : ℝ)))
      ((fun _ k => if k = 0 then 3600 else 400 : Nat → Nat → ℝ) i k) := by
    intro i k hi hk
    rw [hE i (by simpa using hi), hang]
    simp only [List.length_cons, List.length_nil] at hk
    interval_cases k
    · simpa using r1
    · simpa using r2
  obtain ⟨a, ha, hsa⟩ := C33_reference [20, 20, 20] [Real.pi, 0] [40] 1 le_rfl (by simp) _ hD
  have hb := h _ _ _ _ _ le_rfl (by simp) (by simp) ha
  obtain ⟨b, hb1, hsb⟩ := bpsIdx_spec [20, 20, 20] [[Real.pi, 0]] [40] 1 2 le_rfl (by simp) (Or.inl rfl) (fun _ _ => 100) (by
    intro i k hi hk
    rw [hE i (by simpa using hi), hang]
    interval_cases k
    · rw [if_pos rfl, min_eq_left]
      obtain ⟨_, _, h3⟩ := detDist_go (20 * Complex.exp (I * ((Real.pi : ℝ) : ℂ))) [40] 1000
      unfold detDist
      rcases h3 with h3 | ⟨s, hs, h3⟩
      · rw [h3]; norm_num
      · rw [h3]; have := r1.1 s hs; linarith
    · rw [if_neg (by norm_num), min_eq_left]
      obtain ⟨_, _, h3⟩ := detDist_go (20 * Complex.exp (I * ((0 : ℝ) : ℂ))) [40] 1000
      unfold detDist
      rcases h3 with h3 | ⟨s, hs, h3⟩
      · rw [h3]; norm_num
      · rw [h3]; have := r2.1 s hs; linarith)
    (by
      intro t h1 h2
      simp only [List.length_cons, List.length_nil] at h2
      obtain rfl : t = 1 := by omega
      exact ⟨0, by norm_num, by simp [windowCost]; norm_num⟩)
  rw [hb] at hb1
  obtain rfl := Option.some.inj hb1
  obtain ⟨k, g1, g2, _⟩ := hsa.2 1 (by simp)
  obtain ⟨k', f1, f2, _⟩ := hsb.2 1 (by simp)
  rw [g1] at f1
  obtain rfl := Option.some.inj f1
  obtain ⟨p1, p2, p3⟩ := g2 (by simp)
  obtain ⟨q1, q2, q3⟩ := f2 (by simp)
  have hk : k = 0 := by
    by_contra h0
    have := q3 0 (by omega)
    simp [windowCost] at this
  subst hk
  have := p2 1 (by simp)
  simp [windowCost] at this
  norm_num at this

/-- The hypotheses of `C33_agree_partial` are met: three samples `1`, symbols `1` and `-1`, test angles `π/2` and `0`. -/
example : ∃ idx, bpsIdx [1, 1, 1] [[Real.pi / 2, 0]] [1, -1] 1 = some idx ∧
    bpsIdxPy [1, 1, 1] [Real.pi / 2, 0] [1, -1] 1 = .ok idx := by
  have e1 : Complex.exp (I * ((Real.pi / 2 : ℝ) : ℂ)) = I := by
    rw [mul_comm]; push_cast; exact Complex.exp_pi_div_two_mul_I
  have n1 : ‖(I - 1 : ℂ)‖ ^ 2 = 2 := by
    rw [← Complex.normSq_eq_norm_sq, Complex.normSq_apply]; norm_num
  have n2 : ‖(I - -1 : ℂ)‖ ^ 2 = 2 := by
    rw [← Complex.normSq_eq_norm_sq, Complex.normSq_apply]; norm_num
  refine C33_agree_partial _ _ _ 1 le_rfl (by simp) (fun _ k => if k = 0 then 2 else 0) ?_ ?_ ?_
  · intro i k hi hk
    simp only [List.length_cons, List.length_nil] at hi hk
    have hE : ([1, 1, 1] : List ℂ).getD i 0 = 1 := by interval_cases i <;> rfl
    rw [hE, one_mul]
    interval_cases k
    · have : angleAt [[Real.pi / 2, 0]] i 0 = Real.pi / 2 := by simp [angleAt]
      rw [this, e1]
      refine ⟨?_, 1, by simp, by simp [n1]⟩
      intro s hs
      rcases List.mem_pair.1 hs with rfl | rfl
      · simp [n1]
      · simp only [if_true, n2]; exact le_rfl
    · have : angleAt [[Real.pi / 2, 0]] i 1 = 0 := by simp [angleAt]
      rw [this]
      refine ⟨?_, 1, by simp, by simp⟩
      intro s hs
      simp
  · intro i k _ _
    split_ifs <;> norm_num
  · intro t _ _
    exact ⟨1, by simp, by simp [windowCost]⟩

/-! ## C34: noiseless rotation -/

theorem exp_quarter (x : ℝ) (k : ℤ) :
    Complex.exp (I * ((x + Real.pi / 2 * k : ℝ) : ℂ)) = I ^ k * Complex.exp (I * (x : ℂ)) := by
  have : Complex.exp (Real.pi / 2 * I) = I := Complex.exp_pi_div_two_mul_I
  rw [← this, ← Complex.exp_int_mul, ← Complex.exp_add, this]
  congr 1
  push_cast
  ring

theorem unwrap4_mul (ph : List ℝ) (i : Nat) (x : ℝ) (hx : ph[i]? = some x) :
    ∃ k : ℤ, (unwrap4 ph)[i]? = some (x + Real.pi / 2 * k) := by
  obtain ⟨k, hk⟩ := unwrap_mul (ph.map (· * 4)) i (x * 4) (by simp [hx])
  refine ⟨k, ?_⟩
  simp only [unwrap4, List.getElem?_map, hk, Option.map_some, Option.some.injEq]
  ring

@[simp] theorem length_unwrap4 (ph : List ℝ) : (unwrap4 ph).length = ph.length := by simp [unwrap4]

@[simp] theorem length_unwrapInner (ph : List ℝ) (N : Nat) : (unwrapInner ph N).length = ph.length := by
  unfold unwrapInner
  split_ifs with h
  · rfl
  · simp; omega

theorem unwrapInner_mul (ph : List ℝ) (N i : Nat) (x : ℝ) (hx : ph[i]? = some x) :
    ∃ k : ℤ, (unwrapInner ph N)[i]? = some (x + Real.pi / 2 * k) := by
  have hi : i < ph.length := by
    by_contra h
    rw [List.getElem?_eq_none (by omega)] at hx
    simp at hx
  unfold unwrapInner
  split_ifs with h
  · exact ⟨0, by simpa using hx⟩
  · push Not at h
    by_cases h1 : i < N
    · refine ⟨0, ?_⟩
      rw [List.append_assoc, List.getElem?_append_left (by simp; omega), List.getElem?_take_of_lt h1, hx]
      simp
    · by_cases h2 : i < ph.length - N
      · obtain ⟨k, hk⟩ := unwrap4_mul ((ph.drop N).take (ph.length - 2 * N)) (i - N) x (by
          rw [List.getElem?_take_of_lt (by omega), List.getElem?_drop, show N + (i - N) = i by omega, hx])
        refine ⟨k, ?_⟩
        rw [List.append_assoc, List.getElem?_append_right (by simp; omega), List.getElem?_append_left (by simp; omega)]
        rw [show i - (ph.take N).length = i - N by simp; omega]
        exact hk
      · refine ⟨0, ?_⟩
        rw [List.getElem?_append_right (by simp; omega), List.getElem?_drop]
        simp only [List.length_append, List.length_take, length_unwrap4, List.length_drop]
        rw [show ph.length - N + (i - (min N ph.length + min (ph.length - 2 * N) (ph.length - N))) = i by omega, hx]
        simp

theorem selectAngles_one (row : List ℝ) (idx : List Nat) (h : ∀ k ∈ idx, k < row.length) :
    selectAngles [row] idx = some (idx.map fun k => row.getD k 0) := by
  unfold selectAngles
  rw [if_neg (by simp), mapM_eq_some_iff, List.map_map]
  refine List.map_congr_left fun k hk => ?_
  simp [List.getElem?_eq_getElem (h k hk)]

theorem detDist_zero {z : ℂ} {symbols : List ℂ} (h : detDist z symbols = 0) : z ∈ symbols := by
  obtain ⟨_, _, h3⟩ := detDist_go z symbols 1000
  unfold detDist at h
  rcases h3 with h3 | ⟨s, hs, h3⟩
  · rw [h] at h3; norm_num at h3
  · rw [h] at h3
    have : ‖z - s‖ = 0 := by nlinarith [norm_nonneg (z - s)]
    rw [norm_eq_zero, sub_eq_zero] at this
    rwa [this]

theorem detDist_nonneg (z : ℂ) (symbols : List ℂ) : 0 ≤ detDist z symbols := by
  obtain ⟨_, _, h3⟩ := detDist_go z symbols 1000
  unfold detDist
  rcases h3 with h3 | ⟨s, _, h3⟩ <;> rw [h3]
  · norm_num
  · positivity

theorem detDist_mem {z : ℂ} {symbols : List ℂ} (h : z ∈ symbols) : detDist z symbols = 0 := by
  obtain ⟨_, h2, _⟩ := detDist_go z symbols 1000
  refine le_antisymm ?_ (detDist_nonneg _ _)
  have := h2 z h
  unfold detDist
  simpa using this

@[simp] theorem length_testAngles (M : Nat) : (testAngles M).length = M := by simp [testAngles]

theorem getElem?_rotateBy {E : List ℂ} {ph : List ℝ} {i : Nat} {e : ℂ} {p : ℝ} (h1 : E[i]? = some e) (h2 : ph[i]? = some p) :
    (rotateBy E ph)[i]? = some (e * Complex.exp (I * (p : ℂ))) := by
  simp [rotateBy, List.getElem?_zipWith, h1, h2]

/-- If a constant-index set of angles reaches zero cost in a window, the chosen angle has zero cost too: all samples of the window are
symbols after rotation by it. -/
theorem bpsIdx_noiseless (E : List ℂ) (angles : List (List ℝ)) (symbols : List ℂ) (N M : Nat) (hN : 1 ≤ N) (hM : 1 ≤ M)
    (hrows : ∀ r ∈ angles, r.length = M) (hlen : angles.length = 1 ∨ angles.length = E.length) :
    ∃ idx, bpsIdx E angles symbols N = some idx ∧ idx.length = E.length ∧ (∀ k ∈ idx, k < M) ∧
      (∀ t, t < E.length → ¬ (N ≤ t ∧ t + N < E.length) → idx[t]? = some 0) ∧
      ∀ t m, N ≤ t → t + N < E.length → m < M →
        (∀ j ∈ Finset.Ioc (t - N) (t + N), E.getD j 0 * Complex.exp (I * (angleAt angles j m : ℝ)) ∈ symbols) →
        ∃ k, idx[t]? = some k ∧ k < M ∧
          ∀ j ∈ Finset.Ioc (t - N) (t + N), E.getD j 0 * Complex.exp (I * (angleAt angles j k : ℝ)) ∈ symbols := by
  obtain ⟨d, h1, h2, h3, h4⟩ := bpsDists_spec E angles symbols M hrows hlen
  obtain ⟨idx, g1, g2, g3⟩ := selectAngleIndex_spec d M (2 * N) h3
  rw [h2] at g2 g3
  rw [show 2 * N / 2 = N by omega] at g3
  refine ⟨idx, by unfold bpsIdx; rw [h1]; exact g1, g2, ?_, ?_, ?_⟩
  · intro k hk
    obtain ⟨t, ht, rfl⟩ := List.mem_iff_getElem.1 hk
    have := g3 t (by omega)
    rw [List.getElem?_eq_getElem ht] at this
    rw [Option.some.inj this]
    split_ifs
    · have := scanBest_lt ((List.range M).map (winCost d (2 * N) (t + N))) 0 0 1000 (by simp; omega)
      simpa using this
    · omega
  · intro t ht hno
    rw [g3 t ht, if_neg (by omega)]
  · intro t m hNt htN hm hzero
    have hidx := g3 t (by omega)
    rw [if_pos (by omega)] at hidx
    have hc0 : winCost d (2 * N) (t + N) m = 0 := by
      unfold winCost
      rw [show t + N - 2 * N = t - N by omega]
      refine Finset.sum_eq_zero fun j hj => ?_
      have hj' := Finset.mem_Ioc.1 hj
      rw [h4 j m (by omega) hm, detDist_mem (hzero j hj)]
      norm_num
    obtain ⟨j, hj, hs⟩ := scanBest_eq_argmin ((List.range M).map (winCost d (2 * N) (t + N))) 1000 0 0
      ⟨_, List.mem_map.2 ⟨m, List.mem_range.2 hm, rfl⟩, by rw [hc0]; norm_num⟩
    rw [zero_add] at hs
    obtain ⟨q1, q2, _⟩ := (argmin_map_range _ _ _).1 hj
    refine ⟨j, by rw [hidx, hs], q1, ?_⟩
    have hle := q2 m hm
    rw [hc0] at hle
    have hnn : ∀ i ∈ Finset.Ioc (t - N) (t + N), 0 ≤ mval d i j := by
      intro i hi
      have hi' := Finset.mem_Ioc.1 hi
      rw [h4 i j (by omega) q1]
      exact le_min (by norm_num) (detDist_nonneg _ _)
    unfold winCost at hle
    rw [show t + N - 2 * N = t - N by omega] at hle
    have hz := (Finset.sum_eq_zero_iff_of_nonneg hnn).1 (le_antisymm hle (Finset.sum_nonneg hnn))
    intro i hi
    have hi' := Finset.mem_Ioc.1 hi
    have := hz i hi
    rw [h4 i j (by omega) q1] at this
    rcases min_choice (100 : ℝ) (detDist (E.getD i 0 * Complex.exp (I * (angleAt angles i j : ℝ))) symbols) with h | h
    · rw [h] at this; norm_num at this
    · rw [h] at this; exact detDist_zero this

theorem angleAt_one (row : List ℝ) (i k : Nat) : angleAt [row] i k = row.getD k 0 := by simp [angleAt]

theorem testAngles_getD (M m : Nat) (h : m < M) : (testAngles M).getD m 0 = -Real.pi / 4 + m * (Real.pi / 2 / M) := by
  simp [testAngles, List.getD, List.getElem?_range h]

/-- Samples that are constellation points turned back by the test angle `m` are constellation points again after the search, up to a
multiple of a quarter turn, at every position with a complete window. The angle chosen there turns all samples of the window into
constellation points. -/
theorem C34_noiseless (E symbols : List ℂ) (M N m : Nat) (hN : 1 ≤ N) (hm : m < M)
    (h : ∀ e ∈ E, e * Complex.exp (I * ((-Real.pi / 4 + m * (Real.pi / 2 / M) : ℝ) : ℂ)) ∈ symbols) :
    ∃ out ph, bps E M symbols N = some (out, ph) ∧ out.length = E.length ∧
      ∀ t, N ≤ t → t + N < E.length → ∃ (φ : ℝ) (q : ℤ),
        ph[t]? = some (φ + Real.pi / 2 * q) ∧
        (∀ j, t - N < j → j ≤ t + N → E.getD j 0 * Complex.exp (I * (φ : ℂ)) ∈ symbols) ∧
        out[t]? = some (I ^ q * (E.getD t 0 * Complex.exp (I * (φ : ℂ)))) := by
  obtain ⟨idx, h1, h2, h3, _, h4⟩ := bpsIdx_noiseless E [testAngles M] symbols N M hN (by omega) (by simp) (Or.inl rfl)
  have hsel := selectAngles_one (testAngles M) idx (by simpa using h3)
  have hb : bps E M symbols N = some (rotateBy E (unwrapInner (idx.map fun k => (testAngles M).getD k 0) N),
      unwrapInner (idx.map fun k => (testAngles M).getD k 0) N) := by
    unfold bps; simp only [h1, hsel, Option.bind_eq_bind, Option.bind_some]
  refine ⟨_, _, hb, ?_, ?_⟩
  · simp [rotateBy, h2]
  · intro t hNt htN
    obtain ⟨k, hk, hkM, hall⟩ := h4 t m hNt htN hm (by
      intro j hj
      have hj' := Finset.mem_Ioc.1 hj
      rw [angleAt_one, testAngles_getD M m hm]
      apply h
      have : j < E.length := by omega
      simp [List.getD, List.getElem?_eq_getElem this])
    have hp : (idx.map fun k => (testAngles M).getD k 0)[t]? = some ((testAngles M).getD k 0) := by simp [hk]
    obtain ⟨q, hq⟩ := unwrapInner_mul _ N t _ hp
    refine ⟨(testAngles M).getD k 0, q, hq, ?_, ?_⟩
    · intro j hj1 hj2
      have := hall j (Finset.mem_Ioc.2 ⟨hj1, hj2⟩)
      rwa [angleAt_one] at this
    · have hE : E[t]? = some (E.getD t 0) := by
        have : t < E.length := by omega
        simp [List.getD, List.getElem?_eq_getElem this]
      rw [getElem?_rotateBy hE hq, exp_quarter]
      congr 1
      ring

/-- In particular for constellations that a quarter turn maps onto themselves the recovered samples are constellation points. -/
theorem C34_noiseless_closed (E symbols : List ℂ) (M N m : Nat) (hN : 1 ≤ N) (hm : m < M)
    (h : ∀ e ∈ E, e * Complex.exp (I * ((-Real.pi / 4 + m * (Real.pi / 2 / M) : ℝ) : ℂ)) ∈ symbols)
    (hI : ∀ s ∈ symbols, I * s ∈ symbols) :
    ∃ out ph, bps E M symbols N = some (out, ph) ∧
      ∀ t, N ≤ t → t + N < E.length → ∃ s ∈ symbols, out[t]? = some s := by
  obtain ⟨out, ph, h1, _, h3⟩ := C34_noiseless E symbols M N m hN hm h
  refine ⟨out, ph, h1, ?_⟩
  intro t hNt htN
  obtain ⟨φ, q, _, h5, h6⟩ := h3 t hNt htN
  refine ⟨_, ?_, h6⟩
  have hnat : ∀ (n : Nat) (s : ℂ), s ∈ symbols → I ^ n * s ∈ symbols := by
    intro n
    induction n with
    | zero => intro s hs; simpa using hs
    | succ n ih => intro s hs; rw [pow_succ, mul_assoc]; exact ih _ (hI s hs)
  have hq : I ^ q = I ^ (q % 4).toNat := by
    have h4 : (0 : ℤ) ≤ q % 4 := Int.emod_nonneg _ (by norm_num)
    rw [← zpow_natCast, Int.toNat_of_nonneg h4]
    conv_lhs => rw [← Int.emod_add_mul_ediv q 4]
    rw [zpow_add₀ Complex.I_ne_zero, zpow_mul]
    have : (I : ℂ) ^ (4 : ℤ) = 1 := by
      rw [show (4 : ℤ) = ((4 : ℕ) : ℤ) by rfl, zpow_natCast]; exact Complex.I_pow_four
    rw [this, one_zpow, mul_one]
  rw [hq]
  exact hnat _ _ (h5 t (by omega) (by omega))

/-- Three QPSK symbols turned by the second of four test angles. -/
example : ∃ out ph, bps ([1, I, -1].map (· * Complex.exp (I * ((Real.pi / 8 : ℝ) : ℂ)))) 4 [1, I, -1, -I] 1 = some (out, ph) ∧
    ∃ s ∈ [1, I, -1, -I], out[1]? = some s := by
  obtain ⟨out, ph, h1, h2⟩ := C34_noiseless_closed ([1, I, -1].map (· * Complex.exp (I * ((Real.pi / 8 : ℝ) : ℂ))))
    [1, I, -1, -I] 4 1 1 le_rfl (by norm_num) (by
      intro e he
      obtain ⟨s, hs, rfl⟩ := List.mem_map.1 he
      rw [mul_assoc, ← Complex.exp_add]
      have : I * ((Real.pi / 8 : ℝ) : ℂ) + I * ((-Real.pi / 4 + (1 : ℕ) * (Real.pi / 2 / (4 : ℕ)) : ℝ) : ℂ) = 0 := by
        push_cast; ring
      rw [this, Complex.exp_zero, mul_one]
      simp only [List.mem_cons, List.not_mem_nil, or_false] at hs ⊢
      tauto) (by
      intro s hs
      simp only [List.mem_cons, List.not_mem_nil, or_false] at hs ⊢
      rcases hs with rfl | rfl | rfl | rfl <;> simp)
  exact ⟨out, ph, h1, h2 1 le_rfl (by simp)⟩

/-! ## C35: only phases are changed -/

theorem rotateBy_norm (E : List ℂ) (ph : List ℝ) (h : ph.length = E.length) : (rotateBy E ph).map norm = E.map norm := by
  apply List.ext_getElem?
  intro i
  by_cases hi : i < E.length
  · have h1 := List.getElem?_eq_getElem hi
    have h2 := List.getElem?_eq_getElem (h ▸ hi : i < ph.length)
    rw [List.getElem?_map, getElem?_rotateBy h1 h2, List.getElem?_map, h1]
    simp [mul_comm I, Complex.norm_exp_ofReal_mul_I]
  · rw [List.getElem?_eq_none (by simp [rotateBy, h]; omega), List.getElem?_eq_none (by simp; omega)]

/-- Blind phase search with at least one test angle and an averaging block of at least one sample always returns a signal that has the
moduli of the input, sample by sample, and it is the input rotated by the returned phase. -/
theorem C35_bps (E symbols : List ℂ) (M N : Nat) (hN : 1 ≤ N) (hM : 1 ≤ M) :
    ∃ out ph, bps E M symbols N = some (out, ph) ∧ ph.length = E.length ∧ out.map norm = E.map norm ∧
      ∀ (t : Nat) (e : ℂ) (p : ℝ), E[t]? = some e → ph[t]? = some p → out[t]? = some (e * Complex.exp (I * (p : ℂ))) := by
  obtain ⟨idx, h1, h2, h3, _⟩ := bpsIdx_noiseless E [testAngles M] symbols N M hN hM (by simp) (Or.inl rfl)
  have hsel := selectAngles_one (testAngles M) idx (by simpa using h3)
  have hb : bps E M symbols N = some (rotateBy E (unwrapInner (idx.map fun k => (testAngles M).getD k 0) N),
      unwrapInner (idx.map fun k => (testAngles M).getD k 0) N) := by
    unfold bps; simp only [h1, hsel, Option.bind_eq_bind, Option.bind_some]
  exact ⟨_, _, hb, by simp [h2], rotateBy_norm _ _ (by simp [h2]), fun t e p g1 g2 => getElem?_rotateBy g1 g2⟩

example : ∃ out ph, bps [3, 4 * I, 1] 8 [1, I, -1, -I] 1 = some (out, ph) ∧ out.map norm = [3, 4, 1] := by
  obtain ⟨out, ph, h1, _, h3, _⟩ := C35_bps [3, 4 * I, 1] [1, I, -1, -I] 8 1 le_rfl (by norm_num)
  exact ⟨out, ph, h1, by rw [h3]; simp⟩

theorem length_stageTwoAngles (ph : List ℝ) (M B : Nat) :
    (stageTwoAngles ph M B).length = ph.length ∧ ∀ r ∈ stageTwoAngles ph M B, r.length = B := by
  refine ⟨by simp [stageTwoAngles], ?_⟩
  intro r hr
  obtain ⟨p, _, rfl⟩ := List.mem_map.1 hr
  simp [stageTwoOffsets]

/-- Selection from one row of angles per sample. -/
theorem selectAngles_rows (angles : List (List ℝ)) (idx : List Nat) (B : Nat) (hB : ∀ r ∈ angles, r.length = B)
    (hl : idx.length = angles.length) (h : ∀ k ∈ idx, k < B) :
    ∃ ph, selectAngles angles idx = some ph ∧ ph.length = idx.length ∧
      ∀ t k, idx[t]? = some k → ph[t]? = some (angleAt angles t k) := by
  by_cases h1 : 1 < angles.length
  · have hval : ∀ i, i < angles.length → (do
        let r ← angles[i]?
        let k ← idx[i]?
        r[k]?) = some (angleAt angles i (idx.getD i 0)) := by
      intro i hi
      have hi' : i < idx.length := by omega
      rw [List.getElem?_eq_getElem hi, List.getElem?_eq_getElem hi']
      simp only [Option.bind_eq_bind, Option.bind_some]
      have hk : idx[i] < angles[i].length := by
        rw [hB _ (List.getElem_mem hi)]
        exact h _ (List.getElem_mem hi')
      simp [angleAt, if_neg (by omega : ¬ angles.length = 1), List.getElem?_eq_getElem hi, List.getElem?_eq_getElem hi',
        List.getElem?_eq_getElem hk]
    refine ⟨_, by unfold selectAngles; rw [if_pos h1]; exact mapM_range_some _ _ _ hval, by simp [hl], ?_⟩
    intro t k ht
    have htl : t < idx.length := by
      by_contra hc
      rw [List.getElem?_eq_none (by omega)] at ht
      simp at ht
    simp [List.getElem?_range (by omega : t < angles.length), ht]
  · rcases angles with _ | ⟨row, _ | ⟨r2, l⟩⟩
    · obtain rfl : idx = [] := by simpa using hl
      exact ⟨[], rfl, rfl, by simp⟩
    · refine ⟨_, selectAngles_one row idx (by intro k hk; rw [hB row (by simp)]; exact h k hk), by simp, ?_⟩
      intro t k ht
      simp [ht, angleAt]
    · simp at h1

/-- The two-stage search in closed form: the phases are those of the second stage, up to quarter turns. -/
theorem bpsTwostage_spec (E symbols : List ℂ) (M N B : Nat) (hN : 1 ≤ N) (hM : 1 ≤ M) (hB : 1 ≤ B) :
    ∃ idx idx2 phf, bpsIdx E [testAngles M] symbols N = some idx ∧ idx.length = E.length ∧ (∀ k ∈ idx, k < M) ∧
      bpsIdx E (stageTwoAngles (idx.map fun k => (testAngles M).getD k 0) M B) symbols N = some idx2 ∧
      idx2.length = E.length ∧ (∀ k ∈ idx2, k < B) ∧ phf.length = E.length ∧
      (∀ t k, idx2[t]? = some k →
        phf[t]? = some (angleAt (stageTwoAngles (idx.map fun k => (testAngles M).getD k 0) M B) t k)) ∧
      bpsTwostage E M symbols N B = some (rotateBy E (unwrap4 phf), unwrap4 phf) := by
  obtain ⟨idx, h1, h2, h3, _⟩ := bpsIdx_noiseless E [testAngles M] symbols N M hN hM (by simp) (Or.inl rfl)
  have hsel := selectAngles_one (testAngles M) idx (by simpa using h3)
  obtain ⟨l1, l2⟩ := length_stageTwoAngles (idx.map fun k => (testAngles M).getD k 0) M B
  rw [List.length_map, h2] at l1
  obtain ⟨idx2, g1, g2, g3, _⟩ := bpsIdx_noiseless E _ symbols N B hN hB l2 (Or.inr l1)
  obtain ⟨phf, p1, p2, p3⟩ := selectAngles_rows _ idx2 B l2 (by rw [g2, l1]) g3
  refine ⟨idx, idx2, phf, h1, h2, h3, g1, g2, g3, by rw [p2, g2], p3, ?_⟩
  unfold bpsTwostage
  simp only [h1, hsel, g1, p1, Option.bind_eq_bind, Option.bind_some]

theorem C35_twostage (E symbols : List ℂ) (M N B : Nat) (hN : 1 ≤ N) (hM : 1 ≤ M) (hB : 1 ≤ B) :
    ∃ out ph, bpsTwostage E M symbols N B = some (out, ph) ∧ ph.length = E.length ∧ out.map norm = E.map norm ∧
      ∀ (t : Nat) (e : ℂ) (p : ℝ), E[t]? = some e → ph[t]? = some p → out[t]? = some (e * Complex.exp (I * (p : ℂ))) := by
  obtain ⟨idx, idx2, phf, _, _, _, _, _, _, h7, _, h9⟩ := bpsTwostage_spec E symbols M N B hN hM hB
  exact ⟨_, _, h9, by simp [h7], rotateBy_norm _ _ (by simp [h7]), fun t e p g1 g2 => getElem?_rotateBy g1 g2⟩

example : ∃ out ph, bpsTwostage [3, 4 * I, 1] 8 [1, I, -1, -I] 1 4 = some (out, ph) ∧ out.map norm = [3, 4, 1] := by
  obtain ⟨out, ph, h1, _, h3, _⟩ := C35_twostage [3, 4 * I, 1] [1, I, -1, -I] 8 1 4 le_rfl (by norm_num) (by norm_num)
  exact ⟨out, ph, h1, by rw [h3]; simp⟩

/-! ## C85: two-stage search on a noiseless signal -/

/-- The statement of C85: like the one-stage search, the two-stage search recovers a noiseless rotation by a test angle of the first
stage, at every position whose windows consist of positions with complete windows. -/
def C85_statement : Prop := ∀ (E symbols : List ℂ) (M N B m : Nat), 1 ≤ N → m < M → 2 ≤ B →
  (∀ s ∈ symbols, I * s ∈ symbols) →
  (∀ e ∈ E, e * Complex.exp (I * ((-Real.pi / 4 + m * (Real.pi / 2 / M) : ℝ) : ℂ)) ∈ symbols) →
  ∃ out ph, bpsTwostage E M symbols N B = some (out, ph) ∧
    ∀ t, 2 * N ≤ t + 1 → t + 2 * N < E.length → ∃ s ∈ symbols, out[t]? = some s

theorem angleAt_stageTwo (ph : List ℝ) (M B t k : Nat) (p : ℝ) (ht : ph[t]? = some p) (hk : k < B) :
    angleAt (stageTwoAngles ph M B) t k =
      p + (if B = 1 then -(B : ℝ) / 2 else -(B : ℝ) / 2 + k * ((B : ℝ) / ((B : ℝ) - 1))) / (B * M) * Real.pi / 2 := by
  have htl : t < ph.length := by
    by_contra hc
    rw [List.getElem?_eq_none (by omega)] at ht
    simp at ht
  have hidx : (if (stageTwoAngles ph M B).length = 1 then 0 else t) = t := by
    rw [(length_stageTwoAngles ph M B).1]
    split_ifs <;> omega
  unfold angleAt
  rw [hidx]
  simp [stageTwoAngles, stageTwoOffsets, List.getD, ht, List.getElem?_range hk]

theorem pow_I_mem {symbols : List ℂ} (hI : ∀ s ∈ symbols, I * s ∈ symbols) (q : ℤ) {s : ℂ} (hs : s ∈ symbols) :
    I ^ q * s ∈ symbols := by
  have hnat : ∀ (n : Nat) (s : ℂ), s ∈ symbols → I ^ n * s ∈ symbols := by
    intro n
    induction n with
    | zero => intro s hs; simpa using hs
    | succ n ih => intro s hs; rw [pow_succ, mul_assoc]; exact ih _ (hI s hs)
  have hq : I ^ q = I ^ (q % 4).toNat := by
    have h4 : (0 : ℤ) ≤ q % 4 := Int.emod_nonneg _ (by norm_num)
    rw [← zpow_natCast, Int.toNat_of_nonneg h4]
    conv_lhs => rw [← Int.emod_add_mul_ediv q 4]
    rw [zpow_add₀ Complex.I_ne_zero, zpow_mul]
    have : (I : ℂ) ^ (4 : ℤ) = 1 := by
      rw [show (4 : ℤ) = ((4 : ℕ) : ℤ) by rfl, zpow_natCast]; exact Complex.I_pow_four
    rw [this, one_zpow, mul_one]
  rw [hq]
  exact hnat _ _ hs

/-- With an odd number of second stage angles (at least three) the angle of the first stage is among those of the second and the signal is
recovered. -/
theorem C85_odd_partial (E symbols : List ℂ) (M N B m : Nat) (hN : 1 ≤ N) (hm : m < M) (hB : 2 ≤ B) (hodd : B % 2 = 1)
    (hI : ∀ s ∈ symbols, I * s ∈ symbols)
    (h : ∀ e ∈ E, e * Complex.exp (I * ((-Real.pi / 4 + m * (Real.pi / 2 / M) : ℝ) : ℂ)) ∈ symbols) :
    ∃ out ph, bpsTwostage E M symbols N B = some (out, ph) ∧
      ∀ t, 2 * N ≤ t + 1 → t + 2 * N < E.length → ∃ s ∈ symbols, out[t]? = some s := by
  obtain ⟨idx, idx2, phf, h1, h2, h3, h4, h5, h6, h7, h8, h9⟩ :=
    bpsTwostage_spec E symbols M N B hN (by omega) (by omega)
  refine ⟨_, _, h9, ?_⟩
  intro t ht1 ht2
  -- first stage
  obtain ⟨idx', f1, _, _, _, f5⟩ := bpsIdx_noiseless E [testAngles M] symbols N M hN (by omega) (by simp) (Or.inl rfl)
  obtain rfl := Option.some.inj (h1.symm.trans f1)
  have first : ∀ j, N ≤ j → j + N < E.length → ∃ k, idx[j]? = some k ∧
      E.getD j 0 * Complex.exp (I * (((testAngles M).getD k 0 : ℝ) : ℂ)) ∈ symbols := by
    intro j hj1 hj2
    obtain ⟨k, hk, _, hall⟩ := f5 j m hj1 hj2 hm (by
      intro i hi
      have hi' := Finset.mem_Ioc.1 hi
      rw [angleAt_one, testAngles_getD M m hm]
      apply h
      have : i < E.length := by omega
      simp [List.getD, List.getElem?_eq_getElem this])
    refine ⟨k, hk, ?_⟩
    have := hall j (Finset.mem_Ioc.2 ⟨by omega, by omega⟩)
    rwa [angleAt_one] at this
  -- second stage
  obtain ⟨l1, l2⟩ := length_stageTwoAngles (idx.map fun k => (testAngles M).getD k 0) M B
  rw [List.length_map, h2] at l1
  obtain ⟨idx2', g1, _, _, _, g5⟩ := bpsIdx_noiseless E _ symbols N B hN (by omega) l2 (Or.inr l1)
  obtain rfl := Option.some.inj (h4.symm.trans g1)
  have hmid : (if B = 1 then -(B : ℝ) / 2 else -(B : ℝ) / 2 + ((B / 2 : ℕ) : ℝ) * ((B : ℝ) / ((B : ℝ) - 1))) = 0 := by
    rw [if_neg (by omega)]
    obtain ⟨c, rfl⟩ : ∃ c, B = 2 * c + 1 := ⟨B / 2, by omega⟩
    have hc : (2 * c + 1) / 2 = c := by omega
    have hc0 : (c : ℝ) ≠ 0 := by
      have : c ≠ 0 := by omega
      exact_mod_cast this
    rw [hc]
    push_cast
    field_simp
    ring
  obtain ⟨k, hk, hkB, hall⟩ := g5 t (B / 2) (by omega) (by omega) (by omega) (by
    intro j hj
    have hj' := Finset.mem_Ioc.1 hj
    obtain ⟨k, hk, hmem⟩ := first j (by omega) (by omega)
    rw [angleAt_stageTwo _ M B j (B / 2) ((testAngles M).getD k 0) (by simp [hk]) (by omega), hmid]
    simpa using hmem)
  have hmem := hall t (Finset.mem_Ioc.2 ⟨by omega, by omega⟩)
  obtain ⟨q, hq⟩ := unwrap4_mul phf t _ (h8 t k hk)
  have hE : E[t]? = some (E.getD t 0) := by
    have : t < E.length := by omega
    simp [List.getD, List.getElem?_eq_getElem this]
  refine ⟨_, pow_I_mem hI q hmem, ?_⟩
  rw [getElem?_rotateBy hE hq, exp_quarter]
  congr 1
  ring

example : ∃ out ph, bpsTwostage (List.replicate 4 (Complex.exp (I * ((Real.pi / 4 : ℝ) : ℂ)))) 2 [1, I, -1, -I] 1 3 = some (out, ph) ∧
    ∀ t, 2 * 1 ≤ t + 1 → t + 2 * 1 < 4 → ∃ s ∈ [1, I, -1, -I], out[t]? = some s := by
  have := C85_odd_partial (List.replicate 4 (Complex.exp (I * ((Real.pi / 4 : ℝ) : ℂ)))) [1, I, -1, -I] 2 1 3 0 le_rfl (by norm_num)
    (by norm_num) (by norm_num) (by
      intro s hs
      simp only [List.mem_cons, List.not_mem_nil, or_false] at hs ⊢
      rcases hs with rfl | rfl | rfl | rfl <;> simp) (by
    intro e he
    rw [List.eq_of_mem_replicate he, ← Complex.exp_add]
    have : I * ((Real.pi / 4 : ℝ) : ℂ) + I * ((-Real.pi / 4 + (0 : ℕ) * (Real.pi / 2 / (2 : ℕ)) : ℝ) : ℂ) = 0 := by
      push_cast; ring
    rw [this]
    simp)
  simpa using this

/-- A rotation by an angle between zero and an eighth of a turn, in either direction, is not a quarter turn. -/
theorem exp_ne_quarter (β : ℝ) (h0 : β ≠ 0) (h1 : |β| ≤ Real.pi / 4) (q : ℤ) : Complex.exp (I * (β : ℂ)) ≠ I ^ q := by
  intro h
  have h4 : Complex.exp (I * (β : ℂ)) ^ 4 = 1 := by
    rw [h, ← zpow_natCast, ← zpow_mul, mul_comm, zpow_mul]
    rw [show ((4 : ℕ) : ℤ) = (4 : ℤ) by rfl]
    have : (I : ℂ) ^ (4 : ℤ) = 1 := by
      rw [show (4 : ℤ) = ((4 : ℕ) : ℤ) by rfl, zpow_natCast]; exact Complex.I_pow_four
    rw [this, one_zpow]
  rw [← Complex.exp_nat_mul, Complex.exp_eq_one_iff] at h4
  obtain ⟨n, hn⟩ := h4
  have hn' : (4 : ℝ) * β = n * (2 * Real.pi) := by
    have := congrArg Complex.im hn
    simpa using this
  have hp := Real.pi_pos
  rw [abs_le] at h1
  have hn0 : n ≠ 0 := by
    rintro rfl
    apply h0
    simp at hn'
    exact hn'
  have h2 : |(n : ℝ)| < 1 := by
    rw [abs_lt]
    constructor <;> nlinarith
  have h3 : |n| < 1 := by exact_mod_cast h2
  exact hn0 (Int.abs_lt_one_iff.1 h3)

/-- With an even number of second stage angles, such as the default four, no recovered sample of a QPSK signal is a constellation point, at
any position that has complete windows in the first stage. -/
theorem C85_even_fails (E : List ℂ) (M N B m : Nat) (hN : 1 ≤ N) (hm : m < M) (hB : 1 ≤ B) (heven : B % 2 = 0)
    (h : ∀ e ∈ E, e * Complex.exp (I * ((-Real.pi / 4 + m * (Real.pi / 2 / M) : ℝ) : ℂ)) ∈ [1, I, -1, -I]) :
    ∃ out ph, bpsTwostage E M [1, I, -1, -I] N B = some (out, ph) ∧
      ∀ t, N ≤ t → t + N < E.length → ∃ z, out[t]? = some z ∧ z ∉ [1, I, -1, -I] := by
  have hpow : ∀ z : ℂ, z ∈ [1, I, -1, -I] ↔ ∃ q : ℤ, z = I ^ q := by
    intro z
    constructor
    · intro hz
      simp only [List.mem_cons, List.not_mem_nil, or_false] at hz
      rcases hz with rfl | rfl | rfl | rfl
      · exact ⟨0, by simp⟩
      · exact ⟨1, by simp⟩
      · exact ⟨2, by rw [show (2 : ℤ) = ((2 : ℕ) : ℤ) by rfl, zpow_natCast]; simp⟩
      · exact ⟨3, by rw [show (3 : ℤ) = ((3 : ℕ) : ℤ) by rfl, zpow_natCast]; simp [pow_succ]⟩
    · rintro ⟨q, rfl⟩
      have := pow_I_mem (symbols := [1, I, -1, -I]) (by
        intro s hs
        simp only [List.mem_cons, List.not_mem_nil, or_false] at hs ⊢
        rcases hs with rfl | rfl | rfl | rfl <;> simp) q (s := 1) (by simp)
      simpa using this
  obtain ⟨idx, idx2, phf, h1, h2, h3, h4, h5, h6, h7, h8, h9⟩ :=
    bpsTwostage_spec E [1, I, -1, -I] M N B hN (by omega) hB
  refine ⟨_, _, h9, ?_⟩
  intro t ht1 ht2
  obtain ⟨idx', f1, _, _, _, f5⟩ := bpsIdx_noiseless E [testAngles M] [1, I, -1, -I] N M hN (by omega) (by simp) (Or.inl rfl)
  obtain rfl := Option.some.inj (h1.symm.trans f1)
  obtain ⟨k, hk, _, hall⟩ := f5 t m ht1 ht2 hm (by
    intro i hi
    have hi' := Finset.mem_Ioc.1 hi
    rw [angleAt_one, testAngles_getD M m hm]
    apply h
    have : i < E.length := by omega
    simp [List.getD, List.getElem?_eq_getElem this])
  have hmem := hall t (Finset.mem_Ioc.2 ⟨by omega, by omega⟩)
  rw [angleAt_one, hpow] at hmem
  obtain ⟨q1, hq1⟩ := hmem
  have ht2l : t < idx2.length := by omega
  have hk2 : idx2[t]? = some idx2[t] := List.getElem?_eq_getElem ht2l
  have hk2B := h6 _ (List.getElem_mem ht2l)
  obtain ⟨q, hq⟩ := unwrap4_mul phf t _ (h8 t _ hk2)
  have hE : E[t]? = some (E.getD t 0) := by
    have : t < E.length := by omega
    simp [List.getD, List.getElem?_eq_getElem this]
  refine ⟨_, getElem?_rotateBy hE hq, ?_⟩
  rw [exp_quarter, angleAt_stageTwo _ M B t idx2[t] ((testAngles M).getD k 0) (by simp [hk]) hk2B]
  generalize idx2[t] = c at hk2B
  have hM0 : (0 : ℝ) < M := by exact_mod_cast (by omega : 0 < M)
  have hB2 : 2 ≤ B := by omega
  have hB1 : (0 : ℝ) < (B : ℝ) - 1 := by
    have : (2 : ℝ) ≤ B := by exact_mod_cast hB2
    linarith
  have hB0 : (0 : ℝ) < B := by linarith
  set β : ℝ := (if B = 1 then -(B : ℝ) / 2 else -(B : ℝ) / 2 + c * ((B : ℝ) / ((B : ℝ) - 1))) / (B * M) * Real.pi / 2 with hβ
  have hβ' : β = (2 * (c : ℝ) - ((B : ℝ) - 1)) / ((B : ℝ) - 1) * (Real.pi / (4 * M)) := by
    rw [hβ, if_neg (by omega)]
    field_simp
    ring
  have hc : (c : ℝ) ≤ (B : ℝ) - 1 := by
    have : (c : ℝ) + 1 ≤ B := by exact_mod_cast hk2B
    linarith
  have hc0 : (0 : ℝ) ≤ c := by positivity
  have hβ0 : β ≠ 0 := by
    rw [hβ']
    refine mul_ne_zero (div_ne_zero ?_ hB1.ne') (by positivity)
    intro h0
    have : (2 * c + 1 : ℝ) = B := by linarith
    have : 2 * c + 1 = B := by exact_mod_cast this
    omega
  have hβ1 : |β| ≤ Real.pi / 4 := by
    rw [hβ', abs_mul]
    have a1 : |(2 * (c : ℝ) - ((B : ℝ) - 1)) / ((B : ℝ) - 1)| ≤ 1 := by
      rw [abs_div, div_le_one (by positivity), abs_of_pos hB1, abs_le]
      constructor <;> linarith
    have a2 : |Real.pi / (4 * M)| ≤ Real.pi / 4 := by
      rw [abs_of_pos (by positivity)]
      apply div_le_div_of_nonneg_left Real.pi_pos.le (by norm_num)
      have : (1 : ℝ) ≤ M := by exact_mod_cast (by omega : 1 ≤ M)
      linarith
    calc _ ≤ 1 * |Real.pi / (4 * M)| := mul_le_mul_of_nonneg_right a1 (abs_nonneg _)
      _ ≤ _ := by rw [one_mul]; exact a2
  rw [hpow]
  rintro ⟨q2, hq2⟩
  apply exp_ne_quarter β hβ0 hβ1 (q2 - q1 - q)
  have e1 : Complex.exp (I * (((testAngles M).getD k 0 + β : ℝ) : ℂ)) =
      Complex.exp (I * (((testAngles M).getD k 0 : ℝ) : ℂ)) * Complex.exp (I * (β : ℂ)) := by
    rw [← Complex.exp_add]; push_cast; ring_nf
  rw [e1] at hq2
  have e2 : I ^ q * I ^ q1 * Complex.exp (I * (β : ℂ)) = I ^ q2 := by
    rw [← hq2, ← hq1]; ring
  rw [zpow_sub₀ Complex.I_ne_zero, zpow_sub₀ Complex.I_ne_zero, ← e2]
  have n1 : (I : ℂ) ^ q ≠ 0 := zpow_ne_zero _ Complex.I_ne_zero
  have n2 : (I : ℂ) ^ q1 ≠ 0 := zpow_ne_zero _ Complex.I_ne_zero
  field_simp

/-- With the default `B = 4` the two-stage search does not recover a noiseless QPSK signal. -/
theorem C85_false : ¬ C85_statement := by
  intro h
  have hE : ∀ e ∈ List.replicate 4 (Complex.exp (I * ((Real.pi / 4 : ℝ) : ℂ))),
      e * Complex.exp (I * ((-Real.pi / 4 + (0 : ℕ) * (Real.pi / 2 / (1 : ℕ)) : ℝ) : ℂ)) ∈ [1, I, -1, -I] := by
    intro e he
    rw [List.eq_of_mem_replicate he, ← Complex.exp_add]
    have : I * ((Real.pi / 4 : ℝ) : ℂ) + I * ((-Real.pi / 4 + (0 : ℕ) * (Real.pi / 2 / (1 : ℕ)) : ℝ) : ℂ) = 0 := by
      push_cast; ring
    rw [this]
    simp
  obtain ⟨out, ph, h1, h2⟩ := h (List.replicate 4 (Complex.exp (I * ((Real.pi / 4 : ℝ) : ℂ)))) [1, I, -1, -I] 1 1 4 0 le_rfl
    (by norm_num) (by norm_num) (by
        intro s hs
        simp only [List.mem_cons, List.not_mem_nil, or_false] at hs ⊢
        rcases hs with rfl | rfl | rfl | rfl <;> simp) hE
  obtain ⟨out', ph', g1, g2⟩ := C85_even_fails _ 1 1 4 0 le_rfl (by norm_num) (by norm_num) (by norm_num) hE
  rw [h1] at g1
  obtain ⟨s, hs, hs2⟩ := h2 1 (by norm_num) (by simp)
  obtain ⟨z, hz, hz2⟩ := g2 1 le_rfl (by simp)
  have : out = out' := congrArg Prod.fst (Option.some.inj g1)
  rw [← this, hs2] at hz
  exact hz2 (Option.some.inj hz ▸ hs)

/-! ## Viterbi-Viterbi: C35 and C86 -/

theorem segmentAxis_hop_one {α : Type} (a : List α) (N : Nat) (v : α) (hN : 1 ≤ N) (hL : N ≤ a.length) :
    segmentAxis a N ((N : Int) - 1) .cut v = .ok ((List.range (a.length + 1 - N)).map fun k => (a.drop k).take N) := by
  have h : segAdjust a N (N - (N - 1)) .cut v = .ok a := by
    unfold segAdjust
    rw [if_neg]
    have : N - (N - 1) = 1 := by omega
    rw [this, Nat.mod_one]
    omega
  have h1 : ((N : Int) - 1) = ((N - 1 : ℕ) : Int) := by omega
  rw [h1, segmentAxis_of_adjust (by omega) h (q := a.length - N) (by
    have : N - (N - 1) = 1 := by omega
    rw [this]; omega)]
  have : N - (N - 1) = 1 := by omega
  unfold frames
  rw [this, Nat.div_one, show 1 + (a.length - N) = a.length + 1 - N by omega]
  simp

/-- The Viterbi-Viterbi estimator sample by sample. -/
theorem viterbiviterbi_spec (E : List ℂ) (N M : Nat) (hN : 1 ≤ N) (hL : N ≤ E.length) :
    ∃ out ph, viterbiviterbi E N M = .ok (out, ph) ∧ ph.length = E.length + 1 - N ∧ out.length = E.length ∧
      ph = (unwrap ((List.range (E.length + 1 - N)).map fun k =>
        Complex.arg (((E.drop k).take N).map fun e => Complex.exp (I * ((Complex.arg e : ℝ) : ℂ)) ^ M).sum)).map
          (fun p => (p - Real.pi) / M) ∧
      (∀ (k : Nat) (e : ℂ) (p : ℝ), E[k + (N - 1) / 2]? = some e → ph[k]? = some p →
        out[k + (N - 1) / 2]? = some (e * Complex.exp (-(I * (p : ℂ))))) ∧
      (∀ t, t < E.length → (t < (N - 1) / 2 ∨ E.length ≤ t + N / 2) → out[t]? = some 0) := by
  unfold viterbiviterbi
  rw [segmentAxis_hop_one _ N 0 hN (by simpa using hL)]
  simp only [List.length_map, List.map_map, Function.comp_def]
  have ha : (if N % 2 = 1 then (N - 1) / 2 else N / 2 - 1) = (N - 1) / 2 := by split_ifs <;> omega
  have hb : (if N % 2 = 1 then E.length - (N - 1) / 2 else E.length - N / 2) = E.length - N / 2 := by split_ifs <;> omega
  rw [ha, hb]
  refine ⟨_, _, rfl, by simp, ?_, ?_, ?_, ?_⟩
  · simp [rotateBy]; omega
  · simp only [List.map_drop, List.map_take]
  · intro k e p he hp
    have hk : k < E.length + 1 - N := by
      have := (List.getElem?_eq_some_iff.1 hp).1
      simpa using this
    rw [List.append_assoc, List.getElem?_append_right (by simp), List.length_replicate, Nat.add_sub_cancel,
      List.getElem?_append_left (by simp [rotateBy]; omega), getElem?_rotateBy (e := e) (p := -p)]
    · push_cast; rw [mul_neg]
    · rw [List.getElem?_drop, List.getElem?_take_of_lt (by omega), Nat.add_comm]; exact he
    · rw [List.getElem?_map] at hp ⊢
      obtain ⟨x, hx, rfl⟩ := Option.map_eq_some_iff.1 hp
      rw [hx]; rfl
  · intro t ht h
    rcases h with h | h
    · rw [List.append_assoc, List.getElem?_append_left (by simpa using h), List.getElem?_replicate, if_pos h]
    · rw [List.getElem?_append_right (by simp [rotateBy]; omega), List.getElem?_replicate, if_pos]
      simp [rotateBy]; omega

/-- The statement of C35 for the Viterbi-Viterbi estimator. -/
def C35_statement : Prop := ∀ (E : List ℂ) (N M : Nat), 1 ≤ N → N ≤ E.length →
  ∃ out ph, viterbiviterbi E N M = .ok (out, ph) ∧ out.map norm = E.map norm

/-- Inside of the averaging window the moduli are preserved; missing: the `(N-1)/2` samples in front and the `N/2` behind, which are set to
zero. -/
theorem C35_viterbi_partial (E : List ℂ) (N M : Nat) (hN : 1 ≤ N) (hL : N ≤ E.length) :
    ∃ out ph, viterbiviterbi E N M = .ok (out, ph) ∧ out.length = E.length ∧
      (∀ t, (N - 1) / 2 ≤ t → t + N / 2 < E.length → ∃ e z, E[t]? = some e ∧ out[t]? = some z ∧ ‖z‖ = ‖e‖) ∧
      (∀ t, t < E.length → (t < (N - 1) / 2 ∨ E.length ≤ t + N / 2) → out[t]? = some 0) := by
  obtain ⟨out, ph, h1, h2, h3, _, h5, h6⟩ := viterbiviterbi_spec E N M hN hL
  refine ⟨out, ph, h1, h3, ?_, h6⟩
  intro t ht1 ht2
  have hk : t - (N - 1) / 2 < ph.length := by omega
  have := h5 (t - (N - 1) / 2) E[t] ph[t - (N - 1) / 2]
    (by rw [Nat.sub_add_cancel ht1]; exact List.getElem?_eq_getElem (by omega)) (List.getElem?_eq_getElem hk)
  rw [Nat.sub_add_cancel ht1] at this
  refine ⟨_, _, List.getElem?_eq_getElem (by omega), this, ?_⟩
  rw [norm_mul, ← mul_neg, ← Complex.ofReal_neg, mul_comm I, Complex.norm_exp_ofReal_mul_I, mul_one]

theorem C35_false : ¬ C35_statement := by
  intro h
  obtain ⟨out, ph, h1, h2⟩ := h [1, 1, 1] 3 4 (by norm_num) (by simp)
  obtain ⟨out', ph', g1, _, _, g4⟩ := C35_viterbi_partial [1, 1, 1] 3 4 (by norm_num) (by simp)
  rw [h1] at g1
  obtain rfl : out = out' := congrArg Prod.fst (Except.ok.inj g1)
  have h0 := g4 0 (by simp) (by norm_num)
  have := congrArg (fun l : List ℝ => l[0]?) h2
  simp [h0] at this

/-- Common phase: a signal whose samples are points `s` with `s^M = -1`, up to positive factors, rotated by `θ`, is returned without the
rotation, up to one power of the `M`-fold symmetry for the whole signal. -/
theorem C86_viterbi (E : List ℂ) (N M : Nat) (θ : ℝ) (hN : 1 ≤ N) (hL : N ≤ E.length) (hM : 1 ≤ M)
    (h : ∀ e ∈ E, ∃ (r : ℝ) (s : ℂ), 0 < r ∧ s ^ M = -1 ∧ e = r * s * Complex.exp (I * (θ : ℂ))) :
    ∃ out ph, viterbiviterbi E N M = .ok (out, ph) ∧ ∃ ω : ℂ, ω ^ M = 1 ∧
      ∀ (t : Nat) (e : ℂ), (N - 1) / 2 ≤ t → t + N / 2 < E.length → E[t]? = some e →
        out[t]? = some (e * Complex.exp (-(I * (θ : ℂ))) * ω) := by
  obtain ⟨out, ph, h1, h2, h3, h4, h5, _⟩ := viterbiviterbi_spec E N M hN hL
  have hpow : ∀ e ∈ E, Complex.exp (I * ((Complex.arg e : ℝ) : ℂ)) ^ M = -Complex.exp (I * ((M * θ : ℝ) : ℂ)) := by
    intro e he
    obtain ⟨r, s, hr, hs, rfl⟩ := h e he
    have hsn : ‖s‖ = 1 := by
      have : ‖s‖ ^ M = 1 := by rw [← norm_pow, hs]; simp
      exact (pow_eq_one_iff_of_nonneg (norm_nonneg _) (by omega)).1 this
    have hen : ‖(r : ℂ) * s * Complex.exp (I * (θ : ℂ))‖ = r := by
      rw [norm_mul, norm_mul, hsn, mul_comm I, Complex.norm_exp_ofReal_mul_I, Complex.norm_real, Real.norm_of_nonneg hr.le]
      ring
    have hab := Complex.norm_mul_exp_arg_mul_I ((r : ℂ) * s * Complex.exp (I * (θ : ℂ)))
    rw [hen] at hab
    have hr0 : (r : ℂ) ≠ 0 := by exact_mod_cast hr.ne'
    have : Complex.exp (I * ((Complex.arg ((r : ℂ) * s * Complex.exp (I * (θ : ℂ))) : ℝ) : ℂ)) =
        s * Complex.exp (I * (θ : ℂ)) := by
      apply mul_left_cancel₀ hr0
      rw [mul_comm I ((Complex.arg _ : ℝ) : ℂ), hab, mul_assoc]
    rw [this, mul_pow, hs, ← Complex.exp_nat_mul]
    push_cast
    ring_nf
  set c : ℝ := Complex.arg (-Complex.exp (I * ((M * θ : ℝ) : ℂ))) with hc
  have hNr : (0 : ℝ) < N := by exact_mod_cast hN
  have hargs : ((List.range (E.length + 1 - N)).map fun k =>
        Complex.arg (((E.drop k).take N).map fun e => Complex.exp (I * ((Complex.arg e : ℝ) : ℂ)) ^ M).sum) =
      List.replicate (E.length + 1 - N) c := by
    rw [List.eq_replicate_iff]
    refine ⟨by simp, ?_⟩
    intro x hx
    obtain ⟨k, hk, rfl⟩ := List.mem_map.1 hx
    have hk := List.mem_range.1 hk
    have hrep : (((E.drop k).take N).map fun e => Complex.exp (I * ((Complex.arg e : ℝ) : ℂ)) ^ M) =
        List.replicate N (-Complex.exp (I * ((M * θ : ℝ) : ℂ))) := by
      rw [List.eq_replicate_iff]
      refine ⟨by simp; omega, ?_⟩
      intro y hy
      obtain ⟨e, he, rfl⟩ := List.mem_map.1 hy
      exact hpow e (List.mem_of_mem_drop (List.mem_of_mem_take he))
    rw [hrep, List.sum_replicate, nsmul_eq_mul, hc, ← Complex.ofReal_natCast]
    exact Complex.arg_real_mul _ hNr
  have hchain : ∀ n, (List.replicate n c).IsChain (fun a b => |b - a| < Real.pi) := by
    intro n
    rw [List.isChain_iff_getElem]
    intro i hi
    simp [Real.pi_pos]
  rw [hargs, unwrap_of_small _ (hchain _), List.map_replicate] at h4
  refine ⟨out, ph, h1, Complex.exp (I * ((θ - (c - Real.pi) / M : ℝ) : ℂ)), ?_, ?_⟩
  · rw [← Complex.exp_nat_mul]
    have hM0 : (M : ℂ) ≠ 0 := by exact_mod_cast (by omega : M ≠ 0)
    have e1 : (M : ℂ) * (I * ((θ - (c - Real.pi) / M : ℝ) : ℂ)) =
        I * ((M * θ : ℝ) : ℂ) - (c : ℂ) * I + Real.pi * I := by
      push_cast
      field_simp
      ring
    have hnorm : ‖-Complex.exp (I * ((M * θ : ℝ) : ℂ))‖ = 1 := by
      rw [norm_neg, mul_comm I, Complex.norm_exp_ofReal_mul_I]
    have hab := Complex.norm_mul_exp_arg_mul_I (-Complex.exp (I * ((M * θ : ℝ) : ℂ)))
    rw [hnorm, ← hc, Complex.ofReal_one, one_mul] at hab
    rw [e1, Complex.exp_add, Complex.exp_sub, hab, Complex.exp_pi_mul_I]
    have := Complex.exp_ne_zero (I * ((M * θ : ℝ) : ℂ))
    field_simp
  · intro t e ht1 ht2 he
    have hk : t - (N - 1) / 2 < ph.length := by omega
    have := h5 (t - (N - 1) / 2) e ((c - Real.pi) / M) (by rw [Nat.sub_add_cancel ht1]; exact he)
      (by rw [h4, List.getElem?_replicate, if_pos (by omega)])
    rw [Nat.sub_add_cancel ht1] at this
    rw [this, mul_assoc, ← Complex.exp_add]
    congr 3
    push_cast
    ring

/-- The statement of C86: the estimator returns points of the constellation if it is given rotated points of the `M`-PSK constellation of
the library. -/
def C86_statement : Prop := ∀ (k : Nat) (E : List ℂ) (N : Nat) (θ : ℝ), 1 ≤ k → 1 ≤ N → N ≤ E.length →
  (∀ e ∈ E, ∃ s ∈ symbolsPsk k, e = s * Complex.exp (I * (θ : ℂ))) →
  ∃ out ph, viterbiviterbi E N (2 ^ k) = .ok (out, ph) ∧
    ∀ t, (N - 1) / 2 ≤ t → t + N / 2 < E.length → ∃ s ∈ symbolsPsk k, out[t]? = some s

theorem mem_symbolsPsk (k : Nat) (s : ℂ) : s ∈ symbolsPsk k ↔ s ^ 2 ^ k = if k = 2 then -1 else 1 := by
  have hk0 : (2 ^ k : ℂ) ≠ 0 := pow_ne_zero _ two_ne_zero
  have hroot : ∀ z : ℂ, z ^ 2 ^ k = 1 → ∃ i : Nat, i < 2 ^ k ∧ z = Complex.exp (I * ((2 * (i : ℝ) * Real.pi / (2 ^ k : ℝ) : ℝ) : ℂ)) := by
    intro z hz
    have : NeZero (2 ^ k) := ⟨by positivity⟩
    obtain ⟨i, hi, rfl⟩ := (Complex.isPrimitiveRoot_exp (2 ^ k) (by positivity)).eq_pow_of_pow_eq_one hz
    refine ⟨i, hi, ?_⟩
    rw [← Complex.exp_nat_mul]
    congr 1
    push_cast
    ring
  have hexp : ∀ i : Nat, Complex.exp (I * ((2 * (i : ℝ) * Real.pi / (2 ^ k : ℝ) : ℝ) : ℂ)) ^ 2 ^ k = 1 := by
    intro i
    rw [← Complex.exp_nat_mul, Complex.exp_eq_one_iff]
    refine ⟨i, ?_⟩
    push_cast
    field_simp
  have h8 : Complex.exp (I * ((Real.pi / (2 ^ k : ℝ) : ℝ) : ℂ)) ^ 2 ^ k = -1 := by
    rw [← Complex.exp_nat_mul, ← Complex.exp_pi_mul_I]
    congr 1
    push_cast
    field_simp
  simp only [symbolsPsk, List.mem_map, List.mem_range]
  by_cases hk : k = 2
  · simp only [if_pos hk]
    have split : ∀ i : Nat, Complex.exp (I * (((i : ℝ) * 2 * Real.pi / (2 ^ k : ℝ) + Real.pi / (2 ^ k : ℝ) : ℝ) : ℂ)) =
        Complex.exp (I * ((2 * (i : ℝ) * Real.pi / (2 ^ k : ℝ) : ℝ) : ℂ)) *
          Complex.exp (I * ((Real.pi / (2 ^ k : ℝ) : ℝ) : ℂ)) := by
      intro i
      rw [← Complex.exp_add]
      congr 1
      push_cast
      ring
    constructor
    · rintro ⟨i, -, rfl⟩
      rw [split, mul_pow, hexp, h8, one_mul]
    · intro hs
      obtain ⟨i, hi, he⟩ := hroot (s / Complex.exp (I * ((Real.pi / (2 ^ k : ℝ) : ℝ) : ℂ))) (by rw [div_pow, hs, h8]; norm_num)
      refine ⟨i, hi, ?_⟩
      rw [split, ← he, div_mul_cancel₀ _ (Complex.exp_ne_zero _)]
  · simp only [if_neg hk]
    constructor
    · rintro ⟨i, -, rfl⟩
      exact hexp i
    · intro hs
      obtain ⟨i, hi, he⟩ := hroot s hs
      exact ⟨i, hi, he.symm⟩

/-- QPSK is recovered. Missing from C86: the other orders, see `C86_psk_fails`. -/
theorem C86_qpsk_partial (E : List ℂ) (N : Nat) (θ : ℝ) (hN : 1 ≤ N) (hL : N ≤ E.length)
    (h : ∀ e ∈ E, ∃ s ∈ symbolsPsk 2, e = s * Complex.exp (I * (θ : ℂ))) :
    ∃ out ph, viterbiviterbi E N 4 = .ok (out, ph) ∧
      ∀ t, (N - 1) / 2 ≤ t → t + N / 2 < E.length → ∃ s ∈ symbolsPsk 2, out[t]? = some s := by
  obtain ⟨out, ph, h1, ω, hω, h2⟩ := C86_viterbi E N 4 θ hN hL (by norm_num) (by
    intro e he
    obtain ⟨s, hs, rfl⟩ := h e he
    have := (mem_symbolsPsk 2 s).1 hs
    exact ⟨1, s, one_pos, by simpa using this, by simp⟩)
  refine ⟨out, ph, h1, ?_⟩
  intro t ht1 ht2
  have htl : t < E.length := by omega
  obtain ⟨s, hs, he⟩ := h _ (List.getElem_mem htl)
  refine ⟨s * ω, ?_, ?_⟩
  · rw [mem_symbolsPsk] at hs ⊢
    rw [mul_pow, hs, show 2 ^ 2 = 4 by norm_num, hω, mul_one]
  · rw [h2 t _ ht1 ht2 (List.getElem?_eq_getElem htl), he, mul_assoc s, ← Complex.exp_add]
    simp

example : ∃ out ph, viterbiviterbi (List.replicate 7 (Complex.exp (I * ((Real.pi / 4 : ℝ) : ℂ)) * Complex.exp (I * ((1 / 5 : ℝ) : ℂ)))) 3 4
      = .ok (out, ph) ∧ ∀ t, (3 - 1) / 2 ≤ t → t + 3 / 2 < 7 → ∃ s ∈ symbolsPsk 2, out[t]? = some s := by
  have := C86_qpsk_partial (List.replicate 7 (Complex.exp (I * ((Real.pi / 4 : ℝ) : ℂ)) * Complex.exp (I * ((1 / 5 : ℝ) : ℂ)))) 3
    (1 / 5) (by norm_num) (by simp) (by
      intro e he
      refine ⟨_, ?_, List.eq_of_mem_replicate he⟩
      rw [mem_symbolsPsk, ← Complex.exp_nat_mul]
      simp only [if_true]
      rw [← Complex.exp_pi_mul_I]
      congr 1
      push_cast
      ring)
  simpa using this

/-- For every order other than four no sample of the recovered signal is a point of the constellation: the estimator assumes that the points
lie half way between those of the library. -/
theorem C86_psk_fails (k : Nat) (E : List ℂ) (N : Nat) (θ : ℝ) (hk : k ≠ 2) (hN : 1 ≤ N) (hL : N ≤ E.length)
    (h : ∀ e ∈ E, ∃ s ∈ symbolsPsk k, e = s * Complex.exp (I * (θ : ℂ))) :
    ∃ out ph, viterbiviterbi E N (2 ^ k) = .ok (out, ph) ∧
      ∀ t, (N - 1) / 2 ≤ t → t + N / 2 < E.length → ∃ z, out[t]? = some z ∧ z ∉ symbolsPsk k := by
  have hM : 1 ≤ 2 ^ k := Nat.one_le_two_pow
  have hk0 : (2 ^ k : ℂ) ≠ 0 := pow_ne_zero _ two_ne_zero
  have h8 : Complex.exp (I * ((Real.pi / (2 ^ k : ℝ) : ℝ) : ℂ)) ^ 2 ^ k = -1 := by
    rw [← Complex.exp_nat_mul, ← Complex.exp_pi_mul_I]
    congr 1
    push_cast
    field_simp
  obtain ⟨out, ph, h1, ω, hω, h2⟩ := C86_viterbi E N (2 ^ k) (θ - Real.pi / (2 ^ k : ℝ)) hN hL hM (by
    intro e he
    obtain ⟨s, hs, rfl⟩ := h e he
    rw [mem_symbolsPsk, if_neg hk] at hs
    refine ⟨1, s * Complex.exp (I * ((Real.pi / (2 ^ k : ℝ) : ℝ) : ℂ)), one_pos, by rw [mul_pow, hs, h8, one_mul], ?_⟩
    rw [Complex.ofReal_one, one_mul, mul_assoc, ← Complex.exp_add]
    congr 2
    push_cast
    ring)
  refine ⟨out, ph, h1, ?_⟩
  intro t ht1 ht2
  have htl : t < E.length := by omega
  obtain ⟨s, hs, he⟩ := h _ (List.getElem_mem htl)
  refine ⟨_, h2 t _ ht1 ht2 (List.getElem?_eq_getElem htl), ?_⟩
  rw [mem_symbolsPsk, if_neg hk] at hs ⊢
  have : E[t] * Complex.exp (-(I * ((θ - Real.pi / (2 ^ k : ℝ) : ℝ) : ℂ))) * ω =
      s * Complex.exp (I * ((Real.pi / (2 ^ k : ℝ) : ℝ) : ℂ)) * ω := by
    rw [he, mul_assoc s, ← Complex.exp_add]
    congr 3
    push_cast
    ring
  rw [this, mul_pow, mul_pow, hs, h8, hω]
  norm_num

theorem C86_false : ¬ C86_statement := by
  intro h
  have hE : ∀ e ∈ [(1 : ℂ)], ∃ s ∈ symbolsPsk 3, e = s * Complex.exp (I * ((0 : ℝ) : ℂ)) := by
    intro e he
    refine ⟨1, by rw [mem_symbolsPsk]; simp, by simpa using he⟩
  obtain ⟨out, ph, h1, h2⟩ := h 3 [1] 1 0 (by norm_num) le_rfl (by simp) hE
  obtain ⟨out', ph', g1, g2⟩ := C86_psk_fails 3 [1] 1 0 (by norm_num) le_rfl (by simp) hE
  rw [h1] at g1
  obtain rfl : out = out' := congrArg Prod.fst (Except.ok.inj g1)
  obtain ⟨s, hs, e1⟩ := h2 0 (by norm_num) (by simp)
  obtain ⟨z, e2, hz⟩ := g2 0 (by norm_num) (by simp)
  exact hz (Option.some.inj (e1.symm.trans e2) ▸ hs)

end Qampy
