import Verif.Model.Segment
import Verif.Lemmas.Equaliser
import Verif.Lemmas.Pilots
import Verif.Props.Segment
import Verif.Tactics

/-! Equaliser filter (C24, C25, C81), conversions (C31), tap orthogonalisation (C65). -/

namespace Qampy

section generic
variable {K : Type} [RCLike K]

/-- The value the filter output should have: butterfly FIR filter sampled every `os` samples. -/
def firOutput (E w : List (List K)) (p ntaps os i : Nat) : K :=
  ∑ k ∈ Finset.range p, ∑ t ∈ Finset.range ntaps, val2 w k t * val2 E k (i * os + t)

theorem applyFilter_window_fir {E w : List (List K)} {p L n os i : Nat} (hE : Rect E p L) (hw : Rect w p n) (ha : i * os + n ≤ L) :
    applyFilter (window E (i * os) n) w n = some (firOutput E w p n os i) := by
  rw [applyFilter_window hE hw ha, firOutput]
  simp only [mul_comm]

theorem window_in_range {L ntaps os i : Nat} (hos : 0 < os) (hn : ntaps ≤ L + 1) (hi : i < (L + 1 - ntaps) / os) : i * os + ntaps ≤ L := by
  have h1 : (i + 1) * os ≤ L + 1 - ntaps := (Nat.le_div_iff_mul_le hos).1 hi
  rw [Nat.add_mul, one_mul] at h1
  omega

/-- The whole output in one formula. -/
theorem applyFilterToSignal_eq {E : List (List K)} {wx : List (List (List K))} {modes : List Nat} {p L os ntaps : Nat}
    (hE : Rect E p L) (hos : 0 < os) (hn : ntaps ≤ L + 1) (hw : ∀ m ∈ modes, ∃ w, wx[m]? = some w ∧ Rect w p ntaps) :
    applyFilterToSignal E L os wx ntaps modes = some (modes.map fun m => (List.range ((L + 1 - ntaps) / os)).map fun i =>
      firOutput E (wx.getD m []) p ntaps os i) := by
  have h1 : ¬ (os = 0 ∨ (L : Int) - ntaps + 1 < 0) := by omega
  have h2 : ((((L : Int) - ntaps + 1)) / os).toNat = (L + 1 - ntaps) / os := by
    have : (L : Int) - ntaps + 1 = ((L + 1 - ntaps : Nat) : Int) := by omega
    rw [this, ← Int.natCast_ediv, Int.toNat_natCast]
  rw [applyFilterToSignal, if_neg h1]
  simp only [h2]
  rw [mapM_eq_some_iff, List.map_map]
  apply List.map_congr_left
  intro m hm
  obtain ⟨w, hw1, hw2⟩ := hw m hm
  have h3 : wx.getD m [] = w := by rw [List.getD_eq_getElem?_getD, hw1]; rfl
  simp only [hw1, Function.comp_apply, h3, Option.bind_eq_bind, Option.bind_some]
  rw [mapM_eq_some_iff, List.map_map]
  apply List.map_congr_left
  intro i hi
  rw [Function.comp_apply, applyFilter_window_fir hE hw2 (window_in_range hos hn (List.mem_range.1 hi))]

/-! ### C24 -/

/-- For every signal of `p` modes and `L` samples, taps of matching shape, oversampling `os ≥ 1` and `Ntaps ≤ L + 1`: the compiled
filter touches no element outside of an array (it does not fault), gives for every requested mode `(L-Ntaps+1)//os` samples, sample
`i` is the sum over input modes and taps of `w * E` at `i*os + tap`, and all those samples exist. -/
theorem C24_apply_filter {E : List (List K)} {wx : List (List (List K))} {modes : List Nat} {p L os ntaps : Nat}
    (hE : Rect E p L) (hos : 0 < os) (hn : ntaps ≤ L + 1) (hw : ∀ m ∈ modes, ∃ w, wx[m]? = some w ∧ Rect w p ntaps) :
    ∃ out, applyFilterToSignal E L os wx ntaps modes = some out ∧ out.length = modes.length
      ∧ (∀ r ∈ out, r.length = (L + 1 - ntaps) / os)
      ∧ ∀ j m w, modes[j]? = some m → wx[m]? = some w → ∀ i < (L + 1 - ntaps) / os,
          i * os + ntaps ≤ L ∧ at2 out j i
            = some (∑ k ∈ Finset.range p, ∑ t ∈ Finset.range ntaps, val2 w k t * val2 E k (i * os + t)) := by
  refine ⟨_, applyFilterToSignal_eq hE hos hn hw, by simp, ?_, ?_⟩
  · intro r hr
    obtain ⟨m, -, rfl⟩ := List.mem_map.1 hr
    simp
  · intro j m w hj hm i hi
    refine ⟨window_in_range hos hn hi, ?_⟩
    have h3 : wx.getD m [] = w := by rw [List.getD_eq_getElem?_getD, hm]; rfl
    rw [at2, List.getElem?_map, hj, Option.map_some, Option.bind_some, List.getElem?_map, List.getElem?_range hi, h3]
    rfl

/-- More taps than samples (by two or more) make the allocation of the output fail. -/
theorem C24_too_short {E : List (List K)} {wx : List (List (List K))} {modes : List Nat} {L os ntaps : Nat} (h : L + 1 < ntaps) :
    applyFilterToSignal E L os wx ntaps modes = none := by
  rw [applyFilterToSignal, if_pos]
  omega

/-- `a * X + b * Y` element by element. -/
def lin2 (a b : K) (X Y : List (List K)) : List (List K) := List.zipWith (List.zipWith fun x y => a * x + b * y) X Y

theorem at2_lin2 (a b : K) {X Y : List (List K)} {p n k i : Nat} (hX : Rect X p n) (hY : Rect Y p n) (hk : k < p) (hi : i < n) :
    at2 (lin2 a b X Y) k i = some (a * val2 X k i + b * val2 Y k i) := by
  have h1 := at2_of_rect hX hk hi
  have h2 := at2_of_rect hY hk hi
  rw [at2] at h1 h2 ⊢
  rw [lin2, List.getElem?_zipWith]
  cases e1 : X[k]? with
  | none => simp [e1] at h1
  | some x =>
    cases e2 : Y[k]? with
    | none => simp [e2] at h2
    | some y =>
      rw [e1, Option.bind_some] at h1
      rw [e2, Option.bind_some] at h2
      simp only [Option.bind_some, List.getElem?_zipWith, h1, h2]

theorem val2_lin2 (a b : K) {X Y : List (List K)} {p n k i : Nat} (hX : Rect X p n) (hY : Rect Y p n) (hk : k < p) (hi : i < n) :
    val2 (lin2 a b X Y) k i = a * val2 X k i + b * val2 Y k i := by
  rw [val2, at2_lin2 a b hX hY hk hi]; rfl

theorem lin2_map {ι : Type _} (a b : K) (l : List ι) (f g : ι → List K) :
    lin2 a b (l.map f) (l.map g) = l.map fun m => List.zipWith (fun x y => a * x + b * y) (f m) (g m) := by
  rw [lin2, List.zipWith_map, List.zipWith_self]

theorem rect_lin2 (a b : K) {X Y : List (List K)} {p n : Nat} (hX : Rect X p n) (hY : Rect Y p n) : Rect (lin2 a b X Y) p n := by
  refine ⟨by rw [lin2, List.length_zipWith, hX.1, hY.1, Nat.min_self], ?_⟩
  intro r hr
  rw [List.mem_iff_getElem?] at hr
  obtain ⟨k, hk⟩ := hr
  rw [lin2, List.getElem?_zipWith] at hk
  cases h1 : X[k]? with
  | none => simp [h1] at hk
  | some x =>
    cases h2 : Y[k]? with
    | none => simp [h1, h2] at hk
    | some y =>
      simp only [h1, h2, Option.some.injEq] at hk
      rw [← hk, List.length_zipWith, hX.2 x (List.mem_of_getElem? h1), hY.2 y (List.mem_of_getElem? h2), Nat.min_self]

/-- The filter is linear in the signal. -/
theorem C24_linear_signal (a b : K) {E F : List (List K)} {wx : List (List (List K))} {modes : List Nat} {p L os ntaps : Nat}
    (hE : Rect E p L) (hF : Rect F p L) (hos : 0 < os) (hn : ntaps ≤ L + 1)
    (hw : ∀ m ∈ modes, ∃ w, wx[m]? = some w ∧ Rect w p ntaps) {oE oF : List (List K)}
    (h1 : applyFilterToSignal E L os wx ntaps modes = some oE) (h2 : applyFilterToSignal F L os wx ntaps modes = some oF) :
    applyFilterToSignal (lin2 a b E F) L os wx ntaps modes = some (lin2 a b oE oF) := by
  rw [applyFilterToSignal_eq hE hos hn hw, Option.some.injEq] at h1
  rw [applyFilterToSignal_eq hF hos hn hw, Option.some.injEq] at h2
  rw [applyFilterToSignal_eq (rect_lin2 a b hE hF) hos hn hw, ← h1, ← h2, lin2_map]
  congr 1
  apply List.map_congr_left
  intro m _
  rw [List.zipWith_map, List.zipWith_self]
  apply List.map_congr_left
  intro i hi
  have hr := window_in_range hos hn (List.mem_range.1 hi)
  rw [firOutput, firOutput, firOutput, Finset.mul_sum, Finset.mul_sum, ← Finset.sum_add_distrib]
  apply Finset.sum_congr rfl
  intro k hk
  rw [Finset.mul_sum, Finset.mul_sum, ← Finset.sum_add_distrib]
  apply Finset.sum_congr rfl
  intro t ht
  have := Finset.mem_range.1 ht
  rw [val2_lin2 a b hE hF (Finset.mem_range.1 hk) (by omega)]
  ring

/-- The filter is linear in the taps. -/
theorem C24_linear_taps (a b : K) {E : List (List K)} {wx vx : List (List (List K))} {modes : List Nat} {p L os ntaps : Nat}
    (hE : Rect E p L) (hos : 0 < os) (hn : ntaps ≤ L + 1)
    (hw : ∀ m ∈ modes, ∃ w, wx[m]? = some w ∧ Rect w p ntaps) (hv : ∀ m ∈ modes, ∃ w, vx[m]? = some w ∧ Rect w p ntaps)
    {ow ov : List (List K)}
    (h1 : applyFilterToSignal E L os wx ntaps modes = some ow) (h2 : applyFilterToSignal E L os vx ntaps modes = some ov) :
    applyFilterToSignal E L os (List.zipWith (lin2 a b) wx vx) ntaps modes = some (lin2 a b ow ov) := by
  have hg : ∀ m ∈ modes, (List.zipWith (lin2 a b) wx vx)[m]? = some (lin2 a b (wx.getD m []) (vx.getD m [])) ∧
      Rect (wx.getD m []) p ntaps ∧ Rect (vx.getD m []) p ntaps := by
    intro m hm
    obtain ⟨w, hw1, hw2⟩ := hw m hm
    obtain ⟨v, hv1, hv2⟩ := hv m hm
    rw [List.getElem?_zipWith, List.getD_eq_getElem?_getD, List.getD_eq_getElem?_getD, hw1, hv1]
    exact ⟨rfl, hw2, hv2⟩
  rw [applyFilterToSignal_eq hE hos hn hw, Option.some.injEq] at h1
  rw [applyFilterToSignal_eq hE hos hn hv, Option.some.injEq] at h2
  rw [applyFilterToSignal_eq hE hos hn (fun m hm => ⟨_, (hg m hm).1, rect_lin2 a b (hg m hm).2.1 (hg m hm).2.2⟩), ← h1, ← h2,
    lin2_map]
  congr 1
  apply List.map_congr_left
  intro m hm
  rw [List.zipWith_map, List.zipWith_self]
  apply List.map_congr_left
  intro i hi
  obtain ⟨g1, g2, g3⟩ := hg m hm
  rw [List.getD_eq_getElem?_getD (l := List.zipWith _ _ _), g1, Option.getD_some]
  rw [firOutput, firOutput, firOutput, Finset.mul_sum, Finset.mul_sum, ← Finset.sum_add_distrib]
  apply Finset.sum_congr rfl
  intro k hk
  rw [Finset.mul_sum, Finset.mul_sum, ← Finset.sum_add_distrib]
  apply Finset.sum_congr rfl
  intro t ht
  rw [val2_lin2 a b g2 g3 (Finset.mem_range.1 hk) (Finset.mem_range.1 ht)]
  ring

/-- Non-trivial instance of the hypotheses: two modes of five samples, two taps, oversampling two, both output modes. -/
example : ∃ out, applyFilterToSignal [[1, 2, 3, 4, 5], [0, 1, 0, -1, 0]] 5 2 [[[1, 0], [0, 1]], [[0, 2], [1, 1]]] 2 [0, 1] = some out
    ∧ out.length = 2 ∧ ∀ r ∈ out, (r : List ℝ).length = 2 := by
  obtain ⟨out, h1, h2, h3, -⟩ := C24_apply_filter (K := ℝ) (E := [[1, 2, 3, 4, 5], [0, 1, 0, -1, 0]])
    (wx := [[[1, 0], [0, 1]], [[0, 2], [1, 1]]]) (modes := [0, 1]) (p := 2) (L := 5) (os := 2) (ntaps := 2)
    ⟨rfl, by simp⟩ (by omega) (by omega) (by
      intro m hm
      simp only [List.mem_cons, List.not_mem_nil, or_false] at hm
      rcases hm with rfl | rfl
      · exact ⟨_, rfl, rfl, by simp⟩
      · exact ⟨_, rfl, rfl, by simp⟩)
  exact ⟨out, h1, h2, h3⟩

/-! ### C25 -/

theorem rect_initTaps {ntaps nmodes m : Nat} (hm : m < nmodes) :
    ∃ w : List (List K), (initTaps ntaps nmodes : List (List (List K)))[m]? = some w ∧ Rect w nmodes ntaps ∧
      ∀ k i, k < nmodes → i < ntaps → val2 w k i = if k = m ∧ i = ntaps / 2 then 1 else 0 := by
  refine ⟨(List.range nmodes).map fun k => (List.range ntaps).map fun i => if k = m ∧ i = ntaps / 2 then 1 else 0, ?_, ⟨by simp, ?_⟩, ?_⟩
  · rw [initTaps, List.getElem?_map, List.getElem?_range hm]; rfl
  · intro r hr
    obtain ⟨k, -, rfl⟩ := List.mem_map.1 hr
    simp
  · intro k i hk hi
    rw [val2, at2, List.getElem?_map, List.getElem?_range hk, Option.map_some, Option.bind_some, List.getElem?_map, List.getElem?_range hi]
    rfl

/-- With the initial taps every mode is passed through: sample `i` of the output of mode `m` is sample `i*os + Ntaps//2` of mode `m`
of the signal. For all numbers of modes, taps and all oversampling ratios. -/
theorem C25_pass_through {E : List (List K)} {p L os ntaps : Nat} (hE : Rect E p L) (hos : 0 < os) (hn : ntaps ≤ L + 1) (hn1 : 1 ≤ ntaps) :
    ∃ out, applyFilterToSignal E L os (initTaps ntaps p) ntaps (List.range p) = some out ∧ Rect out p ((L + 1 - ntaps) / os)
      ∧ ∀ m < p, ∀ i < (L + 1 - ntaps) / os, ∃ x, at2 E m (i * os + ntaps / 2) = some x ∧ at2 out m i = some x := by
  obtain ⟨out, h1, h2, h3, h4⟩ := C24_apply_filter (K := K) (modes := List.range p) (wx := initTaps ntaps p) hE hos hn (by
    intro m hm
    obtain ⟨w, h1, h2, -⟩ := rect_initTaps (K := K) (ntaps := ntaps) (List.mem_range.1 hm)
    exact ⟨w, h1, h2⟩)
  refine ⟨out, h1, ⟨by simpa using h2, h3⟩, ?_⟩
  intro m hm i hi
  obtain ⟨w, hw1, hw2, hw3⟩ := rect_initTaps (K := K) (ntaps := ntaps) hm
  obtain ⟨h5, h6⟩ := h4 m m w (List.getElem?_range hm) hw1 i hi
  have hhalf : ntaps / 2 < ntaps := by omega
  refine ⟨_, at2_of_rect hE hm (i := i * os + ntaps / 2) (by omega), ?_⟩
  rw [h6]
  congr 1
  rw [Finset.sum_eq_single m, Finset.sum_eq_single (ntaps / 2)]
  · rw [hw3 m _ hm hhalf, if_pos ⟨rfl, rfl⟩, one_mul]
  · intro t ht hne
    rw [hw3 m t hm (Finset.mem_range.1 ht), if_neg (fun h => hne h.2), zero_mul]
  · intro h; exact absurd (Finset.mem_range.2 hhalf) h
  · intro k hk hne
    apply Finset.sum_eq_zero
    intro t ht
    rw [hw3 k t (Finset.mem_range.1 hk) (Finset.mem_range.1 ht), if_neg (fun h => hne h.1), zero_mul]
  · intro h; exact absurd (Finset.mem_range.2 hm) h

example : ∃ out, applyFilterToSignal ([[1, 2, 3, 4, 5, 6], [7, 8, 9, 10, 11, 12]] : List (List ℝ)) 6 2 (initTaps 3 2) 3 [0, 1] = some out
    ∧ at2 out 1 1 = some 10 := by
  obtain ⟨out, h1, -, h3⟩ := C25_pass_through (K := ℝ) (E := [[1, 2, 3, 4, 5, 6], [7, 8, 9, 10, 11, 12]]) (p := 2) (L := 6) (os := 2)
    (ntaps := 3) ⟨rfl, by simp⟩ (by omega) (by omega) (by omega)
  obtain ⟨x, hx, hy⟩ := h3 1 (by omega) 1 (by decide)
  refine ⟨out, h1, ?_⟩
  rw [hy, ← hx]
  rfl

/-! ### C81 -/

theorem sum_zipWith_mul {n : Nat} (a b : List K) (ha : a.length = n) (hb : b.length = n) :
    (List.zipWith (· * ·) a b).sum = ∑ i ∈ Finset.range n, (a[i]?).getD 0 * (b[i]?).getD 0 := by
  induction a generalizing b n with
  | nil => simp at ha; subst ha; simp
  | cons x a ih =>
    cases b with
    | nil => simp at hb ha; omega
    | cons y b =>
      obtain ⟨k, rfl⟩ : ∃ k, n = k + 1 := ⟨n - 1, by simp at ha; omega⟩
      rw [List.zipWith_cons_cons, List.sum_cons, ih b (by simpa using ha) (by simpa using hb), Finset.sum_range_succ']
      simp [add_comm]

theorem sum_zipWith_flatten {p n : Nat} (A B : List (List K)) (hA : Rect A p n) (hB : Rect B p n) :
    (List.zipWith (· * ·) A.flatten B.flatten).sum = ∑ k ∈ Finset.range p, ∑ i ∈ Finset.range n, val2 A k i * val2 B k i := by
  obtain ⟨hA1, hA2⟩ := hA
  obtain ⟨hB1, hB2⟩ := hB
  induction A generalizing B p with
  | nil => simp at hA1; subst hA1; simp
  | cons a A ih =>
    cases B with
    | nil => simp at hB1 hA1; omega
    | cons b B =>
      obtain ⟨k, rfl⟩ : ∃ k, p = k + 1 := ⟨p - 1, by simp at hA1; omega⟩
      rw [List.flatten_cons, List.flatten_cons, List.zipWith_append (by rw [hA2 a (by simp), hB2 b (by simp)]), List.sum_append,
        ih B (by simpa using hA1) (fun r hr => hA2 r (by simp [hr])) (by simpa using hB1) (fun r hr => hB2 r (by simp [hr])),
        Finset.sum_range_succ', sum_zipWith_mul a b (hA2 a (by simp)) (hB2 b (by simp)), add_comm]
      rfl

theorem segmentAxis_cut (r : List K) {ntaps os : Nat} (hos : 0 < os) (ho : os ≤ ntaps) (hn : ntaps ≤ r.length) :
    segmentAxis r ntaps ((ntaps : Int) - os) .cut 0
      = .ok ((List.range (1 + (r.length - ntaps) / os)).map fun k => (r.drop (k * os)).take ntaps) := by
  have h1 : (ntaps : Int) - os = ((ntaps - os : Nat) : Int) := by omega
  have h2 : ntaps - (ntaps - os) = os := by omega
  obtain ⟨fr, hf, h3, h4, h5, h6, -⟩ := C32_segment_axis_partial r ntaps (ntaps - os) .cut (0 : K) (by omega)
    (by intro h; subst h; simp at hn; omega) (fun _ => hn) (by simp)
  rw [h2] at h5 h6
  obtain ⟨h7, h8⟩ := h6 rfl
  have hl : fr.length = 1 + (r.length - ntaps) / os := by
    have h9 : (r.length - ntaps) / os = fr.length - 1 := by
      apply Nat.div_eq_of_lt_le
      · omega
      · have : (fr.length - 1) + 1 = fr.length := by omega
        rw [this]; omega
    omega
  rw [h1, hf]
  congr 1
  apply List.ext_getElem?
  intro k
  by_cases hk : k < fr.length
  · rw [List.getElem?_map, List.getElem?_range (by omega), List.getElem?_eq_getElem hk, Option.map_some]
    congr 1
    have hrow := h4 _ (List.getElem_mem hk)
    have hkk : k * os ≤ (fr.length - 1) * os := Nat.mul_le_mul_right _ (by omega)
    apply List.ext_getElem?
    intro i
    by_cases hi : i < ntaps
    · have := (h5 k i hk hi).1
      rw [List.getElem?_eq_getElem hk, Option.bind_some] at this
      rw [this, segSource, getElem?_frame _ _ _ _ hi]
    · rw [List.getElem?_eq_none (by omega), List.getElem?_eq_none (by rw [List.length_take]; omega)]
  · rw [List.getElem?_eq_none (by omega), List.getElem?_eq_none (by simp; omega)]

theorem applyFilterPy_eq {E : List (List K)} {wx : List (List (List K))} {p L os ntaps : Nat}
    (hE : Rect E p L) (hos : 0 < os) (ho : os ≤ ntaps) (hn : ntaps ≤ L) (hp : 1 ≤ p) (hw : wx.length = p) (hw' : ∀ w ∈ wx, Rect w p ntaps) :
    applyFilterPy E os wx ntaps = .ok (wx.map fun w => (List.range (1 + (L - ntaps) / os)).map fun i => firOutput E w p ntaps os i) := by
  have h1 : ((List.range wx.length).mapM fun m => do
      let r ← (E[m]?).elim (Except.error PyErr.index) Except.ok
      segmentAxis r ntaps ((ntaps : Int) - os) .cut (0 : K))
      = .ok ((List.range wx.length).map fun m => (List.range (1 + (L - ntaps) / os)).map fun k => ((E.getD m []).drop (k * os)).take ntaps) := by
    apply mapM_ok
    intro m hm
    have hm' : m < E.length := by rw [hE.1, ← hw]; exact List.mem_range.1 hm
    have hl := hE.2 _ (List.getElem_mem hm')
    have hg : E.getD m [] = E[m] := by rw [List.getD_eq_getElem?_getD, List.getElem?_eq_getElem hm']; rfl
    rw [hg, List.getElem?_eq_getElem hm']
    simp only [Option.elim, bind, Except.bind]
    rw [segmentAxis_cut _ hos ho (by omega), hl]
  unfold applyFilterPy
  rw [h1]
  simp only [bind, Except.bind]
  congr 1
  apply List.map_congr_left
  intro w hwm
  have hn1 : ((List.map (fun m => (List.range (1 + (L - ntaps) / os)).map fun k => ((E.getD m []).drop (k * os)).take ntaps)
      (List.range wx.length)).headD []).length = 1 + (L - ntaps) / os := by
    obtain ⟨q, hq⟩ : ∃ q, wx.length = q + 1 := ⟨p - 1, by omega⟩
    rw [hq, List.range_succ_eq_map, List.map_cons]
    simp
  rw [hn1, List.map_map]
  apply List.map_congr_left
  intro i hi
  have hi' := List.mem_range.1 hi
  have hio : i * os ≤ (L - ntaps) / os * os := Nat.mul_le_mul_right _ (by omega)
  have hio2 := Nat.div_mul_le_self (L - ntaps) os
  have hX : (List.map (fun s : List (List K) => s.getD i []) (List.map (fun m => (List.range (1 + (L - ntaps) / os)).map fun k =>
      ((E.getD m []).drop (k * os)).take ntaps) (List.range wx.length))) = window E (i * os) ntaps := by
    rw [List.map_map, window, hw, ← hE.1]
    apply List.ext_getElem?
    intro m
    rw [List.getElem?_map, List.getElem?_map]
    by_cases hm : m < E.length
    · rw [List.getElem?_range hm, List.getElem?_eq_getElem hm]
      simp only [Option.map_some, Function.comp_apply, Option.some.injEq]
      rw [List.getD_eq_getElem?_getD, List.getElem?_map, List.getElem?_range hi', Option.map_some, Option.getD_some,
        List.getD_eq_getElem?_getD, List.getElem?_eq_getElem hm]
      rfl
    · rw [List.getElem?_eq_none (by simp; omega), List.getElem?_eq_none (by omega)]
      rfl
  rw [Function.comp_apply, hX, sum_zipWith_flatten _ _ (rect_window hE (by omega)) (hw' w hwm), firOutput]
  apply Finset.sum_congr rfl
  intro k _
  apply Finset.sum_congr rfl
  intro t ht
  rw [val2, at2_window _ _ _ _ _ (Finset.mem_range.1 ht), ← val2, mul_comm]

end generic

/-- The full claim: the two versions of the filter give the same output. -/
def C81_statement : Prop :=
  ∀ (E : List (List ℂ)) (wx : List (List (List ℂ))) (p L os ntaps : Nat), Rect E p L → 0 < os → os ≤ ntaps → ntaps ≤ L → 1 ≤ p →
    wx.length = p → (∀ w ∈ wx, Rect w p ntaps) →
    ∃ out, applyFilterToSignal E L os wx ntaps (List.range p) = some out ∧ applyFilterPy E os wx ntaps = .ok out

/-- What holds: both succeed, the compiled output is the Python output without its last sample, except if `os` divides `L-Ntaps+1`
(in particular for `os = 1`), then they are equal. -/
theorem C81_prefix_partial {K : Type} [RCLike K] {E : List (List K)} {wx : List (List (List K))} {p L os ntaps : Nat}
    (hE : Rect E p L) (hos : 0 < os) (ho : os ≤ ntaps) (hn : ntaps ≤ L) (hp : 1 ≤ p) (hw : wx.length = p) (hw' : ∀ w ∈ wx, Rect w p ntaps) :
    ∃ outc outp, applyFilterToSignal E L os wx ntaps (List.range p) = some outc ∧ applyFilterPy E os wx ntaps = .ok outp
      ∧ Rect outp p (1 + (L - ntaps) / os) ∧ outc = outp.map (fun r => r.take ((L - ntaps + 1) / os))
      ∧ (outc = outp ↔ os ∣ L - ntaps + 1)
      ∧ (¬ os ∣ L - ntaps + 1 → (L - ntaps + 1) / os + 1 = 1 + (L - ntaps) / os) := by
  have hsub : L + 1 - ntaps = L - ntaps + 1 := by omega
  have hdiv : (L - ntaps + 1) / os = (L - ntaps) / os + if os ∣ L - ntaps + 1 then 1 else 0 := Nat.succ_div
  have hc := applyFilterToSignal_eq (K := K) (modes := List.range p) (wx := wx) hE hos (by omega : ntaps ≤ L + 1) (by
    intro m hm
    have hm' : m < wx.length := by rw [hw]; exact List.mem_range.1 hm
    exact ⟨_, List.getElem?_eq_getElem hm', hw' _ (List.getElem_mem hm')⟩)
  rw [hsub] at hc
  have hmap : (List.range p).map (fun m => wx.getD m []) = wx := by
    apply List.ext_getElem?
    intro m
    rw [List.getElem?_map]
    by_cases hm : m < p
    · rw [List.getElem?_range hm, Option.map_some, List.getD_eq_getElem?_getD, List.getElem?_eq_getElem (by omega : m < wx.length)]
      rfl
    · rw [List.getElem?_eq_none (by simp; omega), List.getElem?_eq_none (by omega)]
      rfl
  have hc' : (List.range p).map (fun m => (List.range ((L - ntaps + 1) / os)).map fun i => firOutput E (wx.getD m []) p ntaps os i)
      = wx.map fun w => (List.range ((L - ntaps + 1) / os)).map fun i => firOutput E w p ntaps os i := by
    conv_rhs => rw [← hmap, List.map_map]
    rfl
  rw [hc'] at hc
  have hle : (L - ntaps + 1) / os ≤ 1 + (L - ntaps) / os := by rw [hdiv]; split_ifs <;> omega
  have heq : wx.map (fun w => (List.range ((L - ntaps + 1) / os)).map fun i => firOutput E w p ntaps os i)
      = (wx.map fun w => (List.range (1 + (L - ntaps) / os)).map fun i => firOutput E w p ntaps os i).map
        (fun r => r.take ((L - ntaps + 1) / os)) := by
    rw [List.map_map]
    apply List.map_congr_left
    intro w _
    rw [Function.comp_apply, ← List.map_take, List.take_range, Nat.min_eq_left hle]
  refine ⟨_, _, hc, applyFilterPy_eq hE hos ho hn hp hw hw', ⟨by rw [List.length_map, hw], ?_⟩, heq, ?_, ?_⟩
  · intro r hr
    obtain ⟨w, -, rfl⟩ := List.mem_map.1 hr
    simp
  · constructor
    · intro h
      by_contra hd
      have h0 : 0 < wx.length := by omega
      have := congrArg (fun l => (l[0]?).map List.length) h
      simp only [List.getElem?_map, List.getElem?_eq_getElem h0, Option.map_some, List.length_map, List.length_range, Option.some.injEq] at this
      rw [hdiv, if_neg hd] at this
      omega
    · intro hd
      rw [hdiv, if_pos hd, Nat.add_comm 1]
  · intro hd
    rw [hdiv, if_neg hd]
    omega

/-- The versions differ for two fold oversampling if signal length and number of taps have the same parity. -/
theorem C81_false : ¬ C81_statement := by
  intro h
  have hE : Rect ([[1, 2, 3, 4]] : List (List ℂ)) 1 4 := ⟨rfl, by simp⟩
  have hw : ∀ w ∈ ([[[1, 0]]] : List (List (List ℂ))), Rect w 1 2 := by
    intro w hw
    simp at hw
    subst hw
    exact ⟨rfl, by simp⟩
  obtain ⟨out, h1, h2⟩ := h [[1, 2, 3, 4]] [[[1, 0]]] 1 4 2 2 hE (by omega) (by omega) (by omega) (by omega) rfl hw
  obtain ⟨oc, op, h3, h4, -, -, h5, -⟩ := C81_prefix_partial hE (by omega : 0 < 2) (by omega : 2 ≤ 2) (by omega) (by omega) rfl hw
  rw [h3, Option.some.injEq] at h1
  rw [h4, Except.ok.injEq] at h2
  have := h5.1 (h1.trans h2.symm)
  omega

/-! ### C31 -/

/-- Complex to real and back is the identity, for every number of modes and all lengths. -/
theorem C31_real_complex (E : List (List ℂ)) : convertSigToCmplx (convertSigToReal E) (convertSigToReal E).length = some E := by
  have hl : (convertSigToReal E).length / 2 = E.length := by simp [convertSigToReal]; omega
  have e1 : List.take E.length (convertSigToReal E) = E.map (·.map Complex.re) := by
    rw [convertSigToReal, List.take_append_of_le_length (by simp), List.take_of_length_le (by simp)]
  have e2 : List.drop E.length (convertSigToReal E) = E.map (·.map Complex.im) := by
    rw [convertSigToReal, List.drop_append_of_le_length (by simp), List.drop_of_length_le (by simp), List.nil_append]
  unfold convertSigToCmplx
  rw [hl]
  simp only [e1, e2]
  rw [if_pos (by simp), List.zipWith_map, List.zipWith_self]
  congr 1
  conv_rhs => rw [← List.map_id E]
  apply List.map_congr_left
  intro r _
  rw [List.zipWith_map, List.zipWith_self]
  simp

/-- Real to complex and back is the identity if the number of rows is even and all rows have the same length. -/
theorem C31_complex_real {E : List (List ℝ)} {n L : Nat} (hE : Rect E (2 * n) L) :
    ∃ C, convertSigToCmplx E E.length = some C ∧ Rect C n L ∧ convertSigToReal C = E := by
  obtain ⟨h1, h2⟩ := hE
  have hl : E.length / 2 = n := by omega
  unfold convertSigToCmplx
  rw [hl]
  have ha : (E.take n).length = n := by rw [List.length_take]; omega
  have hb : (E.drop n).length = n := by rw [List.length_drop]; omega
  simp only
  rw [if_pos (by omega)]
  refine ⟨_, rfl, ?_⟩
  have key : ∀ (A B : List (List ℝ)) (n : Nat), A.length = n → B.length = n → (∀ r ∈ A, r.length = L) → (∀ r ∈ B, r.length = L) →
      Rect (List.zipWith (List.zipWith fun x y => (⟨x, y⟩ : ℂ)) A B) n L ∧
      (List.zipWith (List.zipWith fun x y => (⟨x, y⟩ : ℂ)) A B).map (·.map Complex.re) = A ∧
      (List.zipWith (List.zipWith fun x y => (⟨x, y⟩ : ℂ)) A B).map (·.map Complex.im) = B := by
    have row : ∀ (a b : List ℝ), a.length = b.length → (List.zipWith (fun x y => (⟨x, y⟩ : ℂ)) a b).map Complex.re = a ∧
        (List.zipWith (fun x y => (⟨x, y⟩ : ℂ)) a b).map Complex.im = b := by
      intro a
      induction a with
      | nil => intro b hb; simp at hb; simp [List.eq_nil_of_length_eq_zero hb.symm]
      | cons x a ih =>
        intro b hb
        cases b with
        | nil => simp at hb
        | cons y b =>
          obtain ⟨i1, i2⟩ := ih b (by simpa using hb)
          rw [List.zipWith_cons_cons, List.map_cons, List.map_cons, i1, i2]
          exact ⟨rfl, rfl⟩
    intro A
    induction A with
    | nil =>
      intro B n hA hB _ _
      simp at hA
      subst hA
      have := List.eq_nil_of_length_eq_zero hB
      subst this
      exact ⟨⟨rfl, by simp⟩, rfl, rfl⟩
    | cons a A ih =>
      intro B n hA hB hA2 hB2
      cases B with
      | nil => simp at hA hB; omega
      | cons b B =>
        obtain ⟨k, rfl⟩ : ∃ k, n = k + 1 := ⟨n - 1, by simp at hA; omega⟩
        obtain ⟨⟨r1, r2⟩, i1, i2⟩ := ih B k (by simpa using hA) (by simpa using hB) (fun r hr => hA2 r (by simp [hr]))
          (fun r hr => hB2 r (by simp [hr]))
        obtain ⟨j1, j2⟩ := row a b (by rw [hA2 a (by simp), hB2 b (by simp)])
        rw [List.zipWith_cons_cons, List.map_cons, List.map_cons, i1, i2, j1, j2]
        refine ⟨⟨by rw [List.length_cons, r1], ?_⟩, rfl, rfl⟩
        intro r hr
        rcases List.mem_cons.1 hr with rfl | hr
        · rw [List.length_zipWith, hA2 a (by simp), hB2 b (by simp), Nat.min_self]
        · exact r2 r hr
  obtain ⟨k1, k2, k3⟩ := key (E.take n) (E.drop n) n ha hb (fun r hr => h2 r (List.mem_of_mem_take hr))
    (fun r hr => h2 r (List.mem_of_mem_drop hr))
  refine ⟨k1, ?_⟩
  rw [convertSigToReal, k2, k3, List.take_append_drop]

example : Rect ([[1, 2, 3], [4, 5, 6], [7, 8, 9], [10, 11, 12]] : List (List ℝ)) (2 * 2) 3 := ⟨rfl, by simp⟩

/-! ### C65 -/

/-- Inner product of two lists of complex numbers. -/
noncomputable def inner' (a b : List ℂ) : ℂ := (List.zipWith (fun x y => x * star y) a b).sum

/-- The full claim: the taps for the second polarisation are orthogonal to the given taps, and have the same energy. -/
def C65_statement : Prop :=
  ∀ (wx : List (List ℂ)) (n : Nat), Rect wx 2 n → inner' wx.flatten (orthogonalizetaps wx).flatten = 0 ∧
    inner' (orthogonalizetaps wx).flatten (orthogonalizetaps wx).flatten = inner' wx.flatten wx.flatten

/-- The sign of one row is missing: the taps (1), (1) are returned unchanged. -/
theorem C65_false : ¬ C65_statement := by
  intro h
  have := (h [[1], [1]] 1 ⟨rfl, by simp⟩).1
  norm_num [inner', orthogonalizetaps] at this

theorem flatten_reverse_reverse (wx : List (List ℂ)) :
    (orthogonalizetaps wx).flatten = (wx.flatten.map star).reverse := by
  induction wx with
  | nil => rfl
  | cons a wx ih =>
    unfold orthogonalizetaps at ih ⊢
    rw [List.reverse_cons, List.map_append, List.flatten_append, ih, List.flatten_cons, List.map_append, List.reverse_append,
      List.map_singleton, List.flatten_singleton, List.map_reverse]

/-- The energy is preserved for taps of every shape. -/
theorem C65_energy_partial (wx : List (List ℂ)) :
    inner' (orthogonalizetaps wx).flatten (orthogonalizetaps wx).flatten = inner' wx.flatten wx.flatten := by
  rw [flatten_reverse_reverse]
  generalize wx.flatten = l
  rw [inner', inner', List.zipWith_self, List.zipWith_self, List.map_reverse, List.sum_reverse, List.map_map]
  congr 1
  apply List.map_congr_left
  intro x _
  simp [mul_comm]

/-- With the initial taps `[0 .. 1 .. 0]` on one row, i.e. when one of the two rows vanishes, the result is orthogonal. -/
theorem C65_orthogonal_partial {a b : List ℂ} (hab : a.length = b.length) (h : (∀ x ∈ a, x = 0) ∨ ∀ x ∈ b, x = 0) :
    inner' ([a, b] : List (List ℂ)).flatten (orthogonalizetaps [a, b]).flatten = 0 := by
  have hz : ∀ (l l' : List ℂ), (∀ x ∈ l, x = 0) → inner' l l' = 0 := by
    intro l
    induction l with
    | nil => intro l' _; simp [inner']
    | cons x l ih =>
      intro l' hl
      cases l' with
      | nil => simp [inner']
      | cons y l' =>
        have := ih l' (fun z hz => hl z (by simp [hz]))
        rw [inner'] at this ⊢
        rw [List.zipWith_cons_cons, List.sum_cons, this, hl x (by simp), zero_mul, add_zero]
  have hz' : ∀ (l l' : List ℂ), (∀ x ∈ l', x = 0) → inner' l l' = 0 := by
    intro l
    induction l with
    | nil => intro l' _; simp [inner']
    | cons x l ih =>
      intro l' hl
      cases l' with
      | nil => simp [inner']
      | cons y l' =>
        have := ih l' (fun z hz => hl z (by simp [hz]))
        rw [inner'] at this ⊢
        rw [List.zipWith_cons_cons, List.sum_cons, this, hl y (by simp), star_zero, mul_zero, add_zero]
  have e : inner' ([a, b] : List (List ℂ)).flatten (orthogonalizetaps [a, b]).flatten
      = inner' a (b.reverse.map star) + inner' b (a.reverse.map star) := by
    simp only [orthogonalizetaps, inner', List.reverse_cons, List.reverse_nil, List.nil_append, List.cons_append, List.map_cons, List.map_nil,
      List.flatten_cons, List.flatten_nil, List.append_nil]
    rw [List.zipWith_append (by simp [hab]), List.sum_append]
  rw [e]
  rcases h with h | h
  · rw [hz a _ h, hz' b, add_zero]
    intro x hx
    simp only [List.mem_map, List.mem_reverse] at hx
    obtain ⟨y, hy, rfl⟩ := hx
    rw [h y hy, star_zero]
  · rw [hz b _ h, hz' a, add_zero]
    intro x hx
    simp only [List.mem_map, List.mem_reverse] at hx
    obtain ⟨y, hy, rfl⟩ := hx
    rw [h y hy, star_zero]

example : inner' ([[0, 1, 0], [0, 0, 0]] : List (List ℂ)).flatten (orthogonalizetaps [[0, 1, 0], [0, 0, 0]]).flatten = 0 :=
  C65_orthogonal_partial rfl (Or.inr (by simp))

end Qampy
