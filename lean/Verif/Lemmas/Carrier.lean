import Verif.Lemmas.Phase
import Verif.Lemmas.Pilots

/-!
Lemmas about the pilot based phase recovery: the used positions and reference pilots, the unwrapped phase of a slowly varying carrier,
interpolation.
-/

namespace Qampy

open Complex (I)

/-! ### Strided slices -/

theorem strided_map {α β : Type _} (f : α → β) (l : List α) (k : Nat) : Np.strided (l.map f) k = (Np.strided l k).map f := by
  simp only [Np.strided, List.length_map, List.getElem?_map, List.map_filterMap]

theorem strided_sublist {α : Type _} (l : List α) (k : Nat) : (Np.strided l k).Sublist l := by
  have h : (List.range l.length).filterMap (fun i => l[i]?) = l := by
    induction l with
    | nil => rfl
    | cons a l ih =>
      rw [List.length_cons, List.range_succ_eq_map, List.filterMap_cons]
      simpa [List.filterMap_map, Function.comp_def] using ih
  conv_rhs => rw [← h]
  exact List.Sublist.filterMap _ List.filter_sublist

theorem length_strided {α : Type _} (l : List α) (k : Nat) (hk : 1 ≤ k) : (Np.strided l k).length = (l.length + k - 1) / k := by
  have h1 : ∀ is : List Nat, (∀ i ∈ is, i < l.length) → (is.filterMap fun i => l[i]?).length = is.length := by
    intro is
    induction is with
    | nil => simp
    | cons a is ih =>
      intro h
      have ha := h a (by simp)
      simp [List.getElem?_eq_getElem ha, ih (fun i hi => h i (by simp [hi]))]
  have h2 : ∀ n, ((List.range n).filter fun i => i % k = 0).length = (n + k - 1) / k := by
    intro n
    induction n with
    | zero => rw [Nat.div_eq_of_lt (by omega)]; rfl
    | succ n ih =>
      rw [List.range_succ, List.filter_append, List.length_append, ih, show n + 1 + k - 1 = (n + k - 1) + 1 by omega, Nat.succ_div,
        show n + k - 1 + 1 = n + k by omega]
      congr 1
      by_cases h : n % k = 0
      · rw [if_pos (by rw [Nat.dvd_iff_mod_eq_zero]; simpa using h)]; simp [h]
      · rw [if_neg (by rw [Nat.dvd_iff_mod_eq_zero]; simpa using h)]; simp [h]
  rw [Np.strided, h1 _ (by intro i hi; simpa using (List.mem_filter.1 hi).1), h2]

theorem strided_one {α : Type _} (l : List α) : Np.strided l 1 = l :=
  List.Sublist.eq_of_length (strided_sublist l 1) (by rw [length_strided l 1 le_rfl]; simp)

theorem strided_take_prefix {α : Type _} (l : List α) (m k : Nat) : Np.strided (l.take m) k <+: Np.strided l k := by
  unfold Np.strided
  have e : ((List.range (l.take m).length).filter fun i => i % k = 0).filterMap (fun i => (l.take m)[i]?) =
      ((List.range (l.take m).length).filter fun i => i % k = 0).filterMap (fun i => l[i]?) := by
    apply List.filterMap_congr
    intro i hi
    have : i < (l.take m).length := by simpa using (List.mem_filter.1 hi).1
    rw [List.length_take] at this
    rw [List.getElem?_take_of_lt (by omega)]
  rw [e]
  apply List.IsPrefix.filterMap
  apply List.IsPrefix.filter
  rw [List.length_take]
  obtain ⟨d, hd⟩ : ∃ d, l.length = min m l.length + d := ⟨l.length - min m l.length, by omega⟩
  conv_rhs => rw [hd, List.range_add]
  exact List.prefix_append _ _

/-! ### Positions of the pilots -/

theorem filter_lt_prefix (l : List Nat) (n : Nat) (h : l.Pairwise (· < ·)) : l.filter (fun i => decide (i < n)) <+: l := by
  induction l with
  | nil => simp
  | cons a l ih =>
    obtain ⟨h1, h2⟩ := List.pairwise_cons.1 h
    by_cases ha : a < n
    · rw [List.filter_cons_of_pos (by simpa using ha)]
      exact (List.prefix_cons_inj a).2 (ih h2)
    · rw [List.filter_eq_nil_iff.2]
      · exact List.nil_prefix
      · intro x hx
        rcases List.mem_cons.1 hx with rfl | hx
        · simpa using ha
        · have := h1 x hx
          simp; omega

/-- The pilots of all frames with their positions. -/
def pilotPairs (P : List (Nat × ℂ)) (frameLen nframes ratio : Nat) : List (Nat × ℂ) :=
  (List.range nframes).flatMap fun f => (Np.strided P ratio).map fun p => (p.1 + f * frameLen, p.2)

theorem pilotPairs_snd (P : List (Nat × ℂ)) (frameLen nframes ratio : Nat) :
    (pilotPairs P frameLen nframes ratio).map Prod.snd = Np.tile (Np.strided (P.map Prod.snd) ratio) nframes := by
  unfold pilotPairs
  induction nframes with
  | zero => simp [Np.tile]
  | succ n ih =>
    rw [List.range_succ, List.flatMap_append, List.map_append, ih, tile_succ', strided_map]
    simp [Function.comp_def]

theorem pilotPairs_fst (P : List (Nat × ℂ)) (frameLen nframes ratio : Nat) :
    (pilotPairs P frameLen nframes ratio).map Prod.fst =
      (List.range nframes).flatMap fun f => (Np.strided (P.map Prod.fst) ratio).map fun i => i + f * frameLen := by
  unfold pilotPairs
  rw [List.map_flatMap]
  congr 1
  funext f
  rw [strided_map]
  simp [Function.comp_def]

theorem frames_pairwise (s : List Nat) (frameLen nframes : Nat) (hs : s.Pairwise (· < ·)) (hlt : ∀ i ∈ s, i < frameLen) :
    ((List.range nframes).flatMap fun f => s.map fun i => i + f * frameLen).Pairwise (· < ·) := by
  rw [List.pairwise_flatMap]
  constructor
  · intro f _
    rw [List.pairwise_map]
    exact hs.imp (by intro a b h; omega)
  · apply List.pairwise_lt_range.imp
    intro a b hab x hx y hy
    obtain ⟨i, hi, rfl⟩ := List.mem_map.1 hx
    obtain ⟨j, hj, rfl⟩ := List.mem_map.1 hy
    have := hlt i hi
    have h2 : (a + 1) * frameLen ≤ b * frameLen := Nat.mul_le_mul_right _ hab
    rw [Nat.add_mul] at h2
    omega

/-- The used positions are a first part of the positions of all pilots, in the same order as the reference pilots. -/
theorem cpePilotIdx_prefix (P : List (Nat × ℂ)) (frameLen nframes ratio nlen : Nat) (maxBlocks : Option Nat)
    (hs : (P.map Prod.fst).Pairwise (· < ·)) (hlt : ∀ p ∈ P, p.1 < frameLen)
    (hmax : ∀ m, maxBlocks = some m → P.length ≤ m ∨ nframes ≤ 1) :
    cpePilotIdx (P.map Prod.fst) frameLen nframes ratio nlen maxBlocks <+: (pilotPairs P frameLen nframes ratio).map Prod.fst ∧
    (cpePilotIdx (P.map Prod.fst) frameLen nframes ratio nlen maxBlocks).Pairwise (· < ·) ∧
    ∀ i ∈ cpePilotIdx (P.map Prod.fst) frameLen nframes ratio nlen maxBlocks, i < nlen := by
  unfold cpePilotIdx
  simp only
  set sel := (match maxBlocks with
    | none => P.map Prod.fst
    | some m => (P.map Prod.fst).take m) with hsel
  have hsub : sel.Sublist (P.map Prod.fst) := by
    rw [hsel]
    cases maxBlocks with
    | none => exact List.Sublist.refl _
    | some m => exact List.take_sublist _ _
  have hstr : (Np.strided sel ratio).Sublist (P.map Prod.fst) := (strided_sublist _ _).trans hsub
  have hpw : (Np.strided sel ratio).Pairwise (· < ·) := hs.sublist hstr
  have hlt' : ∀ i ∈ Np.strided sel ratio, i < frameLen := by
    intro i hi
    obtain ⟨p, hp, rfl⟩ := List.mem_map.1 (hstr.subset hi)
    exact hlt p hp
  have hfull := frames_pairwise _ frameLen nframes hpw hlt'
  have hpre := filter_lt_prefix _ nlen hfull
  refine ⟨hpre.trans ?_, hfull.sublist List.filter_sublist, ?_⟩
  · rw [pilotPairs_fst]
    cases maxBlocks with
    | none => exact List.prefix_refl _
    | some m =>
      rcases hmax m rfl with h | h
      · have : sel = P.map Prod.fst := by
          rw [hsel]
          exact List.take_of_length_le (by simpa using h)
        rw [this]
      · have hp := strided_take_prefix (P.map Prod.fst) m ratio
        obtain h | h : nframes = 0 ∨ nframes = 1 := by omega
        · subst h; simp
        · subst h
          simpa [hsel] using hp
  · intro i hi
    simpa using (List.mem_filter.1 hi).2

/-! ### Unwrapping a slowly varying phase -/

theorem unwrap_slow (l : List ℝ) (g : Nat → ℝ) (hl : ∀ j x, l[j]? = some x → ∃ k : ℤ, x = g j + 2 * Real.pi * k)
    (hg : ∀ j, j + 1 < l.length → |g (j + 1) - g j| < Real.pi) :
    ∃ K : ℤ, unwrap l = (List.range l.length).map fun j => g j + 2 * Real.pi * K := by
  have hp := Real.pi_pos
  have h1 : ∀ j, j < l.length → ∃ K : ℤ, (unwrap l)[j]? = some (g j + 2 * Real.pi * K) := by
    intro j hj
    obtain ⟨k, hk⟩ := hl j _ (List.getElem?_eq_getElem hj)
    obtain ⟨k', hk'⟩ := unwrap_mul l j _ (List.getElem?_eq_getElem hj)
    refine ⟨k + k', ?_⟩
    rw [hk', hk]
    congr 1
    push_cast
    ring
  by_cases h0 : l.length = 0
  · obtain rfl := List.length_eq_zero_iff.1 h0
    exact ⟨0, by simp [unwrap]⟩
  obtain ⟨K, hK⟩ := h1 0 (by omega)
  have h2 : ∀ j, j < l.length → (unwrap l)[j]? = some (g j + 2 * Real.pi * K) := by
    intro j
    induction j with
    | zero => intro _; exact hK
    | succ j ih =>
      intro hj
      obtain ⟨K', hK'⟩ := h1 (j + 1) hj
      have hj' := ih (by omega)
      have hc := List.isChain_iff_getElem.1 (unwrap_chain l) j (by simpa using hj)
      have e1 := (List.getElem?_eq_some_iff.1 hK').2
      have e2 := (List.getElem?_eq_some_iff.1 hj').2
      rw [e1, e2] at hc
      have hgj := hg j hj
      have : K' = K := by
        rw [abs_le] at hc
        rw [abs_lt] at hgj
        have a1 : (K' : ℝ) - K < 1 := by
          by_contra hcon
          nlinarith
        have a2 : -1 < (K' : ℝ) - K := by
          by_contra hcon
          nlinarith
        have b1 : K' - K < 1 := by exact_mod_cast a1
        have b2 : -1 < K' - K := by exact_mod_cast a2
        omega
      rw [hK', this]
  refine ⟨K, ?_⟩
  apply List.ext_getElem?
  intro j
  by_cases hj : j < l.length
  · rw [h2 j hj, List.getElem?_map, List.getElem?_range hj]; rfl
  · rw [List.getElem?_eq_none (by simpa using hj), List.getElem?_eq_none (by simpa using hj)]

/-! ### Interpolation -/

theorem interp_const (x c : ℝ) (l : List (ℝ × ℝ)) (hl : l ≠ []) (h : ∀ p ∈ l, p.2 = c) : interp x l = some c := by
  induction l with
  | nil => exact absurd rfl hl
  | cons p l ih =>
    cases l with
    | nil => simp [interp, h p (by simp)]
    | cons q l =>
      have hp := h p (by simp)
      have hq := h q (by simp)
      unfold interp
      rw [hp, hq, ih (by simp) (fun r hr => h r (by simp [hr]))]
      simp

theorem interp_affine (x a b : ℝ) (l : List (ℝ × ℝ)) (h : ∀ p ∈ l, p.2 = a + b * p.1) (hs : (l.map Prod.fst).Pairwise (· < ·))
    (p q : ℝ × ℝ) (hp : l.head? = some p) (hq : l.getLast? = some q) (hx : p.1 ≤ x) (hx2 : x ≤ q.1) :
    interp x l = some (a + b * x) := by
  induction l generalizing p with
  | nil => simp at hp
  | cons p' l ih =>
    obtain rfl : p' = p := by simpa using hp
    cases l with
    | nil =>
      obtain rfl : p' = q := by simpa using hq
      have : x = p'.1 := le_antisymm hx2 hx
      simp [interp, h p' (by simp), this]
    | cons r l =>
      have e1 := h p' (by simp)
      have e2 := h r (by simp)
      have hpr : p'.1 < r.1 := by
        simp only [List.map_cons, List.pairwise_cons] at hs
        exact hs.1 r.1 (by simp)
      unfold interp
      by_cases c1 : x ≤ p'.1
      · rw [if_pos c1, e1, le_antisymm c1 hx]
      · rw [if_neg c1]
        by_cases c2 : x < r.1
        · rw [if_pos c2, e1, e2]
          have : r.1 - p'.1 ≠ 0 := by linarith
          congr 1
          field_simp
          ring
        · rw [if_neg c2]
          exact ih (fun s hs => h s (by simp [hs])) (List.pairwise_cons.1 hs).2 r rfl (by simpa using hq) (not_lt.1 c2)

/-! ### The phase of a pilot -/

theorem arg_pilot (p : ℂ) (hp : p ≠ 0) (θ : ℝ) :
    ∃ k : ℤ, Complex.arg ((starRingEnd ℂ) p * (p * Complex.exp (I * (θ : ℂ)))) = θ + 2 * Real.pi * k := by
  have h : (starRingEnd ℂ) p * (p * Complex.exp (I * (θ : ℂ))) = ((‖p‖ ^ 2 : ℝ) : ℂ) * Complex.exp ((θ : ℂ) * I) := by
    rw [← mul_assoc, mul_comm ((starRingEnd ℂ) p), Complex.mul_conj, Complex.normSq_eq_norm_sq, mul_comm I]
  have hn : 0 < ‖p‖ ^ 2 := by positivity
  have e := self_sub_toIocDiv_zsmul Real.two_pi_pos (-Real.pi) θ
  rw [zsmul_eq_mul] at e
  rw [h, Complex.arg_real_mul _ hn, Complex.arg_exp]
  have him : ((θ : ℂ) * I).im = θ := by simp
  rw [him, ← e]
  refine ⟨-toIocDiv Real.two_pi_pos (-Real.pi) θ, ?_⟩
  push_cast
  ring

/-- One mode of the pilot based phase recovery for a signal with a slowly varying carrier phase `θ`: the averaged pilot phases and the
interpolated trace. -/
theorem cpeMode_slow (tx pilots : List ℂ) (θ : Nat → ℝ) (idx : List Nat) (N nlen nkeep ratio nframes : Nat)
    (hidx : ∀ i ∈ idx, i < nlen) (hnlen : nlen ≤ tx.length)
    (hrl : idx.length ≤ (Np.tile (Np.strided pilots ratio) nframes).length)
    (href : ∀ (j i : Nat) (p : ℂ), idx[j]? = some i → (Np.tile (Np.strided pilots ratio) nframes)[j]? = some p →
      tx[i]? = some p ∧ p ≠ 0)
    (hslow : ∀ (j i i' : Nat), idx[j]? = some i → idx[j + 1]? = some i' → |θ i' - θ i| < Real.pi)
    (hN : 1 ≤ N) (hodd : N % 2 = 1) (hcount : N ≤ idx.length) :
    ∃ (K : ℤ) (avg tr : List ℝ),
      cpeMode (tx.mapIdx fun n x => x * Complex.exp (I * (θ n : ℂ))) pilots idx N nlen nkeep ratio nframes =
        .ok ((rotateBy ((tx.mapIdx fun n x => x * Complex.exp (I * (θ n : ℂ))).take nlen) (tr.map (- ·))).take nkeep,
          tr.take nkeep) ∧
      avg.length = idx.length + 1 - N ∧
      (∀ i, i + N ≤ idx.length →
        avg[i]? = some ((∑ j ∈ Finset.range N, (θ (idx.getD (i + j) 0) + 2 * Real.pi * K)) / N)) ∧
      tr.length = nlen ∧
      ∀ n : Nat, n < nlen → interp (n : ℝ)
        (List.zip (((idx.drop ((N - 1) / 2)).take (idx.length - 2 * ((N - 1) / 2))).map fun i : Nat => (i : ℝ)) avg) = tr[n]? := by
  set rx := tx.mapIdx fun n x => x * Complex.exp (I * (θ n : ℂ)) with hrx
  have hrxl : rx.length = tx.length := by simp [hrx]
  have hrec : fancyIndex idx rx = .ok (idx.map fun i => rx.getD i 0) := by
    apply fancyIndex_map
    rw [List.map_map]
    apply List.map_congr_left
    intro i hi
    have : i < rx.length := by rw [hrxl]; exact lt_of_lt_of_le (hidx i hi) hnlen
    simp [List.getElem?_eq_getElem this]
  set ref := (Np.tile (Np.strided pilots ratio) nframes).take idx.length with hrefdef
  have hrefl : ref.length = idx.length := by rw [hrefdef, List.length_take]; omega
  -- phases of the pilots
  have hphase : ∃ K : ℤ, pilotPhase ref (idx.map fun i => rx.getD i 0) =
      (List.range idx.length).map fun j => θ (idx.getD j 0) + 2 * Real.pi * K := by
    unfold pilotPhase
    have hlen : (List.zipWith (fun p r => Complex.arg ((starRingEnd ℂ) p * r)) ref (idx.map fun i => rx.getD i 0)).length =
        idx.length := by simp [hrefl]
    obtain ⟨K, hK⟩ := unwrap_slow (List.zipWith (fun p r => Complex.arg ((starRingEnd ℂ) p * r)) ref
        (idx.map fun i => rx.getD i 0)) (fun j => θ (idx.getD j 0)) (by
      intro j x hx
      have hj : j < idx.length := by
        have := (List.getElem?_eq_some_iff.1 hx).1
        rwa [hlen] at this
      have h1 : idx[j]? = some idx[j] := List.getElem?_eq_getElem hj
      have h2 : ref[j]? = some (ref[j]'(by rw [hrefl]; exact hj)) := List.getElem?_eq_getElem _
      set p := ref[j]'(by rw [hrefl]; exact hj) with hp
      have h3 : (Np.tile (Np.strided pilots ratio) nframes)[j]? = some p := by
        rw [hrefdef, List.getElem?_take_of_lt hj] at h2
        exact h2
      obtain ⟨h4, h5⟩ := href j _ p h1 h3
      have h6 : rx.getD idx[j] 0 = p * Complex.exp (I * (θ idx[j] : ℂ)) := by
        simp [hrx, List.getElem?_mapIdx, h4]
      rw [List.getElem?_zipWith, h2, List.getElem?_map, h1] at hx
      simp only [Option.map_some, Option.some.injEq] at hx
      rw [h6] at hx
      obtain ⟨k, hk⟩ := arg_pilot p h5 (θ idx[j])
      refine ⟨k, ?_⟩
      rw [← hx, hk]
      simp [h1]) (by
      intro j hj
      rw [hlen] at hj
      have h1 : idx[j]? = some idx[j] := List.getElem?_eq_getElem (by omega)
      have h2 : idx[j + 1]? = some idx[j + 1] := List.getElem?_eq_getElem hj
      simpa [h1, h2] using hslow j _ _ h1 h2)
    rw [hlen] at hK
    exact ⟨K, hK⟩
  obtain ⟨K, hK⟩ := hphase
  obtain ⟨avg, ha1, ha2, ha3⟩ := movingAverage_spec (pilotPhase ref (idx.map fun i => rx.getD i 0)) N hN
  rw [hK, List.length_map, List.length_range] at ha2 ha3
  have hidxl : ((idx.drop ((N - 1) / 2)).take (idx.length - 2 * ((N - 1) / 2))).length = avg.length := by
    rw [List.length_take, List.length_drop, ha2]; omega
  have hne : List.zip (((idx.drop ((N - 1) / 2)).take (idx.length - 2 * ((N - 1) / 2))).map fun i : Nat => (i : ℝ)) avg ≠ [] := by
    rw [← List.length_pos_iff, List.length_zip, List.length_map, hidxl, ha2]; omega
  have hinterp : ∀ (l : List (ℝ × ℝ)), l ≠ [] → ∀ x, ∃ y, interp x l = some y := by
    intro l
    induction l with
    | nil => intro h; exact absurd rfl h
    | cons p l ih =>
      intro _ x
      cases l with
      | nil => exact ⟨_, rfl⟩
      | cons q l =>
        unfold interp
        split_ifs
        · exact ⟨_, rfl⟩
        · exact ⟨_, rfl⟩
        · exact ih (by simp) x
  choose F hF using hinterp _ hne
  have htr : (List.range nlen).mapM (fun n : Nat => (interp (n : ℝ)
        (List.zip (((idx.drop ((N - 1) / 2)).take (idx.length - 2 * ((N - 1) / 2))).map fun i : Nat => (i : ℝ)) avg)).elim
          (.error .value) (.ok : ℝ → Except PyErr ℝ)) = .ok ((List.range nlen).map fun n : Nat => F n) := by
    have : ∀ l : List Nat, l.mapM (fun n : Nat => (interp (n : ℝ)
        (List.zip (((idx.drop ((N - 1) / 2)).take (idx.length - 2 * ((N - 1) / 2))).map fun i : Nat => (i : ℝ)) avg)).elim
          (.error .value) (.ok : ℝ → Except PyErr ℝ)) = .ok (l.map fun n : Nat => F n) := by
      intro l
      induction l with
      | nil => rfl
      | cons a l ih =>
        rw [List.mapM_cons, ih, hF]
        rfl
    exact this _
  refine ⟨K, avg, (List.range nlen).map fun n : Nat => F n, ?_, ha2, ?_, by simp, ?_⟩
  · unfold cpeMode
    simp only [hrec, List.length_map, bind, Except.bind, pure, Except.pure, ← hrefdef, hrefl]
    rw [if_neg (by simp), if_neg (by omega)]
    simp only [ha1, Option.elim_some, hidxl]
    rw [if_neg (by simp)]
    simp only [htr]
  · intro i hi
    rw [ha3 i hi]
    congr 2
    apply Finset.sum_congr rfl
    intro j hj
    have := Finset.mem_range.1 hj
    rw [List.getD_eq_getElem?_getD, List.getElem?_map, List.getElem?_range (by omega)]
    rfl
  · intro n hn
    rw [hF, List.getElem?_map, List.getElem?_range hn]
    rfl

end Qampy
