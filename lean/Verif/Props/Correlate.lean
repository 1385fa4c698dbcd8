import Verif.Lemmas.Correlate
import Verif.Props.Sync
import Verif.Tactics

/-!
Properties C03 and C04: correlation based synchronisation.
-/

set_option linter.unusedSectionVars false

namespace Qampy

/-! ### C04 -/

/-- `y`, multiplied by some unit-modulus factor, is the block of `x` starting at `p`. -/
def OccursUpToPhase (y x : List ℂ) (p : Nat) : Prop :=
  ∃ c : ℂ, ‖c‖ = 1 ∧ OccursAt (y.map (c * ·)) x p

theorem occursAt_iff {α : Type _} (y x : List α) (p : Nat) :
    OccursAt y x p ↔ p + y.length ≤ x.length ∧ ∀ j, j < y.length → x[p + j]? = y[j]? := by
  constructor
  · rintro ⟨pre, post, rfl, rfl⟩
    refine ⟨by simp, fun j hj => ?_⟩
    rw [List.append_assoc, List.getElem?_append_right (by omega), List.getElem?_append_left (by omega)]
    congr 1; omega
  · rintro ⟨h1, h2⟩
    refine ⟨x.take p, x.drop (p + y.length), ?_, by simp; omega⟩
    apply List.ext_getElem?
    intro i
    by_cases hi : i < p
    · rw [List.append_assoc, List.getElem?_append_left (by simp; omega), List.getElem?_take, if_pos hi]
    · rw [List.append_assoc, List.getElem?_append_right (by simp; omega)]
      have hl : (x.take p).length = p := by simp; omega
      rw [hl]
      by_cases hj : i - p < y.length
      · rw [List.getElem?_append_left hj, ← h2 _ hj]
        congr 1; omega
      · rw [List.getElem?_append_right (by omega), List.getElem?_drop]
        congr 1; omega

theorem corrAt_occurs {x y : List ℂ} {p : Nat} {c : ℂ}
    (hx : ∀ a ∈ x, ‖a‖ = 1) (hc : ‖c‖ = 1) (h : OccursAt (y.map (c * ·)) x p) :
    corrAt x y p = y.length * c := by
  obtain ⟨h1, h2⟩ := (occursAt_iff _ _ _).1 h
  simp only [List.length_map] at h1 h2
  have : ∀ j ∈ Finset.range y.length, xat x ((p : Int) + j) * (starRingEnd ℂ) (y.getD j 0) = c := by
    intro j hj
    rw [Finset.mem_range] at hj
    have e := h2 j hj
    rw [List.getElem?_map, List.getElem?_eq_getElem hj] at e
    have hxat : xat x ((p : Int) + j) = c * y[j] := by
      simp only [xat]
      rw [if_pos (by omega), List.getD_eq_getElem?_getD]
      have : ((p : Int) + j).toNat = p + j := by omega
      rw [this, e]; rfl
    have hyn : ‖y[j]‖ = 1 := by
      have hmem := hx _ (List.mem_of_getElem? e)
      rw [norm_mul, hc, one_mul] at hmem
      exact hmem
    have hyD : y.getD j 0 = y[j] := by
      rw [List.getD_eq_getElem?_getD, List.getElem?_eq_getElem hj]; rfl
    rw [hxat, hyD, mul_assoc, Complex.mul_conj, Complex.normSq_eq_norm_sq, hyn]
    simp
  rw [corrAt, Finset.sum_congr rfl this]
  simp

theorem norm_xat_le {x : List ℂ} (hx : ∀ a ∈ x, ‖a‖ = 1) (k : Int) : ‖xat x k‖ ≤ 1 := by
  simp only [xat]
  split
  · rw [List.getD_eq_getElem?_getD]
    cases h : x[k.toNat]? with
    | none => simp
    | some a => simpa using (hx a (List.mem_of_getElem? h)).le
  · simp

theorem norm_getD_le {y : List ℂ} (hy : ∀ a ∈ y, ‖a‖ = 1) (k : Nat) : ‖y.getD k 0‖ ≤ 1 := by
  rw [List.getD_eq_getElem?_getD]
  cases h : y[k]? with
  | none => simp
  | some a => simpa using (hy a (List.mem_of_getElem? h)).le

theorem norm_corrAt_le {x y : List ℂ} (hx : ∀ a ∈ x, ‖a‖ = 1) (hy : ∀ a ∈ y, ‖a‖ = 1) (k : Int) :
    ‖corrAt x y k‖ ≤ y.length := by
  calc ‖corrAt x y k‖ ≤ ∑ j ∈ Finset.range y.length, ‖xat x (k + j) * (starRingEnd ℂ) (y.getD j 0)‖ :=
        norm_sum_le _ _
    _ ≤ ∑ j ∈ Finset.range y.length, (1 : ℝ) := by
        apply Finset.sum_le_sum
        intro j _
        rw [norm_mul, RCLike.norm_conj]
        exact mul_le_one₀ (norm_xat_le hx _) (norm_nonneg _) (norm_getD_le hy _)
    _ = y.length := by simp

/-- A lag with maximal correlation is an occurrence up to a phase. -/
theorem occurs_of_norm_corrAt {x y : List ℂ} (hyne : y ≠ []) (hx : ∀ a ∈ x, ‖a‖ = 1) (hy : ∀ a ∈ y, ‖a‖ = 1)
    (k : Int) (h : (y.length : ℝ) ≤ ‖corrAt x y k‖) :
    ∃ p : Nat, (p : Int) = k ∧ ∃ c : ℂ, ‖c‖ = 1 ∧ OccursAt (y.map (c * ·)) x p := by
  have hyl : 0 < y.length := List.length_pos_iff.2 hyne
  obtain ⟨c, hc, hz⟩ := all_eq_of_norm_sum_eq hyl (fun j => xat x (k + j) * (starRingEnd ℂ) (y.getD j 0))
    (fun j _ => by
      rw [norm_mul, RCLike.norm_conj]
      exact mul_le_one₀ (norm_xat_le hx _) (norm_nonneg _) (norm_getD_le hy _)) h
  have hne : ∀ j < y.length, xat x (k + j) ≠ 0 := by
    intro j hj h0
    have := hz j hj
    rw [h0, zero_mul] at this
    rw [← this] at hc
    simp at hc
  have hk : 0 ≤ k := by
    have := hne 0 hyl
    by_contra hk
    simp [xat, hk] at this
  obtain ⟨p, rfl⟩ := Int.eq_ofNat_of_zero_le hk
  refine ⟨p, rfl, c, hc, (occursAt_iff _ _ _).2 ?_⟩
  have hval : ∀ j < y.length, ∃ a, x[p + j]? = some a ∧ xat x ((p : Int) + j) = a := by
    intro j hj
    have h0 := hne j hj
    simp only [xat] at h0 ⊢
    rw [if_pos (by omega)] at h0 ⊢
    have e : ((p : Int) + j).toNat = p + j := by omega
    rw [e, List.getD_eq_getElem?_getD] at h0 ⊢
    cases hg : x[p + j]? with
    | none => rw [hg] at h0; simp at h0
    | some a => exact ⟨a, rfl, by simp⟩
  refine ⟨?_, ?_⟩
  · obtain ⟨a, ha, -⟩ := hval (y.length - 1) (by omega)
    have := (List.getElem?_eq_some_iff.1 ha).1
    simp; omega
  · intro j hj
    simp only [List.length_map] at hj
    obtain ⟨a, ha, hxa⟩ := hval j hj
    rw [ha, List.getElem?_map, List.getElem?_eq_getElem hj]
    have e := hz j hj
    have hyD : y.getD j 0 = y[j] := by
      rw [List.getD_eq_getElem?_getD, List.getElem?_eq_getElem hj]; rfl
    simp only [hxa, hyD] at e
    have hyn : ‖y[j]‖ = 1 := hy _ (List.getElem_mem hj)
    have : a = c * y[j] := by
      rw [← e, mul_assoc, mul_comm ((starRingEnd ℂ) _), Complex.mul_conj, Complex.normSq_eq_norm_sq, hyn]
      simp
    simp [this]

theorem unit_of_occurs {x y : List ℂ} (hx : ∀ a ∈ x, ‖a‖ = 1) {c : ℂ} (hc : ‖c‖ = 1) {p : Nat}
    (h : OccursAt (y.map (c * ·)) x p) : ∀ a ∈ y, ‖a‖ = 1 := by
  obtain ⟨pre, post, he, -⟩ := h
  intro a ha
  have hm : c * a ∈ x := by
    rw [he]
    simp only [List.mem_append, List.mem_map]
    exact Or.inl (Or.inr ⟨a, ha, rfl⟩)
  have := hx _ hm
  rwa [norm_mul, hc, one_mul] at this

theorem crossCorr_complex_mem {x y : List ℂ} (hx : x ≠ []) (hy : y ≠ []) {v : ℂ}
    (h : v ∈ crossCorr complexOps x y) : ∃ k : Int, v = corrAt x y k := by
  obtain ⟨n, hn⟩ := List.getElem?_of_mem h
  have hlt : n < x.length + y.length - 1 := by
    rw [← length_crossCorr complexOps x y hx hy]
    exact (List.getElem?_eq_some_iff.1 hn).1
  rw [crossCorr_getElem? _ _ _ hx hy n hlt] at hn
  exact ⟨(n : Int) - (y.length - 1), by simpa [corrAt, complexOps] using hn.symm⟩

theorem crossCorr_complex_lag {x y : List ℂ} (hx : x ≠ []) (hy : y ≠ []) (p : Nat)
    (hp : p + y.length ≤ x.length) : corrAt x y p ∈ crossCorr complexOps x y := by
  have hyl : 0 < y.length := List.length_pos_iff.2 hy
  have := crossCorr_getElem? complexOps x y hx hy (p + (y.length - 1)) (by omega)
  have e : (((p + (y.length - 1) : Nat) : Int) - (y.length - 1)) = p := by omega
  rw [e] at this
  exact List.mem_of_getElem? this

/-- **C04**: all samples of `x` have modulus one and `y` (up to a unit factor) is a block of `x`.
Then `find_sequence_offset(x, y)` returns an index at which the block of `x` is `y` up to one common
unit-modulus factor. -/
theorem C04_find_sequence_offset (x y : List ℂ) (hy : y ≠ []) (hx : ∀ a ∈ x, ‖a‖ = 1) (p : Nat)
    (h : OccursUpToPhase y x p) :
    ∃ o : Nat, findSequenceOffset complexOps x y = .ok (o : Int) ∧ OccursUpToPhase y x o := by
  obtain ⟨c, hc, hocc⟩ := h
  have hyu := unit_of_occurs hx hc hocc
  have hle := ((occursAt_iff _ _ _).1 hocc).1
  simp only [List.length_map] at hle
  have hyl : 0 < y.length := List.length_pos_iff.2 hy
  have hxne : x ≠ [] := by
    rintro rfl
    have := List.length_nil (α := ℂ)
    omega
  have hmem := crossCorr_complex_lag hxne hy p hle
  obtain ⟨m, hm⟩ := Np.argmax_isSome (l := (crossCorr complexOps x y).map complexOps.mag)
    (by simpa using List.ne_nil_of_mem hmem)
  obtain ⟨v, hv, hmax, -⟩ := Np.argmax_spec hm
  have hge : (y.length : ℝ) ≤ v := by
    have := hmax _ (List.mem_map_of_mem hmem)
    simp only [complexOps] at this
    rw [corrAt_occurs hx hc hocc, norm_mul, hc] at this
    simpa using this
  have hmlt : m < x.length + y.length - 1 := by
    have := Np.argmax_lt hm
    rwa [List.length_map, length_crossCorr _ _ _ hxne hy] at this
  rw [List.getElem?_map, crossCorr_getElem? _ _ _ hxne hy m hmlt] at hv
  have hv' : v = ‖corrAt x y ((m : Int) - (y.length - 1))‖ := by
    simpa [corrAt, complexOps] using hv.symm
  rw [hv'] at hge
  obtain ⟨o, ho, c', hc', hocc'⟩ := occurs_of_norm_corrAt hy hx hyu _ hge
  refine ⟨o, ?_, c', hc', hocc'⟩
  simp only [findSequenceOffset, hm, ho]

/-- **C04** (unique occurrence): if `y` occurs only at `p`, then `p` is returned. -/
theorem C04_find_sequence_offset_unique (x y : List ℂ) (hy : y ≠ []) (hx : ∀ a ∈ x, ‖a‖ = 1) (p : Nat)
    (h : OccursUpToPhase y x p) (huniq : ∀ q, OccursUpToPhase y x q → q = p) :
    findSequenceOffset complexOps x y = .ok (p : Int) := by
  obtain ⟨o, ho, hocc⟩ := C04_find_sequence_offset x y hy hx p h
  rw [ho, huniq o hocc]

-- non-vacuity: `[1, -1]` sits in `[1, 1, -1]` exactly once up to a factor
example : (∀ a ∈ ([1, 1, -1] : List ℂ), ‖a‖ = 1) ∧ OccursUpToPhase [1, -1] [1, 1, -1] 1 ∧
    ∀ q, OccursUpToPhase [1, -1] [1, 1, -1] q → q = 1 := by
  refine ⟨by simp, ⟨1, by simp, [1], [], by simp, rfl⟩, ?_⟩
  rintro q ⟨c, hc, h⟩
  obtain ⟨h1, h2⟩ := (occursAt_iff _ _ _).1 h
  have hq : q ≤ 1 := by simpa using h1
  interval_cases q
  · have e0 := h2 0 (by simp)
    have e1 := h2 1 (by simp)
    simp at e0 e1
    rw [← e0] at e1
    norm_num at e1
  · rfl

/-! ### C03 -/

variable {R K : Type _} [CommRing R] [LinearOrder K] [Zero K]

/-- `out` is the reference length long and is the pattern `d`, turned by a fixed quarter turn `I^i`, repeated
periodically with its start at some index `k`. -/
def IsAligned (I : R) (d : List R) (n : Nat) (out : List R) : Prop :=
  out.length = n ∧ ∃ i < 4, ∃ k : Int, IsPeriodicExtension (d.map (· * I ^ i)) k out

/-- The full statement of **C03**. -/
def C03_statement (ops : SampleOps R K) (cplx : Bool) : Prop :=
  ∀ (dtx drx t r : List R), dtx ≠ [] → drx ≠ [] →
    (syncAndAdjust ops cplx dtx drx .tx = .ok (t, r) → r = drx ∧ IsAligned ops.I dtx drx.length t) ∧
    (syncAndAdjust ops cplx dtx drx .rx = .ok (t, r) → t = dtx ∧ IsAligned ops.I drx dtx.length r)

/-- **C03 is false**: when the best correlation is at a lag that is a multiple of the pattern length and too close
to the end, the extended sequence is too long (real data: tx `[1, 0]`, rx `[0, 0, 0, 0, 1]`). -/
theorem C03_false : ¬ C03_statement intOps false := by
  intro h
  have h1 := (h [1, 0] [0, 0, 0, 0, 1] [1, 0, 1, 0, 1, 0, 1] [0, 0, 0, 0, 1] (by decide) (by decide)).1
    (by decide)
  exact absurd h1.2.1 (by decide)

theorem roll_periodic {α : Type _} (d : List α) (k : Int) : IsPeriodicExtension d k (Np.roll d k) := by
  intro i hi
  rw [Np.length_roll] at hi
  exact Np.getElem?_roll d k i hi

theorem periodic_take {α : Type _} (d t : List α) (k : Int) (n : Nat) (h : IsPeriodicExtension d k t) :
    IsPeriodicExtension d k (t.take n) := by
  intro i hi
  simp only [List.length_take] at hi
  rw [List.getElem?_take, if_pos (by omega), h i (by omega)]

/-- What `find_sequence_offset_complex` hands on: the input turned by a quarter turn. -/
theorem fsoc_rot (ops : SampleOps R K) (cplx : Bool) (x y d : List R) (off : Int) (ii : Nat) (acm : Option K)
    (h : findSequenceOffsetComplex ops cplx x y = .ok (off, d, ii, acm)) :
    ∃ i < 4, d = y.map (· * ops.I ^ i) := by
  simp only [findSequenceOffsetComplex] at h
  split at h
  · refine ⟨0, by omega, ?_⟩
    cases hf : findSequenceOffset ops x y with
    | error e => rw [hf] at h; simp [bind, Except.bind] at h
    | ok o =>
      rw [hf] at h
      simp only [bind, Except.bind, pure, Except.pure, Except.ok.injEq, Prod.mk.injEq] at h
      rw [← h.2.1]; simp
  · cases hl : rotLoop ops x y [0, 1, 2, 3] none with
    | error e => rw [hl] at h; simp [bind, Except.bind] at h
    | ok st =>
      rw [hl] at h
      cases st with
      | none => simp [bind, Except.bind] at h
      | some s =>
        obtain ⟨i, idx, act⟩ := s
        simp only [bind, Except.bind, Except.ok.injEq, Prod.mk.injEq] at h
        obtain ⟨hs, -⟩ := rotLoop_spec _ _ _ _ _ _ hl
        rcases hs with hs | ⟨i', hi', _, _, hs, -⟩
        · cases hs
        · have : i = i' := by simp at hs; exact hs.1
          refine ⟨i, ?_, h.2.1.symm⟩
          rw [this]
          simp at hi'
          omega

/-- The offset found leaves room for the leading part of the extension (only relevant if the sequence that is
adjusted, of length `n`, is shorter than the reference of length `N`). -/
def OffsetHasRoom (ops : SampleOps R K) (cplx : Bool) (ref d : List R) : Prop :=
  d.length < ref.length → ∀ off d' ii acm, findSequenceOffsetComplex ops cplx ref d = .ok (off, d', ii, acm) →
    off = 0 ∨ frontLen d.length off ≤ ref.length

theorem sync_core_truncate (tx rx : List R) (h : rx.length < tx.length) :
    adjustDataLength tx rx .truncate 0 = .ok (tx.take rx.length, rx) ∧
    adjustDataLength rx tx .truncate 0 = .ok (rx, tx.take rx.length) := by
  have : Np.clamp tx.length (rx.length : Int) = rx.length := by
    simp only [Np.clamp]; rw [if_neg (by omega)]; simp only [Int.toNat_natCast]; omega
  constructor
  · simp only [adjustDataLength, Np.sliceTo, this]; rw [if_pos h]
  · simp only [adjustDataLength, Np.sliceTo, this]; rw [if_neg (by omega), if_pos h]

/-- **C03 (partial)**: `sync_and_adjust` returns the reference sequence unchanged and, in place of the adjusted
one, a sequence of the same length which is a cyclic shift (cut at the end if it was longer) or periodic
extension of the input turned by a quarter turn.  Missing: offsets for which the leading part of the extension is
longer than the reference, where the claim is false (`C03_false`).  The hypothesis always holds if the
adjusted sequence is not the shorter one. -/
theorem C03_sync_and_adjust_partial (ops : SampleOps R K) (cplx : Bool) (dtx drx t r : List R)
    (htx : dtx ≠ []) (hrx : drx ≠ []) :
    (OffsetHasRoom ops cplx drx dtx →
      syncAndAdjust ops cplx dtx drx .tx = .ok (t, r) → r = drx ∧ IsAligned ops.I dtx drx.length t) ∧
    (OffsetHasRoom ops cplx dtx drx →
      syncAndAdjust ops cplx dtx drx .rx = .ok (t, r) → t = dtx ∧ IsAligned ops.I drx dtx.length r) := by
  constructor
  · intro hroom h
    cases hf : findSequenceOffsetComplex ops cplx drx dtx with
    | error e =>
      simp only [syncAndAdjust, hf, bind, Except.bind] at h
      split at h
      · cases h
      · split at h <;> cases h
    | ok v =>
      obtain ⟨off, d, ii, acm⟩ := v
      obtain ⟨i, hi, hd⟩ := fsoc_rot _ _ _ _ _ _ _ _ hf
      have hdl : d.length = dtx.length := by rw [hd]; simp
      simp only [syncAndAdjust, hf, bind, Except.bind] at h
      rcases Nat.lt_trichotomy dtx.length drx.length with hlt | heq | hgt
      · rw [if_neg (by omega), if_pos hlt] at h
        obtain ⟨t', h1, h2, h3⟩ := C01_extend_tx d drx off
          (by intro hn; rw [hn] at hdl; exact htx (List.length_eq_zero_iff.1 hdl.symm)) (by omega)
          (by rw [hdl]; exact hroom hlt _ _ _ _ hf)
        rw [h1] at h
        simp only [Except.ok.injEq, Prod.mk.injEq] at h
        obtain ⟨rfl, rfl⟩ := h
        exact ⟨rfl, h2, i, hi, off, hd ▸ h3⟩
      · rw [if_neg (by omega), if_neg (by omega)] at h
        simp only [pure, Except.pure, Except.ok.injEq, Prod.mk.injEq] at h
        obtain ⟨rfl, rfl⟩ := h
        exact ⟨rfl, by simp [hdl, heq], i, hi, off, hd ▸ roll_periodic d off⟩
      · rw [if_pos hgt] at h
        rw [(sync_core_truncate (Np.roll d off) drx (by simp; omega)).1] at h
        simp only [Except.ok.injEq, Prod.mk.injEq] at h
        obtain ⟨rfl, rfl⟩ := h
        exact ⟨rfl, by simp; omega, i, hi, off, hd ▸ periodic_take _ _ _ _ (roll_periodic d off)⟩
  · intro hroom h
    cases hf : findSequenceOffsetComplex ops cplx dtx drx with
    | error e =>
      simp only [syncAndAdjust, hf, bind, Except.bind] at h
      split at h
      · cases h
      · split at h <;> cases h
    | ok v =>
      obtain ⟨off, d, ii, acm⟩ := v
      obtain ⟨i, hi, hd⟩ := fsoc_rot _ _ _ _ _ _ _ _ hf
      have hdl : d.length = drx.length := by rw [hd]; simp
      simp only [syncAndAdjust, hf, bind, Except.bind] at h
      rcases Nat.lt_trichotomy drx.length dtx.length with hlt | heq | hgt
      · rw [if_pos hlt] at h
        obtain ⟨t', h1, h2, h3⟩ := C01_extend_rx dtx d off
          (by intro hn; rw [hn] at hdl; exact hrx (List.length_eq_zero_iff.1 hdl.symm)) (by omega)
          (by rw [hdl]; exact hroom hlt _ _ _ _ hf)
        rw [h1] at h
        simp only [Except.ok.injEq, Prod.mk.injEq] at h
        obtain ⟨rfl, rfl⟩ := h
        exact ⟨rfl, h2, i, hi, off, hd ▸ h3⟩
      · rw [if_neg (by omega), if_neg (by omega)] at h
        simp only [pure, Except.pure, Except.ok.injEq, Prod.mk.injEq] at h
        obtain ⟨rfl, rfl⟩ := h
        exact ⟨rfl, by simp [hdl, heq], i, hi, off, hd ▸ roll_periodic d off⟩
      · rw [if_neg (by omega), if_pos hgt] at h
        rw [(sync_core_truncate (Np.roll d off) dtx (by simp; omega)).2] at h
        simp only [Except.ok.injEq, Prod.mk.injEq] at h
        obtain ⟨rfl, rfl⟩ := h
        exact ⟨rfl, by simp; omega, i, hi, off, hd ▸ periodic_take _ _ _ _ (roll_periodic d off)⟩

-- non-vacuity: shorter tx, in range, real data
example : OffsetHasRoom intOps false [0, 1, 1, 0, 0] [1, 1] ∧
    syncAndAdjust intOps false [1, 1] [0, 1, 1, 0, 0] .tx = .ok ([1, 1, 1, 1, 1], [0, 1, 1, 0, 0]) := by
  refine ⟨?_, by decide⟩
  intro _ off d' ii acm h
  have h' : findSequenceOffsetComplex intOps false [0, 1, 1, 0, 0] [1, 1] = .ok (1, [1, 1], 0, none) := by decide
  rw [h'] at h
  simp only [Except.ok.injEq, Prod.mk.injEq] at h
  rw [← h.1]; decide

theorem fsoc_aligned (x y : List ℂ) (hy : y ≠ []) (hx : ∀ a ∈ x, ‖a‖ = 1) (p r : Nat) (hr : r < 4)
    (hocc : OccursAt (y.map (· * Complex.I ^ r)) x p)
    (huniq : ∀ q, OccursUpToPhase y x q → q = p) :
    ∃ acm, findSequenceOffsetComplex complexOps true x y
      = .ok ((p : Int), y.map (· * Complex.I ^ r), r, some acm) := by
  have hI : ∀ i : Nat, ‖(Complex.I : ℂ) ^ i‖ = 1 := by intro i; simp
  have hcomm : ∀ c : ℂ, y.map (· * c) = y.map (c * ·) := by
    intro c; congr 1; funext a; rw [mul_comm]
  have hyl : 0 < y.length := List.length_pos_iff.2 hy
  have hocc' : OccursAt (y.map ((Complex.I ^ r) * ·)) x p := by rw [← hcomm]; exact hocc
  have hyu := unit_of_occurs hx (hI r) hocc'
  have hple := ((occursAt_iff _ _ _).1 hocc').1
  simp only [List.length_map] at hple
  have hxne : x ≠ [] := by
    rintro rfl
    have := List.length_nil (α := ℂ)
    omega
  -- rotated copies occur up to a phase exactly where y does
  have hup : ∀ i q, OccursUpToPhase (y.map (· * Complex.I ^ i)) x q ↔ OccursUpToPhase y x q := by
    intro i q
    constructor
    · rintro ⟨c, hc, h⟩
      refine ⟨c * Complex.I ^ i, by rw [norm_mul, hc, hI, one_mul], ?_⟩
      rw [List.map_map] at h
      have : ((fun z => c * z) ∘ fun z : ℂ => z * Complex.I ^ i) = fun z => c * Complex.I ^ i * z := by
        funext z; simp only [Function.comp]; ring
      rwa [this] at h
    · rintro ⟨c, hc, h⟩
      refine ⟨c * (Complex.I ^ i)⁻¹, by rw [norm_mul, norm_inv, hc, hI]; simp, ?_⟩
      rw [List.map_map]
      have : ((fun z => c * (Complex.I ^ i)⁻¹ * z) ∘ fun z : ℂ => z * Complex.I ^ i) = fun z => c * z := by
        funext z
        simp only [Function.comp]
        have h0 : (Complex.I : ℂ) ^ i ≠ 0 := pow_ne_zero _ Complex.I_ne_zero
        field_simp
      rwa [this]
  have hfind : ∀ i, findSequenceOffset complexOps x (y.map (· * complexOps.I ^ i)) = .ok (p : Int) := by
    intro i
    apply C04_find_sequence_offset_unique _ _ (by simpa using hy) hx p
    · exact (hup i p).2 ⟨_, hI r, hocc'⟩
    · intro q hq; exact huniq q ((hup i q).1 hq)
  obtain ⟨st, hst⟩ := rotLoop_ok complexOps x y hxne hy [0, 1, 2, 3] none
  obtain ⟨h1, h2, -⟩ := rotLoop_spec _ _ _ _ _ _ hst
  -- the rotation r reaches the maximum
  have hyr : ∀ i : Nat, (y.map (· * complexOps.I ^ i)) ≠ [] := by intro i; simpa using hy
  have hyru : ∀ i : Nat, ∀ a ∈ y.map (· * complexOps.I ^ i), ‖a‖ = 1 := by
    intro i a ha
    obtain ⟨b, hb, rfl⟩ := List.mem_map.1 ha
    rw [norm_mul, hyu b hb]
    simp [complexOps]
  have hpeak : (y.length : ℝ) ∈ (crossCorr complexOps x (y.map (· * complexOps.I ^ r))).map complexOps.re := by
    have hm := crossCorr_complex_lag hxne (hyr r) p (by simpa using hple)
    have hone : OccursAt ((y.map (· * complexOps.I ^ r)).map ((1 : ℂ) * ·)) x p := by
      have e : (y.map (· * complexOps.I ^ r)).map ((1 : ℂ) * ·) = y.map (· * Complex.I ^ r) := by
        simp [complexOps]
      rw [e]; exact hocc
    rw [corrAt_occurs hx (by simp) hone] at hm
    have := List.mem_map_of_mem (f := complexOps.re) hm
    simpa [complexOps] using this
  obtain ⟨s, hs, hsle⟩ := h2 r (by simp; omega) _ hpeak (by exact_mod_cast hyl)
  rcases h1 with h1 | ⟨i, hi, idx, act, hst', hidx, hact⟩
  · rw [h1] at hs; cases hs
  · rw [hst'] at hs
    cases hs
    -- the correlation of the chosen rotation is maximal, hence sits at p with phase one
    have hidx' : idx = p := by
      rw [hfind i] at hidx; simpa using hidx.symm
    obtain ⟨v, hv, hvre⟩ := List.mem_map.1 hact
    obtain ⟨k, hk⟩ := crossCorr_complex_mem hxne (hyr i) hv
    have hre : (y.length : ℝ) ≤ v.re := by
      have : v.re = act := hvre
      rw [this]; exact hsle
    have hnorm : ((y.map (· * complexOps.I ^ i)).length : ℝ) ≤ ‖corrAt x (y.map (· * complexOps.I ^ i)) k‖ := by
      rw [← hk, List.length_map]; exact hre.trans (Complex.re_le_norm v)
    obtain ⟨q, hq, c, hc, hqocc⟩ := occurs_of_norm_corrAt (hyr i) hx (hyru i) k hnorm
    have hqp : q = p := huniq q ((hup i q).1 ⟨c, hc, hqocc⟩)
    subst hqp
    rw [← hq, corrAt_occurs hx hc hqocc, List.length_map] at hk
    have hcre : c = 1 := by
      rw [hk] at hre
      simp only [Complex.mul_re, Complex.natCast_re, Complex.natCast_im, zero_mul, sub_zero] at hre
      have hpos : (0 : ℝ) < y.length := by exact_mod_cast hyl
      have h1 : (1 : ℝ) ≤ c.re := by
        by_contra hlt
        have := mul_lt_mul_of_pos_left (not_le.1 hlt) hpos
        linarith
      have h2 : c.re ≤ 1 := by rw [← hc]; exact Complex.re_le_norm c
      have h3 : c.re ^ 2 + c.im ^ 2 = 1 := by
        have := Complex.normSq_eq_norm_sq c
        rw [Complex.normSq_apply, hc] at this
        linarith
      have h4 : c.re = 1 := le_antisymm h2 h1
      have h5 : c.im = 0 := by
        rw [h4] at h3
        have : c.im ^ 2 = 0 := by linarith
        exact pow_eq_zero_iff (two_ne_zero) |>.1 this
      exact Complex.ext (by simpa using h4) (by simpa using h5)
    -- compare the rotation with r at the first sample
    have hrot : (Complex.I : ℂ) ^ i = Complex.I ^ r := by
      have ha := ((occursAt_iff _ _ _).1 hqocc).2 0 (by simpa using hyl)
      have hb := ((occursAt_iff _ _ _).1 hocc).2 0 (by simpa using hyl)
      rw [ha, List.getElem?_map, List.getElem?_map, List.getElem?_map, List.getElem?_eq_getElem hyl] at hb
      simp only [hcre, Option.map_some, Option.some.injEq, one_mul, complexOps] at hb
      have hy0 : y[0] ≠ 0 := by
        intro h0
        have := hyu _ (List.getElem_mem hyl)
        rw [h0] at this; simp at this
      exact mul_left_cancel₀ hy0 hb
    have hir : i = r := by
      have hi4 : i < 4 := by simp at hi; omega
      have hz : ∀ a b : Nat, a < 4 → b < 4 → (Complex.I : ℂ) ^ a = Complex.I ^ b → a = b := by
        intro a b ha hb hab
        interval_cases a <;> interval_cases b <;> first | rfl | (exfalso; revert hab; simp [Complex.ext_iff, pow_succ]; try norm_num)
      exact hz i r hi4 hr hrot
    subst hir
    refine ⟨act, ?_⟩
    simp only [findSequenceOffsetComplex, hst, hst', bind, Except.bind]
    simp [hidx', complexOps]

/-- **C03** (alignment of an embedded pattern): a unit-modulus reference contains the quarter-turn rotated
pattern exactly once (up to a phase).  Then `sync_and_adjust` with `adjust="tx"` returns the reference unchanged and
the pattern, turned by that quarter turn and repeated periodically from the true position on; in particular
it agrees with the reference on the whole block. -/
theorem C03_aligned (dtx drx : List ℂ) (htx : dtx ≠ []) (hlen : dtx.length < drx.length)
    (hx : ∀ a ∈ drx, ‖a‖ = 1) (p r : Nat) (hr : r < 4)
    (hocc : OccursAt (dtx.map (· * Complex.I ^ r)) drx p)
    (huniq : ∀ q, OccursUpToPhase dtx drx q → q = p) :
    ∃ t, syncAndAdjust complexOps true dtx drx .tx = .ok (t, drx) ∧ t.length = drx.length ∧
      IsPeriodicExtension (dtx.map (· * Complex.I ^ r)) p t ∧
      ∀ j, j < dtx.length → t[p + j]? = drx[p + j]? := by
  obtain ⟨acm, hf⟩ := fsoc_aligned drx dtx htx hx p r hr hocc huniq
  obtain ⟨hple, hblk⟩ := (occursAt_iff _ _ _).1 hocc
  simp only [List.length_map] at hple hblk
  have hL : 0 < dtx.length := List.length_pos_iff.2 htx
  have hroom : (p : Int) = 0 ∨ frontLen (dtx.map (· * Complex.I ^ r)).length p ≤ drx.length := by
    right
    rw [List.length_map]
    by_cases hd : (dtx.length : Int) ∣ p
    · exact C01_room_of_dvd _ _ _ (by omega) (by omega) hd
    · exact C01_room_of_not_dvd _ _ _ hL (by omega) (by omega) hd
  obtain ⟨t, h1, h2, h3⟩ := C01_extend_tx (dtx.map (· * Complex.I ^ r)) drx p (by simpa using htx)
    (by simpa using hlen) hroom
  refine ⟨t, ?_, h2, h3, ?_⟩
  · simp only [syncAndAdjust, hf, bind, Except.bind]
    rw [if_neg (by omega), if_pos hlen, h1]
  · intro j hj
    rw [h3 (p + j) (by omega), hblk j hj]
    congr 1
    simp only [List.length_map]
    have : (((p + j : Nat) : Int) - p) % (dtx.length : Int) = j := by
      rw [Int.emod_eq_of_lt (by omega) (by omega)]; omega
    rw [this]; simp

-- non-vacuity: `[1, -1]` turned by `I` sits once in `[I, I, -I]`
example : OccursAt (([1, -1] : List ℂ).map (· * Complex.I ^ 1)) [Complex.I, Complex.I, -Complex.I] 1 ∧
    (∀ a ∈ ([Complex.I, Complex.I, -Complex.I] : List ℂ), ‖a‖ = 1) ∧
    ∀ q, OccursUpToPhase [1, -1] [Complex.I, Complex.I, -Complex.I] q → q = 1 := by
  refine ⟨⟨[Complex.I], [], by simp, rfl⟩, by simp, ?_⟩
  rintro q ⟨c, hc, h⟩
  obtain ⟨h1, h2⟩ := (occursAt_iff _ _ _).1 h
  have hq : q ≤ 1 := by simpa using h1
  interval_cases q
  · have e0 := h2 0 (by simp)
    have e1 := h2 1 (by simp)
    simp at e0 e1
    rw [← e0] at e1
    have := congrArg Complex.im e1
    norm_num at this
  · rfl

end Qampy
