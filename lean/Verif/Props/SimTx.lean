import Verif.Model.SimTx
import Verif.Props.Matlab
import Verif.Props.Quantise
import Verif.Props.Waveform
import Verif.Tactics

/-!
C185: what `sim_tx` does to the modes, to the delays and to the array of the caller.
-/

namespace Qampy

open Complex

theorem normRow_normalised {x y : List ℂ} (h : normRow x = some y) : Normalised y := by
  by_cases hx : ∃ a ∈ x, ∃ b ∈ x, a ≠ b
  · obtain ⟨z, h1, h2, _⟩ := normRow_spec hx
    rw [h] at h1
    cases h1
    exact h2
  · exfalso
    push Not at hx
    cases x with
    | nil => simp [normRow, meanR] at h
    | cons a l =>
      have : a :: l = List.replicate (l.length + 1) a := by
        rw [List.eq_replicate_iff]
        exact ⟨rfl, fun b hb => (hx a (by simp) b hb).symm⟩
      rw [this, C44_constant_fails] at h
      cases h

theorem quantizeOldRow_normalised {b : Nat} {x y : List ℂ} {rs : Bool} (h : quantizeOldRow b rs true x = some y) : Normalised y := by
  unfold quantizeOldRow at h
  cases rs <;> simp only [Option.bind_eq_bind, Option.bind_eq_some_iff, if_true, if_false, Bool.false_eq_true] at h <;>
  · obtain ⟨s, _, q, _, hq⟩ := h
    exact normRow_normalised hq

theorem mapM_row {α β : Type} {f : α → Option β} {l : List α} {r : List β} (h : l.mapM f = some r) {i : Nat} {a : α} (hi : l[i]? = some a) :
    ∃ b, r[i]? = some b ∧ f a = some b := by
  rw [mapM_eq_some_iff] at h
  have := congrArg (fun (x : List (Option β)) => x[i]?) h
  simp only [List.getElem?_map, hi, Option.map_some] at this
  cases hr : r[i]? with
  | none => rw [hr] at this; cases this
  | some b => rw [hr] at this; exact ⟨b, rfl, by simpa using this⟩

theorem mapM_len {α β : Type} {f : α → Option β} {l : List α} {r : List β} (h : l.mapM f = some r) : r.length = l.length := by
  rw [mapM_eq_some_iff] at h
  simpa using (congrArg List.length h).symm

theorem mapM_mem {α β : Type} {f : α → Option β} {l : List α} {r : List β} (h : l.mapM f = some r) {b : β} (hb : b ∈ r) : ∃ a ∈ l, f a = some b := by
  obtain ⟨i, hi⟩ := List.mem_iff_getElem?.1 hb
  have hl : i < l.length := by rw [← mapM_len h]; exact (List.getElem?_eq_some_iff.1 hi).1
  obtain ⟨c, h1, h2⟩ := mapM_row h (List.getElem?_eq_getElem hl)
  rw [hi] at h1
  cases h1
  exact ⟨_, List.getElem_mem hl, h2⟩

/-- The parts of a pass. -/
theorem simTxPass_some {p : SimTxParams} {d : TxDraws} {st st' : SimTxState} {l : Nat} (h : simTxPass p d st l = some st') :
    ∃ r r1 s, (simTxRoll p l st).sig[l]? = some r ∧ simTxRow p d l r = some r1 ∧ normaliseAndCenter ((simTxRoll p l st).sig.set l r1) = some s
      ∧ st' = ⟨if (simTxRoll p l st).shared then (simTxRoll p l st).caller.set l r1 else (simTxRoll p l st).caller, s, false⟩ := by
  unfold simTxPass at h
  simp only [Option.bind_eq_bind, Option.bind_eq_some_iff, SimTxState.write] at h
  obtain ⟨r, h1, r1, h2, s, h3, h4⟩ := h
  simp only [Option.pure_def, Option.some.injEq] at h4
  exact ⟨r, r1, s, h1, h2, h3, h4.symm⟩

/-- The parts of a call which returns. -/
theorem simPilotTx_some {p : SimTxParams} {d : TxDraws} {frame out caller : List (List ℂ)} (h : simPilotTx p d frame = .ok (some (out, caller))) :
    ∃ st, (List.range frame.length).foldlM (simTxPass p d) ⟨frame, frame, true⟩ = some st ∧ st.caller = caller
      ∧ (match p.resRx with | none => some st.sig | some b => st.sig.mapM (quantizeOldRow b true true)) = some out := by
  unfold simPilotTx at h
  simp only [throw, throwThe, MonadExceptOf.throw, bind, Except.bind, pure, Except.pure] at h
  split_ifs at h
  simp only [Except.ok.injEq] at h
  rw [Option.bind_eq_some_iff] at h
  obtain ⟨st, h1, h2⟩ := h
  refine ⟨st, h1, ?_⟩
  cases hr : p.resRx with
  | none =>
    rw [hr] at h2
    simp only [Option.bind_some, Option.some.injEq, Prod.mk.injEq] at h2 ⊢
    exact ⟨h2.2, h2.1⟩
  | some b =>
    rw [hr] at h2
    simp only [Option.bind_eq_some_iff, Option.some.injEq, Prod.mk.injEq] at h2 ⊢
    obtain ⟨o, h3, h4⟩ := h2
    exact ⟨h4.2, by rw [← h4.1]; exact h3⟩

/-- C185: whatever the impairments and delays, every returned mode has mean zero and mean power one. -/
theorem C185_power (p : SimTxParams) (d : TxDraws) (frame out caller : List (List ℂ)) (h : simPilotTx p d frame = .ok (some (out, caller))) :
    ∀ y ∈ out, y ≠ [] ∧ y.sum = 0 ∧ (y.map fun z => ‖z‖ ^ 2).sum = y.length := by
  obtain ⟨st, h1, _, h3⟩ := simPilotTx_some h
  have hst : ∀ y ∈ st.sig, Normalised y := by
    cases hn : frame.length with
    | zero =>
      rw [hn] at h1
      simp only [List.range_zero, List.foldlM_nil, Option.pure_def, Option.some.injEq] at h1
      rw [← h1]
      intro y hy
      rw [List.length_eq_zero_iff.1 hn] at hy
      simp at hy
    | succ m =>
      rw [hn, List.range_succ, List.foldlM_append] at h1
      simp only [Option.bind_eq_bind, Option.bind_eq_some_iff] at h1
      obtain ⟨s0, _, h4⟩ := h1
      simp only [List.foldlM_cons, List.foldlM_nil, Option.bind_eq_bind, Option.pure_def, Option.bind_fun_some] at h4
      obtain ⟨r, r1, s, _, _, h5, rfl⟩ := simTxPass_some h4
      intro y hy
      obtain ⟨a, _, ha⟩ := mapM_mem h5 hy
      exact normRow_normalised ha
  intro y hy
  cases hr : p.resRx with
  | none =>
    rw [hr] at h3
    simp only [Option.some.injEq] at h3
    exact hst y (by rw [h3]; exact hy)
  | some b =>
    rw [hr] at h3
    obtain ⟨a, _, ha⟩ := mapM_mem h3 hy
    exact quantizeOldRow_normalised ha

/-- What the loop has done before pass `m`, if no delays are given. -/
structure SimTxInv (p : SimTxParams) (d : TxDraws) (frame : List (List ℂ)) (m : Nat) (st : SimTxState) : Prop where
  len : st.sig.length = frame.length
  shared : st.shared = decide (m = 0)
  caller0 : m = 0 → st.caller = frame
  callerS : 0 < m → ∃ r r1, frame[0]? = some r ∧ simTxRow p d 0 r = some r1 ∧ st.caller = frame.set 0 r1
  done : ∀ l r, l < m → frame[l]? = some r → ∃ r0 r1 y, (l = 0 → r0 = r) ∧ (0 < l → normRow r = some r0) ∧ simTxRow p d l r0 = some r1
    ∧ normRow r1 = some y ∧ st.sig[l]? = some y
  todo : ∀ l r, m ≤ l → frame[l]? = some r → ∃ r0, (m = 0 → r0 = r) ∧ (0 < m → normRow r = some r0) ∧ st.sig[l]? = some r0

theorem simTx_inv {p : SimTxParams} (hp : p.modalDelay = none) (d : TxDraws) (frame : List (List ℂ)) : ∀ (m : Nat) (st : SimTxState), m ≤ frame.length →
    (List.range m).foldlM (simTxPass p d) ⟨frame, frame, true⟩ = some st → SimTxInv p d frame m st
  | 0, st, _, h => by
    simp only [List.range_zero, List.foldlM_nil, Option.pure_def, Option.some.injEq] at h
    subst h
    exact ⟨rfl, rfl, fun _ => rfl, fun h => absurd h (lt_irrefl 0), fun _ _ h => absurd h (Nat.not_lt_zero _),
      fun l r _ hr => ⟨r, fun _ => rfl, fun h => absurd h (lt_irrefl 0), hr⟩⟩
  | m + 1, st, hm, h => by
    rw [List.range_succ, List.foldlM_append] at h
    simp only [Option.bind_eq_bind, Option.bind_eq_some_iff] at h
    obtain ⟨s0, h0, h1⟩ := h
    simp only [List.foldlM_cons, List.foldlM_nil, Option.bind_eq_bind, Option.pure_def, Option.bind_fun_some] at h1
    have I := simTx_inv hp d frame m s0 (by omega) h0
    have hroll : simTxRoll p m s0 = s0 := by unfold simTxRoll; rw [hp]
    obtain ⟨r, r1, s, e1, e2, e3, rfl⟩ := simTxPass_some h1
    rw [hroll] at e1 e3 ⊢
    have hms : m < s0.sig.length := by rw [I.len]; omega
    have hfm : frame[m]? = some frame[m] := List.getElem?_eq_getElem (by omega)
    obtain ⟨q, hq0, hq1, hq⟩ := I.todo m frame[m] le_rfl hfm
    have hqr : q = r := by rw [hq] at e1; exact Option.some.inj e1
    have hset : (s0.sig.set m r1)[m]? = some r1 := by rw [List.getElem?_set_self hms]
    refine ⟨?_, ?_, fun h => absurd h (Nat.succ_ne_zero m), fun _ => ?_, fun l x hl hx => ?_, fun l x hl hx => ?_⟩
    · have := mapM_len e3
      rw [List.length_set] at this
      exact this.trans I.len
    · simp
    · rcases Nat.eq_zero_or_pos m with h0 | h0
      · subst h0
        refine ⟨frame[0], r1, hfm, ?_, ?_⟩
        · rw [← hq0 rfl, hqr]; exact e2
        · simp only [I.shared, decide_true, if_true, I.caller0 rfl]
      · obtain ⟨a, b, c1, c2, c3⟩ := I.callerS h0
        refine ⟨a, b, c1, c2, ?_⟩
        have : s0.shared = false := by rw [I.shared]; simp; omega
        simp only [this]
        exact c3
    · rcases Nat.lt_or_ge l m with hlm | hlm
      · obtain ⟨a, b, y, c1, c2, c3, c4, c5⟩ := I.done l x hlm hx
        obtain ⟨y', f1, f2⟩ := mapM_row e3 (i := l) (a := y) (by rw [List.getElem?_set_ne (by omega)]; exact c5)
        rw [normRow_of_normalised (normRow_normalised c4)] at f2
        cases f2
        exact ⟨a, b, y, c1, c2, c3, c4, f1⟩
      · obtain rfl : l = m := by omega
        rw [hfm] at hx
        cases hx
        obtain ⟨y', f1, f2⟩ := mapM_row e3 hset
        exact ⟨q, r1, y', hq0, hq1, by rw [hqr]; exact e2, f2, f1⟩
    · obtain ⟨a, c1, c2, c3⟩ := I.todo l x (by omega) hx
      obtain ⟨y', f1, f2⟩ := mapM_row e3 (i := l) (a := a) (by rw [List.getElem?_set_ne (by omega)]; exact c3)
      refine ⟨y', fun h => absurd h (Nat.succ_ne_zero m), fun _ => ?_, f1⟩
      rcases Nat.eq_zero_or_pos m with h0 | h0
      · rw [← c1 h0]; exact f2
      · have := c2 h0
        rw [normRow_of_normalised (normRow_normalised this)] at f2
        cases f2
        exact this

/-- C185: without delays, a received resolution and a rotation every mode gets its own impairments (applied to the mode itself for the first mode and to the
normalised mode for the others) and is normalised at the end; no other mode has an influence. -/
theorem C185_modes (p : SimTxParams) (d : TxDraws) (frame out caller : List (List ℂ)) (hp : p.modalDelay = none) (hr : p.resRx = none)
    (h : simPilotTx p d frame = .ok (some (out, caller))) : out.length = frame.length ∧
    ∀ l r, frame[l]? = some r → ∃ r0 r1 y, (l = 0 → r0 = r) ∧ (0 < l → normRow r = some r0) ∧ simTxRow p d l r0 = some r1 ∧ normRow r1 = some y
      ∧ out[l]? = some y := by
  obtain ⟨st, h1, _, h3⟩ := simPilotTx_some h
  rw [hr] at h3
  simp only [Option.some.injEq] at h3
  have I := simTx_inv hp d frame frame.length st le_rfl h1
  refine ⟨by rw [← h3]; exact I.len, fun l r hl => ?_⟩
  rw [← h3]
  exact I.done l r (List.getElem?_eq_some_iff.1 hl).1 hl

/-- C185: without any impairment the result is the normalised frame. -/
theorem C185_clean (os : ℝ) (d : TxDraws) (frame out caller : List (List ℂ)) (h : simPilotTx { os := os } d frame = .ok (some (out, caller))) :
    normaliseAndCenter frame = some out ∧ caller = frame := by
  obtain ⟨h1, h2⟩ := C185_modes _ d frame out caller rfl rfl h
  constructor
  · unfold normaliseAndCenter
    rw [mapM_eq_some_iff]
    refine List.ext_getElem? fun i => ?_
    rw [List.getElem?_map, List.getElem?_map]
    cases hf : frame[i]? with
    | none =>
      rw [List.getElem?_eq_none_iff] at hf
      rw [List.getElem?_eq_none_iff.2 (by omega)]
      rfl
    | some r =>
      obtain ⟨r0, r1, y, c1, c2, c3, c4, c5⟩ := h2 i r hf
      simp only [simTxRow, Option.bind_eq_bind, Option.bind_some, Option.pure_def, Option.some.injEq] at c3
      subst c3
      rw [c5]
      simp only [Option.map_some, Option.some.injEq]
      rcases Nat.eq_zero_or_pos i with h0 | h0
      · rw [← c1 h0]; exact c4
      · have := c2 h0
        rw [normRow_of_normalised (normRow_normalised this)] at c4
        cases c4
        exact this
  · obtain ⟨st, e1, e2, _⟩ := simPilotTx_some h
    have I := simTx_inv rfl d frame frame.length st le_rfl e1
    rw [← e2]
    rcases Nat.eq_zero_or_pos frame.length with h0 | h0
    · exact I.caller0 h0
    · obtain ⟨r, r1, c1, c2, c3⟩ := I.callerS h0
      simp only [simTxRow, Option.bind_eq_bind, Option.bind_some, Option.pure_def, Option.some.injEq] at c2
      subst c2
      rw [c3]
      refine List.ext_getElem? fun i => ?_
      rw [List.getElem?_set]
      split_ifs with h5
      · subst h5; exact c1.symm
      · rfl

/-! ### The array of the caller -/

/-- C185, what happens to the array of the caller: with delays it is left alone, without delays its first mode is overwritten by the impaired one. -/
theorem C185_caller (p : SimTxParams) (d : TxDraws) (frame out caller : List (List ℂ)) (hf : frame ≠ [])
    (h : simPilotTx p d frame = .ok (some (out, caller))) :
    (p.modalDelay ≠ none → caller = frame)
      ∧ (p.modalDelay = none → ∃ r r1, frame[0]? = some r ∧ simTxRow p d 0 r = some r1 ∧ caller = r1 :: frame.tail) := by
  obtain ⟨st, h1, h2, _⟩ := simPilotTx_some h
  constructor
  · intro hp
    obtain ⟨ds, hds⟩ := Option.ne_none_iff_exists'.1 hp
    have key : ∀ (m : Nat) (st : SimTxState), (List.range m).foldlM (simTxPass p d) ⟨frame, frame, true⟩ = some st → st.caller = frame := by
      intro m
      induction m with
      | zero =>
        intro st h
        simp only [List.range_zero, List.foldlM_nil, Option.pure_def, Option.some.injEq] at h
        rw [← h]
      | succ m ih =>
        intro st h
        rw [List.range_succ, List.foldlM_append] at h
        simp only [Option.bind_eq_bind, Option.bind_eq_some_iff] at h
        obtain ⟨s0, h0, h1⟩ := h
        simp only [List.foldlM_cons, List.foldlM_nil, Option.bind_eq_bind, Option.pure_def, Option.bind_fun_some] at h1
        obtain ⟨r, r1, s, _, _, _, rfl⟩ := simTxPass_some h1
        have := ih s0 h0
        simp only [simTxRoll, hds]
        simpa using this
    rw [← h2]
    exact key _ st h1
  · intro hp
    have I := simTx_inv hp d frame frame.length st le_rfl h1
    obtain ⟨r, r1, c1, c2, c3⟩ := I.callerS (List.length_pos_of_ne_nil hf)
    refine ⟨r, r1, c1, c2, ?_⟩
    rw [← h2, c3]
    cases frame with
    | nil => exact absurd rfl hf
    | cons a l => rfl

/-- Users expect the argument to be left alone. -/
def C185_argument_statement : Prop :=
  ∀ (p : SimTxParams) (d : TxDraws) (frame out caller : List (List ℂ)), simPilotTx p d frame = .ok (some (out, caller)) → caller = frame

/-- C185: a frequency offset is written into the array of the caller. -/
theorem C185_argument_false : ¬ C185_argument_statement := by
  intro h
  have e4 : (2 * Real.pi * ((1 : ℕ) : ℝ) * 1 / (4 * 1) : ℝ) = Real.pi / 2 := by push_cast; ring
  have hoff : addCarrierOffset [1, -1] 1 (4 * 1) = [1, -I] := by
    unfold addCarrierOffset
    simp only [List.mapIdx_cons, List.mapIdx_nil, Nat.zero_add, e4]
    have : exp (I * ((Real.pi / 2 : ℝ) : ℂ)) = I := by
      rw [mul_comm]
      push_cast
      exact exp_pi_div_two_mul_I
    rw [this]
    simp
  obtain ⟨y, hy, _⟩ := normRow_spec (x := [1, -I]) ⟨1, by simp, -I, by simp, by
    intro h
    have := congrArg Complex.re h
    simp at this⟩
  have := h { os := 1, symbRate := 4, freqoff := some 1 } ⟨fun _ _ => 0, fun _ _ => 0, fun _ _ => 0⟩ [[1, -1]] [y] [[1, -I]] (by
    rw [mul_one] at hoff
    unfold simPilotTx
    simp [simTxPass, simTxRoll, SimTxState.write, simTxRow, normaliseAndCenter, hoff, hy, pure, Except.pure])
  have h2 := congrArg (fun (m : List (List ℂ)) => ((m.headD []).getD 1 0).re) this
  simp at h2

/-! ### Delays -/

/-- The documented purpose ("Add modal delays"): mode `l` is delayed by `modal_delay[l]` samples. -/
def C185_statement : Prop :=
  ∀ (os : ℝ) (d : TxDraws) (frame out caller : List (List ℂ)) (ds : List Int),
    simPilotTx { os := os, modalDelay := some ds } d frame = .ok (some (out, caller)) →
    ∀ (l : Nat) (x : List ℂ) (k : Int) (y : List ℂ), frame[l]? = some x → ds[l]? = some k → normRow x = some y → out[l]? = some (Np.roll y k)

/-- C185, one mode: with the delay `k` the result is that of the rolled frame without a delay, for all other parameters. Missing: more than one mode,
see `C185_false`. -/
theorem C185_single_partial (p : SimTxParams) (d : TxDraws) (x : List ℂ) (k : Int) :
    (simPilotTx { p with modalDelay := some [k] } d [x]).map (Option.map Prod.fst) = (simPilotTx { p with modalDelay := none } d [Np.roll x k]).map (Option.map Prod.fst) := by
  have hrow : simTxRow { p with modalDelay := some [k] } d 0 = simTxRow { p with modalDelay := none } d 0 := rfl
  unfold simPilotTx
  simp only [List.length_singleton, Option.any_some, Option.any_none, ne_eq, not_true_eq_false, decide_false, Bool.false_and, Bool.false_eq_true, if_false,
    OfNat.one_ne_ofNat, Except.map, pure, Except.pure, bind, Except.bind]
  congr 1
  simp only [List.range_one, List.foldlM_cons, List.foldlM_nil, simTxPass, simTxRoll, rollFlat_row, SimTxState.write, List.getD_cons_zero, hrow,
    List.getElem?_cons_zero, Option.bind_eq_bind, Option.pure_def, Option.bind_some, List.set_cons_zero]
  cases h1 : simTxRow { p with modalDelay := none } d 0 (Np.roll x k) with
  | none => rfl
  | some r =>
    simp only [Option.bind_some]
    cases h2 : normaliseAndCenter [r] with
    | none => rfl
    | some s =>
      cases p.resRx with
      | none => rfl
      | some b =>
        simp only [Option.bind_some, Option.bind_fun_some]
        cases List.mapM (quantizeOldRow b true true) s <;> rfl

theorem rollFlat_replicate (n : Nat) (x : List ℂ) (hx : x ≠ []) (k : Int) : rollFlat (List.replicate n x) k = List.replicate n (Np.roll x k) := by
  unfold rollFlat
  cases n with
  | zero => simp
  | succ n =>
  have hc : ((List.replicate (n + 1) x).headD []).length = x.length := by simp [List.replicate_succ]
  have hlen : (List.replicate (n + 1) x).flatten.length = (n + 1) * x.length := Np.length_tile x (n + 1)
  have hpos : 0 < x.length := List.length_pos_of_ne_nil hx
  simp only [hc, List.length_replicate]
  rw [List.eq_replicate_iff]
  refine ⟨by simp, fun b hb => ?_⟩
  obtain ⟨i, hi, rfl⟩ := List.mem_map.1 hb
  rw [List.mem_range] at hi
  have hil : (i + 1) * x.length ≤ (n + 1) * x.length := Nat.mul_le_mul_right _ hi
  rw [Nat.add_mul, Nat.one_mul] at hil
  refine List.ext_getElem? fun j => ?_
  rw [List.getElem?_take]
  split_ifs with hj
  · rw [List.getElem?_drop]
    obtain ⟨a, ha, ha2, ha3⟩ := getElem?_roll' (List.replicate (n + 1) x).flatten k (i * x.length + j) (by rw [hlen]; omega)
    obtain ⟨b, hb, hb2, hb3⟩ := getElem?_roll' x k j hj
    rw [ha3, hb3]
    rw [hlen] at ha ha2
    have := Np.getElem?_tile x (n + 1) a ha
    unfold Np.tile at this
    rw [this]
    congr 1
    have h1 : ((a % x.length : Nat) : Int) = b := by
      rw [Int.natCast_emod, ha2, hb2]
      push_cast
      rw [Int.emod_emod_of_dvd _ (Dvd.intro_left _ rfl)]
      rw [show ((i : Int) * x.length + j - k) = (j - k) + x.length * i by ring, Int.add_mul_emod_self_left]
    exact_mod_cast h1
  · rw [eq_comm, List.getElem?_eq_none_iff, Np.length_roll]
    omega

/-- C185, what the delays do when all modes are the same: every mode is delayed by the sum of all delays. -/
theorem C185_sum (os : ℝ) (d : TxDraws) (n : Nat) (x y : List ℂ) (hy : normRow x = some y) (ds : List Int) (hds : ds.length = n) (hn : 0 < n) :
    simPilotTx { os := os, modalDelay := some ds } d (List.replicate n x) = .ok (some (List.replicate n (Np.roll y ds.sum), List.replicate n x)) := by
  have hx : x ≠ [] := by rintro rfl; simp [normRow, meanR] at hy
  have hyN := normRow_normalised hy
  have hroll : ∀ k : Int, normRow (Np.roll y k) = some (Np.roll y k) := fun k => by
    rw [normRow_roll, normRow_of_normalised hyN]; rfl
  have hNx : ∀ k : Int, normRow (Np.roll x k) = some (Np.roll y k) := fun k => by
    rw [normRow_roll, hy]; rfl
  have hrep : ∀ (f : List ℂ → Option (List ℂ)) (a b : List ℂ), f a = some b → (List.replicate n a).mapM f = some (List.replicate n b) := by
    intro f a b h
    rw [mapM_eq_some_iff]
    simp [h]
  have key : ∀ m, 0 < m → m ≤ n → (List.range m).foldlM (simTxPass { os := os, modalDelay := some ds } d) ⟨List.replicate n x, List.replicate n x, true⟩
      = some ⟨List.replicate n x, List.replicate n (Np.roll y (ds.take m).sum), false⟩ := by
    have pass : ∀ (z z' : List ℂ) (c : List (List ℂ)) (sh : Bool) (m : Nat), z ≠ [] → m < n → normRow (Np.roll z (ds.getD m 0)) = some z' →
        simTxPass { os := os, modalDelay := some ds } d ⟨c, List.replicate n z, sh⟩ m = some ⟨c, List.replicate n z', false⟩ := by
      intro z z' c sh m hz hm h
      unfold simTxPass
      simp only [simTxRoll, SimTxState.write, rollFlat_replicate n z hz, List.getElem?_replicate, if_pos hm, simTxRow, Option.bind_eq_bind, Option.bind_some,
        Option.pure_def, List.set_replicate_self, Bool.false_eq_true, if_false]
      unfold normaliseAndCenter
      rw [hrep normRow _ _ h]
      rfl
    intro m
    induction m with
    | zero => intro h; omega
    | succ m ih =>
      intro _ hm
      have hd : ds.getD m 0 = ds[m] := by simp [List.getD_eq_getElem?_getD, List.getElem?_eq_getElem (show m < ds.length by omega)]
      have hs : (ds.take (m + 1)).sum = (ds.take m).sum + ds.getD m 0 := by
        rw [hd, List.take_succ_eq_append_getElem (by omega), List.sum_append, List.sum_singleton]
      rw [List.range_succ, List.foldlM_append, hs]
      rcases Nat.eq_zero_or_pos m with h0 | h0
      · subst h0
        simp only [List.range_zero, List.foldlM_nil, List.foldlM_cons, Option.pure_def, Option.bind_eq_bind, Option.bind_some, Option.bind_fun_some, List.take_zero,
          List.sum_nil, zero_add]
        exact pass x _ _ _ 0 hx hn (hNx _)
      · rw [ih h0 (by omega)]
        simp only [List.foldlM_nil, List.foldlM_cons, Option.pure_def, Option.bind_eq_bind, Option.bind_some, Option.bind_fun_some]
        refine pass _ _ _ _ m ?_ (by omega) ?_
        · intro h
          have := congrArg List.length h
          rw [Np.length_roll] at this
          exact hyN.1 (List.length_eq_zero_iff.1 this)
        · rw [roll_roll]
          exact hroll _
  unfold simPilotTx
  simp only [List.length_replicate, Option.any_some, hds, ne_eq, not_true_eq_false, decide_false, Bool.false_and, Bool.false_eq_true, if_false, Option.isSome_none,
    Bool.and_false, pure, Except.pure, bind, Except.bind]
  have := key n hn le_rfl
  rw [List.take_of_length_le (by omega)] at this
  rw [this]
  rfl

theorem normalised_pm : Normalised [1, -1] := by
  refine ⟨by simp, by simp, ?_⟩
  simp
  norm_num

/-- C185 fails for two modes: with delays 0 and 1 the first mode is delayed by one sample. -/
theorem C185_false : ¬ C185_statement := by
  intro h
  have hy := normRow_of_normalised normalised_pm
  have := h 1 ⟨fun _ _ => 0, fun _ _ => 0, fun _ _ => 0⟩ _ _ _ [0, 1] (C185_sum 1 _ 2 [1, -1] [1, -1] hy [0, 1] rfl (by norm_num)) 0 [1, -1] 0 [1, -1] rfl rfl hy
  simp only [List.replicate, List.getElem?_cons_zero, Option.some.injEq] at this
  have h2 := congrArg (fun (m : List ℂ) => (m.getD 0 0).re) this
  norm_num [Np.roll] at h2

/-! ### The impairments written out -/

theorem normRow_scale {x y : List ℂ} (h : normRow x = some y) : ∃ (a : ℝ) (c : ℂ), 0 < a ∧ y = x.map fun z => (a : ℂ) * (z - c) := by
  by_cases hx : ∃ a ∈ x, ∃ b ∈ x, a ≠ b
  · obtain ⟨z, h1, _, c, hc, m, hz⟩ := normRow_spec hx
    rw [h] at h1
    cases h1
    exact ⟨c, m, hc, hz⟩
  · exfalso
    push Not at hx
    cases x with
    | nil => simp [normRow, meanR] at h
    | cons a l =>
      have : a :: l = List.replicate (l.length + 1) a := by
        rw [List.eq_replicate_iff]
        exact ⟨rfl, fun b hb => (hx a (by simp) b hb).symm⟩
      rw [this, C44_constant_fails] at h
      cases h

theorem addAwgn_getElem? (r : List ℂ) (s : ℝ) (u v : Nat → ℝ) (i : Nat) :
    (addAwgn r s ((List.range r.length).map u) ((List.range r.length).map v))[i]? = r[i]?.map fun z => z + (s : ℂ) * (u i + I * v i) / (Real.sqrt 2 : ℝ) := by
  unfold addAwgn
  rw [List.getElem?_zipWith, List.getElem?_zipWith, List.getElem?_map, List.getElem?_map]
  cases h : r[i]? with
  | none => rfl
  | some z =>
    have := (List.getElem?_eq_some_iff.1 h).1
    rw [List.getElem?_range this]
    rfl

theorem phaseNoise_apply_getElem? (r : List ℂ) (df fs : ℝ) (f : Nat → ℝ) (i : Nat) :
    (List.zipWith (fun x (ph : ℝ) => x * exp (I * (ph : ℂ))) r (phaseNoiseRow df fs f r.length))[i]?
      = r[i]?.map fun z => z * exp (I * ((∑ j ∈ Finset.range (i + 1), Real.sqrt (2 * Real.pi * df / fs) * f j : ℝ) : ℂ)) := by
  rw [List.getElem?_zipWith]
  cases h : r[i]? with
  | none => rfl
  | some z =>
    have hi := (List.getElem?_eq_some_iff.1 h).1
    unfold phaseNoiseRow
    rw [getElem?_cumsumGo _ _ _ (by simpa using hi), zero_add]
    have : ∑ j ∈ Finset.range (i + 1), ((List.range r.length).map fun j => Real.sqrt (2 * Real.pi * df / fs) * f j).getD j 0
        = ∑ j ∈ Finset.range (i + 1), Real.sqrt (2 * Real.pi * df / fs) * f j := by
      refine Finset.sum_congr rfl fun j hj => ?_
      have := Finset.mem_range.1 hj
      rw [List.getD_eq_getElem?_getD, List.getElem?_map, List.getElem?_range (by omega)]
      rfl
    rw [this]
    rfl

/-- C185: with noise, frequency offset and phase noise, sample `i` of mode `l` is, up to gain and offset of the normalisation, the sample of the frame
(normalised before, except in the first mode) plus the noise draw `i` of mode `l` with power `10^(-snr/10) * os`, turned by the offset at the sampling
rate `symb_rate * os` and by the running sum of the phase draws of mode `l`. Any number of modes and samples. -/
theorem C185_impairments (os symbRate snr fo lw : ℝ) (d : TxDraws) (frame out caller : List (List ℂ))
    (h : simPilotTx { os := os, symbRate := symbRate, snr := some snr, freqoff := some fo, linewidth := some lw } d frame = .ok (some (out, caller)))
    (l : Nat) (x : List ℂ) (hx : frame[l]? = some x) :
    ∃ (a b : ℝ) (c e : ℂ) (y : List ℂ), 0 < a ∧ 0 < b ∧ (l = 0 → a = 1 ∧ c = 0)
      ∧ (0 < l → (x.map fun z => (a : ℂ) * (z - c)).sum = 0 ∧ ((x.map fun z => (a : ℂ) * (z - c)).map fun z => ‖z‖ ^ 2).sum = x.length)
      ∧ out[l]? = some y ∧ y.length = x.length
      ∧ ∀ (i : Nat) (z : ℂ), x[i]? = some z → y[i]? = some ((b : ℂ) *
          (((a : ℂ) * (z - c) + ((10 : ℝ) ^ (-snr / 20) * Real.sqrt os : ℝ) * ((d.re l i : ℂ) + I * (d.im l i : ℂ)) / (Real.sqrt 2 : ℝ))
            * exp (I * ((2 * Real.pi * fo * (i / (symbRate * os)) : ℝ) : ℂ))
            * exp (I * ((∑ j ∈ Finset.range (i + 1), Real.sqrt (2 * Real.pi * lw / (symbRate * os)) * d.ph l j : ℝ) : ℂ)) - e)) := by
  obtain ⟨_, h2⟩ := C185_modes _ d frame out caller rfl rfl h
  obtain ⟨r0, r1, y, g0, g1, g2, g3, g4⟩ := h2 l x hx
  obtain ⟨b, e, hb, hy⟩ := normRow_scale g3
  obtain ⟨a, c, ha, hac, hr0, hnorm⟩ : ∃ (a : ℝ) (c : ℂ), 0 < a ∧ (l = 0 → a = 1 ∧ c = 0) ∧ (r0 = x.map fun z => (a : ℂ) * (z - c))
      ∧ (0 < l → Normalised r0) := by
    rcases Nat.eq_zero_or_pos l with hl | hl
    · refine ⟨1, 0, one_pos, fun _ => ⟨rfl, rfl⟩, ?_, fun h => absurd h (by omega)⟩
      rw [g0 hl]
      simp
    · obtain ⟨a, c, ha, hr⟩ := normRow_scale (g1 hl)
      exact ⟨a, c, ha, fun h => absurd h (by omega), hr, fun _ => normRow_normalised (g1 hl)⟩
  have hr1 : ∀ i : Nat, r1[i]? = x[i]?.map fun z =>
      ((a : ℂ) * (z - c) + ((10 : ℝ) ^ (-snr / 20) * Real.sqrt os : ℝ) * ((d.re l i : ℂ) + I * (d.im l i : ℂ)) / (Real.sqrt 2 : ℝ))
            * exp (I * ((2 * Real.pi * fo * (i / (symbRate * os)) : ℝ) : ℂ))
            * exp (I * ((∑ j ∈ Finset.range (i + 1), Real.sqrt (2 * Real.pi * lw / (symbRate * os)) * d.ph l j : ℝ) : ℂ)) := by
    intro i
    unfold simTxRow at g2
    simp only [Option.bind_eq_bind, Option.bind_some, Option.pure_def, Option.some.injEq] at g2
    rw [← g2, phaseNoise_apply_getElem?]
    unfold addCarrierOffset
    rw [List.getElem?_mapIdx, addAwgn_getElem?, hr0, List.getElem?_map]
    cases x[i]? with
    | none => rfl
    | some z =>
      simp only [Option.map_some, Option.some.injEq]
      rw [show 2 * Real.pi * (i : ℝ) * fo / (symbRate * os) = 2 * Real.pi * fo * (i / (symbRate * os)) by ring]
  have hlen : r1.length = x.length := by
    have e1 := hr1 r1.length
    have e2 := hr1 x.length
    rw [List.getElem?_eq_none_iff.2 (le_refl r1.length)] at e1
    rw [List.getElem?_eq_none_iff.2 (le_refl x.length), Option.map_none] at e2
    have e1' := Option.map_eq_none_iff.1 e1.symm
    rw [List.getElem?_eq_none_iff] at e1' e2
    omega
  refine ⟨a, b, c, e, y, ha, hb, hac, fun hl => ?_, g4, by rw [hy, List.length_map, hlen], fun i z hz => ?_⟩
  · have hN := hnorm hl
    have hlen0 : r0.length = x.length := by rw [hr0, List.length_map]
    rw [← hr0, ← hlen0]
    exact ⟨hN.2.1, hN.2.2⟩
  · rw [hy, List.getElem?_map, hr1, hz]
    rfl

/-- Two samples with a quarter turn per sample and draws of the phase of zero, noise draws of one. -/
example : ∃ out caller, simPilotTx { os := 1, symbRate := 4, snr := some 0, freqoff := some 1, linewidth := some 0 } ⟨fun _ _ => 0, fun _ _ => 1, fun _ _ => 0⟩ [[1, -1]]
    = .ok (some (out, caller)) := by
  have hrow : ∃ r1, simTxRow { os := 1, symbRate := 4, snr := some 0, freqoff := some 1, linewidth := some 0 } ⟨fun _ _ => 0, fun _ _ => 1, fun _ _ => 0⟩ 0 [1, -1] = some r1
      ∧ ∃ a ∈ r1, ∃ b ∈ r1, a ≠ b := by
    have h0 := phaseNoise_apply_getElem? (addCarrierOffset (addAwgn [1, -1] ((10 : ℝ) ^ (-(0 : ℝ) / 20) * Real.sqrt 1) ((List.range 2).map fun _ => 1) ((List.range 2).map fun _ => 0)) 1 (4 * 1)) 0 (4 * 1) (fun _ => 0)
    have hA : addCarrierOffset (addAwgn [1, -1] ((10 : ℝ) ^ (-(0 : ℝ) / 20) * Real.sqrt 1) ((List.range 2).map fun _ => 1) ((List.range 2).map fun _ => 0)) 1 (4 * 1)
        = [1 + 1 / ((Real.sqrt 2 : ℝ) : ℂ), (-1 + 1 / ((Real.sqrt 2 : ℝ) : ℂ)) * I] := by
      have e4 : (2 * Real.pi * ((1 : ℕ) : ℝ) * 1 / (4 * 1) : ℝ) = Real.pi / 2 := by push_cast; ring
      have : exp (I * ((Real.pi / 2 : ℝ) : ℂ)) = I := by
        rw [mul_comm]
        push_cast
        exact exp_pi_div_two_mul_I
      unfold addCarrierOffset addAwgn
      simp only [List.range_succ, List.range_zero, List.nil_append, List.cons_append, List.map_cons, List.map_nil, List.zipWith_cons_cons, List.zipWith_nil_left,
        List.mapIdx_cons, List.mapIdx_nil, Nat.zero_add, e4, this]
      simp
    rw [hA] at h0
    have e0 := h0 0
    have e1 := h0 1
    simp only [List.getElem?_cons_zero, List.getElem?_cons_succ, Option.map_some, mul_zero, Finset.sum_const_zero, ofReal_zero, exp_zero, mul_one] at e0 e1
    refine ⟨_, by unfold simTxRow; simp only [Option.bind_eq_bind, Option.bind_some, Option.pure_def, List.length_cons, List.length_nil, Nat.zero_add, Nat.reduceAdd, hA]; rfl, ?_⟩
    refine ⟨1 + 1 / ((Real.sqrt 2 : ℝ) : ℂ), List.mem_iff_getElem?.2 ⟨0, ?_⟩, (-1 + 1 / ((Real.sqrt 2 : ℝ) : ℂ)) * I, List.mem_iff_getElem?.2 ⟨1, ?_⟩, fun h => ?_⟩
    · rw [mul_one]; exact e0
    · rw [mul_one]; exact e1
    · have := congrArg Complex.re h
      rw [← ofReal_one, ← ofReal_div, ← ofReal_neg, ← ofReal_add, ← ofReal_add, ofReal_re, mul_comm, I_mul_re, ofReal_im] at this
      have h2 : 0 < 1 / Real.sqrt 2 := by positivity
      linarith
  obtain ⟨r1, h1, h2⟩ := hrow
  obtain ⟨y, hy, _⟩ := normRow_spec h2
  refine ⟨[y], [r1], ?_⟩
  unfold simPilotTx
  simp [simTxPass, simTxRoll, SimTxState.write, h1, normaliseAndCenter, hy, pure, Except.pure, bind]

/-- C185: the quantiser of the receiver leaves a grid of `2^b` levels per quadrature in every mode, up to gain and offset of the normalisation. -/
theorem C185_levels (p : SimTxParams) (b : Nat) (hb : 1 ≤ b) (hp : p.resRx = some b) (d : TxDraws) (frame out caller : List (List ℂ))
    (h : simPilotTx p d frame = .ok (some (out, caller))) :
    ∀ y ∈ out, ∃ (g : ℝ) (c : ℂ), 0 < g ∧ ∀ z ∈ y, ∃ j k : Nat, j < 2 ^ b ∧ k < 2 ^ b
      ∧ z = g * ((⟨-1 + j * (2 / (2 ^ b - 1)), -1 + k * (2 / (2 ^ b - 1))⟩ : ℂ) - c) := by
  obtain ⟨st, _, _, h3⟩ := simPilotTx_some h
  rw [hp] at h3
  simp only at h3
  intro y hy
  obtain ⟨x, _, hq⟩ := mapM_mem h3 hy
  unfold quantizeOldRow at hq
  simp only [Option.bind_eq_bind, Option.bind_eq_some_iff, if_true] at hq
  obtain ⟨s, _, q, hs, hq⟩ := hq
  obtain ⟨g, c, hg, rfl⟩ := normRow_scale hq
  refine ⟨g, c, hg, fun z hz => ?_⟩
  obtain ⟨w, hw, rfl⟩ := List.mem_map.1 hz
  obtain ⟨v, _, hv⟩ := mapM_mem hs hw
  obtain ⟨j, hj, hj', _⟩ := quantOld_spec b hb v.re
  obtain ⟨k, hk, hk', _⟩ := quantOld_spec b hb v.im
  rw [quantC_some hj' hk'] at hv
  exact ⟨j, k, hj, hk, by rw [← Option.some.inj hv]⟩

/-! ### Exceptions -/

/-- C185: a number of delays other than the number of modes raises ValueError; a rotation angle raises AttributeError for two modes. -/
theorem C185_errors (p : SimTxParams) (d : TxDraws) (frame : List (List ℂ)) :
    (∀ ds, p.modalDelay = some ds → ds.length ≠ frame.length → frame ≠ [] → simPilotTx p d frame = .error .value)
      ∧ (∀ θ, p.rotAngle = some θ → frame.length = 2 → (∀ ds, p.modalDelay = some ds → ds.length = 2) → simPilotTx p d frame = .error .attr)
      ∧ (frame.length ≠ 2 → simPilotTx p d frame = simPilotTx { p with rotAngle := none } d frame) := by
  refine ⟨fun ds h1 h2 h3 => ?_, fun θ h1 h2 h3 => ?_, fun h => ?_⟩
  · unfold simPilotTx
    simp [h1, h2, h3, throw, throwThe, MonadExceptOf.throw, bind, Except.bind]
  · unfold simPilotTx
    have : (p.modalDelay.any fun ds => decide (ds.length ≠ frame.length)) = false := by
      cases hp : p.modalDelay with
      | none => rfl
      | some ds => simp [h3 ds hp, h2]
    rw [this]
    simp [h1, h2, throw, throwThe, MonadExceptOf.throw, bind, Except.bind, pure, Except.pure]
  · unfold simPilotTx
    simp only [h, decide_false, Bool.false_and]
    rfl

/-- Without a rotation two modes pass. -/
example (d : TxDraws) : simPilotTx { os := 2, modalDelay := some [3, -1] } d [[1, -1], [1, -1]] = .ok (some ([[1, -1], [1, -1]], [[1, -1], [1, -1]])) := by
  have := C185_sum 2 d 2 [1, -1] [1, -1] (normRow_of_normalised normalised_pm) [3, -1] rfl (by norm_num)
  simpa [Np.roll] using this

example (d : TxDraws) : ∃ out caller, simPilotTx { os := 2, linewidth := some 0 } d [[1, -1], [1, -1]] = .ok (some (out, caller))
    ∧ ∀ y ∈ out, y ≠ [] ∧ y.sum = 0 ∧ (y.map fun z => ‖z‖ ^ 2).sum = y.length := by
  have hy := normRow_of_normalised normalised_pm
  refine ⟨[[1, -1], [1, -1]], [[1, -1], [1, -1]], ?_, ?_⟩
  · unfold simPilotTx
    simp [simTxPass, simTxRoll, SimTxState.write, simTxRow, normaliseAndCenter, hy, phaseNoiseRow, List.range_succ, cumsumGo, pure, Except.pure]
  · intro y hy
    simp only [List.mem_cons, List.not_mem_nil, or_false, or_self] at hy
    rw [hy]
    exact normalised_pm

end Qampy
