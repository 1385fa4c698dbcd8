import Verif.Model.Equaliser
import Verif.Lemmas.Equaliser
import Verif.Props.Equaliser
import Verif.Tactics

/-! Training of the equaliser: step size (C26), accesses (C27), independence of modes (C28, C82), fixed points (C29), ring partitions
(C30, C83), method names (C84). -/

namespace Qampy

theorem foldlM_range_inv {σ : Type _} {f : σ → Nat → Option σ} {P : Nat → σ → Prop} {n : Nat} {s : σ} (h0 : P 0 s)
    (h : ∀ i < n, ∀ s, P i s → ∃ s', f s i = some s' ∧ P (i + 1) s') : ∃ s', (List.range n).foldlM f s = some s' ∧ P n s' := by
  induction n with
  | zero => exact ⟨s, rfl, h0⟩
  | succ n ih =>
    obtain ⟨s1, h1, h2⟩ := ih (fun i hi => h i (by omega))
    obtain ⟨s2, h3, h4⟩ := h n (by omega) s1 h2
    refine ⟨s2, ?_, h4⟩
    rw [List.range_succ, List.foldlM_append, h1]
    simp [h3]

section generic
variable {K : Type} [RCLike K]

/-- The symbol numbers in the order in which one mode uses them: `nIter` times `0..trSyms-1`. -/
def stepOrder (nIter trSyms : Nat) : List Nat := (List.replicate nIter (List.range trSyms)).flatten

theorem trainMode_eq (errf : K → List K → Nat → Option K) (adapt : ℝ → K → K → ℝ) (adaptive : Bool) (E : List (List K))
    (trSyms nIter os ntaps : Nat) (symbs : List K) (w : List (List K)) (mu : ℝ) :
    trainMode errf adapt adaptive E trSyms nIter os ntaps symbs w mu
      = (stepOrder nIter trSyms).foldlM (trainStep errf adapt adaptive E os ntaps symbs) { w := w, mu := mu, errs := [] } := by
  unfold trainMode stepOrder
  generalize ({ w := w, mu := mu, errs := [] } : TrainState K) = s
  induction nIter generalizing s with
  | zero => rfl
  | succ n ih =>
    rw [List.range_succ_eq_map, List.foldlM_cons, List.replicate_succ, List.flatten_cons, List.foldlM_append]
    congr 1
    funext s'
    rw [← ih s', List.foldlM_map]

theorem trainStep_inv {errf : K → List K → Nat → Option K} {adapt : ℝ → K → K → ℝ} {adaptive : Bool} {E : List (List K)}
    {os ntaps : Nat} {symbs : List K} {st st' : TrainState K} {i : Nat} (h : trainStep errf adapt adaptive E os ntaps symbs st i = some st') :
    ∃ x e, applyFilter (window E (i * os) ntaps) st.w ntaps = some x ∧ errf x symbs i = some e
      ∧ updateTaps st.w (window E (i * os) ntaps) ((st.mu : K) * e) = some st'.w ∧ st'.errs = e :: st.errs
      ∧ ((st'.mu = st.mu ∧ ¬ (adaptive = true ∧ 0 < i))
        ∨ (adaptive = true ∧ 0 < i ∧ ∃ prev, st.errs.head? = some prev ∧ st'.mu = adapt st.mu e prev)) := by
  unfold trainStep at h
  simp only [Option.bind_eq_bind, Option.bind_eq_some_iff] at h
  obtain ⟨x, hx, e, he, w, hw, mu, hmu, h⟩ := h
  simp only [Option.some.injEq] at h
  subst h
  refine ⟨x, e, hx, he, hw, rfl, ?_⟩
  unfold nextMu at hmu
  by_cases hc : adaptive = true ∧ 0 < i
  · right
    rw [if_pos (by simp [hc])] at hmu
    rw [Option.map_eq_some_iff] at hmu
    obtain ⟨prev, hp, rfl⟩ := hmu
    exact ⟨hc.1, hc.2, prev, hp, rfl⟩
  · left
    rw [if_neg (by simpa using hc), Option.some.injEq] at hmu
    exact ⟨hmu.symm, hc⟩

/-! ### C26 -/

/-- The property of the step size functions. -/
def Shrinks (adapt : ℝ → K → K → ℝ) : Prop := ∀ mu e p, 0 < mu → 0 < adapt mu e p ∧ adapt mu e p ≤ mu

end generic

theorem div_shrinks {mu a : ℝ} (hmu : 0 < mu) (ha : 0 ≤ a) : 0 < mu / (1 + mu * a) ∧ mu / (1 + mu * a) ≤ mu := by
  have h : 0 < 1 + mu * a := by positivity
  refine ⟨by positivity, ?_⟩
  rw [div_le_iff₀ h]
  nlinarith [mul_nonneg hmu.le ha]

/-- One step of the complex and of the real step size function: the result is positive and at most the old value. -/
theorem C26_adapt_step : Shrinks (K := ℂ) adaptStep ∧ Shrinks (K := ℝ) adaptStepReal := by
  constructor
  · intro mu e p hmu
    unfold adaptStep
    split_ifs
    · exact ⟨hmu, le_rfl⟩
    · exact div_shrinks hmu (by nlinarith [mul_self_nonneg p.re, mul_self_nonneg p.im])
  · intro mu e p hmu
    unfold adaptStepReal
    split_ifs
    · exact ⟨hmu, le_rfl⟩
    · exact div_shrinks hmu (mul_self_nonneg _)

section generic
variable {K : Type} [RCLike K]

theorem train_fold_mu {errf : K → List K → Nat → Option K} {adapt : ℝ → K → K → ℝ} (ha : Shrinks adapt) {adaptive : Bool}
    {E : List (List K)} {os ntaps : Nat} {symbs : List K} {l : List Nat} {st st' : TrainState K} (hmu : 0 < st.mu)
    (h : l.foldlM (trainStep errf adapt adaptive E os ntaps symbs) st = some st') : 0 < st'.mu ∧ st'.mu ≤ st.mu := by
  refine foldlM_inv (P := fun s => 0 < s.mu ∧ s.mu ≤ st.mu) ?_ ⟨hmu, le_rfl⟩ h
  intro s hs i _ s' hs'
  obtain ⟨x, e, -, -, -, -, h1 | ⟨-, -, p, -, h1⟩⟩ := trainStep_inv hs'
  · rw [h1.1]; exact hs
  · rw [h1]
    exact ⟨(ha _ e p hs.1).1, le_trans (ha _ e p hs.1).2 hs.2⟩

/-- Along every run of one mode, for all error functions, signals, symbols, and any number of training symbols and iterations: at
every point of the run the step size is positive and it is never larger than at any earlier point (`l₁` is the part of the run up to the
earlier point, `l₁ ++ l₂` up to the later point). -/
theorem C26_non_increasing {errf : K → List K → Nat → Option K} {adapt : ℝ → K → K → ℝ} (ha : Shrinks adapt) {adaptive : Bool}
    {E : List (List K)} {trSyms nIter os ntaps : Nat} {symbs : List K} {w : List (List K)} {mu : ℝ} (hmu : 0 < mu) {l₁ l₂ l₃ : List Nat}
    (_ : stepOrder nIter trSyms = l₁ ++ l₂ ++ l₃) {s₁ s₂ : TrainState K}
    (h₁ : l₁.foldlM (trainStep errf adapt adaptive E os ntaps symbs) { w := w, mu := mu, errs := [] } = some s₁)
    (h₂ : (l₁ ++ l₂).foldlM (trainStep errf adapt adaptive E os ntaps symbs) { w := w, mu := mu, errs := [] } = some s₂) :
    0 < s₂.mu ∧ s₂.mu ≤ s₁.mu ∧ s₁.mu ≤ mu := by
  rw [List.foldlM_append, h₁] at h₂
  obtain ⟨h3, h4⟩ := train_fold_mu ha (st := { w := w, mu := mu, errs := [] }) hmu h₁
  obtain ⟨h5, h6⟩ := train_fold_mu ha h3 h₂
  exact ⟨h5, h6, h4⟩

/-- The whole training over all modes returns a positive step size of at most the initial value. -/
theorem C26_training {errf : K → List K → Nat → Option K} {adapt : ℝ → K → K → ℝ} (ha : Shrinks adapt) {adaptive : Bool}
    {E : List (List K)} {trSyms nIter os ntaps : Nat} {symbols : List (List K)} {wx : List (List (List K))} {mu : ℝ} {modes : List Nat}
    (hmu : 0 < mu) {r : TrainResult K} (h : trainEqualiser errf adapt adaptive E trSyms nIter os mu wx ntaps modes symbols = some r) :
    0 < r.mu ∧ r.mu ≤ mu := by
  unfold trainEqualiser at h
  refine foldlM_inv (P := fun s => 0 < s.mu ∧ s.mu ≤ mu) ?_ ⟨hmu, le_rfl⟩ h
  intro s hs m _ s' hs'
  simp only [Option.bind_eq_bind, Option.bind_eq_some_iff] at hs'
  obtain ⟨w, -, sy, -, st, hst, hs'⟩ := hs'
  simp only [Option.some.injEq] at hs'
  subst hs'
  rw [trainMode_eq] at hst
  obtain ⟨h1, h2⟩ := train_fold_mu ha (st := { w := w, mu := s.mu, errs := [] }) hs.1 hst
  exact ⟨h1, h2.trans hs.2⟩

/-! ### C27 -/

theorem trainStep_ok {errf : K → List K → Nat → Option K} {adapt : ℝ → K → K → ℝ} {adaptive : Bool} {E : List (List K)}
    {p L os ntaps : Nat} {symbs : List K} {st : TrainState K} {i : Nat} (hE : Rect E p L) (hw : Rect st.w p ntaps)
    (hi : i * os + ntaps ≤ L) (he : ∀ x, ∃ e, errf x symbs i = some e) (hprev : 0 < i → st.errs ≠ []) :
    ∃ st', trainStep errf adapt adaptive E os ntaps symbs st i = some st' ∧ Rect st'.w p ntaps
      ∧ st'.errs.length = st.errs.length + 1 := by
  have hX := rect_window hE hi
  obtain ⟨e, he⟩ := he (∑ k ∈ Finset.range p, ∑ t ∈ Finset.range ntaps, val2 E k (i * os + t) * val2 st.w k t)
  obtain ⟨w', h1, h2, -⟩ := updateTaps_rect hw hX ((st.mu : K) * e)
  obtain ⟨mu, hmu⟩ : ∃ mu, nextMu adapt adaptive st.mu e st.errs i = some mu := by
    unfold nextMu
    split_ifs with h
    · simp only [Bool.and_eq_true, decide_eq_true_eq] at h
      cases hs : st.errs with
      | nil => exact absurd hs (hprev h.2)
      | cons a l => exact ⟨_, rfl⟩
    · exact ⟨_, rfl⟩
  refine ⟨{ w := w', mu := mu, errs := e :: st.errs }, ?_, h2, by simp⟩
  unfold trainStep
  simp only [applyFilter_window hE hw hi, Option.bind_eq_bind, Option.bind_some, he, h1, hmu]

theorem trainMode_ok {errf : K → List K → Nat → Option K} {adapt : ℝ → K → K → ℝ} {adaptive : Bool} {E : List (List K)}
    {p L trSyms nIter os ntaps : Nat} {symbs : List K} {w : List (List K)} {mu : ℝ} (hE : Rect E p L) (hw : Rect w p ntaps)
    (hT : trSyms = 0 ∨ (trSyms - 1) * os + ntaps ≤ L) (he : ∀ i < trSyms, ∀ x, ∃ e, errf x symbs i = some e) :
    ∃ st, trainMode errf adapt adaptive E trSyms nIter os ntaps symbs w mu = some st ∧ Rect st.w p ntaps
      ∧ st.errs.length = nIter * trSyms := by
  refine foldlM_range_inv (P := fun n (s : TrainState K) => Rect s.w p ntaps ∧ s.errs.length = n * trSyms) ⟨hw, by simp⟩ ?_
  intro it _ s ⟨hs1, hs2⟩
  obtain ⟨s', h1, h2, h3⟩ := foldlM_range_inv (f := trainStep errf adapt adaptive E os ntaps symbs)
    (P := fun i (s : TrainState K) => Rect s.w p ntaps ∧ s.errs.length = it * trSyms + i) (n := trSyms) (s := s) ⟨hs1, by omega⟩ (by
      intro i hi s ⟨g1, g2⟩
      have hio : i * os ≤ (trSyms - 1) * os := Nat.mul_le_mul_right _ (by omega)
      obtain ⟨s', k1, k2, k3⟩ := trainStep_ok (adapt := adapt) (adaptive := adaptive) hE g1 (by omega : i * os + ntaps ≤ L) (he i hi)
        (by intro h0 hn; rw [hn] at g2; simp at g2; omega)
      exact ⟨s', k1, k2, by omega⟩)
  refine ⟨s', h1, h2, ?_⟩
  rw [h3, Nat.add_mul, one_mul]

/-- Training with a number of symbols that fits, `(TrSyms-1)*os + Ntaps ≤ L`, touches only samples that exist: it does not fault, for
all signals, taps, error functions (defined on the symbols), step size adaptation or not, numbers of iterations and lists of modes; one error is
reported for every training symbol and iteration. -/
theorem C27_in_bounds {errf : K → List K → Nat → Option K} {adapt : ℝ → K → K → ℝ} {adaptive : Bool} {E : List (List K)}
    {p L trSyms nIter os ntaps : Nat} {symbols : List (List K)} {wx : List (List (List K))} {mu : ℝ} {modes : List Nat}
    (hE : Rect E p L) (hwx : wx.length = p) (hw : ∀ w ∈ wx, Rect w p ntaps) (hs : symbols.length = p) (hm : ∀ m ∈ modes, m < p)
    (hT : trSyms = 0 ∨ (trSyms - 1) * os + ntaps ≤ L) (he : ∀ s ∈ symbols, ∀ i < trSyms, ∀ x, ∃ e, errf x s i = some e) :
    ∃ r, trainEqualiser errf adapt adaptive E trSyms nIter os mu wx ntaps modes symbols = some r ∧ r.wx.length = p
      ∧ (∀ w ∈ r.wx, Rect w p ntaps) ∧ Rect r.err p (trSyms * nIter) := by
  unfold trainEqualiser
  obtain ⟨r, h1, h2, h3, h4⟩ := foldlM_some_inv (l := modes) (P := fun r : TrainResult K =>
      r.wx.length = p ∧ (∀ w ∈ r.wx, Rect w p ntaps) ∧ Rect r.err p (trSyms * nIter))
    (f := fun r mode => do
      let w ← r.wx[mode]?
      let symbs ← symbols[mode]?
      let st ← trainMode errf adapt adaptive E trSyms nIter os ntaps symbs w r.mu
      some { err := r.err.set mode st.errs.reverse, wx := r.wx.set mode st.w, mu := st.mu })
    (by
      intro r ⟨g1, g2, g3⟩ m hmm
      have hmp := hm m hmm
      have hl1 : m < r.wx.length := by omega
      have hl2 : m < symbols.length := by omega
      obtain ⟨st, k1, k2, k3⟩ := trainMode_ok (errf := errf) (adapt := adapt) (adaptive := adaptive) (nIter := nIter) (mu := r.mu) hE
        (g2 _ (List.getElem_mem hl1)) hT (he _ (List.getElem_mem hl2))
      refine ⟨{ err := r.err.set m st.errs.reverse, wx := r.wx.set m st.w, mu := st.mu }, ?_, ?_⟩
      · simp only [List.getElem?_eq_getElem hl1, List.getElem?_eq_getElem hl2, Option.bind_eq_bind, Option.bind_some, k1]
      · refine ⟨by simpa using g1, ?_, by simpa using g3.1, ?_⟩
        · intro w hw
          rcases List.mem_or_eq_of_mem_set hw with hw | rfl
          · exact g2 w hw
          · exact k2
        · intro r' hr'
          rcases List.mem_or_eq_of_mem_set hr' with hr' | rfl
          · exact g3.2 r' hr'
          · rw [List.length_reverse, k3, Nat.mul_comm])
    { err := List.replicate E.length (List.replicate (trSyms * nIter) 0), wx := wx, mu := mu } (by
      refine ⟨hwx, hw, by simp [hE.1], ?_⟩
      intro r hr
      rw [(List.mem_replicate.1 hr).2, List.length_replicate])
  exact ⟨r, h1, h2, h3, h4⟩

/-- The converse: if the last requested symbol does not fit, the compiled code reads behind the end of the signal. -/
theorem C27_out_of_bounds {errf : K → List K → Nat → Option K} {adapt : ℝ → K → K → ℝ} {adaptive : Bool} {E : List (List K)}
    {p L trSyms nIter os ntaps : Nat} {symbols : List (List K)} {wx : List (List (List K))} {mu : ℝ} {modes : List Nat}
    (hE : Rect E p L) (hp : 1 ≤ p) (hn : 1 ≤ ntaps) (hT : 1 ≤ trSyms) (hI : 1 ≤ nIter) (hL : L < (trSyms - 1) * os + ntaps)
    (hm : modes ≠ []) : trainEqualiser errf adapt adaptive E trSyms nIter os mu wx ntaps modes symbols = none := by
  cases modes with
  | nil => exact absurd rfl hm
  | cons m modes =>
    have hmode : ∀ symbs w mu, trainMode errf adapt adaptive E trSyms nIter os ntaps symbs w mu = none := by
      intro symbs w mu
      unfold trainMode
      apply foldlM_none (i := 0) (List.mem_range.2 hI)
      intro s
      apply foldlM_none (i := trSyms - 1) (List.mem_range.2 (by omega))
      intro s
      unfold trainStep
      simp only [applyFilter_window_none hE hp hn hL]
      rfl
    unfold trainEqualiser
    rw [List.foldlM_cons]
    simp only [hmode]
    cases wx[m]? with
    | none => rfl
    | some w =>
      cases symbols[m]? with
      | none => rfl
      | some s => rfl

end generic

/-- The default number of training symbols fits, whenever it is not negative; it is negative (an error) only if there is less than one
window of `Ntaps` symbols. -/
theorem C27_default_fits {os ntaps L : Nat} (hos : 0 < os) (hn : 0 < ntaps) :
    ∃ n : Int, calTrainingSymbolLen os ntaps L = some n ∧ (0 ≤ n ↔ ntaps * os ≤ L)
      ∧ (0 ≤ n → n.toNat = 0 ∨ (n.toNat - 1) * os + ntaps ≤ L)
      ∧ (0 ≤ n → L < (n.toNat + 2 * ntaps) * os) := by
  refine ⟨_, by rw [calTrainingSymbolLen, if_neg (by omega)], ?_⟩
  have hd : L / os / ntaps = L / (os * ntaps) := Nat.div_div_eq_div_mul _ _ _
  have hq1 : L / os / ntaps * (os * ntaps) ≤ L := by rw [hd]; exact Nat.div_mul_le_self _ _
  have hq2 : L < (L / os / ntaps + 1) * (os * ntaps) := by
    rw [hd]
    have := Nat.lt_succ_iff.2 (le_refl (L / (os * ntaps)))
    exact (Nat.div_lt_iff_lt_mul (by positivity)).1 this
  have h1 : (1 ≤ L / os / ntaps) ↔ ntaps * os ≤ L := by
    rw [hd, Nat.le_div_iff_mul_le (by positivity), one_mul, mul_comm]
  have h2 : (0 : Int) ≤ (((L / os / ntaps : Nat) : Int) - 1) * ntaps ↔ 1 ≤ L / os / ntaps := by
    constructor
    · intro h
      by_contra hc
      have : L / os / ntaps = 0 := Nat.lt_one_iff.1 (not_le.1 hc)
      rw [this] at h
      have : ((0 : Nat) : Int) - 1 = -1 := by norm_num
      rw [this] at h
      omega
    · intro h
      apply mul_nonneg <;> omega
  generalize hq : L / os / ntaps = q at *
  have h3 : 1 ≤ q → (((q : Int) - 1) * ntaps).toNat = (q - 1) * ntaps := by
    intro h
    have : ((q : Int) - 1) * ntaps = (((q - 1) * ntaps : Nat) : Int) := by push_cast [h]; ring
    rw [this, Int.toNat_natCast]
  refine ⟨h2.trans h1, ?_, ?_⟩
  · intro h
    have hq0 := h2.1 h
    rw [h3 hq0]
    obtain ⟨r, rfl⟩ : ∃ r, q = r + 1 := ⟨q - 1, by omega⟩
    rw [Nat.add_sub_cancel]
    rcases Nat.eq_zero_or_pos (r * ntaps) with h0 | h0
    · left; exact h0
    · right
      obtain ⟨t, ht⟩ : ∃ t, r * ntaps = t + 1 := ⟨r * ntaps - 1, by omega⟩
      have h4 : (t + 1) * os + os * ntaps ≤ L := by rw [← ht]; calc
        r * ntaps * os + os * ntaps = (r + 1) * (os * ntaps) := by ring
        _ ≤ L := hq1
      rw [ht, Nat.add_sub_cancel]
      have h5 : ntaps ≤ os * ntaps := Nat.le_mul_of_pos_left _ hos
      rw [Nat.add_mul] at h4
      omega
  · intro h
    have hq0 := h2.1 h
    rw [h3 hq0]
    obtain ⟨r, rfl⟩ : ∃ r, q = r + 1 := ⟨q - 1, by omega⟩
    rw [Nat.add_sub_cancel]
    calc L < (r + 1 + 1) * (os * ntaps) := hq2
      _ = (r * ntaps + 2 * ntaps) * os := by ring

example : calTrainingSymbolLen 2 17 1000 = some 476 := by decide

/-! ### C28, C82 -/

section generic
variable {K : Type} [RCLike K]

/-- The result of training: rows of trained modes. With a start value `mu` for the run of mode `m`. -/
theorem trainEqualiser_fold {errf : K → List K → Nat → Option K} {adapt : ℝ → K → K → ℝ} {adaptive : Bool} {E : List (List K)}
    {trSyms nIter os ntaps : Nat} {symbols : List (List K)} {modes : List Nat} {r0 r : TrainResult K}
    (h : modes.foldlM (fun r mode => do
      let w ← r.wx[mode]?
      let symbs ← symbols[mode]?
      let st ← trainMode errf adapt adaptive E trSyms nIter os ntaps symbs w r.mu
      some { err := r.err.set mode st.errs.reverse, wx := r.wx.set mode st.w, mu := st.mu }) r0 = some r)
    {m : Nat} (hm : m ∉ modes) : r.wx[m]? = r0.wx[m]? ∧ r.err[m]? = r0.err[m]? := by
  refine foldlM_inv (P := fun s => s.wx[m]? = r0.wx[m]? ∧ s.err[m]? = r0.err[m]?) ?_ ⟨rfl, rfl⟩ h
  intro s hs k hk s' hs'
  simp only [Option.bind_eq_bind, Option.bind_eq_some_iff] at hs'
  obtain ⟨w, -, sy, -, st, -, hs'⟩ := hs'
  simp only [Option.some.injEq] at hs'
  subst hs'
  have hne : k ≠ m := by rintro rfl; exact hm hk
  simp only [List.getElem?_set_ne hne]
  exact hs

theorem trainMode_mu_fixed {errf : K → List K → Nat → Option K} {adapt : ℝ → K → K → ℝ} {E : List (List K)}
    {trSyms nIter os ntaps : Nat} {symbs : List K} {w : List (List K)} {mu : ℝ} {st : TrainState K}
    (h : trainMode errf adapt false E trSyms nIter os ntaps symbs w mu = some st) : st.mu = mu := by
  rw [trainMode_eq] at h
  refine foldlM_inv (P := fun s => s.mu = mu) ?_ rfl h
  intro s hs i _ s' hs'
  obtain ⟨x, e, -, -, -, -, h1 | ⟨h1, -⟩⟩ := trainStep_inv hs'
  · rw [h1.1, hs]
  · cases h1

/-- Rows after a run in which every mode occurs at most once: the row of a trained mode is that of its own run. -/
theorem trainEqualiser_row {errf : K → List K → Nat → Option K} {adapt : ℝ → K → K → ℝ} {E : List (List K)}
    {trSyms nIter os ntaps : Nat} {symbols : List (List K)} {modes : List Nat} {r0 r : TrainResult K}
    (h : modes.foldlM (fun r mode => do
      let w ← r.wx[mode]?
      let symbs ← symbols[mode]?
      let st ← trainMode errf adapt false E trSyms nIter os ntaps symbs w r.mu
      some { err := r.err.set mode st.errs.reverse, wx := r.wx.set mode st.w, mu := st.mu }) r0 = some r)
    (hnd : modes.Nodup) {m : Nat} (hm : m ∈ modes) (herr : m < r0.err.length) :
    ∃ w s st, r0.wx[m]? = some w ∧ symbols[m]? = some s
      ∧ trainMode errf adapt false E trSyms nIter os ntaps s w r0.mu = some st
      ∧ r.wx[m]? = some st.w ∧ r.err[m]? = some st.errs.reverse := by
  induction modes generalizing r0 with
  | nil => simp at hm
  | cons k modes ih =>
    rw [List.foldlM_cons] at h
    simp only [Option.bind_eq_bind, Option.bind_eq_some_iff] at h
    obtain ⟨r1, ⟨w, hw, sy, hsy, st, hst, hr1⟩, h⟩ := h
    simp only [Option.some.injEq] at hr1
    subst hr1
    rw [List.nodup_cons] at hnd
    by_cases hkm : k = m
    · subst hkm
      obtain ⟨h1, h2⟩ := trainEqualiser_fold h hnd.1
      have hlt : k < r0.wx.length := (List.getElem?_eq_some_iff.1 hw).1
      simp only [List.getElem?_set_self hlt, List.getElem?_set_self herr] at h1 h2
      exact ⟨w, sy, st, hw, hsy, hst, h1, h2⟩
    · have hm' : m ∈ modes := by
        rcases List.mem_cons.1 hm with rfl | h'
        · exact absurd rfl hkm
        · exact h'
      obtain ⟨w', s', st', g1, g2, g3, g4, g5⟩ := ih h hnd.2 hm' (by simpa using herr)
      simp only [List.getElem?_set_ne hkm] at g1
      simp only [trainMode_mu_fixed hst] at g3
      exact ⟨w', s', st', g1, g2, g3, g4, g5⟩

/-- With a fixed step size the taps and errors of a trained mode `m` are the same in any two runs that agree in the signal, in the initial
taps of mode `m` and in its symbols: they do not depend on the other modes that are trained, on the order, or on the taps and symbols of the
other modes. -/
theorem C28_mode_independent {errf : K → List K → Nat → Option K} {adapt adapt' : ℝ → K → K → ℝ} {E : List (List K)}
    {trSyms nIter os ntaps : Nat} {mu : ℝ} {symbols symbols' : List (List K)} {wx wx' : List (List (List K))} {modes modes' : List Nat}
    {r r' : TrainResult K}
    (h : trainEqualiser errf adapt false E trSyms nIter os mu wx ntaps modes symbols = some r)
    (h' : trainEqualiser errf adapt' false E trSyms nIter os mu wx' ntaps modes' symbols' = some r')
    (hnd : modes.Nodup) (hnd' : modes'.Nodup) {m : Nat} (hm : m ∈ modes) (hm' : m ∈ modes') (hmE : m < E.length)
    (hw : wx[m]? = wx'[m]?) (hs : symbols[m]? = symbols'[m]?) :
    r.wx[m]? = r'.wx[m]? ∧ r.err[m]? = r'.err[m]? := by
  unfold trainEqualiser at h h'
  obtain ⟨w, s, st, g1, g2, g3, g4, g5⟩ := trainEqualiser_row h hnd hm (by simpa using hmE)
  obtain ⟨w', s', st', k1, k2, k3, k4, k5⟩ := trainEqualiser_row h' hnd' hm' (by simpa using hmE)
  simp only at g1 k1 g3 k3
  rw [hw, k1, Option.some.injEq] at g1
  rw [hs, k2, Option.some.injEq] at g2
  subst g1 g2
  have hadapt : ∀ (adapt adapt' : ℝ → K → K → ℝ) symbs w mu, trainMode errf adapt false E trSyms nIter os ntaps symbs w mu
      = trainMode errf adapt' false E trSyms nIter os ntaps symbs w mu := by
    intro a a' symbs w mu
    rfl
  rw [hadapt adapt adapt', k3, Option.some.injEq] at g3
  subst g3
  rw [g4, g5, k4, k5]
  exact ⟨rfl, rfl⟩

/-- Modes that are not in the list keep their taps, and have zero errors. -/
theorem C28_untrained {errf : K → List K → Nat → Option K} {adapt : ℝ → K → K → ℝ} {adaptive : Bool} {E : List (List K)}
    {trSyms nIter os ntaps : Nat} {mu : ℝ} {symbols : List (List K)} {wx : List (List (List K))} {modes : List Nat} {r : TrainResult K}
    (h : trainEqualiser errf adapt adaptive E trSyms nIter os mu wx ntaps modes symbols = some r) {m : Nat} (hm : m ∉ modes) :
    r.wx[m]? = wx[m]? ∧ (m < E.length → r.err[m]? = some (List.replicate (trSyms * nIter) 0)) := by
  unfold trainEqualiser at h
  obtain ⟨h1, h2⟩ := trainEqualiser_fold h hm
  refine ⟨h1, fun hE => ?_⟩
  rw [h2, List.getElem?_replicate, if_pos hE]

/-- The same claim for an adaptive step size. -/
def C82_statement : Prop :=
  ∀ (E : List (List ℝ)) (trSyms nIter os ntaps : Nat) (mu : ℝ) (symbols : List (List ℝ)) (wx : List (List (List ℝ)))
    (modes modes' : List Nat) (r r' : TrainResult ℝ) (m : Nat),
    trainEqualiser cmaErrorReal adaptStepReal true E trSyms nIter os mu wx ntaps modes symbols = some r →
    trainEqualiser cmaErrorReal adaptStepReal true E trSyms nIter os mu wx ntaps modes' symbols = some r' →
    modes.Nodup → modes'.Nodup → m ∈ modes → m ∈ modes' → m < E.length → r.wx[m]? = r'.wx[m]?

/-- What holds with an adaptive step size: the first mode of the list is independent of the others. -/
theorem C82_first_mode_partial {errf : K → List K → Nat → Option K} {adapt : ℝ → K → K → ℝ} {adaptive : Bool} {E : List (List K)}
    {trSyms nIter os ntaps : Nat} {mu : ℝ} {symbols : List (List K)} {wx : List (List (List K))} {modes modes' : List Nat} {m : Nat}
    {r r' : TrainResult K}
    (h : trainEqualiser errf adapt adaptive E trSyms nIter os mu wx ntaps (m :: modes) symbols = some r)
    (h' : trainEqualiser errf adapt adaptive E trSyms nIter os mu wx ntaps (m :: modes') symbols = some r')
    (hm : m ∉ modes) (hm' : m ∉ modes') : r.wx[m]? = r'.wx[m]? ∧ r.err[m]? = r'.err[m]? := by
  unfold trainEqualiser at h h'
  rw [List.foldlM_cons] at h h'
  simp only [Option.bind_eq_bind, Option.bind_eq_some_iff] at h h'
  obtain ⟨r1, ⟨w, hw, sy, hsy, st, hst, hr1⟩, h⟩ := h
  obtain ⟨r2, ⟨w', hw', sy', hsy', st', hst', hr2⟩, h'⟩ := h'
  rw [hw, Option.some.injEq] at hw'
  subst hw'
  rw [hsy, Option.some.injEq] at hsy'
  subst hsy'
  rw [hst, Option.some.injEq] at hst'
  subst hst'
  rw [hr1] at hr2
  simp only [Option.some.injEq] at hr2
  subst hr2
  obtain ⟨a1, a2⟩ := trainEqualiser_fold h hm
  obtain ⟨b1, b2⟩ := trainEqualiser_fold h' hm'
  exact ⟨a1.trans b1.symm, a2.trans b2.symm⟩

end generic

set_option maxHeartbeats 1000000 in
/-- A run over both modes with concrete numbers. -/
theorem run_both : trainEqualiser cmaErrorReal adaptStepReal true [[2, 0], [0, 1]] 2 1 1 1 [[[1], [0]], [[0], [1]]] 1 [0, 1] [[1], [2]]
      = some { err := [[-6, 0], [0, 1]], wx := [[[-11], [0]], [[0], [38 / 37]]], mu := 1 / 37 } := by
  norm_num [trainEqualiser, trainMode, trainStep, nextMu, applyFilter, window, at2, updateTaps, cmaErrorReal, adaptStepReal, List.range_succ]
  rfl

set_option maxHeartbeats 1000000 in
/-- The same for the second mode only. -/
theorem run_second : trainEqualiser cmaErrorReal adaptStepReal true [[2, 0], [0, 1]] 2 1 1 1 [[[1], [0]], [[0], [1]]] 1 [1] [[1], [2]]
      = some { err := [[0, 0], [0, 1]], wx := [[[1], [0]], [[0], [2]]], mu := 1 } := by
  norm_num [trainEqualiser, trainMode, trainStep, nextMu, applyFilter, window, at2, updateTaps, cmaErrorReal, adaptStepReal, List.range_succ]
  rfl

/-- The step size left behind by mode 0 is used by mode 1. -/
theorem C82_false : ¬ C82_statement := by
  intro h
  have := h _ _ _ _ _ _ _ _ _ _ _ _ 1 run_both run_second (by simp) (by simp) (by simp) (by simp) (by simp)
  norm_num at this

/-! ### C30 -/

theorem partitionIndex_cons (s p : ℝ) (ps : List ℝ) :
    partitionIndex s (p :: ps) = if s > p then partitionIndex s ps + 1 else 0 := rfl

/-- With boundaries midway between increasing code values, the returned code value is a nearest one, for code books of every size. -/
theorem C30_nearest {codes : List ℝ} (hs : codes.Pairwise (· < ·)) (hne : codes ≠ []) (s : ℝ) :
    ∃ c, partitionValue s (midpoints codes) codes = some c ∧ c ∈ codes ∧ ∀ c' ∈ codes, |s - c| ≤ |s - c'| := by
  induction codes with
  | nil => exact absurd rfl hne
  | cons a l ih =>
    cases l with
    | nil => exact ⟨a, by simp [partitionValue, midpoints, partitionIndex], by simp, by simp⟩
    | cons b l =>
      have hab : a < b := (List.pairwise_cons.1 hs).1 b (by simp)
      unfold partitionValue
      rw [midpoints, partitionIndex_cons]
      by_cases hc : s > a + (b - a) / 2
      · rw [if_pos hc, List.getElem?_cons_succ]
        obtain ⟨c, h1, h2, h3⟩ := ih (List.pairwise_cons.1 hs).2 (by simp)
        refine ⟨c, h1, by simp only [List.mem_cons] at h2 ⊢; exact Or.inr h2, ?_⟩
        intro c' hc'
        rcases List.mem_cons.1 hc' with rfl | hc'
        · refine le_trans (h3 b (by simp)) ?_
          rw [abs_le]
          have := le_abs_self (s - c')
          constructor <;> linarith
        · exact h3 c' hc'
      · rw [if_neg hc, List.getElem?_cons_zero]
        refine ⟨a, rfl, by simp, ?_⟩
        intro c' hc'
        rcases List.mem_cons.1 hc' with rfl | hc'
        · exact le_rfl
        · have hbc : b ≤ c' := by
            rcases List.mem_cons.1 hc' with rfl | hc'
            · exact le_rfl
            · exact ((List.pairwise_cons.1 (List.pairwise_cons.1 hs).2).1 c' hc').le
          rw [abs_le]
          have := neg_abs_le (s - c')
          constructor <;> linarith

example : ([1, 5, 9] : List ℝ).Pairwise (· < ·) ∧ midpoints [1, 5, 9] = [3, 7] := by
  constructor
  · norm_num
  · norm_num [midpoints]

theorem partitionValue_mem {codes : List ℝ} (hs : codes.Pairwise (· < ·)) {v : ℝ} (hv : v ∈ codes) :
    partitionValue v (midpoints codes) codes = some v := by
  obtain ⟨c, h1, -, h3⟩ := C30_nearest hs (List.ne_nil_of_mem hv) v
  have := h3 v hv
  rw [sub_self, abs_zero, abs_nonpos_iff, sub_eq_zero] at this
  rw [h1, this]

theorem uniqueReal_pairwise (l : List ℝ) : (uniqueReal l).Pairwise (· < ·) := by
  have h1 := List.pairwise_insertionSort (· ≤ ·) l.dedup
  have h2 : (uniqueReal l).Nodup := ((List.perm_insertionSort (· ≤ ·) l.dedup).nodup_iff).2 (List.nodup_dedup l)
  exact List.Pairwise.imp₂ (fun a b hab hne => lt_of_le_of_ne hab hne) h1 h2

theorem mem_uniqueReal {l : List ℝ} {x : ℝ} : x ∈ uniqueReal l ↔ x ∈ l := by
  rw [uniqueReal, List.mem_insertionSort, List.mem_dedup]

theorem length_midpoints : ∀ l : List ℝ, (midpoints l).length = l.length - 1
  | [] => rfl
  | [_] => rfl
  | a :: b :: l => by rw [midpoints, List.length_cons, length_midpoints (b :: l)]; simp

theorem arraySplit2_codes {α : Type _} {codes parts : List α} (h : parts.length = codes.length - 1) (hne : codes ≠ []) :
    arraySplit2 (codes ++ parts) = (codes, parts) := by
  have h0 : 0 < codes.length := List.length_pos_iff.2 hne
  have : ((codes ++ parts).length + 1) / 2 = codes.length := by rw [List.length_append, h]; omega
  rw [arraySplit2, this, List.take_left, List.drop_left]

/-- The partition codes generated for RDE from any constellation: every input is compared with the nearest ring of the constellation. -/
theorem C30_rde_codes (syms : List ℂ) (hne : syms ≠ []) (x : ℂ) :
    ∃ c ∈ syms, rdeError x (partitionCodesRadius syms) 0 = some (x * ((‖c‖ ^ 2 - ‖x‖ ^ 2 : ℝ) : ℂ))
      ∧ ∀ c' ∈ syms, |‖x‖ ^ 2 - ‖c‖ ^ 2| ≤ |‖x‖ ^ 2 - ‖c'‖ ^ 2| := by
  have hu : uniqueReal (syms.map fun s => ‖s‖ ^ 2) ≠ [] := by
    obtain ⟨a, ha⟩ := List.exists_mem_of_ne_nil _ hne
    exact List.ne_nil_of_mem (mem_uniqueReal.2 (List.mem_map.2 ⟨a, ha, rfl⟩))
  obtain ⟨v, h1, h2, h3⟩ := C30_nearest (uniqueReal_pairwise (syms.map fun s => ‖s‖ ^ 2)) hu (‖x‖ ^ 2)
  obtain ⟨c, hc, rfl⟩ := List.mem_map.1 (mem_uniqueReal.1 h2)
  refine ⟨c, hc, ?_, ?_⟩
  · unfold rdeError partitionCodesRadius
    simp only [List.map_append]
    rw [arraySplit2_codes (by simp [length_midpoints]) (by simpa using hu)]
    simp only [List.map_map]
    have hid : (Complex.re ∘ Complex.ofReal) = id := by funext y; simp
    rw [hid, List.map_id, List.map_id, h1]
    rfl
  · intro c' hc'
    exact h3 _ (mem_uniqueReal.2 (List.mem_map.2 ⟨c', hc', rfl⟩))

/-! ### C29 -/

section generic
variable {K : Type} [RCLike K]

theorem trainMode_fixed {errf : K → List K → Nat → Option K} {adapt : ℝ → K → K → ℝ} {adaptive : Bool} {E : List (List K)}
    {p L trSyms nIter os ntaps : Nat} {symbs : List K} {w : List (List K)} {mu : ℝ} (hE : Rect E p L) (hw : Rect w p ntaps)
    (hT : trSyms = 0 ∨ (trSyms - 1) * os + ntaps ≤ L) (ha : adapt mu 0 0 = mu)
    (he : ∀ i < trSyms, errf (firOutput E w p ntaps os i) symbs i = some 0) :
    trainMode errf adapt adaptive E trSyms nIter os ntaps symbs w mu
      = some { w := w, mu := mu, errs := List.replicate (nIter * trSyms) 0 } := by
  obtain ⟨st, h1, h2⟩ := foldlM_range_inv (n := nIter) (s := ({ w := w, mu := mu, errs := [] } : TrainState K))
    (f := fun st _ => (List.range trSyms).foldlM (trainStep errf adapt adaptive E os ntaps symbs) st)
    (P := fun n (s : TrainState K) => s = { w := w, mu := mu, errs := List.replicate (n * trSyms) 0 }) (by simp) (by
      intro it _ s hs
      subst hs
      obtain ⟨s', h1, h2⟩ := foldlM_range_inv (f := trainStep errf adapt adaptive E os ntaps symbs)
        (P := fun i (s : TrainState K) => s = { w := w, mu := mu, errs := List.replicate (it * trSyms + i) 0 }) (n := trSyms)
        (s := { w := w, mu := mu, errs := List.replicate (it * trSyms) 0 }) (by simp) (by
          intro i hi s hs
          subst hs
          have hio : i * os ≤ (trSyms - 1) * os := Nat.mul_le_mul_right _ (by omega)
          have hir : i * os + ntaps ≤ L := by omega
          have hmu : nextMu adapt adaptive mu 0 (List.replicate (it * trSyms + i) (0 : K)) i = some mu := by
            unfold nextMu
            split_ifs with hc
            · simp only [Bool.and_eq_true, decide_eq_true_eq] at hc
              have : (List.replicate (it * trSyms + i) (0 : K)).head? = some 0 := by
                obtain ⟨j, hj⟩ : ∃ j, it * trSyms + i = j + 1 := ⟨it * trSyms + i - 1, by omega⟩
                rw [hj]; rfl
              rw [this, Option.map_some, ha]
            · rfl
          refine ⟨_, ?_, rfl⟩
          unfold trainStep
          simp only [applyFilter_window_fir hE hw hir, he i hi, Option.bind_eq_bind, Option.bind_some, mul_zero,
            updateTaps_zero hw (rect_window hE hir), hmu]
          rfl)
      exact ⟨s', h1, by rw [h2, Nat.add_mul, one_mul]⟩)
  unfold trainMode
  rw [h1, h2]

/-- Fixed points: if the error function vanishes on all outputs of the given taps, training for any number of symbols (that fits) and
iterations, with or without step size adaptation, over any list of modes returns the taps and the step size unchanged and only zero errors. -/
theorem C29_fixed_point {errf : K → List K → Nat → Option K} {adapt : ℝ → K → K → ℝ} {adaptive : Bool} {E : List (List K)}
    {p L trSyms nIter os ntaps : Nat} {symbols : List (List K)} {wx : List (List (List K))} {mu : ℝ} {modes : List Nat}
    (hE : Rect E p L) (hwx : wx.length = p) (hw : ∀ w ∈ wx, Rect w p ntaps) (hs : symbols.length = p) (hm : ∀ m ∈ modes, m < p)
    (hT : trSyms = 0 ∨ (trSyms - 1) * os + ntaps ≤ L) (ha : adapt mu 0 0 = mu)
    (he : ∀ m ∈ modes, ∀ w s, wx[m]? = some w → symbols[m]? = some s → ∀ i < trSyms, errf (firOutput E w p ntaps os i) s i = some 0) :
    trainEqualiser errf adapt adaptive E trSyms nIter os mu wx ntaps modes symbols
      = some { err := List.replicate p (List.replicate (trSyms * nIter) 0), wx := wx, mu := mu } := by
  unfold trainEqualiser
  rw [hE.1]
  obtain ⟨r, h1, h2⟩ := foldlM_some_inv (l := modes) (P := fun r : TrainResult K =>
      r = { err := List.replicate p (List.replicate (trSyms * nIter) 0), wx := wx, mu := mu })
    (f := fun r mode => do
      let w ← r.wx[mode]?
      let symbs ← symbols[mode]?
      let st ← trainMode errf adapt adaptive E trSyms nIter os ntaps symbs w r.mu
      some { err := r.err.set mode st.errs.reverse, wx := r.wx.set mode st.w, mu := st.mu })
    (by
      intro r hr m hmm
      subst hr
      have hmp := hm m hmm
      have hl1 : m < wx.length := by omega
      have hl2 : m < symbols.length := by omega
      have hk := trainMode_fixed (errf := errf) (adapt := adapt) (adaptive := adaptive) (nIter := nIter) (mu := mu) hE
        (hw _ (List.getElem_mem hl1)) hT ha (he m hmm _ _ (List.getElem?_eq_getElem hl1) (List.getElem?_eq_getElem hl2))
      refine ⟨{ err := List.replicate p (List.replicate (trSyms * nIter) 0), wx := wx, mu := mu }, ?_, rfl⟩
      simp only [List.getElem?_eq_getElem hl1, List.getElem?_eq_getElem hl2, Option.bind_eq_bind, Option.bind_some, hk,
        List.reverse_replicate, List.set_getElem_self, Option.some.injEq, TrainResult.mk.injEq, and_true]
      rw [Nat.mul_comm nIter trSyms]
      apply List.ext_getElem?
      intro j
      rw [List.getElem?_set]
      by_cases hj : m = j
      · subst hj
        rw [if_pos rfl, if_pos (by simpa using hmp), List.getElem?_replicate, if_pos hmp]
      · rw [if_neg hj])
    _ rfl
  rw [h1, h2]

end generic

theorem adaptStep_zero (mu : ℝ) : adaptStep mu 0 0 = mu := by simp [adaptStep]
theorem adaptStepReal_zero (mu : ℝ) : adaptStepReal mu 0 0 = mu := by simp [adaptStepReal]

theorem detSymbolGo_zero (x : ℂ) (symbs : List ℂ) (s : ℂ) (d : ℝ) (h : (d = 0 ∧ s = x) ∨ (0 < d ∧ x ∈ symbs)) :
    (detSymbolGo x symbs s d).1 = x := by
  induction symbs generalizing s d with
  | nil =>
    rcases h with ⟨-, rfl⟩ | ⟨-, h⟩
    · rfl
    · simp at h
  | cons c cs ih =>
    rw [detSymbolGo]
    have hn : 0 ≤ ‖x - c‖ ^ 2 := by positivity
    rcases h with ⟨rfl, rfl⟩ | ⟨hd, hx⟩
    · rw [if_neg (not_lt.2 hn)]
      exact ih _ _ (Or.inl ⟨rfl, rfl⟩)
    · by_cases hxc : x = c
      · subst hxc
        rw [sub_self, norm_zero, zero_pow two_ne_zero, if_pos hd]
        exact ih _ _ (Or.inl ⟨rfl, rfl⟩)
      · have hx' : x ∈ cs := by
          rcases List.mem_cons.1 hx with h | h
          · exact absurd h hxc
          · exact h
        split_ifs
        · refine ih _ _ (Or.inr ⟨?_, hx'⟩)
          have : 0 < ‖x - c‖ := norm_pos_iff.2 (sub_ne_zero.2 hxc)
          positivity
        · exact ih _ _ (Or.inr ⟨hd, hx'⟩)

theorem detSymbol_mem {x : ℂ} {symbs : List ℂ} (h : x ∈ symbs) : (detSymbol x symbs).1 = x :=
  detSymbolGo_zero _ _ _ _ (Or.inr ⟨by norm_num, h⟩)

/-- When is the output `x` "perfectly equalised" for a method, given the row `s` of symbols and the symbol number `i`: the modulus (CMA), the
components (MCMA) have the reference value, the modulus or the components are on one of the rings (RDE, MRDE), the output is a point of the
alphabet (decision directed methods) or the transmitted symbol (data aided). -/
def Perfect (method : String) (x : ℂ) (s : List ℂ) (i : Nat) : Prop :=
  match method with
  | "cma" => ∃ R : ℝ, s[0]? = some (R : ℂ) ∧ ‖x‖ ^ 2 = R
  | "mcma" => ∃ R : ℂ, s[0]? = some R ∧ x.re ^ 2 = R.re ∧ x.im ^ 2 = R.im
  | "rde" => ∃ syms : List ℂ, s = partitionCodesRadius syms ∧ ∃ c ∈ syms, ‖x‖ = ‖c‖
  | "mrde" => ∃ codes : List ℝ, codes.Pairwise (· < ·) ∧ s = (codes ++ midpoints codes).map (fun v => (⟨v, v⟩ : ℂ)) ∧
      x.re ^ 2 ∈ codes ∧ x.im ^ 2 ∈ codes
  | "sbd" => x ∈ s
  | "mddma" => x ∈ s
  | "dd" => x ∈ s
  | "sbd_data" => s[i]? = some x
  | _ => False

theorem mrde_zero {codes : List ℝ} (hp : codes.Pairwise (· < ·)) {x : ℂ} (h1 : x.re ^ 2 ∈ codes) (h2 : x.im ^ 2 ∈ codes) (i : Nat) :
    mrdeError x ((codes ++ midpoints codes).map fun v => (⟨v, v⟩ : ℂ)) i = some 0 := by
  unfold mrdeError
  rw [List.map_append, arraySplit2_codes (by simp [length_midpoints]) (by simpa using List.ne_nil_of_mem h1)]
  simp only [List.map_map]
  have hid1 : (Complex.re ∘ fun v : ℝ => (⟨v, v⟩ : ℂ)) = id := by funext y; rfl
  have hid2 : (Complex.im ∘ fun v : ℝ => (⟨v, v⟩ : ℂ)) = id := by funext y; rfl
  rw [hid1, hid2, List.map_id, List.map_id, partitionValue_mem hp h1, partitionValue_mem hp h2]
  simp only [Option.bind_eq_bind, Option.bind_some, sub_self, zero_mul]
  rfl

/-- For every method of `train_equaliser` the error of a perfectly equalised sample is zero. -/
theorem perfect_zero {method : String} {x : ℂ} {s : List ℂ} {i : Nat} (h : Perfect method x s i) :
    ∃ errf, errorFct method = some errf ∧ errf x s i = some 0 := by
  unfold Perfect at h
  split at h
  · obtain ⟨R, h1, h2⟩ := h
    refine ⟨_, rfl, ?_⟩
    unfold cmaError
    simp [h1, h2]
  · obtain ⟨R, h1, h2, h3⟩ := h
    refine ⟨_, rfl, ?_⟩
    unfold mcmaError
    simp only [h1, h2, h3, Option.bind_eq_bind, Option.bind_some, sub_self, zero_mul]
    rfl
  · obtain ⟨syms, rfl, c, hc, hx⟩ := h
    refine ⟨_, rfl, ?_⟩
    obtain ⟨c', hc', h1, h2⟩ := C30_rde_codes syms (List.ne_nil_of_mem hc) x
    have := h2 c hc
    rw [hx, sub_self, abs_zero, abs_nonpos_iff, sub_eq_zero] at this
    have e : rdeError x (partitionCodesRadius syms) i = rdeError x (partitionCodesRadius syms) 0 := rfl
    rw [e, h1, hx, this, sub_self]
    simp
  · obtain ⟨codes, hp, rfl, h1, h2⟩ := h
    exact ⟨_, rfl, mrde_zero hp h1 h2 i⟩
  · refine ⟨_, rfl, ?_⟩
    unfold sbdError
    simp only [detSymbol_mem h, sub_self, zero_mul]
    rfl
  · refine ⟨_, rfl, ?_⟩
    unfold mddmaError
    simp only [detSymbol_mem h, sub_self, zero_mul]
    rfl
  · refine ⟨_, rfl, ?_⟩
    unfold ddlmsError
    rw [detSymbol_mem h, sub_self]
  · refine ⟨_, rfl, ?_⟩
    unfold sbdDataError
    simp only [h, Option.bind_eq_bind, Option.bind_some, sub_self, Complex.zero_re, Complex.zero_im, zero_mul]
    rfl
  · exact absurd h (by simp)

/-- For each of the methods cma, mcma, rde, mrde, sbd, mddma, dd, sbd_data: if all outputs of the current taps are perfectly equalised in
the sense of the method, training is the identity on the taps and step size and reports only zero errors. -/
theorem C29_methods {method : String} {adaptive : Bool} {E : List (List ℂ)}
    {p L trSyms nIter os ntaps : Nat} {symbols : List (List ℂ)} {wx : List (List (List ℂ))} {mu : ℝ} {modes : List Nat}
    {errf : ℂ → List ℂ → Nat → Option ℂ} (hmeth : errorFct method = some errf)
    (hE : Rect E p L) (hwx : wx.length = p) (hw : ∀ w ∈ wx, Rect w p ntaps) (hs : symbols.length = p) (hm : ∀ m ∈ modes, m < p)
    (hT : trSyms = 0 ∨ (trSyms - 1) * os + ntaps ≤ L)
    (he : ∀ m ∈ modes, ∀ w s, wx[m]? = some w → symbols[m]? = some s → ∀ i < trSyms, Perfect method (firOutput E w p ntaps os i) s i) :
    trainEqualiser errf adaptStep adaptive E trSyms nIter os mu wx ntaps modes symbols
      = some { err := List.replicate p (List.replicate (trSyms * nIter) 0), wx := wx, mu := mu } := by
  refine C29_fixed_point hE hwx hw hs hm hT (adaptStep_zero mu) ?_
  intro m hmm w s h1 h2 i hi
  obtain ⟨f, hf, h0⟩ := perfect_zero (he m hmm w s h1 h2 i hi)
  rw [hmeth, Option.some.injEq] at hf
  rw [hf]
  exact h0

/-- The real valued methods: cma and sgncma at the reference modulus, dd on a symbol, dd_data on the transmitted symbol. -/
theorem C29_real_methods {errf : ℝ → List ℝ → Nat → Option ℝ} {adaptive : Bool} {E : List (List ℝ)} {method : String}
    {p L trSyms nIter os ntaps : Nat} {symbols : List (List ℝ)} {wx : List (List (List ℝ))} {mu : ℝ} {modes : List Nat}
    (hmeth : errorFctReal method = some errf)
    (hE : Rect E p L) (hwx : wx.length = p) (hw : ∀ w ∈ wx, Rect w p ntaps) (hs : symbols.length = p) (hm : ∀ m ∈ modes, m < p)
    (hT : trSyms = 0 ∨ (trSyms - 1) * os + ntaps ≤ L)
    (he : ∀ m ∈ modes, ∀ w s, wx[m]? = some w → symbols[m]? = some s → ∀ i < trSyms,
      ((method = "cma" ∨ method = "sgncma") ∧ s[0]? = some (firOutput E w p ntaps os i ^ 2))
      ∨ (method = "dd" ∧ firOutput E w p ntaps os i ∈ s)
      ∨ (method = "dd_data" ∧ s[i]? = some (firOutput E w p ntaps os i))) :
    trainEqualiser errf adaptStepReal adaptive E trSyms nIter os mu wx ntaps modes symbols
      = some { err := List.replicate p (List.replicate (trSyms * nIter) 0), wx := wx, mu := mu } := by
  refine C29_fixed_point hE hwx hw hs hm hT (adaptStepReal_zero mu) ?_
  intro m hmm w s h1 h2 i hi
  rcases he m hmm w s h1 h2 i hi with ⟨rfl | rfl, h⟩ | ⟨rfl, h⟩ | ⟨rfl, h⟩
  · have : cmaErrorReal = errf := by simpa [errorFctReal] using hmeth
    subst this
    unfold cmaErrorReal
    simp [h]
  · have : sgncmaErrorReal = errf := by simpa [errorFctReal] using hmeth
    subst this
    unfold sgncmaErrorReal
    simp [h]
  · have : ddErrorReal = errf := by simpa [errorFctReal] using hmeth
    subst this
    generalize firOutput E w p ntaps os i = x at h
    unfold ddErrorReal
    obtain ⟨k, hk, hkx⟩ := List.mem_iff_getElem.1 h
    obtain ⟨j, hj⟩ := Np.argmin_isSome (l := s.map fun s => |x - s|) (by simpa using List.ne_nil_of_mem h)
    obtain ⟨d, g1, g2, -⟩ := Np.argmin_spec hj
    have hd : d ≤ 0 := by
      have := g2 |x - x| (List.mem_map.2 ⟨x, h, rfl⟩)
      simpa using this
    rw [List.getElem?_map, Option.map_eq_some_iff] at g1
    obtain ⟨y, hy, rfl⟩ := g1
    rw [abs_nonpos_iff, sub_eq_zero] at hd
    subst hd
    simp [hj, hy]
  · have : ddDataErrorReal = errf := by simpa [errorFctReal] using hmeth
    subst this
    unfold ddDataErrorReal
    simp [h]

/-- Four samples on the unit circle, one mode, one tap: the hypotheses of the fixed point theorem hold for CMA with radius one; also with
the step size adaptation and three iterations. -/
example : trainEqualiser cmaError adaptStep true [[1, -1, Complex.I, -1]] 4 3 1 (1 / 100) [[[1]]] 1 [0] [[1]]
    = some { err := [List.replicate 12 0], wx := [[[1]]], mu := 1 / 100 } := by
  have hmeth : errorFct "cma" = some cmaError := rfl
  refine C29_methods (p := 1) (L := 4) hmeth ⟨rfl, by simp⟩ rfl (by simp [Rect]) rfl (by simp) (by simp) ?_
  intro m hm w s hw hs i hi
  simp only [List.mem_singleton] at hm
  subst hm
  simp only [List.getElem?_cons_zero, Option.some.injEq] at hw hs
  subst hw hs
  refine ⟨1, by simp, ?_⟩
  have : i = 0 ∨ i = 1 ∨ i = 2 ∨ i = 3 := by omega
  rcases this with rfl | rfl | rfl | rfl <;> norm_num [firOutput, val2, at2]

/-! ### C27 for the methods -/

/-- What the row of symbols of a mode has to be for a method: at least one element for the methods using a constant, an odd number of elements
for the partitioning methods (codes, and one partition boundary less), a symbol for every training symbol for the data aided method. -/
def Usable (method : String) (s : List ℂ) (trSyms : Nat) : Prop :=
  match method with
  | "rde" => s.length % 2 = 1
  | "mrde" => s.length % 2 = 1
  | "sbd" => True
  | "mddma" => True
  | "dd" => True
  | "sbd_data" => trSyms ≤ s.length
  | _ => s ≠ []

theorem partitionIndex_le (x : ℝ) (l : List ℝ) : partitionIndex x l ≤ l.length := by
  induction l with
  | nil => exact le_rfl
  | cons a l ih =>
    rw [partitionIndex_cons]
    split_ifs
    · simpa using ih
    · exact Nat.zero_le _

theorem partitionValue_total (x : ℝ) {s : List ℂ} (h : s.length % 2 = 1) (f g : ℂ → ℝ) :
    ∃ v, partitionValue x ((arraySplit2 s).2.map f) ((arraySplit2 s).1.map g) = some v := by
  unfold partitionValue
  refine ⟨_, List.getElem?_eq_getElem ?_⟩
  refine lt_of_le_of_lt (partitionIndex_le _ _) ?_
  simp only [arraySplit2, List.length_map, List.length_drop, List.length_take]
  omega

theorem usable_total {method : String} {errf : ℂ → List ℂ → Nat → Option ℂ} (hmeth : errorFct method = some errf) {s : List ℂ} {trSyms : Nat}
    (h : Usable method s trSyms) {i : Nat} (hi : i < trSyms) (x : ℂ) : ∃ e, errf x s i = some e := by
  have hne : s ≠ [] → ∃ r, s[0]? = some r := fun h => ⟨_, List.getElem?_eq_getElem (List.length_pos_iff.2 h)⟩
  unfold errorFct at hmeth
  split at hmeth <;> simp only [Option.some.injEq, reduceCtorEq] at hmeth <;> subst hmeth
  · obtain ⟨r, hr⟩ := hne h
    exact ⟨_, by simp only [mcmaError, hr]; rfl⟩
  · obtain ⟨r, hr⟩ := hne h
    exact ⟨_, by simp only [cmaError, hr]; rfl⟩
  · obtain ⟨r, hr⟩ := hne h
    exact ⟨_, by simp only [cma2Error, hr]; rfl⟩
  · obtain ⟨r, hr⟩ := hne h
    exact ⟨_, by simp only [cmaError, hr]; rfl⟩
  · exact ⟨_, rfl⟩
  · obtain ⟨v, hv⟩ := partitionValue_total (‖x‖ ^ 2) h Complex.re Complex.re
    exact ⟨_, by simp only [rdeError, hv]; rfl⟩
  · obtain ⟨v, hv⟩ := partitionValue_total (x.re ^ 2) h Complex.re Complex.re
    obtain ⟨v', hv'⟩ := partitionValue_total (x.im ^ 2) h Complex.im Complex.im
    exact ⟨_, by simp only [mrdeError, hv, hv']; rfl⟩
  · exact ⟨_, rfl⟩
  · exact ⟨_, rfl⟩
  · have : s[i]? = some (s[i]'(lt_of_lt_of_le hi h)) := List.getElem?_eq_getElem _
    exact ⟨_, by simp only [sbdDataError, this]; rfl⟩

/-- For every method of `train_equaliser` the training with usable symbols and a number of training symbols that fits stays inside all
arrays: the signal, the taps, the symbols and the error array. -/
theorem C27_methods {method : String} {errf : ℂ → List ℂ → Nat → Option ℂ} (hmeth : errorFct method = some errf)
    {adaptive : Bool} {E : List (List ℂ)}
    {p L trSyms nIter os ntaps : Nat} {symbols : List (List ℂ)} {wx : List (List (List ℂ))} {mu : ℝ} {modes : List Nat}
    (hE : Rect E p L) (hwx : wx.length = p) (hw : ∀ w ∈ wx, Rect w p ntaps) (hs : symbols.length = p) (hm : ∀ m ∈ modes, m < p)
    (hT : trSyms = 0 ∨ (trSyms - 1) * os + ntaps ≤ L) (hu : ∀ s ∈ symbols, Usable method s trSyms) :
    ∃ r, trainEqualiser errf adaptStep adaptive E trSyms nIter os mu wx ntaps modes symbols = some r ∧ r.wx.length = p
      ∧ (∀ w ∈ r.wx, Rect w p ntaps) ∧ Rect r.err p (trSyms * nIter) :=
  C27_in_bounds hE hwx hw hs hm hT fun s hs _ hi x => usable_total hmeth (hu s hs) hi x

/-- The partition codes generated for RDE are usable for every constellation. -/
theorem C27_rde_usable (syms : List ℂ) (h : syms ≠ []) (n : Nat) : Usable "rde" (partitionCodesRadius syms) n := by
  have hu : 0 < (uniqueReal (syms.map fun s => ‖s‖ ^ 2)).length := by
    obtain ⟨a, ha⟩ := List.exists_mem_of_ne_nil _ h
    exact List.length_pos_of_mem (mem_uniqueReal.2 (List.mem_map.2 ⟨a, ha, rfl⟩))
  show (partitionCodesRadius syms).length % 2 = 1
  simp only [partitionCodesRadius, List.length_map, List.length_append, length_midpoints]
  omega

/-- A data aided method with fewer symbols than training symbols reads behind the end of the symbols. -/
theorem C27_data_short {adaptive : Bool} {E : List (List ℂ)} {trSyms nIter os ntaps : Nat} {symbs : List ℂ} {w : List (List ℂ)} {mu : ℝ}
    (hI : 1 ≤ nIter) (h : symbs.length < trSyms) :
    trainMode sbdDataError adaptStep adaptive E trSyms nIter os ntaps symbs w mu = none := by
  unfold trainMode
  apply foldlM_none (i := 0) (List.mem_range.2 hI)
  intro s
  apply foldlM_none (i := symbs.length) (List.mem_range.2 h)
  intro s
  have : ∀ x, sbdDataError x symbs symbs.length = none := by
    intro x
    simp only [sbdDataError, List.getElem?_eq_none (le_refl symbs.length)]
    rfl
  unfold trainStep
  simp only [this]
  cases applyFilter (window E (symbs.length * os) ntaps) s.w ntaps <;> rfl

example : Usable "mrde" [1, 2, 3] 10 ∧ Usable "sbd_data" [1, 1] 2 ∧ ¬ Usable "rde" [1, 2] 10 ∧ Usable "cma" [1] 5 := by
  refine ⟨?_, ?_, ?_, ?_⟩ <;> simp [Usable]

/-! ### C83 -/

/-- The full claim: for every QAM order the partition codes of MRDE give zero error on every constellation point. -/
def C83_statement : Prop :=
  ∀ (k : Nat) (scale : ℝ), 2 ≤ k → 0 < scale → ∃ symbs, partitionCodesComplex ((symbolsQam k).map (toComplex scale)) = some symbs
    ∧ ∀ x ∈ (symbolsQam k).map (toComplex scale), mrdeError x symbs 0 = some 0

theorem uniqueReal_congr {a b : List ℝ} (h : ∀ x, x ∈ a ↔ x ∈ b) : uniqueReal a = uniqueReal b := by
  have hp : (uniqueReal a).Perm (uniqueReal b) := by
    rw [List.perm_ext_iff_of_nodup]
    · intro x; rw [mem_uniqueReal, mem_uniqueReal, h]
    · exact (uniqueReal_pairwise a).imp (fun h => ne_of_lt h)
    · exact (uniqueReal_pairwise b).imp (fun h => ne_of_lt h)
  exact hp.eq_of_pairwise (fun a b _ _ h1 h2 => absurd h1 (not_lt.2 h2.le)) (uniqueReal_pairwise a) (uniqueReal_pairwise b)

/-- It holds for every constellation in which the squared real parts and the squared imaginary parts take the same values. -/
theorem C83_symmetric_partial {syms : List ℂ} (h : ∀ v : ℝ, (∃ s ∈ syms, s.re ^ 2 = v) ↔ ∃ s ∈ syms, s.im ^ 2 = v) :
    ∃ symbs, partitionCodesComplex syms = some symbs ∧ ∀ x ∈ syms, ∀ i, mrdeError x symbs i = some 0 := by
  have hu : uniqueReal (syms.map fun s => s.im ^ 2) = uniqueReal (syms.map fun s => s.re ^ 2) := by
    apply uniqueReal_congr
    intro v
    rw [List.mem_map, List.mem_map]
    exact (h v).symm
  have hz : ∀ l : List ℝ, broadcastZip (fun x y => (⟨x, y⟩ : ℂ)) l l = some (l.map fun v => ⟨v, v⟩) := by
    intro l
    unfold broadcastZip
    rw [if_pos rfl, List.zipWith_self]
  refine ⟨(uniqueReal (syms.map fun s => s.re ^ 2) ++ midpoints (uniqueReal (syms.map fun s => s.re ^ 2))).map fun v => ⟨v, v⟩, ?_, ?_⟩
  · unfold partitionCodesComplex
    simp only [hu, hz, Option.bind_eq_bind, Option.bind_some, List.map_append]
  · intro x hx i
    refine mrde_zero (uniqueReal_pairwise _) (mem_uniqueReal.2 (List.mem_map.2 ⟨x, hx, rfl⟩)) ?_ i
    rw [← hu]
    exact mem_uniqueReal.2 (List.mem_map.2 ⟨x, hx, rfl⟩)

theorem symbolsQam_swap {k : Nat} (hk : k = 2 ∨ 4 ≤ k) {a b : Int} (h : (a, b) ∈ symbolsQam k) : (b, a) ∈ symbolsQam k := by
  unfold symbolsQam at h ⊢
  split_ifs at h ⊢ with hodd
  · rw [mem_crossQam (by omega)] at h ⊢
    tauto
  · rw [mem_squareQam (by omega)] at h ⊢
    tauto

/-- It holds for M-QAM of all orders except 8-QAM (and 2-QAM). -/
theorem C83_qam_partial {k : Nat} (hk : k = 2 ∨ 4 ≤ k) (scale : ℝ) :
    ∃ symbs, partitionCodesComplex ((symbolsQam k).map (toComplex scale)) = some symbs
      ∧ ∀ x ∈ (symbolsQam k).map (toComplex scale), ∀ i, mrdeError x symbs i = some 0 := by
  have hsw : ∀ p : Int × Int, (toComplex scale (p.2, p.1)).re = (toComplex scale p).im ∧ (toComplex scale (p.2, p.1)).im = (toComplex scale p).re := by
    intro p
    simp [toComplex, Complex.div_ofReal_re, Complex.div_ofReal_im]
  apply C83_symmetric_partial
  intro v
  constructor
  · rintro ⟨s, hs, rfl⟩
    obtain ⟨⟨a, b⟩, hp, rfl⟩ := List.mem_map.1 hs
    exact ⟨_, List.mem_map.2 ⟨(b, a), symbolsQam_swap hk hp, rfl⟩, by rw [(hsw (a, b)).2]⟩
  · rintro ⟨s, hs, rfl⟩
    obtain ⟨⟨a, b⟩, hp, rfl⟩ := List.mem_map.1 hs
    exact ⟨_, List.mem_map.2 ⟨(b, a), symbolsQam_swap hk hp, rfl⟩, by rw [(hsw (a, b)).1]⟩

/-- 8-QAM: the real parts have two rings, the imaginary parts one; the boundaries vanish in the addition of arrays of length one and zero, and
the point `3 + i` has an error. -/
theorem C83_false : ¬ C83_statement := by
  intro h
  obtain ⟨symbs, h1, h2⟩ := h 3 1 (by omega) (by norm_num)
  have hu1 : uniqueReal (((symbolsQam 3).map (toComplex 1)).map fun s => s.re ^ 2) = [1, 9] := by
    have : uniqueReal (((symbolsQam 3).map (toComplex 1)).map fun s => s.re ^ 2) = uniqueReal [1, 9] := by
      apply uniqueReal_congr
      intro v
      have e : symbolsQam 3 = [(-3, -1), (-3, 1), (-1, -1), (-1, 1), (1, -1), (1, 1), (3, -1), (3, 1)] := by decide
      rw [e]
      norm_num [toComplex]
      tauto
    rw [this, uniqueReal]
    norm_num
  have hu2 : uniqueReal (((symbolsQam 3).map (toComplex 1)).map fun s => s.im ^ 2) = [1] := by
    have : uniqueReal (((symbolsQam 3).map (toComplex 1)).map fun s => s.im ^ 2) = uniqueReal [1] := by
      apply uniqueReal_congr
      intro v
      have e : symbolsQam 3 = [(-3, -1), (-3, 1), (-1, -1), (-1, 1), (1, -1), (1, 1), (3, -1), (3, 1)] := by decide
      rw [e]
      norm_num [toComplex]
    rw [this, uniqueReal]
    norm_num
  unfold partitionCodesComplex at h1
  simp only [hu1, hu2, midpoints] at h1
  norm_num [broadcastZip] at h1
  subst h1
  have := h2 (toComplex 1 (3, 1)) (List.mem_map.2 ⟨(3, 1), by decide, rfl⟩)
  norm_num [mrdeError, arraySplit2, partitionValue, partitionIndex, toComplex, Complex.ext_iff] at this

/-! ### C84 -/

/-- The full claim: the method "sgncma" trains with the signed error. -/
def C84_statement : Prop :=
  ∀ (x : ℂ) (s : List ℂ) (i : Nat), ∃ errf, errorFct "sgncma" = some errf ∧ errf x s i = sgncmaError x s i

/-- "sgncma" is dispatched to the ordinary CMA error. -/
theorem C84_false : ¬ C84_statement := by
  intro h
  obtain ⟨errf, h1, h2⟩ := h 2 [1] 0
  simp only [errorFct, Option.some.injEq] at h1
  subst h1
  have h3 := congrArg (fun o => o.map Complex.re) h2
  norm_num [cmaError, sgncmaError] at h3

/-- The real valued version does use the sign: every error is -1, 0 or 1, and it is the sign of the ordinary error. -/
theorem C84_real_partial {errf : ℝ → List ℝ → Nat → Option ℝ} (h : errorFctReal "sgncma" = some errf) {x : ℝ} {s : List ℝ} {i : Nat} {e : ℝ}
    (he : errf x s i = some e) : ∃ d, cmaErrorReal x s i = some d ∧ e = (SignType.sign d : ℝ) ∧ |e| ≤ 1 := by
  have : sgncmaErrorReal = errf := by simpa [errorFctReal] using h
  subst this
  unfold sgncmaErrorReal at he
  unfold cmaErrorReal
  simp only [Option.bind_eq_bind, Option.bind_eq_some_iff, Option.some.injEq] at he
  obtain ⟨r, hr, rfl⟩ := he
  refine ⟨_, by simp only [hr]; rfl, ?_, ?_⟩
  · rw [sign_mul]
    simp
  · rw [abs_mul]
    have hs : ∀ t : SignType, |(t : ℝ)| ≤ 1 := by intro t; cases t <;> simp
    exact mul_le_one₀ (hs _) (abs_nonneg _) (hs _)

example : sgncmaErrorReal 3 [1] 0 = some (-1) := by
  norm_num [sgncmaErrorReal]

/-! ### C108: decisions inside the equaliser -/

theorem detSymbolGo_spec (x : ℂ) : ∀ (symbs : List ℂ) (s : ℂ) (d : ℝ),
    ((∀ c ∈ symbs, d ≤ ‖x - c‖ ^ 2) ∧ detSymbolGo x symbs s d = (s, d)) ∨
    (∃ j c, symbs[j]? = some c ∧ detSymbolGo x symbs s d = (c, ‖x - c‖ ^ 2) ∧ ‖x - c‖ ^ 2 < d ∧ (∀ b ∈ symbs, ‖x - c‖ ^ 2 ≤ ‖x - b‖ ^ 2) ∧
      ∀ (k : Nat) (b : ℂ), k < j → symbs[k]? = some b → ‖x - c‖ ^ 2 < ‖x - b‖ ^ 2) := by
  intro symbs
  induction symbs with
  | nil => intro s d; exact Or.inl ⟨by simp, rfl⟩
  | cons a l ih =>
    intro s d
    by_cases ha : ‖x - a‖ ^ 2 < d
    · have hgo : detSymbolGo x (a :: l) s d = detSymbolGo x l a (‖x - a‖ ^ 2) := by rw [detSymbolGo, if_pos ha]
      rw [hgo]
      right
      rcases ih a (‖x - a‖ ^ 2) with ⟨h1, h2⟩ | ⟨j, c, h1, h2, h3, h4, h5⟩
      · refine ⟨0, a, rfl, h2, ha, ?_, fun k b hk _ => absurd hk (by omega)⟩
        intro b hb
        rcases List.mem_cons.1 hb with rfl | hb
        · exact le_rfl
        · exact h1 b hb
      · refine ⟨j + 1, c, h1, h2, h3.trans ha, ?_, ?_⟩
        · intro b hb
          rcases List.mem_cons.1 hb with rfl | hb
          · exact h3.le
          · exact h4 b hb
        · intro k b hk hb
          rcases k with _ | k
          · rw [List.getElem?_cons_zero, Option.some.injEq] at hb
            subst hb; exact h3
          · exact h5 k b (by omega) hb
    · have hgo : detSymbolGo x (a :: l) s d = detSymbolGo x l s d := by rw [detSymbolGo, if_neg ha]
      rw [hgo]
      rcases ih s d with ⟨h1, h2⟩ | ⟨j, c, h1, h2, h3, h4, h5⟩
      · left
        refine ⟨?_, h2⟩
        intro b hb
        rcases List.mem_cons.1 hb with rfl | hb
        · exact not_lt.1 ha
        · exact h1 b hb
      · right
        refine ⟨j + 1, c, h1, h2, h3, ?_, ?_⟩
        · intro b hb
          rcases List.mem_cons.1 hb with rfl | hb
          · exact h3.le.trans (not_lt.1 ha)
          · exact h4 b hb
        · intro k b hk hb
          rcases k with _ | k
          · rw [List.getElem?_cons_zero, Option.some.injEq] at hb
            subst hb; exact lt_of_lt_of_le h3 (not_lt.1 ha)
          · exact h5 k b (by omega) hb

/-- C108 (partial: some symbol is closer than `√1000`): the decision is the first of the nearest symbols, together with its squared distance. -/
theorem C108_nearest_partial (x : ℂ) (symbs : List ℂ) (h : ∃ c ∈ symbs, ‖x - c‖ ^ 2 < 1000) :
    ∃ (j : Nat) (c : ℂ), symbs[j]? = some c ∧ detSymbol x symbs = (c, ‖x - c‖ ^ 2) ∧ (∀ b ∈ symbs, ‖x - c‖ ≤ ‖x - b‖) ∧
      ∀ (k : Nat) (b : ℂ), k < j → symbs[k]? = some b → ‖x - c‖ < ‖x - b‖ := by
  obtain ⟨c0, hc0, hd0⟩ := h
  rcases detSymbolGo_spec x symbs 1 1000 with ⟨h1, -⟩ | ⟨j, c, h1, h2, -, h4, h5⟩
  · exact absurd hd0 (not_lt.2 (h1 c0 hc0))
  · refine ⟨j, c, h1, h2, fun b hb => ?_, fun k b hk hb => ?_⟩
    · exact (sq_le_sq₀ (norm_nonneg _) (norm_nonneg _)).1 (h4 b hb)
    · exact (sq_lt_sq₀ (norm_nonneg _) (norm_nonneg _)).1 (h5 k b hk hb)

/-- C108: farther away from every symbol the decision is the number one, whatever the alphabet. -/
theorem C108_far (x : ℂ) (symbs : List ℂ) (h : ∀ c ∈ symbs, 1000 ≤ ‖x - c‖ ^ 2) : detSymbol x symbs = (1, 1000) := by
  rcases detSymbolGo_spec x symbs 1 1000 with ⟨-, h2⟩ | ⟨j, c, h1, -, h3, -, -⟩
  · exact h2
  · exact absurd h3 (not_lt.2 (h c (List.mem_of_getElem? h1)))

/-- C108 as stated: the decision is a nearest symbol of the alphabet. -/
def C108_statement : Prop := ∀ (x : ℂ) (symbs : List ℂ), symbs ≠ [] → (detSymbol x symbs).1 ∈ symbs ∧ ∀ b ∈ symbs, ‖x - (detSymbol x symbs).1‖ ≤ ‖x - b‖

theorem C108_false : ¬ C108_statement := by
  intro h
  obtain ⟨h1, -⟩ := h 100 [-1] (by simp)
  rw [C108_far 100 [-1] (by
    intro c hc
    rw [List.mem_singleton] at hc
    subst hc
    rw [show (100 : ℂ) - -1 = ((101 : ℝ) : ℂ) from by norm_num, Complex.norm_real]
    norm_num)] at h1
  rw [List.mem_singleton] at h1
  norm_num at h1

/-- The default symbol is only used far away: a QPSK decision. -/
example : (detSymbol (⟨2, 1⟩ : ℂ) [⟨1, 1⟩, ⟨-1, 1⟩]).1 = ⟨1, 1⟩ := by
  have n1 : ‖(⟨2, 1⟩ : ℂ) - ⟨1, 1⟩‖ ^ 2 = 1 := by rw [← Complex.normSq_eq_norm_sq, Complex.normSq_apply]; norm_num
  have n2 : ‖(⟨2, 1⟩ : ℂ) - ⟨-1, 1⟩‖ ^ 2 = 9 := by rw [← Complex.normSq_eq_norm_sq, Complex.normSq_apply]; norm_num
  simp only [detSymbol, detSymbolGo, n1, n2]
  norm_num

/-- C84 (partial: all names but "sgncma"): the error each method name trains with, `s` being the nearest symbol for the decision-directed ones. -/
theorem C84_methods_partial (x R : ℂ) (symbs : List ℂ) (i : Nat) (h0 : symbs[0]? = some R) (h : ∃ c ∈ symbs, ‖x - c‖ ^ 2 < 1000) :
    ∃ s ∈ symbs, (∀ b ∈ symbs, ‖x - s‖ ≤ ‖x - b‖) ∧
      (errorFct "dd").bind (fun f => f x symbs i) = some (s - x) ∧
      (errorFct "sbd").bind (fun f => f x symbs i) = some ⟨(s.re - x.re) * |s.re|, (s.im - x.im) * |s.im|⟩ ∧
      (errorFct "mddma").bind (fun f => f x symbs i) = some ⟨(s.re ^ 2 - x.re ^ 2) * x.re, (s.im ^ 2 - x.im ^ 2) * x.im⟩ ∧
      (errorFct "cma").bind (fun f => f x symbs i) = some (((R.re - ‖x‖ ^ 2 : ℝ) : ℂ) * x) ∧
      (errorFct "cma2").bind (fun f => f x symbs i) = some ((R - x ^ 2) * x) ∧
      (errorFct "mcma").bind (fun f => f x symbs i) = some ⟨(R.re - x.re ^ 2) * x.re, (R.im - x.im ^ 2) * x.im⟩ ∧
      (∀ t, symbs[i]? = some t → (errorFct "sbd_data").bind (fun f => f x symbs i) = some ⟨(t.re - x.re) * |t.re|, (t.im - x.im) * |t.im|⟩) := by
  obtain ⟨j, c, h1, h2, h3, -⟩ := C108_nearest_partial x symbs h
  have hd : (detSymbol x symbs).1 = c := by rw [h2]
  refine ⟨c, List.mem_of_getElem? h1, h3, ?_, ?_, ?_, ?_, ?_, ?_, ?_⟩
  · simp only [errorFct, Option.bind_some, ddlmsError, hd]
  · simp only [errorFct, Option.bind_some, sbdError, hd]
  · simp only [errorFct, Option.bind_some, mddmaError, hd]
  · simp only [errorFct, Option.bind_some, cmaError, h0, Option.bind_eq_bind]
  · simp only [errorFct, Option.bind_some, cma2Error, h0, Option.bind_eq_bind]
  · simp only [errorFct, Option.bind_some, mcmaError, h0, Option.bind_eq_bind]
  · intro t ht
    simp only [errorFct, Option.bind_some, sbdDataError, ht, Option.bind_eq_bind, Complex.sub_re, Complex.sub_im]

/-- C84: the radius directed methods use the radius whose cell (between the partition points) holds the squared modulus, or the squared component. -/
theorem C84_radius_partial (x : ℂ) (codes parts : List ℂ) (i : Nat) (hl : parts.length + 1 = codes.length) :
    (errorFct "rde").bind (fun f => f x (codes ++ parts) i) =
      (partitionValue (‖x‖ ^ 2) (parts.map Complex.re) (codes.map Complex.re)).map (fun r => x * ((r - ‖x‖ ^ 2 : ℝ) : ℂ)) ∧
    (errorFct "mrde").bind (fun f => f x (codes ++ parts) i) =
      (partitionValue (x.re ^ 2) (parts.map Complex.re) (codes.map Complex.re)).bind fun a =>
        (partitionValue (x.im ^ 2) (parts.map Complex.im) (codes.map Complex.im)).map fun b => ⟨(a - x.re ^ 2) * x.re, (b - x.im ^ 2) * x.im⟩ := by
  have hs : arraySplit2 (codes ++ parts) = (codes, parts) := by
    unfold arraySplit2
    have : (codes ++ parts).length = codes.length + parts.length := List.length_append
    rw [this, show (codes.length + parts.length + 1) / 2 = codes.length from by omega, List.take_left, List.drop_left]
  constructor
  · simp only [errorFct, Option.bind_some, rdeError, hs]
    rcases partitionValue (‖x‖ ^ 2) (parts.map Complex.re) (codes.map Complex.re) with _ | r <;> rfl
  · simp only [errorFct, Option.bind_some, mrdeError, hs]
    rcases partitionValue (x.re ^ 2) (parts.map Complex.re) (codes.map Complex.re) with _ | a
    · rfl
    · rcases partitionValue (x.im ^ 2) (parts.map Complex.im) (codes.map Complex.im) with _ | b <;> rfl

end Qampy
