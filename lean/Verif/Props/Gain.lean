import Verif.Props.Converge

/-!
C176: gain acquisition of the constant modulus algorithm. One source of constant modulus arrives in any number of modes and taps with fixed weights (single tap equaliser of a PSK signal, a single
polarisation signal behind a polarisation rotation, a carrier without modulation); from any start with non-zero output the modulus of the output converges geometrically to the reference radius.
-/

namespace Qampy

/-- One step of the power of the output: the distance to the radius shrinks by a factor between 0 and `1 - b*m`, and the output stays in the region where this holds. -/
theorem gain_step {b R σ m : ℝ} (hb : 0 < b) (hm : 0 < m) (hmR : m ≤ R) (hbR : b * R ≤ 1 / 2) (hmσ : m ≤ σ) (hσ : 3 * (b * σ) ≤ 1 + b * R) :
    0 < 1 + b * (R - σ) ∧ |σ * (1 + b * (R - σ)) ^ 2 - R| ≤ (1 - b * m) * |σ - R| ∧ m ≤ σ * (1 + b * (R - σ)) ^ 2 ∧ 3 * (b * (σ * (1 + b * (R - σ)) ^ 2)) ≤ 1 + b * R := by
  obtain ⟨f, hf⟩ : ∃ f, f = 1 - 2 * (b * σ) - b * σ * (b * R - b * σ) := ⟨_, rfl⟩
  have hR : 0 < R := hm.trans_le hmR
  have hσ0 : 0 < σ := hm.trans_le hmσ
  have ht : 0 < b * σ := mul_pos hb hσ0
  have ha : 0 < b * R := mul_pos hb hR
  have hid : σ * (1 + b * (R - σ)) ^ 2 - R = f * (σ - R) := by rw [hf]; ring
  have hf0 : 0 ≤ f := by rw [hf]; nlinarith
  have hbm : b * m ≤ b * σ := mul_le_mul_of_nonneg_left hmσ hb.le
  have hf1 : f ≤ 1 - b * m := by
    rw [hf]
    nlinarith
  have hbm0 : 0 < b * m := mul_pos hb hm
  have hf1' : f ≤ 1 := by linarith
  refine ⟨by nlinarith, ?_, ?_, ?_⟩
  · rw [hid, abs_mul, abs_of_nonneg hf0]
    exact mul_le_mul_of_nonneg_right hf1 (abs_nonneg _)
  · have : σ * (1 + b * (R - σ)) ^ 2 = f * σ + (1 - f) * R := by linarith
    rw [this]
    nlinarith
  · have : σ * (1 + b * (R - σ)) ^ 2 = f * σ + (1 - f) * R := by linarith
    rw [this]
    have h2 : 3 * (b * (f * σ + (1 - f) * R)) = f * (3 * (b * σ)) + (1 - f) * (3 * (b * R)) := by ring
    rw [h2]
    have h3 : 3 * (b * R) ≤ 1 + b * R := by linarith
    nlinarith [mul_le_mul_of_nonneg_left hσ hf0, mul_le_mul_of_nonneg_left h3 (by linarith : (0 : ℝ) ≤ 1 - f)]

section generic
variable {K : Type} [RCLike K]

/-- The response of taps to one source with weights `h`: the output of the equaliser for the source symbol 1. -/
noncomputable def response (w : List (List K)) (h : Nat → Nat → K) (p ntaps : Nat) : K := ∑ k ∈ Finset.range p, ∑ t ∈ Finset.range ntaps, val2 w k t * h k t

/-- Power of the weights. -/
noncomputable def sourcePower (h : Nat → Nat → K) (p ntaps : Nat) : ℝ := ∑ k ∈ Finset.range p, ∑ t ∈ Finset.range ntaps, ‖h k t‖ ^ 2

/-- In the windows of the symbols in `l` one source `c` of modulus one is seen with the weights `h`. -/
def OneSource (E : List (List K)) (c : Nat → K) (h : Nat → Nat → K) (p ntaps os : Nat) (n : Nat) : Prop :=
  ∀ i < n, ‖c i‖ = 1 ∧ ∀ k t, k < p → t < ntaps → val2 E k (i * os + t) = c i * h k t

theorem firOutput_oneSource {E w : List (List K)} {c : Nat → K} {h : Nat → Nat → K} {p ntaps os n i : Nat} (hs : OneSource E c h p ntaps os n) (hi : i < n) :
    firOutput E w p ntaps os i = c i * response w h p ntaps := by
  unfold firOutput response
  rw [Finset.mul_sum]
  refine Finset.sum_congr rfl fun k hk => ?_
  rw [Finset.mul_sum]
  refine Finset.sum_congr rfl fun t ht => ?_
  rw [(hs i hi).2 k t (Finset.mem_range.1 hk) (Finset.mem_range.1 ht)]
  ring

theorem windowEnergy_oneSource {E : List (List K)} {c : Nat → K} {h : Nat → Nat → K} {p ntaps os n i : Nat} (hs : OneSource E c h p ntaps os n) (hi : i < n) :
    windowEnergy E p ntaps os i = sourcePower h p ntaps := by
  unfold windowEnergy sourcePower
  refine Finset.sum_congr rfl fun k hk => Finset.sum_congr rfl fun t ht => ?_
  rw [(hs i hi).2 k t (Finset.mem_range.1 hk) (Finset.mem_range.1 ht), norm_mul, (hs i hi).1, one_mul]

/-- The error function of the constant modulus algorithm. -/
def IsCma (errf : K → List K → Nat → Option K) (symbs : List K) (R : ℝ) : Prop := ∀ x i, errf x symbs i = some (((R - ‖x‖ ^ 2 : ℝ) : K) * x)

/-- One step: the response is multiplied by a real number, the taps move along the conjugate weights. -/
theorem gain_trainStep {errf : K → List K → Nat → Option K} {adapt : ℝ → K → K → ℝ} {adaptive : Bool} {E : List (List K)} {c : Nat → K} {h : Nat → Nat → K}
    {p L os ntaps n : Nat} {symbs : List K} {R : ℝ} (hR : IsCma errf symbs R) (hE : Rect E p L) (hs : OneSource E c h p ntaps os n) {i : Nat} (hi : i < n) (hiL : i * os + ntaps ≤ L)
    {st st' : TrainState K} (hw : Rect st.w p ntaps) (hst : trainStep errf adapt adaptive E os ntaps symbs st i = some st') :
    Rect st'.w p ntaps ∧
    response st'.w h p ntaps = ((1 + st.mu * sourcePower h p ntaps * (R - ‖response st.w h p ntaps‖ ^ 2) : ℝ) : K) * response st.w h p ntaps ∧
    (∃ κ : ℝ, ∀ k t, k < p → t < ntaps → val2 st'.w k t = val2 st.w k t + (κ : K) * response st.w h p ntaps * star (h k t)) ∧
    st'.errs = (((R - ‖response st.w h p ntaps‖ ^ 2 : ℝ) : K) * (c i * response st.w h p ntaps)) :: st.errs := by
  obtain ⟨e, h1, h2, h3, h4⟩ := trainStep_tapStep hE hw hiL hst
  obtain ⟨y, hy⟩ : ∃ y, y = response st.w h p ntaps := ⟨_, rfl⟩
  have hc := (hs i hi).1
  have hcc : c i * star (c i) = 1 := by
    have := RCLike.mul_conj (c i)
    rw [hc] at this
    simpa using this
  rw [hR, firOutput_oneSource hs hi, ← hy, norm_mul, hc, one_mul, Option.some.injEq] at h1
  rw [← hy]
  have htap : ∀ k t, k < p → t < ntaps → val2 st'.w k t = val2 st.w k t + ((st.mu * (R - ‖y‖ ^ 2) : ℝ) : K) * y * star (h k t) := by
    intro k t hk ht
    rw [h4 k t hk ht, (hs i hi).2 k t hk ht, ← h1, star_mul']
    push_cast
    linear_combination ((st.mu : K) * ((R : K) - (‖y‖ : K) ^ 2) * y * star (h k t)) * hcc
  refine ⟨h3, ?_, ⟨_, htap⟩, by rw [h2, ← h1]⟩
  have hout := firOutput_tapStep h4
  rw [firOutput_oneSource hs hi, firOutput_oneSource hs hi, windowEnergy_oneSource hs hi, ← hy, ← h1] at hout
  have hc0 : c i ≠ 0 := by
    intro h0
    rw [h0, norm_zero] at hc
    exact zero_ne_one hc
  apply mul_left_cancel₀ hc0
  rw [hout]
  push_cast
  ring

/-- The whole loop: the response is multiplied by a positive number and its power approaches the radius. -/
theorem gain_fold {errf : K → List K → Nat → Option K} {adapt : ℝ → K → K → ℝ} {adaptive : Bool} {E : List (List K)} {c : Nat → K} {h : Nat → Nat → K}
    {p L os ntaps n : Nat} {symbs : List K} {R mu0 m : ℝ} (hR : IsCma errf symbs R) (ha : Shrinks adapt) (hE : Rect E p L) (hs : OneSource E c h p ntaps os n)
    (hP : 0 < sourcePower h p ntaps) (hm : 0 < m) (hmR : m ≤ R) (l : List Nat) (hl : ∀ i ∈ l, i < n ∧ i * os + ntaps ≤ L)
    {st st' : TrainState K} (hw : Rect st.w p ntaps) (hmu : 0 < st.mu) (hmu0 : st.mu ≤ mu0) (hbR : mu0 * sourcePower h p ntaps * R ≤ 1 / 2)
    (hmσ : m ≤ ‖response st.w h p ntaps‖ ^ 2) (hσ : 3 * (st.mu * sourcePower h p ntaps * ‖response st.w h p ntaps‖ ^ 2) ≤ 1 + st.mu * sourcePower h p ntaps * R)
    (hst : l.foldlM (trainStep errf adapt adaptive E os ntaps symbs) st = some st') :
    Rect st'.w p ntaps ∧ 0 < st'.mu ∧ st'.mu ≤ st.mu ∧ (adaptive = false → st'.mu = st.mu) ∧
    (∃ ρ : ℝ, 0 < ρ ∧ response st'.w h p ntaps = (ρ : K) * response st.w h p ntaps) ∧
    (∃ κ : ℝ, ∀ k t, k < p → t < ntaps → val2 st'.w k t = val2 st.w k t + (κ : K) * response st.w h p ntaps * star (h k t)) ∧
    |‖response st'.w h p ntaps‖ ^ 2 - R| ≤ |‖response st.w h p ntaps‖ ^ 2 - R| ∧
    (adaptive = false → |‖response st'.w h p ntaps‖ ^ 2 - R| ≤ (1 - st.mu * sourcePower h p ntaps * m) ^ l.length * |‖response st.w h p ntaps‖ ^ 2 - R|) ∧
    m ≤ ‖response st'.w h p ntaps‖ ^ 2 ∧ 3 * (st'.mu * sourcePower h p ntaps * ‖response st'.w h p ntaps‖ ^ 2) ≤ 1 + st'.mu * sourcePower h p ntaps * R := by
  induction l generalizing st with
  | nil =>
    have : st = st' := by simpa using hst
    subst this
    exact ⟨hw, hmu, le_rfl, fun _ => rfl, ⟨1, one_pos, by simp⟩, ⟨0, by simp⟩, le_rfl, fun _ => by simp, hmσ, hσ⟩
  | cons i l ih =>
    rw [List.foldlM_cons, Option.bind_eq_bind, Option.bind_eq_some_iff] at hst
    obtain ⟨s, hs1, hst⟩ := hst
    obtain ⟨hin, hiL⟩ := hl i List.mem_cons_self
    obtain ⟨g1, g2, ⟨κ, g3⟩, g4⟩ := gain_trainStep hR hE hs hin hiL hw hs1
    obtain ⟨x, e', -, -, -, -, g6⟩ := trainStep_inv hs1
    have hsmu : 0 < s.mu ∧ s.mu ≤ st.mu ∧ (adaptive = false → s.mu = st.mu) := by
      rcases g6 with ⟨m1, -⟩ | ⟨m1, -, prev, -, m4⟩
      · rw [m1]; exact ⟨hmu, le_rfl, fun _ => rfl⟩
      · rw [m4]; exact ⟨(ha _ _ _ hmu).1, (ha _ _ _ hmu).2, fun hc => by rw [hc] at m1; cases m1⟩
    obtain ⟨y, hy⟩ : ∃ y, y = response st.w h p ntaps := ⟨_, rfl⟩
    obtain ⟨P, hPd⟩ : ∃ P, P = sourcePower h p ntaps := ⟨_, rfl⟩
    rw [← hPd] at hP hbR hσ g2
    simp only [← hPd] at ih ⊢
    rw [← hy] at hmσ hσ g2 ⊢
    simp only [← hy] at g3
    have hR0 : 0 < R := hm.trans_le hmR
    have hbR' : st.mu * P * R ≤ 1 / 2 := by
      have : st.mu * P * R ≤ mu0 * P * R := mul_le_mul_of_nonneg_right (mul_le_mul_of_nonneg_right hmu0 hP.le) hR0.le
      linarith
    obtain ⟨k1, k2, k3, k4⟩ := gain_step (mul_pos hmu hP) hm hmR hbR' hmσ hσ
    obtain ⟨a, had⟩ : ∃ a, a = 1 + st.mu * P * (R - ‖y‖ ^ 2) := ⟨_, rfl⟩
    rw [← had] at k1 k2 k3 k4 g2
    have hny : ‖response s.w h p ntaps‖ ^ 2 = ‖y‖ ^ 2 * a ^ 2 := by
      rw [g2, norm_mul, RCLike.norm_ofReal, abs_of_pos k1]
      ring
    have h4' : 3 * (s.mu * P * ‖response s.w h p ntaps‖ ^ 2) ≤ 1 + s.mu * P * R := by
      rw [hny]
      have e1 : s.mu * P ≤ st.mu * P := mul_le_mul_of_nonneg_right hsmu.2.1 hP.le
      have e2 : 0 < s.mu * P := mul_pos hsmu.1 hP
      have e3 : st.mu * P * (3 * (‖y‖ ^ 2 * a ^ 2) - R) ≤ 1 := by linarith
      rcases le_total 0 (3 * (‖y‖ ^ 2 * a ^ 2) - R) with hx | hx
      · have := mul_le_mul_of_nonneg_right e1 hx
        linarith
      · have := mul_nonpos_of_nonneg_of_nonpos e2.le hx
        linarith
    obtain ⟨r1, r2, r3, r4, ⟨ρ, r5, r6⟩, ⟨κ', r7⟩, r8, r9, r10, r11⟩ := ih (fun j hj => hl j (List.mem_cons_of_mem _ hj)) g1 hsmu.1 (hsmu.2.1.trans hmu0) (by rw [hny]; exact k3) h4' hst
    have hb0 : 0 < st.mu * P * m := mul_pos (mul_pos hmu hP) hm
    have hb1 : 0 ≤ 1 - st.mu * P * m := by
      have : st.mu * P * m ≤ st.mu * P * R := mul_le_mul_of_nonneg_left hmR (mul_pos hmu hP).le
      linarith
    rw [hny] at r8 r9
    refine ⟨r1, r2, r3.trans hsmu.2.1, fun hf => (r4 hf).trans (hsmu.2.2 hf), ⟨ρ * a, mul_pos r5 k1, by rw [r6, g2]; push_cast; ring⟩, ⟨κ + κ' * a, ?_⟩, ?_, ?_, r10, r11⟩
    · intro k t hk ht
      rw [r7 k t hk ht, g3 k t hk ht, g2]
      push_cast
      ring
    · refine r8.trans (k2.trans ?_)
      nlinarith [abs_nonneg (‖y‖ ^ 2 - R)]
    · intro hf
      have h9 := r9 hf
      rw [hsmu.2.2 hf] at h9
      rw [List.length_cons]
      calc _ ≤ _ := h9
        _ ≤ _ := mul_le_mul_of_nonneg_left k2 (pow_nonneg hb1 _)
        _ = _ := by ring

theorem stepOrder_mem {nIter trSyms i : Nat} (hi : i ∈ stepOrder nIter trSyms) : i < trSyms := by
  obtain ⟨l, hl, hil⟩ := List.mem_flatten.1 hi
  rw [List.eq_of_mem_replicate hl, List.mem_range] at hil
  exact hil

/-- The training run of one mode in `trainEqualiser`. -/
theorem gain_mode {errf : K → List K → Nat → Option K} {adapt : ℝ → K → K → ℝ} {adaptive : Bool} {E w : List (List K)} {c : Nat → K} {h : Nat → Nat → K}
    {p L os ntaps trSyms nIter : Nat} {symbs : List K} {R mu : ℝ} (hR : IsCma errf symbs R) (ha : Shrinks adapt) (hE : Rect E p L) (hw : Rect w p ntaps)
    (hT : trSyms = 0 ∨ (trSyms - 1) * os + ntaps ≤ L) (hs : OneSource E c h p ntaps os trSyms)
    (hP : 0 < sourcePower h p ntaps) (hR0 : 0 < R) (hmu : 0 < mu) (hbR : mu * sourcePower h p ntaps * R ≤ 1 / 2)
    (h0 : response w h p ntaps ≠ 0) (hσ : 3 * (mu * sourcePower h p ntaps * ‖response w h p ntaps‖ ^ 2) ≤ 1 + mu * sourcePower h p ntaps * R)
    {st : TrainState K} (hst : trainMode errf adapt adaptive E trSyms nIter os ntaps symbs w mu = some st) :
    (∃ ρ : ℝ, 0 < ρ ∧ response st.w h p ntaps = (ρ : K) * response w h p ntaps) ∧
    (∃ κ : ℝ, ∀ k t, k < p → t < ntaps → val2 st.w k t = val2 w k t + (κ : K) * response w h p ntaps * star (h k t)) ∧
    |‖response st.w h p ntaps‖ ^ 2 - R| ≤ |‖response w h p ntaps‖ ^ 2 - R| ∧
    (adaptive = false → |‖response st.w h p ntaps‖ ^ 2 - R| ≤ (1 - mu * sourcePower h p ntaps * min R (‖response w h p ntaps‖ ^ 2)) ^ (nIter * trSyms) * |‖response w h p ntaps‖ ^ 2 - R|) := by
  rw [trainMode_eq] at hst
  have hl : ∀ i ∈ stepOrder nIter trSyms, i < trSyms ∧ i * os + ntaps ≤ L := by
    intro i hi
    have hi := stepOrder_mem hi
    refine ⟨hi, ?_⟩
    have : i * os ≤ (trSyms - 1) * os := Nat.mul_le_mul_right _ (by omega)
    omega
  have hpos : 0 < ‖response w h p ntaps‖ ^ 2 := by positivity
  obtain ⟨-, -, -, -, r5, r6, r7, r8, -⟩ := gain_fold (m := min R (‖response w h p ntaps‖ ^ 2)) hR ha hE hs hP (lt_min hR0 hpos) (min_le_left _ _) (stepOrder nIter trSyms) hl
    (st := { w := w, mu := mu, errs := [] }) hw hmu le_rfl hbR (min_le_right _ _) hσ hst
  rw [stepOrder_length] at r8
  exact ⟨r5, r6, r7, r8⟩

/-- A response of zero is never left. -/
theorem gain_stuck {errf : K → List K → Nat → Option K} {adapt : ℝ → K → K → ℝ} {adaptive : Bool} {E : List (List K)} {c : Nat → K} {h : Nat → Nat → K}
    {p L os ntaps n : Nat} {symbs : List K} {R : ℝ} (hR : IsCma errf symbs R) (hE : Rect E p L) (hs : OneSource E c h p ntaps os n) (l : List Nat) (hl : ∀ i ∈ l, i < n ∧ i * os + ntaps ≤ L)
    {st st' : TrainState K} (hw : Rect st.w p ntaps) (h0 : response st.w h p ntaps = 0) (hst : l.foldlM (trainStep errf adapt adaptive E os ntaps symbs) st = some st') :
    response st'.w h p ntaps = 0 := by
  induction l generalizing st with
  | nil =>
    have : st = st' := by simpa using hst
    rw [← this, h0]
  | cons i l ih =>
    rw [List.foldlM_cons, Option.bind_eq_bind, Option.bind_eq_some_iff] at hst
    obtain ⟨s, hs1, hst⟩ := hst
    obtain ⟨hin, hiL⟩ := hl i List.mem_cons_self
    obtain ⟨g1, g2, -, -⟩ := gain_trainStep hR hE hs hin hiL hw hs1
    exact ih (fun j hj => hl j (List.mem_cons_of_mem _ hj)) g1 (by rw [g2, h0, mul_zero]) hst

/-- For all modes of a training run, as `gain_mode`. -/
theorem gain_equaliser {errf : K → List K → Nat → Option K} {adapt : ℝ → K → K → ℝ} {E : List (List K)} {c : Nat → K} {h : Nat → Nat → K}
    {p L os ntaps trSyms nIter : Nat} {symbols : List (List K)} {wx : List (List (List K))} {modes : List Nat} {R mu : ℝ} (hR : ∀ s ∈ symbols, IsCma errf s R) (ha : Shrinks adapt) (hE : Rect E p L)
    (hwx : ∀ w ∈ wx, Rect w p ntaps) (hm : ∀ m ∈ modes, m < p) (hnd : modes.Nodup)
    (hT : trSyms = 0 ∨ (trSyms - 1) * os + ntaps ≤ L) (hs : OneSource E c h p ntaps os trSyms)
    (hP : 0 < sourcePower h p ntaps) (hR0 : 0 < R) (hmu : 0 < mu) (hbR : mu * sourcePower h p ntaps * R ≤ 1 / 2)
    (h0 : ∀ w ∈ wx, response w h p ntaps ≠ 0 ∧ 3 * (mu * sourcePower h p ntaps * ‖response w h p ntaps‖ ^ 2) ≤ 1 + mu * sourcePower h p ntaps * R)
    {r : TrainResult K} (hr : trainEqualiser errf adapt false E trSyms nIter os mu wx ntaps modes symbols = some r) :
    ∀ m ∈ modes, ∃ w w', wx[m]? = some w ∧ r.wx[m]? = some w' ∧
      (∃ ρ : ℝ, 0 < ρ ∧ response w' h p ntaps = (ρ : K) * response w h p ntaps) ∧
      (∃ κ : ℝ, ∀ k t, k < p → t < ntaps → val2 w' k t = val2 w k t + (κ : K) * response w h p ntaps * star (h k t)) ∧
      |‖response w' h p ntaps‖ ^ 2 - R| ≤ (1 - mu * sourcePower h p ntaps * min R (‖response w h p ntaps‖ ^ 2)) ^ (nIter * trSyms) * |‖response w h p ntaps‖ ^ 2 - R| := by
  intro m hmm
  unfold trainEqualiser at hr
  obtain ⟨w, s, st, g1, g2, g3, g4, g5⟩ := trainEqualiser_row hr hnd hmm (by simpa using (hE.1 ▸ hm m hmm : m < E.length))
  simp only at g1 g3
  have hwm := List.mem_of_getElem? g1
  obtain ⟨q1, q2, -, q4⟩ := gain_mode (hR s (List.mem_of_getElem? g2)) ha hE (hwx w hwm) hT hs hP hR0 hmu hbR (h0 w hwm).1 (h0 w hwm).2 g3
  exact ⟨w, st.w, g1, g4, q1, q2, q4 rfl⟩

end generic

theorem isCma_complex {s : List ℂ} {z : ℂ} (h : s[0]? = some z) : IsCma cmaError s z.re := by
  intro x i
  simp [cmaError, h]

theorem isCma_real {s : List ℝ} {z : ℝ} (h : s[0]? = some z) : IsCma cmaErrorReal s z := by
  intro x i
  simp [cmaErrorReal, h]

/-- C176, complex valued `cma` with fixed step size: for a source of constant modulus seen with any weights in any number of modes and taps, initial taps with a response that is not zero and (for
too large a start) at most about a third over the step size, and a step size of at most half over weights' power times reference, the power of the output approaches the reference geometrically in the
number of training steps. The phase of the output stays and the taps only move along the matched filter of the source. -/
theorem C176_cma {E : List (List ℂ)} {c : Nat → ℂ} {h : Nat → Nat → ℂ} {p L os ntaps trSyms nIter : Nat} {symbols : List (List ℂ)} {wx : List (List (List ℂ))} {modes : List Nat} {R mu : ℝ}
    {errf : ℂ → List ℂ → Nat → Option ℂ} (hmeth : errorFct "cma" = some errf) (hR : ∀ s ∈ symbols, ∃ z, s[0]? = some z ∧ z.re = R) (hE : Rect E p L)
    (hwx : ∀ w ∈ wx, Rect w p ntaps) (hm : ∀ m ∈ modes, m < p) (hnd : modes.Nodup)
    (hT : trSyms = 0 ∨ (trSyms - 1) * os + ntaps ≤ L) (hs : OneSource E c h p ntaps os trSyms)
    (hP : 0 < sourcePower h p ntaps) (hR0 : 0 < R) (hmu : 0 < mu) (hbR : mu * sourcePower h p ntaps * R ≤ 1 / 2)
    (h0 : ∀ w ∈ wx, response w h p ntaps ≠ 0 ∧ 3 * (mu * sourcePower h p ntaps * ‖response w h p ntaps‖ ^ 2) ≤ 1 + mu * sourcePower h p ntaps * R)
    {r : TrainResult ℂ} (hr : trainEqualiser errf adaptStep false E trSyms nIter os mu wx ntaps modes symbols = some r) :
    ∀ m ∈ modes, ∃ w w', wx[m]? = some w ∧ r.wx[m]? = some w' ∧
      (∃ ρ : ℝ, 0 < ρ ∧ response w' h p ntaps = (ρ : ℂ) * response w h p ntaps) ∧
      (∃ κ : ℝ, ∀ k t, k < p → t < ntaps → val2 w' k t = val2 w k t + (κ : ℂ) * response w h p ntaps * star (h k t)) ∧
      |‖response w' h p ntaps‖ ^ 2 - R| ≤ (1 - mu * sourcePower h p ntaps * min R (‖response w h p ntaps‖ ^ 2)) ^ (nIter * trSyms) * |‖response w h p ntaps‖ ^ 2 - R| := by
  have : cmaError = errf := by simpa [errorFct] using hmeth
  subst this
  refine gain_equaliser (fun s hs => ?_) C26_adapt_step.1 hE hwx hm hnd hT hs hP hR0 hmu hbR h0 hr
  obtain ⟨z, h1, h2⟩ := hR s hs
  rw [← h2]
  exact isCma_complex h1

/-- C176, real valued `cma`. -/
theorem C176_real {E : List (List ℝ)} {c : Nat → ℝ} {h : Nat → Nat → ℝ} {p L os ntaps trSyms nIter : Nat} {symbols : List (List ℝ)} {wx : List (List (List ℝ))} {modes : List Nat} {R mu : ℝ}
    {errf : ℝ → List ℝ → Nat → Option ℝ} (hmeth : errorFctReal "cma" = some errf) (hR : ∀ s ∈ symbols, s[0]? = some R) (hE : Rect E p L)
    (hwx : ∀ w ∈ wx, Rect w p ntaps) (hm : ∀ m ∈ modes, m < p) (hnd : modes.Nodup)
    (hT : trSyms = 0 ∨ (trSyms - 1) * os + ntaps ≤ L) (hs : OneSource E c h p ntaps os trSyms)
    (hP : 0 < sourcePower h p ntaps) (hR0 : 0 < R) (hmu : 0 < mu) (hbR : mu * sourcePower h p ntaps * R ≤ 1 / 2)
    (h0 : ∀ w ∈ wx, response w h p ntaps ≠ 0 ∧ 3 * (mu * sourcePower h p ntaps * ‖response w h p ntaps‖ ^ 2) ≤ 1 + mu * sourcePower h p ntaps * R)
    {r : TrainResult ℝ} (hr : trainEqualiser errf adaptStepReal false E trSyms nIter os mu wx ntaps modes symbols = some r) :
    ∀ m ∈ modes, ∃ w w', wx[m]? = some w ∧ r.wx[m]? = some w' ∧
      (∃ ρ : ℝ, 0 < ρ ∧ response w' h p ntaps = ρ * response w h p ntaps) ∧
      |‖response w' h p ntaps‖ ^ 2 - R| ≤ (1 - mu * sourcePower h p ntaps * min R (‖response w h p ntaps‖ ^ 2)) ^ (nIter * trSyms) * |‖response w h p ntaps‖ ^ 2 - R| := by
  have : cmaErrorReal = errf := by simpa [errorFctReal] using hmeth
  subst this
  intro m hmm
  obtain ⟨w, w', q1, q2, q3, -, q5⟩ := gain_equaliser (fun s hs => isCma_real (hR s hs)) C26_adapt_step.2 hE hwx hm hnd hT hs hP hR0 hmu hbR h0 hr m hmm
  exact ⟨w, w', q1, q2, by simpa using q3, q5⟩

/-- C176 with adaptive step size: the distance to the reference does not grow. -/
theorem C176_adaptive {E w : List (List ℂ)} {c : Nat → ℂ} {h : Nat → Nat → ℂ} {p L os ntaps trSyms nIter : Nat} {symbs : List ℂ} {R : ℂ} {mu : ℝ}
    {errf : ℂ → List ℂ → Nat → Option ℂ} (hmeth : errorFct "cma" = some errf) (hR : symbs[0]? = some R) (hE : Rect E p L) (hw : Rect w p ntaps)
    (hT : trSyms = 0 ∨ (trSyms - 1) * os + ntaps ≤ L) (hs : OneSource E c h p ntaps os trSyms)
    (hP : 0 < sourcePower h p ntaps) (hR0 : 0 < R.re) (hmu : 0 < mu) (hbR : mu * sourcePower h p ntaps * R.re ≤ 1 / 2)
    (h0 : response w h p ntaps ≠ 0) (hσ : 3 * (mu * sourcePower h p ntaps * ‖response w h p ntaps‖ ^ 2) ≤ 1 + mu * sourcePower h p ntaps * R.re)
    {st : TrainState ℂ} (hst : trainMode errf adaptStep true E trSyms nIter os ntaps symbs w mu = some st) :
    (∃ ρ : ℝ, 0 < ρ ∧ response st.w h p ntaps = (ρ : ℂ) * response w h p ntaps) ∧ |‖response st.w h p ntaps‖ ^ 2 - R.re| ≤ |‖response w h p ntaps‖ ^ 2 - R.re| := by
  have : cmaError = errf := by simpa [errorFct] using hmeth
  subst this
  obtain ⟨q1, -, q3, -⟩ := gain_mode (isCma_complex hR) C26_adapt_step.1 hE hw hT hs hP hR0 hmu hbR h0 hσ hst
  exact ⟨q1, q3⟩

/-- C176, why the start is restricted: if the first step overshoots to zero (or the response is zero at the start) the output stays zero forever, for any number of iterations. -/
theorem C176_stuck {adaptive : Bool} {E w : List (List ℂ)} {c : Nat → ℂ} {h : Nat → Nat → ℂ} {p L os ntaps trSyms nIter : Nat} {symbs : List ℂ} {R : ℂ} {mu : ℝ}
    {errf : ℂ → List ℂ → Nat → Option ℂ} (hmeth : errorFct "cma" = some errf) (hR : symbs[0]? = some R) (hE : Rect E p L) (hw : Rect w p ntaps)
    (hT : (trSyms - 1) * os + ntaps ≤ L) (hs : OneSource E c h p ntaps os trSyms) (hn : 0 < nIter) (ht : 0 < trSyms)
    (h0 : response w h p ntaps = 0 ∨ mu * sourcePower h p ntaps * (‖response w h p ntaps‖ ^ 2 - R.re) = 1)
    {st : TrainState ℂ} (hst : trainMode errf adaptStep adaptive E trSyms nIter os ntaps symbs w mu = some st) : response st.w h p ntaps = 0 := by
  have : cmaError = errf := by simpa [errorFct] using hmeth
  subst this
  rw [trainMode_eq] at hst
  have hl : ∀ i ∈ stepOrder nIter trSyms, i < trSyms ∧ i * os + ntaps ≤ L := by
    intro i hi
    have hi := stepOrder_mem hi
    refine ⟨hi, ?_⟩
    have : i * os ≤ (trSyms - 1) * os := Nat.mul_le_mul_right _ (by omega)
    omega
  cases ho : stepOrder nIter trSyms with
  | nil =>
    have := stepOrder_length nIter trSyms
    rw [ho] at this
    simp at this
    omega
  | cons i l =>
    rw [ho] at hst hl
    rw [List.foldlM_cons, Option.bind_eq_bind, Option.bind_eq_some_iff] at hst
    obtain ⟨s, hs1, hst⟩ := hst
    obtain ⟨hin, hiL⟩ := hl i List.mem_cons_self
    obtain ⟨g1, g2, -, -⟩ := gain_trainStep (isCma_complex hR) hE hs hin hiL (st := { w := w, mu := mu, errs := [] }) hw hs1
    refine gain_stuck (isCma_complex hR) hE hs l (fun j hj => hl j (List.mem_cons_of_mem _ hj)) g1 ?_ hst
    rw [g2]
    rcases h0 with h0 | h0
    · dsimp only
      rw [h0, mul_zero]
    · have : 1 + mu * sourcePower h p ntaps * (R.re - ‖response w h p ntaps‖ ^ 2) = 0 := by linarith
      dsimp only
      rw [this]
      simp

/-- A QPSK signal of amplitude 2 in one mode, one tap of 0.1, reference 1, step size 0.1: the output power starts at 0.04; after 1000 passes over the two symbols its distance to one is below 1e-10. -/
example : ∃ r w', trainEqualiser cmaError adaptStep false [[2, 2 * Complex.I]] 2 1000 1 (1 / 10) [[[1 / 10]]] 1 [0] [[1]] = some r ∧ r.wx[0]? = some w' ∧
    |‖response w' (fun _ _ => 2) 1 1‖ ^ 2 - 1| ≤ (1 - 2 / 125) ^ 2000 := by
  have hE : Rect ([[2, 2 * Complex.I]] : List (List ℂ)) 1 2 := ⟨rfl, by simp⟩
  have hw : ∀ w ∈ ([[[1 / 10]]] : List (List (List ℂ))), Rect w 1 1 := by
    intro w hw
    rw [List.mem_singleton.1 hw]
    exact ⟨rfl, by simp⟩
  have hs : OneSource ([[2, 2 * Complex.I]] : List (List ℂ)) (fun i => if i = 0 then 1 else Complex.I) (fun _ _ => 2) 1 1 1 2 := by
    intro i hi
    interval_cases i
    · refine ⟨by simp, fun k t hk ht => ?_⟩
      interval_cases k; interval_cases t
      simp [val2, at2]
    · refine ⟨by simp, fun k t hk ht => ?_⟩
      interval_cases k; interval_cases t
      simp [val2, at2]; ring
  have hresp : response ([[1 / 10]] : List (List ℂ)) (fun _ _ => 2) 1 1 = 1 / 5 := by
    simp only [response, val2, at2, Finset.sum_range_one]
    norm_num
  have hpow : sourcePower (fun _ _ => (2 : ℂ)) 1 1 = 4 := by
    simp only [sourcePower, Finset.sum_range_one]
    norm_num
  obtain ⟨r, hr⟩ : ∃ r, trainEqualiser cmaError adaptStep false [[2, 2 * Complex.I]] 2 1000 1 (1 / 10) [[[1 / 10]]] 1 [0] [[1]] = some r := by
    obtain ⟨r, hr, -⟩ := C27_methods (method := "cma") (adaptive := false) (nIter := 1000) (mu := 1 / 10) (modes := [0]) (trSyms := 2) (os := 1) (errf := cmaError) rfl hE (wx := [[[1 / 10]]])
      rfl hw (symbols := [[1]]) rfl (by simp) (Or.inr (by norm_num)) (by
        intro s hs
        rw [List.mem_singleton.1 hs]
        simp [Usable])
    exact ⟨r, hr⟩
  obtain ⟨w, w', h1, h2, -, -, h5⟩ := C176_cma (nIter := 1000) (R := 1) (mu := 1 / 10) rfl (by simp) hE hw (by simp) (by simp) (Or.inr (by norm_num)) hs (by rw [hpow]; norm_num) one_pos (by norm_num)
    (by rw [hpow]; norm_num) (by
      intro w hw
      rw [List.mem_singleton.1 hw, hresp, hpow]
      norm_num) hr 0 (by simp)
  simp only [List.getElem?_cons_zero, Option.some.injEq] at h1
  subst h1
  refine ⟨r, w', hr, h2, h5.trans ?_⟩
  rw [hresp, hpow]
  have : min (1 : ℝ) (‖(1 / 5 : ℂ)‖ ^ 2) = 1 / 25 := by norm_num
  rw [this]
  norm_num

end Qampy
