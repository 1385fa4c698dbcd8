import Verif.Props.Gain
import Verif.Props.Constellation

/-!
# Gain acquisition of the radius directed algorithm for constellations with several rings (C190)
-/

namespace Qampy

open Complex (I)

/-- In the windows of the first `n` symbols one source `c` with points of `syms` is seen with the weights `h`. -/
def RingSource (E : List (List ℂ)) (syms : List ℂ) (c : Nat → ℂ) (h : Nat → Nat → ℂ) (p ntaps os n : Nat) : Prop :=
  ∀ i < n, c i ∈ syms ∧ ∀ k t, k < p → t < ntaps → val2 E k (i * os + t) = c i * h k t

/-- The rings of the constellation are so far apart that a relative power error of `δ` does not change the closest ring. -/
def RingMargin (syms : List ℂ) (δ : ℝ) : Prop := ∀ s ∈ syms, ∀ s' ∈ syms, ‖s‖ ≠ ‖s'‖ → 2 * (‖s‖ ^ 2 * δ) < |‖s‖ ^ 2 - ‖s'‖ ^ 2|

theorem firOutput_ringSource {E w : List (List ℂ)} {syms : List ℂ} {c : Nat → ℂ} {h : Nat → Nat → ℂ} {p ntaps os n i : Nat} (hs : RingSource E syms c h p ntaps os n) (hi : i < n) :
    firOutput E w p ntaps os i = c i * response w h p ntaps := by
  unfold firOutput response
  rw [Finset.mul_sum]
  refine Finset.sum_congr rfl fun k hk => ?_
  rw [Finset.mul_sum]
  refine Finset.sum_congr rfl fun t ht => ?_
  rw [(hs i hi).2 k t (Finset.mem_range.1 hk) (Finset.mem_range.1 ht)]
  ring

theorem windowEnergy_ringSource {E : List (List ℂ)} {syms : List ℂ} {c : Nat → ℂ} {h : Nat → Nat → ℂ} {p ntaps os n i : Nat} (hs : RingSource E syms c h p ntaps os n) (hi : i < n) :
    windowEnergy E p ntaps os i = ‖c i‖ ^ 2 * sourcePower h p ntaps := by
  unfold windowEnergy sourcePower
  rw [Finset.mul_sum]
  refine Finset.sum_congr rfl fun k hk => ?_
  rw [Finset.mul_sum]
  refine Finset.sum_congr rfl fun t ht => ?_
  rw [(hs i hi).2 k t (Finset.mem_range.1 hk) (Finset.mem_range.1 ht), norm_mul, mul_pow]

/-- Inside of the margin the error is the one for the ring of the transmitted symbol. -/
theorem rdeError_margin {syms : List ℂ} {δ : ℝ} (hm : RingMargin syms δ) {s y : ℂ} (hs : s ∈ syms) (hy : |‖y‖ ^ 2 - 1| ≤ δ) (i : Nat) :
    rdeError (s * y) (partitionCodesRadius syms) i = some (s * y * ((‖s‖ ^ 2 * (1 - ‖y‖ ^ 2) : ℝ) : ℂ)) := by
  obtain ⟨c, hc, h1, h2⟩ := C30_rde_codes syms (List.ne_nil_of_mem hs) (s * y)
  have e : rdeError (s * y) (partitionCodesRadius syms) i = rdeError (s * y) (partitionCodesRadius syms) 0 := rfl
  have hnorm : ‖s * y‖ ^ 2 = ‖s‖ ^ 2 * ‖y‖ ^ 2 := by rw [norm_mul, mul_pow]
  have hcs : ‖s‖ = ‖c‖ := by
    by_contra hne
    have hmar := hm s hs c hc hne
    have hle := h2 s hs
    rw [hnorm] at hle
    have a1 : |‖s‖ ^ 2 * ‖y‖ ^ 2 - ‖s‖ ^ 2| ≤ ‖s‖ ^ 2 * δ := by
      rw [show ‖s‖ ^ 2 * ‖y‖ ^ 2 - ‖s‖ ^ 2 = ‖s‖ ^ 2 * (‖y‖ ^ 2 - 1) by ring, abs_mul, abs_of_nonneg (by positivity)]
      exact mul_le_mul_of_nonneg_left hy (by positivity)
    have a2 : |‖s‖ ^ 2 - ‖c‖ ^ 2| ≤ |‖s‖ ^ 2 * ‖y‖ ^ 2 - ‖c‖ ^ 2| + |‖s‖ ^ 2 * ‖y‖ ^ 2 - ‖s‖ ^ 2| := by
      rw [abs_sub_comm (‖s‖ ^ 2 * ‖y‖ ^ 2) (‖s‖ ^ 2)]
      have := abs_add_le (‖s‖ ^ 2 * ‖y‖ ^ 2 - ‖c‖ ^ 2) (‖s‖ ^ 2 - ‖s‖ ^ 2 * ‖y‖ ^ 2)
      rw [show ‖s‖ ^ 2 * ‖y‖ ^ 2 - ‖c‖ ^ 2 + (‖s‖ ^ 2 - ‖s‖ ^ 2 * ‖y‖ ^ 2) = ‖s‖ ^ 2 - ‖c‖ ^ 2 by ring] at this
      exact this
    linarith
  rw [e, h1, hnorm, ← hcs]
  congr 3
  ring

/-- One step: the response is multiplied by a real number, the taps move along the conjugate weights. -/
theorem ring_trainStep {adapt : ℝ → ℂ → ℂ → ℝ} {adaptive : Bool} {E : List (List ℂ)} {syms : List ℂ} {c : Nat → ℂ} {h : Nat → Nat → ℂ} {δ : ℝ}
    {p L os ntaps n : Nat} (hmar : RingMargin syms δ) (hE : Rect E p L) (hs : RingSource E syms c h p ntaps os n) {i : Nat} (hi : i < n) (hiL : i * os + ntaps ≤ L) (hc0 : c i ≠ 0)
    {st st' : TrainState ℂ} (hw : Rect st.w p ntaps) (hy : |‖response st.w h p ntaps‖ ^ 2 - 1| ≤ δ)
    (hst : trainStep rdeError adapt adaptive E os ntaps (partitionCodesRadius syms) st i = some st') :
    Rect st'.w p ntaps ∧
    response st'.w h p ntaps = ((1 + st.mu * sourcePower h p ntaps * ‖c i‖ ^ 4 * (1 - ‖response st.w h p ntaps‖ ^ 2) : ℝ) : ℂ) * response st.w h p ntaps ∧
    (∃ κ : ℝ, ∀ k t, k < p → t < ntaps → val2 st'.w k t = val2 st.w k t + (κ : ℂ) * response st.w h p ntaps * star (h k t)) := by
  obtain ⟨e, h1, h2, h3, h4⟩ := trainStep_tapStep hE hw hiL hst
  obtain ⟨y, hyd⟩ : ∃ y, y = response st.w h p ntaps := ⟨_, rfl⟩
  rw [← hyd] at hy ⊢
  rw [firOutput_ringSource hs hi, ← hyd, rdeError_margin hmar (hs i hi).1 hy, Option.some.injEq] at h1
  have hcc : c i * star (c i) = ((‖c i‖ ^ 2 : ℝ) : ℂ) := by
    have := RCLike.mul_conj (c i)
    rw [← starRingEnd_apply, this]
    push_cast
    rfl
  have htap : ∀ k t, k < p → t < ntaps → val2 st'.w k t = val2 st.w k t + ((st.mu * (‖c i‖ ^ 4 * (1 - ‖y‖ ^ 2)) : ℝ) : ℂ) * y * star (h k t) := by
    intro k t hk ht
    rw [h4 k t hk ht, (hs i hi).2 k t hk ht, ← h1, star_mul']
    have h4' : ((‖c i‖ ^ 2 : ℝ) : ℂ) = (‖c i‖ : ℂ) ^ 2 := by push_cast; rfl
    rw [h4'] at hcc
    rw [RCLike.ofReal_eq_complex_ofReal]
    push_cast
    linear_combination ((st.mu : ℂ) * y * ((‖c i‖ : ℂ) ^ 2 * (1 - (‖y‖ : ℂ) ^ 2)) * star (h k t)) * hcc
  refine ⟨h3, ?_, ⟨_, htap⟩⟩
  have hout := firOutput_tapStep h4
  rw [firOutput_ringSource hs hi, firOutput_ringSource hs hi, windowEnergy_ringSource hs hi, ← hyd, ← h1, RCLike.ofReal_eq_complex_ofReal] at hout
  apply mul_left_cancel₀ hc0
  rw [hout]
  push_cast
  ring

/-- The whole loop. -/
theorem ring_fold {adapt : ℝ → ℂ → ℂ → ℝ} {adaptive : Bool} {E : List (List ℂ)} {syms : List ℂ} {c : Nat → ℂ} {h : Nat → Nat → ℂ} {δ A a : ℝ}
    {p L os ntaps n : Nat} (hmar : RingMargin syms δ) (hδ0 : 0 ≤ δ) (hδ : δ < 1) (ha0 : 0 < a) (hsyms : ∀ s ∈ syms, a ≤ ‖s‖ ^ 2 ∧ ‖s‖ ^ 2 ≤ A) (ha : Shrinks adapt) (hE : Rect E p L)
    (hs : RingSource E syms c h p ntaps os n) (hP : 0 < sourcePower h p ntaps) (l : List Nat) (hl : ∀ i ∈ l, i < n ∧ i * os + ntaps ≤ L)
    {st st' : TrainState ℂ} (hw : Rect st.w p ntaps) (hmu : 0 < st.mu) (hb : st.mu * sourcePower h p ntaps * A ^ 2 ≤ 1 / 5)
    (hy : |‖response st.w h p ntaps‖ ^ 2 - 1| ≤ δ)
    (hst : l.foldlM (trainStep rdeError adapt adaptive E os ntaps (partitionCodesRadius syms)) st = some st') :
    Rect st'.w p ntaps ∧ 0 < st'.mu ∧ st'.mu ≤ st.mu ∧ (adaptive = false → st'.mu = st.mu) ∧
    (∃ ρ : ℝ, 0 < ρ ∧ response st'.w h p ntaps = (ρ : ℂ) * response st.w h p ntaps) ∧
    (∃ κ : ℝ, ∀ k t, k < p → t < ntaps → val2 st'.w k t = val2 st.w k t + (κ : ℂ) * response st.w h p ntaps * star (h k t)) ∧
    |‖response st'.w h p ntaps‖ ^ 2 - 1| ≤ |‖response st.w h p ntaps‖ ^ 2 - 1| ∧
    (adaptive = false → |‖response st'.w h p ntaps‖ ^ 2 - 1| ≤ (1 - st.mu * sourcePower h p ntaps * a ^ 2 * (1 - δ)) ^ l.length * |‖response st.w h p ntaps‖ ^ 2 - 1|) := by
  induction l generalizing st with
  | nil =>
    have : st = st' := by simpa using hst
    subst this
    exact ⟨hw, hmu, le_rfl, fun _ => rfl, ⟨1, one_pos, by simp⟩, ⟨0, by simp⟩, le_rfl, fun _ => by simp⟩
  | cons i l ih =>
    rw [List.foldlM_cons, Option.bind_eq_bind, Option.bind_eq_some_iff] at hst
    obtain ⟨s, hs1, hst⟩ := hst
    obtain ⟨hin, hiL⟩ := hl i List.mem_cons_self
    obtain ⟨hca, hcA⟩ := hsyms _ (hs i hin).1
    have hc0 : c i ≠ 0 := by
      intro h0
      rw [h0, norm_zero] at hca
      norm_num at hca
      linarith
    obtain ⟨g1, g2, ⟨κ, g3⟩⟩ := ring_trainStep hmar hE hs hin hiL hc0 hw hy hs1
    obtain ⟨x, e', -, -, -, -, g6⟩ := trainStep_inv hs1
    have hsmu : 0 < s.mu ∧ s.mu ≤ st.mu ∧ (adaptive = false → s.mu = st.mu) := by
      rcases g6 with ⟨m1, -⟩ | ⟨m1, -, prev, -, m4⟩
      · rw [m1]; exact ⟨hmu, le_rfl, fun _ => rfl⟩
      · rw [m4]; exact ⟨(ha _ _ _ hmu).1, (ha _ _ _ hmu).2, fun hc => by rw [hc] at m1; cases m1⟩
    obtain ⟨y, hyd⟩ : ∃ y, y = response st.w h p ntaps := ⟨_, rfl⟩
    obtain ⟨P, hPd⟩ : ∃ P, P = sourcePower h p ntaps := ⟨_, rfl⟩
    rw [← hPd] at hP hb g2
    simp only [← hPd] at ih ⊢
    rw [← hyd] at hy g2 ⊢
    simp only [← hyd] at g3
    obtain ⟨N, hN⟩ : ∃ N, N = ‖c i‖ ^ 2 := ⟨_, rfl⟩
    rw [show ‖c i‖ ^ 4 = N ^ 2 by rw [hN]; ring] at g2
    rw [← hN] at hca hcA
    have hN0 : 0 < N := ha0.trans_le hca
    have hmuP : 0 < st.mu * P := mul_pos hmu hP
    have hNA : N ^ 2 ≤ A ^ 2 := pow_le_pow_left₀ hN0.le hcA 2
    have haN : a ^ 2 ≤ N ^ 2 := pow_le_pow_left₀ ha0.le hca 2
    have hb1 : st.mu * P * N ^ 2 ≤ 1 / 5 := (mul_le_mul_of_nonneg_left hNA hmuP.le).trans hb
    have hbpos : 0 < st.mu * P * N ^ 2 := mul_pos hmuP (by positivity)
    have hyl : 1 - δ ≤ ‖y‖ ^ 2 ∧ ‖y‖ ^ 2 ≤ 1 + δ := by
      rw [abs_le] at hy
      constructor <;> linarith
    obtain ⟨k1, k2, -, -⟩ := gain_step (R := 1) (m := 1 - δ) (σ := ‖y‖ ^ 2) hbpos (by linarith) (by linarith) (by linarith) hyl.1 (by nlinarith)
    obtain ⟨q, hqd⟩ : ∃ q, q = 1 + st.mu * P * N ^ 2 * (1 - ‖y‖ ^ 2) := ⟨_, rfl⟩
    rw [← hqd] at k1 k2 g2
    have hny : ‖response s.w h p ntaps‖ ^ 2 = ‖y‖ ^ 2 * q ^ 2 := by
      rw [g2, norm_mul, Complex.norm_real, Real.norm_of_nonneg k1.le]
      ring
    have hfac : 1 - st.mu * P * N ^ 2 * (1 - δ) ≤ 1 - st.mu * P * a ^ 2 * (1 - δ) := by
      have := mul_le_mul_of_nonneg_right (mul_le_mul_of_nonneg_left haN hmuP.le) (by linarith : 0 ≤ 1 - δ)
      linarith
    have hf0 : 0 ≤ 1 - st.mu * P * a ^ 2 * (1 - δ) := by
      have : 0 ≤ 1 - st.mu * P * N ^ 2 * (1 - δ) := by nlinarith
      linarith
    have hf1 : 1 - st.mu * P * N ^ 2 * (1 - δ) ≤ 1 := by
      have := mul_pos hbpos (by linarith : 0 < 1 - δ)
      linarith
    have hstep : |‖response s.w h p ntaps‖ ^ 2 - 1| ≤ |‖y‖ ^ 2 - 1| := by
      rw [hny]
      refine k2.trans ?_
      nlinarith [abs_nonneg (‖y‖ ^ 2 - 1)]
    have hb' : s.mu * P * A ^ 2 ≤ 1 / 5 := by
      have : s.mu * P * A ^ 2 ≤ st.mu * P * A ^ 2 := mul_le_mul_of_nonneg_right (mul_le_mul_of_nonneg_right hsmu.2.1 hP.le) (by positivity)
      linarith
    obtain ⟨r1, r2, r3, r4, ⟨ρ, r5, r6⟩, ⟨κ', r7⟩, r8, r9⟩ := ih (fun j hj => hl j (List.mem_cons_of_mem _ hj)) g1 hsmu.1 hb' (hstep.trans hy) hst
    refine ⟨r1, r2, r3.trans hsmu.2.1, fun hf => (r4 hf).trans (hsmu.2.2 hf), ⟨ρ * q, mul_pos r5 k1, by rw [r6, g2]; push_cast; ring⟩, ⟨κ + κ' * q, ?_⟩, r8.trans hstep, ?_⟩
    · intro k t hk ht
      rw [r7 k t hk ht, g3 k t hk ht, g2]
      push_cast
      ring
    · intro hf
      have h9 := r9 hf
      rw [hsmu.2.2 hf] at h9
      rw [List.length_cons]
      calc _ ≤ _ := h9
        _ ≤ (1 - st.mu * P * a ^ 2 * (1 - δ)) ^ l.length * ((1 - st.mu * P * a ^ 2 * (1 - δ)) * |‖y‖ ^ 2 - 1|) := by
            refine mul_le_mul_of_nonneg_left ?_ (pow_nonneg hf0 _)
            rw [hny]
            exact k2.trans (mul_le_mul_of_nonneg_right hfac (abs_nonneg _))
        _ = _ := by ring

/-- The training run of one mode. -/
theorem ring_mode {adapt : ℝ → ℂ → ℂ → ℝ} {adaptive : Bool} {E w : List (List ℂ)} {syms : List ℂ} {c : Nat → ℂ} {h : Nat → Nat → ℂ} {δ A a mu : ℝ}
    {p L os ntaps trSyms nIter : Nat} (hmar : RingMargin syms δ) (hδ0 : 0 ≤ δ) (hδ : δ < 1) (ha0 : 0 < a) (hsyms : ∀ s ∈ syms, a ≤ ‖s‖ ^ 2 ∧ ‖s‖ ^ 2 ≤ A) (ha : Shrinks adapt) (hE : Rect E p L)
    (hw : Rect w p ntaps) (hT : trSyms = 0 ∨ (trSyms - 1) * os + ntaps ≤ L)
    (hs : RingSource E syms c h p ntaps os trSyms) (hP : 0 < sourcePower h p ntaps) (hmu : 0 < mu) (hb : mu * sourcePower h p ntaps * A ^ 2 ≤ 1 / 5)
    (hy : |‖response w h p ntaps‖ ^ 2 - 1| ≤ δ) {st : TrainState ℂ} (hst : trainMode rdeError adapt adaptive E trSyms nIter os ntaps (partitionCodesRadius syms) w mu = some st) :
    (∃ ρ : ℝ, 0 < ρ ∧ response st.w h p ntaps = (ρ : ℂ) * response w h p ntaps) ∧
    (∃ κ : ℝ, ∀ k t, k < p → t < ntaps → val2 st.w k t = val2 w k t + (κ : ℂ) * response w h p ntaps * star (h k t)) ∧
    |‖response st.w h p ntaps‖ ^ 2 - 1| ≤ |‖response w h p ntaps‖ ^ 2 - 1| ∧
    (adaptive = false → |‖response st.w h p ntaps‖ ^ 2 - 1| ≤ (1 - mu * sourcePower h p ntaps * a ^ 2 * (1 - δ)) ^ (nIter * trSyms) * |‖response w h p ntaps‖ ^ 2 - 1|) := by
  rw [trainMode_eq] at hst
  have hl : ∀ i ∈ stepOrder nIter trSyms, i < trSyms ∧ i * os + ntaps ≤ L := by
    intro i hi
    have hi := stepOrder_mem hi
    refine ⟨hi, ?_⟩
    have : i * os ≤ (trSyms - 1) * os := Nat.mul_le_mul_right _ (by omega)
    omega
  obtain ⟨-, -, -, -, r5, r6, r7, r8⟩ := ring_fold hmar hδ0 hδ ha0 hsyms ha hE hs hP (stepOrder nIter trSyms) hl (st := { w := w, mu := mu, errs := [] }) hw hmu hb hy hst
  rw [stepOrder_length] at r8
  exact ⟨r5, r6, r7, r8⟩

/-- **C190** The radius directed algorithm with the code book of the library and a fixed step size: a source with points of any constellation seen with any weights in any number of modes and taps. If the
output power of the initial taps is off by at most the relative margin `δ` of the rings and the step size is at most a fifth over (power of the weights times the square of the largest symbol power), the
output power converges geometrically to that of the constellation; the carrier phase stays, and the taps only move along the matched filter of the source. -/
theorem C190_rde {E : List (List ℂ)} {syms : List ℂ} {c : Nat → ℂ} {h : Nat → Nat → ℂ} {δ A a mu : ℝ} {p L os ntaps trSyms nIter : Nat} {symbols : List (List ℂ)} {wx : List (List (List ℂ))}
    {modes : List Nat} {errf : ℂ → List ℂ → Nat → Option ℂ} (hmeth : errorFct "rde" = some errf) (hcode : ∀ s ∈ symbols, s = partitionCodesRadius syms)
    (hmar : RingMargin syms δ) (hδ0 : 0 ≤ δ) (hδ : δ < 1) (ha0 : 0 < a) (hsyms : ∀ s ∈ syms, a ≤ ‖s‖ ^ 2 ∧ ‖s‖ ^ 2 ≤ A)
    (hE : Rect E p L) (hwx : ∀ w ∈ wx, Rect w p ntaps) (hm : ∀ m ∈ modes, m < p) (hnd : modes.Nodup)
    (hT : trSyms = 0 ∨ (trSyms - 1) * os + ntaps ≤ L) (hs : RingSource E syms c h p ntaps os trSyms)
    (hP : 0 < sourcePower h p ntaps) (hmu : 0 < mu) (hb : mu * sourcePower h p ntaps * A ^ 2 ≤ 1 / 5)
    (hy : ∀ w ∈ wx, |‖response w h p ntaps‖ ^ 2 - 1| ≤ δ)
    {r : TrainResult ℂ} (hr : trainEqualiser errf adaptStep false E trSyms nIter os mu wx ntaps modes symbols = some r) :
    ∀ m ∈ modes, ∃ w w', wx[m]? = some w ∧ r.wx[m]? = some w' ∧
      (∃ ρ : ℝ, 0 < ρ ∧ response w' h p ntaps = (ρ : ℂ) * response w h p ntaps) ∧
      (∃ κ : ℝ, ∀ k t, k < p → t < ntaps → val2 w' k t = val2 w k t + (κ : ℂ) * response w h p ntaps * star (h k t)) ∧
      |‖response w' h p ntaps‖ ^ 2 - 1| ≤ (1 - mu * sourcePower h p ntaps * a ^ 2 * (1 - δ)) ^ (nIter * trSyms) * |‖response w h p ntaps‖ ^ 2 - 1| := by
  have : rdeError = errf := by simpa [errorFct] using hmeth
  subst this
  intro m hmm
  unfold trainEqualiser at hr
  obtain ⟨w, s, st, g1, g2, g3, g4, g5⟩ := trainEqualiser_row hr hnd hmm (by simpa using (hE.1 ▸ hm m hmm : m < E.length))
  simp only at g1 g3
  have hwm := List.mem_of_getElem? g1
  rw [hcode s (List.mem_of_getElem? g2)] at g3
  obtain ⟨q1, q2, -, q4⟩ := ring_mode hmar hδ0 hδ ha0 hsyms C26_adapt_step.1 hE (hwx w hwm) hT hs hP hmu hb (hy w hwm) g3
  exact ⟨w, st.w, g1, g4, q1, q2, q4 rfl⟩

/-- What the power error means for the equalised symbols: up to the one carrier phase of the response they are the transmitted symbols with this relative accuracy. -/
theorem C190_output {E w : List (List ℂ)} {syms : List ℂ} {c : Nat → ℂ} {h : Nat → Nat → ℂ} {p ntaps os n i : Nat} (hs : RingSource E syms c h p ntaps os n) (hi : i < n)
    (h0 : response w h p ntaps ≠ 0) :
    ‖firOutput E w p ntaps os i - c i * (response w h p ntaps / ‖response w h p ntaps‖)‖ ≤ ‖c i‖ * |‖response w h p ntaps‖ ^ 2 - 1| := by
  obtain ⟨y, hy⟩ : ∃ y, y = response w h p ntaps := ⟨_, rfl⟩
  rw [firOutput_ringSource hs hi, ← hy, ← mul_sub, norm_mul]
  rw [← hy] at h0
  have hn : 0 < ‖y‖ := norm_pos_iff.2 h0
  refine mul_le_mul_of_nonneg_left ?_ (norm_nonneg _)
  have hnc : (‖y‖ : ℂ) ≠ 0 := by exact_mod_cast hn.ne'
  rw [show y - y / (‖y‖ : ℂ) = (y / (‖y‖ : ℂ)) * (((‖y‖ - 1 : ℝ)) : ℂ) by push_cast; field_simp, norm_mul, norm_div, Complex.norm_real, Complex.norm_real, norm_norm, div_self hn.ne', one_mul,
    Real.norm_eq_abs, show ‖y‖ ^ 2 - 1 = (‖y‖ - 1) * (‖y‖ + 1) by ring, abs_mul, abs_of_pos (by linarith : 0 < ‖y‖ + 1)]
  nlinarith [abs_nonneg (‖y‖ - 1)]

/-- With adaptive step size the power error never grows. -/
theorem C190_adaptive {E w : List (List ℂ)} {syms : List ℂ} {c : Nat → ℂ} {h : Nat → Nat → ℂ} {δ A a mu : ℝ} {p L os ntaps trSyms nIter : Nat}
    {errf : ℂ → List ℂ → Nat → Option ℂ} (hmeth : errorFct "rde" = some errf)
    (hmar : RingMargin syms δ) (hδ0 : 0 ≤ δ) (hδ : δ < 1) (ha0 : 0 < a) (hsyms : ∀ s ∈ syms, a ≤ ‖s‖ ^ 2 ∧ ‖s‖ ^ 2 ≤ A)
    (hE : Rect E p L) (hw : Rect w p ntaps) (hT : trSyms = 0 ∨ (trSyms - 1) * os + ntaps ≤ L) (hs : RingSource E syms c h p ntaps os trSyms)
    (hP : 0 < sourcePower h p ntaps) (hmu : 0 < mu) (hb : mu * sourcePower h p ntaps * A ^ 2 ≤ 1 / 5)
    (hy : |‖response w h p ntaps‖ ^ 2 - 1| ≤ δ)
    {st : TrainState ℂ} (hst : trainMode errf adaptStep true E trSyms nIter os ntaps (partitionCodesRadius syms) w mu = some st) :
    (∃ ρ : ℝ, 0 < ρ ∧ response st.w h p ntaps = (ρ : ℂ) * response w h p ntaps) ∧ |‖response st.w h p ntaps‖ ^ 2 - 1| ≤ |‖response w h p ntaps‖ ^ 2 - 1| := by
  have : rdeError = errf := by simpa [errorFct] using hmeth
  subst this
  obtain ⟨q1, -, q3, -⟩ := ring_mode hmar hδ0 hδ ha0 hsyms C26_adapt_step.1 hE hw hT hs hP hmu hb hy hst
  exact ⟨q1, q3⟩

/-- A point of a square QAM constellation has power `n/scale²` with `n = 2` modulo 8 between `2` and `2(2^N-1)²`. -/
theorem squareQam_power {N : Nat} (hN : 1 ≤ N) {scale : ℝ} {s : ℂ} (hs : s ∈ (squareQam N).map (toComplex scale)) :
    ∃ j : ℕ, ‖s‖ ^ 2 = (8 * j + 2) / scale ^ 2 ∧ (8 * j + 2 : ℝ) ≤ 2 * (2 ^ N - 1) ^ 2 := by
  obtain ⟨⟨a, b⟩, hab, rfl⟩ := List.mem_map.1 hs
  obtain ⟨⟨⟨x, hx⟩, ha2⟩, ⟨y, hy⟩, hb2⟩ := ((C10_square_qam N hN).2.2 a b).1 hab
  obtain ⟨u, hu⟩ := Int.even_mul_succ_self x
  obtain ⟨v, hv⟩ := Int.even_mul_succ_self y
  have hu0 : 0 ≤ u + v := by nlinarith [mul_self_nonneg (2 * x + 1), mul_self_nonneg (2 * y + 1)]
  obtain ⟨j, hj⟩ := Int.eq_ofNat_of_zero_le hu0
  have hsum : a ^ 2 + b ^ 2 = 8 * (j : Int) + 2 := by
    rw [← hj, hx, hy]
    linear_combination 4 * hu + 4 * hv
  have hsumR : (a : ℝ) ^ 2 + (b : ℝ) ^ 2 = 8 * (j : ℝ) + 2 := by exact_mod_cast hsum
  have hq : ∀ z : Int, |z| ≤ 2 ^ N - 1 → (z : ℝ) ^ 2 ≤ (2 ^ N - 1) ^ 2 := by
    intro z hz
    have : |(z : ℝ)| ≤ 2 ^ N - 1 := by exact_mod_cast hz
    rw [← sq_abs]
    exact pow_le_pow_left₀ (abs_nonneg _) this 2
  refine ⟨j, ?_, by linarith [hq a ha2, hq b hb2]⟩
  unfold toComplex
  rw [norm_div, div_pow, Complex.norm_real, Real.norm_eq_abs, sq_abs, ← hsumR, ← Complex.normSq_eq_norm_sq, Complex.normSq_mk]
  ring

/-- The relative margin of a square QAM constellation with `4^N` points is `2/(2^N-1)²`: two for QPSK, 2/9 for 16-QAM, 2/49 for 64-QAM. -/
theorem C190_square_margin {N : Nat} (hN : 1 ≤ N) {scale δ : ℝ} (hscale : 0 < scale) (hδ0 : 0 ≤ δ) (hδ : δ * (2 ^ N - 1) ^ 2 < 2) :
    RingMargin ((squareQam N).map (toComplex scale)) δ ∧
    ∀ s ∈ (squareQam N).map (toComplex scale), 2 / scale ^ 2 ≤ ‖s‖ ^ 2 ∧ ‖s‖ ^ 2 ≤ 2 * (2 ^ N - 1) ^ 2 / scale ^ 2 := by
  have hs2 : 0 < scale ^ 2 := by positivity
  constructor
  · intro s hs s' hs' hne
    obtain ⟨j, h1, h2⟩ := squareQam_power hN hs
    obtain ⟨j', h1', -⟩ := squareQam_power hN hs'
    have hjj : j ≠ j' := by
      rintro rfl
      exact hne ((pow_left_inj₀ (norm_nonneg _) (norm_nonneg _) two_ne_zero).1 (h1.trans h1'.symm))
    have h8 : (8 : ℝ) ≤ |(8 * j + 2 : ℝ) - (8 * j' + 2)| := by
      have : (1 : ℝ) ≤ |(j : ℝ) - j'| := by
        have h : (1 : ℤ) ≤ |(j : ℤ) - j'| := Int.one_le_abs (by omega)
        exact_mod_cast h
      rw [show (8 * j + 2 : ℝ) - (8 * j' + 2) = 8 * ((j : ℝ) - j') by ring, abs_mul, abs_of_pos (by norm_num : (0 : ℝ) < 8)]
      linarith
    rw [h1, h1', ← sub_div, abs_div, abs_of_pos hs2, lt_div_iff₀ hs2]
    rw [show 2 * ((8 * (j : ℝ) + 2) / scale ^ 2 * δ) * scale ^ 2 = 2 * ((8 * j + 2) * δ) by field_simp]
    nlinarith [mul_le_mul_of_nonneg_right h2 hδ0]
  · intro s hs
    obtain ⟨j, h1, h2⟩ := squareQam_power hN hs
    rw [h1]
    constructor
    · refine div_le_div_of_nonneg_right ?_ hs2.le
      have : (0 : ℝ) ≤ j := by positivity
      linarith
    · exact div_le_div_of_nonneg_right h2 hs2.le

/-- The limit on the power error is needed: whenever all outputs fall on rings of the constellation, be they the wrong ones, training changes nothing, for any number of symbols and iterations. -/
theorem C190_wrong_rings {adaptive : Bool} {E : List (List ℂ)} {syms : List ℂ} {c : Nat → ℂ} {h : Nat → Nat → ℂ} {mu : ℝ} {p L os ntaps trSyms nIter : Nat} {symbols : List (List ℂ)}
    {wx : List (List (List ℂ))} {modes : List Nat} {errf : ℂ → List ℂ → Nat → Option ℂ} (hmeth : errorFct "rde" = some errf) (hcode : ∀ s ∈ symbols, s = partitionCodesRadius syms)
    (hE : Rect E p L) (hlen : wx.length = p) (hwx : ∀ w ∈ wx, Rect w p ntaps) (hsl : symbols.length = p) (hm : ∀ m ∈ modes, m < p)
    (hT : trSyms = 0 ∨ (trSyms - 1) * os + ntaps ≤ L) (hs : RingSource E syms c h p ntaps os trSyms)
    (hwrong : ∀ w ∈ wx, ∀ i < trSyms, ∃ s' ∈ syms, ‖c i‖ * ‖response w h p ntaps‖ = ‖s'‖) :
    trainEqualiser errf adaptStep adaptive E trSyms nIter os mu wx ntaps modes symbols = some { err := List.replicate p (List.replicate (trSyms * nIter) 0), wx := wx, mu := mu } := by
  have : rdeError = errf := by simpa [errorFct] using hmeth
  subst this
  refine C29_fixed_point hE hlen hwx hsl hm hT (adaptStep_zero mu) ?_
  intro m hmm w s h1 h2 i hi
  rw [hcode s (List.mem_of_getElem? h2), firOutput_ringSource hs hi]
  obtain ⟨s', hs', hn⟩ := hwrong w (List.mem_of_getElem? h1) i hi
  obtain ⟨c', hc', g1, g2⟩ := C30_rde_codes syms (List.ne_nil_of_mem hs') (c i * response w h p ntaps)
  have h3 := g2 s' hs'
  rw [norm_mul, hn, sub_self, abs_zero, abs_nonpos_iff, sub_eq_zero] at h3
  have e : rdeError (c i * response w h p ntaps) (partitionCodesRadius syms) i = rdeError (c i * response w h p ntaps) (partitionCodesRadius syms) 0 := rfl
  rw [e, g1, norm_mul, hn, h3, sub_self]
  simp

/-- 16-QAM (points 1+i and 3+i) received with gain 1.05, one tap of one, step size 1e-4: the power error of ten percent shrinks to less than any bound given by the number of passes. -/
example (nIter : Nat) : ∃ r w', trainEqualiser rdeError adaptStep false [[21 / 20 * (1 + I), 21 / 20 * (3 + I)]] 2 nIter 1 (1 / 10000) [[[1]]] 1 [0]
      [partitionCodesRadius ((squareQam 2).map (toComplex 1))] = some r ∧ r.wx[0]? = some w' ∧
    |‖response w' (fun _ _ => 21 / 20) 1 1‖ ^ 2 - 1| ≤ (1 - 3528 / 10000000) ^ (nIter * 2) * (41 / 400) := by
  have hE : Rect ([[21 / 20 * (1 + I), 21 / 20 * (3 + I)]] : List (List ℂ)) 1 2 := ⟨rfl, by simp⟩
  have hw : ∀ w ∈ ([[[1]]] : List (List (List ℂ))), Rect w 1 1 := by
    intro w hw
    rw [List.mem_singleton.1 hw]
    exact ⟨rfl, by simp⟩
  have hmem : ∀ x y : Int, (x, y) ∈ squareQam 2 → (x : ℂ) + y * I ∈ (squareQam 2).map (toComplex 1) := by
    intro x y hxy
    refine List.mem_map.2 ⟨(x, y), hxy, ?_⟩
    unfold toComplex
    apply Complex.ext <;> simp
  have hs : RingSource ([[21 / 20 * (1 + I), 21 / 20 * (3 + I)]] : List (List ℂ)) ((squareQam 2).map (toComplex 1)) (fun i => if i = 0 then 1 + I else 3 + I) (fun _ _ => 21 / 20) 1 1 1 2 := by
    intro i hi
    interval_cases i
    · refine ⟨by simpa using hmem 1 1 (by decide), fun k t hk ht => ?_⟩
      interval_cases k; interval_cases t
      simp [val2, at2]; ring
    · refine ⟨by simpa using hmem 3 1 (by decide), fun k t hk ht => ?_⟩
      interval_cases k; interval_cases t
      simp [val2, at2]; ring
  have hresp : response ([[1]] : List (List ℂ)) (fun _ _ => 21 / 20) 1 1 = 21 / 20 := by
    simp only [response, val2, at2, Finset.sum_range_one]
    norm_num
  have hpow : sourcePower (fun _ _ => (21 / 20 : ℂ)) 1 1 = 441 / 400 := by
    simp only [sourcePower, Finset.sum_range_one]
    norm_num
  have hne : (squareQam 2).map (toComplex 1) ≠ [] := by
    intro h0
    have := hmem 1 1 (by decide)
    rw [h0] at this
    simp at this
  obtain ⟨hmar, hb⟩ := C190_square_margin (N := 2) (by norm_num) (scale := 1) (δ := 1 / 5) one_pos (by norm_num) (by norm_num)
  obtain ⟨r, hr⟩ : ∃ r, trainEqualiser rdeError adaptStep false [[21 / 20 * (1 + I), 21 / 20 * (3 + I)]] 2 nIter 1 (1 / 10000) [[[1]]] 1 [0]
      [partitionCodesRadius ((squareQam 2).map (toComplex 1))] = some r := by
    obtain ⟨r, hr, -⟩ := C27_methods (method := "rde") (adaptive := false) (nIter := nIter) (mu := 1 / 10000) (modes := [0]) (trSyms := 2) (os := 1) (errf := rdeError) rfl hE (wx := [[[1]]])
      rfl hw (symbols := [partitionCodesRadius ((squareQam 2).map (toComplex 1))]) rfl (by simp) (Or.inr (by norm_num)) (by
        intro s hs
        rw [List.mem_singleton.1 hs]
        exact C27_rde_usable _ hne _)
    exact ⟨r, hr⟩
  have hbd : |‖(21 / 20 : ℂ)‖ ^ 2 - 1| = 41 / 400 := by norm_num [abs_of_pos]
  obtain ⟨w, w', h1, h2, -, -, h5⟩ := C190_rde (nIter := nIter) (mu := 1 / 10000) (δ := 1 / 5) (a := 2) (A := 18) rfl (by simp) hmar (by norm_num) (by norm_num) (by norm_num)
    (by
      intro s hs
      have := hb s hs
      norm_num at this ⊢
      exact this) hE hw (by simp) (by simp) (Or.inr (by norm_num)) hs (by rw [hpow]; norm_num) (by norm_num)
    (by rw [hpow]; norm_num) (by
      intro w hw
      rw [List.mem_singleton.1 hw, hresp, hbd]
      norm_num) hr 0 (by simp)
  simp only [List.getElem?_cons_zero, Option.some.injEq] at h1
  subst h1
  refine ⟨r, w', hr, h2, h5.trans (le_of_eq ?_)⟩
  rw [hresp, hpow, hbd]
  norm_num

end Qampy
