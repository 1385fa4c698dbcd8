import Verif.Model.Evm
import Verif.Props.Partition
import Verif.Tactics

/-!
C153: error vector magnitude on plain arrays.
-/

namespace Qampy

open Complex (I)

theorem sqDist_eq (a b : ℂ) : sqDist a b = ‖a - b‖ ^ 2 := by
  unfold sqDist
  rw [sq_abs, sq_abs, ← Complex.normSq_eq_norm_sq, Complex.normSq_apply, Complex.sub_re, Complex.sub_im]
  ring

theorem momentS_gain (c : ℂ) (hc : c ≠ 0) (E : List ℂ) (gamma : ℝ) : momentS (E.map fun e => c * e) gamma = momentS E gamma := by
  have h : ‖c‖ ≠ 0 := norm_ne_zero_iff.2 hc
  unfold momentS
  simp only [absMoment_gain]
  have e0 : (‖c‖ ^ 4 * absMoment 4 E = 0) ↔ absMoment 4 E = 0 := by simp [h]
  have e1 : 2 * (‖c‖ ^ 2 * absMoment 2 E) ^ 4 / (‖c‖ ^ 4 * absMoment 4 E) ^ 2 = 2 * absMoment 2 E ^ 4 / absMoment 4 E ^ 2 := by
    rw [show 2 * (‖c‖ ^ 2 * absMoment 2 E) ^ 4 = ‖c‖ ^ 8 * (2 * absMoment 2 E ^ 4) by ring,
      show (‖c‖ ^ 4 * absMoment 4 E) ^ 2 = ‖c‖ ^ 8 * absMoment 4 E ^ 2 by ring, mul_div_mul_left _ _ (pow_ne_zero _ h)]
  have e2 : ∀ x : ℝ, x * (‖c‖ ^ 2 * absMoment 2 E) ^ 2 / (‖c‖ ^ 4 * absMoment 4 E) = x * absMoment 2 E ^ 2 / absMoment 4 E := by
    intro x
    rw [show x * (‖c‖ ^ 2 * absMoment 2 E) ^ 2 = ‖c‖ ^ 4 * (x * absMoment 2 E ^ 2) by ring, mul_div_mul_left _ _ (pow_ne_zero _ h)]
  have e3 := e2 1
  rw [one_mul, one_mul] at e3
  simp only [e0, e1, e2, e3]

theorem calS0_gain (c : ℂ) (hc : c ≠ 0) (E : List ℂ) (gamma : ℝ) :
    calS0 (E.map fun e => c * e) gamma = (calS0 E gamma).map fun s => ‖c‖ ^ 2 * s := by
  unfold calS0
  rw [momentS_gain c hc, Option.map_map]
  congr 1
  funext s
  simp only [Function.comp_apply, absMoment_gain]
  split_ifs
  · simp
  · rw [mul_div_assoc]

/-- A complex gain changes the normalised signal by its phase only. -/
theorem normToS0_gain (c : ℂ) (hc : c ≠ 0) (E : List ℂ) (gamma : ℝ) :
    normToS0 (E.map fun e => c * e) gamma = (normToS0 E gamma).map fun l => l.map fun e => c / (‖c‖ : ℝ) * e := by
  have h : 0 < ‖c‖ := norm_pos_iff.2 hc
  unfold normToS0
  rw [calS0_gain c hc]
  cases hs : calS0 E gamma with
  | none => rfl
  | some s =>
    simp only [Option.map_some, Option.bind_some]
    by_cases h0 : s ≤ 0
    · rw [if_pos h0, if_pos (by nlinarith [sq_nonneg ‖c‖])]; rfl
    · rw [if_neg h0, if_neg (by push Not at h0 ⊢; positivity)]
      rw [Option.map_some, List.map_map, List.map_map, Option.some.injEq]
      apply List.map_congr_left
      intro e _
      simp only [Function.comp_apply]
      rw [Real.sqrt_mul (sq_nonneg _), Real.sqrt_sq h.le]
      push_cast
      have hh : (‖c‖ : ℂ) ≠ 0 := by exact_mod_cast h.ne'
      have hq : ((Real.sqrt s : ℝ) : ℂ) ≠ 0 := by
        push Not at h0
        exact_mod_cast (Real.sqrt_pos.2 h0).ne'
      field_simp

theorem evmFrom_unit (u : ℂ) (hu : ‖u‖ = 1) (err : ℝ) (P : List ℂ) : evmFrom err (P.map fun e => u * e) = evmFrom err P := by
  unfold evmFrom
  rw [List.map_map]
  simp only [Function.comp_def, norm_mul, hu, one_mul]

theorem zipWith_sqDist_unit (u : ℂ) (hu : ‖u‖ = 1) : ∀ P Q : List ℂ,
    List.zipWith sqDist (P.map fun e => u * e) (Q.map fun e => u * e) = List.zipWith sqDist P Q := by
  intro P Q
  rw [List.zipWith_map]
  congr 1
  funext a b
  rw [sqDist_eq, sqDist_eq, ← mul_sub, norm_mul, hu, one_mul]

theorem phase_of (a : ℝ) (ha : 0 < a) (u : ℂ) (hu : ‖u‖ = 1) : ((a : ℂ) * u) / (‖(a : ℂ) * u‖ : ℝ) = u := by
  rw [norm_mul, hu, mul_one, Complex.norm_real, Real.norm_of_nonneg ha.le]
  have : (a : ℂ) ≠ 0 := by exact_mod_cast ha.ne'
  field_simp

/-- C153: the EVM against known symbols does not depend on the gain of the signal, on the gain of the known symbols or on a phase common
to both. -/
theorem C153_scale (k : Nat) (sig known : List ℂ) (a b : ℝ) (ha : 0 < a) (hb : 0 < b) (u : ℂ) (hu : ‖u‖ = 1) :
    calEvm k (sig.map fun e => (a * u) * e) (some (known.map fun e => (b * u) * e)) = calEvm k sig (some known) := by
  have hu0 : u ≠ 0 := by rintro rfl; simp at hu
  have ha0 : (a : ℂ) * u ≠ 0 := mul_ne_zero (by exact_mod_cast ha.ne') hu0
  have hb0 : (b : ℂ) * u ≠ 0 := mul_ne_zero (by exact_mod_cast hb.ne') hu0
  unfold calEvm
  simp only [List.length_map]
  split_ifs
  · rfl
  · rw [normToS0_gain _ ha0, normToS0_gain _ hb0, phase_of a ha u hu, phase_of b hb u hu]
    cases normToS0 known (calGamma k) with
    | none => rfl
    | some P =>
      cases normToS0 sig (calGamma k) with
      | none => rfl
      | some Q =>
        simp only [Option.map_some, Option.bind_some]
        rw [zipWith_sqDist_unit u hu]
        simp only [evmFrom_unit u hu]

/-- C153: neither does the blind EVM depend on the gain of the signal. -/
theorem C153_scale_blind (k : Nat) (sig : List ℂ) (a : ℝ) (ha : 0 < a) :
    calEvm k (sig.map fun e => (a : ℂ) * e) none = calEvm k sig none := by
  have ha0 : (a : ℂ) ≠ 0 := by exact_mod_cast ha.ne'
  unfold calEvm blindEvm
  have := phase_of a ha 1 (by simp)
  rw [mul_one] at this
  simp only [normToS0_gain _ ha0, this, one_mul, List.map_id', Option.map_id']

theorem list_sum_zero_iff {l : List ℝ} (h : ∀ x ∈ l, 0 ≤ x) : l.sum = 0 ↔ ∀ x ∈ l, x = 0 := by
  induction l with
  | nil => simp
  | cons a l ih =>
    have ha := h a (by simp)
    have hl : ∀ x ∈ l, 0 ≤ x := fun x hx => h x (by simp [hx])
    have hs := List.sum_nonneg hl
    rw [List.sum_cons, List.forall_mem_cons, ← ih hl]
    constructor
    · intro e; exact ⟨by linarith, by linarith⟩
    · rintro ⟨rfl, e⟩; rw [e]; simp

theorem meanNan_some (l : List ℝ) (h : l ≠ []) : meanNan l = some (l.sum / l.length) := if_neg h

theorem normToS0_some {E P : List ℂ} {gamma : ℝ} (h : normToS0 E gamma = some P) :
    ∃ s : ℝ, calS0 E gamma = some s ∧ 0 < s ∧ P = E.map fun e : ℂ => e / ((Real.sqrt s : ℝ) : ℂ) := by
  unfold normToS0 at h
  obtain ⟨s, hs, h⟩ := Option.bind_eq_some_iff.1 h
  by_cases h0 : s ≤ 0
  · rw [if_pos h0] at h; exact absurd h (by simp)
  · rw [if_neg h0] at h
    exact ⟨s, hs, not_le.1 h0, (Option.some.inj h).symm⟩

theorem normToS0_of {E : List ℂ} {gamma s : ℝ} (hs : calS0 E gamma = some s) (h : 0 < s) :
    normToS0 E gamma = some (E.map fun e : ℂ => e / ((Real.sqrt s : ℝ) : ℂ)) := by
  unfold normToS0
  rw [hs, Option.bind_some, if_neg (not_le.2 h)]

/-- A signal that can be normalised is not empty and has power. -/
theorem calS0_power {E : List ℂ} {gamma s : ℝ} (hs : calS0 E gamma = some s) : absMoment 2 E ≠ 0 := by
  unfold calS0 at hs
  obtain ⟨m, hm, _⟩ := Option.map_eq_some_iff.1 hs
  intro h2
  unfold momentS at hm
  simp only at hm
  split_ifs at hm with h
  apply h
  left
  unfold absMoment at h2 ⊢
  rcases div_eq_zero_iff.1 h2 with h0 | h0
  · have hz : ∀ e ∈ E, e = 0 := by
      intro e he
      have := (list_sum_zero_iff (l := E.map fun e => ‖e‖ ^ 2) (by
        intro x hx; obtain ⟨y, _, rfl⟩ := List.mem_map.1 hx; positivity)).1 h0 (‖e‖ ^ 2) (List.mem_map.2 ⟨e, he, rfl⟩)
      simpa using this
    have : (E.map fun e => ‖e‖ ^ 4) = E.map fun _ => (0 : ℝ) := by
      apply List.map_congr_left
      intro e he
      rw [hz e he]; simp
    rw [this]; simp
  · rw [h0]; simp

theorem meanSq_norm (E : List ℂ) (s : ℝ) (h : 0 < s) (hE : E ≠ []) :
    meanNan ((E.map fun e : ℂ => e / ((Real.sqrt s : ℝ) : ℂ)).map fun p => ‖p‖ ^ 2) = some (absMoment 2 E / s) := by
  rw [meanNan_some _ (by simpa using hE), List.map_map, List.length_map]
  congr 1
  unfold absMoment
  have : (E.map ((fun p : ℂ => ‖p‖ ^ 2) ∘ fun e : ℂ => e / ((Real.sqrt s : ℝ) : ℂ))) = E.map fun e => ‖e‖ ^ 2 / s := by
    apply List.map_congr_left
    intro e _
    simp only [Function.comp_apply, norm_div, Complex.norm_real, Real.norm_of_nonneg (Real.sqrt_nonneg s), div_pow, Real.sq_sqrt h.le]
  rw [this]
  simp only [div_eq_mul_inv, List.sum_map_mul_right]
  ring

theorem absMoment_ne_nil {n : Nat} {E : List ℂ} (h : absMoment n E ≠ 0) : E ≠ [] := by
  rintro rfl; simp [absMoment] at h

/-- The EVM in terms of the two normalised signals. -/
theorem calEvm_known {k : Nat} {sig known P Q : List ℂ} (hl : known.length = sig.length)
    (hP : normToS0 known (calGamma k) = some P) (hQ : normToS0 sig (calGamma k) = some Q) :
    ∃ p : ℝ, 0 < p ∧ P ≠ [] ∧ P.length = Q.length ∧ meanNan (P.map fun e => ‖e‖ ^ 2) = some p ∧
      calEvm k sig (some known) = .ok (some (Real.sqrt ((List.zipWith sqDist P Q).sum / P.length / p))) := by
  obtain ⟨s, hs, s0, rfl⟩ := normToS0_some hP
  obtain ⟨t, ht, t0, rfl⟩ := normToS0_some hQ
  have h2 := calS0_power hs
  have hne := absMoment_ne_nil h2
  have hsne : sig ≠ [] := by rintro rfl; exact hne (List.length_eq_zero_iff.1 (by simpa using hl))
  have h20 : 0 ≤ absMoment 2 known := by
    unfold absMoment
    exact div_nonneg (List.sum_nonneg (by intro x hx; obtain ⟨y, _, rfl⟩ := List.mem_map.1 hx; positivity)) (by positivity)
  have hp : 0 < absMoment 2 known / s := div_pos (lt_of_le_of_ne h20 (Ne.symm h2)) s0
  refine ⟨absMoment 2 known / s, hp, by simpa using hne, by simpa using hl, meanSq_norm known s s0 hne, ?_⟩
  unfold calEvm
  simp only
  rw [if_neg (by simpa using hl), hP, hQ, Option.bind_some, Option.bind_some, meanNan_some _ (by
    intro h0
    have := congrArg List.length h0
    simp only [List.length_zipWith, List.length_map, List.length_nil, hl, min_self] at this
    exact hsne (List.length_eq_zero_iff.1 this)), Option.bind_some]
  unfold evmFrom
  rw [meanSq_norm known s s0 hne, Option.bind_some, if_neg hp.ne']
  simp only [List.length_zipWith, List.length_map, hl, min_self]

theorem zipWith_sqDist_nonneg (P Q : List ℂ) : ∀ x ∈ List.zipWith sqDist P Q, 0 ≤ x := by
  intro x hx
  obtain ⟨i, hi, rfl⟩ := List.mem_iff_getElem.1 hx
  rw [List.getElem_zipWith, sqDist_eq]
  positivity

/-- C153: the EVM is zero exactly if the signal is the known symbols up to a gain. -/
theorem C153_zero (k : Nat) (sig known P Q : List ℂ) (hl : known.length = sig.length)
    (hP : normToS0 known (calGamma k) = some P) (hQ : normToS0 sig (calGamma k) = some Q) :
    calEvm k sig (some known) = .ok (some 0) ↔ ∃ a : ℝ, 0 < a ∧ sig = known.map fun e => (a : ℂ) * e := by
  constructor
  · intro h
    obtain ⟨p, hp, hne, hlen, _, he⟩ := calEvm_known hl hP hQ
    rw [he] at h
    have h0 : Real.sqrt ((List.zipWith sqDist P Q).sum / P.length / p) = 0 := by simpa using h
    have hnn : 0 ≤ (List.zipWith sqDist P Q).sum := List.sum_nonneg (zipWith_sqDist_nonneg P Q)
    have hPl : (0 : ℝ) < P.length := by exact_mod_cast List.length_pos_iff.2 hne
    have hsum : (List.zipWith sqDist P Q).sum = 0 := by
      have := (Real.sqrt_eq_zero (by positivity)).1 h0
      rcases div_eq_zero_iff.1 this with h | h
      · rcases div_eq_zero_iff.1 h with h | h
        · exact h
        · exact absurd h hPl.ne'
      · exact absurd h hp.ne'
    have hall := (list_sum_zero_iff (zipWith_sqDist_nonneg P Q)).1 hsum
    have hPQ : P = Q := by
      apply List.ext_getElem hlen
      intro i h1 h2
      have := hall (sqDist P[i] Q[i]) (List.mem_iff_getElem.2 ⟨i, by simpa using ⟨h1, h2⟩, by rw [List.getElem_zipWith]⟩)
      rw [sqDist_eq] at this
      have := pow_eq_zero_iff (two_ne_zero) |>.1 this
      exact sub_eq_zero.1 (norm_eq_zero.1 this)
    obtain ⟨s, hs, s0, rfl⟩ := normToS0_some hP
    obtain ⟨t, ht, t0, rfl⟩ := normToS0_some hQ
    have hs' := Real.sqrt_pos.2 s0
    have ht' := Real.sqrt_pos.2 t0
    refine ⟨Real.sqrt t / Real.sqrt s, div_pos ht' hs', ?_⟩
    apply List.ext_getElem (by simpa using hl.symm)
    intro i h1 h2
    have h3 : i < known.length := by omega
    have := congrArg (fun l => l[i]?) hPQ
    simp only [List.getElem?_map, List.getElem?_eq_getElem h1, List.getElem?_eq_getElem h3, Option.map_some, Option.some.injEq] at this
    rw [List.getElem_map]
    have e1 : ((Real.sqrt s : ℝ) : ℂ) ≠ 0 := by exact_mod_cast hs'.ne'
    have e2 : ((Real.sqrt t : ℝ) : ℂ) ≠ 0 := by exact_mod_cast ht'.ne'
    push_cast
    field_simp at this ⊢
    rw [this]
  · rintro ⟨a, ha, rfl⟩
    have := C153_scale k known known a 1 ha one_pos 1 (by simp)
    simp only [Complex.ofReal_one, one_mul, mul_one, List.map_id'] at this
    rw [this]
    obtain ⟨p, hp, hne, hlen, _, he⟩ := calEvm_known rfl hP hP
    rw [he]
    have : List.zipWith sqDist P P = P.map fun _ => (0 : ℝ) := by
      rw [List.zipWith_self]
      apply List.map_congr_left
      intro x _
      rw [sqDist_eq]; simp
    rw [this]
    simp

/-- C153: if the known symbols and the received signal have the moments of `M`-QAM of power `S` without noise and in Gaussian noise of power
`N`, the EVM is the root mean square difference over the root of the power; if the difference has the power `N`, it is the reciprocal root
of the SNR which `cal_snr_qam` returns. -/
theorem C153_snr (k : Nat) (sig known : List ℂ) (S N : ℝ) (hl : known.length = sig.length) (hg0 : 1 ≤ calGamma k) (hg : calGamma k < 2)
    (hS : 0 < S) (hN : 0 < N) (hk2 : absMoment 2 known = S) (hk4 : absMoment 4 known = calGamma k * S ^ 2)
    (h2 : absMoment 2 sig = S + N) (h4 : absMoment 4 sig = calGamma k * S ^ 2 + 4 * S * N + 2 * N ^ 2) :
    calEvm k sig (some known) = .ok (some (Real.sqrt (absMoment 2 (List.zipWith (fun a b => a - b) known sig) / S))) ∧
    (absMoment 2 (List.zipWith (fun a b => a - b) known sig) = N →
      ∃ snr : ℝ, calSnrQam sig (calGamma k) = some snr ∧ calEvm k sig (some known) = .ok (some (1 / Real.sqrt snr))) := by
  have hks := (C90_noiseless known _ S (by linarith) hg hS hk2 hk4).1
  obtain ⟨hss, hsn⟩ := C90_exact_moments sig _ S N (by linarith) hg hS hN h2 h4
  obtain ⟨p, hp, hne, hlen, hpe, he⟩ := calEvm_known hl (normToS0_of hks hS) (normToS0_of hss hS)
  have hne' : known ≠ [] := by simpa using hne
  rw [meanSq_norm known S hS hne', hk2, div_self hS.ne', Option.some.injEq] at hpe
  have hmain : calEvm k sig (some known) = .ok (some (Real.sqrt (absMoment 2 (List.zipWith (fun a b => a - b) known sig) / S))) := by
    rw [he, ← hpe, div_one, List.length_map]
    congr 3
    unfold absMoment
    rw [List.zipWith_map, List.length_zipWith, hl, min_self, List.map_zipWith, div_right_comm]
    congr 1
    have : List.zipWith (fun a b : ℂ => sqDist (a / (Real.sqrt S : ℝ)) (b / (Real.sqrt S : ℝ))) known sig
        = (List.zipWith (fun a b : ℂ => ‖a - b‖ ^ 2) known sig).map fun x => x / S := by
      rw [List.map_zipWith]
      congr 1
      funext a b
      rw [sqDist_eq, ← sub_div, norm_div, Complex.norm_real, Real.norm_of_nonneg (Real.sqrt_nonneg S), div_pow, Real.sq_sqrt hS.le]
    rw [this]
    simp only [div_eq_mul_inv, List.sum_map_mul_right, List.map_id']
  refine ⟨hmain, fun hd => ⟨S / N, hsn, ?_⟩⟩
  rw [hmain, hd]
  congr 2
  rw [one_div, ← Real.sqrt_inv, inv_div]

/-- Symbols of a square constellation of gain `c`, each used `r` times, in any order. -/
def EvenlyUsed (k r : Nat) (c : ℝ) (known : List ℂ) : Prop :=
  known.Perm (List.replicate r ((idealQam k).map fun p => (c : ℂ) * p)).flatten

theorem evenlyUsed_norm {k r : Nat} {c : ℝ} {known : List ℂ} (hk : k % 2 = 0) (hk2 : 2 ≤ k) (hr : 1 ≤ r) (hc : 0 < c)
    (h : EvenlyUsed k r c known) :
    ∃ P : List ℂ, normToS0 known (calGamma k) = some P ∧ (∀ z ∈ P, z ∈ (idealQam k).map fun p : ℂ => p / ((Real.sqrt (2 / 3 * (2 ^ k - 1)) : ℝ) : ℂ)) ∧
      meanNan (P.map fun e => ‖e‖ ^ 2) = some 1 := by
  have hc0 : (c : ℂ) ≠ 0 := by exact_mod_cast hc.ne'
  have h4 : (4 : ℝ) ≤ 2 ^ k := by
    calc (4 : ℝ) = 2 ^ 2 := by norm_num
      _ ≤ 2 ^ k := pow_le_pow_right₀ (by norm_num) hk2
  obtain ⟨g1, g2⟩ := C90_square_qam k r hk hk2 hr c hc0 known (by
    unfold EvenlyUsed idealQam at h
    rw [List.map_map] at h
    exact h)
  rw [Complex.norm_real, Real.norm_of_nonneg hc.le] at g1 g2
  have hS : 0 < c ^ 2 * (2 / 3 * ((2 : ℝ) ^ k - 1)) := by
    have : (0 : ℝ) < 2 ^ k - 1 := by linarith
    positivity
  refine ⟨_, normToS0_of g1 hS, ?_, ?_⟩
  · intro z hz
    obtain ⟨e, he, rfl⟩ := List.mem_map.1 hz
    have he' := (h.mem_iff).1 he
    obtain ⟨l, hl, hel⟩ := List.mem_flatten.1 he'
    rw [(List.mem_replicate.1 hl).2] at hel
    obtain ⟨p, hp, rfl⟩ := List.mem_map.1 hel
    refine List.mem_map.2 ⟨p, hp, ?_⟩
    rw [Real.sqrt_mul (sq_nonneg c), Real.sqrt_sq hc.le]
    push_cast
    rw [mul_div_mul_left _ _ hc0]
  · rw [meanSq_norm known _ hS (absMoment_ne_nil (n := 2) (by rw [g2]; exact hS.ne')), g2, div_self hS.ne']

theorem idealQam_even (k : Nat) : EvenlyUsed k 1 1 (idealQam k) := by
  unfold EvenlyUsed
  simp

theorem minRow_le {l : List ℝ} {m : ℝ} (h : minRow l = some m) : m ∈ l ∧ ∀ x ∈ l, m ≤ x := by
  unfold minRow at h
  obtain ⟨j, hj, h⟩ := Option.bind_eq_some_iff.1 h
  obtain ⟨m', h1, h2, _⟩ := Np.argmin_spec hj
  rw [h1] at h
  obtain rfl := Option.some.inj h
  exact ⟨List.mem_of_getElem? h1, h2⟩

theorem minRow_isSome {l : List ℝ} (h : l ≠ []) : ∃ m, minRow l = some m := by
  obtain ⟨j, hj⟩ := Np.argmin_isSome h
  obtain ⟨m, h1, _, _⟩ := Np.argmin_spec hj
  exact ⟨m, by unfold minRow; rw [hj, Option.bind_some, h1]⟩

theorem idealQam_ne (k : Nat) : idealQam k ≠ [] := by
  intro h
  have := congrArg List.length h
  unfold idealQam at this
  rw [List.length_map, length_symbolsQam] at this
  simp at this

/-- The distances to the nearest constellation point. -/
theorem nearest_exists (A : List ℂ) (hA : A ≠ []) (Q : List ℂ) :
    ∃ ds : List ℝ, Q.mapM (fun z => minRow (A.map fun p => sqDist z p)) = some ds ∧ ds.length = Q.length ∧
      ∀ (i : Nat) (d : ℝ) (z : ℂ), ds[i]? = some d → Q[i]? = some z → (∃ p ∈ A, d = ‖z - p‖ ^ 2) ∧ ∀ p ∈ A, d ≤ ‖z - p‖ ^ 2 := by
  induction Q with
  | nil => exact ⟨[], rfl, rfl, by simp⟩
  | cons z Q ih =>
    obtain ⟨ds, h1, h2, h3⟩ := ih
    obtain ⟨m, hm⟩ := minRow_isSome (l := A.map fun p => sqDist z p) (by simpa using hA)
    refine ⟨m :: ds, ?_, by simp [h2], ?_⟩
    · rw [List.mapM_cons, hm, h1]; rfl
    · intro i d w hd hw
      cases i with
      | zero =>
        simp only [List.getElem?_cons_zero, Option.some.injEq] at hd hw
        subst hd hw
        obtain ⟨g1, g2⟩ := minRow_le hm
        obtain ⟨p, hp, he⟩ := List.mem_map.1 g1
        refine ⟨⟨p, hp, by rw [← he, sqDist_eq]⟩, fun q hq => ?_⟩
        rw [← sqDist_eq]
        exact g2 _ (List.mem_map.2 ⟨q, hq, rfl⟩)
      | succ i =>
        simp only [List.getElem?_cons_succ] at hd hw
        exact h3 i d w hd hw

/-- The blind EVM in terms of the normalised signal: root mean square distance to the nearest point of the constellation of unit power. -/
theorem blindEvm_known {k : Nat} {sig Q : List ℂ} (hk : k % 2 = 0) (hk2 : 2 ≤ k) (hQ : normToS0 sig (calGamma k) = some Q) :
    ∃ ds : List ℝ, ds.length = Q.length ∧ calEvm k sig none = .ok (some (Real.sqrt (ds.sum / ds.length))) ∧
      ∀ (i : Nat) (d : ℝ) (z : ℂ), ds[i]? = some d → Q[i]? = some z →
        (∃ p ∈ idealQam k, d = ‖z - p / ((Real.sqrt (2 / 3 * (2 ^ k - 1)) : ℝ) : ℂ)‖ ^ 2) ∧
        ∀ p ∈ idealQam k, d ≤ ‖z - p / ((Real.sqrt (2 / 3 * (2 ^ k - 1)) : ℝ) : ℂ)‖ ^ 2 := by
  have h4 : (4 : ℝ) ≤ 2 ^ k := by
    calc (4 : ℝ) = 2 ^ 2 := by norm_num
      _ ≤ 2 ^ k := pow_le_pow_right₀ (by norm_num) hk2
  have hS : (0 : ℝ) < 2 / 3 * (2 ^ k - 1) := by linarith
  obtain ⟨g1, g2⟩ := C90_square_qam k 1 hk hk2 le_rfl 1 one_ne_zero (idealQam k) (by unfold idealQam; simp)
  rw [norm_one, one_pow, one_mul] at g1 g2
  have hA := normToS0_of g1 hS
  obtain ⟨s, hs, s0, rfl⟩ := normToS0_some hQ
  have hne := absMoment_ne_nil (calS0_power hs)
  obtain ⟨ds, d1, d2, d3⟩ := nearest_exists ((idealQam k).map fun p : ℂ => p / ((Real.sqrt (2 / 3 * (2 ^ k - 1)) : ℝ) : ℂ)) (by simpa using idealQam_ne k)
    (sig.map fun e : ℂ => e / ((Real.sqrt s : ℝ) : ℂ))
  refine ⟨ds, d2, ?_, ?_⟩
  · unfold calEvm blindEvm
    simp only
    rw [hA, hQ, Option.bind_some, Option.bind_some, d1, Option.bind_some, meanNan_some _ (by
      rintro rfl; rw [List.length_map] at d2; exact hne (List.length_eq_zero_iff.1 d2.symm)), Option.bind_some]
    unfold evmFrom
    rw [meanSq_norm _ _ hS (idealQam_ne k), g2, div_self hS.ne', Option.bind_some, if_neg one_ne_zero, div_one]
  · intro i d z hd hz
    obtain ⟨⟨q, hq, e⟩, h'⟩ := d3 i d z hd hz
    obtain ⟨p, hp, rfl⟩ := List.mem_map.1 hq
    exact ⟨⟨p, hp, e⟩, fun p hp => h' _ (List.mem_map.2 ⟨p, hp, rfl⟩)⟩

theorem sum_le_of_getElem {A B : List ℝ} (hl : A.length = B.length)
    (h : ∀ (i : Nat) (a b : ℝ), A[i]? = some a → B[i]? = some b → a ≤ b) : A.sum ≤ B.sum := by
  induction A generalizing B with
  | nil => cases B with
    | nil => simp
    | cons b B => simp at hl
  | cons a A ih => cases B with
    | nil => simp at hl
    | cons b B =>
      rw [List.sum_cons, List.sum_cons]
      have := h 0 a b rfl rfl
      have := ih (B := B) (by simpa using hl) (fun i x y hx hy => h (i + 1) x y (by simpa using hx) (by simpa using hy))
      linarith

/-- C153: with known symbols in which every point of the square constellation is used equally often, the blind EVM is at most the EVM
against the known symbols. -/
theorem C153_blind_le_partial (k r : Nat) (c : ℝ) (hk : k % 2 = 0) (hk2 : 2 ≤ k) (hr : 1 ≤ r) (hc : 0 < c) (sig known Q : List ℂ)
    (hl : known.length = sig.length) (hu : EvenlyUsed k r c known) (hQ : normToS0 sig (calGamma k) = some Q) :
    ∃ b e : ℝ, calEvm k sig none = .ok (some b) ∧ calEvm k sig (some known) = .ok (some e) ∧ b ≤ e := by
  obtain ⟨P, hP, hPm, hP1⟩ := evenlyUsed_norm hk hk2 hr hc hu
  obtain ⟨p, hp, hne, hlen, hpe, he⟩ := calEvm_known hl hP hQ
  rw [hP1, Option.some.injEq] at hpe
  obtain ⟨ds, d1, d2, d3⟩ := blindEvm_known hk hk2 hQ
  refine ⟨_, _, d2, he, Real.sqrt_le_sqrt ?_⟩
  rw [← hpe, div_one, d1, hlen]
  apply div_le_div_of_nonneg_right _ (by positivity)
  apply sum_le_of_getElem (by rw [List.length_zipWith, hlen, min_self, d1])
  intro i a b ha hb
  obtain ⟨w, z, hw, hz, rfl⟩ := List.getElem?_zipWith_eq_some.1 hb
  have hwm := hPm w (List.mem_of_getElem? hw)
  obtain ⟨q, hq, rfl⟩ := List.mem_map.1 hwm
  rw [sqDist_eq, norm_sub_rev]
  exact (d3 i a z ha hz).2 q hq

/-- C153: and both agree if every normalised sample is nearest to its own symbol, i.e. without symbol errors. -/
theorem C153_blind_eq_partial (k r : Nat) (c : ℝ) (hk : k % 2 = 0) (hk2 : 2 ≤ k) (hr : 1 ≤ r) (hc : 0 < c) (sig known P Q : List ℂ)
    (hl : known.length = sig.length) (hu : EvenlyUsed k r c known) (hP : normToS0 known (calGamma k) = some P)
    (hQ : normToS0 sig (calGamma k) = some Q)
    (hnear : ∀ (i : Nat) (w z : ℂ), P[i]? = some w → Q[i]? = some z →
      ∀ p ∈ idealQam k, ‖z - w‖ ≤ ‖z - p / ((Real.sqrt (2 / 3 * (2 ^ k - 1)) : ℝ) : ℂ)‖) :
    calEvm k sig none = calEvm k sig (some known) := by
  obtain ⟨P', hP', hPm, hP1⟩ := evenlyUsed_norm hk hk2 hr hc hu
  obtain rfl := Option.some.inj (hP.symm.trans hP')
  obtain ⟨p, hp, hne, hlen, hpe, he⟩ := calEvm_known hl hP hQ
  rw [hP1, Option.some.injEq] at hpe
  obtain ⟨ds, d1, d2, d3⟩ := blindEvm_known hk hk2 hQ
  have hsum : ds.sum = (List.zipWith sqDist P Q).sum := by
    apply le_antisymm
    · apply sum_le_of_getElem (by rw [List.length_zipWith, hlen, min_self, d1])
      intro i a b ha hb
      obtain ⟨w, z, hw, hz, rfl⟩ := List.getElem?_zipWith_eq_some.1 hb
      have hwm := hPm w (List.mem_of_getElem? hw)
      obtain ⟨q, hq, rfl⟩ := List.mem_map.1 hwm
      rw [sqDist_eq, norm_sub_rev]
      exact (d3 i a z ha hz).2 q hq
    · apply sum_le_of_getElem (by rw [List.length_zipWith, hlen, min_self, d1])
      intro i b a hb ha
      obtain ⟨w, z, hw, hz, rfl⟩ := List.getElem?_zipWith_eq_some.1 hb
      obtain ⟨q, hq, rfl⟩ := (d3 i a z ha hz).1
      rw [sqDist_eq, norm_sub_rev]
      exact pow_le_pow_left₀ (norm_nonneg _) (hnear i w z hw hz q hq) 2
  rw [d2, he, ← hpe, div_one, d1, hlen, hsum]

/-- The full claim: the blind EVM never exceeds the EVM against known symbols of the constellation. -/
def C153_statement : Prop :=
  ∀ (k : Nat) (sig known : List ℂ) (b e : ℝ), k % 2 = 0 → 2 ≤ k → (∀ z ∈ known, z ∈ idealQam k) →
    calEvm k sig none = .ok (some b) → calEvm k sig (some known) = .ok (some e) → b ≤ e

theorem norm_corner : ‖(⟨3, 3⟩ : ℂ)‖ ^ 2 = 18 := by
  rw [← Complex.normSq_eq_norm_sq, Complex.normSq_mk]; norm_num

theorem norm_corner4 : ‖(⟨3, 3⟩ : ℂ)‖ ^ 4 = 324 := by
  rw [show 4 = 2 * 2 from rfl, pow_mul, norm_corner]; norm_num

/-- A noiseless block of corner symbols is taken for a noisy signal of less power: `S0` is `18/sqrt(0.68)`. -/
theorem corner_s0 : calS0 [(⟨3, 3⟩ : ℂ)] (calGamma 4) = some (18 / Real.sqrt (17 / 25)) := by
  have hg : calGamma 4 = 33 / 25 := by
    rw [(C90_gamma_square 4 rfl (by norm_num)).1]; norm_num
  have m2 : absMoment 2 [(⟨3, 3⟩ : ℂ)] = 18 := by unfold absMoment; simp [norm_corner]
  have m4 : absMoment 4 [(⟨3, 3⟩ : ℂ)] = 324 := by unfold absMoment; simp [norm_corner4]
  have hq : 0 < Real.sqrt (17 / 25) := Real.sqrt_pos.2 (by norm_num)
  have hq2 : Real.sqrt (17 / 25) ^ 2 = 17 / 25 := Real.sq_sqrt (by norm_num)
  have hrad : ((2 : ℝ) - 33 / 25) * (2 * 18 ^ 4 / 324 ^ 2 - 18 ^ 2 / 324) = 17 / 25 := by norm_num
  unfold calS0 momentS
  simp only [m2, m4, hg]
  rw [hrad, if_neg (by norm_num), Option.map_some]
  obtain ⟨x, hx⟩ : ∃ x, x = Real.sqrt (17 / 25) := ⟨_, rfl⟩
  simp only [← hx] at hq hq2 ⊢
  rw [if_neg (by norm_num; intro h0; linarith), Option.some.injEq]
  have e1 : (1 : ℝ) - 2 * 18 ^ 2 / 324 - x = -(1 + x) := by norm_num; ring
  have e2 : (33 / 25 * 18 ^ 2 / 324 - 1 : ℝ) = (1 + x) * (1 - x) := by
    rw [show (1 + x) * (1 - x) = 1 - x ^ 2 by ring, hq2]; norm_num
  have hx1 : (1 + x) ≠ 0 := by linarith
  rw [e1, e2, div_neg, mul_div_cancel_left₀ _ hx1]
  congr 1
  ring

theorem corner_ideal : (⟨3, 3⟩ : ℂ) ∈ idealQam 4 := by
  unfold idealQam
  refine List.mem_map.2 ⟨(3, 3), by decide, by norm_num⟩

/-- C153 as stated does not hold: for a block of outer symbols of 16-QAM the normalisation takes the missing amplitude variation for noise, so
that an undistorted signal has EVM zero against the known symbols but not the blind EVM. -/
theorem C153_false : ¬ C153_statement := by
  intro h
  have hq : 0 < Real.sqrt (17 / 25) := Real.sqrt_pos.2 (by norm_num)
  have hq2 : Real.sqrt (17 / 25) ^ 2 = 17 / 25 := Real.sq_sqrt (by norm_num)
  have hs : 0 < 18 / Real.sqrt (17 / 25) := by positivity
  have hQ := normToS0_of corner_s0 hs
  obtain ⟨ds, d1, d2, d3⟩ := blindEvm_known (k := 4) rfl (by norm_num) hQ
  have he : calEvm 4 [(⟨3, 3⟩ : ℂ)] (some [⟨3, 3⟩]) = .ok (some 0) :=
    (C153_zero 4 _ _ _ _ rfl hQ hQ).2 ⟨1, one_pos, by simp⟩
  have hb := h 4 _ _ _ 0 rfl (by norm_num) (by simpa using corner_ideal) d2 he
  obtain ⟨d, rfl⟩ : ∃ d, ds = [d] := List.length_eq_one_iff.1 (by rw [d1]; rfl)
  obtain ⟨⟨p, hp, hd⟩, _⟩ := d3 0 d _ rfl rfl
  have hd0 : 0 ≤ d := by rw [hd]; positivity
  have hz : d = 0 := by
    have : Real.sqrt d ≤ 0 := by simpa using hb
    exact (Real.sqrt_eq_zero hd0).1 (le_antisymm this (Real.sqrt_nonneg _))
  rw [hz] at hd
  have heq := sub_eq_zero.1 (norm_eq_zero.1 (pow_eq_zero_iff two_ne_zero |>.1 hd.symm))
  have hnorm := congrArg (fun z : ℂ => ‖z‖ ^ 2) heq
  simp only [norm_div, Complex.norm_real, Real.norm_of_nonneg (Real.sqrt_nonneg _), div_pow, norm_corner, Real.sq_sqrt hs.le] at hnorm
  rw [Real.sq_sqrt (by norm_num)] at hnorm
  unfold idealQam at hp
  obtain ⟨w, _, rfl⟩ := List.mem_map.1 hp
  have hn : ‖(⟨(w.1 : ℝ), (w.2 : ℝ)⟩ : ℂ)‖ ^ 2 = ((w.1 * w.1 + w.2 * w.2 : Int) : ℝ) := by
    rw [← Complex.normSq_eq_norm_sq, Complex.normSq_mk]; push_cast; ring
  rw [hn] at hnorm
  obtain ⟨n, hn'⟩ : ∃ n : Int, n = w.1 * w.1 + w.2 * w.2 := ⟨_, rfl⟩
  rw [← hn', div_div_cancel₀ (by norm_num)] at hnorm
  rw [hnorm] at hq2
  have h68 : (n : ℝ) ^ 2 = 68 := by
    norm_num at hq2
    linarith
  have h68' : n ^ 2 = 68 := by exact_mod_cast h68
  have hlt : n < 9 := by nlinarith
  have hgt : -9 < n := by nlinarith
  interval_cases n <;> omega

/-- A noisy QPSK signal to which `C153_snr` applies, with a difference of the noise power: the EVM is `1/sqrt(SNR)`. -/
example : ∃ sig known : List ℂ, ∃ snr : ℝ, calSnrQam sig (calGamma 2) = some snr ∧ calEvm 2 sig (some known) = .ok (some (1 / Real.sqrt snr)) := by
  have hg : calGamma 2 = 1 := by
    rw [(C90_gamma_square 2 rfl (by norm_num)).1]; norm_num
  obtain ⟨x, hx⟩ : ∃ x, x = Real.sqrt (7 / 2) := ⟨_, rfl⟩
  obtain ⟨y, hy⟩ : ∃ y, y = Real.sqrt (1 / 8) := ⟨_, rfl⟩
  have hx0 : x * x = 7 / 2 := by rw [hx]; exact Real.mul_self_sqrt (by norm_num)
  have hy0 : y * y = 1 / 8 := by rw [hy]; exact Real.mul_self_sqrt (by norm_num)
  have hs : ‖(⟨x, 0⟩ : ℂ)‖ ^ 2 = 7 / 2 := by rw [← Complex.normSq_eq_norm_sq, Complex.normSq_mk, hx0]; norm_num
  have hs4 : ‖(⟨x, 0⟩ : ℂ)‖ ^ 4 = (7 / 2) ^ 2 := by rw [show 4 = 2 * 2 from rfl, pow_mul, hs]
  have hu : ‖(⟨x / 2, y⟩ : ℂ)‖ ^ 2 = 1 := by rw [← Complex.normSq_eq_norm_sq, Complex.normSq_mk]; nlinarith
  have hu4 : ‖(⟨x / 2, y⟩ : ℂ)‖ ^ 4 = 1 := by rw [show 4 = 2 * 2 from rfl, pow_mul, hu, one_pow]
  have hd : ‖(⟨x / 2, y⟩ : ℂ) - ⟨x, 0⟩‖ ^ 2 = 1 := by
    rw [← Complex.normSq_eq_norm_sq, Complex.normSq_apply, Complex.sub_re, Complex.sub_im]; simp only; nlinarith
  refine ⟨List.replicate 3 0 ++ List.replicate 4 ⟨x, 0⟩, List.replicate 7 ⟨x / 2, y⟩, ?_⟩
  refine (C153_snr 2 _ _ 1 1 (by simp) hg.ge (by rw [hg]; norm_num) one_pos one_pos ?_ ?_ ?_ ?_).2 ?_
  · unfold absMoment; simp only [List.map_replicate, hu, List.sum_replicate]; norm_num
  · unfold absMoment; simp only [List.map_replicate, hu4, hg, List.sum_replicate]; norm_num
  · unfold absMoment; simp only [List.map_append, List.map_replicate, hs, List.sum_append, List.sum_replicate]; norm_num
  · unfold absMoment; simp only [List.map_append, List.map_replicate, hs4, hg, List.sum_append, List.sum_replicate]; norm_num
  · unfold absMoment
    simp only [List.replicate, List.cons_append, List.nil_append, List.zipWith_cons_cons, List.zipWith_nil_left, List.map_cons, List.map_nil,
      hd, sub_zero, hu, List.sum_cons, List.sum_nil, List.length_cons, List.length_nil]
    norm_num

/-- Undistorted 16-QAM in which every symbol is used: both values agree, and are zero. -/
example : calEvm 4 ((idealQam 4).map fun e => ((5 : ℝ) : ℂ) * e) none = .ok (some 0) := by
  obtain ⟨P, hP, _, _⟩ := evenlyUsed_norm (k := 4) rfl (by norm_num) le_rfl one_pos (idealQam_even 4)
  rw [C153_scale_blind 4 _ 5 (by norm_num)]
  rw [C153_blind_eq_partial 4 1 1 rfl (by norm_num) le_rfl one_pos _ _ P P rfl (idealQam_even 4) hP hP]
  · exact (C153_zero 4 _ _ P P rfl hP hP).2 ⟨1, one_pos, by simp⟩
  · intro i w z hw hz p _
    rw [hw] at hz
    obtain rfl := Option.some.inj hz
    rw [sub_self, norm_zero]
    positivity

example : ∃ b e : ℝ, calEvm 4 (idealQam 4) none = .ok (some b) ∧ calEvm 4 (idealQam 4) (some (idealQam 4)) = .ok (some e) ∧ b ≤ e := by
  obtain ⟨P, hP, _, _⟩ := evenlyUsed_norm (k := 4) rfl (by norm_num) le_rfl one_pos (idealQam_even 4)
  exact C153_blind_le_partial 4 1 1 rfl (by norm_num) le_rfl one_pos _ _ P rfl (idealQam_even 4) hP

end Qampy
