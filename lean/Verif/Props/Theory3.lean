import Verif.Props.Theory2

/-!
Symbol error rates of PSK and 4-PAM (C116, C117), probabilities of shaped symbols (C119).
-/

namespace Qampy

open MeasureTheory ProbabilityTheory

/-! ### Half planes -/

theorem stdN2_halfplane {al be : ℝ} (h : al ^ 2 + be ^ 2 = 1) : stdN2.map (fun z : ℝ × ℝ => al * z.1 + be * z.2) = stdN := by
  have hX : stdN2.map (fun z : ℝ × ℝ => al * z.1) = gaussianReal 0 ⟨al ^ 2, sq_nonneg _⟩ := by
    have h1 : (fun z : ℝ × ℝ => al * z.1) = (al * ·) ∘ Prod.fst := rfl
    rw [h1, ← Measure.map_map (by fun_prop) measurable_fst, (measurePreserving_fst (μ := stdN) (ν := stdN)).map_eq, gaussianReal_map_const_mul, mul_zero, mul_one]
    rfl
  have hY : stdN2.map (fun z : ℝ × ℝ => be * z.2) = gaussianReal 0 ⟨be ^ 2, sq_nonneg _⟩ := by
    have h1 : (fun z : ℝ × ℝ => be * z.2) = (be * ·) ∘ Prod.snd := rfl
    rw [h1, ← Measure.map_map (by fun_prop) measurable_snd, (measurePreserving_snd (μ := stdN) (ν := stdN)).map_eq, gaussianReal_map_const_mul, mul_zero, mul_one]
    rfl
  have hind : IndepFun (fun z : ℝ × ℝ => al * z.1) (fun z : ℝ × ℝ => be * z.2) stdN2 := indepFun_prod (X := fun u => al * u) (Y := fun u => be * u) (by fun_prop) (by fun_prop)
  have := gaussianReal_add_gaussianReal_of_indepFun hind hX hY
  rw [add_zero] at this
  have hv : (⟨al ^ 2, sq_nonneg _⟩ + ⟨be ^ 2, sq_nonneg _⟩ : NNReal) = 1 := by
    apply NNReal.eq
    exact h
  rw [hv] at this
  exact this

theorem stdN2_gt {al be : ℝ} (h : al ^ 2 + be ^ 2 = 1) (y : ℝ) : stdN2.real {z | y < al * z.1 + be * z.2} = qFunction y := by
  rw [← stdN_Ioi, ← stdN2_halfplane h, map_measureReal_apply (by fun_prop) measurableSet_Ioi]
  rfl

theorem stdN2_ge {al be : ℝ} (h : al ^ 2 + be ^ 2 = 1) (y : ℝ) : stdN2.real {z | y ≤ al * z.1 + be * z.2} = qFunction y := by
  rw [← stdN_Ici, ← stdN2_halfplane h, map_measureReal_apply (by fun_prop) measurableSet_Ici]
  rfl

/-! ### Symbol error rate as a sum over the symbols -/

theorem calSer_ofFn {n : Nat} {coded : List ℂ} (hnd : coded.Nodup) (rx tx : Fin n → ℂ) (l : Fin n → Nat) (hl : ∀ k, coded[l k]? = some (tx k)) :
    calSer coded (List.ofFn rx) (List.ofFn tx) = some ((∑ k, if decIdx coded (rx k) ≠ l k then (1 : ℚ) else 0) / n) := by
  by_cases hn : n = 0
  · subst hn
    simp [calSer, makeDecision]
  have hne : coded ≠ [] := by
    intro h
    have := hl ⟨0, by omega⟩
    rw [h] at this
    simp at this
  choose r hr using fun k => decIdx_spec hne (rx k)
  unfold calSer makeDecision
  rw [mapM_ofFn n rx _ r (fun k => (hr k).1), Option.map_some, zip_ofFn, countP_ofFn, List.length_ofFn]
  push_cast
  congr 2
  apply Finset.sum_congr rfl
  intro k _
  have hiff : (r k).1 - tx k ≠ 0 ↔ decIdx coded (rx k) ≠ l k := by
    rw [not_iff_not, sub_eq_zero]
    have h1 := (hr k).2.2
    have h2 := hl k
    constructor
    · intro he
      rw [he] at h1
      obtain ⟨p1, p2⟩ := List.getElem?_eq_some_iff.1 h1
      obtain ⟨p3, p4⟩ := List.getElem?_eq_some_iff.1 h2
      exact (List.Nodup.getElem_inj_iff hnd).1 (p2.trans p4.symm)
    · intro he
      rw [he, h2] at h1
      exact (Option.some.inj h1).symm
  by_cases hc : decIdx coded (rx k) ≠ l k
  · rw [if_pos hc, if_pos (by rw [decide_eq_true_eq]; exact hiff.2 hc)]
  · rw [if_neg hc, if_neg (by rw [decide_eq_true_eq]; exact fun h => hc (hiff.1 h))]

/-! ### PSK -/

theorem psk_dist {s w : ℂ} (hs : ‖s‖ = 1) (b : ℝ) :
    ‖s + w - s * Complex.exp (Complex.I * ((2 * b : ℝ) : ℂ))‖ ^ 2 = ‖w‖ ^ 2 + 4 * Real.sin b * ((1 + (w.re * s.re + w.im * s.im)) * Real.sin b - (w.im * s.re - w.re * s.im) * Real.cos b) := by
  have h1 : s.re * s.re + s.im * s.im = 1 := by
    rw [← Complex.normSq_apply, Complex.normSq_eq_norm_sq, hs]; norm_num
  have he : Complex.exp (Complex.I * ((2 * b : ℝ) : ℂ)) = ⟨1 - 2 * Real.sin b ^ 2, 2 * Real.sin b * Real.cos b⟩ := by
    rw [mul_comm, Complex.exp_mul_I, ← Complex.ofReal_cos, ← Complex.ofReal_sin]
    have hc : Real.cos (2 * b) = 1 - 2 * Real.sin b ^ 2 := by rw [Real.cos_two_mul]; linarith [Real.sin_sq_add_cos_sq b]
    apply Complex.ext
    · rw [Complex.add_re, Complex.re_ofReal_mul, Complex.I_re, mul_zero, add_zero, Complex.ofReal_re, hc]
    · rw [Complex.add_im, Complex.im_ofReal_mul, Complex.I_im, mul_one, Complex.ofReal_im, zero_add, Real.sin_two_mul]
  have h2 := Real.sin_sq_add_cos_sq b
  rw [he, ← Complex.normSq_eq_norm_sq, ← Complex.normSq_eq_norm_sq, Complex.normSq_apply, Complex.normSq_apply]
  simp only [Complex.sub_re, Complex.add_re, Complex.sub_im, Complex.add_im, Complex.mul_re, Complex.mul_im]
  obtain ⟨S, hS⟩ : ∃ S, S = Real.sin b := ⟨_, rfl⟩
  obtain ⟨C, hC⟩ : ∃ C, C = Real.cos b := ⟨_, rfl⟩
  rw [← hS, ← hC] at h2 ⊢
  linear_combination (4 * S ^ 4 + 4 * S ^ 2 * C ^ 2) * h1 + (4 * S ^ 2) * h2

/-- The PSK points as seen from one of them. -/
theorem psk_points {k : Nat} {s : ℂ} (hs : s ∈ pskCodedSymbols k) :
    ‖s‖ = 1 ∧ (∀ m : Nat, s * Complex.exp (Complex.I * ((2 * (m * (Real.pi / 2 ^ k)) : ℝ) : ℂ)) ∈ pskCodedSymbols k) ∧
      ∀ s' ∈ pskCodedSymbols k, s' ≠ s → ∃ m : Nat, 1 ≤ m ∧ m + 1 ≤ 2 ^ k ∧ s' = s * Complex.exp (Complex.I * ((2 * (m * (Real.pi / 2 ^ k)) : ℝ) : ℂ)) := by
  have hmem : ∀ x, x ∈ pskCodedSymbols k ↔ x ∈ symbolsPsk k := fun x => (codedSymbols_perm (IsPerm.psk k) _ (length_symbolsPsk k)).mem_iff
  have hMpos : 0 < 2 ^ k := by positivity
  obtain ⟨f, hf⟩ : ∃ f : ℂ, f = (if k = 2 then Complex.exp (Complex.I * (Real.pi / (2 ^ k : ℝ) : ℝ)) else 1) := ⟨_, rfl⟩
  obtain ⟨ze, hze⟩ : ∃ ze : ℂ, ze = Complex.exp (2 * Real.pi * Complex.I / ((2 ^ k : Nat) : ℂ)) := ⟨_, rfl⟩
  have hpt : ∀ i : Nat, i < 2 ^ k → (symbolsPsk k)[i]? = some (f * ze ^ i) := by
    intro i hi
    rw [symbolsPsk_getElem? k i hi, hf, hze]
  have hM1 : ze ^ (2 ^ k) = 1 := by rw [hze]; exact (psk_prim k).pow_eq_one
  have hpow : ∀ m : Nat, Complex.exp (Complex.I * ((2 * (m * (Real.pi / 2 ^ k)) : ℝ) : ℂ)) = ze ^ m := by
    intro m
    rw [hze, ← Complex.exp_nat_mul]
    congr 1
    push_cast
    ring
  have hmem2 : ∀ x, x ∈ symbolsPsk k ↔ ∃ i < 2 ^ k, x = f * ze ^ i := by
    intro x
    constructor
    · intro hx
      obtain ⟨i, hi, he⟩ := List.mem_iff_getElem.1 hx
      rw [length_symbolsPsk] at hi
      refine ⟨i, hi, ?_⟩
      have := hpt i hi
      rw [List.getElem?_eq_getElem (by rw [length_symbolsPsk]; exact hi), Option.some.injEq] at this
      rw [← he, this]
    · rintro ⟨i, hi, rfl⟩
      exact List.mem_of_getElem? (hpt i hi)
  obtain ⟨i, hi, rfl⟩ := (hmem2 s).1 ((hmem s).1 hs)
  refine ⟨?_, ?_, ?_⟩
  · have h1 : ‖f‖ = 1 := by
      rw [hf]
      split_ifs
      · rw [mul_comm, Complex.norm_exp_ofReal_mul_I]
      · exact norm_one
    have h2 : ‖ze‖ = 1 := by
      have h3 : ‖ze‖ ^ (2 ^ k) = 1 := by rw [← norm_pow, hM1, norm_one]
      exact (pow_eq_one_iff_of_nonneg (norm_nonneg _) hMpos.ne').1 h3
    rw [norm_mul, norm_pow, h1, h2, one_pow, mul_one]
  · intro m
    rw [hmem, hmem2, hpow]
    refine ⟨(i + m) % 2 ^ k, Nat.mod_lt _ hMpos, ?_⟩
    rw [mul_assoc, ← pow_add]
    congr 1
    conv_lhs => rw [← Nat.div_add_mod (i + m) (2 ^ k), pow_add, pow_mul, hM1, one_pow, one_mul]
  · intro s' hs' hne
    obtain ⟨i', hi', rfl⟩ := (hmem2 s').1 ((hmem s').1 hs')
    have hii : i' ≠ i := fun h => hne (by rw [h])
    rcases Nat.lt_or_gt_of_ne hii with h | h
    · refine ⟨i' + 2 ^ k - i, by omega, by omega, ?_⟩
      rw [hpow, mul_assoc, ← pow_add, show i + (i' + 2 ^ k - i) = i' + 2 ^ k by omega, pow_add, hM1, mul_one]
    · refine ⟨i' - i, by omega, by omega, ?_⟩
      rw [hpow, mul_assoc, ← pow_add, show i + (i' - i) = i' by omega]

/-- Angles of the other points. -/
theorem psk_angles {k m : Nat} (hk : 1 ≤ k) (h1 : 1 ≤ m) (h2 : m + 1 ≤ 2 ^ k) :
    0 < Real.sin (Real.pi / 2 ^ k) ∧ 0 ≤ Real.cos (Real.pi / 2 ^ k) ∧ Real.sin (Real.pi / 2 ^ k) ≤ Real.sin (m * (Real.pi / 2 ^ k)) ∧ |Real.cos (m * (Real.pi / 2 ^ k))| ≤ Real.cos (Real.pi / 2 ^ k) := by
  have hM : (2 : ℝ) ≤ 2 ^ k := by
    calc (2 : ℝ) = 2 ^ 1 := (pow_one _).symm
      _ ≤ 2 ^ k := pow_le_pow_right₀ (by norm_num) hk
  have hpi := Real.pi_pos
  have ha : 0 < Real.pi / 2 ^ k := by positivity
  have ha2 : Real.pi / 2 ^ k ≤ Real.pi / 2 := by gcongr
  have hmul : (2 : ℝ) ^ k * (Real.pi / 2 ^ k) = Real.pi := by field_simp
  have hm1 : (1 : ℝ) ≤ m := by exact_mod_cast h1
  have hm2 : (m : ℝ) + 1 ≤ 2 ^ k := by exact_mod_cast h2
  obtain ⟨a, hadef⟩ : ∃ a, a = Real.pi / 2 ^ k := ⟨_, rfl⟩
  rw [← hadef] at ha ha2 hmul ⊢
  have hlo : a ≤ m * a := by nlinarith
  have hhi : m * a ≤ Real.pi - a := by nlinarith
  have hs : 0 < Real.sin a := Real.sin_pos_of_pos_of_lt_pi ha (by linarith)
  have hc : 0 ≤ Real.cos a := Real.cos_nonneg_of_neg_pi_div_two_le_of_le (by linarith) ha2
  have habs : |Real.cos (m * a)| ≤ Real.cos a := by
    rw [abs_le]
    constructor
    · rw [← Real.cos_pi_sub]
      exact Real.cos_le_cos_of_nonneg_of_le_pi (by nlinarith) (by linarith) hhi
    · exact Real.cos_le_cos_of_nonneg_of_le_pi ha.le (by linarith) hlo
  refine ⟨hs, hc, ?_, habs⟩
  have hsm : 0 ≤ Real.sin (m * a) := Real.sin_nonneg_of_nonneg_of_le_pi (by linarith) (by linarith)
  have h3 := Real.sin_sq_add_cos_sq a
  have h4 := Real.sin_sq_add_cos_sq (m * a)
  have h5 : Real.cos (m * a) ^ 2 ≤ Real.cos a ^ 2 := by
    rw [← sq_abs]
    exact pow_le_pow_left₀ (abs_nonneg _) habs 2
  exact (sq_le_sq₀ hs.le hsm).1 (by linarith)

/-- Probability that the decision on one PSK symbol is wrong. -/
theorem psk_symbol {k : Nat} (hk : 1 ≤ k) {s : ℂ} {l : Nat} (hl : (pskCodedSymbols k)[l]? = some s) {t : ℝ} (ht : 0 < t) :
    let E : Set (ℝ × ℝ) := {z | decIdx (pskCodedSymbols k) (s + ⟨t * z.1, t * z.2⟩) ≠ l}
    MeasurableSet E ∧ 2 * qFunction (Real.sin (Real.pi / 2 ^ k) / t) - qFunction (1 / t) ≤ stdN2.real E ∧ stdN2.real E ≤ 2 * qFunction (Real.sin (Real.pi / 2 ^ k) / t) ∧
      (k = 1 → stdN2.real E = qFunction (1 / t)) := by
  intro E
  have hsmem := List.mem_of_getElem? hl
  have hne : pskCodedSymbols k ≠ [] := by
    intro h
    rw [h] at hsmem
    simp at hsmem
  obtain ⟨hs1, hpts, hother⟩ := psk_points hsmem
  have hM2 : 2 ≤ 2 ^ k := by
    calc 2 = 2 ^ 1 := rfl
      _ ≤ 2 ^ k := Nat.pow_le_pow_right (by norm_num) hk
  obtain ⟨hsin, hcos, -, -⟩ := psk_angles hk (le_refl 1) hM2
  have hp : s.re ^ 2 + s.im ^ 2 = 1 := by
    have : s.re * s.re + s.im * s.im = 1 := by
      rw [← Complex.normSq_apply, Complex.normSq_eq_norm_sq, hs1]; norm_num
    linarith
  obtain ⟨S, hS⟩ : ∃ S, S = Real.sin (Real.pi / 2 ^ k) := ⟨_, rfl⟩
  obtain ⟨C, hC⟩ : ∃ C, C = Real.cos (Real.pi / 2 ^ k) := ⟨_, rfl⟩
  have hSC : S ^ 2 + C ^ 2 = 1 := by rw [hS, hC]; exact Real.sin_sq_add_cos_sq _
  have hd1 : (-s.im * C - s.re * S) ^ 2 + (s.re * C - s.im * S) ^ 2 = 1 := by linear_combination (S ^ 2 + C ^ 2) * hp + hSC
  have hd2 : (s.im * C - s.re * S) ^ 2 + (-s.re * C - s.im * S) ^ 2 = 1 := by linear_combination (S ^ 2 + C ^ 2) * hp + hSC
  have hd3 : (-s.re) ^ 2 + (-s.im) ^ 2 = 1 := by linear_combination hp
  rw [← hS] at hsin
  rw [← hC] at hcos
  -- distances to the neighbours
  have hdist : ∀ (z : ℝ × ℝ) (b : ℝ), ‖s + (⟨t * z.1, t * z.2⟩ : ℂ) - s * Complex.exp (Complex.I * ((2 * b : ℝ) : ℂ))‖ ^ 2 = ‖s + (⟨t * z.1, t * z.2⟩ : ℂ) - s‖ ^ 2 +
      4 * Real.sin b * ((1 + t * (z.1 * s.re + z.2 * s.im)) * Real.sin b - t * (z.2 * s.re - z.1 * s.im) * Real.cos b) := by
    intro z b
    rw [psk_dist hs1, add_sub_cancel_left]
    ring
  have hmeas : MeasurableSet E := by
    have h1 : Measurable fun z : ℝ × ℝ => s + (⟨t * z.1, t * z.2⟩ : ℂ) := by
      apply Measurable.const_add
      have : (fun z : ℝ × ℝ => (⟨t * z.1, t * z.2⟩ : ℂ)) = fun z : ℝ × ℝ => ((t * z.1 : ℝ) : ℂ) + ((t * z.2 : ℝ) : ℂ) * Complex.I := by
        funext z
        apply Complex.ext <;> simp
      rw [this]
      fun_prop
    exact ((measurable_decIdx hne).comp h1) (measurableSet_singleton l).compl
  have hcloser : ∀ (z : ℝ × ℝ), ∀ s' ∈ pskCodedSymbols k, ‖s + (⟨t * z.1, t * z.2⟩ : ℂ) - s'‖ ^ 2 < ‖s + (⟨t * z.1, t * z.2⟩ : ℂ) - s‖ ^ 2 → z ∈ E := by
    intro z s' hs' hlt hz
    obtain ⟨s0, h1, h2, -⟩ := (decIdx_eq_iff hne _ _).1 hz
    rw [hl, Option.some.injEq] at h1
    subst h1
    have := h2 s' hs'
    rw [← sq_le_sq₀ (norm_nonneg _) (norm_nonneg _)] at this
    linarith
  -- wrong decision in the two half planes
  have hA : ∀ z : ℝ × ℝ, S / t < (-s.im * C - s.re * S) * z.1 + (s.re * C - s.im * S) * z.2 → z ∈ E := by
    intro z hz
    rw [div_lt_iff₀ ht] at hz
    apply hcloser z _ (hpts 1)
    rw [hdist, Nat.cast_one, one_mul, ← hS, ← hC]
    nlinarith [mul_pos hsin (sub_pos.2 hz)]
  have hB : ∀ z : ℝ × ℝ, S / t < (s.im * C - s.re * S) * z.1 + (-s.re * C - s.im * S) * z.2 → z ∈ E := by
    intro z hz
    rw [div_lt_iff₀ ht] at hz
    apply hcloser z _ (hpts (2 ^ k - 1))
    have hang : ((2 ^ k - 1 : Nat) : ℝ) * (Real.pi / 2 ^ k) = Real.pi - Real.pi / 2 ^ k := by
      rw [Nat.cast_sub (by omega)]
      push_cast
      field_simp
    rw [hdist, hang, Real.sin_pi_sub, Real.cos_pi_sub, ← hS, ← hC]
    nlinarith [mul_pos hsin (sub_pos.2 hz)]
  -- right decision elsewhere
  have hE : ∀ z ∈ E, S / t ≤ (-s.im * C - s.re * S) * z.1 + (s.re * C - s.im * S) * z.2 ∨ S / t ≤ (s.im * C - s.re * S) * z.1 + (-s.re * C - s.im * S) * z.2 := by
    intro z hz
    by_contra hcon
    push Not at hcon
    obtain ⟨c1, c2⟩ := hcon
    rw [lt_div_iff₀ ht] at c1 c2
    obtain ⟨X, hX⟩ : ∃ X, X = 1 + t * (z.1 * s.re + z.2 * s.im) := ⟨_, rfl⟩
    obtain ⟨Y, hY⟩ : ∃ Y, Y = t * (z.2 * s.re - z.1 * s.im) := ⟨_, rfl⟩
    have hYC : |Y| * C < X * S := by
      have e : |Y| * C = |Y * C| := by rw [abs_mul, abs_of_nonneg hcos]
      rw [e, abs_lt, hX, hY]
      constructor <;> nlinarith
    have hXpos : 0 < X := by
      have : 0 ≤ |Y| * C := by positivity
      by_contra hx
      push Not at hx
      nlinarith
    apply hz
    rw [decIdx_eq_iff hne]
    have hlt : ∀ s' ∈ pskCodedSymbols k, s' ≠ s → ‖s + (⟨t * z.1, t * z.2⟩ : ℂ) - s‖ < ‖s + (⟨t * z.1, t * z.2⟩ : ℂ) - s'‖ := by
      intro s' hs' hne'
      obtain ⟨m, m1, m2, rfl⟩ := hother s' hs' hne'
      obtain ⟨-, -, g1, g2⟩ := psk_angles hk m1 m2
      rw [← hS] at g1
      rw [← hC] at g2
      rw [← sq_lt_sq₀ (norm_nonneg _) (norm_nonneg _), hdist, ← hX, ← hY]
      obtain ⟨Sm, hSm⟩ : ∃ Sm, Sm = Real.sin (m * (Real.pi / 2 ^ k)) := ⟨_, rfl⟩
      obtain ⟨Cm, hCm⟩ : ∃ Cm, Cm = Real.cos (m * (Real.pi / 2 ^ k)) := ⟨_, rfl⟩
      rw [← hSm] at g1 ⊢
      rw [← hCm] at g2 ⊢
      have h1 : Y * Cm ≤ |Y| * C := (le_abs_self _).trans (by rw [abs_mul]; exact mul_le_mul_of_nonneg_left g2 (abs_nonneg _))
      have h2 : X * S ≤ X * Sm := mul_le_mul_of_nonneg_left g1 hXpos.le
      have h3 : 0 < X * Sm - Y * Cm := by linarith
      have h4 : 0 < Sm := lt_of_lt_of_le hsin g1
      nlinarith [mul_pos h4 h3]
    refine ⟨s, hl, ?_, ?_⟩
    · intro s' hs'
      by_cases h : s' = s
      · rw [h]
      · exact (hlt s' hs' h).le
    · intro i hi s' hs'
      apply hlt s' (List.mem_of_getElem? hs')
      intro h
      rw [h] at hs'
      have hnd := nodup_pskCoded k
      obtain ⟨p1, p2⟩ := List.getElem?_eq_some_iff.1 hs'
      obtain ⟨p3, p4⟩ := List.getElem?_eq_some_iff.1 hl
      have := (List.Nodup.getElem_inj_iff hnd).1 (p2.trans p4.symm)
      omega
  have hup : stdN2.real E ≤ 2 * qFunction (S / t) := by
    calc stdN2.real E ≤ stdN2.real ({z | S / t ≤ (-s.im * C - s.re * S) * z.1 + (s.re * C - s.im * S) * z.2} ∪ {z | S / t ≤ (s.im * C - s.re * S) * z.1 + (-s.re * C - s.im * S) * z.2}) :=
          measureReal_mono hE
      _ ≤ _ := measureReal_union_le _ _
      _ = _ := by rw [stdN2_ge hd1, stdN2_ge hd2]; ring
  have hlo : 2 * qFunction (S / t) - qFunction (1 / t) ≤ stdN2.real E := by
    have hmB : MeasurableSet {z : ℝ × ℝ | S / t < (s.im * C - s.re * S) * z.1 + (-s.re * C - s.im * S) * z.2} := measurableSet_lt (by fun_prop) (by fun_prop)
    have hu := measureReal_union_add_inter (μ := stdN2) (s := {z : ℝ × ℝ | S / t < (-s.im * C - s.re * S) * z.1 + (s.re * C - s.im * S) * z.2}) hmB
    rw [stdN2_gt hd1, stdN2_gt hd2] at hu
    have h1 : stdN2.real ({z : ℝ × ℝ | S / t < (-s.im * C - s.re * S) * z.1 + (s.re * C - s.im * S) * z.2} ∪ {z : ℝ × ℝ | S / t < (s.im * C - s.re * S) * z.1 + (-s.re * C - s.im * S) * z.2}) ≤ stdN2.real E :=
      measureReal_mono fun z hz => hz.elim (hA z) (hB z)
    have h2 : stdN2.real ({z : ℝ × ℝ | S / t < (-s.im * C - s.re * S) * z.1 + (s.re * C - s.im * S) * z.2} ∩ {z : ℝ × ℝ | S / t < (s.im * C - s.re * S) * z.1 + (-s.re * C - s.im * S) * z.2}) ≤ qFunction (1 / t) := by
      rw [← stdN2_gt hd3]
      refine measureReal_mono (fun z hz => ?_)
      obtain ⟨z1, z2⟩ := hz
      have z1' : S / t < (-s.im * C - s.re * S) * z.1 + (s.re * C - s.im * S) * z.2 := z1
      have z2' : S / t < (s.im * C - s.re * S) * z.1 + (-s.re * C - s.im * S) * z.2 := z2
      show 1 / t < -s.re * z.1 + -s.im * z.2
      rw [div_lt_iff₀ ht] at z1' z2' ⊢
      nlinarith
    linarith
  rw [← hS]
  refine ⟨hmeas, hlo, hup, ?_⟩
  rintro rfl
  have hS1 : S = 1 := by rw [hS, pow_one, Real.sin_pi_div_two]
  have hC0 : C = 0 := by rw [hC, pow_one, Real.cos_pi_div_two]
  rw [hS1] at hlo
  apply le_antisymm _ (by linarith)
  rw [← stdN2_ge hd3]
  refine measureReal_mono (fun z hz => ?_)
  have := hE z hz
  rw [hS1, hC0] at this
  show 1 / t ≤ -s.re * z.1 + -s.im * z.2
  rcases this with h | h <;> linarith

/-- C117: the average symbol error rate over all noise realisations of a PSK signal after `change_snr` is at most the value of the formula, and at least the formula minus a term that does not depend on
the order. For two points (BPSK) it is half of the formula. Any sequence of symbols. -/
theorem C117_psk_partial {k n : Nat} (hk : 1 ≤ k) (hn : 0 < n) (tx : Fin n → ℂ) (htx : ∀ m, tx m ∈ pskCodedSymbols k) (snrDb fb : ℝ) (hfb : 0 < fb) :
    let rx : (Fin n → ℝ × ℝ) → List ℂ := fun w => (changeSnr [List.ofFn tx] snrDb fb fb [List.ofFn fun k => (w k).1] [List.ofFn fun k => (w k).2]).getD 0 []
    let avg := ∫ w, (((calSer (pskCodedSymbols k) (rx w) (List.ofFn tx)).getD 0 : ℚ) : ℝ) ∂noiseLaw n
    (∀ w, ∃ q, calSer (pskCodedSymbols k) (rx w) (List.ofFn tx) = some q) ∧
    serPsk (dB2lin snrDb) (2 ^ k) - erfc (Real.sqrt (dB2lin snrDb)) / 2 ≤ avg ∧ avg ≤ serPsk (dB2lin snrDb) (2 ^ k) ∧
    (k = 1 → avg = serPsk (dB2lin snrDb) (2 ^ k) / 2) := by
  intro rx avg
  have hn' : (0 : ℝ) < n := by exact_mod_cast hn
  choose l hlt hl using fun m => List.mem_iff_getElem.1 (htx m)
  have hl' : ∀ m, (pskCodedSymbols k)[l m]? = some (tx m) := fun m => List.getElem?_eq_some_iff.2 ⟨hlt m, hl m⟩
  have hp : meanR ([List.ofFn tx].flatten.map fun z => ‖z‖ ^ 2) = 1 := by
    unfold meanR
    rw [List.flatten_singleton, List.map_ofFn, List.sum_ofFn, List.length_ofFn]
    simp only [Function.comp_apply]
    rw [Finset.sum_congr rfl (fun m _ => by rw [(psk_points (htx m)).1])]
    simp [hn'.ne']
  obtain ⟨sg, hsgdef⟩ : ∃ sg : ℝ, sg = (10 : ℝ) ^ (-snrDb / 20) := ⟨_, rfl⟩
  have hsg : 0 < sg := by rw [hsgdef]; positivity
  obtain ⟨t, htd⟩ : ∃ t, t = sg / Real.sqrt 2 := ⟨_, rfl⟩
  have ht : 0 < t := by rw [htd]; positivity
  have hval : ∀ w : Fin n → ℝ × ℝ, calSer (pskCodedSymbols k) (rx w) (List.ofFn tx) =
      some ((∑ m, if decIdx (pskCodedSymbols k) (tx m + ⟨t * (w m).1, t * (w m).2⟩) ≠ l m then (1 : ℚ) else 0) / n) := by
    intro w
    have hrx : rx w = addAwgn (List.ofFn tx) sg (List.ofFn fun k => (w k).1) (List.ofFn fun k => (w k).2) := by
      show (changeSnr [List.ofFn tx] snrDb fb fb [List.ofFn fun k => (w k).1] [List.ofFn fun k => (w k).2]).getD 0 [] = _
      unfold changeSnr
      dsimp only
      rw [hp, div_self hfb.ne', Real.sqrt_one, one_mul, mul_one, ← hsgdef]
      rfl
    rw [hrx, addAwgn_ofFn, ← htd]
    exact calSer_ofFn (nodup_pskCoded k) _ _ l hl'
  obtain ⟨E, hE⟩ : ∃ E : Fin n → Set (ℝ × ℝ), ∀ m, E m = {z | decIdx (pskCodedSymbols k) (tx m + ⟨t * z.1, t * z.2⟩) ≠ l m} := ⟨fun m => _, fun m => rfl⟩
  have hEm : ∀ m, MeasurableSet (E m) ∧ 2 * qFunction (Real.sin (Real.pi / 2 ^ k) / t) - qFunction (1 / t) ≤ stdN2.real (E m) ∧ stdN2.real (E m) ≤ 2 * qFunction (Real.sin (Real.pi / 2 ^ k) / t) ∧
      (k = 1 → stdN2.real (E m) = qFunction (1 / t)) := by
    intro m
    rw [hE]
    exact psk_symbol hk (hl' m) ht
  have havg : avg = (∑ m, stdN2.real (E m)) / n := by
    have h0 : ∀ w : Fin n → ℝ × ℝ, (((calSer (pskCodedSymbols k) (rx w) (List.ofFn tx)).getD 0 : ℚ) : ℝ) = (∑ m, (E m).indicator (1 : ℝ × ℝ → ℝ) (w m)) / n := by
      intro w
      rw [hval, Option.getD_some]
      push_cast
      congr 1
      apply Finset.sum_congr rfl
      intro m _
      by_cases hm : w m ∈ E m
      · rw [Set.indicator_of_mem hm]
        rw [hE] at hm
        have hm' : decIdx (pskCodedSymbols k) (tx m + ⟨t * (w m).1, t * (w m).2⟩) ≠ l m := hm
        rw [if_pos hm']
        simp
      · rw [Set.indicator_of_notMem hm]
        rw [hE] at hm
        have hm' : ¬ decIdx (pskCodedSymbols k) (tx m + ⟨t * (w m).1, t * (w m).2⟩) ≠ l m := hm
        rw [if_neg hm']
        simp
    show ∫ w, (((calSer (pskCodedSymbols k) (rx w) (List.ofFn tx)).getD 0 : ℚ) : ℝ) ∂noiseLaw n = _
    rw [integral_congr_ae (Filter.Eventually.of_forall h0), integral_div]
    have hi1 : ∀ m, Integrable ((E m).indicator (1 : ℝ × ℝ → ℝ)) stdN2 := fun m => (integrable_const (1 : ℝ)).indicator (hEm m).1
    have hint : ∀ m : Fin n, Integrable (fun w : Fin n → ℝ × ℝ => (E m).indicator (1 : ℝ × ℝ → ℝ) (w m)) (noiseLaw n) :=
      fun m => (measurePreserving_eval (fun _ : Fin n => stdN2) m).integrable_comp_of_integrable (hi1 m)
    rw [integral_finsetSum _ (fun m _ => hint m)]
    congr 1
    apply Finset.sum_congr rfl
    intro m _
    rw [integral_comp_eval (μ := fun _ : Fin n => stdN2) (i := m) (f := (E m).indicator (1 : ℝ × ℝ → ℝ)) (hi1 m).aestronglyMeasurable, integral_indicator_one (hEm m).1]
  -- the formula
  have hsnr : 0 < dB2lin snrDb := by unfold dB2lin; positivity
  have hsq : Real.sqrt (dB2lin snrDb) = 1 / sg := by
    rw [Real.sqrt_eq_iff_mul_self_eq hsnr.le (by positivity)]
    have hsg2 : sg * sg * dB2lin snrDb = 1 := by
      rw [hsgdef]
      unfold dB2lin
      rw [← Real.rpow_add (by norm_num), ← Real.rpow_add (by norm_num)]
      rw [show -snrDb / 20 + -snrDb / 20 + snrDb / 10 = 0 from by ring, Real.rpow_zero]
    have := hsg.ne'
    field_simp
    linarith
  have ht1 : Real.sqrt 2 * (1 / sg) = 1 / t := by rw [htd]; field_simp
  have hf1 : erfc (Real.sqrt (dB2lin snrDb)) / 2 = qFunction (1 / t) := by
    rw [erfc_eq, hsq, ht1]; ring
  have hf2 : serPsk (dB2lin snrDb) (2 ^ k) = 2 * qFunction (Real.sin (Real.pi / 2 ^ k) / t) := by
    unfold serPsk
    rw [erfc_eq, hsq, ← mul_assoc, ht1]
    congr 2
    ring
  rw [hf1, hf2, havg]
  refine ⟨fun w => ⟨_, hval w⟩, ?_, ?_, ?_⟩
  · rw [le_div_iff₀ hn']
    calc _ = ∑ _m : Fin n, (2 * qFunction (Real.sin (Real.pi / 2 ^ k) / t) - qFunction (1 / t)) := by simp; ring
      _ ≤ _ := Finset.sum_le_sum fun m _ => (hEm m).2.1
  · rw [div_le_iff₀ hn']
    calc _ ≤ ∑ _m : Fin n, 2 * qFunction (Real.sin (Real.pi / 2 ^ k) / t) := Finset.sum_le_sum fun m _ => (hEm m).2.2.1
      _ = _ := by simp; ring
  · intro hk1
    rw [Finset.sum_congr rfl (fun m _ => (hEm m).2.2.2 hk1), hk1, pow_one, Real.sin_pi_div_two]
    simp
    field_simp

theorem qFunction_pos (x : ℝ) : 0 < qFunction x := by
  rw [← stdN_Ioi, Measure.real, ENNReal.toReal_pos_iff]
  refine ⟨?_, measure_lt_top _ _⟩
  rw [pos_iff_ne_zero]
  intro h
  have h2 := gaussianReal_absolutelyContinuous' 0 (one_ne_zero : (1 : NNReal) ≠ 0) h
  rw [Real.volume_Ioi] at h2
  simp at h2

/-- The full property: the average symbol error rate of a PSK signal is the value of the formula. -/
def C117_statement : Prop := ∀ (k n : Nat), 1 ≤ k → 0 < n → ∀ (tx : Fin n → ℂ), (∀ m, tx m ∈ pskCodedSymbols k) → ∀ (snrDb fb : ℝ), 0 < fb →
  ∫ w, (((calSer (pskCodedSymbols k) ((changeSnr [List.ofFn tx] snrDb fb fb [List.ofFn fun k => (w k).1] [List.ofFn fun k => (w k).2]).getD 0 []) (List.ofFn tx)).getD 0 : ℚ) : ℝ) ∂noiseLaw n =
    serPsk (dB2lin snrDb) (2 ^ k)

/-- C117: it is not for two points, where the formula gives twice the error rate. -/
theorem C117_false : ¬ C117_statement := by
  intro h
  have hne : 0 < (pskCodedSymbols 1).length := by rw [length_pskCoded]; norm_num
  have hmem : ∀ _m : Fin 1, (pskCodedSymbols 1)[0] ∈ pskCodedSymbols 1 := fun _ => List.getElem_mem hne
  have h1 := h 1 1 (le_refl 1) one_pos (fun _ => (pskCodedSymbols 1)[0]) hmem 0 1 one_pos
  have h2 := (C117_psk_partial (k := 1) (le_refl 1) one_pos (fun _ => (pskCodedSymbols 1)[0]) hmem 0 1 one_pos).2.2.2 rfl
  have h3 : serPsk (dB2lin 0) (2 ^ 1) = serPsk (dB2lin 0) (2 ^ 1) / 2 := h1.symm.trans h2
  have h4 : 0 < serPsk (dB2lin 0) (2 ^ 1) := by
    unfold serPsk
    rw [erfc_eq]
    have := qFunction_pos (Real.sqrt 2 * (Real.sqrt (dB2lin 0) * Real.sin (Real.pi / 2 ^ 1)))
    linarith
  linarith

/-- Case of C117: 8-PSK, two symbols. -/
example : ∃ tx : Fin 2 → ℂ, (∀ m, tx m ∈ pskCodedSymbols 3) ∧ tx 0 ≠ tx 1 := by
  have hl : (pskCodedSymbols 3).length = 8 := length_pskCoded 3
  refine ⟨fun m => (pskCodedSymbols 3)[m.val], fun m => List.getElem_mem _, ?_⟩
  intro h
  have := (List.Nodup.getElem_inj_iff (nodup_pskCoded 3)).1 h
  simp at this

/-! ### 4-PAM -/

/-- Nearest point decision on the grid `d·i + o`, `i < L`: error probability averaged over the points. -/
theorem pam_average {L : Nat} (hL : 1 ≤ L) {d t o : ℝ} (hd0 : 0 < d) (ht : 0 < t) (dec : ℝ → Fin L) (hdec : ∀ y, ∀ j : Fin L, |y - (d * (dec y : ℕ) + o)| ≤ |y - (d * (j : ℕ) + o)|) :
    (∑ i : Fin L, stdN.real {u | dec (d * (i : ℕ) + o + t * u) ≠ i}) / L = 2 * (1 - 1 / L) * qFunction (d / (2 * t)) := by
  have hx : 0 ≤ d / (2 * t) := by positivity
  have hLR : (0 : ℝ) < L := by exact_mod_cast hL
  have h1 : ∀ i : Fin L, stdN.real {u | dec (d * (i : ℕ) + o + t * u) ≠ i} = ((if 0 < (i : ℕ) then 1 else 0) + (if (i : ℕ) + 1 < L then 1 else 0)) * qFunction (d / (2 * t)) := by
    intro i
    have h0 : ∀ a : ℝ, ∀ᵐ u ∂stdN, u ≠ a := fun a => by
      rw [ae_iff]
      simp
    have hae : stdN.real {u | dec (d * (i : ℕ) + o + t * u) ≠ i} = stdN.real (okSet (0 < (i : ℕ)) ((i : ℕ) + 1 < L) (d / (2 * t)))ᶜ := by
      apply measureReal_congr
      filter_upwards [h0 (d / (2 * t)), h0 (-(d / (2 * t)))] with u hu1 hu2
      apply propext
      have hcc := component_correct hd0 ht i.2 (dec (d * (i : ℕ) + o + t * u)).2 hu1 hu2 (fun m hm => by
        have := hdec (d * (i : ℕ) + o + t * u) ⟨m, hm⟩
        have h2 := sq_le_sq' (by linarith [abs_nonneg (d * (i : ℕ) + o + t * u - (d * (dec (d * (i : ℕ) + o + t * u) : ℕ) + o)), abs_nonneg (d * (i : ℕ) + o + t * u - (d * m + o))]) this
        rw [sq_abs, sq_abs] at h2
        calc _ = (d * (i : ℕ) + o + t * u - (d * (dec (d * (i : ℕ) + o + t * u) : ℕ) + o)) ^ 2 := by ring
          _ ≤ _ := h2
          _ = _ := by ring)
      show (dec (d * (i : ℕ) + o + t * u) ≠ i) ↔ u ∉ okSet (0 < (i : ℕ)) ((i : ℕ) + 1 < L) (d / (2 * t))
      rw [← hcc, Ne, Fin.ext_iff]
    rw [hae, probReal_compl_eq_one_sub (measurableSet_okSet _ _ _), stdN_okSet _ _ hx, sub_sub_cancel]
    congr
  rw [Finset.sum_congr rfl (fun i _ => h1 i), ← Finset.sum_mul]
  obtain ⟨m, rfl⟩ : ∃ m, L = m + 1 := ⟨L - 1, by omega⟩
  have h2 : ∑ i : Fin (m + 1), ((if 0 < (i : ℕ) then (1 : ℝ) else 0) + (if (i : ℕ) + 1 < m + 1 then 1 else 0)) = 2 * m := by
    rw [Finset.sum_add_distrib, Fin.sum_univ_succ, Fin.sum_univ_castSucc]
    simp
    ring
  rw [h2]
  push_cast
  push_cast at hLR
  field_simp
  ring

/-- C116: the symbol error rate of 4-PAM of average power one with real noise of variance `1 / (2 snr)` and nearest point decisions is the value of the formula. -/
theorem C116_pam (snr : ℝ) (hsnr : 0 < snr) (pt : Fin 4 → ℝ) (hpt : ∀ i, pt i = (2 * (i : ℕ) - 3) / Real.sqrt 5) (dec : ℝ → Fin 4) (hdec : ∀ y j, |y - pt (dec y)| ≤ |y - pt j|) :
    (∑ i, pt i ^ 2) / 4 = 1 ∧ (∑ i, stdN.real {u | dec (pt i + Real.sqrt (1 / (2 * snr)) * u) ≠ i}) / 4 = ser4pam snr := by
  have h5 : Real.sqrt 5 ^ 2 = 5 := Real.sq_sqrt (by norm_num)
  have h5p : 0 < Real.sqrt 5 := Real.sqrt_pos.2 (by norm_num)
  constructor
  · simp_rw [hpt, div_pow, h5]
    rw [Fin.sum_univ_four]
    norm_num
  · have hform : ∀ i : Fin 4, pt i = 2 / Real.sqrt 5 * (i : ℕ) + -3 / Real.sqrt 5 := by
      intro i
      rw [hpt]
      ring
    have ht : 0 < Real.sqrt (1 / (2 * snr)) := Real.sqrt_pos.2 (by positivity)
    have h := pam_average (L := 4) (by norm_num) (d := 2 / Real.sqrt 5) (t := Real.sqrt (1 / (2 * snr))) (o := -3 / Real.sqrt 5) (by positivity) ht dec (by
      intro y j
      rw [← hform, ← hform]
      exact hdec y j)
    simp_rw [← hform] at h
    push_cast at h
    rw [h]
    unfold ser4pam
    rw [erfc_eq]
    have harg : 2 / Real.sqrt 5 / (2 * Real.sqrt (1 / (2 * snr))) = Real.sqrt 2 * Real.sqrt (snr / 5) := by
      rw [Real.sqrt_div (by norm_num), Real.sqrt_div hsnr.le, Real.sqrt_mul (by norm_num), Real.sqrt_one]
      have := Real.sqrt_pos.2 hsnr
      field_simp
    rw [harg]
    ring

/-- Case of C116: a nearest point decision exists. -/
example : ∃ dec : ℝ → Fin 4, ∀ (y : ℝ) (j : Fin 4), |y - (2 * ((dec y : ℕ) : ℝ) - 3) / Real.sqrt 5| ≤ |y - (2 * ((j : ℕ) : ℝ) - 3) / Real.sqrt 5| := by
  choose dec hdec using fun y : ℝ => Finite.exists_min (fun j : Fin 4 => |y - (2 * ((j : ℕ) : ℝ) - 3) / Real.sqrt 5|)
  exact ⟨dec, hdec⟩

/-! ### Shaped symbols -/

/-- C119: the shaping probabilities are positive and sum to one, depend on the amplitude only, are not larger for larger amplitudes if the shaping factor is not negative, and are equal for shaping
factor zero. The quotient of two of them is `exp (-nu (a^2 - b^2))`, whatever the other amplitudes are. -/
theorem C119_shaping (symbs : List ℝ) (nu : ℝ) (hne : symbs ≠ []) :
    (psProbs symbs nu).length = symbs.length ∧ (psProbs symbs nu).sum = 1 ∧
    ∀ (i j : Nat) (a b : ℝ), symbs[i]? = some a → symbs[j]? = some b → ∃ p q, (psProbs symbs nu)[i]? = some p ∧ (psProbs symbs nu)[j]? = some q ∧ 0 < p ∧ p ≤ 1 ∧
      p / q = Real.exp (-nu * (a ^ 2 - b ^ 2)) ∧ (|a| = |b| → p = q) ∧ (0 < nu → (p < q ↔ |b| < |a|)) ∧ (nu = 0 → p = 1 / symbs.length) := by
  obtain ⟨D, hD⟩ : ∃ D, D = (symbs.map fun s => Real.exp (-nu * |s| ^ 2)).sum := ⟨_, rfl⟩
  have hps : psProbs symbs nu = symbs.map fun s => Real.exp (-nu * |s| ^ 2) / D := by rw [hD]; rfl
  have hDpos : 0 < D := by
    rw [hD]
    apply List.sum_pos
    · intro x hx
      obtain ⟨s, -, rfl⟩ := List.mem_map.1 hx
      exact Real.exp_pos _
    · simpa using hne
  have hsum : (psProbs symbs nu).sum = 1 := by
    rw [hps]
    have h1 : ∀ l : List ℝ, (l.map fun s => Real.exp (-nu * |s| ^ 2) / D).sum = (l.map fun s => Real.exp (-nu * |s| ^ 2)).sum / D := by
      intro l
      induction l with
      | nil => simp
      | cons a l ih => rw [List.map_cons, List.sum_cons, ih, List.map_cons, List.sum_cons, add_div]
    rw [h1, ← hD, div_self hDpos.ne']
  refine ⟨by rw [hps, List.length_map], hsum, ?_⟩
  intro i j a b hi hj
  refine ⟨Real.exp (-nu * |a| ^ 2) / D, Real.exp (-nu * |b| ^ 2) / D, by rw [hps, List.getElem?_map, hi]; rfl, by rw [hps, List.getElem?_map, hj]; rfl, by positivity, ?_, ?_, ?_, ?_, ?_⟩
  · rw [div_le_one hDpos, hD]
    apply List.single_le_sum
    · intro x hx
      obtain ⟨s, -, rfl⟩ := List.mem_map.1 hx
      exact (Real.exp_pos _).le
    · exact List.mem_map.2 ⟨a, List.mem_of_getElem? hi, rfl⟩
  · rw [div_div_div_cancel_right₀ hDpos.ne', ← Real.exp_sub, sq_abs, sq_abs]
    congr 1
    ring
  · intro h
    rw [h]
  · intro hnu
    rw [div_lt_div_iff_of_pos_right hDpos, Real.exp_lt_exp, neg_mul, neg_mul, neg_lt_neg_iff, mul_lt_mul_iff_right₀ hnu, sq_lt_sq₀ (abs_nonneg _) (abs_nonneg _)]
  · intro h0
    rw [hD, h0]
    simp

/-- Case of C119: the four amplitudes of 16-QAM. -/
example : ([-3, -1, 1, 3] : List ℝ) ≠ [] := by simp

end Qampy
