import Verif.Model.FrontEndModes
import Verif.Props.Waveform
import Verif.Lemmas.Carrier

/-!
# C236: the front end corrections undo what a coherent front end does
-/

namespace Qampy

open Complex

/-- A front end with gains `g` and `h` of the two quadratures, crosstalk `k` of the in-phase component into the quadrature (hybrid angle), and offsets `d`. -/
noncomputable def frontEnd (g h k : ℝ) (d : ℂ) (z : ℂ) : ℂ := ⟨g * z.re + d.re, h * z.im + k * z.re + d.im⟩

theorem meanR_lin {x : List ℂ} (hx : x ≠ []) (f f' : ℂ → ℝ) (a b c : ℝ) : meanR (x.map fun z => a * f z + b * f' z + c) = a * meanR (x.map f) + b * meanR (x.map f') + c := by
  have hn : (x.length : ℝ) ≠ 0 := by
    have := List.length_pos_of_ne_nil hx
    positivity
  unfold meanR
  rw [List.sum_map_add, List.sum_map_add, List.sum_map_mul_left, List.sum_map_mul_left, List.length_map, List.length_map, List.length_map]
  simp only [List.map_const', List.sum_replicate, nsmul_eq_mul]
  field_simp

/-- Centred quadratures. -/
noncomputable def cenI (x : List ℂ) (z : ℂ) : ℝ := z.re - meanR (x.map fun z => z.re)
noncomputable def cenQ (x : List ℂ) (z : ℂ) : ℝ := z.im - meanR (x.map fun z => z.im)

/-- The last two lines of `orthonormalize_signal`. -/
noncomputable def orthoFin (os : Nat) (s : List ℂ) : Option (List ℂ) :=
  let e := s.map fun z => z - meanC (Np.strided s os)
  let P := Real.sqrt (meanR ((Np.strided e os).map fun z => ‖z‖ ^ 2))
  if P = 0 then none else some (e.map fun z => z / P)

theorem orthonormRow_eq (os : Nat) (x : List ℂ) {pI pQ pX : ℝ} (hI : meanR (x.map fun z => cenI x z ^ 2) = pI) (hQ : meanR (x.map fun z => cenQ x z ^ 2) = pQ)
    (hX : meanR (x.map fun z => cenI x z * cenQ x z) = pX) :
    orthonormRow os x = if pI = 0 ∨ pQ = 0 then none else
      orthoFin os (x.map fun z => (⟨cenI x z / Real.sqrt pI, (cenQ x z - pX * cenI x z / pI) / Real.sqrt pQ⟩ : ℂ)) := by
  subst hI hQ hX
  unfold orthonormRow orthoFin
  simp only [List.map_map, List.zipWith_map_left, List.zipWith_map_right, List.zipWith_self]
  rfl

theorem cenI_frontEnd {x : List ℂ} (hx : x ≠ []) (g h k : ℝ) (d z : ℂ) : cenI (x.map (frontEnd g h k d)) (frontEnd g h k d z) = g * cenI x z := by
  unfold cenI
  rw [List.map_map]
  have := meanR_lin hx (fun z => z.re) (fun z => z.im) g 0 d.re
  simp only [zero_mul, add_zero] at this
  change g * z.re + d.re - meanR (x.map fun z => g * z.re + d.re) = _
  rw [this]
  ring

theorem cenQ_frontEnd {x : List ℂ} (hx : x ≠ []) (g h k : ℝ) (d z : ℂ) : cenQ (x.map (frontEnd g h k d)) (frontEnd g h k d z) = h * cenQ x z + k * cenI x z := by
  unfold cenQ cenI
  rw [List.map_map]
  have := meanR_lin hx (fun z => z.im) (fun z => z.re) h k d.im
  change h * z.im + k * z.re + d.im - meanR (x.map fun z => h * z.im + k * z.re + d.im) = _
  rw [this]
  ring

/-- `orthonormalize_signal` behind a front end, in terms of the signal before it. -/
theorem orthonormRow_frontEnd {x : List ℂ} (hx : x ≠ []) (os : Nat) {g h : ℝ} (hg : 0 < g) (k : ℝ) (d : ℂ) {pI pQ pX : ℝ} (hI : meanR (x.map fun z => cenI x z ^ 2) = pI)
    (hQ : meanR (x.map fun z => cenQ x z ^ 2) = pQ) (hX : meanR (x.map fun z => cenI x z * cenQ x z) = pX) :
    orthonormRow os (x.map (frontEnd g h k d)) = if pI = 0 ∨ h ^ 2 * pQ + 2 * h * k * pX + k ^ 2 * pI = 0 then none else
      orthoFin os (x.map fun z => (⟨cenI x z / Real.sqrt pI, h * (cenQ x z - pX * cenI x z / pI) / Real.sqrt (h ^ 2 * pQ + 2 * h * k * pX + k ^ 2 * pI)⟩ : ℂ)) := by
  have e1 : meanR ((x.map (frontEnd g h k d)).map fun z => cenI (x.map (frontEnd g h k d)) z ^ 2) = g ^ 2 * pI := by
    rw [List.map_map, ← hI]
    have := meanR_lin hx (fun z => cenI x z ^ 2) (fun _ => 0) (g ^ 2) 0 0
    simp only [mul_zero, zero_mul, add_zero] at this
    rw [← this]
    congr 1
    refine List.map_congr_left fun z _ => ?_
    simp only [Function.comp, cenI_frontEnd hx]
    ring
  have e2 : meanR ((x.map (frontEnd g h k d)).map fun z => cenQ (x.map (frontEnd g h k d)) z ^ 2) = h ^ 2 * pQ + 2 * h * k * pX + k ^ 2 * pI := by
    rw [List.map_map, ← hI, ← hQ, ← hX]
    have q1 := meanR_lin hx (fun z => cenQ x z ^ 2) (fun z => 2 * h * k * (cenI x z * cenQ x z) + k ^ 2 * cenI x z ^ 2) (h ^ 2) 1 0
    have q2 := meanR_lin hx (fun z => cenI x z * cenQ x z) (fun z => cenI x z ^ 2) (2 * h * k) (k ^ 2) 0
    simp only [add_zero, one_mul] at q1 q2
    rw [add_assoc, ← q2, ← q1]
    congr 1
    refine List.map_congr_left fun z _ => ?_
    simp only [Function.comp, cenQ_frontEnd hx]
    ring
  have e3 : meanR ((x.map (frontEnd g h k d)).map fun z => cenI (x.map (frontEnd g h k d)) z * cenQ (x.map (frontEnd g h k d)) z) = g * h * pX + g * k * pI := by
    rw [List.map_map, ← hI, ← hX]
    have q2 := meanR_lin hx (fun z => cenI x z * cenQ x z) (fun z => cenI x z ^ 2) (g * h) (g * k) 0
    simp only [add_zero] at q2
    rw [← q2]
    congr 1
    refine List.map_congr_left fun z _ => ?_
    simp only [Function.comp, cenQ_frontEnd hx, cenI_frontEnd hx]
    ring
  rw [orthonormRow_eq os _ e1 e2 e3]
  have hg2 : g ^ 2 ≠ 0 := by positivity
  have hiff : (g ^ 2 * pI = 0 ∨ h ^ 2 * pQ + 2 * h * k * pX + k ^ 2 * pI = 0) ↔ (pI = 0 ∨ h ^ 2 * pQ + 2 * h * k * pX + k ^ 2 * pI = 0) := by
    rw [mul_eq_zero, or_iff_right hg2]
  by_cases hc : pI = 0 ∨ h ^ 2 * pQ + 2 * h * k * pX + k ^ 2 * pI = 0
  · rw [if_pos (hiff.2 hc), if_pos hc]
  · rw [if_neg (fun h => hc (hiff.1 h)), if_neg hc]
    push Not at hc
    congr 1
    rw [List.map_map]
    refine List.map_congr_left fun z _ => ?_
    simp only [Function.comp, cenQ_frontEnd hx, cenI_frontEnd hx]
    rw [Real.sqrt_mul (by positivity), Real.sqrt_sq hg.le]
    have hp := hc.1
    congr 1
    · rw [mul_div_mul_left _ _ hg.ne']
    · congr 1
      field_simp
      ring

theorem orthonormRow_nil (os : Nat) : orthonormRow os [] = none := by
  unfold orthonormRow
  simp [meanR]

/-- **C236** `orthonormalize_signal` does not depend on offsets and gains of the two quadratures, for any oversampling. -/
theorem C236_gain (os : Nat) (x : List ℂ) {g h : ℝ} (hg : 0 < g) (hh : 0 < h) (d : ℂ) : orthonormRow os (x.map (frontEnd g h 0 d)) = orthonormRow os x := by
  rcases List.eq_nil_or_concat x with rfl | ⟨l, a, rfl⟩
  · rfl
  have hx : l.concat a ≠ [] := by simp
  obtain ⟨x, hxe⟩ : ∃ x, x = l.concat a := ⟨_, rfl⟩
  rw [← hxe] at hx ⊢
  rw [orthonormRow_frontEnd hx os hg 0 d rfl rfl rfl, orthonormRow_eq os x rfl rfl rfl]
  obtain ⟨pI, hI⟩ : ∃ p, p = meanR (x.map fun z => cenI x z ^ 2) := ⟨_, rfl⟩
  obtain ⟨pQ, hQ⟩ : ∃ p, p = meanR (x.map fun z => cenQ x z ^ 2) := ⟨_, rfl⟩
  obtain ⟨pX, hX⟩ : ∃ p, p = meanR (x.map fun z => cenI x z * cenQ x z) := ⟨_, rfl⟩
  rw [← hI, ← hQ, ← hX, show h ^ 2 * pQ + 2 * h * 0 * pX + 0 ^ 2 * pI = h ^ 2 * pQ by ring]
  have hh2 : h ^ 2 ≠ 0 := by positivity
  have hiff : (pI = 0 ∨ h ^ 2 * pQ = 0) ↔ (pI = 0 ∨ pQ = 0) := by rw [mul_eq_zero, or_iff_right hh2]
  by_cases hc : pI = 0 ∨ pQ = 0
  · rw [if_pos (hiff.2 hc), if_pos hc]
  · rw [if_neg (fun h => hc (hiff.1 h)), if_neg hc]
    congr 1
    refine List.map_congr_left fun z _ => ?_
    rw [Real.sqrt_mul (by positivity), Real.sqrt_sq hh.le, mul_div_mul_left _ _ hh.ne']

/-- **C236** A signal with uncorrelated quadratures behind a front end with any gains, offsets and crosstalk: applying `orthonormalize_signal` twice gives what applying it to the
undistorted signal gives, for any oversampling. -/
theorem C236_twice (os : Nat) (x : List ℂ) (hx : (x.map fun z => (z - meanC x).re * (z - meanC x).im).sum = 0) {g h : ℝ} (hg : 0 < g) (hh : 0 < h) (k : ℝ) (d : ℂ) (y : List ℂ)
    (hy : orthonormRow os (x.map (frontEnd g h k d)) = some y) : orthonormRow os y = orthonormRow os x := by
  rcases List.eq_nil_or_concat x with rfl | ⟨l, a, rfl⟩
  · rw [List.map_nil, orthonormRow_nil] at hy
    exact absurd hy (by simp)
  have hne : l.concat a ≠ [] := by simp
  obtain ⟨x, hxe⟩ : ∃ x, x = l.concat a := ⟨_, rfl⟩
  rw [← hxe] at hx hne hy ⊢
  have hre : ∀ z : ℂ, (z - meanC x).re = cenI x z := by
    intro z
    rw [cenI, Complex.sub_re, meanC, meanR, ← sum_re, List.length_map, ← Complex.ofReal_natCast, Complex.div_ofReal_re]
  have him : ∀ z : ℂ, (z - meanC x).im = cenQ x z := by
    intro z
    rw [cenQ, Complex.sub_im, meanC, meanR, ← sum_im, List.length_map, ← Complex.ofReal_natCast, Complex.div_ofReal_im]
  simp only [hre, him] at hx
  have hX : meanR (x.map fun z => cenI x z * cenQ x z) = 0 := by rw [meanR, hx, zero_div]
  rw [orthonormRow_frontEnd hne os hg k d rfl rfl hX] at hy
  obtain ⟨pI, hI⟩ : ∃ p, p = meanR (x.map fun z => cenI x z ^ 2) := ⟨_, rfl⟩
  obtain ⟨p, hp⟩ : ∃ p, p = h ^ 2 * meanR (x.map fun z => cenQ x z ^ 2) + 2 * h * k * 0 + k ^ 2 * pI := ⟨_, rfl⟩
  rw [← hI, ← hp] at hy
  have nI : 0 ≤ pI := by
    rw [hI]
    exact div_nonneg (List.sum_nonneg (by simp only [List.mem_map]; rintro _ ⟨z, -, rfl⟩; positivity)) (Nat.cast_nonneg _)
  have nQ : 0 ≤ meanR (x.map fun z => cenQ x z ^ 2) :=
    div_nonneg (List.sum_nonneg (by simp only [List.mem_map]; rintro _ ⟨z, -, rfl⟩; positivity)) (Nat.cast_nonneg _)
  have np : 0 ≤ p := by
    rw [hp, mul_zero, add_zero]
    positivity
  by_cases hc : pI = 0 ∨ p = 0
  · rw [if_pos hc] at hy
    exact absurd hy (by simp)
  rw [if_neg hc] at hy
  push Not at hc
  have hI0 : 0 < Real.sqrt pI := Real.sqrt_pos.2 (lt_of_le_of_ne nI (Ne.symm hc.1))
  have hp0 : 0 < Real.sqrt p := Real.sqrt_pos.2 (lt_of_le_of_ne np (Ne.symm hc.2))
  unfold orthoFin at hy
  dsimp only at hy
  obtain ⟨s, hs⟩ : ∃ s, s = x.map fun z => (⟨cenI x z / Real.sqrt pI, h * (cenQ x z - 0 * cenI x z / pI) / Real.sqrt p⟩ : ℂ) := ⟨_, rfl⟩
  rw [← hs] at hy
  obtain ⟨P, hP⟩ : ∃ P, P = Real.sqrt (meanR ((Np.strided (s.map fun z => z - meanC (Np.strided s os)) os).map fun z => ‖z‖ ^ 2)) := ⟨_, rfl⟩
  obtain ⟨mu, hmu⟩ : ∃ mu, mu = meanC (Np.strided s os) := ⟨_, rfl⟩
  rw [← hP, ← hmu] at hy
  by_cases hP0 : P = 0
  · rw [if_pos hP0] at hy
    exact absurd hy (by simp)
  rw [if_neg hP0, Option.some.injEq] at hy
  have hPp : 0 < P := lt_of_le_of_ne (by rw [hP]; exact Real.sqrt_nonneg _) (Ne.symm hP0)
  have hyx : y = x.map (frontEnd (1 / (Real.sqrt pI * P)) (h / (Real.sqrt p * P)) 0
      ⟨(-(meanR (x.map fun z => z.re)) / Real.sqrt pI - mu.re) / P, (-(h * meanR (x.map fun z => z.im)) / Real.sqrt p - mu.im) / P⟩) := by
    rw [← hy, hs, List.map_map, List.map_map]
    refine List.map_congr_left fun z _ => ?_
    simp only [Function.comp, frontEnd, cenI, cenQ]
    apply Complex.ext
    · rw [Complex.div_ofReal_re, Complex.sub_re]
      dsimp only
      field_simp
      ring
    · rw [Complex.div_ofReal_im, Complex.sub_im]
      dsimp only
      field_simp
      ring
  rw [hyx]
  exact C236_gain os x (by positivity) (by positivity) _

theorem sub_meanC_re (x : List ℂ) (z : ℂ) : (z - meanC x).re = cenI x z := by
  rw [cenI, Complex.sub_re, meanC, meanR, ← sum_re, List.length_map, ← Complex.ofReal_natCast, Complex.div_ofReal_re]

theorem sub_meanC_im (x : List ℂ) (z : ℂ) : (z - meanC x).im = cenQ x z := by
  rw [cenQ, Complex.sub_im, meanC, meanR, ← sum_im, List.length_map, ← Complex.ofReal_natCast, Complex.div_ofReal_im]

theorem indep_ne_nil {x : List ℂ} (h : IndepIQ x) : x ≠ [] := by
  rintro rfl
  have := (h 1 1 (by simp)).1
  norm_num at this

theorem indep_frontEnd {x : List ℂ} (hx : IndepIQ x) {g h : ℝ} (hg : 0 < g) (hh : 0 < h) (k : ℝ) (d : ℂ) : IndepIQ (x.map (frontEnd g h k d)) := by
  intro a b hab
  have hne := indep_ne_nil hx
  obtain ⟨h1, h2⟩ := hx (a * g + b * k) (b * h) (fun z hz => by
    have := hab _ (List.mem_map_of_mem hz)
    rw [sub_meanC_re, sub_meanC_im, cenI_frontEnd hne, cenQ_frontEnd hne] at this
    rw [sub_meanC_re, sub_meanC_im]
    linarith)
  have hb : b = 0 := by
    rcases mul_eq_zero.1 h2 with h | h
    · exact h
    · exact absurd h hh.ne'
  subst hb
  refine ⟨?_, rfl⟩
  rw [zero_mul, add_zero] at h1
  rcases mul_eq_zero.1 h1 with h | h
  · exact h
  · exact absurd h hg.ne'

theorem Balanced.meanC {x : List ℂ} (hb : Balanced x) : meanC x = 0 := by rw [Qampy.meanC, hb.1, zero_div]

/-- `orthonormalize_signal` only scales a balanced signal. -/
theorem orthonormRow_balanced {x : List ℂ} (hx : IndepIQ x) (hb : Balanced x) : orthonormRow 1 x = some (x.map fun z : ℂ => z / ((Real.sqrt (meanR (x.map fun z => ‖z‖ ^ 2)) : ℝ) : ℂ)) := by
  have hA := indep_re hx
  have hn : (0 : ℝ) < x.length := by exact_mod_cast List.length_pos_of_ne_nil (indep_ne_nil hx)
  rw [hb.meanC] at hA
  simp only [sub_zero] at hA
  have c1 : ∀ z, cenI x z = z.re := fun z => by rw [← sub_meanC_re, hb.meanC, sub_zero]
  have c2 : ∀ z, cenQ x z = z.im := fun z => by rw [← sub_meanC_im, hb.meanC, sub_zero]
  obtain ⟨p, hp⟩ : ∃ p : ℝ, p = (x.map fun z => z.re ^ 2).sum / x.length := ⟨_, rfl⟩
  have hp0 : 0 < p := by rw [hp]; positivity
  have e1 : meanR (x.map fun z => cenI x z ^ 2) = p := by simp only [c1]; rw [meanR, List.length_map, hp]
  have e2 : meanR (x.map fun z => cenQ x z ^ 2) = p := by simp only [c2]; rw [meanR, List.length_map, ← hb.2.2, hp]
  have e3 : meanR (x.map fun z => cenI x z * cenQ x z) = 0 := by simp only [c1, c2]; rw [meanR, hb.2.1, zero_div]
  have e4 : meanR (x.map fun z => ‖z‖ ^ 2) = 2 * p := by
    have : (fun z : ℂ => ‖z‖ ^ 2) = fun z => z.re ^ 2 + z.im ^ 2 := by
      funext z; rw [Complex.sq_norm, Complex.normSq_apply]; ring
    rw [this, meanR, List.sum_map_add, ← hb.2.2, List.length_map, hp]
    ring
  rw [orthonormRow_eq 1 x e1 e2 e3, if_neg (by push Not; exact ⟨hp0.ne', hp0.ne'⟩), e4]
  have hs : (x.map fun z => (⟨cenI x z / Real.sqrt p, (cenQ x z - 0 * cenI x z / p) / Real.sqrt p⟩ : ℂ)) = x.map fun z : ℂ => z / ((Real.sqrt p : ℝ) : ℂ) := by
    refine List.map_congr_left fun z _ => ?_
    rw [c1, c2, zero_mul, zero_div, sub_zero]
    apply Complex.ext
    · rw [Complex.div_ofReal_re]
    · rw [Complex.div_ofReal_im]
  have hmean : meanC (x.map fun z : ℂ => z / ((Real.sqrt p : ℝ) : ℂ)) = 0 := by
    rw [Qampy.meanC, sum_map_div'', List.map_id', hb.1, zero_div, zero_div]
  rw [hs]
  unfold orthoFin
  simp only [strided_one', hmean, sub_zero, List.map_id']
  have e5 : meanR ((x.map fun z : ℂ => z / ((Real.sqrt p : ℝ) : ℂ)).map fun z => ‖z‖ ^ 2) = 2 := by
    rw [List.map_map]
    have : ((fun z : ℂ => ‖z‖ ^ 2) ∘ fun z : ℂ => z / ((Real.sqrt p : ℝ) : ℂ)) = fun z => ‖z‖ ^ 2 / p := by
      funext z
      simp only [Function.comp]
      rw [norm_div, Complex.norm_real, Real.norm_eq_abs, div_pow, sq_abs, Real.sq_sqrt hp0.le]
    rw [this, meanR, sum_map_div'', List.length_map, div_right_comm]
    have e6 := e4
    rw [meanR, List.length_map] at e6
    rw [e6]
    field_simp
  rw [e5, if_neg (by positivity), List.map_map]
  congr 1
  refine List.map_congr_left fun z _ => ?_
  simp only [Function.comp]
  rw [div_div, ← Complex.ofReal_mul, ← Real.sqrt_mul hp0.le, mul_comm]

/-- **C236** A balanced signal behind a front end with any positive gains, any crosstalk and offsets: two passes of `orthonormalize_signal` give back the signal, scaled to mean
power one. -/
theorem C236_orthonormalize (x : List ℂ) (hx : IndepIQ x) (hb : Balanced x) {g h : ℝ} (hg : 0 < g) (hh : 0 < h) (k : ℝ) (d : ℂ) :
    ∃ y, orthonormRow 1 (x.map (frontEnd g h k d)) = some y ∧ orthonormRow 1 y = some (x.map fun z : ℂ => z / ((Real.sqrt (meanR (x.map fun z => ‖z‖ ^ 2)) : ℝ) : ℂ)) := by
  obtain ⟨y, hy, -⟩ := C45_orthonorm_partial _ (indep_frontEnd hx hg hh k d)
  refine ⟨y, hy, ?_⟩
  rw [C236_twice 1 x (by simp only [hb.meanC, sub_zero]; exact hb.2.1) hg hh k d y hy, orthonormRow_balanced hx hb]

/-- **C236** `comp_IQ_inbalance` gives back a balanced signal, scaled by the gain of the in-phase component, behind a front end with any gains, offsets, and crosstalk smaller than
the in-phase gain. -/
theorem C236_compIQ (x : List ℂ) (hx : IndepIQ x) (hb : Balanced x) {g h k : ℝ} (hg : 0 < g) (hh : 0 < h) (hk : |k| < g) (d : ℂ) :
    compIQ (x.map (frontEnd g h k d)) = some (x.map fun z => (g : ℂ) * z) := by
  have hne := indep_ne_nil hx
  have hA := indep_re hx
  rw [hb.meanC] at hA
  simp only [sub_zero] at hA
  obtain ⟨A, hAe⟩ : ∃ A, A = (x.map fun z => z.re ^ 2).sum := ⟨_, rfl⟩
  rw [← hAe] at hA
  have c1 : ∀ z, cenI x z = z.re := fun z => by rw [← sub_meanC_re, hb.meanC, sub_zero]
  have c2 : ∀ z, cenQ x z = z.im := fun z => by rw [← sub_meanC_im, hb.meanC, sub_zero]
  have hy : ((x.map (frontEnd g h k d)).map fun z => z - meanC (x.map (frontEnd g h k d))) = x.map fun z => (⟨g * z.re, h * z.im + k * z.re⟩ : ℂ) := by
    rw [List.map_map]
    refine List.map_congr_left fun z _ => ?_
    apply Complex.ext
    · simp only [Function.comp]
      rw [sub_meanC_re, cenI_frontEnd hne, c1]
    · simp only [Function.comp]
      rw [sub_meanC_im, cenQ_frontEnd hne, c1, c2]
  have e1 : ((x.map fun z => (⟨g * z.re, h * z.im + k * z.re⟩ : ℂ)).map fun z => z.re ^ 2).sum = g ^ 2 * A := by
    rw [List.map_map, hAe, ← List.sum_map_mul_left]
    refine congrArg _ (List.map_congr_left fun z _ => ?_)
    simp only [Function.comp]
    ring
  have e2 : ((x.map fun z => (⟨g * z.re, h * z.im + k * z.re⟩ : ℂ)).map fun z => z.re * z.im).sum = g * k * A := by
    rw [List.map_map]
    have : ((fun z : ℂ => z.re * z.im) ∘ fun z : ℂ => (⟨g * z.re, h * z.im + k * z.re⟩ : ℂ)) = fun z : ℂ => g * h * (z.re * z.im) + g * k * z.re ^ 2 := by
      funext z
      simp only [Function.comp]
      ring
    rw [this, List.sum_map_add, List.sum_map_mul_left, List.sum_map_mul_left, hb.2.1, ← hAe]
    ring
  have hmon : g * k * A / (g ^ 2 * A) = k / g := by field_simp
  have hkg : |k / g| < 1 := by rw [abs_div, abs_of_pos hg, div_lt_one hg]; exact hk
  have hm := abs_lt.1 hkg
  have hsin : Real.sin (Real.arcsin (-(k / g))) = -(k / g) := Real.sin_arcsin (by linarith) (by linarith)
  have hcos : 0 < Real.cos (Real.arcsin (-(k / g))) := by
    rw [Real.cos_arcsin]
    apply Real.sqrt_pos.2
    nlinarith
  obtain ⟨c, hc⟩ : ∃ c, c = Real.cos (Real.arcsin (-(k / g))) := ⟨_, rfl⟩
  rw [← hc] at hcos
  have e3 : ((x.map fun z => (⟨g * z.re, h * z.im + k * z.re⟩ : ℂ)).map fun z : ℂ => (z.im + -(k / g) * z.re) / c) = x.map fun z : ℂ => h / c * z.im := by
    rw [List.map_map]
    refine List.map_congr_left fun z _ => ?_
    simp only [Function.comp]
    field_simp
    ring
  have e4 : ((x.map fun z : ℂ => h / c * z.im).map fun q => q ^ 2).sum = (h / c) ^ 2 * A := by
    rw [List.map_map, hAe, hb.2.2, ← List.sum_map_mul_left]
    refine congrArg _ (List.map_congr_left fun z _ => ?_)
    simp only [Function.comp]
    ring
  have e5 : Real.sqrt (g ^ 2 * A / ((h / c) ^ 2 * A)) = g * c / h := by
    rw [show g ^ 2 * A / ((h / c) ^ 2 * A) = (g * c / h) ^ 2 by field_simp]
    exact Real.sqrt_sq (by positivity)
  unfold compIQ
  simp only [hy, e1, e2, hmon, hsin, ← hc, e3, e4, e5]
  rw [if_neg (by
    push Not
    exact ⟨by positivity, hkg.le, hcos.ne', by positivity⟩), List.zipWith_map_left, List.zipWith_map_right, List.zipWith_self]
  congr 1
  refine List.map_congr_left fun z _ => ?_
  apply Complex.ext
  · simp
  · simp only [Complex.mul_im, Complex.ofReal_re, Complex.ofReal_im, zero_mul, add_zero]
    field_simp

/-! ### Several modes -/

/-- **C236** With several modes `comp_IQ_inbalance` treats the array as one long sequence: the result has the shape of the array, and its samples one mode after the other are the
result for all samples one mode after the other. So all samples taken together are balanced. -/
theorem C236_joint (xs : List (List ℂ)) :
    ((compIQModes xs).2.map List.flatten) = compIQ xs.flatten ∧ (∀ r, (compIQModes xs).2 = some r → r.map List.length = xs.map List.length) := by
  have hflat : ∀ f : ℂ → ℂ, (xs.map fun r => r.map f).flatten = xs.flatten.map f := fun f => by rw [List.map_flatten]
  constructor
  · unfold compIQModes compIQ
    simp only [hflat, List.map_map]
    split_ifs with hc hc' hc'
    · rfl
    · exact absurd hc hc'
    · exact absurd hc' hc
    · simp only [Option.map_some, Option.some.injEq]
      rw [List.zipWith_map_left, List.zipWith_map_right, List.zipWith_self]
      refine Eq.trans ?_ (hflat _)
      refine congrArg List.flatten (List.map_congr_left fun r _ => ?_)
      simp only [Function.comp_apply, List.map_map]
      rfl
  · intro r hr
    unfold compIQModes at hr
    dsimp only at hr
    split_ifs at hr
    rw [Option.some.injEq] at hr
    rw [← hr, List.map_map, List.map_map]
    refine List.map_congr_left fun r _ => ?_
    simp

/-- C236, the part that fails: every mode is corrected, and the array of the caller stays as it was. -/
def C236_statement : Prop :=
  ∀ xs : List (List ℂ), xs ≠ [] → (∀ x ∈ xs, IndepIQ x ∧ |(x.map fun z => (z - meanC x).re * (z - meanC x).im).sum| < (x.map fun z => (z - meanC x).re ^ 2).sum) →
    ∃ r, (compIQModes xs).2 = some r ∧ ∀ y ∈ r, Balanced y

def C236_pure_statement : Prop := ∀ xs : List (List ℂ), (compIQModes xs).1 = xs

/-- Two modes with opposite correlations of the quadratures. -/
noncomputable def iqRows : List (List ℂ) := [iqRow, [⟨2, -1⟩, ⟨-2, 1⟩, ⟨1, 1⟩, ⟨-1, -1⟩]]

theorem meanC_iqRow' : meanC [(⟨2, -1⟩ : ℂ), ⟨-2, 1⟩, ⟨1, 1⟩, ⟨-1, -1⟩] = 0 := by
  rw [meanC, show ([⟨2, -1⟩, ⟨-2, 1⟩, ⟨1, 1⟩, ⟨-1, -1⟩] : List ℂ).sum = 0 by
    simp only [List.sum_cons, List.sum_nil]; apply Complex.ext <;> simp, zero_div]

theorem meanC_iqRows : meanC iqRows.flatten = 0 := by
  rw [meanC, show iqRows.flatten.sum = 0 by
    simp only [iqRows, iqRow, List.flatten_cons, List.flatten_nil, List.append_nil, List.cons_append, List.nil_append, List.sum_cons, List.sum_nil]; apply Complex.ext <;> simp, zero_div]

/-- **C236** fails for modes with different imbalance: opposite correlations cancel in the sums over all modes, and both modes stay as they are. -/
theorem C236_false : ¬ C236_statement := by
  intro h
  obtain ⟨r, hr, hb⟩ := h iqRows (by simp [iqRows]) (by
    intro x hx
    simp only [iqRows, List.mem_cons, List.not_mem_nil, or_false] at hx
    rcases hx with rfl | rfl
    · refine ⟨indep_iqRow, ?_⟩
      rw [meanC_iqRow]
      norm_num [iqRow]
    · constructor
      · intro a b h
        rw [meanC_iqRow'] at h
        have h1 := h ⟨2, -1⟩ (by simp)
        have h2 := h ⟨1, 1⟩ (by simp)
        simp only [sub_zero] at h1 h2
        constructor <;> linarith
      · rw [meanC_iqRow']
        norm_num)
  unfold compIQModes at hr
  simp only [meanC_iqRows, sub_zero, List.map_id'] at hr
  split_ifs at hr with hc
  push Not at hc
  rw [Option.some.injEq] at hr
  have hmon : (iqRows.flatten.map fun z => z.re * z.im).sum = 0 := by
    norm_num [iqRows, iqRow]
  rw [hmon] at hr hc
  simp only [zero_div, neg_zero, Real.arcsin_zero, Real.sin_zero, Real.cos_zero, zero_mul, add_zero, div_one] at hr hc
  obtain ⟨s, hs⟩ : ∃ s, s = Real.sqrt ((iqRows.flatten.map fun z => z.re ^ 2).sum / (iqRows.flatten.map fun z => z.im ^ 2).sum) := ⟨_, rfl⟩
  have hs0 : s ≠ 0 := by
    rw [hs]
    refine (Real.sqrt_pos.2 ?_).ne'
    norm_num [iqRows, iqRow]
  rw [← hs] at hr
  have h1 := (hb (iqRow.map fun z => (⟨z.re, z.im * s⟩ : ℂ)) (by rw [← hr]; simp [iqRows])).2.1
  norm_num [iqRow] at h1
  apply hs0
  linarith

/-- **C236** fails for signals with a mean: it is removed from the array of the caller. -/
theorem C236_pure_false : ¬ C236_pure_statement := by
  intro h
  have := h [[1]]
  simp [compIQModes, meanC] at this

/-- **C236** What the call leaves in the array of the caller: the array without its mean. Calling the function again with it gives the same result and changes it no further. -/
theorem C236_again (xs : List (List ℂ)) :
    (compIQModes xs).1 = xs.map (fun r => r.map fun z => z - meanC xs.flatten) ∧ (compIQModes (compIQModes xs).1) = compIQModes xs := by
  have h1 : (compIQModes xs).1 = xs.map (fun r => r.map fun z => z - meanC xs.flatten) := rfl
  refine ⟨h1, ?_⟩
  have hm : meanC (compIQModes xs).1.flatten = 0 := by
    rw [h1, show (xs.map fun r => r.map fun z => z - meanC xs.flatten).flatten = xs.flatten.map fun z => z - meanC xs.flatten by rw [List.map_flatten], meanC, sum_centred, zero_div]
  have h2 : ((compIQModes xs).1.map fun r => r.map fun z => z - meanC (compIQModes xs).1.flatten) = (compIQModes xs).1 := by
    rw [hm]
    simp
  rw [h1] at h2 ⊢
  unfold compIQModes
  simp only [h2]

/-- **C236** Oversampled signals: the samples at the symbols have zero mean and mean power one behind `orthonormalize_signal`. -/
theorem C236_symbols (os : Nat) (x y : List ℂ) (h : orthonormRow os x = some y) :
    (Np.strided y os).sum = 0 ∧ ((Np.strided y os).map fun z => ‖z‖ ^ 2).sum = (Np.strided y os).length := by
  rw [orthonormRow_eq os x rfl rfl rfl] at h
  split_ifs at h
  obtain ⟨s, hs⟩ : ∃ s, s = x.map fun z => (⟨cenI x z / Real.sqrt (meanR (x.map fun z => cenI x z ^ 2)), (cenQ x z - meanR (x.map fun z => cenI x z * cenQ x z) * cenI x z /
    meanR (x.map fun z => cenI x z ^ 2)) / Real.sqrt (meanR (x.map fun z => cenQ x z ^ 2))⟩ : ℂ) := ⟨_, rfl⟩
  rw [← hs] at h
  unfold orthoFin at h
  dsimp only at h
  obtain ⟨P, hP⟩ : ∃ P, P = Real.sqrt (meanR ((Np.strided (s.map fun z => z - meanC (Np.strided s os)) os).map fun z => ‖z‖ ^ 2)) := ⟨_, rfl⟩
  rw [← hP] at h
  split_ifs at h with hP0
  rw [Option.some.injEq] at h
  rw [strided_map] at hP
  rw [← h, strided_map, strided_map]
  obtain ⟨t, ht⟩ : ∃ t, t = Np.strided s os := ⟨_, rfl⟩
  rw [← ht] at hP ⊢
  constructor
  · rw [sum_map_div'', List.map_id', sum_centred, zero_div]
  · have hnn : 0 ≤ meanR ((t.map fun z => z - meanC t).map fun z => ‖z‖ ^ 2) :=
      div_nonneg (List.sum_nonneg (by simp only [List.mem_map]; rintro _ ⟨z, -, rfl⟩; positivity)) (Nat.cast_nonneg _)
    have hP2 : P ^ 2 = meanR ((t.map fun z => z - meanC t).map fun z => ‖z‖ ^ 2) := by rw [hP, Real.sq_sqrt hnn]
    have hpos : P ^ 2 ≠ 0 := pow_ne_zero 2 hP0
    rw [List.map_map]
    have : ((fun z : ℂ => ‖z‖ ^ 2) ∘ fun z : ℂ => z / (P : ℂ)) = fun z => ‖z‖ ^ 2 / P ^ 2 := by
      funext z
      simp only [Function.comp]
      rw [norm_div, Complex.norm_real, Real.norm_eq_abs, div_pow, sq_abs]
    rw [this, sum_map_div'', List.length_map]
    have h3 := hP2
    rw [meanR, List.length_map, List.length_map] at h3
    have hn : (t.length : ℝ) ≠ 0 := by
      intro h0
      rw [h0, div_zero] at h3
      exact hpos h3
    rw [List.length_map, div_eq_iff hpos, h3]
    field_simp

/-- QPSK behind a front end with gains 2 and 3, crosstalk 1 and an offset. -/
example : ∃ y, orthonormRow 1 (([⟨1, 1⟩, ⟨1, -1⟩, ⟨-1, 1⟩, ⟨-1, -1⟩] : List ℂ).map (frontEnd 2 3 1 ⟨5, 7⟩)) = some y ∧
    orthonormRow 1 y = some (([⟨1, 1⟩, ⟨1, -1⟩, ⟨-1, 1⟩, ⟨-1, -1⟩] : List ℂ).map fun z : ℂ => z / ((Real.sqrt (meanR (([⟨1, 1⟩, ⟨1, -1⟩, ⟨-1, 1⟩, ⟨-1, -1⟩] : List ℂ).map fun z => ‖z‖ ^ 2)) : ℝ) : ℂ)) ∧
    compIQ (([⟨1, 1⟩, ⟨1, -1⟩, ⟨-1, 1⟩, ⟨-1, -1⟩] : List ℂ).map (frontEnd 2 3 1 ⟨5, 7⟩)) = some (([⟨1, 1⟩, ⟨1, -1⟩, ⟨-1, 1⟩, ⟨-1, -1⟩] : List ℂ).map fun z => ((2 : ℝ) : ℂ) * z) := by
  have hb : Balanced [⟨1, 1⟩, ⟨1, -1⟩, ⟨-1, 1⟩, ⟨-1, -1⟩] := by
    refine ⟨?_, ?_, ?_⟩
    · simp only [List.sum_cons, List.sum_nil]
      apply Complex.ext <;> simp
    · norm_num
    · norm_num
  have hi : IndepIQ [⟨1, 1⟩, ⟨1, -1⟩, ⟨-1, 1⟩, ⟨-1, -1⟩] := by
    intro a b h
    rw [hb.meanC] at h
    have h1 := h ⟨1, 1⟩ (by simp)
    have h2 := h ⟨1, -1⟩ (by simp)
    simp only [sub_zero] at h1 h2
    constructor <;> linarith
  obtain ⟨y, h1, h2⟩ := C236_orthonormalize _ hi hb (by norm_num : (0 : ℝ) < 2) (by norm_num : (0 : ℝ) < 3) 1 ⟨5, 7⟩
  exact ⟨y, h1, h2, C236_compIQ _ hi hb (by norm_num) (by norm_num) (by norm_num) ⟨5, 7⟩⟩

end Qampy
