import Verif.Model.RoundedEq
import Verif.Props.Rounded
import Verif.Props.Equaliser

/-!
C181: decisions with rounded arithmetic. C182: the equaliser filter with rounded arithmetic.
-/

namespace Qampy

/-- Rounding of a number that is not negative. -/
theorem Rounds.nonneg_bounds {fl : ℝ → ℝ} {u : ℝ} (h : Rounds fl u) {x : ℝ} (hx : 0 ≤ x) : (1 - u) * x ≤ fl x ∧ fl x ≤ (1 + u) * x := by
  have := h.err x
  rw [abs_of_nonneg hx, abs_le] at this
  constructor <;> linarith [this.1, this.2]

theorem Rounds.sq_bounds {fl : ℝ → ℝ} {u : ℝ} (h : Rounds fl u) (hu : u ≤ 1) (x : ℝ) : (1 - u) ^ 2 * x ^ 2 ≤ fl x ^ 2 ∧ fl x ^ 2 ≤ (1 + u) ^ 2 * x ^ 2 := by
  have h1 := h.err x
  have h0 := h.nonneg
  have h2 : |fl x| ≤ (1 + u) * |x| := by
    have : |fl x| ≤ |fl x - x| + |x| := by simpa using abs_add_le (fl x - x) x
    linarith
  have h3 : (1 - u) * |x| ≤ |fl x| := by
    have : |x| ≤ |x - fl x| + |fl x| := by simpa using abs_add_le (x - fl x) (fl x)
    rw [abs_sub_comm] at this
    linarith
  constructor
  · rw [← sq_abs x, ← sq_abs (fl x), ← mul_pow]
    exact pow_le_pow_left₀ (mul_nonneg (by linarith) (abs_nonneg _)) h3 2
  · rw [← sq_abs x, ← sq_abs (fl x), ← mul_pow]
    exact pow_le_pow_left₀ (abs_nonneg _) h2 2

/-- A computed distance that agrees with the squared distance up to factors. -/
structure DistOk (dist : ℂ → ℂ → ℝ) (lo hi : ℝ) : Prop where
  lo_pos : 0 < lo
  lower : ∀ X s, lo * ‖X - s‖ ^ 2 ≤ dist X s
  upper : ∀ X s, dist X s ≤ hi * ‖X - s‖ ^ 2

theorem normSq_parts (X s : ℂ) : ‖X - s‖ ^ 2 = (X.re - s.re) ^ 2 + (X.im - s.im) ^ 2 := by
  rw [← Complex.normSq_eq_norm_sq, Complex.normSq_apply, Complex.sub_re, Complex.sub_im]
  ring

/-- C181: the distances of the blind phase search are right up to four roundings. -/
theorem C181_distance {fl : ℝ → ℝ} {u : ℝ} (h : Rounds fl u) (hu : u < 1) : DistOk (distSqFl fl) ((1 - u) ^ 4) ((1 + u) ^ 4) := by
  have h0 := h.nonneg
  have key : ∀ X s, (1 - u) ^ 4 * ‖X - s‖ ^ 2 ≤ distSqFl fl X s ∧ distSqFl fl X s ≤ (1 + u) ^ 4 * ‖X - s‖ ^ 2 := by
    intro X s
    rw [normSq_parts]
    unfold distSqFl
    obtain ⟨a1, a2⟩ := h.sq_bounds hu.le (X.re - s.re)
    obtain ⟨b1, b2⟩ := h.sq_bounds hu.le (X.im - s.im)
    obtain ⟨c1, c2⟩ := h.nonneg_bounds (sq_nonneg (fl (X.re - s.re)))
    obtain ⟨d1, d2⟩ := h.nonneg_bounds (sq_nonneg (fl (X.im - s.im)))
    have hs : 0 ≤ fl (fl (X.re - s.re) ^ 2) + fl (fl (X.im - s.im) ^ 2) := by
      have := mul_nonneg (by linarith : (0 : ℝ) ≤ 1 - u) (sq_nonneg (fl (X.re - s.re)))
      have := mul_nonneg (by linarith : (0 : ℝ) ≤ 1 - u) (sq_nonneg (fl (X.im - s.im)))
      linarith
    obtain ⟨e1, e2⟩ := h.nonneg_bounds hs
    generalize (X.re - s.re) ^ 2 = p at *
    generalize (X.im - s.im) ^ 2 = q at *
    generalize fl (X.re - s.re) ^ 2 = p1 at *
    generalize fl (X.im - s.im) ^ 2 = q1 at *
    generalize fl p1 = p2 at *
    generalize fl q1 = q2 at *
    have hm : (0 : ℝ) ≤ 1 - u := by linarith
    have hp : (0 : ℝ) ≤ 1 + u := by linarith
    constructor
    · calc (1 - u) ^ 4 * (p + q) = (1 - u) * ((1 - u) * ((1 - u) ^ 2 * p) + (1 - u) * ((1 - u) ^ 2 * q)) := by ring
        _ ≤ (1 - u) * ((1 - u) * p1 + (1 - u) * q1) := mul_le_mul_of_nonneg_left (add_le_add (mul_le_mul_of_nonneg_left a1 hm) (mul_le_mul_of_nonneg_left b1 hm)) hm
        _ ≤ (1 - u) * (p2 + q2) := mul_le_mul_of_nonneg_left (by linarith) hm
        _ ≤ _ := e1
    · calc fl (p2 + q2) ≤ (1 + u) * (p2 + q2) := e2
        _ ≤ (1 + u) * ((1 + u) * p1 + (1 + u) * q1) := mul_le_mul_of_nonneg_left (by linarith) hp
        _ ≤ (1 + u) * ((1 + u) * ((1 + u) ^ 2 * p) + (1 + u) * ((1 + u) ^ 2 * q)) := mul_le_mul_of_nonneg_left (add_le_add (mul_le_mul_of_nonneg_left a2 hp) (mul_le_mul_of_nonneg_left b2 hp)) hp
        _ = _ := by ring
  exact ⟨pow_pos (by linarith) 4, fun X s => (key X s).1, fun X s => (key X s).2⟩

/-- The difference with rounded parts. -/
theorem norm_flDiff {fl : ℝ → ℝ} {u : ℝ} (h : Rounds fl u) (hu : u ≤ 1) (X s : ℂ) :
    (1 - u) * ‖X - s‖ ≤ ‖(⟨fl (X.re - s.re), fl (X.im - s.im)⟩ : ℂ)‖ ∧ ‖(⟨fl (X.re - s.re), fl (X.im - s.im)⟩ : ℂ)‖ ≤ (1 + u) * ‖X - s‖ := by
  have h0 := h.nonneg
  obtain ⟨a1, a2⟩ := h.sq_bounds hu (X.re - s.re)
  obtain ⟨b1, b2⟩ := h.sq_bounds hu (X.im - s.im)
  have e : ‖(⟨fl (X.re - s.re), fl (X.im - s.im)⟩ : ℂ)‖ ^ 2 = fl (X.re - s.re) ^ 2 + fl (X.im - s.im) ^ 2 := by
    rw [← Complex.normSq_eq_norm_sq, Complex.normSq_apply]
    ring
  constructor
  · apply le_of_sq_le_sq _ (norm_nonneg _)
    rw [mul_pow, normSq_parts, e]
    linarith
  · apply le_of_sq_le_sq _ (mul_nonneg (by linarith) (norm_nonneg _))
    rw [mul_pow, normSq_parts, e]
    linarith

/-- C181: the distances of the decisions, with an absolute value of relative error `v`. -/
theorem C181_absolute {fl : ℝ → ℝ} {flAbs : ℂ → ℝ} {u v : ℝ} (h : Rounds fl u) (hu : u < 1) (hv : v < 1) (hv0 : 0 ≤ v) (ha : ∀ z, |flAbs z - ‖z‖| ≤ v * ‖z‖) :
    DistOk (fun X s => distAbsFl fl flAbs X s ^ 2) (((1 - u) * (1 - v)) ^ 2) (((1 + u) * (1 + v)) ^ 2) ∧
      DistOk (distAbsSqFl fl flAbs) ((1 - u) * ((1 - u) * (1 - v)) ^ 2) ((1 + u) * ((1 + u) * (1 + v)) ^ 2) := by
  have h0 := h.nonneg
  have hm : 0 < (1 - u) * (1 - v) := mul_pos (by linarith) (by linarith)
  have key : ∀ X s, (1 - u) * (1 - v) * ‖X - s‖ ≤ distAbsFl fl flAbs X s ∧ distAbsFl fl flAbs X s ≤ (1 + u) * (1 + v) * ‖X - s‖ := by
    intro X s
    obtain ⟨a1, a2⟩ := norm_flDiff h hu.le X s
    have b := abs_le.1 (ha ⟨fl (X.re - s.re), fl (X.im - s.im)⟩)
    unfold distAbsFl
    generalize ‖(⟨fl (X.re - s.re), fl (X.im - s.im)⟩ : ℂ)‖ = n at *
    constructor
    · calc (1 - u) * (1 - v) * ‖X - s‖ = (1 - v) * ((1 - u) * ‖X - s‖) := by ring
        _ ≤ (1 - v) * n := mul_le_mul_of_nonneg_left a1 (by linarith)
        _ ≤ _ := by linarith [b.1]
    · calc flAbs ⟨fl (X.re - s.re), fl (X.im - s.im)⟩ ≤ (1 + v) * n := by linarith [b.2]
        _ ≤ (1 + v) * ((1 + u) * ‖X - s‖) := mul_le_mul_of_nonneg_left a2 (by linarith)
        _ = _ := by ring
  have key2 : ∀ X s, ((1 - u) * (1 - v)) ^ 2 * ‖X - s‖ ^ 2 ≤ distAbsFl fl flAbs X s ^ 2 ∧ distAbsFl fl flAbs X s ^ 2 ≤ ((1 + u) * (1 + v)) ^ 2 * ‖X - s‖ ^ 2 := by
    intro X s
    obtain ⟨k1, k2⟩ := key X s
    have hn : 0 ≤ (1 - u) * (1 - v) * ‖X - s‖ := mul_nonneg hm.le (norm_nonneg _)
    rw [← mul_pow, ← mul_pow]
    exact ⟨pow_le_pow_left₀ hn k1 2, pow_le_pow_left₀ (hn.trans k1) k2 2⟩
  refine ⟨⟨pow_pos hm 2, fun X s => (key2 X s).1, fun X s => (key2 X s).2⟩, mul_pos (by linarith) (pow_pos hm 2), fun X s => ?_, fun X s => ?_⟩
  · obtain ⟨c1, -⟩ := h.nonneg_bounds (sq_nonneg (distAbsFl fl flAbs X s))
    unfold distAbsSqFl
    rw [mul_assoc]
    exact (mul_le_mul_of_nonneg_left (key2 X s).1 (by linarith)).trans c1
  · obtain ⟨-, c1⟩ := h.nonneg_bounds (sq_nonneg (distAbsFl fl flAbs X s))
    unfold distAbsSqFl
    rw [mul_assoc]
    exact c1.trans (mul_le_mul_of_nonneg_left (key2 X s).2 (by linarith))

/-- C181: without rounding these are the decisions of the other models. -/
theorem C181_exact (X : ℂ) (symbs : List ℂ) : detSymbolBy (fun X s => ‖X - s‖ ^ 2) X symbs 1 1000 = detSymbol X symbs ∧ detArgminBy (fun X s => ‖X - s‖) X symbs = detSymbolArgmin X symbs := by
  refine ⟨?_, rfl⟩
  have : ∀ (l : List ℂ) (s : ℂ) (d : ℝ), detSymbolBy (fun X s => ‖X - s‖ ^ 2) X l s d = detSymbolGo X l s d := by
    intro l
    induction l with
    | nil => intro s d; rfl
    | cons c l ih => intro s d; unfold detSymbolBy detSymbolGo; rw [ih, ih]
  exact this symbs 1 1000

theorem detSymbolBy_min (dist : ℂ → ℂ → ℝ) (X : ℂ) {s0 : ℂ} : ∀ (l : List ℂ) (s : ℂ) (d : ℝ), s0 ∈ l → (∀ c ∈ l, c ≠ s0 → dist X s0 < dist X c) → dist X s0 < d → (detSymbolBy dist X l s d) = (s0, dist X s0)
  | [], _, _, h, _, _ => by simp at h
  | c :: l, s, d, h, hlt, hd => by
    unfold detSymbolBy
    by_cases hc : c = s0
    · rw [hc, if_pos hd]
      have : ∀ (l : List ℂ), (∀ c ∈ l, c ≠ s0 → dist X s0 < dist X c) → detSymbolBy dist X l s0 (dist X s0) = (s0, dist X s0) := by
        intro l
        induction l with
        | nil => intro _; rfl
        | cons a l ih =>
          intro hl
          unfold detSymbolBy
          rw [if_neg, ih fun c hc => hl c (List.mem_cons_of_mem _ hc)]
          by_cases ha : a = s0
          · rw [ha]; exact lt_irrefl _
          · have := hl a (by simp) ha
            linarith
      exact this l fun c hc => hlt c (List.mem_cons_of_mem _ hc)
    · have hl : s0 ∈ l := by
        rcases List.mem_cons.1 h with h | h
        · exact absurd h.symm hc
        · exact h
      have hl2 : ∀ c ∈ l, c ≠ s0 → dist X s0 < dist X c := fun c hc => hlt c (List.mem_cons_of_mem _ hc)
      have hcd := hlt c (by simp) hc
      by_cases hcc : dist X c < d
      · rw [if_pos hcc]
        exact detSymbolBy_min dist X l c _ hl hl2 hcd
      · rw [if_neg hcc]
        exact detSymbolBy_min dist X l s d hl hl2 hd

/-- A sample well inside of the decision region: all other symbols are farther away, by more than the factor `κ` of the roundings. -/
theorem dist_lt_of_margin {dist : ℂ → ℂ → ℝ} {lo hi κ D : ℝ} (h : DistOk dist lo hi) (hκ : hi ≤ κ ^ 2 * lo) (hκ0 : 0 ≤ κ) {X s0 c : ℂ} (hD : D ≤ ‖s0 - c‖) (hX : (1 + κ) * ‖X - s0‖ < D) : dist X s0 < dist X c := by
  have h1 : κ * ‖X - s0‖ < ‖X - c‖ := by
    have : ‖s0 - c‖ ≤ ‖X - s0‖ + ‖X - c‖ := by
      calc ‖s0 - c‖ = ‖(X - c) - (X - s0)‖ := by congr 1; ring
        _ ≤ ‖X - c‖ + ‖X - s0‖ := norm_sub_le _ _
        _ = _ := by ring
    linarith
  have h2 : (κ * ‖X - s0‖) ^ 2 < ‖X - c‖ ^ 2 := pow_lt_pow_left₀ h1 (mul_nonneg hκ0 (norm_nonneg _)) (by norm_num)
  calc dist X s0 ≤ hi * ‖X - s0‖ ^ 2 := h.upper X s0
    _ ≤ κ ^ 2 * lo * ‖X - s0‖ ^ 2 := mul_le_mul_of_nonneg_right hκ (sq_nonneg _)
    _ = lo * (κ * ‖X - s0‖) ^ 2 := by ring
    _ < lo * ‖X - c‖ ^ 2 := mul_lt_mul_of_pos_left h2 h.lo_pos
    _ ≤ dist X c := h.lower X c

/-- The alphabet: distances at least `D` between symbols at different places. -/
theorem far_of_pairwise {D : ℝ} {symbs : List ℂ} (hsep : symbs.Pairwise fun a b => D ≤ ‖a - b‖) {i j : Nat} {a b : ℂ} (hi : symbs[i]? = some a) (hj : symbs[j]? = some b) (hne : i ≠ j) : D ≤ ‖a - b‖ := by
  obtain ⟨hi1, rfl⟩ := List.getElem?_eq_some_iff.1 hi
  obtain ⟨hj1, rfl⟩ := List.getElem?_eq_some_iff.1 hj
  rcases Nat.lt_or_gt_of_ne hne with h | h
  · exact List.pairwise_iff_getElem.1 hsep i j hi1 hj1 h
  · rw [norm_sub_rev]
    exact List.pairwise_iff_getElem.1 hsep j i hj1 hi1 h

/-- C181: in an alphabet with distances at least `D`, a sample closer to a symbol than `D/(1+κ)` is decided on that symbol by `det_symbol`, in spite of the rounding; `κ` is close to one, so that only
samples next to the border of the decision region can be decided differently. -/
theorem C181_decision {dist : ℂ → ℂ → ℝ} {lo hi κ D : ℝ} (h : DistOk dist lo hi) (hκ : hi ≤ κ ^ 2 * lo) (hκ1 : 1 ≤ κ) (hhi : 1 ≤ hi) {symbs : List ℂ} (hsep : symbs.Pairwise fun a b => D ≤ ‖a - b‖)
    {X s0 : ℂ} (hs0 : s0 ∈ symbs) (hX : (1 + κ) * ‖X - s0‖ < D) (h1000 : hi * ‖X - s0‖ ^ 2 < 1000) :
    detSymbolBy dist X symbs 1 1000 = (s0, dist X s0) ∧ (detSymbolBy dist X symbs 1 1000).1 = (detSymbol X symbs).1 := by
  have hlt : ∀ c ∈ symbs, c ≠ s0 → D ≤ ‖s0 - c‖ := by
    intro c hc hne
    obtain ⟨i, hi⟩ := List.getElem?_of_mem hc
    obtain ⟨j, hj⟩ := List.getElem?_of_mem hs0
    refine far_of_pairwise hsep hj hi fun e => hne ?_
    rw [e, hi] at hj
    exact Option.some.inj hj
  have h1 := detSymbolBy_min dist X symbs 1 1000 hs0 (fun c hc hne => dist_lt_of_margin h hκ (by linarith) (hlt c hc hne) hX) (lt_of_le_of_lt (h.upper X s0) h1000)
  refine ⟨h1, ?_⟩
  have hn : 0 ≤ ‖X - s0‖ := norm_nonneg _
  have he : DistOk (fun X s => ‖X - s‖ ^ 2) 1 1 := ⟨one_pos, fun X s => by simp, fun X s => by simp⟩
  have hX1 : (1 + 1) * ‖X - s0‖ < D := lt_of_le_of_lt (mul_le_mul_of_nonneg_right (by linarith) hn) hX
  have h2 := detSymbolBy_min (fun X s => ‖X - s‖ ^ 2) X symbs 1 1000 hs0 (fun c hc hne => dist_lt_of_margin he (by norm_num) zero_le_one (hlt c hc hne) hX1) (by nlinarith [sq_nonneg ‖X - s0‖])
  rw [h1, ← (C181_exact X symbs).1, h2]

/-- C181: the same for the decision by the smallest absolute value, with the index. -/
theorem C181_argmin {dist : ℂ → ℂ → ℝ} {lo hi κ D : ℝ} (h : DistOk (fun X s => dist X s ^ 2) lo hi) (hd : ∀ X s, 0 ≤ dist X s) (hκ : hi ≤ κ ^ 2 * lo) (hκ0 : 0 ≤ κ) {symbs : List ℂ}
    (hsep : symbs.Pairwise fun a b => D ≤ ‖a - b‖) {X s0 : ℂ} {j : Nat} (hj : symbs[j]? = some s0) (hX : (1 + κ) * ‖X - s0‖ < D) :
    detArgminBy dist X symbs = some (s0, dist X s0, j) := by
  have hlt : ∀ i s', symbs[i]? = some s' → i ≠ j → dist X s0 < dist X s' := by
    intro i s' hi hne
    have := dist_lt_of_margin h hκ hκ0 (far_of_pairwise hsep hj hi (Ne.symm hne)) hX
    exact lt_of_pow_lt_pow_left₀ 2 (hd _ _) this
  have ha : Np.argmin (symbs.map fun s => dist X s) = some j := by
    apply Np.argmin_eq_of (m := dist X s0)
    · rw [List.getElem?_map, hj]; rfl
    · intro x hx
      obtain ⟨s', hs', rfl⟩ := List.mem_map.1 hx
      obtain ⟨i, hi⟩ := List.getElem?_of_mem hs'
      by_cases hij : i = j
      · subst hij; rw [hj] at hi
        have : s0 = s' := by simpa using hi
        rw [this]
      · exact (hlt i s' hi hij).le
    · intro i hi x hx
      rw [List.getElem?_map, Option.map_eq_some_iff] at hx
      obtain ⟨s', hs', rfl⟩ := hx
      exact hlt i s' hs' (by omega)
  unfold detArgminBy
  rw [ha]
  simp only
  rw [List.getD_eq_getElem?_getD, List.getD_eq_getElem?_getD, List.getElem?_map, hj]
  rfl

/-! ## The filter -/

/-- A complex number with parts of relative error `u` each. -/
theorem norm_parts_err {u : ℝ} {a b : ℂ} (h0 : 0 ≤ u) (hr : |a.re - b.re| ≤ u * |b.re|) (hi : |a.im - b.im| ≤ u * |b.im|) : ‖a - b‖ ≤ u * ‖b‖ := by
  apply le_of_sq_le_sq _ (mul_nonneg h0 (norm_nonneg _))
  have e : ∀ z : ℂ, ‖z‖ ^ 2 = z.re ^ 2 + z.im ^ 2 := fun z => by
    rw [← Complex.normSq_eq_norm_sq, Complex.normSq_apply]; ring
  have f : ∀ x y : ℝ, |x| ≤ u * |y| → x ^ 2 ≤ u ^ 2 * y ^ 2 := fun x y hxy => by
    rw [← sq_abs x, ← sq_abs y, ← mul_pow]
    exact pow_le_pow_left₀ (abs_nonneg _) hxy 2
  rw [mul_pow, e, e, Complex.sub_re, Complex.sub_im]
  linarith [f _ _ hr, f _ _ hi]

theorem addFl_err {fl : ℝ → ℝ} {u : ℝ} (h : Rounds fl u) (a b : ℂ) : ‖addFl fl a b - (a + b)‖ ≤ u * ‖a + b‖ :=
  norm_parts_err h.nonneg (by simpa [addFl] using h.err (a.re + b.re)) (by simpa [addFl] using h.err (a.im + b.im))

/-- The error of one complex multiplication. -/
noncomputable def mulErr (u : ℝ) : ℝ := 2 * (2 * u + u ^ 2)

theorem mulFl_err {fl : ℝ → ℝ} {u : ℝ} (h : Rounds fl u) (a b : ℂ) : ‖mulFl fl a b - a * b‖ ≤ mulErr u * (‖a‖ * ‖b‖) := by
  have h0 := h.nonneg
  have part : ∀ x y z : ℝ, |z - (x + y)| ≤ u * (|x| + |y|) → |fl z - (x + y)| ≤ (2 * u + u ^ 2) * (|x| + |y|) := by
    intro x y z hz
    have h1 := h.err z
    have h2 : |z| ≤ (1 + u) * (|x| + |y|) := by
      have e : z = (z - (x + y)) + (x + y) := by ring
      have := abs_add_le (z - (x + y)) (x + y)
      rw [← e] at this
      have := abs_add_le x y
      linarith
    have h3 : |fl z - (x + y)| ≤ |fl z - z| + |z - (x + y)| := abs_sub_le _ _ _
    have := mul_le_mul_of_nonneg_left h2 h0
    nlinarith
  have cs : ∀ p q r t : ℝ, |p * r| + |q * t| ≤ √(p ^ 2 + q ^ 2) * √(r ^ 2 + t ^ 2) := by
    intro p q r t
    rw [← Real.sqrt_mul (by positivity)]
    apply Real.le_sqrt_of_sq_le
    rw [abs_mul, abs_mul, ← sq_abs p, ← sq_abs q, ← sq_abs r, ← sq_abs t]
    nlinarith [sq_nonneg (|p| * |t| - |q| * |r|)]
  have en : ∀ z : ℂ, ‖z‖ = √(z.re ^ 2 + z.im ^ 2) := fun z => by
    rw [Complex.norm_def, Complex.normSq_apply, sq, sq]
  have hv : 0 ≤ 2 * u + u ^ 2 := by positivity
  have two : ∀ p q : ℝ, |fl p + fl q - (p + q)| ≤ u * (|p| + |q|) ∧ |fl p - fl q - (p + -q)| ≤ u * (|p| + |-q|) := by
    intro p q
    have hp := h.err p
    have hq := h.err q
    constructor
    · calc |fl p + fl q - (p + q)| = |(fl p - p) + (fl q - q)| := by congr 1; ring
        _ ≤ |fl p - p| + |fl q - q| := abs_add_le _ _
        _ ≤ _ := by linarith
    · rw [abs_neg]
      calc |fl p - fl q - (p + -q)| = |(fl p - p) - (fl q - q)| := by congr 1; ring
        _ ≤ |fl p - p| + |fl q - q| := abs_sub _ _
        _ ≤ _ := by linarith
  have hre : |(mulFl fl a b - a * b).re| ≤ (2 * u + u ^ 2) * (‖a‖ * ‖b‖) := by
    have h1 := part _ _ _ (two (a.re * b.re) (a.im * b.im)).2
    rw [abs_neg] at h1
    have h2 := cs a.re a.im b.re b.im
    rw [← en, ← en] at h2
    rw [Complex.sub_re, Complex.mul_re, sub_eq_add_neg (a.re * b.re)]
    exact h1.trans (mul_le_mul_of_nonneg_left h2 hv)
  have him : |(mulFl fl a b - a * b).im| ≤ (2 * u + u ^ 2) * (‖a‖ * ‖b‖) := by
    have h1 := part _ _ _ (two (a.re * b.im) (a.im * b.re)).1
    have h2 := cs a.re a.im b.im b.re
    rw [add_comm (b.im ^ 2), ← en, ← en] at h2
    rw [Complex.sub_im, Complex.mul_im]
    exact h1.trans (mul_le_mul_of_nonneg_left h2 hv)
  calc ‖mulFl fl a b - a * b‖ ≤ |(mulFl fl a b - a * b).re| + |(mulFl fl a b - a * b).im| := Complex.norm_le_abs_re_add_abs_im _
    _ ≤ _ := by unfold mulErr; linarith

/-- One step of the accumulation: the error factor grows by one rounding. -/
theorem accum_step {fl : ℝ → ℝ} {u g A : ℝ} (h : Rounds fl u) (hg : 1 + mulErr u ≤ g) {acc c e w : ℂ} (hc : ‖c‖ ≤ A) (ha : ‖acc - c‖ ≤ (g - 1) * A) :
    ‖c + e * w‖ ≤ A + ‖e‖ * ‖w‖ ∧ ‖addFl fl acc (mulFl fl e w) - (c + e * w)‖ ≤ (g * (1 + u) - 1) * (A + ‖e‖ * ‖w‖) := by
  have h0 := h.nonneg
  have hm0 : 0 ≤ mulErr u := by unfold mulErr; positivity
  have hb : ‖c + e * w‖ ≤ A + ‖e‖ * ‖w‖ := (norm_add_le _ _).trans (add_le_add hc (norm_mul _ _).le)
  have hA : 0 ≤ A := (norm_nonneg _).trans hc
  have hew : 0 ≤ ‖e‖ * ‖w‖ := by positivity
  refine ⟨hb, ?_⟩
  have h1 := addFl_err h acc (mulFl fl e w)
  have h2 := mulFl_err h e w
  have h3 : ‖acc + mulFl fl e w - (c + e * w)‖ ≤ (g - 1) * (A + ‖e‖ * ‖w‖) := by
    calc ‖acc + mulFl fl e w - (c + e * w)‖ = ‖(acc - c) + (mulFl fl e w - e * w)‖ := by congr 1; ring
      _ ≤ ‖acc - c‖ + ‖mulFl fl e w - e * w‖ := norm_add_le _ _
      _ ≤ (g - 1) * A + (g - 1) * (‖e‖ * ‖w‖) := add_le_add ha (h2.trans (mul_le_mul_of_nonneg_right (by linarith) hew))
      _ = _ := by ring
  have h4 : ‖acc + mulFl fl e w‖ ≤ g * (A + ‖e‖ * ‖w‖) := by
    calc ‖acc + mulFl fl e w‖ = ‖(acc + mulFl fl e w - (c + e * w)) + (c + e * w)‖ := by congr 1; ring
      _ ≤ ‖acc + mulFl fl e w - (c + e * w)‖ + ‖c + e * w‖ := norm_add_le _ _
      _ ≤ (g - 1) * (A + ‖e‖ * ‖w‖) + (A + ‖e‖ * ‖w‖) := add_le_add h3 hb
      _ = _ := by ring
  calc ‖addFl fl acc (mulFl fl e w) - (c + e * w)‖ = ‖(addFl fl acc (mulFl fl e w) - (acc + mulFl fl e w)) + (acc + mulFl fl e w - (c + e * w))‖ := by congr 1; ring
    _ ≤ ‖addFl fl acc (mulFl fl e w) - (acc + mulFl fl e w)‖ + ‖acc + mulFl fl e w - (c + e * w)‖ := norm_add_le _ _
    _ ≤ u * (g * (A + ‖e‖ * ‖w‖)) + (g - 1) * (A + ‖e‖ * ‖w‖) := add_le_add (h1.trans (mul_le_mul_of_nonneg_left h4 h0)) h3
    _ = _ := by ring

/-- The inner loop over the taps. -/
theorem accum_loop {fl : ℝ → ℝ} {u : ℝ} (h : Rounds fl u) (e w : Nat → ℂ) : ∀ (n : Nat) (acc c : ℂ) (g A : ℝ), 1 + mulErr u ≤ g → ‖c‖ ≤ A → ‖acc - c‖ ≤ (g - 1) * A →
    ∃ y, (List.range n).foldlM (fun acc i => some (addFl fl acc (mulFl fl (e i) (w i)))) acc = some y ∧
      ‖c + ∑ i ∈ Finset.range n, e i * w i‖ ≤ A + ∑ i ∈ Finset.range n, ‖e i‖ * ‖w i‖ ∧
      ‖y - (c + ∑ i ∈ Finset.range n, e i * w i)‖ ≤ (g * (1 + u) ^ n - 1) * (A + ∑ i ∈ Finset.range n, ‖e i‖ * ‖w i‖) := by
  intro n
  induction n with
  | zero =>
    intro acc c g A _ hc ha
    exact ⟨acc, rfl, by simpa using hc, by simpa using ha⟩
  | succ n ih =>
    intro acc c g A hg hc ha
    obtain ⟨y, h1, h2, h3⟩ := ih acc c g A hg hc ha
    have hu1 : 1 ≤ (1 + u) ^ n := one_le_pow₀ (by linarith [h.nonneg])
    have hm0 : 0 ≤ mulErr u := by
      have := h.nonneg
      unfold mulErr; positivity
    have hg' : 1 + mulErr u ≤ g * (1 + u) ^ n := hg.trans (le_mul_of_one_le_right (by linarith) hu1)
    obtain ⟨s1, s2⟩ := accum_step h hg' (e := e n) (w := w n) h2 h3
    refine ⟨addFl fl y (mulFl fl (e n) (w n)), ?_, ?_, ?_⟩
    · rw [List.range_succ, List.foldlM_append, h1]
      rfl
    · rw [Finset.sum_range_succ, Finset.sum_range_succ, ← add_assoc, ← add_assoc]
      exact s1
    · rw [Finset.sum_range_succ, Finset.sum_range_succ, ← add_assoc, ← add_assoc, pow_succ, ← mul_assoc]
      exact s2

theorem foldlM_option_congr {σ ι : Type} {f g : σ → ι → Option σ} : ∀ (l : List ι) (s : σ), (∀ s, ∀ i ∈ l, f s i = g s i) → l.foldlM f s = l.foldlM g s
  | [], _, _ => rfl
  | i :: l, s, h => by
    rw [List.foldlM_cons, List.foldlM_cons, h s i (by simp)]
    cases g s i with
    | none => rfl
    | some t => exact foldlM_option_congr l t fun s j hj => h s j (List.mem_cons_of_mem _ hj)

/-- C182: the output of the equaliser filter with rounded operations differs from the exact sum by a bound that grows linearly (to first order) with the number of taps. -/
theorem C182_filter {fl : ℝ → ℝ} {u : ℝ} (h : Rounds fl u) {E w : List (List ℂ)} {p n : Nat} (hE : Rect E p n) (hw : Rect w p n) :
    ∃ y, applyFilterFl fl E w n = some y ∧ ‖y - ∑ k ∈ Finset.range p, ∑ i ∈ Finset.range n, val2 E k i * val2 w k i‖ ≤
      ((1 + mulErr u) * (1 + u) ^ (p * n) - 1) * ∑ k ∈ Finset.range p, ∑ i ∈ Finset.range n, ‖val2 E k i‖ * ‖val2 w k i‖ := by
  have hu := h.nonneg
  have hm0 : 0 ≤ mulErr u := by unfold mulErr; positivity
  have outer : ∀ q, q ≤ p → ∃ y, (List.range q).foldlM (fun acc k => (List.range n).foldlM (fun acc i => do
      let e ← at2 E k i
      let w ← at2 w k i
      some (addFl fl acc (mulFl fl e w))) acc) (0 : ℂ) = some y ∧
        ‖∑ k ∈ Finset.range q, ∑ i ∈ Finset.range n, val2 E k i * val2 w k i‖ ≤ ∑ k ∈ Finset.range q, ∑ i ∈ Finset.range n, ‖val2 E k i‖ * ‖val2 w k i‖ ∧
        ‖y - ∑ k ∈ Finset.range q, ∑ i ∈ Finset.range n, val2 E k i * val2 w k i‖ ≤
          ((1 + mulErr u) * (1 + u) ^ (q * n) - 1) * ∑ k ∈ Finset.range q, ∑ i ∈ Finset.range n, ‖val2 E k i‖ * ‖val2 w k i‖ := by
    intro q
    induction q with
    | zero =>
      intro _
      exact ⟨0, rfl, by simp, by simp⟩
    | succ q ih =>
      intro hq
      obtain ⟨y, h1, h2, h3⟩ := ih (by omega)
      have hg : 1 + mulErr u ≤ (1 + mulErr u) * (1 + u) ^ (q * n) := le_mul_of_one_le_right (by linarith) (one_le_pow₀ (by linarith))
      obtain ⟨z, g1, g2, g3⟩ := accum_loop h (fun i => val2 E q i) (fun i => val2 w q i) n y _ _ _ hg h2 h3
      refine ⟨z, ?_, ?_, ?_⟩
      · rw [List.range_succ, List.foldlM_append, h1]
        rw [Option.bind_eq_bind, Option.bind_some, List.foldlM_cons]
        have : (List.range n).foldlM (fun acc i => do
            let e ← at2 E q i
            let w ← at2 w q i
            some (addFl fl acc (mulFl fl e w))) y = some z := by
          rw [← g1]
          apply foldlM_option_congr
          intro acc i hi
          rw [at2_of_rect hE (by omega) (List.mem_range.1 hi), at2_of_rect hw (by omega) (List.mem_range.1 hi)]
          rfl
        simp only [Option.bind_eq_bind] at this ⊢
        rw [this]
        rfl
      · rw [Finset.sum_range_succ, Finset.sum_range_succ]
        exact g2
      · rw [Finset.sum_range_succ, Finset.sum_range_succ, Nat.add_mul, one_mul, pow_add, ← mul_assoc]
        exact g3
  obtain ⟨y, h1, -, h3⟩ := outer p le_rfl
  refine ⟨y, ?_, h3⟩
  unfold applyFilterFl
  rw [hE.1]
  exact h1

/-- C182: filter and decision together: if the exact output is inside of the decision region by more than the rounding errors, the decision on the rounded output is the same. -/
theorem C182_decision {fl : ℝ → ℝ} {u : ℝ} (h : Rounds fl u) {E w : List (List ℂ)} {p n : Nat} (hE : Rect E p n) (hw : Rect w p n) {dist : ℂ → ℂ → ℝ} {lo hi κ D δ : ℝ} (hd : DistOk dist lo hi)
    (hκ : hi ≤ κ ^ 2 * lo) (hκ1 : 1 ≤ κ) (hhi : 1 ≤ hi) {symbs : List ℂ} (hsep : symbs.Pairwise fun a b => D ≤ ‖a - b‖) {s0 : ℂ} (hs0 : s0 ∈ symbs)
    (hδ : ((1 + mulErr u) * (1 + u) ^ (p * n) - 1) * ∑ k ∈ Finset.range p, ∑ i ∈ Finset.range n, ‖val2 E k i‖ * ‖val2 w k i‖ ≤ δ)
    (hX : ∀ Y, applyFilter E w n = some Y → (1 + κ) * (‖Y - s0‖ + δ) < D ∧ hi * (‖Y - s0‖ + δ) ^ 2 < 1000) :
    ∃ Y y, applyFilter E w n = some Y ∧ applyFilterFl fl E w n = some y ∧ (detSymbolBy dist y symbs 1 1000).1 = s0 ∧ (detSymbol Y symbs).1 = s0 := by
  obtain ⟨y, hy, he⟩ := C182_filter h hE hw
  have hYe := applyFilter_eq hE hw
  obtain ⟨hX1, hX2⟩ := hX _ hYe
  refine ⟨_, y, hYe, hy, ?_⟩
  generalize (∑ k ∈ Finset.range p, ∑ i ∈ Finset.range n, val2 E k i * val2 w k i) = Y at *
  have hn : 0 ≤ ‖Y - s0‖ := norm_nonneg _
  have hyY := he.trans hδ
  have hδ0 : 0 ≤ δ := (norm_nonneg _).trans hyY
  have hys : ‖y - s0‖ ≤ ‖Y - s0‖ + δ := by
    calc ‖y - s0‖ = ‖(y - Y) + (Y - s0)‖ := by congr 1; ring
      _ ≤ ‖y - Y‖ + ‖Y - s0‖ := norm_add_le _ _
      _ ≤ _ := by linarith
  have a1 : (1 + κ) * ‖y - s0‖ < D := lt_of_le_of_lt (mul_le_mul_of_nonneg_left hys (by linarith)) hX1
  have a2 : hi * ‖y - s0‖ ^ 2 < 1000 := lt_of_le_of_lt (mul_le_mul_of_nonneg_left (pow_le_pow_left₀ (norm_nonneg _) hys 2) (by linarith)) hX2
  have a3 : (1 + κ) * ‖Y - s0‖ < D := lt_of_le_of_lt (mul_le_mul_of_nonneg_left (by linarith) (by linarith)) hX1
  have a4 : hi * ‖Y - s0‖ ^ 2 < 1000 := lt_of_le_of_lt (mul_le_mul_of_nonneg_left (pow_le_pow_left₀ hn (by linarith) 2) (by linarith)) hX2
  have b1 := C181_decision hd hκ hκ1 hhi hsep hs0 a1 a2
  have b2 := C181_decision hd hκ hκ1 hhi hsep hs0 a3 a4
  rw [← b2.2, b2.1, b1.1]
  exact ⟨rfl, rfl⟩

/-- The four symbols of the examples. -/
noncomputable def exQpsk : List ℂ := [⟨1, 1⟩, ⟨-1, 1⟩, ⟨-1, -1⟩, ⟨1, -1⟩]

theorem exQpsk_sep : exQpsk.Pairwise fun a b => (2 : ℝ) ≤ ‖a - b‖ := by
  have key : ∀ a b : ℂ, 4 ≤ (a.re - b.re) ^ 2 + (a.im - b.im) ^ 2 → (2 : ℝ) ≤ ‖a - b‖ := by
    intro a b hab
    apply le_of_sq_le_sq _ (norm_nonneg _)
    rw [normSq_parts]
    linarith
  unfold exQpsk
  simp only [List.pairwise_cons, List.mem_cons, List.not_mem_nil, or_false, forall_eq_or_imp, forall_eq, List.Pairwise.nil, and_true, false_implies, implies_true]
  refine ⟨⟨?_, ?_, ?_⟩, ⟨?_, ?_⟩, ?_⟩ <;> exact key _ _ (by norm_num)

theorem exDist : DistOk (distSqFl (flP 24)) ((1 - 1 / 2 ^ 24) ^ 4) ((1 + 1 / 2 ^ 24) ^ 4) := by
  have := C181_distance (flP_rounds 24) (by norm_num)
  norm_num at this ⊢
  exact this

theorem exNear : ‖(⟨7 / 10, 1⟩ : ℂ) - ⟨1, 1⟩‖ = 3 / 10 := by
  have : (⟨7 / 10, 1⟩ : ℂ) - ⟨1, 1⟩ = ((-(3 / 10) : ℝ) : ℂ) := by
    apply Complex.ext
    · simp; norm_num
    · simp
  rw [this, Complex.norm_real]
  norm_num

example : (detSymbolBy (distSqFl (flP 24)) ⟨7 / 10, 1⟩ exQpsk 1 1000).1 = ⟨1, 1⟩ := by
  have := (C181_decision (κ := 11 / 10) exDist (by norm_num) (by norm_num) (by norm_num) exQpsk_sep (X := ⟨7 / 10, 1⟩) (s0 := ⟨1, 1⟩) (by simp [exQpsk]) (by rw [exNear]; norm_num) (by rw [exNear]; norm_num)).1
  rw [this]

example : (detArgminBy (distAbsFl (flP 24) fun z => ‖z‖) ⟨7 / 10, 1⟩ exQpsk).map (fun r => r.2.2) = some 0 := by
  have hd := (C181_absolute (flP_rounds 24) (flAbs := fun z => ‖z‖) (v := 0) (by norm_num) (by norm_num) le_rfl (by simp)).1
  rw [C181_argmin (κ := 11 / 10) hd (fun X s => norm_nonneg _) (by norm_num) (by norm_num) exQpsk_sep (X := ⟨7 / 10, 1⟩) (s0 := ⟨1, 1⟩) (j := 0) rfl (by rw [exNear]; norm_num)]
  rfl

example : ∃ Y y, applyFilter [[(⟨7 / 10, 1⟩ : ℂ)]] [[1]] 1 = some Y ∧ applyFilterFl (flP 24) [[⟨7 / 10, 1⟩]] [[1]] 1 = some y ∧
    (detSymbolBy (distSqFl (flP 24)) y exQpsk 1 1000).1 = ⟨1, 1⟩ ∧ (detSymbol Y exQpsk).1 = ⟨1, 1⟩ := by
  have hE : Rect [[(⟨7 / 10, 1⟩ : ℂ)]] 1 1 := ⟨rfl, by simp⟩
  have hw : Rect [[(1 : ℂ)]] 1 1 := ⟨rfl, by simp⟩
  have hb : ‖(⟨7 / 10, 1⟩ : ℂ)‖ ≤ 2 := by
    refine (Complex.norm_le_abs_re_add_abs_im _).trans ?_
    norm_num
  refine C182_decision (flP_rounds 24) hE hw (κ := 11 / 10) (D := 2) (δ := 1 / 10) exDist (by norm_num) (by norm_num) (by norm_num) exQpsk_sep (by simp [exQpsk]) ?_ ?_
  · have : ‖(⟨7 / 10, 1⟩ : ℂ)‖ * ‖(1 : ℂ)‖ ≤ 2 := by simpa using hb
    simp only [Finset.sum_range_one]
    refine (mul_le_mul_of_nonneg_left (b := ‖(val2 [[(⟨7 / 10, 1⟩ : ℂ)]] 0 0)‖ * ‖val2 [[(1 : ℂ)]] 0 0‖) (c := 2) (by simpa [val2, at2] using hb) ?_).trans ?_ <;> norm_num [mulErr]
  · intro Y hY
    rw [applyFilter_eq hE hw] at hY
    have : Y = ⟨7 / 10, 1⟩ := by
      rw [← Option.some.inj hY]
      simp [val2, at2]
    rw [this, exNear]
    constructor <;> norm_num

end Qampy
