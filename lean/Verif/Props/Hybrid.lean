import Verif.Model.Hybrid
import Verif.Props.Constellation
import Verif.Props.Phase
import Verif.Props.Metrics

/-!
C136, C137: power of the two parts of a time domain hybrid signal.
-/

namespace Qampy

/-! ### C136 -/

/-- The distances between different points of an alphabet. -/
def pointDistances (S : List ℂ) : Set ℝ := {d | ∃ a ∈ S, ∃ b ∈ S, a ≠ b ∧ d = ‖a - b‖}

/-- Mean power of an alphabet. -/
noncomputable def alphabetPower (S : List ℂ) : ℝ := (S.map fun s => ‖s‖ ^ 2).sum / S.length

theorem ofLexKey_lexKey (z : ℂ) : ofLexKey (lexKey z) = z := rfl

theorem lexKey_lt {a b : ℂ} : lexKey a < lexKey b ↔ a.re < b.re ∨ a.re = b.re ∧ a.im < b.im := Prod.Lex.toLex_lt_toLex

theorem lexKey_inj {a b : ℂ} (h : lexKey a = lexKey b) : a = b := by
  rw [← ofLexKey_lexKey a, h, ofLexKey_lexKey]

theorem mem_npUnique (S : List ℂ) (z : ℂ) : z ∈ npUnique S ↔ z ∈ S := by
  unfold npUnique
  simp only [List.mem_map, Finset.mem_sort, List.mem_toFinset]
  constructor
  · rintro ⟨p, ⟨a, ha, rfl⟩, rfl⟩
    exact ha
  · intro h
    exact ⟨lexKey z, ⟨z, h, rfl⟩, rfl⟩

theorem npUnique_sorted (S : List ℂ) : (npUnique S).Pairwise fun a b => lexKey a < lexKey b := by
  unfold npUnique
  rw [List.pairwise_map]
  exact (Finset.sortedLT_sort _).pairwise

/-- If a closest pair of points is neighbouring in the order of numpy, the smallest step is the minimum distance. -/
theorem minStep_eq {S : List ℂ} {p q : ℂ} (hp : p ∈ S) (hq : q ∈ S) (hlt : lexKey p < lexKey q) (hno : ∀ s ∈ S, ¬ (lexKey p < lexKey s ∧ lexKey s < lexKey q))
    (hmin : ∀ a ∈ S, ∀ b ∈ S, a ≠ b → ‖q - p‖ ≤ ‖a - b‖) : minStep S = .ok ‖q - p‖ := by
  have hs := npUnique_sorted S
  have hm := mem_npUnique S
  obtain ⟨u, hu⟩ : ∃ u, u = npUnique S := ⟨_, rfl⟩
  unfold minStep
  dsimp only
  rw [← hu] at hs hm ⊢
  obtain ⟨i, hi⟩ := List.getElem?_of_mem ((hm p).2 hp)
  obtain ⟨j, hj⟩ := List.getElem?_of_mem ((hm q).2 hq)
  obtain ⟨hi1, hi2⟩ := List.getElem?_eq_some_iff.1 hi
  obtain ⟨hj1, hj2⟩ := List.getElem?_eq_some_iff.1 hj
  rw [List.pairwise_iff_getElem] at hs
  have hij : i < j := by
    rcases lt_trichotomy i j with h | h | h
    · exact h
    · subst h
      rw [hi2] at hj2
      rw [hj2] at hlt
      exact absurd hlt (lt_irrefl _)
    · have := hs j i hj1 hi1 h
      rw [hi2, hj2] at this
      exact absurd (hlt.trans this) (lt_irrefl _)
  have hj' : j = i + 1 := by
    by_contra h
    have hlt1 := hs i (i + 1) hi1 (by omega) (by omega)
    have hlt2 := hs (i + 1) j (by omega) hj1 (by omega)
    rw [hi2] at hlt1
    rw [hj2] at hlt2
    exact hno _ ((hm _).1 (List.getElem_mem (by omega))) ⟨hlt1, hlt2⟩
  subst hj'
  have hmem : ‖q - p‖ ∈ List.zipWith (fun a b => ‖b - a‖) u u.tail := by
    rw [List.mem_iff_getElem?]
    refine ⟨i, ?_⟩
    rw [List.getElem?_zipWith, hi, List.getElem?_tail, hj]
  have hle : ∀ d ∈ List.zipWith (fun a b => ‖b - a‖) u u.tail, ‖q - p‖ ≤ d := by
    intro d hd
    obtain ⟨n, hn⟩ := List.getElem?_of_mem hd
    rw [List.getElem?_zipWith, List.getElem?_tail] at hn
    rcases ha : u[n]? with _ | a
    · rw [ha] at hn; simp at hn
    rcases hb : u[n + 1]? with _ | b
    · rw [ha, hb] at hn; simp at hn
    rw [ha, hb] at hn
    obtain ⟨ha1, ha2⟩ := List.getElem?_eq_some_iff.1 ha
    obtain ⟨hb1, hb2⟩ := List.getElem?_eq_some_iff.1 hb
    have hab := hs n (n + 1) ha1 hb1 (by omega)
    rw [ha2, hb2] at hab
    rw [← Option.some.inj hn]
    apply hmin
    · rw [← hb2]
      exact (hm _).1 (List.getElem_mem _)
    · rw [← ha2]
      exact (hm _).1 (List.getElem_mem _)
    · intro h
      rw [h] at hab
      exact lt_irrefl _ hab
  rw [List.min?_eq_some_iff.2 ⟨hmem, hle⟩]

/-- The smallest step of an alphabet is its minimum distance `d`. -/
def StepIs (S : List ℂ) (d : ℝ) : Prop := 0 < d ∧ minStep S = .ok d ∧ IsLeast (pointDistances S) d

/-- The smallest step of an alphabet is its minimum distance. -/
def StepIsDistance (S : List ℂ) : Prop := ∃ d, StepIs S d

theorem stepIs_of {S : List ℂ} {p q : ℂ} (hp : p ∈ S) (hq : q ∈ S) (hlt : lexKey p < lexKey q) (hno : ∀ s ∈ S, ¬ (lexKey p < lexKey s ∧ lexKey s < lexKey q))
    (hmin : ∀ a ∈ S, ∀ b ∈ S, a ≠ b → ‖q - p‖ ≤ ‖a - b‖) : StepIs S ‖q - p‖ := by
  have hne : q ≠ p := by
    rintro rfl
    exact lt_irrefl _ hlt
  refine ⟨norm_pos_iff.2 (sub_ne_zero.2 hne), minStep_eq hp hq hlt hno hmin, ⟨q, hq, p, hp, hne, rfl⟩, ?_⟩
  rintro d ⟨a, ha, b, hb, hab, rfl⟩
  exact hmin a ha b hb hab

theorem odd_symbolsQam {k : Nat} (hk : 2 ≤ k) {p : Int × Int} (hp : p ∈ symbolsQam k) : Odd p.1 ∧ Odd p.2 := by
  unfold symbolsQam at hp
  split_ifs at hp with h
  · obtain ⟨h1, h2, -⟩ := (C12_cross_qam (k / 2) (by omega)).2.2.1 p.1 p.2 hp
    exact ⟨h1, h2⟩
  · have := (mem_squareQam (N := k / 2) (by omega) p.1 p.2).1 hp
    rw [Int.odd_iff, Int.odd_iff]
    tauto

theorem inner_symbolsQam {k : Nat} (hk : 2 ≤ k) : (-1, -1) ∈ symbolsQam k ∧ (-1, 1) ∈ symbolsQam k := by
  have h2 : ∀ N : Nat, 1 ≤ N → (2 : Int) ≤ 2 ^ N := fun N hN => by
    calc (2 : Int) = 2 ^ 1 := by norm_num
      _ ≤ 2 ^ N := pow_le_pow_right₀ (by norm_num) hN
  unfold symbolsQam
  split_ifs with h
  · by_cases h3 : k / 2 = 1
    · rw [h3]
      decide
    · have hN : 2 ≤ k / 2 := by omega
      have := h2 (k / 2 - 1) (by omega)
      have h3 := h2 (k / 2) (by omega)
      constructor <;>
      · rw [(C12_cross_shape (k / 2) hN).1]
        refine ⟨by decide, by decide, ?_, ?_, ?_⟩
        · norm_num; linarith
        · norm_num; linarith
        · norm_num; linarith
  · have := h2 (k / 2) (by omega)
    constructor <;>
    · rw [mem_squareQam (by omega)]
      norm_num
      omega

theorem mem_qamCoded (k : Nat) (scale : ℝ) (z : ℂ) : z ∈ qamCodedSymbols k scale ↔ ∃ p ∈ symbolsQam k, z = toComplex scale p := by
  rw [qamCodedSymbols, (codedSymbols_perm (IsPerm.qam k) _ (length_scaled k scale)).mem_iff, List.mem_map]
  constructor
  · rintro ⟨p, hp, rfl⟩
    exact ⟨p, hp, rfl⟩
  · rintro ⟨p, hp, rfl⟩
    exact ⟨p, hp, rfl⟩

theorem toComplex_re (scale : ℝ) (p : Int × Int) : (toComplex scale p).re = p.1 / scale := by
  rw [toComplex, Complex.div_ofReal_re]

theorem toComplex_im (scale : ℝ) (p : Int × Int) : (toComplex scale p).im = p.2 / scale := by
  rw [toComplex, Complex.div_ofReal_im]

theorem norm_toComplex_le {scale : ℝ} (hs : 0 < scale) {p q : Int × Int} (h : sqNorm p ≤ sqNorm q) : ‖toComplex scale p‖ ≤ ‖toComplex scale q‖ := by
  rw [← abs_of_nonneg (norm_nonneg (toComplex scale p)), ← abs_of_nonneg (norm_nonneg (toComplex scale q)), ← sq_le_sq, normSq_toComplex, normSq_toComplex]
  have : (sqNorm p : ℝ) ≤ sqNorm q := by exact_mod_cast h
  gcongr

theorem norm_toComplex_two {scale : ℝ} (hs : 0 < scale) {p : Int × Int} (h : sqNorm p = 4) : ‖toComplex scale p‖ = 2 / scale := by
  rw [← abs_of_nonneg (norm_nonneg (toComplex scale p)), ← abs_of_pos (show 0 < 2 / scale by positivity), ← sq_eq_sq_iff_abs_eq_abs, normSq_toComplex, h, div_pow]
  norm_num

theorem stepIs_qam (k : Nat) (hk : 1 ≤ k) {scale : ℝ} (hs : 0 < scale) : StepIs (qamCodedSymbols k scale) (2 / scale) := by
  rcases Nat.lt_or_ge k 2 with h2 | h2
  · have : k = 1 := by omega
    subst this
    have e : symbolsQam 1 = [(-1, 0), (1, 0)] := by decide
    have hmem : ∀ z, z ∈ qamCodedSymbols 1 scale ↔ z = toComplex scale (-1, 0) ∨ z = toComplex scale (1, 0) := by
      intro z
      rw [mem_qamCoded, e]
      simp
    rw [← norm_toComplex_two hs (show sqNorm ((1, 0) - (-1, 0)) = 4 by decide), ← toComplex_sub]
    refine stepIs_of (p := toComplex scale (-1, 0)) (q := toComplex scale (1, 0)) ((hmem _).2 (Or.inl rfl)) ((hmem _).2 (Or.inr rfl)) ?_ ?_ ?_
    · rw [lexKey_lt, toComplex_re, toComplex_re]
      left
      push_cast
      gcongr
      norm_num
    · intro s hs'
      rcases (hmem s).1 hs' with rfl | rfl
      · exact fun h => lt_irrefl _ h.1
      · exact fun h => lt_irrefl _ h.2
    · intro a ha b hb hab
      rcases (hmem a).1 ha with rfl | rfl <;> rcases (hmem b).1 hb with rfl | rfl
      · exact absurd rfl hab
      · rw [norm_sub_rev]
      · exact le_rfl
      · exact absurd rfl hab
  · obtain ⟨m1, m2⟩ := inner_symbolsQam h2
    rw [← norm_toComplex_two hs (show sqNorm ((-1, 1) - (-1, -1)) = 4 by decide), ← toComplex_sub]
    refine stepIs_of (p := toComplex scale (-1, -1)) (q := toComplex scale (-1, 1)) ((mem_qamCoded _ _ _).2 ⟨_, m1, rfl⟩) ((mem_qamCoded _ _ _).2 ⟨_, m2, rfl⟩) ?_ ?_ ?_
    · rw [lexKey_lt, toComplex_re, toComplex_re, toComplex_im, toComplex_im]
      right
      refine ⟨rfl, ?_⟩
      push_cast
      gcongr
      norm_num
    · intro s hs'
      obtain ⟨p, hp, rfl⟩ := (mem_qamCoded _ _ _).1 hs'
      obtain ⟨ho1, ho2⟩ := odd_symbolsQam h2 hp
      rw [lexKey_lt, lexKey_lt]
      simp only [toComplex_re, toComplex_im, div_lt_div_iff_of_pos_right hs, div_left_inj' hs.ne']
      rintro ⟨h3, h4⟩
      norm_cast at h3 h4
      rcases h3 with h3 | ⟨h3, h3'⟩ <;> rcases h4 with h4 | ⟨h4, h4'⟩
      · omega
      · omega
      · omega
      · obtain ⟨n, hn⟩ := ho2
        omega
    · intro a ha b hb hab
      obtain ⟨p, hp, rfl⟩ := (mem_qamCoded _ _ _).1 ha
      obtain ⟨q, hq, rfl⟩ := (mem_qamCoded _ _ _).1 hb
      rw [toComplex_sub, toComplex_sub]
      apply norm_toComplex_le hs
      obtain ⟨p1, p2⟩ := p
      obtain ⟨q1, q2⟩ := q
      obtain ⟨⟨a1, ha1⟩, ⟨a2, ha2⟩⟩ := odd_symbolsQam h2 hp
      obtain ⟨⟨b1, hb1⟩, ⟨b2, hb2⟩⟩ := odd_symbolsQam h2 hq
      dsimp only at ha1 ha2 hb1 hb2
      subst ha1 ha2 hb1 hb2
      have : a1 ≠ b1 ∨ a2 ≠ b2 := by
        by_contra h
        push Not at h
        exact hab (by rw [h.1, h.2])
      show ((-1 - -1 : Int)) ^ 2 + (1 - -1 : Int) ^ 2 ≤ (2 * a1 + 1 - (2 * b1 + 1)) ^ 2 + (2 * a2 + 1 - (2 * b2 + 1)) ^ 2
      rcases this with h | h
      · have : 1 ≤ (a1 - b1) ^ 2 := by
          have := sq_pos_of_ne_zero (sub_ne_zero.2 h)
          omega
        nlinarith [sq_nonneg (a2 - b2)]
      · have : 1 ≤ (a2 - b2) ^ 2 := by
          have := sq_pos_of_ne_zero (sub_ne_zero.2 h)
          omega
        nlinarith [sq_nonneg (a1 - b1)]

theorem mem_pskCoded (k : Nat) (z : ℂ) : z ∈ pskCodedSymbols k ↔ z ^ 2 ^ k = if k = 2 then -1 else 1 := by
  rw [pskCodedSymbols, (codedSymbols_perm (IsPerm.psk k) _ (length_symbolsPsk k)).mem_iff, mem_symbolsPsk]

theorem norm_pskCoded {k : Nat} {z : ℂ} (h : z ∈ pskCodedSymbols k) : ‖z‖ = 1 := by
  rw [mem_pskCoded] at h
  have : ‖z‖ ^ 2 ^ k = 1 := by
    rw [← norm_pow, h]
    split_ifs <;> simp
  exact (pow_eq_one_iff_of_nonneg (norm_nonneg z) (by positivity)).1 this

theorem stepIsDistance_psk (k : Nat) (hk : 1 ≤ k) : StepIsDistance (pskCodedSymbols k) := by
  by_cases h2 : k = 2
  · subst h2
    have hmem : ∀ z : ℂ, z ∈ pskCodedSymbols 2 ↔ z ^ 4 = -1 := fun z => by
      rw [mem_pskCoded]
      simp
    have hsq : ∀ z ∈ pskCodedSymbols 2, z.re ^ 2 = 1 / 2 ∧ z.im ^ 2 = 1 / 2 := by
      intro z hz
      have h1 := norm_pskCoded hz
      have h3 := (hmem z).1 hz
      have e1 : z.re ^ 2 + z.im ^ 2 = 1 := by
        have := Complex.sq_norm z
        rw [h1, Complex.normSq_apply] at this
        nlinarith
      have e2 : (z ^ 4).re = -1 := by rw [h3]; simp
      have e3 : (z ^ 4).re = (z.re ^ 2 - z.im ^ 2) ^ 2 - 4 * z.re ^ 2 * z.im ^ 2 := by
        rw [show z ^ 4 = (z * z) * (z * z) by ring]
        simp only [Complex.mul_re, Complex.mul_im]
        ring
      rw [e2] at e3
      have e4 : (z.re ^ 2 - z.im ^ 2) ^ 2 = 0 := by nlinarith
      have e5 := pow_eq_zero_iff (two_ne_zero) |>.1 e4
      constructor <;> linarith
    have hr : Real.sqrt (1 / 2) ^ 2 = 1 / 2 := Real.sq_sqrt (by norm_num)
    have hrp : 0 < Real.sqrt (1 / 2) := Real.sqrt_pos.2 (by norm_num)
    obtain ⟨r, hr0⟩ : ∃ r, r = Real.sqrt (1 / 2) := ⟨_, rfl⟩
    rw [← hr0] at hr hrp
    have hmk : ∀ x y : ℝ, x ^ 2 = 1 / 2 → y ^ 2 = 1 / 2 → (⟨x, y⟩ : ℂ) ∈ pskCodedSymbols 2 := by
      intro x y hx hy
      rw [hmem]
      have e1 : (⟨x, y⟩ : ℂ) * ⟨x, y⟩ = ⟨0, 2 * (x * y)⟩ := by
        apply Complex.ext
        · simp only [Complex.mul_re]; nlinarith
        · simp only [Complex.mul_im]; ring
      rw [show (⟨x, y⟩ : ℂ) ^ 4 = (⟨x, y⟩ * ⟨x, y⟩) * (⟨x, y⟩ * ⟨x, y⟩) by ring, e1]
      apply Complex.ext
      · simp only [Complex.mul_re, Complex.neg_re, Complex.one_re]
        have : (x * y) ^ 2 = 1 / 4 := by rw [mul_pow, hx, hy]; norm_num
        nlinarith
      · simp only [Complex.mul_im, Complex.neg_im, Complex.one_im]
        ring
    refine ⟨_, stepIs_of (p := ⟨-r, -r⟩) (q := ⟨-r, r⟩) (hmk _ _ (by rw [neg_sq]; exact hr) (by rw [neg_sq]; exact hr)) (hmk _ _ (by rw [neg_sq]; exact hr) hr) ?_ ?_ ?_⟩
    · rw [lexKey_lt]
      right
      exact ⟨rfl, by show -r < r; linarith⟩
    · intro s hs
      obtain ⟨h3, h4⟩ := hsq s hs
      rw [lexKey_lt, lexKey_lt]
      dsimp only
      rintro ⟨h5, h6⟩
      rcases h5 with h5 | ⟨h5, h5'⟩ <;> rcases h6 with h6 | ⟨h6, h6'⟩
      · linarith
      · linarith
      · linarith
      · have : s.im ^ 2 < r ^ 2 := sq_lt_sq' h5' h6'
        linarith
    · intro a ha b hb hab
      obtain ⟨a1, a2⟩ := hsq a ha
      obtain ⟨b1, b2⟩ := hsq b hb
      rw [← abs_of_nonneg (norm_nonneg _), ← abs_of_nonneg (norm_nonneg (a - b)), ← sq_le_sq, Complex.sq_norm, Complex.sq_norm, Complex.normSq_apply, Complex.normSq_apply]
      simp only [Complex.sub_re, Complex.sub_im]
      have c1 : a.re = b.re ∨ a.re = -b.re := sq_eq_sq_iff_eq_or_eq_neg.1 (a1.trans b1.symm)
      have c2 : a.im = b.im ∨ a.im = -b.im := sq_eq_sq_iff_eq_or_eq_neg.1 (a2.trans b2.symm)
      rcases c1 with c1 | c1 <;> rcases c2 with c2 | c2
      · exact absurd (Complex.ext c1 c2) hab
      · rw [c1, c2]; nlinarith
      · rw [c1, c2]; nlinarith
      · rw [c1, c2]; nlinarith
  · have hmem : ∀ z : ℂ, z ∈ pskCodedSymbols k ↔ z ^ 2 ^ k = 1 := fun z => by
      rw [mem_pskCoded, if_neg h2]
    have hev : Even (2 ^ k) := by
      rw [Nat.even_pow]
      exact ⟨even_two, by omega⟩
    have hneg : ∀ z, z ∈ pskCodedSymbols k → -z ∈ pskCodedSymbols k := by
      intro z hz
      rw [hmem] at hz ⊢
      rw [hev.neg_pow, hz]
    have h1 : (1 : ℂ) ∈ pskCodedSymbols k := by rw [hmem, one_pow]
    obtain ⟨T, hT⟩ : ∃ T : Finset ℂ, T = (pskCodedSymbols k).toFinset.erase (-1) := ⟨_, rfl⟩
    have hTm : ∀ z, z ∈ T ↔ z ≠ -1 ∧ z ∈ pskCodedSymbols k := by
      intro z
      rw [hT, Finset.mem_erase, List.mem_toFinset]
    have h1T : (1 : ℂ) ∈ T := by
      rw [hTm]
      refine ⟨?_, h1⟩
      intro h
      have := congrArg Complex.re h
      norm_num at this
    obtain ⟨q, hq, hqmin⟩ := T.exists_min_image lexKey ⟨1, h1T⟩
    obtain ⟨hq1, hq2⟩ := (hTm q).1 hq
    have hre : ∀ z ∈ T, q.re ≤ z.re := by
      intro z hz
      rcases lt_or_eq_of_le (hqmin z hz) with h | h
      · rcases lexKey_lt.1 h with h | ⟨h, -⟩
        · exact h.le
        · exact h.le
      · rw [lexKey_inj h]
    have hunit : ∀ z ∈ pskCodedSymbols k, z.re ^ 2 + z.im ^ 2 = 1 := by
      intro z hz
      have := Complex.sq_norm z
      rw [norm_pskCoded hz, Complex.normSq_apply] at this
      nlinarith
    have hlow : ∀ z ∈ pskCodedSymbols k, z ≠ -1 → lexKey (-1) < lexKey z := by
      intro z hz hne
      rw [lexKey_lt]
      have := hunit z hz
      by_contra h
      push Not at h
      obtain ⟨h3, -⟩ := h
      simp only [Complex.neg_re, Complex.one_re] at h3
      have h4 : z.re = -1 := by nlinarith [sq_nonneg z.im]
      have h5 : z.im = 0 := by
        have : z.im ^ 2 = 0 := by rw [h4] at this; linarith
        exact pow_eq_zero_iff two_ne_zero |>.1 this
      exact hne (Complex.ext (by simp [h4]) (by simp [h5]))
    refine ⟨_, stepIs_of (p := -1) (q := q) (hneg 1 h1) hq2 (hlow q hq2 hq1) ?_ ?_⟩
    · rintro s hs ⟨h3, h4⟩
      have : s ∈ T := by
        rw [hTm]
        refine ⟨?_, hs⟩
        rintro rfl
        exact lt_irrefl _ h3
      exact absurd (hqmin s this) (not_le.2 h4)
    · intro a ha b hb hab
      have hb0 : b ≠ 0 := by
        intro h
        have := norm_pskCoded hb
        rw [h] at this
        simp at this
      have hz : -(a / b) ∈ T := by
        rw [hTm]
        constructor
        · intro h
          rw [neg_inj, div_eq_one_iff_eq hb0] at h
          exact hab h
        · apply hneg
          rw [hmem] at ha hb ⊢
          rw [div_pow, ha, hb, div_one]
      have e1 : ‖a - b‖ = ‖-(a / b) - -1‖ := by
        have : a - b = -((-(a / b) - -1) * b) := by
          field_simp
          ring
        rw [this, norm_neg, norm_mul, norm_pskCoded hb, mul_one]
      rw [e1]
      have hsq : ∀ z ∈ T, ‖z - -1‖ ^ 2 = 2 + 2 * z.re := by
        intro z hz
        have := hunit z ((hTm z).1 hz).2
        rw [Complex.sq_norm, Complex.normSq_apply]
        simp only [Complex.sub_re, Complex.sub_im, Complex.neg_re, Complex.neg_im, Complex.one_re, Complex.one_im]
        nlinarith
      rw [← abs_of_nonneg (norm_nonneg _), ← abs_of_nonneg (norm_nonneg (-(a / b) - -1)), ← sq_le_sq, hsq q hq, hsq _ hz]
      have := hre _ hz
      linarith

/-- The alphabets of the signal classes with a mapping: QAM and PSK of all orders from two on. -/
def Alphabet (S : List ℂ) : Prop := (∃ k : Nat, 1 ≤ k ∧ S = qamCodedSymbols k (Real.sqrt (scalingFactor k : ℝ))) ∨ ∃ k : Nat, 1 ≤ k ∧ S = pskCodedSymbols k

theorem scalingFactor_pos {k : Nat} (hk : 1 ≤ k) : (0 : ℚ) < scalingFactor k := by
  rw [scalingFactor_eq_mean, length_symbolsQam]
  have : (0 : ℚ) < (((symbolsQam k).map sqNorm).sum : Int) := by exact_mod_cast sum_sqNorm_pos k hk
  push_cast at this ⊢
  positivity

theorem Alphabet.step {S : List ℂ} (h : Alphabet S) : StepIsDistance S := by
  rcases h with ⟨k, hk, rfl⟩ | ⟨k, hk, rfl⟩
  · exact ⟨_, stepIs_qam k hk (Real.sqrt_pos.2 (by exact_mod_cast scalingFactor_pos hk))⟩
  · exact stepIsDistance_psk k hk

theorem Alphabet.power {S : List ℂ} (h : Alphabet S) : alphabetPower S = 1 := by
  unfold alphabetPower
  rcases h with ⟨k, hk, rfl⟩ | ⟨k, hk, rfl⟩
  · rw [length_qamCoded]
    push_cast
    exact (C11_unit_power k hk).1
  · rw [length_pskCoded, List.map_congr_left (g := fun _ => (1 : ℝ)) (fun z hz => by rw [norm_pskCoded hz, one_pow])]
    rw [List.map_const', List.sum_replicate, length_pskCoded, nsmul_one]
    exact div_self (by positivity)

theorem pointDistances_scale (S : List ℂ) {r : ℝ} (hr : 0 < r) (d : ℝ) : d ∈ pointDistances (scalePart r S) ↔ d * Real.sqrt r ∈ pointDistances S := by
  have h0 := Real.sqrt_pos.2 hr
  have hc : (Real.sqrt r : ℂ) ≠ 0 := by exact_mod_cast h0.ne'
  have key : ∀ a b : ℂ, ‖a / (Real.sqrt r : ℂ) - b / (Real.sqrt r : ℂ)‖ = ‖a - b‖ / Real.sqrt r := by
    intro a b
    rw [← sub_div, norm_div, Complex.norm_real, Real.norm_of_nonneg h0.le]
  constructor
  · rintro ⟨a, ha, b, hb, hab, rfl⟩
    obtain ⟨a', ha', rfl⟩ := List.mem_map.1 ha
    obtain ⟨b', hb', rfl⟩ := List.mem_map.1 hb
    exact ⟨a', ha', b', hb', fun h => hab (by rw [h]), by rw [key, div_mul_cancel₀ _ h0.ne']⟩
  · rintro ⟨a, ha, b, hb, hab, h⟩
    refine ⟨_, List.mem_map_of_mem ha, _, List.mem_map_of_mem hb, ?_, ?_⟩
    · intro he
      exact hab ((div_left_inj' hc).1 he)
    · rw [key, ← h, mul_div_cancel_right₀ _ h0.ne']

theorem alphabetPower_scale (S : List ℂ) {r : ℝ} (hr : 0 < r) : alphabetPower (scalePart r S) = alphabetPower S / r := by
  unfold alphabetPower scalePart
  rw [List.length_map, List.map_map, div_right_comm]
  congr 1
  rw [show ((fun s : ℂ => ‖s‖ ^ 2) ∘ fun x : ℂ => x / (Real.sqrt r : ℂ)) = fun s => ‖s‖ ^ 2 / r from ?_]
  · induction S with
    | nil => simp
    | cons a S ih => simp only [List.map_cons, List.sum_cons, ih, add_div]
  · funext s
    show ‖s / (Real.sqrt r : ℂ)‖ ^ 2 = ‖s‖ ^ 2 / r
    rw [norm_div, div_pow, Complex.norm_real, Real.norm_of_nonneg (Real.sqrt_nonneg r), Real.sq_sqrt hr.le]

/-- C136: for QAM and PSK alphabets of any two orders the ratio is defined, and after the scaling of the second alphabet both have the same minimum distance between points; the ratio is the mean power of the first alphabet over the one
of the scaled second alphabet. -/
theorem C136_equal_distance (S1 S2 : List ℂ) (h1 : Alphabet S1) (h2 : Alphabet S2) : ∃ r, 0 < r ∧ powerRatio S1 S2 = .ok r ∧
    (∃ d, 0 < d ∧ IsLeast (pointDistances S1) d ∧ IsLeast (pointDistances (scalePart r S2)) d) ∧ r = alphabetPower S1 / alphabetPower (scalePart r S2) := by
  obtain ⟨d1, p1, e1, l1⟩ := h1.step
  obtain ⟨d2, p2, e2, l2⟩ := h2.step
  have hr : 0 < (d2 / d1) ^ 2 := by positivity
  have hsq : Real.sqrt ((d2 / d1) ^ 2) = d2 / d1 := Real.sqrt_sq (by positivity)
  refine ⟨(d2 / d1) ^ 2, hr, ?_, ⟨d1, p1, l1, ?_, ?_⟩, ?_⟩
  · unfold powerRatio
    rw [e1, e2]
    rfl
  · rw [pointDistances_scale _ hr, hsq, mul_div_cancel₀ _ p1.ne']
    exact l2.1
  · intro d hd
    rw [pointDistances_scale _ hr, hsq] at hd
    have := l2.2 hd
    rw [mul_div_assoc', le_div_iff₀ p1] at this
    nlinarith
  · rw [alphabetPower_scale _ hr, h1.power, h2.power, one_div_one_div]

/-- C136: for QAM the ratio is the ratio of the powers on the grid of odd integers, for instance 5 for 16-QAM and QPSK. -/
theorem C136_qam_ratio (k1 k2 : Nat) (h1 : 1 ≤ k1) (h2 : 1 ≤ k2) :
    powerRatio (qamCodedSymbols k1 (Real.sqrt (scalingFactor k1 : ℝ))) (qamCodedSymbols k2 (Real.sqrt (scalingFactor k2 : ℝ))) = .ok ((scalingFactor k1 : ℝ) / (scalingFactor k2 : ℝ)) := by
  have p1 : (0 : ℝ) < (scalingFactor k1 : ℝ) := by exact_mod_cast scalingFactor_pos h1
  have p2 : (0 : ℝ) < (scalingFactor k2 : ℝ) := by exact_mod_cast scalingFactor_pos h2
  have q1 := Real.sqrt_pos.2 p1
  have q2 := Real.sqrt_pos.2 p2
  unfold powerRatio
  rw [(stepIs_qam k1 h1 q1).2.1, (stepIs_qam k2 h2 q2).2.1]
  show Except.ok _ = Except.ok _
  congr 1
  rw [div_div_div_cancel_left' _ _ two_ne_zero, div_pow, Real.sq_sqrt p1.le, Real.sq_sqrt p2.le]

/-- C136: the ratio only depends on the minimum distances, so equal formats are left as they are. -/
theorem C136_same (S : List ℂ) (h : Alphabet S) : powerRatio S S = .ok 1 := by
  obtain ⟨d, p, e, -⟩ := h.step
  unfold powerRatio
  rw [e]
  show Except.ok ((d / d) ^ 2) = .ok 1
  rw [div_self p.ne', one_pow]

/-- Without two different points there is no distance and ValueError is raised. -/
theorem C136_single (s : ℂ) (n : Nat) (S : List ℂ) : powerRatio (List.replicate n s) S = .error .value := by
  have : minStep (List.replicate n s) = .error .value := by
    have hm := mem_npUnique (List.replicate n s)
    have hs := npUnique_sorted (List.replicate n s)
    unfold minStep
    obtain ⟨u, hu⟩ : ∃ u, u = npUnique (List.replicate n s) := ⟨_, rfl⟩
    rw [← hu] at hm hs ⊢
    have hall : ∀ z ∈ u, z = s := fun z hz => List.eq_of_mem_replicate ((hm z).1 hz)
    match u, hs, hall with
    | [], _, _ => rfl
    | [a], _, _ => rfl
    | a :: b :: l, hs, hall =>
      have hab := (List.pairwise_cons.1 hs).1 b (by simp)
      rw [hall a (by simp), hall b (by simp)] at hab
      exact absurd hab (lt_irrefl _)
  unfold powerRatio
  rw [this]
  rfl

/-- 16-QAM with QPSK, the default example of the class. -/
example : ∃ r, 0 < r ∧ powerRatio (qamCodedSymbols 4 (Real.sqrt (scalingFactor 4 : ℝ))) (pskCodedSymbols 2) = .ok r :=
  let ⟨r, h, e, _⟩ := C136_equal_distance _ _ (Or.inl ⟨4, by norm_num, rfl⟩) (Or.inr ⟨2, by norm_num, rfl⟩)
  ⟨r, h, e⟩

/-! ### C137 -/

/-- C137 (full statement): the second part of a hybrid signal, without any disturbance, has symbol error rate zero, whatever the formats of the two parts. -/
def C137_statement : Prop := ∀ (S1 S2 : List ℂ), Alphabet S1 → Alphabet S2 → ∀ (f g : Nat → Nat → ℂ) (L N1 N2 : Nat), 0 < N2 → (∀ i n, g i n ∈ S2) →
  ∃ s, hybridPart2 (PartSignal.fresh S1 ((List.range L).map fun i => (List.range N1).map (f i))) (PartSignal.fresh S2 ((List.range L).map fun i => (List.range N2).map (g i))) = .ok s ∧
    s.ser = .ok (List.replicate L 0)

theorem ser_zero_of_closest (coded : List ℂ) (hnd : coded.Nodup) (c : ℂ) (f : Nat → Nat → ℂ) (L N : Nat) (hN : 0 < N) (hf : ∀ i n, f i n ∈ coded)
    (hcl : ∀ s ∈ coded, ∀ t ∈ coded, s ≠ t → ‖s / c - s‖ < ‖s / c - t‖) :
    calSerRows coded true ((List.range L).map fun i => (List.range N).map (f i)) ((List.range L).map fun i => (List.range N).map fun n => f i n / c) = .ok (List.replicate L 0) := by
  have hdec : ∀ s ∈ coded, ∃ j, detSymbolArgmin (s / c) coded = some (s, ‖s / c - s‖, j) := by
    intro s hs
    obtain ⟨j, hj⟩ := List.getElem?_of_mem hs
    refine ⟨j, detSymbolArgmin_of_closest hj ?_⟩
    intro i t ht hij
    refine hcl s hs t (List.mem_of_getElem? ht) ?_
    rintro rfl
    obtain ⟨h1, e1⟩ := List.getElem?_eq_some_iff.1 ht
    obtain ⟨h2, e2⟩ := List.getElem?_eq_some_iff.1 hj
    exact hij ((List.Nodup.getElem_inj_iff hnd).1 (e1.trans e2.symm))
  have hrow : ∀ i, calSer coded ((List.range N).map fun n => f i n / c) ((List.range N).map (f i)) = some 0 := by
    intro i
    choose j hj using fun n : Nat => hdec (f i n) (hf i n)
    have hm : makeDecision ((List.range N).map fun n => f i n / c) coded = some ((List.range N).map fun n => (f i n, ‖f i n / c - f i n‖, j n)) := by
      rw [makeDecision, mapM_eq_some_iff, List.map_map, List.map_map]
      apply List.map_congr_left
      intro n _
      exact hj n
    obtain ⟨ser, d, hser, hd, -, -, -, hz⟩ := C47_ser coded ((List.range N).map fun n => f i n / c) ((List.range N).map (f i)) (List.ne_nil_of_mem (hf 0 0)) (by simp) (by simp; omega)
    rw [hm] at hd
    cases hd
    rw [hser, hz.2 (by rw [List.map_map]; rfl)]
  unfold calSerRows alignRows
  rw [if_pos rfl, adjustOnly_same]
  show List.mapM _ _ = _
  rw [List.zip_map', mapM_ok (g := fun _ => (0 : ℚ))]
  · rw [List.map_const', List.length_map, List.length_range]
  · intro p hp
    obtain ⟨i, -, rfl⟩ := List.mem_map.1 hp
    rw [hrow i]
    rfl

theorem hybridPart2_ok (S1 S2 : List ℂ) (h1 : Alphabet S1) (h2 : Alphabet S2) : ∃ r, 0 < r ∧ powerRatio S1 S2 = .ok r ∧ ∀ s1 s2 : PartSignal, s1.coded = S1 → s2.coded = S2 →
    hybridPart2 s1 s2 = .ok (s2.rescale r) := by
  obtain ⟨r, hr, he, -⟩ := C136_equal_distance S1 S2 h1 h2
  refine ⟨r, hr, he, ?_⟩
  intro s1 s2 e1 e2
  unfold hybridPart2
  rw [e1, e2, he]
  rfl

theorem Alphabet.nodup {S : List ℂ} (h : Alphabet S) : S.Nodup := by
  rcases h with ⟨k, hk, rfl⟩ | ⟨k, hk, rfl⟩
  · exact nodup_qamCoded k (Real.sqrt_pos.2 (by exact_mod_cast scalingFactor_pos hk)).ne'
  · exact nodup_pskCoded k

/-- C137, if the points of the second format all have the same power (PSK of any order, QPSK, BPSK) or both formats are the same. Missing: second formats with several amplitudes, where the statement is false: the samples are scaled, the alphabet of
the decisions is not. -/
theorem C137_ser_partial (S1 S2 : List ℂ) (h1 : Alphabet S1) (h2 : Alphabet S2) (hm : S1 = S2 ∨ ∀ s ∈ S2, ‖s‖ = 1) (f g : Nat → Nat → ℂ) (L N1 N2 : Nat) (hN : 0 < N2) (hg : ∀ i n, g i n ∈ S2) :
    ∃ s, hybridPart2 (PartSignal.fresh S1 ((List.range L).map fun i => (List.range N1).map (f i))) (PartSignal.fresh S2 ((List.range L).map fun i => (List.range N2).map (g i))) = .ok s ∧
      s.ser = .ok (List.replicate L 0) := by
  obtain ⟨r, hr, he, hp⟩ := hybridPart2_ok S1 S2 h1 h2
  refine ⟨_, hp _ _ rfl rfl, ?_⟩
  have key := ser_zero_of_closest S2 h2.nodup (Real.sqrt r : ℂ) g L N2 hN hg ?_
  · unfold PartSignal.ser PartSignal.rescale PartSignal.fresh scalePart
    dsimp only
    rw [List.map_map]
    rw [← key]
    congr 1
    apply List.map_congr_left
    intro i _
    show List.map _ (List.map _ _) = _
    rw [List.map_map]
    rfl
  · intro s hs t ht hst
    rcases hm with rfl | hm
    · rw [C136_same _ h1] at he
      cases he
      rw [Real.sqrt_one, Complex.ofReal_one, div_one, sub_self, norm_zero]
      exact norm_pos_iff.2 (sub_ne_zero.2 hst)
    · have h0 := Real.sqrt_pos.2 hr
      have hu : ∀ z ∈ S2, z.re ^ 2 + z.im ^ 2 = 1 := by
        intro z hz
        have := Complex.sq_norm z
        rw [hm z hz, Complex.normSq_apply] at this
        nlinarith
      have hus := hu s hs
      have hut := hu t ht
      have hne : 0 < (s.re - t.re) ^ 2 + (s.im - t.im) ^ 2 := by
        by_contra h
        have e1 : (s.re - t.re) ^ 2 = 0 := by nlinarith [sq_nonneg (s.re - t.re), sq_nonneg (s.im - t.im)]
        have e2 : (s.im - t.im) ^ 2 = 0 := by nlinarith [sq_nonneg (s.re - t.re), sq_nonneg (s.im - t.im)]
        have e3 := pow_eq_zero_iff two_ne_zero |>.1 e1
        have e4 := pow_eq_zero_iff two_ne_zero |>.1 e2
        exact hst (Complex.ext (by linarith) (by linarith))
      rw [← abs_of_nonneg (norm_nonneg _), ← abs_of_nonneg (norm_nonneg (s / (Real.sqrt r : ℂ) - t)), ← sq_lt_sq, Complex.sq_norm, Complex.sq_norm, Complex.normSq_apply, Complex.normSq_apply]
      simp only [Complex.sub_re, Complex.sub_im, Complex.div_ofReal_re, Complex.div_ofReal_im]
      simp only [div_eq_mul_inv]
      have hi : 0 < (Real.sqrt r)⁻¹ := inv_pos.2 h0
      obtain ⟨c, hc⟩ : ∃ c, c = (Real.sqrt r)⁻¹ := ⟨_, rfl⟩
      rw [← hc] at hi ⊢
      nlinarith

/-- A hybrid of 16-QAM and QPSK: the second part is error free. -/
example : ∃ s, hybridPart2 (PartSignal.fresh (qamCodedSymbols 4 (Real.sqrt (scalingFactor 4 : ℝ))) ((List.range 1).map fun i => (List.range 0).map fun n => (i + n : ℂ)))
    (PartSignal.fresh (pskCodedSymbols 3) ((List.range 1).map fun _ => (List.range 2).map fun _ => (1 : ℂ))) = .ok s ∧ s.ser = .ok [0] :=
  C137_ser_partial _ _ (Or.inl ⟨4, by norm_num, rfl⟩) (Or.inr ⟨3, by norm_num, rfl⟩) (Or.inr fun _ h => norm_pskCoded h) (fun i n => (i + n : ℂ)) (fun _ _ => 1) 1 0 2 (by norm_num)
    (fun _ _ => by rw [mem_pskCoded]; norm_num)

theorem calSerRows_single {coded x t : List ℂ} {v : ℚ} (h : calSer coded x t = some v) (hl : x.length = t.length) : calSerRows coded true [t] [x] = .ok [v] := by
  unfold calSerRows alignRows adjustOnly
  simp [hl, h, bind, Except.bind, pure, Except.pure]

/-- QPSK and 16-QAM: the 16-QAM samples are stretched by the square root of five, and the inner points are decided as outer ones. -/
theorem C137_false : ¬ C137_statement := by
  intro h
  have f4 : scalingFactor 4 = 10 := by
    rw [(C11_scaling_factor 4 (by norm_num)).2]; norm_num
  have f2 : scalingFactor 2 = 2 := by
    rw [(C11_scaling_factor 2 (by norm_num)).2]; norm_num
  have A1 : Alphabet (qamCodedSymbols 2 (Real.sqrt (scalingFactor 2 : ℝ))) := Or.inl ⟨2, by norm_num, rfl⟩
  have A2 : Alphabet (qamCodedSymbols 4 (Real.sqrt (scalingFactor 4 : ℝ))) := Or.inl ⟨4, by norm_num, rfl⟩
  have hratio := C136_qam_ratio 2 4 (by norm_num) (by norm_num)
  obtain ⟨sc, hsc⟩ : ∃ sc, sc = Real.sqrt (scalingFactor 4 : ℝ) := ⟨_, rfl⟩
  have hsp : 0 < sc := by
    rw [hsc, f4]
    exact Real.sqrt_pos.2 (by norm_num)
  have m1 : toComplex sc (1, 1) ∈ qamCodedSymbols 4 sc := (mem_qamCoded _ _ _).2 ⟨(1, 1), by decide, rfl⟩
  have m3 : toComplex sc (3, 3) ∈ qamCodedSymbols 4 sc := (mem_qamCoded _ _ _).2 ⟨(3, 3), by decide, rfl⟩
  rw [← hsc] at A2 hratio
  obtain ⟨s, e1, e2⟩ := h _ _ A1 A2 (fun _ _ => 0) (fun _ _ => toComplex sc (1, 1)) 1 0 1 one_pos (fun _ _ => m1)
  unfold hybridPart2 PartSignal.fresh at e1
  dsimp only at e1
  rw [hratio] at e1
  cases e1
  obtain ⟨x, hx⟩ : ∃ x : ℂ, x = toComplex sc (1, 1) / (Real.sqrt ((scalingFactor 2 : ℝ) / (scalingFactor 4 : ℝ)) : ℂ) := ⟨_, rfl⟩
  obtain ⟨ser, d, hser, hd, hl, -, -, hz⟩ := C47_ser (qamCodedSymbols 4 sc) [x] [toComplex sc (1, 1)] (List.ne_nil_of_mem m1) rfl (by simp)
  have e3 : calSerRows (qamCodedSymbols 4 sc) true [[toComplex sc (1, 1)]] [[x]] = .ok [0] := by
    rw [hx]
    exact e2
  rw [calSerRows_single hser rfl] at e3
  have hd1 := hz.1 (by simpa using e3)
  obtain ⟨r, hr⟩ := detSymbolArgmin_isSome x (List.ne_nil_of_mem m1)
  have hr1 : d = [r] := by
    rw [makeDecision, List.mapM_cons, hr] at hd
    exact (Option.some.inj hd).symm
  rw [hr1] at hd1
  have hr2 : r.1 = toComplex sc (1, 1) := by simpa using hd1
  have hmin := (detSymbolArgmin_spec hr).2.2.1 _ m3
  rw [hr2] at hmin
  obtain ⟨c, hc⟩ : ∃ c, c = (Real.sqrt ((scalingFactor 2 : ℝ) / (scalingFactor 4 : ℝ)))⁻¹ := ⟨_, rfl⟩
  have hc5 : c ^ 2 = 5 := by
    rw [hc, f2, f4, inv_pow, Real.sq_sqrt (by norm_num)]
    norm_num
  have hc0 : 0 < c := by
    rw [hc, f2, f4]
    exact inv_pos.2 (Real.sqrt_pos.2 (by norm_num))
  have hre : x.re = c / sc := by
    rw [hx, Complex.div_ofReal_re, toComplex_re, hc, div_eq_mul_inv]
    push_cast
    ring
  have him : x.im = c / sc := by
    rw [hx, Complex.div_ofReal_im, toComplex_im, hc, div_eq_mul_inv]
    push_cast
    ring
  rw [← abs_of_nonneg (norm_nonneg _), ← abs_of_nonneg (norm_nonneg (x - toComplex sc (3, 3))), ← sq_le_sq, Complex.sq_norm, Complex.sq_norm, Complex.normSq_apply, Complex.normSq_apply] at hmin
  simp only [Complex.sub_re, Complex.sub_im, hre, him, toComplex_re, toComplex_im] at hmin
  have hmin2 : (c - 1) ^ 2 ≤ (c - 3) ^ 2 := by
    have e4 : ∀ m : ℝ, (c / sc - m / sc) = (c - m) / sc := fun m => (sub_div _ _ _).symm
    push_cast at hmin
    rw [e4, e4, ← mul_div_mul_comm, ← mul_div_mul_comm, ← add_div, ← add_div, div_le_div_iff_of_pos_right (by positivity)] at hmin
    nlinarith
  nlinarith

/-- C137: the scaling happens in the array of the caller. Building a second hybrid from the same parts scales them again: the samples are then divided by the ratio instead of its square root, and for different minimum distances the points of
the two parts are not equally spaced. -/
theorem C137_repeat (s1 s2 : PartSignal) (h1 : Alphabet s1.coded) (h2 : Alphabet s2.coded) : ∃ r a b, 0 < r ∧ powerRatio s1.coded s2.coded = .ok r ∧ hybridPart2 s1 s2 = .ok a ∧ hybridPart2 s1 a = .ok b ∧
    a.data = s2.data.map (List.map (· / (Real.sqrt r : ℂ))) ∧ b.data = s2.data.map (List.map (· / (r : ℂ))) ∧ (a.data = b.data ↔ r = 1 ∨ ∀ row ∈ s2.data, ∀ x ∈ row, x = 0) := by
  obtain ⟨r, hr, he, hp⟩ := hybridPart2_ok _ _ h1 h2
  have h0 := Real.sqrt_pos.2 hr
  have hc : (Real.sqrt r : ℂ) ≠ 0 := by exact_mod_cast h0.ne'
  have hcr : (r : ℂ) = (Real.sqrt r : ℂ) * (Real.sqrt r : ℂ) := by
    rw [← Complex.ofReal_mul, Real.mul_self_sqrt hr.le]
  have hb : (s2.rescale r).rescale r = { s2 with data := s2.data.map (List.map (· / (r : ℂ))) } := by
    unfold PartSignal.rescale scalePart
    dsimp only
    congr 1
    rw [List.map_map]
    apply List.map_congr_left
    intro row _
    show List.map _ (List.map _ row) = _
    rw [List.map_map]
    apply List.map_congr_left
    intro x _
    show x / _ / _ = x / _
    rw [hcr, div_div]
  refine ⟨r, s2.rescale r, (s2.rescale r).rescale r, hr, he, hp _ _ rfl rfl, hp _ _ rfl rfl, rfl, by rw [hb], ?_⟩
  rw [hb]
  show s2.data.map (List.map (· / (Real.sqrt r : ℂ))) = s2.data.map (List.map (· / (r : ℂ))) ↔ _
  constructor
  · intro h
    by_cases h3 : ∀ row ∈ s2.data, ∀ x ∈ row, x = 0
    · exact Or.inr h3
    · left
      push Not at h3
      obtain ⟨row, hrow, x, hx, hx0⟩ := h3
      have h4 := List.map_inj_left.1 h row hrow
      have h5 := List.map_inj_left.1 h4 x hx
      rw [div_eq_div_iff hc (by exact_mod_cast hr.ne')] at h5
      have h7 := mul_left_cancel₀ hx0 h5
      rw [hcr] at h7
      have h6 : Real.sqrt r = 1 := by
        have : (Real.sqrt r : ℂ) = 1 := mul_left_cancel₀ hc (h7.trans (mul_one _).symm)
        exact_mod_cast this
      rw [← Real.sq_sqrt hr.le, h6, one_pow]
  · rintro (h | h)
    · rw [h, Real.sqrt_one]
    · apply List.map_congr_left
      intro row hrow
      apply List.map_congr_left
      intro x hx
      rw [h row hrow x hx, zero_div, zero_div]

end Qampy
