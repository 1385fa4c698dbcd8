import Verif.Lemmas.Constellation

/-!
C10-C17, C73-C75: constellations, Gray labelling, modulation, decisions, bit maps.
-/

namespace Qampy

/-! ### C10 -/

/-- C10: `cal_symbols_square_qam(4^N)` lists exactly the points with odd coordinates of absolute value at most
`2^N - 1`, each once. -/
theorem C10_square_qam (N : Nat) (h : 1 ≤ N) :
    (squareQam N).length = 4 ^ N ∧ (squareQam N).Nodup ∧
    ∀ a b : Int, (a, b) ∈ squareQam N ↔ (Odd a ∧ |a| ≤ 2 ^ N - 1) ∧ (Odd b ∧ |b| ≤ 2 ^ N - 1) := by
  refine ⟨length_squareQam N, nodup_squareQam N, fun a b => ?_⟩
  simp only [Int.odd_iff]
  exact mem_squareQam h a b

/-- C10, the order in which the points are listed: row-major, real part first, both ascending. -/
theorem C10_square_qam_order (N i j : Nat) (hi : i < 2 ^ N) (hj : j < 2 ^ N) :
    (squareQam N)[i * 2 ^ N + j]? = some (2 * (i : Int) - (2 ^ N - 1), 2 * (j : Int) - (2 ^ N - 1)) := by
  have e : squareQam N = (List.range (2 ^ N)).flatMap fun i : Nat => (List.range (2 ^ N)).map fun j : Nat =>
      ((2 * (i : Int) - (2 ^ N - 1), 2 * (j : Int) - (2 ^ N - 1)) : Int × Int) := by
    simp [squareQam, axisPts, List.flatMap_map, List.map_map, Function.comp_def]
  rw [e, getElem?_flatMap_range _ _ (fun i j : Nat => ((2 * (i : Int) - (2 ^ N - 1), 2 * (j : Int) - (2 ^ N - 1)) : Int × Int)) i j hi hj]

example : ((3 : Int), (-1 : Int)) ∈ squareQam 2 :=
  ((C10_square_qam 2 (by norm_num)).2.2 3 (-1)).2 ⟨⟨by decide, by decide⟩, ⟨by decide, by decide⟩⟩

/-! ### C11 -/

/-- C11: for even numbers of bits the closed formula equals the mean of `|s|²` over the constellation. -/
theorem C11_scaling_factor (k : Nat) (hk : k % 2 = 0) :
    scalingFactor k = (((symbolsQam k).map sqNorm).sum : ℚ) / (symbolsQam k).length ∧
    scalingFactor k = 2 / 3 * ((2 : ℚ) ^ k - 1) := by
  have h2 : scalingFactor k = 2 / 3 * ((2 : ℚ) ^ k - 1) := by rw [scalingFactor, if_pos hk]
  refine ⟨?_, h2⟩
  rw [h2, length_symbolsQam]
  have h := sum_squareQam_sq (k / 2)
  have e : symbolsQam k = squareQam (k / 2) := by rw [symbolsQam, if_neg (by omega)]
  have e4 : (4 : Int) ^ (k / 2) = 2 ^ k := by
    rw [show (4 : Int) = 2 ^ 2 by norm_num, ← pow_mul]; congr 1; omega
  rw [e4] at h
  rw [e]
  have hq : (3 : ℚ) * ((((squareQam (k / 2)).map sqNorm).sum : Int) : ℚ) = 2 * 2 ^ k * (2 ^ k - 1) := by exact_mod_cast h
  have hp : ((2 : ℚ) ^ k) ≠ 0 := by positivity
  push_cast at hq ⊢
  field_simp
  linear_combination -hq

theorem scalingFactor_eq_mean (k : Nat) :
    scalingFactor k = (((symbolsQam k).map sqNorm).sum : ℚ) / (symbolsQam k).length := by
  by_cases hk : k % 2 = 0
  · exact (C11_scaling_factor k hk).1
  · rw [scalingFactor, if_neg hk]

theorem sum_sqNorm_pos (k : Nat) (hk : 1 ≤ k) : 0 < ((symbolsQam k).map sqNorm).sum := by
  have hnn : ∀ l : List (Int × Int), 0 ≤ (l.map sqNorm).sum := by
    intro l
    apply List.sum_nonneg
    intro x hx
    obtain ⟨p, -, rfl⟩ := List.mem_map.1 hx
    simp only [sqNorm]; positivity
  by_contra hle
  have h0 : ((symbolsQam k).map sqNorm).sum = 0 := le_antisymm (not_lt.1 hle) (hnn _)
  have hz : ∀ p ∈ symbolsQam k, p = (0, 0) := by
    have key : ∀ l : List (Int × Int), (l.map sqNorm).sum = 0 → ∀ p ∈ l, p = (0, 0) := by
      intro l
      induction l with
      | nil => simp
      | cons a l ih =>
        intro hs
        simp only [List.map_cons, List.sum_cons] at hs
        have h1 : 0 ≤ sqNorm a := by simp only [sqNorm]; positivity
        have h2 := hnn l
        have h3 : sqNorm a = 0 := by omega
        have h4 : (l.map sqNorm).sum = 0 := by omega
        intro p hp
        rcases List.mem_cons.1 hp with rfl | hp
        · simp only [sqNorm] at h3
          have a1 : p.1 = 0 := by nlinarith [sq_nonneg p.1, sq_nonneg p.2]
          have a2 : p.2 = 0 := by nlinarith [sq_nonneg p.1, sq_nonneg p.2]
          exact Prod.ext a1 a2
        · exact ih h4 p hp
    exact key _ h0
  have hl := length_symbolsQam k
  have hnd := nodup_symbolsQam k
  have h2 : 2 ≤ 2 ^ k := by
    calc 2 = 2 ^ 1 := by norm_num
      _ ≤ 2 ^ k := Nat.pow_le_pow_right (by norm_num) hk
  match hsy : symbolsQam k with
  | [] => rw [hsy] at hl; simp at hl; omega
  | [_] => rw [hsy] at hl; simp at hl; omega
  | a :: b :: l =>
    rw [hsy] at hnd hz
    have e1 := hz a (by simp)
    have e2 := hz b (by simp)
    subst e1 e2
    simp at hnd

/-- C11: the scaled constellation of every order has mean power one and zero mean. -/
theorem C11_unit_power (k : Nat) (hk : 1 ≤ k) :
    let coded := qamCodedSymbols k (Real.sqrt (scalingFactor k : ℝ))
    (coded.map fun s => ‖s‖ ^ 2).sum / 2 ^ k = 1 ∧ coded.sum = 0 := by
  intro coded
  have hperm := codedSymbols_perm (IsPerm.qam k) _ (length_scaled k (Real.sqrt (scalingFactor k : ℝ)))
  have hpos := sum_sqNorm_pos k hk
  have hS : (0 : ℚ) < scalingFactor k := by
    rw [scalingFactor_eq_mean, length_symbolsQam]
    have : (0 : ℚ) < (((symbolsQam k).map sqNorm).sum : Int) := by exact_mod_cast hpos
    push_cast at this ⊢
    positivity
  have hSr : (0 : ℝ) < (scalingFactor k : ℝ) := by exact_mod_cast hS
  constructor
  · have hc : (coded.map fun s => ‖s‖ ^ 2).sum = _ := (hperm.map fun s => ‖s‖ ^ 2).sum_eq
    rw [hc, List.map_map]
    have e : ∀ l : List (Int × Int), (l.map ((fun s => ‖s‖ ^ 2) ∘ toComplex (Real.sqrt (scalingFactor k : ℝ)))).sum
        = ((l.map sqNorm).sum : Int) / (scalingFactor k : ℝ) := by
      intro l
      induction l with
      | nil => simp
      | cons p l ih =>
        rw [List.map_cons, List.sum_cons, ih, Function.comp_apply, normSq_toComplex, Real.sq_sqrt hSr.le, List.map_cons,
          List.sum_cons]
        push_cast
        ring
    rw [e]
    have h := scalingFactor_eq_mean k
    rw [length_symbolsQam] at h
    have h' : (scalingFactor k : ℝ) = ((((symbolsQam k).map sqNorm).sum : Int) : ℝ) / 2 ^ k := by
      have := congrArg (fun q : ℚ => (q : ℝ)) h
      simpa only [Rat.cast_div, Rat.cast_intCast, Rat.cast_natCast, Nat.cast_pow, Nat.cast_ofNat, Rat.cast_pow, Rat.cast_ofNat] using this
    rw [h']
    have hpr : (0 : ℝ) < ((((symbolsQam k).map sqNorm).sum : Int) : ℝ) := by exact_mod_cast hpos
    field_simp
  · have hc : coded.sum = _ := hperm.sum_eq
    rw [hc]
    have e : ∀ l : List (Int × Int), (l.map (toComplex (Real.sqrt (scalingFactor k : ℝ)))).sum
        = toComplex (Real.sqrt (scalingFactor k : ℝ)) l.sum := by
      intro l
      induction l with
      | nil => simp [toComplex, show (⟨0, 0⟩ : ℂ) = 0 from rfl]
      | cons p l ih =>
        rw [List.map_cons, List.sum_cons, ih, List.sum_cons, toComplex, toComplex, toComplex, ← add_div]
        congr 1
        apply Complex.ext <;> simp
    rw [e, sum_symbolsQam]
    simp [toComplex, show (⟨0, 0⟩ : ℂ) = 0 from rfl]

example : scalingFactor 4 = 10 := by
  rw [(C11_scaling_factor 4 (by norm_num)).2]; norm_num

/-! ### C12 -/

/-- C12: `cal_symbols_cross_qam(2^(2N+1))` gives distinct points with odd coordinates within the square of half width
`3·2^(N-1)` (exclusive for `N ≥ 2`), closed under negation and conjugation. -/
theorem C12_cross_qam (N : Nat) (h : 1 ≤ N) :
    (crossQam N).length = 2 ^ (2 * N + 1) ∧ (crossQam N).Nodup ∧
    (∀ a b : Int, (a, b) ∈ crossQam N → Odd a ∧ Odd b ∧ |a| ≤ 3 * 2 ^ (N - 1) ∧ |b| ≤ 3 * 2 ^ (N - 1)) ∧
    (∀ a b : Int, (a, b) ∈ crossQam N → (-a, -b) ∈ crossQam N ∧ (a, -b) ∈ crossQam N) := by
  refine ⟨length_crossQam N, nodup_crossQam N, ?_, ?_⟩
  · intro a b hab
    simp only [Int.odd_iff]
    by_cases h2 : 2 ≤ N
    · obtain ⟨⟨h3, h4⟩, h5, h6, -⟩ := (mem_crossQam h2 a b).1 hab
      have e : (2 : Int) ^ N = 2 * 2 ^ (N - 1) := by rw [← pow_succ']; congr 1; omega
      rw [e] at h5 h6
      exact ⟨h3, h4, by linarith, by linarith⟩
    · have : N = 1 := by omega
      subst this
      have : ∀ p ∈ crossQam 1, p.1 % 2 = 1 ∧ p.2 % 2 = 1 ∧ |p.1| ≤ 3 * 2 ^ (1 - 1) ∧ |p.2| ≤ 3 * 2 ^ (1 - 1) := by decide
      exact this _ hab
  · intro a b hab
    exact ⟨(mem_cross_neg N _ (mem_cross_neg N _ hab).1).2, (mem_cross_neg N _ hab).2⟩

/-- C12, exact shape for `N ≥ 2`: the odd points of the square of half width `3·2^(N-1)` without the four corner squares
in which both coordinates exceed `2^N`; in particular closed under quarter turns. -/
theorem C12_cross_shape (N : Nat) (h : 2 ≤ N) :
    (∀ a b : Int, (a, b) ∈ crossQam N ↔ Odd a ∧ Odd b ∧ |a| < 3 * 2 ^ (N - 1) ∧ |b| < 3 * 2 ^ (N - 1) ∧
      ¬ (2 ^ N < |a| ∧ 2 ^ N < |b|)) ∧
    (∀ a b : Int, (a, b) ∈ crossQam N → (-b, a) ∈ crossQam N) := by
  have e : (2 : Int) ^ N = 2 * 2 ^ (N - 1) := by rw [← pow_succ']; congr 1; omega
  have key : ∀ a b : Int, (a, b) ∈ crossQam N ↔ Odd a ∧ Odd b ∧ |a| < 3 * 2 ^ (N - 1) ∧ |b| < 3 * 2 ^ (N - 1) ∧
      ¬ (2 ^ N < |a| ∧ 2 ^ N < |b|) := by
    intro a b
    rw [mem_crossQam h a b, Int.odd_iff, Int.odd_iff, e]
    have pa : a % 2 = 1 → |a| % 2 = 1 := by intro h; rcases sign_abs_cases a h with h | h <;> omega
    have pb : b % 2 = 1 → |b| % 2 = 1 := by intro h; rcases sign_abs_cases b h with h | h <;> omega
    generalize |a| = x at *
    generalize |b| = y at *
    omega
  refine ⟨key, fun a b hab => ?_⟩
  rw [key] at hab ⊢
  obtain ⟨h1, h2, h3, h4, h5⟩ := hab
  rw [abs_neg]
  exact ⟨h2.neg, h1, h4, h3, fun h => h5 ⟨h.2, h.1⟩⟩

/-- C12, the 8-QAM case `N = 1`: a 4×2 rectangle, hence not closed under quarter turns. -/
theorem C12_cross_8qam : (∀ a b : Int, (a, b) ∈ crossQam 1 ↔ Odd a ∧ Odd b ∧ |a| ≤ 3 ∧ |b| ≤ 1) ∧
    (3, 1) ∈ crossQam 1 ∧ (-1, 3) ∉ crossQam 1 := by
  refine ⟨fun a b => ?_, by decide, by decide⟩
  rw [Int.odd_iff, Int.odd_iff]
  have h : crossQam 1 = crossRect 1 := by decide
  rw [h, mem_crossRect (by norm_num)]
  norm_num
  tauto

example : ((5 : Int), (3 : Int)) ∈ crossQam 2 := by decide

/-! ### C13 -/

/-- C13: the label list is a permutation of `0..M-1`, the coded symbols are a permutation of the constellation, and
every bit pattern of `k` bits is the label of exactly one constellation point. -/
theorem C13_gray_bijection (k : Nat) (scale : ℝ) (hs : scale ≠ 0) :
    (grayCodeQam k).Perm (List.range (2 ^ k)) ∧
    (qamCodedSymbols k scale).Perm ((symbolsQam k).map (toComplex scale)) ∧ (qamCodedSymbols k scale).Nodup ∧
    (∀ b : List Bool, b.length = k → ∃! i : Nat, ∃ l : Nat, (grayCodeQam k)[i]? = some l ∧ encodingRow k l = b) := by
  have hp := IsPerm.qam k
  refine ⟨?_, codedSymbols_perm hp _ (length_scaled k scale), nodup_qamCoded k hs, ?_⟩
  · apply List.Subperm.perm_of_length_le (List.subperm_of_subset hp.nodup _)
    · simp [hp.len]
    · exact fun g hg => List.mem_range.2 (hp.lt g hg)
  · intro b hb
    subst hb
    obtain ⟨i, hi⟩ := List.getElem?_of_mem (hp.surj (bitsToIdx_lt b))
    refine ⟨i, ⟨_, hi, encodingRow_bitsToIdx b⟩, ?_⟩
    rintro j ⟨l, hj, he⟩
    have hl := hp.lt l (List.mem_of_getElem? hj)
    have : l = bitsToIdx b := by rw [← he, bitsToIdx_encodingRow _ _ hl]
    subst this
    obtain ⟨h1, h2⟩ := List.getElem?_eq_some_iff.1 hi
    obtain ⟨h3, h4⟩ := List.getElem?_eq_some_iff.1 hj
    exact (List.Nodup.getElem_inj_iff hp.nodup).1 (h4.trans h2.symm)

/-- C13: the point carrying the label of constellation point `i` is constellation point `i`. -/
theorem C13_label_of_point (k : Nat) (scale : ℝ) (i l : Nat) (h : (grayCodeQam k)[i]? = some l) :
    (qamCodedSymbols k scale)[l]? = ((symbolsQam k)[i]?).map (toComplex scale) := by
  rw [qamCodedSymbols, (codedSymbols_spec (IsPerm.qam k) _ (length_scaled k scale)).2 i l h, List.getElem?_map]

example : grayCodeQam 4 = [0, 1, 3, 2, 4, 5, 7, 6, 12, 13, 15, 14, 8, 9, 11, 10] := by decide

/-! ### C14 -/

theorem sq_eq_one_iff_of_side {x : Int} (h : x ^ 2 = 1) : x = 1 ∨ x = -1 := by
  have : (x - 1) * (x + 1) = 0 := by linear_combination h
  rcases mul_eq_zero.1 this with h | h <;> omega


/-- C14: in a square constellation the minimum distance is `2/scale`, and two points at this distance carry labels
that differ in exactly one bit. -/
theorem C14_gray_neighbours (N : Nat) (scale : ℝ) (hs : 0 < scale) (l l' : Nat) (s s' : ℂ)
    (hl : (qamCodedSymbols (2 * N) scale)[l]? = some s) (hl' : (qamCodedSymbols (2 * N) scale)[l']? = some s') :
    (l ≠ l' → 2 / scale ≤ ‖s - s'‖) ∧
    (‖s - s'‖ = 2 / scale → ∃! t, t < 2 * N ∧ (encodingRow (2 * N) l)[t]? ≠ (encodingRow (2 * N) l')[t]?) := by
  have hp := IsPerm.qam (2 * N)
  have hlen := length_qamCoded (2 * N) scale
  have hlt : l < 2 ^ (2 * N) := by rw [← hlen]; exact (List.getElem?_eq_some_iff.1 hl).1
  have hlt' : l' < 2 ^ (2 * N) := by rw [← hlen]; exact (List.getElem?_eq_some_iff.1 hl').1
  have pos : ∀ l, l < 2 ^ (2 * N) → ∃ i j, i < 2 ^ N ∧ j < 2 ^ N ∧ l = (bin2gray i <<< N) ||| bin2gray j ∧
      (qamCodedSymbols (2 * N) scale)[l]? =
        some (toComplex scale (2 * (i : Int) - (2 ^ N - 1), 2 * (j : Int) - (2 ^ N - 1))) := by
    intro l hlt
    have hmem := hp.surj hlt
    have hmem' := hmem
    simp only [grayCodeQam, List.mem_flatMap, List.mem_map, List.mem_range] at hmem'
    rw [show 2 * N / 2 = N by omega, show 2 * N - N = N by omega] at hmem'
    obtain ⟨i, hi, j, hj, rfl⟩ := hmem'
    refine ⟨i, j, hi, hj, rfl, ?_⟩
    have hg : (grayCodeQam (2 * N))[i * 2 ^ N + j]? = some ((bin2gray i <<< N) ||| bin2gray j) := by
      simp only [grayCodeQam]
      rw [show 2 * N / 2 = N by omega, show 2 * N - N = N by omega]
      exact getElem?_flatMap_range _ _ (fun i j => (bin2gray i <<< N) ||| bin2gray j) i j hi hj
    rw [C13_label_of_point _ _ _ _ hg, symbolsQam, if_neg (by omega), show 2 * N / 2 = N by omega,
      C10_square_qam_order N i j hi hj]
    rfl
  obtain ⟨i, j, hi, hj, el, e⟩ := pos l hlt
  obtain ⟨i', j', hi', hj', el', e'⟩ := pos l' hlt'
  rw [e, Option.some.injEq] at hl
  rw [e', Option.some.injEq] at hl'
  have hd : ‖s - s'‖ ^ 2 = 4 * (((i : ℝ) - i') ^ 2 + ((j : ℝ) - j') ^ 2) / scale ^ 2 := by
    rw [← hl, ← hl', toComplex_sub, normSq_toComplex, sqNorm]
    push_cast [Prod.fst_sub, Prod.snd_sub]
    ring
  constructor
  · intro hne
    have hij : 1 ≤ ((i : Int) - i') ^ 2 + ((j : Int) - j') ^ 2 := by
      by_contra hlt
      have a1 := sq_nonneg ((i : Int) - i')
      have a2 := sq_nonneg ((j : Int) - j')
      have b1 : ((i : Int) - i') ^ 2 = 0 := by omega
      have b2 : ((j : Int) - j') ^ 2 = 0 := by omega
      rw [sq_eq_zero_iff] at b1 b2
      have c1 : i = i' := by omega
      have c2 : j = j' := by omega
      subst c1 c2
      exact hne (el.trans el'.symm)
    have hij' : (1 : ℝ) ≤ ((i : ℝ) - i') ^ 2 + ((j : ℝ) - j') ^ 2 := by exact_mod_cast hij
    rw [← sq_le_sq₀ (by positivity) (norm_nonneg _)]
    rw [hd, div_pow]
    apply div_le_div_of_nonneg_right _ (by positivity)
    linarith
  · intro hne
    rw [hne, div_pow] at hd
    have hsc : scale ^ 2 ≠ 0 := by positivity
    rw [div_left_inj' hsc] at hd
    have hij : ((i : Int) - i') ^ 2 + ((j : Int) - j') ^ 2 = 1 := by
      have : ((i : ℝ) - i') ^ 2 + ((j : ℝ) - j') ^ 2 = 1 := by linarith
      exact_mod_cast this
    have hcase : (i = i' ∧ (j' = j + 1 ∨ j = j' + 1)) ∨ (j = j' ∧ (i' = i + 1 ∨ i = i' + 1)) := by
      have a1 := sq_nonneg ((i : Int) - i')
      have a2 := sq_nonneg ((j : Int) - j')
      have : ((i : Int) - i') ^ 2 = 0 ∨ ((i : Int) - i') ^ 2 = 1 := by omega
      rcases this with h0 | h0
      · have h1 : ((j : Int) - j') ^ 2 = 1 := by omega
        rw [sq_eq_zero_iff] at h0
        rcases sq_eq_one_iff_of_side h1 with h | h <;> omega
      · have h1 : ((j : Int) - j') ^ 2 = 0 := by omega
        rw [sq_eq_zero_iff] at h1
        rcases sq_eq_one_iff_of_side h0 with h | h <;> omega
    have hx := label_xor (N := N) (i := i) (i' := i') hj hj'
    rw [← el, ← el'] at hx
    rcases hcase with ⟨rfl, h⟩ | ⟨rfl, h⟩
    · obtain ⟨m, hm⟩ : ∃ m, bin2gray j ^^^ bin2gray j' = 2 ^ m := by
        rcases h with rfl | rfl
        · exact gray_succ j
        · rw [Nat.xor_comm]; exact gray_succ j'
      rw [hm, Nat.xor_self, Nat.zero_shiftLeft, Nat.zero_xor] at hx
      exact xor_two_pow_unique hlt hlt' hx
    · obtain ⟨m, hm⟩ : ∃ m, bin2gray i ^^^ bin2gray i' = 2 ^ m := by
        rcases h with rfl | rfl
        · exact gray_succ i
        · rw [Nat.xor_comm]; exact gray_succ i'
      rw [hm, Nat.xor_self, Nat.xor_zero, Nat.shiftLeft_eq, ← pow_add] at hx
      exact xor_two_pow_unique hlt hlt' hx

/-- Labels 1 and 3 of 16-QAM are neighbours. -/
example : (qamCodedSymbols 4 1)[1]? = some (toComplex 1 (-3, -1)) ∧ (qamCodedSymbols 4 1)[3]? = some (toComplex 1 (-3, 1))
    ∧ ‖toComplex 1 (-3, -1) - toComplex 1 (-3, 1)‖ = 2 / 1 := by
  refine ⟨C13_label_of_point 4 1 1 1 (by decide), C13_label_of_point 4 1 2 3 (by decide), ?_⟩
  rw [← sq_eq_sq₀ (norm_nonneg _) (by norm_num), toComplex_sub, normSq_toComplex]
  norm_num [sqNorm]

/-! ### C15 -/

/-- C15 for any alphabet of `2^k` distinct symbols: demodulating modulated bits returns the bits up to the last
complete symbol. -/
theorem C15_demodulate_modulate (k : Nat) (coded : List ℂ) (hl : coded.length = 2 ^ k) (hnd : coded.Nodup)
    (bits : List Bool) :
    demodulate k coded (modulate k coded bits) = some (bits.take (bits.length / k * k)) := by
  obtain ⟨h1, h2⟩ := chunks_spec k (bits.length / k) bits (Nat.div_mul_le_self _ _)
  have hlt : ∀ i ∈ (chunks k (bits.length / k) bits).map bitsToIdx, i < 2 ^ k := by
    intro i hi
    obtain ⟨c, hc, rfl⟩ := List.mem_map.1 hi
    have := bitsToIdx_lt c
    rwa [h1 c hc] at this
  rw [demodulate, modulate, makeDecision_gather hnd _ (by rw [hl]; exact hlt)]
  simp only [Option.map_some, Option.some.injEq, List.map_map, Function.comp_def, demodulateIdx]
  rw [gather_encoding k _ (by simpa using hlt), List.map_map]
  rw [← h2]
  congr 1
  conv_rhs => rw [← List.map_id (chunks k (bits.length / k) bits)]
  apply List.map_congr_left
  intro c hc
  have := encodingRow_bitsToIdx c
  rw [h1 c hc] at this
  exact this

theorem bitsOfIdx_chunks (k : Nat) (idx : List Nat) :
    chunks k idx.length ((idx.map (encodingRow k)).flatten) = idx.map (encodingRow k) := by
  induction idx with
  | nil => rfl
  | cons i idx ih =>
    simp only [List.length_cons, chunks, List.map_cons, List.flatten_cons]
    rw [List.take_left' (length_encodingRow k i), List.drop_left' (length_encodingRow k i), ih]

/-- C15, the other direction: modulating the demodulated bits of any sequence of constellation points gives the
sequence back. -/
theorem C15_modulate_demodulate (k : Nat) (hk : 1 ≤ k) (coded : List ℂ) (hl : coded.length = 2 ^ k) (hnd : coded.Nodup)
    (symbols : List ℂ) (hs : ∀ s ∈ symbols, s ∈ coded) :
    ∃ bits, demodulate k coded symbols = some bits ∧ bits.length = k * symbols.length ∧
      modulate k coded bits = symbols := by
  have hidx : ∃ idx : List Nat, (∀ i ∈ idx, i < coded.length) ∧ idx.length = symbols.length ∧ gather coded idx = symbols := by
    induction symbols with
    | nil => exact ⟨[], by simp, rfl, rfl⟩
    | cons s symbols ih =>
      obtain ⟨idx, h1, h2, h3⟩ := ih (fun t ht => hs t (by simp [ht]))
      obtain ⟨i, hi⟩ := List.getElem?_of_mem (hs s (by simp))
      refine ⟨i :: idx, ?_, by simp [h2], ?_⟩
      · intro j hj
        rcases List.mem_cons.1 hj with rfl | hj
        · exact (List.getElem?_eq_some_iff.1 hi).1
        · exact h1 j hj
      · simp only [gather] at *
        rw [List.filterMap_cons, hi, h3]
  obtain ⟨idx, h1, h2, h3⟩ := hidx
  refine ⟨(idx.map (encodingRow k)).flatten, ?_, ?_, ?_⟩
  · rw [← h3, demodulate, makeDecision_gather hnd _ h1]
    simp only [Option.map_some, Option.some.injEq, List.map_map, Function.comp_def, demodulateIdx]
    rw [gather_encoding k _ (by rw [← hl]; simpa using h1)]
    simp
  · rw [List.length_flatten, List.map_map, ← h2]
    have : (List.length ∘ encodingRow k) = fun _ => k := by funext i; exact length_encodingRow k i
    rw [this]
    simp [mul_comm]
  · have hlen : ((idx.map (encodingRow k)).flatten).length = idx.length * k := by
      rw [List.length_flatten, List.map_map]
      have : (List.length ∘ encodingRow k) = fun _ => k := by funext i; exact length_encodingRow k i
      rw [this]
      simp
    rw [modulate, hlen, Nat.mul_div_cancel _ (by omega), bitsOfIdx_chunks, List.map_map]
    have : idx.map (bitsToIdx ∘ encodingRow k) = idx := by
      conv_rhs => rw [← List.map_id idx]
      apply List.map_congr_left
      intro i hi
      exact bitsToIdx_encodingRow k i (by rw [← hl]; exact h1 i hi)
    rw [this, h3]

/-- C15 for the QAM signals of the library. -/
theorem C15_qam (k : Nat) (scale : ℝ) (hs : scale ≠ 0) (bits : List Bool) :
    demodulate k (qamCodedSymbols k scale) (modulate k (qamCodedSymbols k scale) bits)
      = some (bits.take (bits.length / k * k)) :=
  C15_demodulate_modulate k _ (length_qamCoded k scale) (nodup_qamCoded k hs) bits

/-- C15 for the PSK signals of the library. -/
theorem C15_psk (k : Nat) (bits : List Bool) :
    demodulate k (pskCodedSymbols k) (modulate k (pskCodedSymbols k) bits) = some (bits.take (bits.length / k * k)) :=
  C15_demodulate_modulate k _ (length_pskCoded k) (nodup_pskCoded k) bits

example : demodulate 2 (qamCodedSymbols 2 1) (modulate 2 (qamCodedSymbols 2 1) [true, false, true, true, true])
    = some [true, false, true, true] :=
  C15_qam 2 1 one_ne_zero _

/-! ### C16 -/

/-- C16: every decision is a constellation point at minimal distance, the first such one, together with its distance
and index; for a nonempty alphabet a decision always exists. -/
theorem C16_min_distance (E symbols : List ℂ) (hne : symbols ≠ []) :
    ∃ d, makeDecision E symbols = some d ∧ d.length = E.length ∧
    ∀ (n : Nat) (x s : ℂ) (r : ℝ) (i : Nat), E[n]? = some x → d[n]? = some (s, r, i) →
      symbols[i]? = some s ∧ r = ‖x - s‖ ∧ (∀ s' ∈ symbols, ‖x - s‖ ≤ ‖x - s'‖) ∧
      (∀ i' s', i' < i → symbols[i']? = some s' → ‖x - s‖ < ‖x - s'‖) := by
  choose f hf using fun x => detSymbolArgmin_isSome x hne
  have hE : makeDecision E symbols = some (E.map f) := by
    rw [makeDecision, mapM_eq_some_iff, List.map_map]
    apply List.map_congr_left
    intro x _
    exact hf x
  refine ⟨E.map f, hE, by simp, ?_⟩
  intro n x s r i hx hd
  rw [List.getElem?_map, hx] at hd
  simp only [Option.map_some, Option.some.injEq] at hd
  have := hf x
  rw [hd] at this
  obtain ⟨h1, h2, h3, h4⟩ := detSymbolArgmin_spec this
  exact ⟨h1, h2, h3, fun i' s' hi' hs' => h4 i' hi' s' hs'⟩

/-- C16: noise smaller than half the minimum distance does not change the decisions. -/
theorem C16_recovers (symbols : List ℂ) (dmin : ℝ)
    (hmin : ∀ (i j : Nat) (s t : ℂ), symbols[i]? = some s → symbols[j]? = some t → i ≠ j → dmin ≤ ‖s - t‖)
    (tx rx : List ℂ) (hlen : rx.length = tx.length) (htx : ∀ s ∈ tx, s ∈ symbols)
    (hnoise : ∀ (n : Nat) (s x : ℂ), tx[n]? = some s → rx[n]? = some x → ‖x - s‖ < dmin / 2) :
    ∃ d, makeDecision rx symbols = some d ∧ d.map (·.1) = tx := by
  induction tx generalizing rx with
  | nil =>
    have : rx = [] := List.length_eq_zero_iff.1 (by simpa using hlen)
    subst this
    exact ⟨[], rfl, rfl⟩
  | cons s tx ih =>
    cases rx with
    | nil => simp at hlen
    | cons x rx =>
      obtain ⟨d, h1, h2⟩ := ih rx (by simpa using hlen) (fun t ht => htx t (by simp [ht]))
        (fun n s x hs hx => hnoise (n + 1) s x (by simpa using hs) (by simpa using hx))
      obtain ⟨i, hi⟩ := List.getElem?_of_mem (htx s (by simp))
      have hn := hnoise 0 s x (by simp) (by simp)
      have hdec : detSymbolArgmin x symbols = some (s, ‖x - s‖, i) := by
        apply detSymbolArgmin_of_closest hi
        intro j t ht hji
        have h3 := hmin i j s t hi ht (fun h => hji h.symm)
        have h4 : ‖s - t‖ ≤ ‖x - s‖ + ‖x - t‖ := by
          have e : s - t = (x - t) - (x - s) := by ring
          rw [e, add_comm]
          exact norm_sub_le _ _
        linarith
      refine ⟨(s, ‖x - s‖, i) :: d, ?_, by simp [h2]⟩
      rw [makeDecision, mapM_eq_some_iff] at *
      simp [hdec, h1]

/-- C16: sequences of constellation points are left unchanged (idempotence of decisions), with zero distance. -/
theorem C16_idempotent (symbols : List ℂ) (tx : List ℂ) (htx : ∀ s ∈ tx, s ∈ symbols) :
    ∃ d, makeDecision tx symbols = some d ∧ d.map (·.1) = tx ∧ ∀ r ∈ d, r.2.1 = 0 := by
  induction tx with
  | nil => exact ⟨[], rfl, rfl, by simp⟩
  | cons s tx ih =>
    obtain ⟨d, h1, h2, h3⟩ := ih (fun t ht => htx t (by simp [ht]))
    have hs := htx s (by simp)
    obtain ⟨r, hr⟩ := detSymbolArgmin_isSome s (List.ne_nil_of_mem hs)
    obtain ⟨-, h5, h6, -⟩ := detSymbolArgmin_spec hr
    have h7 := h6 s hs
    rw [sub_self, norm_zero] at h7
    have h8 : ‖s - r.1‖ = 0 := le_antisymm h7 (norm_nonneg _)
    have h9 : s = r.1 := by rwa [norm_eq_zero, sub_eq_zero] at h8
    refine ⟨r :: d, ?_, by simp [h2, ← h9], ?_⟩
    · rw [makeDecision, mapM_eq_some_iff] at *
      simp [hr, h1]
    · intro r' hr'
      rcases List.mem_cons.1 hr' with rfl | hr'
      · rw [h5, h8]
      · exact h3 r' hr'

/-- The hypotheses of `C16_recovers` can be met with non-zero noise. -/
example : ∃ d, makeDecision [1 + (1 / 2 : ℂ), -1] [1, -1] = some d ∧ d.map (·.1) = [1, -1] := by
  apply C16_recovers [1, -1] 2
  · intro i j s t hi hj hij
    have h2 : ‖(1 : ℂ) - -1‖ = 2 := by norm_num
    have h3 : ‖(-1 : ℂ) - 1‖ = 2 := by norm_num
    match i, j with
    | 0, 0 => simp at hij
    | 0, 1 => simp at hi hj; subst hi hj; rw [h2]
    | 1, 0 => simp at hi hj; subst hi hj; rw [h3]
    | 1, 1 => simp at hij
    | i + 2, _ => simp at hi
    | _, j + 2 => simp at hj
  · simp
  · simp
  · intro n s x hs hx
    match n with
    | 0 => simp at hs hx; subst hs hx; norm_num
    | 1 => simp at hs hx; subst hs hx; norm_num
    | n + 2 => simp at hs

/-! ### C17 -/

/-- C17: the bit map matrix always has the right shape and splits the constellation for every bit position into the
`M/2` symbols whose label has a zero there and the `M/2` symbols with a one. -/
theorem C17_bitmap (k : Nat) (coded : List ℂ) (hl : coded.length = 2 ^ k) :
    ∃ m, bitmapMtx k coded = .ok m ∧ m.length = k ∧
    ∀ (bit : Nat) (c : List ℂ × List ℂ), m[bit]? = some c →
      c.1.length = 2 ^ (k - 1) ∧ c.2.length = 2 ^ (k - 1) ∧ (c.1 ++ c.2).Perm coded ∧
      (∀ s, s ∈ c.1 ↔ ∃ l : Nat, coded[l]? = some s ∧ (encodingRow k l)[bit]? = some false) ∧
      (∀ s, s ∈ c.2 ↔ ∃ l : Nat, coded[l]? = some s ∧ (encodingRow k l)[bit]? = some true) := by
  have hcol : ∀ bit, bit < k → ((encoding k).map fun row => row.getD bit false)
      = (List.range (2 ^ k)).map fun l => l.testBit (k - 1 - bit) := by
    intro bit hb
    rw [encoding, List.map_map]
    apply List.map_congr_left
    intro l _
    rw [Function.comp_apply, List.getD_eq_getElem?_getD, encodingRow_getElem? _ _ _ hb]
    rfl
  have hlen : ∀ bit, bit < k → (bitmapColumn k coded bit).1.length = 2 ^ (k - 1) ∧
      (bitmapColumn k coded bit).2.length = 2 ^ (k - 1) := by
    intro bit hb
    simp only [bitmapColumn]
    rw [hcol bit hb, Np.length_select _ _ (by simp [hl]), Np.length_select _ _ (by simp [hl]), Np.countNonzero,
      Np.countNonzero]
    obtain ⟨h1, h2⟩ := count_testBit k (k - 1 - bit) (by omega)
    refine ⟨?_, h1⟩
    rw [← h2]
    generalize (List.range (2 ^ k)).map (fun l => l.testBit (k - 1 - bit)) = m
    induction m with
    | nil => rfl
    | cons a m ih => cases a <;> simp [ih]
  have hok : bitmapMtx k coded = .ok ((List.range k).map (bitmapColumn k coded)) := by
    have key : ∀ l : List Nat, (∀ b ∈ l, b < k) → (l.mapM fun bit =>
        let c := bitmapColumn k coded bit
        if c.1.length = 2 ^ k / 2 ∧ c.2.length = 2 ^ k / 2 then (.ok c : Except PyErr _) else .error .value)
        = .ok (l.map (bitmapColumn k coded)) := by
      intro l
      induction l with
      | nil => intro _; rfl
      | cons b l ih =>
        intro hb
        have hbk : b < k := hb b (by simp)
        obtain ⟨h1, h2⟩ := hlen b hbk
        have e : 2 ^ k / 2 = 2 ^ (k - 1) := by
          obtain ⟨m, rfl⟩ : ∃ m, k = m + 1 := ⟨k - 1, by omega⟩
          rw [pow_succ]; simp
        rw [List.mapM_cons, ih (fun b hb' => hb b (by simp [hb']))]
        simp only [h1, h2, e, and_self, if_true]
        rfl
    exact key _ (fun b hb => List.mem_range.1 hb)
  refine ⟨_, hok, by simp, ?_⟩
  intro bit c hc
  have hb : bit < k := by
    have := (List.getElem?_eq_some_iff.1 hc).1
    simpa using this
  rw [List.getElem?_map, List.getElem?_range hb] at hc
  simp only [Option.map_some, Option.some.injEq] at hc
  subst hc
  refine ⟨(hlen bit hb).1, (hlen bit hb).2, ?_, ?_, ?_⟩
  · simp only [bitmapColumn]
    apply select_perm
    rw [List.length_map, length_encoding, hl]
  · intro s
    simp only [bitmapColumn]
    rw [mem_select_iff, hcol bit hb]
    apply exists_congr
    intro l
    apply and_congr_right
    intro hs
    have hlt : l < 2 ^ k := by rw [← hl]; exact (List.getElem?_eq_some_iff.1 hs).1
    rw [encodingRow_getElem? _ _ _ hb, List.getElem?_map, List.getElem?_map, List.getElem?_range hlt]
    simp
  · intro s
    simp only [bitmapColumn]
    rw [mem_select_iff, hcol bit hb]
    apply exists_congr
    intro l
    apply and_congr_right
    intro hs
    have hlt : l < 2 ^ k := by rw [← hl]; exact (List.getElem?_eq_some_iff.1 hs).1
    rw [encodingRow_getElem? _ _ _ hb, List.getElem?_map, List.getElem?_range hlt]
    simp

example : (qamCodedSymbols 3 1).length = 2 ^ 3 := length_qamCoded 3 1

/-! ### C73 -/

/-- What a user expects from `from_symbol_array`: the stored bits are the bits of all modes. -/
def C73_statement : Prop :=
  ∀ (k : Nat) (coded : List ℂ) (symbs : List (List ℂ)) (out : List (List ℂ)) (bits : List Bool),
    coded.length = 2 ^ k → coded.Nodup → (∀ row ∈ symbs, ∀ s ∈ row, s ∈ coded) →
    fromSymbolArray k coded symbs = .ok (out, bits) →
    ∃ rows, symbs.mapM (demodulate k coded) = some rows ∧ bits = rows.flatten

theorem fromSymbolArray_ok (k : Nat) (coded : List ℂ) (row : List ℂ) (rows : List (List ℂ))
    (h : ∀ r ∈ row :: rows, ∀ s ∈ r, s ∈ coded) :
    ∃ bits, fromSymbolArray k coded (row :: rows) = .ok (row :: rows, bits) ∧
      demodulate k coded ((row :: rows).getLast (by simp)) = some bits := by
  have hdec : ∃ decs, (row :: rows).mapM (fun row => makeDecision row coded) = some decs ∧
      decs.map (fun d => d.map (·.1)) = row :: rows ∧ decs.length = (row :: rows).length := by
    generalize row :: rows = l at h
    induction l with
    | nil => exact ⟨[], rfl, rfl, rfl⟩
    | cons r l ih =>
      obtain ⟨decs, h1, h2, h3⟩ := ih (fun r hr => h r (by simp [hr]))
      obtain ⟨d, h4, h5, -⟩ := C16_idempotent coded r (h r (by simp))
      rw [mapM_eq_some_iff] at h1
      refine ⟨d :: decs, ?_, by simp [h2, h5], by simp [h3]⟩
      rw [mapM_eq_some_iff]
      simp [h4, h1]
  obtain ⟨decs, h1, h2, h3⟩ := hdec
  have hne : decs ≠ [] := by rintro rfl; simp at h3
  refine ⟨demodulateIdx k ((decs.getLast hne).map (·.2.2)), ?_, ?_⟩
  · simp only [fromSymbolArray, h1, List.getLast?_eq_some_getLast hne, h2]
  · rw [mapM_eq_some_iff] at h1
    have hl : ((row :: rows).map fun row => makeDecision row coded).getLast (by simp) =
        (decs.map some).getLast (by simpa using hne) := by simp only [h1]
    rw [List.getLast_map, List.getLast_map] at hl
    rw [demodulate, hl]
    rfl

/-- C73 is violated: with two modes only the bits of the last mode are stored. -/
theorem C73_false : ¬ C73_statement := by
  intro h
  have hl : (qamCodedSymbols 1 1).length = 2 ^ 1 := length_qamCoded 1 1
  have hnd := nodup_qamCoded 1 (one_ne_zero (α := ℝ))
  generalize qamCodedSymbols 1 1 = coded at hl hnd
  have hpos : 0 < coded.length := by omega
  have hmem : coded[0] ∈ coded := List.getElem_mem hpos
  have hall : ∀ r ∈ [[coded[0]], [coded[0]]], ∀ s ∈ r, s ∈ coded := by
    intro r hr s hs
    simp at hr
    subst hr
    simp at hs
    subst hs
    exact hmem
  obtain ⟨bits, h1, h2⟩ := fromSymbolArray_ok 1 coded [coded[0]] [[coded[0]]] hall
  obtain ⟨rows, h3, h4⟩ := h 1 coded _ _ bits hl hnd hall h1
  simp only [List.getLast_cons_cons, List.getLast_singleton] at h2
  rw [mapM_eq_some_iff] at h3
  obtain ⟨b', h5, h6, -⟩ := C15_modulate_demodulate 1 le_rfl coded hl hnd [coded[0]] (by
    intro s hs; simp at hs; subst hs; exact hmem)
  rw [h5] at h2
  simp only [Option.some.injEq] at h2
  subst h2
  match rows, h3 with
  | [], h3 => simp at h3
  | [_], h3 => simp at h3
  | _ :: _ :: _ :: _, h3 => simp at h3
  | [r1, r2], h3 =>
    simp only [List.map_cons, List.map_nil, h5, List.cons.injEq, Option.some.injEq, and_true] at h3
    obtain ⟨rfl, rfl⟩ := h3
    have := congrArg List.length h4
    rw [List.flatten_cons, List.flatten_cons, List.flatten_nil, List.append_nil, List.length_append] at this
    simp only [List.length_cons, List.length_nil] at h6
    omega

/-- C73 for one mode. Missing: more than one mode, where the property fails. -/
theorem C73_single_mode_partial (k : Nat) (coded : List ℂ) (row : List ℂ) (h : ∀ s ∈ row, s ∈ coded) :
    ∃ bits, fromSymbolArray k coded [row] = .ok ([row], bits) ∧ demodulate k coded row = some bits := by
  obtain ⟨bits, h1, h2⟩ := fromSymbolArray_ok k coded row [] (by simpa using h)
  exact ⟨bits, h1, h2⟩

/-! ### C74 -/

/-- C74: the Gray mapping of PSK is a bijection onto unit-modulus symbols, and two symbols that are neighbours on the
circle (including the step from the last to the first) carry labels that differ in exactly one bit. -/
theorem C74_psk_gray (k : Nat) (hk : 1 ≤ k) :
    (pskCodedSymbols k).Perm (symbolsPsk k) ∧ (pskCodedSymbols k).Nodup ∧ (pskCodedSymbols k).length = 2 ^ k ∧
    (∀ s ∈ pskCodedSymbols k, ‖s‖ = 1) ∧
    ∀ (l l' : Nat) (s s' : ℂ), (pskCodedSymbols k)[l]? = some s → (pskCodedSymbols k)[l']? = some s' →
      s' = s * Complex.exp (2 * Real.pi * Complex.I / ((2 ^ k : Nat) : ℂ)) →
      ∃! t, t < k ∧ (encodingRow k l)[t]? ≠ (encodingRow k l')[t]? := by
  have hp := IsPerm.psk k
  have hperm := codedSymbols_perm hp _ (length_symbolsPsk k)
  refine ⟨hperm, nodup_pskCoded k, length_pskCoded k, ?_, ?_⟩
  · intro s hs
    have hs' := hperm.mem_iff.1 hs
    simp only [symbolsPsk, List.mem_map] at hs'
    obtain ⟨i, -, rfl⟩ := hs'
    split_ifs
    · rw [mul_comm]; exact Complex.norm_exp_ofReal_mul_I _
    · rw [mul_comm]; exact Complex.norm_exp_ofReal_mul_I _
  · intro l l' s s' hl hl' he
    have hlt : l < 2 ^ k := by rw [← length_pskCoded k]; exact (List.getElem?_eq_some_iff.1 hl).1
    have hlt' : l' < 2 ^ k := by rw [← length_pskCoded k]; exact (List.getElem?_eq_some_iff.1 hl').1
    have pos : ∀ l, l < 2 ^ k → ∃ i, i < 2 ^ k ∧ l = bin2gray i ∧ (pskCodedSymbols k)[l]? = (symbolsPsk k)[i]? := by
      intro l hlt
      have hmem := hp.surj hlt
      simp only [grayCodePsk, List.mem_map, List.mem_range] at hmem
      obtain ⟨i, hi, rfl⟩ := hmem
      refine ⟨i, hi, rfl, ?_⟩
      apply (codedSymbols_spec hp _ (length_symbolsPsk k)).2
      rw [grayCodePsk, List.getElem?_map, List.getElem?_range hi]
      rfl
    obtain ⟨i, hi, rfl, e1⟩ := pos l hlt
    obtain ⟨i', hi', rfl, e2⟩ := pos l' hlt'
    rw [e1, symbolsPsk_getElem? k i hi, Option.some.injEq] at hl
    rw [e2, symbolsPsk_getElem? k i' hi', Option.some.injEq] at hl'
    rw [← hl, ← hl', mul_assoc _ (_ ^ i), ← pow_succ] at he
    have hpw := mul_left_cancel₀ (psk_factor_ne k) he
    by_cases hlast : i + 1 < 2 ^ k
    · have := (psk_prim k).pow_inj hi' hlast hpw
      subst this
      obtain ⟨m, hm⟩ := gray_succ i
      exact xor_two_pow_unique hlt hlt' hm
    · have hi1 : i + 1 = 2 ^ k := by omega
      rw [hi1, (psk_prim k).pow_eq_one] at hpw
      have : i' = 0 := (psk_prim k).pow_inj hi' (by positivity) (by rw [hpw, pow_zero])
      subst this
      have e3 : bin2gray i ^^^ bin2gray 0 = 2 ^ (k - 1) := by
        have hi2 : i = 2 ^ k - 1 := by omega
        have h0 : bin2gray 0 = 0 := rfl
        rw [h0, Nat.xor_zero, bin2gray, hi2]
        apply Nat.eq_of_testBit_eq
        intro j
        rw [Nat.testBit_xor, Nat.testBit_shiftRight, Nat.testBit_two_pow_sub_one, Nat.testBit_two_pow_sub_one,
          Nat.testBit_two_pow]
        by_cases h1 : j < k - 1
        · have a1 : j < k := by omega
          have a2 : 1 + j < k := by omega
          have a3 : ¬ k - 1 = j := by omega
          simp [a1, a2, a3]
        · by_cases h2 : k - 1 = j
          · have a1 : j < k := by omega
            have a2 : ¬ 1 + j < k := by omega
            simp [a1, a2, h2]
          · have a1 : ¬ j < k := by omega
            have a2 : ¬ 1 + j < k := by omega
            simp [a1, a2, h2]
      exact xor_two_pow_unique hlt hlt' e3

/-- The step from the last 8-PSK symbol (label 4) to the first (label 0). -/
example : ∃ s s', (pskCodedSymbols 3)[4]? = some s ∧ (pskCodedSymbols 3)[0]? = some s' ∧
    s' = s * Complex.exp (2 * Real.pi * Complex.I / ((2 ^ 3 : Nat) : ℂ)) := by
  have h := (codedSymbols_spec (IsPerm.psk 3) _ (length_symbolsPsk 3)).2
  refine ⟨_, _, (h 7 4 (by decide)).trans (symbolsPsk_getElem? 3 7 (by norm_num)),
    (h 0 0 (by decide)).trans (symbolsPsk_getElem? 3 0 (by norm_num)), ?_⟩
  rw [mul_assoc _ (_ ^ 7), ← pow_succ, show 7 + 1 = 2 ^ 3 from rfl, (psk_prim 3).pow_eq_one, pow_zero]

/-! ### C75 -/

/-- What a user expects from `from_bit_array`: the stored bits are exactly the bits carried by the symbols. -/
def C75_statement : Prop :=
  ∀ (k : Nat) (coded : List ℂ) (bits : List Bool), 1 ≤ k → coded.length = 2 ^ k → coded.Nodup →
    demodulate k coded (fromBitArray k coded bits).1 = some (fromBitArray k coded bits).2

/-- C75 is violated: an incomplete last group of bits is not transmitted but is kept in `bits`. -/
theorem C75_false : ¬ C75_statement := by
  intro h
  have h1 := h 2 (qamCodedSymbols 2 1) [true] (by norm_num) (length_qamCoded 2 1) (nodup_qamCoded 2 one_ne_zero)
  have h2 := C15_qam 2 1 one_ne_zero ([] : List Bool)
  have e : (fromBitArray 2 (qamCodedSymbols 2 1) [true]).1 = modulate 2 (qamCodedSymbols 2 1) [] := rfl
  rw [e, h2] at h1
  simp [fromBitArray] at h1

/-- C75 for bit arrays of a multiple of `log2 M` bits; and in general the transmitted bits are the stored bits without
the incomplete last group. Missing: equality for other lengths, which fails. -/
theorem C75_from_bit_array_partial (k : Nat) (hk : 1 ≤ k) (coded : List ℂ) (hl : coded.length = 2 ^ k)
    (hnd : coded.Nodup) (bits : List Bool) :
    demodulate k coded (fromBitArray k coded bits).1 = some (bits.take (bits.length / k * k)) ∧
    (fromBitArray k coded bits).1.length = bits.length / k ∧
    (k ∣ bits.length → demodulate k coded (fromBitArray k coded bits).1 = some (fromBitArray k coded bits).2) := by
  have harr : ∀ arr : List Bool, arr.length / k = bits.length / k → arr.take (bits.length / k * k) = bits.take (bits.length / k * k) →
      demodulate k coded (modulate k coded arr) = some (bits.take (bits.length / k * k)) ∧
      (modulate k coded arr).length = bits.length / k := by
    intro arr h1 h2
    rw [C15_demodulate_modulate k coded hl hnd, h1, h2]
    refine ⟨rfl, ?_⟩
    obtain ⟨h3, -⟩ := chunks_spec k (arr.length / k) arr (Nat.div_mul_le_self _ _)
    rw [modulate, (gather_length coded _ _).1]
    · rw [List.length_map, length_chunks, h1]
    · intro i hi
      obtain ⟨c, hc, rfl⟩ := List.mem_map.1 hi
      rw [hl, ← h3 c hc]
      exact bitsToIdx_lt c
  have hmain : demodulate k coded (fromBitArray k coded bits).1 = some (bits.take (bits.length / k * k)) ∧
      (fromBitArray k coded bits).1.length = bits.length / k := by
    simp only [fromBitArray]
    split_ifs with h
    · apply harr
      · rw [List.length_take, min_eq_left (Nat.div_mul_le_self _ _), Nat.mul_div_cancel _ (by omega)]
      · rw [List.take_take, min_self]
    · exact harr bits rfl rfl
  refine ⟨hmain.1, hmain.2, fun hd => ?_⟩
  rw [hmain.1, Nat.div_mul_cancel hd, List.take_length]
  rfl

end Qampy
