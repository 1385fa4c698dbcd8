import Verif.Lemmas.Gray
import Mathlib.RingTheory.RootsOfUnity.Complex
import Mathlib.Algebra.BigOperators.Group.List.Basic
import Mathlib.Algebra.BigOperators.Group.Finset.Basic
import Mathlib.Algebra.Order.BigOperators.Group.List

/-! Lemmas on constellation geometry, decisions and bit maps. -/

namespace Qampy

/-! Geometry -/

theorem length_axisPts (n : Nat) : (axisPts n).length = n := by simp [axisPts]

theorem mem_axisPts {n : Nat} (hn : n % 2 = 0) (a : Int) : a ∈ axisPts n ↔ a % 2 = 1 ∧ |a| ≤ (n : Int) - 1 := by
  simp only [axisPts, List.mem_map, List.mem_range]
  constructor
  · rintro ⟨i, hi, rfl⟩
    rw [abs_le]
    omega
  · rintro ⟨h1, h2⟩
    rw [abs_le] at h2
    exact ⟨((a + ((n : Int) - 1)) / 2).toNat, by omega, by omega⟩

theorem nodup_axisPts (n : Nat) : (axisPts n).Nodup := by
  apply List.Nodup.map _ List.nodup_range
  intro i j h
  simp only at h
  omega

theorem length_squareQam (N : Nat) : (squareQam N).length = 4 ^ N := by
  rw [squareQam, length_flatMap_const _ _ (2 ^ N) (by simp [length_axisPts]), length_axisPts, ← mul_pow]; norm_num

theorem nodup_squareQam (N : Nat) : (squareQam N).Nodup := by
  apply nodup_prod _ _ _ (nodup_axisPts _) (nodup_axisPts _)
  intro a _ b _ a' _ b' _ h
  simpa using h

theorem two_pow_even {N : Nat} (h : 1 ≤ N) : 2 ^ N % 2 = 0 := by
  obtain ⟨m, rfl⟩ : ∃ m, N = m + 1 := ⟨N - 1, by omega⟩
  rw [pow_succ]; omega

theorem mem_squareQam {N : Nat} (h : 1 ≤ N) (a b : Int) :
    (a, b) ∈ squareQam N ↔ (a % 2 = 1 ∧ |a| ≤ 2 ^ N - 1) ∧ (b % 2 = 1 ∧ |b| ≤ 2 ^ N - 1) := by
  have key := mem_axisPts (two_pow_even h)
  push_cast at key
  simp only [squareQam, List.mem_flatMap, List.mem_map, Prod.mk.injEq]
  constructor
  · rintro ⟨x, hx, y, hy, rfl, rfl⟩
    exact ⟨(key x).1 hx, (key y).1 hy⟩
  · rintro ⟨h1, h2⟩
    exact ⟨a, (key a).2 h1, b, (key b).2 h2, rfl, rfl⟩

/-! Cross constellations -/

/-- The rectangle before displacement. -/
def crossRect (N : Nat) : List (Int × Int) :=
  (axisPts (2 ^ (N + 1))).flatMap fun a => (axisPts (2 ^ N)).map fun b => (a, b)

theorem crossQam_eq (N : Nat) : crossQam N = (crossRect N).map (crossMap N) := rfl

theorem length_crossQam (N : Nat) : (crossQam N).length = 2 ^ (2 * N + 1) := by
  rw [crossQam_eq, List.length_map, crossRect, length_flatMap_const _ _ (2 ^ N) (by simp [length_axisPts]),
    length_axisPts, ← pow_add]
  congr 1; omega

theorem mem_crossRect {N : Nat} (h : 1 ≤ N) (a b : Int) :
    (a, b) ∈ crossRect N ↔ (a % 2 = 1 ∧ |a| ≤ 2 * 2 ^ N - 1) ∧ (b % 2 = 1 ∧ |b| ≤ 2 ^ N - 1) := by
  have key := mem_axisPts (two_pow_even h)
  have key2 := mem_axisPts (two_pow_even (show 1 ≤ N + 1 by omega))
  push_cast [pow_succ] at key key2
  simp only [crossRect, List.mem_flatMap, List.mem_map, Prod.mk.injEq]
  constructor
  · rintro ⟨x, hx, y, hy, rfl, rfl⟩
    refine ⟨?_, (key y).1 hy⟩
    have := (key2 x).1 (by simpa [pow_succ] using hx)
    omega
  · rintro ⟨h1, h2⟩
    refine ⟨a, ?_, b, (key b).2 h2, rfl, rfl⟩
    have := (key2 a).2 (by omega)
    simpa [pow_succ] using this

theorem nodup_crossRect (N : Nat) : (crossRect N).Nodup := by
  apply nodup_prod _ _ _ (nodup_axisPts _) (nodup_axisPts _)
  intro a _ b _ a' _ b' _ h
  simpa using h

/-- The inverse of the displacement. -/
def crossInv (N : Nat) (q : Int × Int) : Int × Int :=
  let t : Int := 2 ^ N
  let c := q.1
  let d := q.2
  if t < |d| then
    if t < 2 * |c| then (Int.sign c * (|c| + t), Int.sign d * (2 * t - |d|))
    else (Int.sign c * (2 * t - |c|), Int.sign d * (|d| - t))
  else (c, d)

theorem sign_abs_cases (a : Int) (h : a % 2 = 1) :
    (Int.sign a = 1 ∧ |a| = a ∧ 0 < a) ∨ (Int.sign a = -1 ∧ |a| = -a ∧ a < 0) := by
  rcases lt_trichotomy a 0 with h1 | h1 | h1
  · exact Or.inr ⟨Int.sign_eq_neg_one_of_neg h1, abs_of_neg h1, h1⟩
  · subst h1; simp at h
  · exact Or.inl ⟨Int.sign_eq_one_of_pos h1, abs_of_pos h1, h1⟩

theorem abs_sign_mul {e x : Int} (he : e = 1 ∨ e = -1) (hx : 0 < x) : |e * x| = x ∧ Int.sign (e * x) = e := by
  rcases he with rfl | rfl
  · rw [one_mul]; exact ⟨abs_of_pos hx, Int.sign_eq_one_of_pos hx⟩
  · constructor
    · rw [neg_one_mul, abs_neg, abs_of_pos hx]
    · rw [neg_one_mul]; exact Int.sign_eq_neg_one_of_neg (by omega)

theorem cross_inv_map {N : Nat} {a b : Int} (ha : a % 2 = 1) (hb : b % 2 = 1) (ha' : |a| ≤ 2 * 2 ^ N - 1)
    (hb' : |b| ≤ 2 ^ N - 1) : crossInv N (crossMap N (a, b)) = (a, b) := by
  generalize ht : (2 : Int) ^ N = t at *
  have sa : Int.sign a = 1 ∨ Int.sign a = -1 := by rcases sign_abs_cases a ha with h | h <;> simp [h.1]
  have sb : Int.sign b = 1 ∨ Int.sign b = -1 := by rcases sign_abs_cases b hb with h | h <;> simp [h.1]
  have ea := Int.sign_mul_abs a
  have eb := Int.sign_mul_abs b
  have pa : 0 < |a| := abs_pos.2 (by rintro rfl; simp at ha)
  have pb : 0 < |b| := abs_pos.2 (by rintro rfl; simp at hb)
  simp only [crossMap, ht]
  split_ifs with h1 h2
  · obtain ⟨c1, c2⟩ := abs_sign_mul sa (show 0 < |a| - t by omega)
    obtain ⟨d1, d2⟩ := abs_sign_mul sb (show 0 < 2 * t - |b| by omega)
    simp only [crossInv, ht, c1, c2, d1, d2]
    rw [if_pos (by omega), if_pos (by omega)]
    rw [show |a| - t + t = |a| by omega, show 2 * t - (2 * t - |b|) = |b| by omega, ea, eb]
  · obtain ⟨c1, c2⟩ := abs_sign_mul sa (show 0 < 2 * t - |a| by omega)
    obtain ⟨d1, d2⟩ := abs_sign_mul sb (show 0 < |b| + t by omega)
    simp only [crossInv, ht, c1, c2, d1, d2]
    rw [if_pos (by omega), if_neg (by omega)]
    rw [show 2 * t - (2 * t - |a|) = |a| by omega, show |b| + t - t = |b| by omega, ea, eb]
  · simp only [crossInv, ht]
    rw [if_neg (by omega)]

theorem nodup_crossQam (N : Nat) : (crossQam N).Nodup := by
  rcases Nat.eq_zero_or_pos N with h | h
  · subst h; decide
  rw [crossQam_eq]
  apply List.Nodup.map_on _ (nodup_crossRect N)
  rintro ⟨a, b⟩ hp ⟨a', b'⟩ hp' he
  obtain ⟨⟨h1, h2⟩, h3, h4⟩ := (mem_crossRect h a b).1 hp
  obtain ⟨⟨h1', h2'⟩, h3', h4'⟩ := (mem_crossRect h a' b').1 hp'
  rw [← cross_inv_map h1 h3 h2 h4, ← cross_inv_map h1' h3' h2' h4', he]

theorem crossMap_neg (N : Nat) (a b : Int) :
    crossMap N (-a, b) = (-(crossMap N (a, b)).1, (crossMap N (a, b)).2) ∧
    crossMap N (a, -b) = ((crossMap N (a, b)).1, -(crossMap N (a, b)).2) := by
  constructor <;>
  · simp only [crossMap, abs_neg, Int.sign_neg]
    split_ifs <;> simp

theorem mem_axisPts_neg {n : Nat} {a : Int} (h : a ∈ axisPts n) : -a ∈ axisPts n := by
  simp only [axisPts, List.mem_map, List.mem_range] at *
  obtain ⟨i, hi, rfl⟩ := h
  exact ⟨n - 1 - i, by omega, by omega⟩

theorem mem_cross_neg (N : Nat) (p : Int × Int) (hp : p ∈ crossQam N) :
    (-p.1, p.2) ∈ crossQam N ∧ (p.1, -p.2) ∈ crossQam N := by
  rw [crossQam_eq, List.mem_map] at hp
  obtain ⟨⟨a, b⟩, hab, rfl⟩ := hp
  simp only [crossRect, List.mem_flatMap, List.mem_map, Prod.mk.injEq] at hab
  obtain ⟨x, hx, y, hy, rfl, rfl⟩ := hab
  constructor
  · rw [← (crossMap_neg N x y).1, crossQam_eq]
    apply List.mem_map_of_mem
    simp only [crossRect, List.mem_flatMap, List.mem_map, Prod.mk.injEq]
    exact ⟨-x, mem_axisPts_neg hx, y, hy, rfl, rfl⟩
  · rw [← (crossMap_neg N x y).2, crossQam_eq]
    apply List.mem_map_of_mem
    simp only [crossRect, List.mem_flatMap, List.mem_map, Prod.mk.injEq]
    exact ⟨x, hx, -y, mem_axisPts_neg hy, rfl, rfl⟩

theorem mem_square_neg (N : Nat) (p : Int × Int) (hp : p ∈ squareQam N) :
    (-p.1, p.2) ∈ squareQam N ∧ (p.1, -p.2) ∈ squareQam N := by
  obtain ⟨a, b⟩ := p
  simp only [squareQam, List.mem_flatMap, List.mem_map, Prod.mk.injEq] at hp
  obtain ⟨x, hx, y, hy, rfl, rfl⟩ := hp
  simp only [squareQam, List.mem_flatMap, List.mem_map, Prod.mk.injEq]
  exact ⟨⟨-x, mem_axisPts_neg hx, y, hy, rfl, rfl⟩, ⟨x, hx, -y, mem_axisPts_neg hy, rfl, rfl⟩⟩

theorem mem_crossQam {N : Nat} (h : 2 ≤ N) (c d : Int) :
    (c, d) ∈ crossQam N ↔ (c % 2 = 1 ∧ d % 2 = 1) ∧ 2 * |c| < 3 * 2 ^ N ∧ 2 * |d| < 3 * 2 ^ N ∧
      (|c| < 2 ^ N ∨ |d| < 2 ^ N) := by
  obtain ⟨m, rfl⟩ : ∃ m, N = m + 2 := ⟨N - 2, by omega⟩
  have ht4 : ∃ r : Int, (2 : Int) ^ (m + 2) = 4 * r := ⟨2 ^ m, by ring⟩
  rw [crossQam_eq, List.mem_map]
  constructor
  · rintro ⟨⟨a, b⟩, hab, he⟩
    obtain ⟨⟨h1, h2⟩, h3, h4⟩ := (mem_crossRect (by omega) a b).1 hab
    obtain ⟨r, hr⟩ := ht4
    simp only [crossMap, hr] at he
    rw [hr] at h2 h4 ⊢
    rcases sign_abs_cases a h1 with ⟨s1, s2, s3⟩ | ⟨s1, s2, s3⟩ <;>
    rcases sign_abs_cases b h3 with ⟨s4, s5, s6⟩ | ⟨s4, s5, s6⟩ <;>
    · rw [s1, s2, s4, s5] at he
      rw [s2] at h2
      rw [s5] at h4
      split_ifs at he with g1 g2 <;>
      · simp only [Prod.mk.injEq, one_mul, neg_one_mul] at he
        obtain ⟨rfl, rfl⟩ := he
        refine ⟨by omega, ?_⟩
        first
        | rw [abs_of_pos (by omega), abs_of_pos (by omega)]; omega
        | rw [abs_of_neg (by omega), abs_of_pos (by omega)]; omega
        | rw [abs_of_pos (by omega), abs_of_neg (by omega)]; omega
        | rw [abs_of_neg (by omega), abs_of_neg (by omega)]; omega
  · rintro ⟨⟨h1, h2⟩, h3, h4, h5⟩
    obtain ⟨r, hr⟩ := ht4
    refine ⟨crossInv (m + 2) (c, d), ?_, ?_⟩
    · rw [show crossInv (m + 2) (c, d) = ((crossInv (m + 2) (c, d)).1, (crossInv (m + 2) (c, d)).2) from rfl,
        mem_crossRect (by omega)]
      simp only [crossInv, hr]
      rw [hr] at h3 h4 h5
      rcases sign_abs_cases c h1 with ⟨s1, s2, s3⟩ | ⟨s1, s2, s3⟩ <;>
      rcases sign_abs_cases d h2 with ⟨s4, s5, s6⟩ | ⟨s4, s5, s6⟩ <;>
      · rw [s1, s2, s4, s5]
        rw [s2] at h3 h5
        rw [s5] at h4 h5
        split_ifs with g1 g2 <;>
        · simp only [one_mul, neg_one_mul, abs_neg]
          refine ⟨⟨by omega, ?_⟩, by omega, ?_⟩ <;>
          · rw [abs_le]; omega
    · simp only [crossInv, hr]
      rw [hr] at h3 h4 h5
      rcases sign_abs_cases c h1 with ⟨s1, s2, s3⟩ | ⟨s1, s2, s3⟩ <;>
      rcases sign_abs_cases d h2 with ⟨s4, s5, s6⟩ | ⟨s4, s5, s6⟩ <;>
      · rw [s1, s2, s4, s5]
        rw [s2] at h3 h5
        rw [s5] at h4 h5
        split_ifs with g1 g2
        · simp only [crossMap, hr, one_mul, neg_one_mul, abs_neg, Int.sign_neg]
          rw [abs_of_pos (show 0 < _ by omega), abs_of_pos (show 0 < _ by omega),
            Int.sign_eq_one_of_pos (show 0 < _ by omega), Int.sign_eq_one_of_pos (show 0 < _ by omega)]
          rw [if_pos (by omega)]
          simp only [Prod.mk.injEq]; omega
        · simp only [crossMap, hr, one_mul, neg_one_mul, abs_neg, Int.sign_neg]
          rw [abs_of_pos (show 0 < _ by omega), abs_of_pos (show 0 < _ by omega),
            Int.sign_eq_one_of_pos (show 0 < _ by omega), Int.sign_eq_one_of_pos (show 0 < _ by omega)]
          rw [if_neg (by omega), if_pos (by omega)]
          simp only [Prod.mk.injEq]; omega
        · simp only [crossMap, hr]
          rw [s2, s5, if_neg (by omega), if_neg (by omega)]

/-! Any order -/

theorem length_symbolsQam (k : Nat) : (symbolsQam k).length = 2 ^ k := by
  simp only [symbolsQam]
  split_ifs with h
  · rw [length_crossQam]; congr 1; omega
  · rw [length_squareQam, show (4 : Nat) = 2 ^ 2 by norm_num, ← pow_mul]; congr 1; omega

theorem nodup_symbolsQam (k : Nat) : (symbolsQam k).Nodup := by
  simp only [symbolsQam]
  split_ifs with h
  · exact nodup_crossQam _
  · exact nodup_squareQam _

theorem mem_symbolsQam_neg (k : Nat) (p : Int × Int) (hp : p ∈ symbolsQam k) :
    (-p.1, p.2) ∈ symbolsQam k ∧ (p.1, -p.2) ∈ symbolsQam k := by
  simp only [symbolsQam] at *
  split_ifs at * with h
  · exact mem_cross_neg _ _ hp
  · exact mem_square_neg _ _ hp

theorem sum_eq_zero_of_neg_closed {l : List (Int × Int)} (hnd : l.Nodup) (h : ∀ p ∈ l, -p ∈ l) : l.sum = 0 := by
  have hperm : (l.map (fun p => -p)).Perm l := by
    apply List.Subperm.perm_of_length_le
    · apply List.subperm_of_subset (hnd.map neg_injective)
      intro q hq
      obtain ⟨p, hp, rfl⟩ := List.mem_map.1 hq
      exact h p hp
    · simp
  have h1 := hperm.sum_eq
  have h2 : ∀ l : List (Int × Int), (l.map (fun p => -p)).sum = -l.sum := by
    intro l
    induction l with
    | nil => simp
    | cons a l ih => simp only [List.map_cons, List.sum_cons, ih]; abel
  rw [h2] at h1
  have h3 := congrArg Prod.fst h1
  have h4 := congrArg Prod.snd h1
  simp only [Prod.fst_neg, Prod.snd_neg] at h3 h4
  ext
  · simp only [Prod.fst_zero]; omega
  · simp only [Prod.snd_zero]; omega

theorem sum_symbolsQam (k : Nat) : (symbolsQam k).sum = 0 := by
  apply sum_eq_zero_of_neg_closed (nodup_symbolsQam k)
  intro p hp
  have h1 := (mem_symbolsQam_neg k p hp).1
  exact (mem_symbolsQam_neg k _ h1).2

/-! Power -/

theorem sum_range_sq (n : Nat) (c : Int) :
    3 * ((List.range n).map fun i : Nat => (2 * (i : Int) - c) ^ 2).sum
      = 2 * (n : Int) * ((n : Int) - 1) * (2 * n - 1) - 6 * c * n * (n - 1) + 3 * n * c ^ 2 := by
  induction n with
  | zero => simp
  | succ n ih =>
    rw [List.range_succ, List.map_append, List.sum_append, mul_add, ih]
    simp only [List.map_cons, List.map_nil, List.sum_cons, List.sum_nil, add_zero]
    push_cast
    ring

theorem sum_axisPts_sq (n : Nat) : 3 * ((axisPts n).map fun a => a ^ 2).sum = (n : Int) * ((n : Int) ^ 2 - 1) := by
  rw [axisPts, List.map_map]
  have := sum_range_sq n ((n : Int) - 1)
  simp only [Function.comp_def]
  rw [this]; ring

theorem sum_prod_sq (l m : List Int) :
    ((l.flatMap fun a => m.map fun b => (a, b)).map sqNorm).sum
      = (m.length : Int) * (l.map (fun a => a ^ 2)).sum + (l.length : Int) * (m.map (fun a => a ^ 2)).sum := by
  induction l with
  | nil => simp
  | cons a l ih =>
    rw [List.flatMap_cons, List.map_append, List.sum_append, ih]
    have h1 : ((m.map fun b => (a, b)).map sqNorm).sum = (m.length : Int) * a ^ 2 + (m.map (fun a => a ^ 2)).sum := by
      rw [List.map_map]
      clear ih
      induction m with
      | nil => simp
      | cons b m ih =>
        simp only [List.map_cons, List.sum_cons, ih, Function.comp_apply, List.length_cons]
        simp only [sqNorm]
        push_cast; ring
    rw [h1]
    simp only [List.map_cons, List.sum_cons, List.length_cons]
    push_cast; ring

theorem sum_squareQam_sq (N : Nat) :
    3 * ((squareQam N).map sqNorm).sum = 2 * 4 ^ N * (4 ^ N - 1) := by
  rw [squareQam, sum_prod_sq, length_axisPts]
  have h := sum_axisPts_sq (2 ^ N)
  have e : (4 : Int) ^ N = 2 ^ N * 2 ^ N := by rw [← mul_pow]; norm_num
  push_cast at *
  rw [e]
  linear_combination (2 * 2 ^ N) * h

/-! Complex constellation -/

theorem toComplex_inj {scale : ℝ} (h : scale ≠ 0) {p q : Int × Int} (he : toComplex scale p = toComplex scale q) :
    p = q := by
  simp only [toComplex] at he
  have h' : (scale : ℂ) ≠ 0 := by exact_mod_cast h
  rw [div_left_inj' h'] at he
  have h1 := congrArg Complex.re he
  have h2 := congrArg Complex.im he
  simp only [Int.cast_inj] at h1 h2
  exact Prod.ext h1 h2

theorem toComplex_sub (scale : ℝ) (p q : Int × Int) : toComplex scale p - toComplex scale q = toComplex scale (p - q) := by
  simp only [toComplex, ← sub_div]
  congr 1
  apply Complex.ext <;> simp

theorem normSq_toComplex (scale : ℝ) (p : Int × Int) : ‖toComplex scale p‖ ^ 2 = (sqNorm p : ℝ) / scale ^ 2 := by
  rw [toComplex, norm_div, div_pow, ← Complex.normSq_eq_norm_sq, ← Complex.normSq_eq_norm_sq, Complex.normSq_ofReal,
    Complex.normSq_mk, sqNorm]
  push_cast
  ring

theorem length_scaled (k : Nat) (scale : ℝ) : ((symbolsQam k).map (toComplex scale)).length = 2 ^ k := by
  rw [List.length_map, length_symbolsQam]

theorem length_qamCoded (k : Nat) (scale : ℝ) : (qamCodedSymbols k scale).length = 2 ^ k :=
  (codedSymbols_spec (IsPerm.qam k) _ (length_scaled k scale)).1

theorem nodup_qamCoded (k : Nat) {scale : ℝ} (h : scale ≠ 0) : (qamCodedSymbols k scale).Nodup := by
  rw [qamCodedSymbols, (codedSymbols_perm (IsPerm.qam k) _ (length_scaled k scale)).nodup_iff]
  exact List.Nodup.map_on (fun _ _ _ _ he => toComplex_inj h he) (nodup_symbolsQam k)

/-! PSK -/

theorem symbolsPsk_getElem? (k i : Nat) (hi : i < 2 ^ k) :
    (symbolsPsk k)[i]? = some ((if k = 2 then Complex.exp (Complex.I * (Real.pi / (2 ^ k : ℝ) : ℝ)) else 1) *
      (Complex.exp (2 * Real.pi * Complex.I / ((2 ^ k : Nat) : ℂ))) ^ i) := by
  rw [symbolsPsk, List.getElem?_map, List.getElem?_range hi]
  simp only [Option.map_some, Option.some.injEq]
  rw [← Complex.exp_nat_mul]
  split_ifs
  · rw [← Complex.exp_add]
    congr 1
    push_cast
    ring
  · rw [one_mul]
    congr 1
    push_cast
    ring

theorem length_symbolsPsk (k : Nat) : (symbolsPsk k).length = 2 ^ k := by simp [symbolsPsk]

theorem psk_factor_ne (k : Nat) : (if k = 2 then Complex.exp (Complex.I * (Real.pi / (2 ^ k : ℝ) : ℝ)) else 1) ≠ 0 := by
  split_ifs
  · exact Complex.exp_ne_zero _
  · exact one_ne_zero

theorem psk_prim (k : Nat) : IsPrimitiveRoot (Complex.exp (2 * Real.pi * Complex.I / ((2 ^ k : Nat) : ℂ))) (2 ^ k) :=
  Complex.isPrimitiveRoot_exp _ (by positivity)

theorem nodup_symbolsPsk (k : Nat) : (symbolsPsk k).Nodup := by
  rw [List.nodup_iff_getElem?_ne_getElem?]
  intro i j hij hj he
  rw [length_symbolsPsk] at hj
  rw [symbolsPsk_getElem? k i (by omega), symbolsPsk_getElem? k j hj, Option.some.injEq] at he
  have := (psk_prim k).pow_inj (show i < 2 ^ k by omega) hj (mul_left_cancel₀ (psk_factor_ne k) he)
  omega

theorem length_pskCoded (k : Nat) : (pskCodedSymbols k).length = 2 ^ k :=
  (codedSymbols_spec (IsPerm.psk k) _ (length_symbolsPsk k)).1

theorem nodup_pskCoded (k : Nat) : (pskCodedSymbols k).Nodup := by
  rw [pskCodedSymbols, (codedSymbols_perm (IsPerm.psk k) _ (length_symbolsPsk k)).nodup_iff]
  exact nodup_symbolsPsk k

/-! Labels at distance one -/

theorem xor_two_pow_unique {k l l' m : Nat} (hl : l < 2 ^ k) (hl' : l' < 2 ^ k) (h : l ^^^ l' = 2 ^ m) :
    ∃! t, t < k ∧ (encodingRow k l)[t]? ≠ (encodingRow k l')[t]? := by
  have hm : m < k := by
    have := Nat.xor_lt_two_pow hl hl'
    rw [h] at this
    exact (Nat.pow_lt_pow_iff_right (by norm_num)).1 this
  have key : ∀ t, l.testBit t ≠ l'.testBit t ↔ t = m := by
    intro t
    have := congrArg (fun x => x.testBit t) h
    simp only [Nat.testBit_xor, Nat.testBit_two_pow] at this
    by_cases ht : m = t
    · subst ht; simpa using this
    · have h2 : ¬ t = m := fun h => ht h.symm
      simp [ht] at this
      simp [this, h2]
  refine ⟨k - 1 - m, ⟨by omega, ?_⟩, ?_⟩
  · rw [encodingRow_getElem? _ _ _ (by omega), encodingRow_getElem? _ _ _ (by omega)]
    simp only [ne_eq, Option.some.injEq]
    exact (key _).2 (by omega)
  · rintro t ⟨ht, hne⟩
    rw [encodingRow_getElem? _ _ _ ht, encodingRow_getElem? _ _ _ ht] at hne
    simp only [ne_eq, Option.some.injEq] at hne
    have := (key _).1 hne
    omega

/-! Decisions -/

theorem detSymbolArgmin_spec {X : ℂ} {symbs : List ℂ} {r : ℂ × ℝ × Nat} (h : detSymbolArgmin X symbs = some r) :
    symbs[r.2.2]? = some r.1 ∧ r.2.1 = ‖X - r.1‖ ∧ (∀ s ∈ symbs, ‖X - r.1‖ ≤ ‖X - s‖) ∧
    (∀ i, i < r.2.2 → ∀ s, symbs[i]? = some s → ‖X - r.1‖ < ‖X - s‖) := by
  simp only [detSymbolArgmin] at h
  split at h
  · cases h
  · rename_i j hj
    simp only [Option.some.injEq] at h
    subst h
    obtain ⟨m, h1, h2, h3⟩ := Np.argmin_spec hj
    rw [List.getElem?_map, Option.map_eq_some_iff] at h1
    obtain ⟨s, hs, rfl⟩ := h1
    have e1 : symbs.getD j 0 = s := by rw [List.getD_eq_getElem?_getD, hs]; rfl
    have e2 : (symbs.map fun s => ‖X - s‖).getD j 0 = ‖X - s‖ := by
      rw [List.getD_eq_getElem?_getD, List.getElem?_map, hs]; rfl
    simp only [e1, e2]
    refine ⟨hs, trivial, ?_, ?_⟩
    · intro s' hs'
      exact h2 _ (List.mem_map_of_mem hs')
    · intro i hi s' hs'
      exact h3 i hi _ (by rw [List.getElem?_map, hs']; rfl)

theorem detSymbolArgmin_isSome (X : ℂ) {symbs : List ℂ} (h : symbs ≠ []) : ∃ r, detSymbolArgmin X symbs = some r := by
  obtain ⟨j, hj⟩ := Np.argmin_isSome (l := symbs.map fun s => ‖X - s‖) (by simpa using h)
  simp only [detSymbolArgmin, hj]
  exact ⟨_, rfl⟩

/-- A point strictly closer to one symbol than to all others is decided to it. -/
theorem detSymbolArgmin_of_closest {X : ℂ} {symbs : List ℂ} {j : Nat} {s : ℂ} (hj : symbs[j]? = some s)
    (hmin : ∀ i s', symbs[i]? = some s' → i ≠ j → ‖X - s‖ < ‖X - s'‖) :
    detSymbolArgmin X symbs = some (s, ‖X - s‖, j) := by
  have h : Np.argmin (symbs.map fun s => ‖X - s‖) = some j := by
    apply Np.argmin_eq_of (m := ‖X - s‖)
    · rw [List.getElem?_map, hj]; rfl
    · intro x hx
      obtain ⟨s', hs', rfl⟩ := List.mem_map.1 hx
      obtain ⟨i, hi⟩ := List.getElem?_of_mem hs'
      by_cases hij : i = j
      · subst hij; rw [hj] at hi
        have : s = s' := by simpa using hi
        rw [this]
      · exact (hmin i s' hi hij).le
    · intro i hi x hx
      rw [List.getElem?_map, Option.map_eq_some_iff] at hx
      obtain ⟨s', hs', rfl⟩ := hx
      exact hmin i s' hs' (by omega)
  simp only [detSymbolArgmin, h]
  rw [List.getD_eq_getElem?_getD, List.getD_eq_getElem?_getD, List.getElem?_map, hj]
  rfl

theorem detSymbolArgmin_self {symbs : List ℂ} (hnd : symbs.Nodup) {j : Nat} {s : ℂ} (hj : symbs[j]? = some s) :
    detSymbolArgmin s symbs = some (s, 0, j) := by
  have := detSymbolArgmin_of_closest (X := s) hj (by
    intro i s' hs' hij
    rw [sub_self, norm_zero]
    apply norm_pos_iff.2
    rw [sub_ne_zero]
    rintro rfl
    obtain ⟨h1, h2⟩ := List.getElem?_eq_some_iff.1 hj
    obtain ⟨h3, h4⟩ := List.getElem?_eq_some_iff.1 hs'
    exact hij ((List.Nodup.getElem_inj_iff hnd).1 (h4.trans h2.symm)))
  simpa using this

theorem mapM_eq_some_iff {α β : Type _} (f : α → Option β) (l : List α) (r : List β) :
    l.mapM f = some r ↔ l.map f = r.map some := by
  induction l generalizing r with
  | nil =>
    cases r with
    | nil => simp
    | cons a r => simp
  | cons a l ih =>
    rw [List.mapM_cons]
    cases ha : f a with
    | none =>
      simp only [List.map_cons, ha]
      cases r <;> simp
    | some b =>
      cases hl : l.mapM f with
      | none =>
        cases r with
        | nil => simp
        | cons c r =>
          simp only [List.map_cons, ha, List.cons.injEq, Option.some.injEq]
          have := ih r
          rw [hl] at this
          simp at this ⊢
          intro _; exact this
      | some t =>
        cases r with
        | nil => simp
        | cons c r =>
          have := ih r
          rw [hl] at this
          simp only [Option.some.injEq] at this
          simp [ha, this]

/-- Indices chosen by demodulation of the symbols with given labels. -/
theorem makeDecision_gather {symbs : List ℂ} (hnd : symbs.Nodup) (idx : List Nat) (h : ∀ i ∈ idx, i < symbs.length) :
    makeDecision (gather symbs idx) symbs = some (idx.map fun i => (symbs.getD i 0, 0, i)) := by
  rw [makeDecision, mapM_eq_some_iff]
  induction idx with
  | nil => simp [gather]
  | cons i idx ih =>
    have hi : i < symbs.length := h i (by simp)
    have hs : symbs[i]? = some symbs[i] := List.getElem?_eq_getElem hi
    have e : gather symbs (i :: idx) = symbs[i] :: gather symbs idx := by
      simp only [gather]; rw [List.filterMap_cons, hs]
    rw [e, List.map_cons, ih (fun j hj => h j (by simp [hj])), detSymbolArgmin_self hnd hs, List.map_cons, List.map_cons,
      List.getD_eq_getElem?_getD, hs]
    rfl

theorem getElem?_encoding (k i : Nat) (h : i < 2 ^ k) : (encoding k)[i]? = some (encodingRow k i) := by
  rw [encoding, List.getElem?_map, List.getElem?_range h]; rfl

theorem length_encoding (k : Nat) : (encoding k).length = 2 ^ k := by simp [encoding]

theorem gather_encoding (k : Nat) (idx : List Nat) (h : ∀ i ∈ idx, i < 2 ^ k) :
    gather (encoding k) idx = idx.map (encodingRow k) := by
  induction idx with
  | nil => simp [gather]
  | cons i idx ih =>
    have := ih (fun j hj => h j (by simp [hj]))
    simp only [gather] at *
    rw [List.filterMap_cons, getElem?_encoding k i (h i (by simp)), this]
    rfl

/-! Bit maps -/

theorem mem_select_iff {α : Type _} (l : List α) (m : List Bool) (s : α) :
    s ∈ Np.select l m ↔ ∃ i : Nat, l[i]? = some s ∧ m[i]? = some true := by
  induction l generalizing m with
  | nil => cases m <;> simp [Np.select]
  | cons a l ih =>
    cases m with
    | nil => simp [Np.select]
    | cons b m =>
      cases b
      · simp only [Np.select, ih]
        constructor
        · rintro ⟨i, h⟩; exact ⟨i + 1, by simpa using h⟩
        · rintro ⟨i, h⟩
          cases i with
          | zero => simp at h
          | succ i => exact ⟨i, by simpa using h⟩
      · simp only [Np.select, List.mem_cons, ih]
        constructor
        · rintro (rfl | ⟨i, h⟩)
          · exact ⟨0, by simp⟩
          · exact ⟨i + 1, by simpa using h⟩
        · rintro ⟨i, h⟩
          cases i with
          | zero => left; simp at h; exact h.symm
          | succ i => right; exact ⟨i, by simpa using h⟩

theorem select_perm {α : Type _} (l : List α) (m : List Bool) (h : l.length = m.length) :
    (Np.select l (m.map not) ++ Np.select l m).Perm l := by
  induction l generalizing m with
  | nil => cases m <;> simp [Np.select]
  | cons a l ih =>
    cases m with
    | nil => simp at h
    | cons b m =>
      have := ih m (by simpa using h)
      cases b
      · simp only [List.map_cons, Bool.not_false, Np.select, List.cons_append]
        exact List.Perm.cons a this
      · simp only [List.map_cons, Bool.not_true, Np.select]
        exact List.perm_middle.trans (List.Perm.cons a this)

theorem count_testBit (k j : Nat) (h : j < k) :
    ((List.range (2 ^ k)).map fun l => l.testBit j).count true = 2 ^ (k - 1) ∧
    ((List.range (2 ^ k)).map fun l => l.testBit j).count false = 2 ^ (k - 1) := by
  have hperm : ((List.range (2 ^ k)).map fun l => l ^^^ 2 ^ j).Perm (List.range (2 ^ k)) := by
    apply List.Subperm.perm_of_length_le
    · apply List.subperm_of_subset
      · apply List.Nodup.map _ List.nodup_range
        intro a b hab
        have := congrArg (fun x => x ^^^ 2 ^ j) hab
        simpa [Nat.xor_assoc] using this
      · intro x hx
        obtain ⟨l, hl, rfl⟩ := List.mem_map.1 hx
        rw [List.mem_range] at *
        exact Nat.xor_lt_two_pow hl (Nat.pow_lt_pow_right (by norm_num) h)
    · simp
  have h1 := (hperm.map fun l => l.testBit j).count_eq true
  rw [List.map_map] at h1
  have h2 : ((fun l : Nat => l.testBit j) ∘ fun l => l ^^^ 2 ^ j) = fun l => !(l.testBit j) := by
    funext l
    simp
  rw [h2] at h1
  have h3 : ∀ l : List Nat, (l.map fun l => !(l.testBit j)).count true = (l.map fun l => l.testBit j).count false := by
    intro l
    induction l with
    | nil => rfl
    | cons a l ih => simp only [List.map_cons, List.count_cons, ih]; cases a.testBit j <;> simp
  rw [h3] at h1
  have h4 : ∀ l : List Bool, l.count true + l.count false = l.length := by
    intro l
    induction l with
    | nil => rfl
    | cons a l ih => cases a <;> simp <;> omega
  have h5 := h4 ((List.range (2 ^ k)).map fun l => l.testBit j)
  simp only [List.length_map, List.length_range] at h5
  have h6 : 2 ^ k = 2 * 2 ^ (k - 1) := by
    rw [← pow_succ']; congr 1; omega
  omega

end Qampy
