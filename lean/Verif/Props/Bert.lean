import Verif.Model.Bert
import Verif.Lemmas.Fourier
import Verif.Props.Prbs
import Verif.Props.Constellation

/-!
C138, C139: delayed copies of pseudo random bit sequences and QPSK signals made of them.
-/

namespace Qampy

/-! ### C138: shift and add -/

theorem iterate_xor {n : Nat} {f : Nat → Nat} (hf : Gf2.Linear n f) (i x y : Nat) (hx : x < 2 ^ n) (hy : y < 2 ^ n) : f^[i] (x ^^^ y) = f^[i] x ^^^ f^[i] y := by
  induction i generalizing x y with
  | zero => rfl
  | succ i ih =>
    rw [Function.iterate_succ_apply, Function.iterate_succ_apply, Function.iterate_succ_apply, hf.add x y hx hy, ih _ _ (hf.lt x hx) (hf.lt y hy)]

/-- C138 (shift and add): the exclusive or of one period and its cyclic shift by `e` places is again a period of the same generator, with another nonzero seed, unless `e` is a multiple of the period. -/
theorem C138_shift_and_add (n : Nat) (hn : n ∈ [7, 15, 23, 31]) (seed : Nat) (h0 : seed ≠ 0) (hs : seed < 2 ^ n) (e : Int) (he : ¬ ((2 ^ n - 1 : Nat) : Int) ∣ e) :
    ∃ out out' seed', seed' ≠ 0 ∧ seed' < 2 ^ n ∧ makePrbsExtXOR n (2 ^ n - 1) (.int seed) = .ok out ∧ makePrbsExtXOR n (2 ^ n - 1) (.int seed') = .ok out' ∧
      List.zipWith xor out (Np.roll out e) = out' := by
  obtain ⟨taps, ht, hn0⟩ := tapdict_some hn
  have hper := minimalPeriod_lfsr ht hs h0
  have hlin := linear_lfsrStep taps n hn0
  have hm : 0 < 2 ^ n - 1 := by have := Nat.one_le_iff_ne_zero.2 h0; omega
  obtain ⟨P, hP⟩ : ∃ P, P = 2 ^ n - 1 := ⟨_, rfl⟩
  rw [← hP] at hm hper he ⊢
  have hd1 := Int.emod_nonneg (-e) (show (P : Int) ≠ 0 by omega)
  have hd2 := Int.emod_lt_of_pos (-e) (show (0 : Int) < P by omega)
  obtain ⟨d, hd⟩ : ∃ d : Nat, (d : Int) = (-e) % (P : Int) := ⟨((-e) % (P : Int)).toNat, Int.toNat_of_nonneg hd1⟩
  have hdP : d < P := by omega
  have hd0 : d ≠ 0 := by
    rintro rfl
    apply he
    rw [← Int.dvd_neg]
    exact Int.dvd_of_emod_eq_zero hd.symm
  have hs2 : (lfsrStep taps n)^[d] seed < 2 ^ n := iterate_lt taps n hn0 seed d hs
  refine ⟨_, _, seed ^^^ (lfsrStep taps n)^[d] seed, ?_, Nat.xor_lt_two_pow hs hs2, makePrbs_int ht _ seed, makePrbs_int ht _ _, ?_⟩
  · intro hz
    have := Nat.xor_eq_zero_iff.1 hz
    have hp : Function.IsPeriodicPt (lfsrStep taps n) d seed := this.symm
    have := hp.minimalPeriod_le (Nat.pos_of_ne_zero hd0)
    omega
  · have hlen : ∀ s, ((prbsExt taps n P s).map (· != 0)).length = P := fun s => by simp [length_prbsExt]
    apply List.ext_getElem?
    intro i
    by_cases hi : i < P
    · obtain ⟨j, hj1, hj2, hj3⟩ := getElem?_roll' ((prbsExt taps n P seed).map (· != 0)) e i (by rw [hlen]; exact hi)
      rw [hlen] at hj1 hj2
      rw [List.getElem?_zipWith, hj3, out_getElem? _ _ _ _ _ hi, out_getElem? _ _ _ _ _ hj1, out_getElem? _ _ _ _ _ hi]
      have hj : j = (i + d) % P := by
        have : (j : Int) = ((i + d : Nat) : Int) % (P : Int) := by
          rw [hj2, Nat.cast_add, hd, Int.add_emod_emod]
          rfl
        exact_mod_cast this
      dsimp only
      rw [iterate_xor hlin _ _ _ hs hs2, fbBit_xor, ← Function.iterate_add_apply, hj, ← hper, Function.iterate_mod_minimalPeriod_eq]
    · rw [List.getElem?_eq_none (by simp [length_prbsExt]; omega), List.getElem?_eq_none (by simp [length_prbsExt]; omega)]

/-- Numbers of positions of two lists of bits by their pairs of values. -/
theorem pair_counts (A B : List Bool) (h : A.length = B.length) :
    2 * (List.zip A B).count (true, true) + (List.zipWith xor A B).count true = A.count true + B.count true ∧
    (List.zip A B).count (true, true) + (List.zip A B).count (true, false) = A.count true ∧
    (List.zip A B).count (true, true) + (List.zip A B).count (false, true) = B.count true ∧
    (List.zip A B).count (true, true) + (List.zip A B).count (true, false) + (List.zip A B).count (false, true) + (List.zip A B).count (false, false) = A.length := by
  induction A generalizing B with
  | nil => simp [List.length_eq_zero_iff.1 h.symm]
  | cons a A ih =>
    cases B with
    | nil => simp at h
    | cons b B =>
      obtain ⟨h1, h2, h3, h4⟩ := ih B (by simpa using h)
      cases a <;> cases b <;> simp <;> omega

theorem zipWith_xor_roll (l : List Bool) (a b : Int) : List.zipWith xor (Np.roll l a) (Np.roll l b) = Np.roll (List.zipWith xor l (Np.roll l (b - a))) a := by
  have hl : (List.zipWith xor l (Np.roll l (b - a))).length = l.length := by simp
  have e : Np.roll l b = Np.roll (Np.roll l (b - a)) a := by rw [roll_roll, sub_add_cancel]
  rw [e]
  obtain ⟨m, hm⟩ : ∃ m, m = Np.roll l (b - a) := ⟨_, rfl⟩
  have hml : m.length = l.length := by rw [hm, Np.length_roll]
  rw [← hm]
  apply List.ext_getElem?
  intro i
  by_cases hi : i < l.length
  · obtain ⟨j, hj1, hj2, hj3⟩ := getElem?_roll' l a i hi
    obtain ⟨j', hj1', hj2', hj3'⟩ := getElem?_roll' m a i (by omega)
    obtain ⟨j'', hj1'', hj2'', hj3''⟩ := getElem?_roll' (List.zipWith xor l m) a i (by simp; omega)
    have e1 : j' = j := by rw [hml] at hj2'; omega
    have e2 : j'' = j := by
      rw [List.length_zipWith, hml, min_self] at hj2''
      omega
    subst e1 e2
    rw [hj3'', List.getElem?_zipWith, List.getElem?_zipWith, hj3, hj3']
  · rw [List.getElem?_eq_none (by simp; omega), List.getElem?_eq_none (by simp; omega)]

/-- C138 (correlation): two delayed copies of one period show all four pairs of bits equally often, except that the pair of zeros is missing once, and agree at exactly `2^(n-1) - 1` of the `2^n - 1` places, unless the delays differ by a multiple of the period. -/
theorem C138_pairs (n : Nat) (hn : n ∈ [7, 15, 23, 31]) (seed : Nat) (h0 : seed ≠ 0) (hs : seed < 2 ^ n) (d1 d2 : Int) (hd : ¬ ((2 ^ n - 1 : Nat) : Int) ∣ d2 - d1) :
    ∃ out, makePrbsExtXOR n (2 ^ n - 1) (.int seed) = .ok out ∧
      (List.zip (Np.roll out d1) (Np.roll out d2)).count (true, true) = 2 ^ (n - 2) ∧ (List.zip (Np.roll out d1) (Np.roll out d2)).count (true, false) = 2 ^ (n - 2) ∧
      (List.zip (Np.roll out d1) (Np.roll out d2)).count (false, true) = 2 ^ (n - 2) ∧ (List.zip (Np.roll out d1) (Np.roll out d2)).count (false, false) = 2 ^ (n - 2) - 1 ∧
      (List.zip (Np.roll out d1) (Np.roll out d2)).countP (fun p => p.1 == p.2) = 2 ^ (n - 1) - 1 := by
  obtain ⟨out, out', seed', h0', hs', h1, h2, h3⟩ := C138_shift_and_add n hn seed h0 hs (d2 - d1) hd
  obtain ⟨o, ho, hb, hb'⟩ := C08_prbs_balance n hn seed h0 hs
  obtain ⟨o', ho', hc, -⟩ := C08_prbs_balance n hn seed' h0' hs'
  rw [h1] at ho
  rw [h2] at ho'
  cases ho
  cases ho'
  have hl := count_true_add_false out
  obtain ⟨c1, c2, c3, c4⟩ := pair_counts (Np.roll out d1) (Np.roll out d2) (by rw [Np.length_roll, Np.length_roll])
  rw [zipWith_xor_roll, h3, (roll_perm out' d1).count_eq, (roll_perm out d1).count_eq, (roll_perm out d2).count_eq, hb, hc] at c1
  rw [(roll_perm out d1).count_eq, hb] at c2
  rw [(roll_perm out d2).count_eq, hb] at c3
  rw [Np.length_roll, ← hl, hb, hb'] at c4
  have hn2 : 2 ^ (n - 1) = 2 * 2 ^ (n - 2) := by
    rw [← pow_succ']
    congr 1
    simp at hn
    omega
  have hpos : 0 < 2 ^ (n - 2) := by positivity
  have hag : ∀ l : List (Bool × Bool), l.countP (fun p => p.1 == p.2) = l.count (true, true) + l.count (false, false) := by
    intro l
    induction l with
    | nil => rfl
    | cons p l ih =>
      obtain ⟨a, b⟩ := p
      cases a <;> cases b <;> simp [ih] <;> omega
  refine ⟨out, h1, by omega, by omega, by omega, by omega, ?_⟩
  rw [hag]
  omega

example : ¬ ((2 ^ 7 - 1 : Nat) : Int) ∣ 5 - 2 := by decide

/-! ### C139: QPSK from a bit error rate tester -/

/-- The QPSK point of two bits: the first one selects the sign of the real part, the second one the sign of the imaginary part. -/
noncomputable def qpskPoint (a b : Bool) : ℂ := ⟨(if a then 1 else -1) / Real.sqrt 2, (if b then 1 else -1) / Real.sqrt 2⟩

theorem qpskPoint_inj {a b c d : Bool} (h : qpskPoint a b = qpskPoint c d) : a = c ∧ b = d := by
  have h2 : Real.sqrt 2 ≠ 0 := by positivity
  obtain ⟨h3, h4⟩ := Complex.ext_iff.1 h
  simp only [qpskPoint, div_left_inj' h2] at h3 h4
  constructor
  · cases a <;> cases c <;> simp at h3 ⊢ <;> norm_num at h3
  · cases b <;> cases d <;> simp at h4 ⊢ <;> norm_num at h4

theorem qpsk_coded : qamCodedSymbols 2 (Real.sqrt (scalingFactor 2 : ℝ)) = [qpskPoint false false, qpskPoint false true, qpskPoint true false, qpskPoint true true] := by
  have e1 : symbolsQam 2 = [(-1, -1), (-1, 1), (1, -1), (1, 1)] := by decide
  have e2 : grayCodeQam 2 = [0, 1, 2, 3] := by decide
  have e3 : scalingFactor 2 = 2 := by rw [(C11_scaling_factor 2 (by norm_num)).2]; norm_num
  have e4 : ∀ x y z w : ℂ, codedSymbols [x, y, z, w] [0, 1, 2, 3] = [x, y, z, w] := fun _ _ _ _ => rfl
  have e5 : ∀ p : Int × Int, toComplex (Real.sqrt 2) p = ⟨p.1 / Real.sqrt 2, p.2 / Real.sqrt 2⟩ := by
    intro p
    apply Complex.ext
    · rw [toComplex, Complex.div_ofReal_re]
    · rw [toComplex, Complex.div_ofReal_im]
  rw [qamCodedSymbols, e1, e2, e3]
  simp only [List.map_cons, List.map_nil, e4, Rat.cast_ofNat, e5, qpskPoint]
  norm_num

theorem length_pairs (l : List (Bool × Bool)) : (l.flatMap fun p => [p.1, p.2]).length = 2 * l.length := by
  induction l with
  | nil => rfl
  | cons p l ih =>
    simp only [List.flatMap_cons, List.length_append, ih, List.length_cons, List.length_nil]
    omega

theorem modulate_interleave (A B : List Bool) : modulate 2 (qamCodedSymbols 2 (Real.sqrt (scalingFactor 2 : ℝ))) (interleave A B) = (List.zip A B).map fun p => qpskPoint p.1 p.2 := by
  rw [qpsk_coded]
  unfold modulate interleave
  rw [length_pairs, Nat.mul_div_cancel_left _ (by norm_num)]
  generalize List.zip A B = l
  induction l with
  | nil => rfl
  | cons p l ih =>
    obtain ⟨a, b⟩ := p
    simp only [List.flatMap_cons, List.length_cons, chunks, List.map_cons]
    cases a <;> cases b <;> simp [gather, bitsToIdx] at ih ⊢ <;> exact ih

theorem makePrbs_none {n : Nat} (hn : n ∈ [7, 15, 23, 31]) (N : Nat) : ∃ r, makePrbsExtXOR n N .none = .ok r ∧ r.length = N ∧ makePrbsExtXOR n N (.int (2 ^ n - 1)) = .ok r := by
  obtain ⟨taps, ht, hn0⟩ := tapdict_some hn
  have h := (C09_seed_forms n N hn [] (by simp)).2
  refine ⟨_, by rw [h]; exact makePrbs_int ht N _, by simp [length_prbsExt], makePrbs_int ht N _⟩

/-- Bits of one component: for one or two modes with supported orders for all of them. -/
theorem bertBits_ok (draw : Nat → Nat × Nat) (N nmodes : Nat) (order : Nat → Nat) (rest : List Nat) (hm : nmodes ≤ 2) (ho : ∀ i < nmodes, order i ∈ [7, 15, 23, 31]) (shift : Int) (invert : Bool) :
    ∃ r : Nat → List Bool, (∀ i < nmodes, makePrbsExtXOR (order i) N .none = .ok (r i) ∧ (r i).length = N) ∧
      bertBits draw N nmodes ((List.range nmodes).map order ++ rest) shift invert = .ok ((List.range nmodes).map fun i => (Np.roll (r i) shift).map (xor invert)) := by
  have hf : (false.xor) = (id : Bool → Bool) := by
    funext b
    cases b <;> rfl
  have ht : (true.xor) = not := by
    funext b
    cases b <;> rfl
  have hno : ¬ ((List.range nmodes).map order ++ rest).length < nmodes := by simp
  match nmodes, hm, ho, hno with
  | 0, _, _, hno =>
    refine ⟨fun _ => [], by simp, ?_⟩
    unfold bertBits prbsBits
    rw [if_neg hno]
    simp [prbsBitsRows, bind, Except.bind, pure, Except.pure]
  | 1, _, ho, hno =>
    obtain ⟨r0, h0, l0, -⟩ := makePrbs_none (ho 0 (by norm_num)) N
    refine ⟨fun _ => r0, ?_, ?_⟩
    · intro i hi
      have : i = 0 := by omega
      subst this
      exact ⟨h0, l0⟩
    · unfold bertBits prbsBits
      rw [if_neg hno]
      simp only [List.range_succ_eq_map, List.range_zero, List.map_cons, List.map_nil, List.cons_append, List.nil_append, prbsBitsRows, List.getElem?_cons_zero, h0, bind, Except.bind, pure, Except.pure]
      cases invert
      · simp [hf]
      · simp [ht]
  | 2, _, ho, hno =>
    obtain ⟨r0, h0, l0, -⟩ := makePrbs_none (ho 0 (by norm_num)) N
    obtain ⟨r1, h1, l1, -⟩ := makePrbs_none (ho 1 (by norm_num)) N
    refine ⟨fun i => if i = 0 then r0 else r1, ?_, ?_⟩
    · intro i hi
      rcases Nat.lt_or_ge i 1 with h | h
      · have : i = 0 := by omega
        subst this
        exact ⟨h0, l0⟩
      · have : i = 1 := by omega
        subst this
        exact ⟨h1, l1⟩
    · unfold bertBits prbsBits
      rw [if_neg hno]
      simp only [List.range_succ_eq_map, List.range_zero, List.map_cons, List.map_nil, List.cons_append, List.nil_append, prbsBitsRows, List.getElem?_cons_zero, List.getElem?_cons_succ, h0, h1, bind, Except.bind, pure, Except.pure]
      cases invert
      · simp [hf]
      · simp [ht]

/-- C139 (mapping): with one or two modes and supported orders for all of them, symbol `j` of mode `i` has the sign of bit `j - shift` (cyclically) of the first pattern in its real part and the one of the second pattern in its imaginary part,
inverted where asked for. -/
theorem C139_mapping (drawI drawQ : Nat → Nat × Nat) (N nmodes : Nat) (oI oQ : Nat → Nat) (restI restQ : List Nat) (hm : nmodes ≤ 2) (hI : ∀ i < nmodes, oI i ∈ [7, 15, 23, 31]) (hQ : ∀ i < nmodes, oQ i ∈ [7, 15, 23, 31])
    (shifts : Int × Int) (inverts : Bool × Bool) :
    ∃ (sig : List (List ℂ)) (rI rQ : Nat → List Bool), qpskFromBert drawI drawQ N nmodes ((List.range nmodes).map oI ++ restI, (List.range nmodes).map oQ ++ restQ) shifts inverts = .ok sig ∧ sig.length = nmodes ∧
      ∀ i < nmodes, makePrbsExtXOR (oI i) N .none = .ok (rI i) ∧ makePrbsExtXOR (oQ i) N .none = .ok (rQ i) ∧
        sig[i]? = some ((List.zip (Np.roll (rI i) shifts.1) (Np.roll (rQ i) shifts.2)).map fun p => qpskPoint (inverts.1 ^^ p.1) (inverts.2 ^^ p.2)) ∧
        ∀ j < N, ∃ row a b, sig[i]? = some row ∧ row.length = N ∧ (rI i)[(((j : Int) - shifts.1) % N).toNat]? = some a ∧ (rQ i)[(((j : Int) - shifts.2) % N).toNat]? = some b ∧
          row[j]? = some (qpskPoint (inverts.1 ^^ a) (inverts.2 ^^ b)) := by
  obtain ⟨rI, h1, e1⟩ := bertBits_ok drawI N nmodes oI restI hm hI shifts.1 inverts.1
  obtain ⟨rQ, h2, e2⟩ := bertBits_ok drawQ N nmodes oQ restQ hm hQ shifts.2 inverts.2
  have hz : ∀ (x y : Bool) (A B : List Bool), (List.zip (A.map (xor x)) (B.map (xor y))).map (fun p => qpskPoint p.1 p.2) = (List.zip A B).map fun p => qpskPoint (x ^^ p.1) (y ^^ p.2) := by
    intro x y A B
    rw [List.zip_map, List.map_map]
    rfl
  refine ⟨(List.range nmodes).map fun i => (List.zip (Np.roll (rI i) shifts.1) (Np.roll (rQ i) shifts.2)).map fun p => qpskPoint (inverts.1 ^^ p.1) (inverts.2 ^^ p.2), rI, rQ, ?_, by simp, ?_⟩
  · unfold qpskFromBert
    rw [e1, e2]
    show Except.ok _ = Except.ok _
    congr 1
    rw [List.zipWith_map]
    simp only [modulate_interleave, hz]
    rw [List.zipWith_self]
  · intro i hi
    have hrow : ((List.range nmodes).map fun i => (List.zip (Np.roll (rI i) shifts.1) (Np.roll (rQ i) shifts.2)).map fun p => qpskPoint (inverts.1 ^^ p.1) (inverts.2 ^^ p.2))[i]? =
        some ((List.zip (Np.roll (rI i) shifts.1) (Np.roll (rQ i) shifts.2)).map fun p => qpskPoint (inverts.1 ^^ p.1) (inverts.2 ^^ p.2)) := by
      rw [List.getElem?_map, List.getElem?_range hi]
      rfl
    refine ⟨(h1 i hi).1, (h2 i hi).1, hrow, ?_⟩
    intro j hj
    have l1 := (h1 i hi).2
    have l2 := (h2 i hi).2
    have g1 := Np.getElem?_roll (rI i) shifts.1 j (by omega)
    have g2 := Np.getElem?_roll (rQ i) shifts.2 j (by omega)
    rw [l1] at g1
    rw [l2] at g2
    obtain ⟨a, ha⟩ : ∃ a, (Np.roll (rI i) shifts.1)[j]? = some a := ⟨_, List.getElem?_eq_getElem (by rw [Np.length_roll]; omega)⟩
    obtain ⟨b, hb⟩ : ∃ b, (Np.roll (rQ i) shifts.2)[j]? = some b := ⟨_, List.getElem?_eq_getElem (by rw [Np.length_roll]; omega)⟩
    refine ⟨_, a, b, hrow, by simp [l1, l2], by rw [← g1, ha], by rw [← g2, hb], ?_⟩
    rw [List.getElem?_map, List.zip, List.getElem?_zipWith, ha, hb]
    rfl

/-- C139 (full statement): a single mode signal of one period shows all four points of the constellation, with any supported order, shifts and inversions. -/
def C139_statement : Prop := ∀ (drawI drawQ : Nat → Nat × Nat) (n : Nat), n ∈ [7, 15, 23, 31] → ∀ (shifts : Int × Int) (inverts : Bool × Bool),
  ∃ sig, qpskFromBert drawI drawQ (2 ^ n - 1) 1 ([n], [n]) shifts inverts = .ok [sig] ∧ ∀ a b, qpskPoint a b ∈ sig

theorem C139_single (drawI drawQ : Nat → Nat × Nat) (N n : Nat) (hn : n ∈ [7, 15, 23, 31]) (shifts : Int × Int) (inverts : Bool × Bool) :
    ∃ r, makePrbsExtXOR n N .none = .ok r ∧ qpskFromBert drawI drawQ N 1 ([n], [n]) shifts inverts = .ok [(List.zip (Np.roll r shifts.1) (Np.roll r shifts.2)).map fun p => qpskPoint (inverts.1 ^^ p.1) (inverts.2 ^^ p.2)] := by
  obtain ⟨sig, rI, rQ, h, hl, hi⟩ := C139_mapping drawI drawQ N 1 (fun _ => n) (fun _ => n) [] [] (by norm_num) (fun _ _ => hn) (fun _ _ => hn) shifts inverts
  obtain ⟨h1, h2, h3, -⟩ := hi 0 one_pos
  have he : rI 0 = rQ 0 := by
    rw [h1] at h2
    exact Except.ok.inj h2
  refine ⟨rI 0, h1, ?_⟩
  rw [← he] at h3
  match sig, hl, h3 with
  | [s], _, h3 =>
    have : s = _ := Option.some.inj h3
    rw [← this]
    exact h

/-- C139, for delays that differ by no multiple of the period: each point appears `2^(n-2)` times, except that one of them (the one of two zero bits before inversion) is missing once. Missing: equal delays, among them the default,
where the statement is false. -/
theorem C139_points_partial (drawI drawQ : Nat → Nat × Nat) (n : Nat) (hn : n ∈ [7, 15, 23, 31]) (shifts : Int × Int) (inverts : Bool × Bool) (hd : ¬ ((2 ^ n - 1 : Nat) : Int) ∣ shifts.2 - shifts.1) :
    ∃ sig, qpskFromBert drawI drawQ (2 ^ n - 1) 1 ([n], [n]) shifts inverts = .ok [sig] ∧ (∀ a b, qpskPoint a b ∈ sig) ∧
      ∀ a b, sig.count (qpskPoint a b) = if a = inverts.1 ∧ b = inverts.2 then 2 ^ (n - 2) - 1 else 2 ^ (n - 2) := by
  obtain ⟨r, hr, h⟩ := C139_single drawI drawQ (2 ^ n - 1) n hn shifts inverts
  have hn2 : 4 ≤ 2 ^ (n - 2) := by
    calc 4 = 2 ^ 2 := by norm_num
      _ ≤ 2 ^ (n - 2) := Nat.pow_le_pow_right (by norm_num) (by simp at hn; omega)
  have hn3 : 2 ^ n = 4 * 2 ^ (n - 2) := by
    rw [show (4 : Nat) = 2 ^ 2 by norm_num, ← pow_add]
    congr 1
    simp at hn
    omega
  obtain ⟨out, ho, c1, c2, c3, c4, -⟩ := C138_pairs n hn (2 ^ n - 1) (by omega) (by omega) shifts.1 shifts.2 hd
  obtain ⟨r', hr', -, hr''⟩ := makePrbs_none hn (2 ^ n - 1)
  rw [hr] at hr'
  cases hr'
  rw [hr''] at ho
  cases ho
  have hc : ∀ (l : List (Bool × Bool)) (x y a b : Bool), (l.map fun p => qpskPoint (x ^^ p.1) (y ^^ p.2)).count (qpskPoint a b) = l.count (x ^^ a, y ^^ b) := by
    intro l x y a b
    rw [List.count, List.countP_map, List.count]
    apply List.countP_congr
    rintro ⟨u, v⟩ -
    simp only [Function.comp_apply, beq_iff_eq, Prod.mk.injEq]
    constructor
    · intro h
      obtain ⟨h1, h2⟩ := qpskPoint_inj h
      rw [← h1, ← h2]
      simp
    · rintro ⟨rfl, rfl⟩
      simp
  have hcount : ∀ a b, ((List.zip (Np.roll r shifts.1) (Np.roll r shifts.2)).map fun p => qpskPoint (inverts.1 ^^ p.1) (inverts.2 ^^ p.2)).count (qpskPoint a b) = if a = inverts.1 ∧ b = inverts.2 then 2 ^ (n - 2) - 1 else 2 ^ (n - 2) := by
    intro a b
    rw [hc]
    obtain ⟨x, y⟩ := inverts
    dsimp only
    cases x <;> cases y <;> cases a <;> cases b <;> simp [c1, c2, c3, c4]
  refine ⟨_, h, ?_, hcount⟩
  intro a b
  rw [← List.count_pos_iff, hcount]
  split_ifs <;> omega

example : ∃ sig, qpskFromBert (fun _ => (15, 1)) (fun _ => (15, 1)) (2 ^ 7 - 1) 1 ([7], [7]) (0, 10) (false, true) = .ok [sig] ∧ ∀ a b, qpskPoint a b ∈ sig :=
  let ⟨sig, h1, h2, _⟩ := C139_points_partial (fun _ => (15, 1)) (fun _ => (15, 1)) 7 (by simp) (0, 10) (false, true) (by decide)
  ⟨sig, h1, h2⟩

/-- C139: with equal delays, as in the default, and any length all symbols lie on one diagonal: both components always carry the same bit, or always opposite bits. -/
theorem C139_diagonal (drawI drawQ : Nat → Nat × Nat) (N n : Nat) (hn : n ∈ [7, 15, 23, 31]) (shift : Int) (inverts : Bool × Bool) :
    ∃ sig, qpskFromBert drawI drawQ N 1 ([n], [n]) (shift, shift) inverts = .ok [sig] ∧ ∀ z ∈ sig, ∃ a, z = qpskPoint a (a ^^ inverts.1 ^^ inverts.2) := by
  obtain ⟨r, -, h⟩ := C139_single drawI drawQ N n hn (shift, shift) inverts
  refine ⟨_, h, ?_⟩
  intro z hz
  obtain ⟨⟨a, b⟩, hp, rfl⟩ := List.mem_map.1 hz
  have hab : a = b := by
    have hself : ∀ l : List Bool, ∀ p ∈ List.zip l l, p.1 = p.2 := by
      intro l
      induction l with
      | nil => simp
      | cons c l ih =>
        intro p hp
        rw [List.zip_cons_cons, List.mem_cons] at hp
        rcases hp with rfl | hp
        · rfl
        · exact ih p hp
    exact hself _ _ hp
  subst hab
  refine ⟨inverts.1 ^^ a, ?_⟩
  congr 1
  cases a <;> cases inverts.1 <;> cases inverts.2 <;> rfl

theorem C139_false : ¬ C139_statement := by
  intro h
  obtain ⟨sig, h1, h2⟩ := h (fun _ => (15, 1)) (fun _ => (15, 1)) 15 (by simp) (0, 0) (false, false)
  obtain ⟨sig', h3, h4⟩ := C139_diagonal (fun _ => (15, 1)) (fun _ => (15, 1)) (2 ^ 15 - 1) 15 (by simp) 0 (false, false)
  rw [h1] at h3
  cases h3
  obtain ⟨a, ha⟩ := h4 _ (h2 true false)
  obtain ⟨h5, h6⟩ := qpskPoint_inj ha
  subst h5
  simp at h6

/-- C139: three or more modes with orders for all of them raise IndexError, because there are only two (empty) default seeds and no way to give others. -/
theorem C139_three_modes (drawI drawQ : Nat → Nat × Nat) (N nmodes o0 o1 : Nat) (orderI orderQ : List Nat) (h0 : o0 ∈ [7, 15, 23, 31]) (h1 : o1 ∈ [7, 15, 23, 31]) (hm : 3 ≤ nmodes) (hl : nmodes ≤ orderI.length + 2)
    (shifts : Int × Int) (inverts : Bool × Bool) : qpskFromBert drawI drawQ N nmodes (o0 :: o1 :: orderI, orderQ) shifts inverts = .error .index := by
  obtain ⟨m, rfl⟩ : ∃ m, nmodes = m + 3 := ⟨nmodes - 3, by omega⟩
  obtain ⟨r0, e0, -⟩ := makePrbs_none h0 N
  obtain ⟨r1, e1, -⟩ := makePrbs_none h1 N
  have : bertBits drawI N (m + 3) (o0 :: o1 :: orderI) shifts.1 inverts.1 = .error .index := by
    unfold bertBits prbsBits
    rw [if_neg (by simp; omega)]
    simp only [prbsBitsRows, List.getElem?_cons_zero, List.getElem?_cons_succ, e0, e1, bind, Except.bind]
    rcases orderI[0]? with _ | o <;> simp
  unfold qpskFromBert
  rw [this]
  rfl

end Qampy
