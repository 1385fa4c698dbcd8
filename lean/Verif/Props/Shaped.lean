import Verif.Model.Shaped
import Verif.Props.Quantise
import Verif.Lemmas.Constellation
import Mathlib.MeasureTheory.Measure.Lebesgue.Basic
import Mathlib.MeasureTheory.Measure.Prod

/-!
# C195: probabilistically shaped symbols
-/

namespace Qampy

open MeasureTheory

theorem take_sum_mono {p : List ℝ} (hp : ∀ q ∈ p, 0 ≤ q) : Monotone fun i => (p.take i).sum := by
  apply monotone_nat_of_le_succ
  intro i
  rw [List.take_add_one, List.sum_append]
  rcases h : p[i]? with _ | q
  · simp
  · have := hp q (List.mem_of_getElem? h)
    simpa using this

/-- The interval of the draws that pick entry `i`. -/
theorem choiceIdx_eq {p : List ℝ} (hp : ∀ q ∈ p, 0 ≤ q) (hs : p.sum = 1) {u : ℝ} {i : Nat} (hi : i < p.length)
    (h1 : (p.take i).sum ≤ u) (h2 : u < (p.take (i + 1)).sum) : choiceIdx p u = i := by
  unfold choiceIdx choiceCdf
  rw [List.countP_map, hs]
  have e : List.range p.length = List.range i ++ (List.range (p.length - i)).map (i + ·) := by
    rw [← List.range_add]
    congr 1
    omega
  rw [e, List.countP_append, List.countP_map]
  have a1 : List.countP ((fun c => decide (c ≤ u)) ∘ fun i => (p.take (i + 1)).sum / 1) (List.range i) = (List.range i).length := by
    rw [List.countP_eq_length]
    intro j hj
    have hj := List.mem_range.1 hj
    have := take_sum_mono hp (show j + 1 ≤ i by omega)
    simp only [Function.comp_apply, div_one, decide_eq_true_eq]
    exact this.trans h1
  have a2 : List.countP (((fun c => decide (c ≤ u)) ∘ fun i => (p.take (i + 1)).sum / 1) ∘ (i + ·)) (List.range (p.length - i)) = 0 := by
    rw [List.countP_eq_zero]
    intro j hj
    have := take_sum_mono hp (show i + 1 ≤ i + j + 1 by omega)
    simp only [Function.comp_apply, div_one, decide_eq_true_eq, not_le]
    exact h2.trans_le this
  rw [a1, a2]
  simp

/-- Every draw below one picks an entry. -/
theorem choiceIdx_interval {p : List ℝ} (hp : ∀ q ∈ p, 0 ≤ q) (hs : p.sum = 1) {u : ℝ} (h0 : 0 ≤ u) (h1 : u < 1) :
    ∃ i < p.length, (p.take i).sum ≤ u ∧ u < (p.take (i + 1)).sum ∧ choiceIdx p u = i := by
  have hex : ∃ n, u < (p.take n).sum := ⟨p.length, by rw [List.take_length, hs]; exact h1⟩
  classical
  obtain ⟨n, hn, hmin⟩ : ∃ n, u < (p.take n).sum ∧ ∀ m < n, ¬ u < (p.take m).sum :=
    ⟨Nat.find hex, Nat.find_spec hex, fun m hm => Nat.find_min hex hm⟩
  rcases n with _ | i
  · simp at hn; linarith
  have hi : i < p.length := by
    by_contra hge
    apply hmin i (by omega)
    rw [List.take_of_length_le (by omega)] at hn ⊢
    exact hn
  have hle := not_lt.1 (hmin i (by omega))
  exact ⟨i, hi, hle, hn, choiceIdx_eq hp hs hi hle hn⟩

theorem choiceIdx_iff {p : List ℝ} (hp : ∀ q ∈ p, 0 ≤ q) (hs : p.sum = 1) {i : Nat} (hi : i < p.length) (u : ℝ) :
    (0 ≤ u ∧ u < 1 ∧ choiceIdx p u = i) ↔ u ∈ Set.Ico (p.take i).sum (p.take (i + 1)).sum := by
  constructor
  · rintro ⟨h0, h1, h⟩
    obtain ⟨j, hj, a, b, c⟩ := choiceIdx_interval hp hs h0 h1
    have : j = i := by rw [← c, h]
    subst this
    exact ⟨a, b⟩
  · rintro ⟨a, b⟩
    refine ⟨?_, ?_, choiceIdx_eq hp hs hi a b⟩
    · refine le_trans ?_ a
      have := take_sum_mono hp (Nat.zero_le i)
      simpa using this
    · refine lt_of_lt_of_le b ?_
      have := take_sum_mono hp (show i + 1 ≤ p.length by omega)
      simp only [List.take_length, hs] at this
      exact this

/-- The result of `np.random.choice` for a distribution. -/
theorem npChoice_ok {a p us : List ℝ} (hne : a ≠ []) (hl : a.length = p.length) (hp : ∀ q ∈ p, 0 ≤ q) (hs : p.sum = 1)
    (hu : ∀ u ∈ us, 0 ≤ u ∧ u < 1) : npChoice a p us = .ok (us.map fun u => a.getD (choiceIdx p u) 0) := by
  unfold npChoice
  rw [if_pos ⟨hne, hl, hp, by rw [hs]; norm_num⟩]
  induction us with
  | nil => rfl
  | cons u us ih =>
    obtain ⟨i, hi, -, -, hc⟩ := choiceIdx_interval hp hs (hu u (by simp)).1 (hu u (by simp)).2
    have hg : a[choiceIdx p u]? = some (a[i]'(by omega)) := by rw [hc, List.getElem?_eq_getElem]
    rw [List.mapM_cons, ih (fun v hv => hu v (by simp [hv]))]
    simp only [List.map_cons, List.getD_eq_getElem?_getD, hg]
    rfl

/-- What the shaping of `symbols` gives: levels and probabilities that `np.random.choice` accepts. -/
theorem psProbablts_spec (symbols : List ℂ) (hne : symbols ≠ []) (nu : ℝ) :
    ∃ s p : List ℝ, ∃ D : ℝ, calPsProbablts symbols nu = (s, p) ∧ s ≠ [] ∧ s.Nodup ∧ (∀ v, v ∈ s ↔ ∃ z ∈ symbols, z.re = v) ∧
      s.length = p.length ∧ (∀ q ∈ p, 0 ≤ q) ∧ p.sum = 1 ∧ 0 < D ∧ D = (s.map fun v => Real.exp (-nu * v ^ 2)).sum ∧
      ∀ (i : Nat) (v : ℝ), s[i]? = some v → p[i]? = some (Real.exp (-nu * v ^ 2) / D) := by
  obtain ⟨s, p, h1, h2, h3, h4, h5, h6, -, -⟩ := C61_maxwell_boltzmann symbols hne nu
  have hs : psLevels symbols = s := congrArg Prod.fst h1
  have hp : p = (calPsProbablts symbols nu).2 := by rw [h1]
  have hsne : s ≠ [] := by
    obtain ⟨z, hz⟩ := List.exists_mem_of_ne_nil _ hne
    exact List.ne_nil_of_mem ((h3 z.re).2 ⟨z, hz, rfl⟩)
  refine ⟨s, p, (s.map fun v => Real.exp (-nu * v ^ 2)).sum, h1, hsne, ?_, h3, h4.symm, fun q hq => (h6 q hq).le, h5, ?_, rfl, ?_⟩
  · exact h2.imp (fun h => ne_of_lt h)
  · apply List.sum_pos
    · intro y hy; obtain ⟨v, -, rfl⟩ := List.mem_map.1 hy; exact Real.exp_pos _
    · simpa using hsne
  · intro i v hv
    rw [hp]
    simp only [calPsProbablts, hs, sq_abs, List.getElem?_map, hv, Option.map_some]

/-- Every drawn symbol has its quadratures among the levels; position `i` depends on the two draws of this position only. -/
theorem C195_draws (symbols : List ℂ) (hne : symbols ≠ []) (nu : ℝ) (us vs : List ℝ) (hl : us.length = vs.length)
    (hu : ∀ u ∈ us, 0 ≤ u ∧ u < 1) (hv : ∀ v ∈ vs, 0 ≤ v ∧ v < 1) :
    ∃ out : List ℂ, generatePsSymbols us vs (calPsProbablts symbols nu).1 (calPsProbablts symbols nu).2 false = .ok out ∧
      out.length = us.length ∧ ∀ (i : Nat) (u v : ℝ), us[i]? = some u → vs[i]? = some v → ∃ z : ℂ, out[i]? = some z ∧
        generatePsSymbols [u] [v] (calPsProbablts symbols nu).1 (calPsProbablts symbols nu).2 false = .ok [z] ∧
        (∃ a ∈ symbols, a.re = z.re) ∧ ∃ b ∈ symbols, b.re = z.im := by
  obtain ⟨s, p, D, h1, h2, h3, h4, h5, h6, h7, -, -, -⟩ := psProbablts_spec symbols hne nu
  rw [h1]
  have hmem : ∀ u : ℝ, 0 ≤ u → u < 1 → s.getD (choiceIdx p u) 0 ∈ s := by
    intro u a b
    obtain ⟨i, hi, -, -, hc⟩ := choiceIdx_interval h6 h7 a b
    rw [hc, List.getD_eq_getElem s 0 (by omega)]
    exact List.getElem_mem _
  refine ⟨List.zipWith (fun a b => (⟨a, b⟩ : ℂ)) (us.map fun u => s.getD (choiceIdx p u) 0)
    (vs.map fun u => s.getD (choiceIdx p u) 0), ?_, by simp [hl], ?_⟩
  · unfold generatePsSymbols
    rw [npChoice_ok h2 h5 h6 h7 hu, npChoice_ok h2 h5 h6 h7 hv]
    rfl
  · intro i u v hiu hiv
    have hu' := hu u (List.mem_of_getElem? hiu)
    have hv' := hv v (List.mem_of_getElem? hiv)
    refine ⟨⟨s.getD (choiceIdx p u) 0, s.getD (choiceIdx p v) 0⟩, ?_, ?_, ?_, ?_⟩
    · rw [List.getElem?_zipWith, List.getElem?_map, List.getElem?_map, hiu, hiv]
      rfl
    · unfold generatePsSymbols
      rw [npChoice_ok h2 h5 h6 h7 (by simpa using hu'), npChoice_ok h2 h5 h6 h7 (by simpa using hv')]
      rfl
    · exact (h4 _).1 (hmem u hu'.1 hu'.2)
    · exact (h4 _).1 (hmem v hv'.1 hv'.2)

/-- The draws that give the symbol `z`. -/
def shapedDraws (symbols : List ℂ) (nu : ℝ) (z : ℂ) : Set (ℝ × ℝ) :=
  {w | (0 ≤ w.1 ∧ w.1 < 1) ∧ (0 ≤ w.2 ∧ w.2 < 1) ∧
    generatePsSymbols [w.1] [w.2] (calPsProbablts symbols nu).1 (calPsProbablts symbols nu).2 false = .ok [z]}

/-- The in-phase levels of a constellation without repetition. -/
noncomputable def inphase (symbols : List ℂ) : Finset ℝ := (symbols.map fun z : ℂ => z.re).toFinset

/-- For uniform draws the symbols follow the Maxwell-Boltzmann distribution on the grid of the in-phase levels. -/
theorem C195_distribution (symbols : List ℂ) (hne : symbols ≠ []) (nu : ℝ) (z : ℂ) (hre : z.re ∈ inphase symbols)
    (him : z.im ∈ inphase symbols) :
    volume (shapedDraws symbols nu z) = ENNReal.ofReal (Real.exp (-nu * ‖z‖ ^ 2) /
      ∑ q ∈ inphase symbols ×ˢ inphase symbols, Real.exp (-nu * (q.1 ^ 2 + q.2 ^ 2))) := by
  obtain ⟨s, p, D, h1, h2, h3, h4, h5, h6, h7, hD, hDe, hpi⟩ := psProbablts_spec symbols hne nu
  have hmem : ∀ v, v ∈ s ↔ v ∈ inphase symbols := by
    intro v; rw [h4]; simp [inphase]
  have hfin : inphase symbols = s.toFinset := by
    ext v; rw [← hmem, List.mem_toFinset]
  obtain ⟨i, hi⟩ := List.getElem?_of_mem ((hmem _).2 hre)
  obtain ⟨j, hj⟩ := List.getElem?_of_mem ((hmem _).2 him)
  have hil : i < s.length := (List.getElem?_eq_some_iff.1 hi).1
  have hjl : j < s.length := (List.getElem?_eq_some_iff.1 hj).1
  have hget : ∀ (u : ℝ) (k : Nat) (x : ℝ), 0 ≤ u → u < 1 → s[k]? = some x → (s.getD (choiceIdx p u) 0 = x ↔ choiceIdx p u = k) := by
    intro u k x a b hk
    obtain ⟨m, hm, -, -, hc⟩ := choiceIdx_interval h6 h7 a b
    obtain ⟨hk1, hk2⟩ := List.getElem?_eq_some_iff.1 hk
    rw [hc, List.getD_eq_getElem s 0 (by omega), ← hk2]
    exact h3.getElem_inj_iff
  have hset : shapedDraws symbols nu z = Set.Ico (p.take i).sum (p.take (i + 1)).sum ×ˢ Set.Ico (p.take j).sum (p.take (j + 1)).sum := by
    ext ⟨u, v⟩
    rw [Set.mem_prod, ← choiceIdx_iff h6 h7 (by omega), ← choiceIdx_iff h6 h7 (by omega)]
    simp only [shapedDraws, Set.mem_ofPred_eq, h1]
    constructor
    · rintro ⟨hu, hv, h⟩
      unfold generatePsSymbols at h
      rw [npChoice_ok h2 h5 h6 h7 (by simpa using hu), npChoice_ok h2 h5 h6 h7 (by simpa using hv)] at h
      have h : [(⟨s.getD (choiceIdx p u) 0, s.getD (choiceIdx p v) 0⟩ : ℂ)] = [z] := Except.ok.inj h
      have h := (List.cons.inj h).1
      have e1 : s.getD (choiceIdx p u) 0 = z.re := by rw [← h]
      have e2 : s.getD (choiceIdx p v) 0 = z.im := by rw [← h]
      exact ⟨⟨hu.1, hu.2, (hget u i _ hu.1 hu.2 hi).1 e1⟩, ⟨hv.1, hv.2, (hget v j _ hv.1 hv.2 hj).1 e2⟩⟩
    · rintro ⟨⟨a, b, c⟩, ⟨a', b', c'⟩⟩
      refine ⟨⟨a, b⟩, ⟨a', b'⟩, ?_⟩
      unfold generatePsSymbols
      rw [npChoice_ok h2 h5 h6 h7 (by simpa using ⟨a, b⟩), npChoice_ok h2 h5 h6 h7 (by simpa using ⟨a', b'⟩)]
      have e1 := (hget u i _ a b hi).2 c
      have e2 := (hget v j _ a' b' hj).2 c'
      change Except.ok [(⟨s.getD (choiceIdx p u) 0, s.getD (choiceIdx p v) 0⟩ : ℂ)] = _
      rw [e1, e2]
  have hlen : ∀ (k : Nat) (x : ℝ), s[k]? = some x → (p.take (k + 1)).sum - (p.take k).sum = Real.exp (-nu * x ^ 2) / D := by
    intro k x hk
    rw [List.take_add_one, List.sum_append, hpi k x hk]
    simp
  rw [hset, Measure.volume_eq_prod, Measure.prod_prod, Real.volume_Ico, Real.volume_Ico, hlen i _ hi, hlen j _ hj,
    ← ENNReal.ofReal_mul (div_nonneg (Real.exp_pos _).le hD.le)]
  congr 1
  have hsum : ∑ v ∈ inphase symbols, Real.exp (-nu * v ^ 2) = D := by
    rw [hfin, List.sum_toFinset _ h3, hDe]
  rw [div_mul_div_comm, ← Real.exp_add, Finset.sum_product]
  congr 1
  · congr 1
    rw [← Complex.normSq_eq_norm_sq, Complex.normSq_apply]
    ring
  · rw [← hsum, Finset.sum_mul_sum]
    apply Finset.sum_congr rfl
    intro a _
    apply Finset.sum_congr rfl
    intro b _
    rw [← Real.exp_add]
    congr 1
    ring

/-- Other symbols are never drawn. -/
theorem C195_outside (symbols : List ℂ) (hne : symbols ≠ []) (nu : ℝ) (z : ℂ) (h : z.re ∉ inphase symbols ∨ z.im ∉ inphase symbols) :
    shapedDraws symbols nu z = ∅ := by
  rw [Set.eq_empty_iff_forall_notMem]
  rintro ⟨u, v⟩ ⟨hu, hv, hz⟩
  obtain ⟨out, ho, -, hi⟩ := C195_draws symbols hne nu [u] [v] rfl (by simpa using hu) (by simpa using hv)
  obtain ⟨z', -, h2, ⟨a, ha, har⟩, ⟨b, hb, hbr⟩⟩ := hi 0 u v rfl rfl
  rw [h2] at hz
  have hz : z' = z := (List.cons.inj (Except.ok.inj hz)).1
  subst hz
  rcases h with h | h <;> apply h <;> rw [inphase, List.mem_toFinset, List.mem_map]
  · exact ⟨a, ha, har⟩
  · exact ⟨b, hb, hbr⟩

/-- The statement of C195: for every QAM order uniform draws give the Maxwell-Boltzmann distribution on the constellation. -/
def C195_statement : Prop :=
  ∀ (k : Nat) (scale nu : ℝ) (z : ℂ), 1 ≤ k → 0 < scale →
    volume (shapedDraws ((symbolsQam k).map (toComplex scale)) nu z) =
      if z ∈ (symbolsQam k).map (toComplex scale) then ENNReal.ofReal (Real.exp (-nu * ‖z‖ ^ 2) /
        (((symbolsQam k).map (toComplex scale)).map fun c => Real.exp (-nu * ‖c‖ ^ 2)).sum) else 0

/-- C195 for constellations that are the grid of their in-phase levels. -/
theorem C195_grid_partial (symbols : List ℂ) (hne : symbols ≠ []) (hnd : symbols.Nodup)
    (hgrid : ∀ z, z ∈ symbols ↔ z.re ∈ inphase symbols ∧ z.im ∈ inphase symbols) (nu : ℝ) (z : ℂ) :
    volume (shapedDraws symbols nu z) = if z ∈ symbols then ENNReal.ofReal (Real.exp (-nu * ‖z‖ ^ 2) /
      (symbols.map fun c => Real.exp (-nu * ‖c‖ ^ 2)).sum) else 0 := by
  split_ifs with h
  · rw [C195_distribution symbols hne nu z ((hgrid z).1 h).1 ((hgrid z).1 h).2]
    congr 2
    rw [← List.sum_toFinset _ hnd]
    refine Finset.sum_nbij' (fun q => (⟨q.1, q.2⟩ : ℂ)) (fun c => (c.re, c.im)) ?_ ?_ ?_ ?_ ?_
    · intro q hq
      rw [Finset.mem_product] at hq
      rw [List.mem_toFinset, hgrid]
      exact hq
    · intro c hc
      rw [List.mem_toFinset, hgrid] at hc
      rw [Finset.mem_product]
      exact hc
    · intro q _; rfl
    · intro c _; rfl
    · intro q _
      congr 1
      rw [← Complex.normSq_eq_norm_sq, Complex.normSq_apply]
      ring
  · rw [C195_outside symbols hne nu z, measure_empty]
    by_contra hc
    push Not at hc
    exact h ((hgrid z).2 hc)

/-- The square constellations are grids. -/
theorem C195_square (N : Nat) (scale nu : ℝ) (z : ℂ) (hs : 0 < scale) :
    volume (shapedDraws ((symbolsQam (2 * N)).map (toComplex scale)) nu z) =
      if z ∈ (symbolsQam (2 * N)).map (toComplex scale) then ENNReal.ofReal (Real.exp (-nu * ‖z‖ ^ 2) /
        (((symbolsQam (2 * N)).map (toComplex scale)).map fun c => Real.exp (-nu * ‖c‖ ^ 2)).sum) else 0 := by
  have e : symbolsQam (2 * N) = squareQam N := by
    unfold symbolsQam
    rw [if_neg (by omega)]
    congr 1
    omega
  have hsc : (scale : ℂ) ≠ 0 := by exact_mod_cast hs.ne'
  have hre : ∀ q : Int × Int, (toComplex scale q).re = q.1 / scale ∧ (toComplex scale q).im = q.2 / scale := by
    intro q
    unfold toComplex
    rw [Complex.div_ofReal_re, Complex.div_ofReal_im]
    exact ⟨rfl, rfl⟩
  have hinj : Function.Injective (toComplex scale) := by
    intro a b h
    have h1 := congrArg Complex.re h
    have h2 := congrArg Complex.im h
    rw [(hre a).1, (hre b).1, div_left_inj' hs.ne'] at h1
    rw [(hre a).2, (hre b).2, div_left_inj' hs.ne'] at h2
    exact Prod.ext (by exact_mod_cast h1) (by exact_mod_cast h2)
  have hmem : ∀ a b : Int, (a, b) ∈ squareQam N ↔ a ∈ axisPts (2 ^ N) ∧ b ∈ axisPts (2 ^ N) := by
    intro a b
    simp [squareQam]
  have hax : ∃ x, x ∈ axisPts (2 ^ N) := ⟨_, List.mem_map.2 ⟨0, List.mem_range.2 (by positivity), rfl⟩⟩
  obtain ⟨x0, hx0⟩ := hax
  have hin : ∀ v, v ∈ inphase ((squareQam N).map (toComplex scale)) ↔ ∃ a ∈ axisPts (2 ^ N), (a : ℝ) / scale = v := by
    intro v
    simp only [inphase, List.mem_toFinset, List.mem_map, exists_exists_and_eq_and]
    constructor
    · rintro ⟨⟨a, b⟩, h1, h2⟩
      exact ⟨a, ((hmem a b).1 h1).1, by rw [← h2, (hre _).1]⟩
    · rintro ⟨a, h1, h2⟩
      exact ⟨(a, x0), (hmem _ _).2 ⟨h1, hx0⟩, by rw [(hre _).1]; exact h2⟩
  rw [e]
  apply C195_grid_partial
  · exact List.ne_nil_of_mem (List.mem_map_of_mem ((hmem x0 x0).2 ⟨hx0, hx0⟩))
  · exact (nodup_squareQam N).map hinj
  · intro c
    rw [hin, hin, List.mem_map]
    constructor
    · rintro ⟨⟨a, b⟩, h1, rfl⟩
      exact ⟨⟨a, ((hmem a b).1 h1).1, ((hre (a, b)).1).symm⟩, ⟨b, ((hmem a b).1 h1).2, ((hre (a, b)).2).symm⟩⟩
    · rintro ⟨⟨a, h1, h2⟩, ⟨b, h3, h4⟩⟩
      exact ⟨(a, b), (hmem _ _).2 ⟨h1, h3⟩, Complex.ext (by rw [(hre _).1]; exact h2) (by rw [(hre _).2]; exact h4)⟩

/-- 8-QAM: the point 3+3j, which is not part of the constellation, is drawn with positive probability. -/
theorem C195_false : ¬ C195_statement := by
  intro h
  have h1 := h 3 1 0 ⟨3, 3⟩ (by norm_num) one_pos
  have e : symbolsQam 3 = [(-3, -1), (-3, 1), (-1, -1), (-1, 1), (1, -1), (1, 1), (3, -1), (3, 1)] := by decide
  have hin : (3 : ℝ) ∈ inphase ((symbolsQam 3).map (toComplex 1)) := by
    rw [inphase, List.mem_toFinset, List.mem_map]
    refine ⟨toComplex 1 (3, 1), List.mem_map_of_mem (by rw [e]; simp), by simp [toComplex]⟩
  rw [if_neg, C195_distribution _ (by rw [e]; simp) 0 ⟨3, 3⟩ hin hin, ENNReal.ofReal_eq_zero] at h1
  · have : 0 < Real.exp (-0 * ‖(⟨3, 3⟩ : ℂ)‖ ^ 2) / ∑ q ∈ inphase ((symbolsQam 3).map (toComplex 1)) ×ˢ
        inphase ((symbolsQam 3).map (toComplex 1)), Real.exp (-0 * (q.1 ^ 2 + q.2 ^ 2)) := by
      apply div_pos (Real.exp_pos _)
      exact Finset.sum_pos (fun _ _ => Real.exp_pos _) ⟨(3, 3), Finset.mem_product.2 ⟨hin, hin⟩⟩
    linarith
  · intro hm
    obtain ⟨⟨a, b⟩, h2, h3⟩ := List.mem_map.1 hm
    have h4 := congrArg Complex.im h3
    simp only [toComplex, Complex.ofReal_one, div_one] at h4
    rw [e] at h2
    simp only [List.mem_cons, Prod.mk.injEq, List.not_mem_nil, or_false] at h2
    have h5 : b = 3 := by exact_mod_cast h4
    omega

/-- With the default argument `normalize=True` valid calls raise NameError. -/
theorem C195_default (symbols : List ℂ) (hne : symbols ≠ []) (nu : ℝ) (us vs : List ℝ)
    (hu : ∀ u ∈ us, 0 ≤ u ∧ u < 1) (hv : ∀ v ∈ vs, 0 ≤ v ∧ v < 1) :
    generatePsSymbols us vs (calPsProbablts symbols nu).1 (calPsProbablts symbols nu).2 true = .error .name := by
  obtain ⟨s, p, D, h1, h2, h3, h4, h5, h6, h7, -, -, -⟩ := psProbablts_spec symbols hne nu
  rw [h1]
  unfold generatePsSymbols
  rw [npChoice_ok h2 h5 h6 h7 hu, npChoice_ok h2 h5 h6 h7 hv]
  rfl

example : volume (shapedDraws ((symbolsQam 2).map (toComplex 1)) 1 ⟨1, 1⟩) ≠ 0 := by
  have hm : (⟨1, 1⟩ : ℂ) ∈ (symbolsQam (2 * 1)).map (toComplex 1) := by
    have e : symbolsQam (2 * 1) = [(-1, -1), (-1, 1), (1, -1), (1, 1)] := by decide
    rw [e, List.mem_map]
    exact ⟨(1, 1), by simp, by simp [toComplex]⟩
  have h := C195_square 1 1 1 ⟨1, 1⟩ one_pos
  rw [if_pos hm] at h
  change volume (shapedDraws ((symbolsQam (2 * 1)).map (toComplex 1)) 1 ⟨1, 1⟩) ≠ 0
  rw [h]
  refine (ENNReal.ofReal_pos.2 (div_pos (Real.exp_pos _) (List.sum_pos _ ?_ ?_))).ne'
  · intro y hy; obtain ⟨v, -, rfl⟩ := List.mem_map.1 hy; exact Real.exp_pos _
  · intro h0
    rw [List.map_eq_nil_iff] at h0
    rw [h0] at hm
    simp at hm

example : ∃ out : List ℂ, generatePsSymbols [0, 1 / 2] [1 / 3, 9 / 10] (calPsProbablts [⟨1, 0⟩, ⟨-1, 0⟩] 1).1
    (calPsProbablts [⟨1, 0⟩, ⟨-1, 0⟩] 1).2 false = .ok out ∧ out.length = 2 := by
  obtain ⟨out, h1, h2, -⟩ := C195_draws [⟨1, 0⟩, ⟨-1, 0⟩] (by simp) 1 [0, 1 / 2] [1 / 3, 9 / 10] rfl (by norm_num) (by norm_num)
  exact ⟨out, h1, h2⟩

end Qampy
