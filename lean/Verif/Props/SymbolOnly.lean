import Verif.Model.SymbolOnly
import Verif.Props.Hybrid

/-!
C145, C146: signals made from given symbols.
-/

namespace Qampy

open Classical in
theorem uniqueComplex_perm (l : List ℂ) : (uniqueComplex l).Perm l.dedup := by
  unfold uniqueComplex
  exact List.perm_insertionSort _ _

theorem mem_uniqueComplex (l : List ℂ) (z : ℂ) : z ∈ uniqueComplex l ↔ z ∈ l := by
  classical
  rw [(uniqueComplex_perm l).mem_iff, List.mem_dedup]

theorem nodup_uniqueComplex (l : List ℂ) : (uniqueComplex l).Nodup := by
  classical
  rw [(uniqueComplex_perm l).nodup_iff]
  exact List.nodup_dedup l

theorem uniqueComplex_sum (l : List ℂ) (f : ℂ → ℝ) (c : List ℂ) (hc : c.Nodup) (h : ∀ z, z ∈ l ↔ z ∈ c) :
    ((uniqueComplex l).map f).sum = (c.map f).sum ∧ (uniqueComplex l).length = c.length := by
  have hp : (uniqueComplex l).Perm c := (List.perm_ext_iff_of_nodup (nodup_uniqueComplex l) hc).2 fun z => by rw [mem_uniqueComplex, h]
  exact ⟨(hp.map f).sum_eq, hp.length_eq⟩

/-- All occurring symbols have the power `P`. -/
theorem uniquePower_const (symbs : List (List ℂ)) (P : ℝ) (hne : symbs.flatten ≠ []) (h : ∀ row ∈ symbs, ∀ s ∈ row, ‖s‖ ^ 2 = P) : uniquePower symbs = P := by
  unfold uniquePower
  have h1 : (uniqueComplex symbs.flatten).map (fun z => ‖z‖ ^ 2) = (uniqueComplex symbs.flatten).map fun _ => P := List.map_congr_left fun z hz => by
    rw [mem_uniqueComplex] at hz
    obtain ⟨row, hr, hz⟩ := List.mem_flatten.1 hz
    exact h row hr z hz
  have h2 : ((uniqueComplex symbs.flatten).length : ℝ) ≠ 0 := by
    rw [Nat.cast_ne_zero]
    obtain ⟨z, hz⟩ := List.exists_mem_of_ne_nil _ hne
    have := List.length_pos_of_mem ((mem_uniqueComplex _ z).2 hz)
    omega
  rw [h1, List.map_const', List.sum_replicate, nsmul_eq_mul]
  field_simp

theorem mean_qamCoded (k : Nat) (c : ℝ) : ((qamCodedSymbols k c).map fun s => ‖s‖ ^ 2).sum / 2 ^ k = (scalingFactor k : ℝ) / c ^ 2 := by
  have hperm := codedSymbols_perm (IsPerm.qam k) _ (length_scaled k c)
  have hc : ((qamCodedSymbols k c).map fun s => ‖s‖ ^ 2).sum = _ := (hperm.map fun s => ‖s‖ ^ 2).sum_eq
  rw [hc, List.map_map]
  have e : ∀ l : List (Int × Int), (l.map ((fun s => ‖s‖ ^ 2) ∘ toComplex c)).sum = ((l.map sqNorm).sum : Int) / c ^ 2 := by
    intro l
    induction l with
    | nil => simp
    | cons p l ih =>
      rw [List.map_cons, List.sum_cons, ih, Function.comp_apply, normSq_toComplex, List.map_cons, List.sum_cons]
      push_cast
      ring
  have hm : (scalingFactor k : ℝ) = (((symbolsQam k).map sqNorm).sum : Int) / 2 ^ k := by
    have h := scalingFactor_eq_mean k
    rw [length_symbolsQam] at h
    rw [h]
    push_cast
    congr 1
    generalize symbolsQam k = l
    induction l with
    | nil => simp
    | cons p l ih => simp only [List.map_cons, List.sum_cons, ih, Rat.cast_intCast]
  rw [e, hm]
  ring

/-! ### C145 -/

/-- C145: symbols of a QAM constellation of any size are taken over as they are. -/
def C145_statement : Prop :=
  ∀ (k : Nat) (c : ℝ) (symbs : List (List ℂ)), 1 ≤ k → 0 < c → symbs.flatten ≠ [] → (∀ row ∈ symbs, ∀ s ∈ row, s ∈ qamCodedSymbols k c) →
    ∃ bits, fromSymbols k symbs = .ok (symbs, bits)

theorem fromSymbols_of_power (k : Nat) (c : ℝ) (symbs : List (List ℂ)) (hk : 1 ≤ k) (hc : 0 < c) (hne : symbs.flatten ≠ [])
    (h : ∀ row ∈ symbs, ∀ s ∈ row, s ∈ qamCodedSymbols k c) (hP : uniquePower symbs = (scalingFactor k : ℝ) / c ^ 2) :
    ∃ bits, fromSymbols k symbs = .ok (symbs, bits) := by
  have hF : (0 : ℝ) < (scalingFactor k : ℝ) := by exact_mod_cast scalingFactor_pos hk
  have hs : estimatedScale k symbs = c := by
    unfold estimatedScale
    rw [hP, Real.sqrt_div hF.le, Real.sqrt_sq hc.le]
    have := (Real.sqrt_pos.2 hF).ne'
    field_simp
  unfold fromSymbols
  rw [hs]
  match symbs, hne with
  | [], hne => simp at hne
  | row :: rows, _ =>
    obtain ⟨bits, hb, -⟩ := fromSymbolArray_ok k (qamCodedSymbols k c) row rows h
    exact ⟨bits, hb⟩

/-- C145 if the distinct symbols that occur have the mean power of the whole constellation. Missing: other arrays, where the property fails. -/
theorem C145_power_partial (k : Nat) (c : ℝ) (symbs : List (List ℂ)) (hk : 1 ≤ k) (hc : 0 < c) (hne : symbs.flatten ≠ [])
    (h : ∀ row ∈ symbs, ∀ s ∈ row, s ∈ qamCodedSymbols k c)
    (hP : (∑ z ∈ symbs.flatten.toFinset, ‖z‖ ^ 2) / (symbs.flatten.toFinset.card : ℝ) = ((qamCodedSymbols k c).map fun s => ‖s‖ ^ 2).sum / 2 ^ k) :
    ∃ bits, fromSymbols k symbs = .ok (symbs, bits) := by
  classical
  refine fromSymbols_of_power k c symbs hk hc hne h ?_
  rw [mean_qamCoded k c] at hP
  rw [← hP]
  unfold uniquePower
  obtain ⟨e1, e2⟩ := uniqueComplex_sum symbs.flatten (fun z => ‖z‖ ^ 2) symbs.flatten.dedup (List.nodup_dedup _) fun z => List.mem_dedup.symm
  rw [e1, e2, List.card_toFinset]
  congr 1

/-- C145 if every point of the constellation occurs in some mode. The order is then found by itself. Missing: arrays in which a point does not occur. -/
theorem C145_all_points_partial (k : Nat) (c : ℝ) (symbs : List (List ℂ)) (hk : 1 ≤ k) (hc : 0 < c)
    (h : ∀ row ∈ symbs, ∀ s ∈ row, s ∈ qamCodedSymbols k c) (hall : ∀ s ∈ qamCodedSymbols k c, ∃ row ∈ symbs, s ∈ row) :
    ∃ bits, fromSymbols k symbs = .ok (symbs, bits) ∧ fromSymbolsGuess symbs = some (.ok (symbs, bits)) := by
  have hmem : ∀ z, z ∈ symbs.flatten ↔ z ∈ qamCodedSymbols k c := fun z => by
    rw [List.mem_flatten]
    exact ⟨fun ⟨r, hr, hz⟩ => h r hr z hz, hall z⟩
  obtain ⟨e1, e2⟩ := uniqueComplex_sum symbs.flatten (fun z => ‖z‖ ^ 2) _ (nodup_qamCoded k hc.ne') hmem
  rw [length_qamCoded] at e2
  have hne : symbs.flatten ≠ [] := by
    intro e
    have hl := length_qamCoded k c
    have hp : 0 < 2 ^ k := by positivity
    obtain ⟨z, hz⟩ := List.exists_mem_of_length_pos (l := qamCodedSymbols k c) (by omega)
    rw [← hmem, e] at hz
    simp at hz
  obtain ⟨bits, hb⟩ := fromSymbols_of_power k c symbs hk hc hne h (by
    unfold uniquePower
    rw [e1, e2, ← mean_qamCoded k c]
    push_cast
    rfl)
  refine ⟨bits, hb, ?_⟩
  unfold fromSymbolsGuess
  simp only [e2, Nat.log2_two_pow]
  rw [if_pos trivial, hb]

/-- C145 for binary and quaternary constellations, whatever occurs. Missing: higher orders. -/
theorem C145_qpsk_partial (k : Nat) (c : ℝ) (symbs : List (List ℂ)) (hk : 1 ≤ k) (hk2 : k ≤ 2) (hc : 0 < c) (hne : symbs.flatten ≠ [])
    (h : ∀ row ∈ symbs, ∀ s ∈ row, s ∈ qamCodedSymbols k c) : ∃ bits, fromSymbols k symbs = .ok (symbs, bits) := by
  refine fromSymbols_of_power k c symbs hk hc hne h (uniquePower_const symbs _ hne fun row hr s hs => ?_)
  obtain ⟨p, hp, rfl⟩ := (mem_qamCoded _ _ _).1 (h row hr s hs)
  rw [normSq_toComplex]
  congr 1
  obtain rfl | rfl : k = 1 ∨ k = 2 := by omega
  · have hall : ∀ q ∈ symbolsQam 1, sqNorm q = 1 := by decide
    rw [hall p hp, show scalingFactor 1 = 1 by decide +kernel]
    norm_num
  · have hall : ∀ q ∈ symbolsQam 2, sqNorm q = 2 := by decide
    rw [hall p hp, show scalingFactor 2 = 2 by decide +kernel]
    norm_num

/-- An inner point of 16-QAM is decided to a corner of the constellation that is scaled to the power of the inner points. -/
theorem inner_decision (c : ℝ) (hc : 0 < c) (p : Int × Int) (hp : sqNorm p = 2) :
    (detSymbolArgmin (toComplex c p) (qamCodedSymbols 4 (Real.sqrt 5 * c))).map (·.1) = some (toComplex c p * ((3 / Real.sqrt 5 : ℝ) : ℂ)) := by
  have h5 : 0 < Real.sqrt 5 := Real.sqrt_pos.2 (by norm_num)
  have hs : 0 < Real.sqrt 5 * c := mul_pos h5 hc
  have hcases : (p.1 = 1 ∨ p.1 = -1) ∧ (p.2 = 1 ∨ p.2 = -1) := by
    unfold sqNorm at hp
    have h1 : p.1 ^ 2 ≤ 2 := by nlinarith [sq_nonneg p.2]
    have h2 : p.2 ^ 2 ≤ 2 := by nlinarith [sq_nonneg p.1]
    have b1 : -1 ≤ p.1 ∧ p.1 ≤ 1 := ⟨by nlinarith, by nlinarith⟩
    have b2 : -1 ≤ p.2 ∧ p.2 ≤ 1 := ⟨by nlinarith, by nlinarith⟩
    obtain ⟨a, b⟩ := p
    simp only at *
    have ha : a = -1 ∨ a = 0 ∨ a = 1 := by omega
    have hb : b = -1 ∨ b = 0 ∨ b = 1 := by omega
    rcases ha with rfl | rfl | rfl <;> rcases hb with rfl | rfl | rfl <;> simp_all
  have hq : (3 * p.1, 3 * p.2) ∈ symbolsQam 4 := by
    obtain ⟨a, b⟩ := p
    simp only at hcases
    obtain ⟨rfl | rfl, rfl | rfl⟩ := hcases <;> decide
  have hval : toComplex c p * ((3 / Real.sqrt 5 : ℝ) : ℂ) = toComplex (Real.sqrt 5 * c) (3 * p.1, 3 * p.2) := by
    have e1 : (Real.sqrt 5 : ℂ) ≠ 0 := by exact_mod_cast h5.ne'
    have e2 : (c : ℂ) ≠ 0 := by exact_mod_cast hc.ne'
    unfold toComplex
    have e3 : (⟨((3 * p.1 : Int) : ℝ), ((3 * p.2 : Int) : ℝ)⟩ : ℂ) = 3 * ⟨(p.1 : ℝ), (p.2 : ℝ)⟩ := by
      apply Complex.ext <;> simp
    rw [e3]
    push_cast
    field_simp
  obtain ⟨j, hj⟩ := List.getElem?_of_mem ((mem_qamCoded 4 (Real.sqrt 5 * c) _).2 ⟨_, hq, rfl⟩)
  rw [detSymbolArgmin_of_closest hj, hval]
  · rfl
  · intro i s' hs' hij
    obtain ⟨q, hq', rfl⟩ := (mem_qamCoded _ _ _).1 (List.mem_of_getElem? hs')
    have hne : q ≠ (3 * p.1, 3 * p.2) := by
      rintro rfl
      obtain ⟨h1, h2⟩ := List.getElem?_eq_some_iff.1 hj
      obtain ⟨h3, h4⟩ := List.getElem?_eq_some_iff.1 hs'
      exact hij ((List.Nodup.getElem_inj_iff (nodup_qamCoded 4 hs.ne')).1 (h4.trans h2.symm))
    have hsq : ∀ q : Int × Int, ‖toComplex c p - toComplex (Real.sqrt 5 * c) q‖ ^ 2 = ((p.1 - q.1 / Real.sqrt 5) ^ 2 + (p.2 - q.2 / Real.sqrt 5) ^ 2) / c ^ 2 := by
      intro q
      have : toComplex c p - toComplex (Real.sqrt 5 * c) q = (⟨(p.1 - q.1 / Real.sqrt 5) / c, (p.2 - q.2 / Real.sqrt 5) / c⟩ : ℂ) := by
        unfold toComplex
        apply Complex.ext
        · rw [Complex.sub_re, Complex.div_ofReal_re, Complex.div_ofReal_re]
          field_simp
        · rw [Complex.sub_im, Complex.div_ofReal_im, Complex.div_ofReal_im]
          field_simp
      rw [this, ← Complex.normSq_eq_norm_sq, Complex.normSq_mk]
      field_simp
    apply lt_of_pow_lt_pow_left₀ 2 (norm_nonneg _)
    rw [hsq, hsq]
    apply div_lt_div_of_pos_right _ (by positivity)
    have key : ∀ e a : Int, (e = 1 ∨ e = -1) → (a = 3 ∨ a = 1 ∨ a = -1 ∨ a = -3) →
        ((e : ℝ) - ((3 * e : Int) : ℝ) / Real.sqrt 5) ^ 2 ≤ ((e : ℝ) - (a : ℝ) / Real.sqrt 5) ^ 2 ∧
        (a ≠ 3 * e → ((e : ℝ) - ((3 * e : Int) : ℝ) / Real.sqrt 5) ^ 2 < ((e : ℝ) - (a : ℝ) / Real.sqrt 5) ^ 2) := by
      intro e a he ha
      have h55 : Real.sqrt 5 * Real.sqrt 5 = 5 := Real.mul_self_sqrt (by norm_num)
      have hr : (1 / Real.sqrt 5) * (1 / Real.sqrt 5) = 1 / 5 := by rw [div_mul_div_comm, h55, one_mul]
      have hpos : 0 < 1 / Real.sqrt 5 := by positivity
      obtain ⟨r, hrd⟩ : ∃ r, r = 1 / Real.sqrt 5 := ⟨_, rfl⟩
      have hd : ∀ x : ℝ, x / Real.sqrt 5 = x * r := fun x => by rw [hrd]; ring
      rw [hd, hd]
      rw [← hrd] at hr hpos
      have hlow : 2 / 5 < r := by nlinarith
      rcases he with rfl | rfl <;> rcases ha with rfl | rfl | rfl | rfl <;> refine ⟨?_, fun h => ?_⟩ <;>
        first | exact absurd (by decide) h | (push_cast; nlinarith)
    have hodd : ∀ q ∈ symbolsQam 4, (q.1 = 3 ∨ q.1 = 1 ∨ q.1 = -1 ∨ q.1 = -3) ∧ (q.2 = 3 ∨ q.2 = 1 ∨ q.2 = -1 ∨ q.2 = -3) := by decide
    obtain ⟨o1, o2⟩ := hodd q hq'
    obtain ⟨l1, s1⟩ := key p.1 q.1 hcases.1 o1
    obtain ⟨l2, s2⟩ := key p.2 q.2 hcases.2 o2
    by_cases hn : q.1 = 3 * p.1
    · have hn2 : q.2 ≠ 3 * p.2 := fun h2 => hne (Prod.ext hn h2)
      have := s2 hn2
      linarith
    · have := s1 hn
      linarith

/-- C145: 16-QAM symbols of which only the four inner points occur are replaced by the corner points, and blown up by `3/√5`. -/
theorem C145_inner (c : ℝ) (hc : 0 < c) (symbs : List (List ℂ)) (hne : symbs.flatten ≠ []) (h : ∀ row ∈ symbs, ∀ s ∈ row, ∃ p, sqNorm p = 2 ∧ s = toComplex c p) :
    ∃ bits, fromSymbols 4 symbs = .ok (symbs.map fun row => row.map (· * ((3 / Real.sqrt 5 : ℝ) : ℂ)), bits) := by
  have hP := uniquePower_const symbs (2 / c ^ 2) hne fun row hr s hs => by
    obtain ⟨p, hp, rfl⟩ := h row hr s hs
    rw [normSq_toComplex, hp]
    norm_num
  have hsc : estimatedScale 4 symbs = Real.sqrt 5 * c := by
    unfold estimatedScale
    rw [hP, show scalingFactor 4 = 10 by decide +kernel, Real.sqrt_div (by norm_num), Real.sqrt_sq hc.le, show (((10 : ℚ)) : ℝ) = 5 * 2 by norm_num, Real.sqrt_mul (by norm_num)]
    have : Real.sqrt 2 ≠ 0 := (Real.sqrt_pos.2 (by norm_num)).ne'
    field_simp
  unfold fromSymbols fromSymbolArray
  rw [hsc]
  have hrow : ∀ row ∈ symbs, ∃ d, makeDecision row (qamCodedSymbols 4 (Real.sqrt 5 * c)) = some d ∧ d.map (·.1) = row.map (· * ((3 / Real.sqrt 5 : ℝ) : ℂ)) := by
    intro row hr
    have hx : ∀ s ∈ row, ∃ r, detSymbolArgmin s (qamCodedSymbols 4 (Real.sqrt 5 * c)) = some r ∧ r.1 = s * ((3 / Real.sqrt 5 : ℝ) : ℂ) := fun s hs => by
      obtain ⟨p, hp, rfl⟩ := h row hr s hs
      have := inner_decision c hc p hp
      obtain ⟨r, h1, h2⟩ := Option.map_eq_some_iff.1 this
      exact ⟨r, h1, h2⟩
    clear h hP hsc hne
    clear hr
    induction row with
    | nil => exact ⟨[], rfl, rfl⟩
    | cons s row ih =>
      obtain ⟨r, h1, h2⟩ := hx s (by simp)
      obtain ⟨d, h3, h4⟩ := ih fun s hs => hx s (by simp [hs])
      refine ⟨r :: d, ?_, by simp [h2, h4]⟩
      unfold makeDecision at h3 ⊢
      rw [mapM_eq_some_iff] at h3 ⊢
      simp [h1, h3]
  have hrows : ∃ ds, symbs.mapM (fun row => makeDecision row (qamCodedSymbols 4 (Real.sqrt 5 * c))) = some ds ∧ (ds.map fun d => d.map (·.1)) = symbs.map fun row => row.map (· * ((3 / Real.sqrt 5 : ℝ) : ℂ)) := by
    clear h hP hsc hne
    induction symbs with
    | nil => exact ⟨[], rfl, rfl⟩
    | cons row rows ih =>
      obtain ⟨d, h1, h2⟩ := hrow row (by simp)
      obtain ⟨ds, h3, h4⟩ := ih fun r hr => hrow r (by simp [hr])
      refine ⟨d :: ds, ?_, by rw [List.map_cons, h2, h4, List.map_cons]⟩
      rw [mapM_eq_some_iff] at h3 ⊢
      rw [List.map_cons, h1, h3, List.map_cons]
  obtain ⟨ds, h1, h2⟩ := hrows
  have hdne : ds ≠ [] := by
    rintro rfl
    have : symbs = [] := by
      have := congrArg List.length h2
      simpa [eq_comm] using this
    rw [this] at hne
    simp at hne
  rw [h1]
  simp only [List.getLast?_eq_some_getLast hdne, h2]
  exact ⟨_, rfl⟩

/-- C145 is violated. -/
theorem C145_false : ¬ C145_statement := by
  intro h
  have hm : toComplex 1 (1, 1) ∈ qamCodedSymbols 4 1 := (mem_qamCoded _ _ _).2 ⟨(1, 1), by decide, rfl⟩
  obtain ⟨b, hb⟩ := h 4 1 [[toComplex 1 (1, 1)]] (by norm_num) one_pos (by simp) (by simpa using hm)
  obtain ⟨b', hb'⟩ := C145_inner 1 one_pos [[toComplex 1 (1, 1)]] (by simp) (by
    intro row hr s hs
    simp only [List.mem_singleton] at hr
    subst hr
    simp only [List.mem_singleton] at hs
    exact ⟨(1, 1), rfl, hs⟩)
  rw [hb] at hb'
  simp only [Except.ok.injEq, Prod.mk.injEq, List.map_cons, List.map_nil, List.cons.injEq, and_true] at hb'
  have h1 := congrArg Complex.re hb'.1
  unfold toComplex at h1
  rw [Complex.re_mul_ofReal] at h1
  simp at h1
  have h5 : Real.sqrt 5 = 3 := by
    have : Real.sqrt 5 ≠ 0 := (Real.sqrt_pos.2 (by norm_num)).ne'
    field_simp at h1
    linarith
  have := Real.mul_self_sqrt (show (0 : ℝ) ≤ 5 by norm_num)
  rw [h5] at this
  norm_num at this

example : ∃ bits, fromSymbols 2 [[toComplex 7 (1, 1), toComplex 7 (-1, 1)], [toComplex 7 (1, 1), toComplex 7 (1, 1)]] =
    .ok ([[toComplex 7 (1, 1), toComplex 7 (-1, 1)], [toComplex 7 (1, 1), toComplex 7 (1, 1)]], bits) := by
  refine C145_qpsk_partial 2 7 _ (by norm_num) le_rfl (by norm_num) (by simp) ?_
  have m1 : toComplex 7 (1, 1) ∈ qamCodedSymbols 2 7 := (mem_qamCoded _ _ _).2 ⟨(1, 1), by decide, rfl⟩
  have m2 : toComplex 7 (-1, 1) ∈ qamCodedSymbols 2 7 := (mem_qamCoded _ _ _).2 ⟨(-1, 1), by decide, rfl⟩
  simp [m1, m2]

example : ∃ bits, fromSymbols 5 [qamCodedSymbols 5 3, (qamCodedSymbols 5 3).reverse] = .ok ([qamCodedSymbols 5 3, (qamCodedSymbols 5 3).reverse], bits) := by
  obtain ⟨bits, hb, -⟩ := C145_all_points_partial 5 3 [qamCodedSymbols 5 3, (qamCodedSymbols 5 3).reverse] (by norm_num) (by norm_num) (by simp) (by simp)
  exact ⟨bits, hb⟩

/-! ### C146 -/

/-- The two element types for which decisions exist. -/
def NumType.IsComplex (t : NumType) : Prop := t = .complex64 ∨ t = .complex128

theorem decideTyped_same {t : NumType} (ht : t.IsComplex) (alphabet row : List ℂ) :
    decideTyped t t alphabet row = (makeDecision row alphabet).elim (.error .index) fun d => .ok (d.map (·.1)) := by
  unfold decideTyped
  rw [if_pos]
  rcases ht with rfl | rfl <;> simp

theorem decideTyped_other {ts ta : NumType} (h : ts ≠ ta) (alphabet row : List ℂ) : decideTyped ts ta alphabet row = .error .typ := by
  unfold decideTyped
  rw [if_neg]
  rintro (⟨rfl, rfl⟩ | ⟨rfl, rfl⟩) <;> exact h rfl

/-- Decisions by any rule `dec` that finds the only nearest symbol. -/
theorem decideTyped_nearest {t : NumType} (ht : t.IsComplex) (alphabet row : List ℂ) (dec : ℂ → ℂ)
    (h : ∀ x ∈ row, dec x ∈ alphabet ∧ ∀ s ∈ alphabet, s ≠ dec x → ‖x - dec x‖ < ‖x - s‖) : decideTyped t t alphabet row = .ok (row.map dec) := by
  rw [decideTyped_same ht]
  have : ∃ d, makeDecision row alphabet = some d ∧ d.map (·.1) = row.map dec := by
    induction row with
    | nil => exact ⟨[], rfl, rfl⟩
    | cons x row ih =>
      obtain ⟨d, h1, h2⟩ := ih fun x hx => h x (by simp [hx])
      obtain ⟨hm, hlt⟩ := h x (by simp)
      obtain ⟨r, hr⟩ := detSymbolArgmin_isSome x (List.ne_nil_of_mem hm)
      obtain ⟨h5, -, h6, -⟩ := detSymbolArgmin_spec hr
      have e : r.1 = dec x := by
        by_contra hne
        have a1 := hlt r.1 (List.mem_of_getElem? h5) hne
        have a2 := h6 _ hm
        linarith
      refine ⟨r :: d, ?_, by simp [h2, e]⟩
      unfold makeDecision at h1 ⊢
      rw [mapM_eq_some_iff] at h1 ⊢
      simp [hr, h1]
  obtain ⟨d, h1, h2⟩ := this
  rw [h1]
  exact congrArg Except.ok h2

/-- What a user expects of a `SymbolOnlySignal` of any alphabet and `dtype`: it has that type and no symbol errors. -/
def C146_statement : Prop :=
  ∀ (M : Nat) (ta : NumType) (alphabet : List ℂ) (dtype : Option NumType) (L N : Nat) (draw : Nat → Nat → Nat) (o : SymbolOnly),
    ta.IsComplex → (∀ t ∈ dtype, t.IsComplex) → 0 < N → (∀ i < L, ∀ n < N, draw i n < alphabet.length) →
    symbolOnlyNew M ta alphabet dtype ((List.range L).map fun i => (List.range N).map (draw i)) = .ok o →
    o.sigType = dtype.getD ta ∧ o.calSer o.sigType true o.data = .ok (List.replicate L 0)

/-- C146: the symbol error rate of each mode is the fraction of samples whose nearest symbol is not the one sent. -/
theorem C146_ser (o : SymbolOnly) (ht : o.codedType.IsComplex) (s x : Nat → Nat → ℂ) (L N : Nat) (_hN : 0 < N)
    (hs : o.symbols = (List.range L).map fun i => (List.range N).map (s i)) (dec : ℂ → ℂ)
    (hdec : ∀ i < L, ∀ n < N, dec (x i n) ∈ o.coded ∧ ∀ a ∈ o.coded, a ≠ dec (x i n) → ‖x i n - dec (x i n)‖ < ‖x i n - a‖) :
    o.calSer o.codedType true ((List.range L).map fun i => (List.range N).map (x i)) =
      .ok ((List.range L).map fun i => (({n ∈ Finset.range N | dec (x i n) ≠ s i n}.card : ℚ) / N)) := by
  unfold SymbolOnly.calSer alignRows
  rw [hs, if_pos rfl, adjustOnly_same]
  have hd : o.decide o.codedType ((List.range L).map fun i => (List.range N).map (x i)) = .ok ((List.range L).map fun i => (List.range N).map fun n => dec (x i n)) := by
    unfold SymbolOnly.decide
    rw [List.mapM_map, mapM_ok (g := fun i => (List.range N).map fun n => dec (x i n))]
    intro i hi
    rw [List.mem_range] at hi
    rw [Function.comp_apply, decideTyped_nearest ht _ _ dec, List.map_map]
    · rfl
    · intro z hz
      obtain ⟨n, hn, rfl⟩ := List.mem_map.1 hz
      exact hdec i hi n (List.mem_range.1 hn)
  show (o.decide o.codedType _).map _ = _
  rw [hd]
  show Except.ok _ = Except.ok _
  congr 1
  dsimp only
  rw [List.zip_map', List.map_map]
  apply List.map_congr_left
  intro i hi
  rw [List.mem_range] at hi
  simp only [Function.comp_apply]
  rw [List.zip_map', List.filter_map, List.length_map]
  congr 1
  · norm_cast
    rw [← List.toFinset_card_of_nodup (List.Nodup.filter _ List.nodup_range)]
    congr 1
    ext n
    simp [sub_eq_zero]
  · cases L with
    | zero => omega
    | succ L => simp [List.range_succ_eq_map]

theorem gather_draws (alphabet : List ℂ) (L N : Nat) (draw : Nat → Nat → Nat) (h : ∀ i < L, ∀ n < N, draw i n < alphabet.length) :
    (((List.range L).map fun i => (List.range N).map (draw i)).map (gather alphabet)) = (List.range L).map fun i => (List.range N).map fun n => alphabet.getD (draw i n) 0 := by
  rw [List.map_map]
  apply List.map_congr_left
  intro i hi
  rw [List.mem_range] at hi
  unfold gather
  rw [Function.comp_apply, List.filterMap_map, ← List.filterMap_eq_map]
  apply List.filterMap_congr
  intro n hn
  rw [List.mem_range] at hn
  simp only [Function.comp_apply]
  rw [List.getElem?_eq_getElem (h i hi n hn), List.getD_eq_getElem?_getD, List.getElem?_eq_getElem (h i hi n hn)]
  rfl

/-- C146 if `dtype` is left out or is the type of the alphabet. All samples are symbols of the alphabet; decisions leave them alone. Missing: another `dtype`. -/
theorem C146_new_partial (M : Nat) (ta : NumType) (alphabet : List ℂ) (dtype : Option NumType) (L N : Nat) (draw : Nat → Nat → Nat)
    (ht : ta.IsComplex) (hd : dtype = none ∨ dtype = some ta) (hN : 0 < N) (ha : alphabet ≠ []) (hr : ∀ i < L, ∀ n < N, draw i n < alphabet.length) :
    ∃ o, symbolOnlyNew M ta alphabet dtype ((List.range L).map fun i => (List.range N).map (draw i)) = .ok o ∧ o.sigType = dtype.getD ta ∧ o.codedType = dtype.getD ta ∧
      o.data = ((List.range L).map fun i => (List.range N).map fun n => alphabet.getD (draw i n) 0) ∧ (∀ row ∈ o.data, ∀ s ∈ row, s ∈ alphabet) ∧
      o.decide o.sigType o.data = .ok o.data ∧ o.calSer o.sigType true o.data = .ok (List.replicate L 0) := by
  have hg : dtype.getD ta = ta := by rcases hd with rfl | rfl <;> rfl
  have hmem : ∀ i < L, ∀ n < N, alphabet.getD (draw i n) 0 ∈ alphabet := fun i hi n hn => by
    rw [List.getD_eq_getElem?_getD, List.getElem?_eq_getElem (hr i hi n hn)]
    exact List.getElem_mem _
  have hall : ∀ row ∈ ((List.range L).map fun i => (List.range N).map fun n => alphabet.getD (draw i n) 0), ∀ s ∈ row, s ∈ alphabet := by
    intro row hrow s hs
    obtain ⟨i, hi, rfl⟩ := List.mem_map.1 hrow
    obtain ⟨n, hn, rfl⟩ := List.mem_map.1 hs
    exact hmem i (List.mem_range.1 hi) n (List.mem_range.1 hn)
  have hself : ∀ z ∈ alphabet, id z ∈ alphabet ∧ ∀ a ∈ alphabet, a ≠ id z → ‖z - id z‖ < ‖z - a‖ := fun z hz => ⟨hz, fun a _ hne => by
    rw [id, sub_self, norm_zero]
    exact norm_pos_iff.2 (sub_ne_zero.2 (Ne.symm hne))⟩
  obtain ⟨rows, hrows⟩ : ∃ rows, rows = (List.range L).map fun i => (List.range N).map fun n => alphabet.getD (draw i n) 0 := ⟨_, rfl⟩
  have hnew : symbolOnlyNew M ta alphabet dtype ((List.range L).map fun i => (List.range N).map (draw i)) = .ok ⟨ta, ta, rows, alphabet, M, rows⟩ := by
    unfold symbolOnlyNew
    rw [if_neg ha, hg, gather_draws alphabet L N draw hr, hrows]
  rw [← hrows] at hall
  refine ⟨⟨ta, ta, rows, alphabet, M, rows⟩, hnew, hg.symm, hg.symm, hrows, hall, ?_, ?_⟩
  · show List.mapM (decideTyped ta ta alphabet) rows = Except.ok rows
    rw [show Except.ok rows = (Except.ok (rows.map id) : Except PyErr _) by rw [List.map_id]]
    refine mapM_ok fun row hrow => ?_
    rw [decideTyped_nearest ht alphabet row id fun z hz => hself z (hall row hrow z hz), List.map_id, id]
  · have := C146_ser ⟨ta, ta, rows, alphabet, M, rows⟩ ht (fun i n => alphabet.getD (draw i n) 0) (fun i n => alphabet.getD (draw i n) 0) L N hN hrows id fun i hi n hn => hself _ (hmem i hi n hn)
    rw [← hrows] at this
    rw [this]
    simp

/-- C146: with a `dtype` other than that of the alphabet the samples keep the type of the alphabet and every decision is a TypeError. -/
theorem C146_dtype (M : Nat) (ta t : NumType) (alphabet : List ℂ) (draws : List (List Nat)) (hne : t ≠ ta) (o : SymbolOnly)
    (h : symbolOnlyNew M ta alphabet (some t) draws = .ok o) (hd : draws ≠ []) : o.sigType = ta ∧ o.decide o.sigType o.data = .error .typ := by
  unfold symbolOnlyNew at h
  split at h
  · cases h
  · simp only [Except.ok.injEq] at h
    subst h
    refine ⟨rfl, ?_⟩
    obtain ⟨r, rs, rfl⟩ := List.exists_cons_of_ne_nil hd
    show List.mapM (decideTyped ta t alphabet) _ = _
    rw [List.map_cons, List.mapM_cons, decideTyped_other (Ne.symm hne)]
    rfl

/-- C146 is violated: `dtype` is not used for the samples. -/
theorem C146_false : ¬ C146_statement := by
  intro h
  have h1 := h 2 .complex128 [1, -1] (some .complex64) 1 1 (fun _ _ => 0) _ (.inr rfl) (by rintro t ⟨⟩; exact .inl rfl) one_pos (by simp) rfl
  have h2 := h1.1
  cases h2

/-- C146: without an alphabet the symbols are taken over unchanged, the alphabet consists of the symbols that occur, each once, and the order is their number. -/
theorem C146_from_symbols (ts : NumType) (ht : ts.IsComplex) (symbs : List (List ℂ)) :
    ∃ o, symbolOnlyFrom ts symbs none = .ok o ∧ o.data = symbs ∧ o.symbols = symbs ∧ o.sigType = ts ∧ o.codedType = ts ∧
      (∀ z, z ∈ o.coded ↔ ∃ row ∈ symbs, z ∈ row) ∧ o.coded.Nodup ∧ o.order = symbs.flatten.toFinset.card := by
  classical
  have hm : symbs.mapM (decideTyped ts ts (uniqueComplex symbs.flatten)) = .ok symbs := by
    rw [show Except.ok symbs = (Except.ok (symbs.map id) : Except PyErr _) by rw [List.map_id]]
    refine mapM_ok fun row hrow => ?_
    rw [decideTyped_nearest ht _ row id, List.map_id, id]
    intro z hz
    refine ⟨(mem_uniqueComplex _ z).2 (List.mem_flatten.2 ⟨row, hrow, hz⟩), fun a _ hne => ?_⟩
    rw [id, sub_self, norm_zero]
    exact norm_pos_iff.2 (sub_ne_zero.2 (Ne.symm hne))
  refine ⟨⟨ts, ts, symbs, uniqueComplex symbs.flatten, (uniqueComplex symbs.flatten).length, symbs⟩, ?_, rfl, rfl, rfl, rfl, ?_, nodup_uniqueComplex _, ?_⟩
  · unfold symbolOnlyFrom alphabetOf
    simp only [hm]
    rfl
  · intro z
    show z ∈ uniqueComplex symbs.flatten ↔ _
    rw [mem_uniqueComplex, List.mem_flatten]
  · show (uniqueComplex symbs.flatten).length = _
    rw [(uniqueComplex_perm _).length_eq, List.card_toFinset]

/-- C146: with an alphabet each symbol is replaced by the nearest one, whatever rule `dec` finds it. -/
theorem C146_from_alphabet (ts : NumType) (ht : ts.IsComplex) (symbs : List (List ℂ)) (alphabet : List ℂ) (dec : ℂ → ℂ)
    (h : ∀ row ∈ symbs, ∀ x ∈ row, dec x ∈ alphabet ∧ ∀ s ∈ alphabet, s ≠ dec x → ‖x - dec x‖ < ‖x - s‖) :
    ∃ o, symbolOnlyFrom ts symbs (some (ts, alphabet)) = .ok o ∧ o.data = symbs.map (fun row => row.map dec) ∧ o.symbols = o.data ∧ o.coded = alphabet ∧ o.order = alphabet.length := by
  have hm : symbs.mapM (decideTyped ts ts alphabet) = .ok (symbs.map fun row => row.map dec) :=
    mapM_ok fun row hrow => decideTyped_nearest ht _ row dec (h row hrow)
  refine ⟨⟨ts, ts, symbs.map (fun row => row.map dec), alphabet, alphabet.length, symbs.map fun row => row.map dec⟩, ?_, rfl, rfl, rfl, rfl⟩
  unfold symbolOnlyFrom alphabetOf
  simp only [hm]
  rfl

/-- C146: the mutual information needs the SNR as argument, otherwise it is a TypeError; the noise power is then that of the given SNR in every mode. -/
theorem C146_mi (o : SymbolOnly) (synced : Bool) (rx t r : List (List ℂ)) (h : alignRows synced o.symbols rx = .ok (t, r)) (snr : ℝ) :
    o.miNoise synced rx none = .error .typ ∧
    ∃ l, o.miNoise synced rx (some snr) = .ok l ∧ l.length = rx.length ∧ ∀ n0 ∈ l, 0 < n0 ∧ 10 * Real.logb 10 (1 / n0) = snr := by
  unfold SymbolOnly.miNoise
  rw [h]
  refine ⟨rfl, _, rfl, by simp, fun n0 hn => ?_⟩
  obtain ⟨-, rfl⟩ := List.mem_replicate.1 hn
  have hp : (0 : ℝ) < 10 ^ (-snr / 10) := Real.rpow_pos_of_pos (by norm_num) _
  refine ⟨hp, ?_⟩
  rw [one_div, Real.logb_inv, Real.logb_rpow (by norm_num) (by norm_num)]
  ring

example : ∃ o, symbolOnlyNew 2 .complex64 [1, 2 * Complex.I] none [[0, 1, 1], [1, 0, 0]] = .ok o ∧ o.data = [[1, 2 * Complex.I, 2 * Complex.I], [2 * Complex.I, 1, 1]] ∧
    o.calSer .complex64 true o.data = .ok [0, 0] := by
  obtain ⟨o, h1, h2, -, h3, -, -, h4⟩ := C146_new_partial 2 .complex64 [1, 2 * Complex.I] none 2 3 (fun i n => if i = 0 then (if n = 0 then 0 else 1) else if n = 0 then 1 else 0)
    (.inl rfl) (.inl rfl) (by norm_num) (by simp) (by intro i _ n _; split <;> split <;> simp)
  refine ⟨o, h1, ?_, ?_⟩
  · rw [h3]; rfl
  · rw [h2] at h4
    exact h4

example : (symbolOnlyNew 2 .complex128 [1, -1] (some .complex64) [[0, 1]]).bind (fun o => o.decide o.sigType o.data) = .error .typ := by
  have h : symbolOnlyNew 2 .complex128 [1, -1] (some .complex64) [[0, 1]] = .ok ⟨.complex128, .complex64, [[1, -1]], [1, -1], 2, [[1, -1]]⟩ := if_neg (by simp)
  rw [h]
  exact (C146_dtype 2 .complex128 .complex64 [1, -1] [[0, 1]] (by decide) _ h (by simp)).2

example : ∃ o, symbolOnlyFrom .complex128 [[1, 5, 1], [Complex.I, 5, 5]] none = .ok o ∧ o.data = [[1, 5, 1], [Complex.I, 5, 5]] := by
  obtain ⟨o, h1, h2, -⟩ := C146_from_symbols .complex128 (.inr rfl) [[1, 5, 1], [Complex.I, 5, 5]]
  exact ⟨o, h1, h2⟩

end Qampy
