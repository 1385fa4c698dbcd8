import Verif.Model.Driver
import Verif.Props.Training

/-!
Properties of the equaliser drivers: C109 (symbols per mode), C110 (reference constants), C111 (undistorted signals), C112 and C114 (dual mode), C113 (several frames).
-/

namespace Qampy

open Complex

/-! ### C109: symbols per mode -/

/-- C109: for a decision based method a single row of symbols is used for every mode, one row per mode is used mode by mode. -/
theorem C109_complex {α : Type} (gen : Except PyErr (List (List α))) (rows : List (List α)) (method : String) (n : Nat) (hm : method ∉ nonDecision)
    (h : rows.length = 1 ∨ rows.length = n) :
    ∃ r, reshapeSymbols gen (some rows) method n = .ok r ∧ r.length = n ∧ ∀ m < n, r[m]? = if rows.length = 1 then rows[0]? else rows[m]? := by
  unfold reshapeSymbols selectSymbols
  dsimp only
  rw [if_neg hm]
  rcases rows with _ | ⟨a, _ | ⟨b, t⟩⟩
  · refine ⟨[], ?_, ?_, ?_⟩
    · have : n = 0 := by rcases h with h | h <;> simp at h; exact h.symm
      subst this; rfl
    · rcases h with h | h <;> simp at h; exact h
    · intro m _; simp
  · refine ⟨List.replicate n a, rfl, by simp, ?_⟩
    intro m hmn
    rw [List.getElem?_replicate, if_pos hmn]
    simp
  · have hl : (a :: b :: t).length = n := by
      rcases h with h | h
      · simp at h
      · exact h
    refine ⟨a :: b :: t, ?_, hl, ?_⟩
    · show (if (a :: b :: t).length ≠ n then Except.error PyErr.value else Except.ok (a :: b :: t)) = _
      rw [if_neg (by simpa using hl)]
    · intro m _
      rw [if_neg (by simp)]

/-- C109: any other number of rows raises ValueError. -/
theorem C109_complex_mismatch {α : Type} (gen : Except PyErr (List (List α))) (rows : List (List α)) (method : String) (n : Nat) (hm : method ∉ nonDecision)
    (h1 : rows.length ≠ 1) (h2 : rows.length ≠ n) : reshapeSymbols gen (some rows) method n = .error .value := by
  unfold reshapeSymbols selectSymbols
  dsimp only
  rw [if_neg hm]
  rcases rows with _ | ⟨a, _ | ⟨b, t⟩⟩
  · show (if ([] : List (List α)).length ≠ n then Except.error PyErr.value else Except.ok []) = _
    rw [if_pos h2]
  · simp at h1
  · show (if (a :: b :: t).length ≠ n then Except.error PyErr.value else Except.ok (a :: b :: t)) = _
    rw [if_pos h2]

/-- C109: methods without decisions ignore given symbols. -/
theorem C109_ignored {α : Type} (gen : Except PyErr (List (List α))) (rows : List (List α)) (method : String) (n : Nat) (hm : method ∈ nonDecision) :
    reshapeSymbols gen (some rows) method n = reshapeSymbols gen none method n := by
  unfold reshapeSymbols selectSymbols
  dsimp only
  rw [if_pos hm]

/-- C109: for the real valued methods row `m` holds the real and row `n + m` the imaginary parts of the symbols of mode `m` (of all modes if only one row is given). -/
theorem C109_real (gen : Except PyErr (List (List ℝ))) (rows : List (List ℂ)) (method : String) (n : Nat) (hm : method ∉ nonDecision) (h : rows.length = 1 ∨ rows.length = n) :
    ∃ r, reshapeSymbolsReal gen (some (.cplx rows)) method (2 * n) = .ok r ∧ r.length = 2 * n ∧
      ∀ m < n, ∀ row, (if rows.length = 1 then rows[0]? else rows[m]?) = some row → r[m]? = some (row.map re) ∧ r[n + m]? = some (row.map im) := by
  unfold reshapeSymbolsReal selectSymbols
  dsimp only
  rw [if_neg hm]
  have hn : 2 * n / 2 = n := by omega
  rcases rows with _ | ⟨a, _ | ⟨b, t⟩⟩
  · have : n = 0 := by rcases h with h | h <;> simp at h; exact h.symm
    subst this
    exact ⟨[], rfl, rfl, fun m hm => absurd hm (by omega)⟩
  · refine ⟨List.replicate n (a.map re) ++ List.replicate n (a.map im), ?_, by simp; omega, ?_⟩
    · show Except.ok (List.replicate (2 * n / 2) (a.map re) ++ List.replicate (2 * n / 2) (a.map im)) = _
      rw [hn]
    · intro m hmn row hrow
      simp only [List.length_singleton, if_true, List.getElem?_cons_zero, Option.some.injEq] at hrow
      subst hrow
      constructor
      · rw [List.getElem?_append_left (by simpa using hmn), List.getElem?_replicate, if_pos hmn]
      · rw [List.getElem?_append_right (by simp), List.length_replicate, Nat.add_sub_cancel_left, List.getElem?_replicate, if_pos hmn]
  · have hl : (a :: b :: t).length = n := by
      rcases h with h | h
      · simp at h
      · exact h
    obtain ⟨R, hR⟩ : ∃ R, R = a :: b :: t := ⟨_, rfl⟩
    refine ⟨R.map (·.map re) ++ R.map (·.map im), ?_, by simp [hR] at hl ⊢; omega, ?_⟩
    · show (if (a :: b :: t).length = 2 * n / 2 then Except.ok ((a :: b :: t).map (·.map re) ++ (a :: b :: t).map (·.map im)) else Except.error PyErr.value) = _
      rw [if_pos (by rw [hn]; exact hl), hR]
    · intro m hmn row hrow
      rw [if_neg (by simp), ← hR] at hrow
      rw [← hR] at hl
      constructor
      · rw [List.getElem?_append_left (by rw [List.length_map, hl]; exact hmn), List.getElem?_map, hrow]; rfl
      · rw [List.getElem?_append_right (by rw [List.length_map, hl]; omega), List.length_map, hl, Nat.add_sub_cancel_left, List.getElem?_map, hrow]; rfl

/-- C109: without symbols "dd_real" uses the components of the constellation for every mode. -/
theorem C109_real_generated (syms : List ℂ) (n : Nat) (hn : 1 ≤ n) :
    ∃ r, reshapeSymbolsReal (generateSymbolsReal "dd_real" syms) none "dd_real" (2 * n) = .ok r ∧ r.length = 2 * n ∧ ∀ m < n, r[m]? = some (syms.map re) ∧ r[n + m]? = some (syms.map im) := by
  have hn2 : 2 * n / 2 = n := by omega
  have hg : generateSymbolsReal "dd_real" syms = .ok [syms.map re, syms.map im] := by simp [generateSymbolsReal]
  rw [hg]
  rcases Nat.lt_or_ge 2 (2 * n) with h | h
  · refine ⟨List.replicate n (syms.map re) ++ List.replicate n (syms.map im), ?_, by simp; omega, fun m hm => ⟨?_, ?_⟩⟩
    · show (if 2 < 2 * n then Except.ok (List.replicate (2 * n / 2) (syms.map re) ++ List.replicate (2 * n / 2) (syms.map im)) else _) = _
      rw [if_pos h, hn2]
    · rw [List.getElem?_append_left (by simpa using hm), List.getElem?_replicate, if_pos hm]
    · rw [List.getElem?_append_right (by simp), List.length_replicate, Nat.add_sub_cancel_left, List.getElem?_replicate, if_pos hm]
  · have h1 : n = 1 := by omega
    subst h1
    refine ⟨[syms.map re, syms.map im], rfl, rfl, fun m hm => ?_⟩
    have : m = 0 := by omega
    subst this
    exact ⟨rfl, rfl⟩

example : reshapeSymbols (.error .value) (some [[1, 2]]) "sbd" 3 = .ok [[1, 2], [1, 2], [1, 2]] := by
  simp [reshapeSymbols, List.replicate]
  rfl

/-! ### C110: reference constants -/

theorem rconst_aux (l : List ℝ) (R : ℝ) (hR : R = meanReal (l.map fun u => u ^ 2) / meanReal l) (h0 : ∀ u ∈ l, 0 ≤ u) : R * l.sum = (l.map fun u => u ^ 2).sum := by
  rcases eq_or_ne l [] with rfl | hl
  · simp
  have hlen : (l.length : ℝ) ≠ 0 := by
    have := List.length_pos_iff.2 hl
    exact_mod_cast this.ne'
  rcases eq_or_ne l.sum 0 with hs | hs
  · have hz : ∀ u ∈ l, u = 0 := by
      intro u hu
      have := List.single_le_sum h0 u hu
      rw [hs] at this
      exact le_antisymm this (h0 u hu)
    have : (l.map fun u => u ^ 2) = l.map fun _ => (0 : ℝ) := List.map_congr_left fun u hu => by rw [hz u hu]; norm_num
    rw [hs, this]
    simp
  · rw [hR]
    unfold meanReal
    rw [List.length_map]
    field_simp

/-- Every other gain has a larger mean squared deviation from the constant. -/
theorem gain_aux (l : List ℝ) (R g : ℝ) (h : R * l.sum = (l.map fun u => u ^ 2).sum) : (l.map fun u => (u - R) ^ 2).sum ≤ (l.map fun u => (g ^ 2 * u - R) ^ 2).sum := by
  have key : ∀ (l : List ℝ) (a : ℝ), (l.map fun u => (a * u - R) ^ 2).sum = a ^ 2 * (l.map fun u => u ^ 2).sum - 2 * a * R * l.sum + l.length * R ^ 2 := by
    intro l a
    induction l with
    | nil => simp
    | cons u l ih => simp only [List.map_cons, List.sum_cons, ih, List.length_cons]; push_cast; ring
  have e1 : (l.map fun u => (u - R) ^ 2) = l.map fun u => (1 * u - R) ^ 2 := by simp
  rw [e1, key l 1, key l (g ^ 2)]
  have hnn : 0 ≤ (l.map fun u => u ^ 2).sum := List.sum_nonneg fun x hx => by obtain ⟨u, -, rfl⟩ := List.mem_map.1 hx; positivity
  have h2 : 2 * g ^ 2 * R * l.sum = 2 * g ^ 2 * (l.map fun u => u ^ 2).sum := by rw [← h]; ring
  have h3 : 2 * 1 * R * l.sum = 2 * (l.map fun u => u ^ 2).sum := by rw [← h]; ring
  rw [h2, h3]
  nlinarith [mul_nonneg hnn (sq_nonneg (g ^ 2 - 1))]

/-- C110: the constant of the constant modulus methods is the one for which the ideal constellation has the right gain: scaling it by any other factor increases the mean squared deviation
of the squared modulus from the constant. -/
theorem C110_cma_gain (syms : List ℂ) (g : ℝ) : (syms.map fun s => (‖s‖ ^ 2 - rConstant syms) ^ 2).sum ≤ (syms.map fun s => (‖(g : ℂ) * s‖ ^ 2 - rConstant syms) ^ 2).sum := by
  have h := gain_aux (syms.map fun s => ‖s‖ ^ 2) (rConstant syms) g (rconst_aux _ _ (by
    unfold rConstant
    rw [List.map_map]
    congr 2
    apply List.map_congr_left
    intro s _
    simp only [Function.comp_apply]
    ring) (by intro u hu; obtain ⟨s, -, rfl⟩ := List.mem_map.1 hu; positivity))
  rw [List.map_map, List.map_map] at h
  refine h.trans (le_of_eq ?_)
  congr 1
  apply List.map_congr_left
  intro s _
  simp only [Function.comp_apply, norm_mul, Complex.norm_real, mul_pow, Real.norm_eq_abs, sq_abs]

/-- C110: the two parts of the constant of MCMA do the same for the two components. -/
theorem C110_mcma_gain (syms : List ℂ) (g : ℝ) :
    (syms.map fun s => (s.re ^ 2 - (rConstantComplex syms).re) ^ 2).sum ≤ (syms.map fun s => ((g * s.re) ^ 2 - (rConstantComplex syms).re) ^ 2).sum ∧
    (syms.map fun s => (s.im ^ 2 - (rConstantComplex syms).im) ^ 2).sum ≤ (syms.map fun s => ((g * s.im) ^ 2 - (rConstantComplex syms).im) ^ 2).sum := by
  have key : ∀ f : ℂ → ℝ, (syms.map fun s => (f s ^ 2 - meanReal (syms.map fun s => f s ^ 4) / meanReal (syms.map fun s => f s ^ 2)) ^ 2).sum ≤
      (syms.map fun s => ((g * f s) ^ 2 - meanReal (syms.map fun s => f s ^ 4) / meanReal (syms.map fun s => f s ^ 2)) ^ 2).sum := by
    intro f
    have h := gain_aux (syms.map fun s => f s ^ 2) (meanReal (syms.map fun s => f s ^ 4) / meanReal (syms.map fun s => f s ^ 2)) g (rconst_aux _ _ (by
      rw [List.map_map]
      congr 2
      apply List.map_congr_left
      intro s _
      simp only [Function.comp_apply]
      ring) (by intro u hu; obtain ⟨s, -, rfl⟩ := List.mem_map.1 hu; positivity))
    rw [List.map_map, List.map_map] at h
    refine h.trans (le_of_eq ?_)
    congr 1
    apply List.map_congr_left
    intro s _
    simp only [Function.comp_apply, mul_pow]
  exact ⟨key (·.re), key (·.im)⟩

/-- C110: with the generated constants the average update of "cma" and "mcma" over the ideal constellation is zero: the errors are uncorrelated with the symbols. -/
theorem C110_uncorrelated (syms : List ℂ) (method : String) (hm : method = "cma" ∨ method = "mcma") :
    ∃ row errf es, generateSymbols method syms = .ok [row] ∧ errorFct method = some errf ∧ (syms.mapM fun s => errf s row 0) = some es ∧
      (List.zipWith (fun e s => (e * star s).re) es syms).sum = 0 := by
  have hz : ∀ (f : ℂ → ℂ), List.zipWith (fun e s => (e * star s).re) (syms.map f) syms = syms.map fun s => (f s * star s).re := by
    intro f
    rw [List.zipWith_map_left]
    apply List.ext_getElem?
    intro i
    rw [List.getElem?_zipWith, List.getElem?_map]
    rcases syms[i]? with _ | s <;> rfl
  have hlin : ∀ (l : List ℂ) (f h : ℂ → ℝ) (R : ℝ), (l.map fun s => (R - f s) * h s).sum = R * (l.map h).sum - (l.map fun s => f s * h s).sum := by
    intro l f h R
    induction l with
    | nil => simp
    | cons a l ih => simp only [List.map_cons, List.sum_cons, ih]; ring
  rcases hm with rfl | rfl
  · refine ⟨[(rConstant syms : ℂ)], cmaError, syms.map fun s => ((rConstant syms - ‖s‖ ^ 2 : ℝ) : ℂ) * s, by simp [generateSymbols], by simp [errorFct], ?_, ?_⟩
    · rw [mapM_eq_some_iff, List.map_map]
      apply List.map_congr_left
      intro s _
      simp [cmaError]
    · rw [hz]
      have e : (syms.map fun s => ((((rConstant syms - ‖s‖ ^ 2 : ℝ) : ℂ) * s) * star s).re) = syms.map fun s => (rConstant syms - ‖s‖ ^ 2) * ‖s‖ ^ 2 := by
        apply List.map_congr_left
        intro s _
        rw [mul_assoc]
        have : s * star s = ((‖s‖ ^ 2 : ℝ) : ℂ) := by
          rw [← Complex.normSq_eq_norm_sq]
          exact Complex.mul_conj s
        rw [this, ← Complex.ofReal_mul, Complex.ofReal_re]
      rw [e, hlin syms (fun s => ‖s‖ ^ 2) (fun s => ‖s‖ ^ 2) (rConstant syms)]
      have h := rconst_aux (syms.map fun s => ‖s‖ ^ 2) (rConstant syms) (by
        unfold rConstant
        rw [List.map_map]
        congr 2
        apply List.map_congr_left
        intro s _
        simp only [Function.comp_apply]
        ring) (by intro u hu; obtain ⟨s, -, rfl⟩ := List.mem_map.1 hu; positivity)
      rw [List.map_map] at h
      rw [h, sub_eq_zero]
      congr 1
      apply List.map_congr_left
      intro s _
      simp only [Function.comp_apply]
      ring
  · refine ⟨[rConstantComplex syms], mcmaError, syms.map fun s => ⟨((rConstantComplex syms).re - s.re ^ 2) * s.re, ((rConstantComplex syms).im - s.im ^ 2) * s.im⟩,
      by simp [generateSymbols], by simp [errorFct], ?_, ?_⟩
    · rw [mapM_eq_some_iff, List.map_map]
      apply List.map_congr_left
      intro s _
      simp [mcmaError]
    · rw [hz]
      have e : (syms.map fun s => (((⟨((rConstantComplex syms).re - s.re ^ 2) * s.re, ((rConstantComplex syms).im - s.im ^ 2) * s.im⟩ : ℂ)) * star s).re) =
          syms.map fun s => ((rConstantComplex syms).re - s.re ^ 2) * s.re ^ 2 + ((rConstantComplex syms).im - s.im ^ 2) * s.im ^ 2 := by
        apply List.map_congr_left
        intro s _
        simp [Complex.mul_re]
        ring
      rw [e]
      have hadd : ∀ (l : List ℂ) (a b : ℂ → ℝ), (l.map fun s => a s + b s).sum = (l.map a).sum + (l.map b).sum := by
        intro l a b
        induction l with
        | nil => simp
        | cons x l ih => simp only [List.map_cons, List.sum_cons, ih]; ring
      have key : ∀ f : ℂ → ℝ, (syms.map fun s => (meanReal (syms.map fun s => f s ^ 4) / meanReal (syms.map fun s => f s ^ 2) - f s ^ 2) * f s ^ 2).sum = 0 := by
        intro f
        rw [hlin syms (fun s => f s ^ 2) (fun s => f s ^ 2)]
        have h := rconst_aux (syms.map fun s => f s ^ 2) (meanReal (syms.map fun s => f s ^ 4) / meanReal (syms.map fun s => f s ^ 2)) (by
          rw [List.map_map]
          congr 2
          apply List.map_congr_left
          intro s _
          simp only [Function.comp_apply]
          ring) (by intro u hu; obtain ⟨s, -, rfl⟩ := List.mem_map.1 hu; positivity)
        rw [List.map_map] at h
        rw [h, sub_eq_zero]
        congr 1
        apply List.map_congr_left
        intro s _
        simp only [Function.comp_apply]
        ring
      rw [hadd]
      have k1 := key (·.re)
      have k2 := key (·.im)
      unfold rConstantComplex
      rw [k1, k2, add_zero]

/-- C110 for the real valued methods: the constants of the rows of both components have the gain property, for the QAM constellation of every order. -/
def C110_statement : Prop := ∀ (k : Nat) (scale g : ℝ) (a b : ℝ), 0 < scale → 1 ≤ k →
  generateSymbolsReal "cma_real" ((symbolsQam k).map (toComplex scale)) = .ok [[a], [b]] →
    (((symbolsQam k).map (toComplex scale)).map fun s => (s.re ^ 2 - a) ^ 2).sum ≤ (((symbolsQam k).map (toComplex scale)).map fun s => ((g * s.re) ^ 2 - a) ^ 2).sum ∧
    (((symbolsQam k).map (toComplex scale)).map fun s => (s.im ^ 2 - b) ^ 2).sum ≤ (((symbolsQam k).map (toComplex scale)).map fun s => ((g * s.im) ^ 2 - b) ^ 2).sum

/-- C110 fails for 8-QAM, a rectangle of four by two points: the constant of the in-phase component is used for the quadrature. -/
theorem C110_false : ¬ C110_statement := by
  intro h
  have hs : symbolsQam 3 = [(-3, -1), (-3, 1), (-1, -1), (-1, 1), (1, -1), (1, 1), (3, -1), (3, 1)] := by decide
  obtain ⟨-, h2⟩ := h 3 1 2 _ _ one_pos (by norm_num) (by simp only [generateSymbolsReal]; rfl)
  rw [hs] at h2
  simp [toComplex, rConstantComplex, meanReal] at h2
  norm_num at h2

/-- C110 (partial: constellations whose components have the same distribution, e.g. all square QAM, `C110_square`): the real valued constants fit both components. -/
theorem C110_real_partial (syms : List ℂ) (hperm : (syms.map re).Perm (syms.map im)) (g a b : ℝ) (h : generateSymbolsReal "cma_real" syms = .ok [[a], [b]]) :
    (syms.map fun s => (s.re ^ 2 - a) ^ 2).sum ≤ (syms.map fun s => ((g * s.re) ^ 2 - a) ^ 2).sum ∧
    (syms.map fun s => (s.im ^ 2 - b) ^ 2).sum ≤ (syms.map fun s => ((g * s.im) ^ 2 - b) ^ 2).sum := by
  have hab : a = (rConstantComplex syms).re ∧ b = (rConstantComplex syms).re := by
    simp [generateSymbolsReal] at h
    exact ⟨h.1.symm, h.2.symm⟩
  have hsum : ∀ f : ℝ → ℝ, (syms.map fun s => f s.re).sum = (syms.map fun s => f s.im).sum := by
    intro f
    have := (hperm.map f).sum_eq
    rw [List.map_map, List.map_map] at this
    exact this
  have hR : (rConstantComplex syms).re = (rConstantComplex syms).im := by
    unfold rConstantComplex meanReal
    simp only [List.length_map]
    rw [hsum (fun x => x ^ 4), hsum (fun x => x ^ 2)]
  obtain ⟨h1, h2⟩ := C110_mcma_gain syms g
  rw [hab.1, hab.2]
  exact ⟨h1, by rw [hR]; exact h2⟩

theorem perm_grid {β : Type} (l : List β) : ((l.flatMap fun a => l.map fun b => (a, b)).map Prod.fst).Perm ((l.flatMap fun a => l.map fun b => (a, b)).map Prod.snd) := by
  have h1 : ((l.flatMap fun a => l.map fun b => (a, b)).map Prod.fst) = l.flatMap fun a => l.map fun _ => a := by
    rw [List.map_flatMap]
    simp [Function.comp_def]
  have h2 : ((l.flatMap fun a => l.map fun b => (a, b)).map Prod.snd) = l.flatMap fun _ => l := by
    rw [List.map_flatMap]
    simp [Function.comp_def]
  rw [h1, h2]
  clear h1 h2
  have key : ∀ m : List β, (m.flatMap fun a => l.map fun _ => a).Perm (l.flatMap fun _ => m) := by
    intro m
    induction m with
    | nil => simp
    | cons a m ih =>
      rw [List.flatMap_cons]
      refine (List.Perm.append_left _ ih).trans ?_
      clear ih
      induction l with
      | nil => simp
      | cons b l ihl =>
        simp only [List.map_cons, List.flatMap_cons, List.cons_append]
        refine List.Perm.cons a ?_
        refine (List.perm_append_comm_assoc _ _ _).trans ?_
        exact List.Perm.append_left m ihl
  exact key l

/-- All square QAM constellations meet the hypothesis of `C110_real_partial`. -/
theorem C110_square (N : Nat) (scale : ℝ) : ((((squareQam N).map (toComplex scale)).map re).Perm (((squareQam N).map (toComplex scale)).map im)) := by
  have h := (perm_grid (axisPts (2 ^ N))).map (fun z : Int => (z : ℝ) / scale)
  rw [List.map_map, List.map_map] at h
  rw [List.map_map, List.map_map]
  have e : ∀ p : Int × Int, (toComplex scale p).re = (p.1 : ℝ) / scale ∧ (toComplex scale p).im = (p.2 : ℝ) / scale := by
    intro p
    unfold toComplex
    rw [Complex.div_ofReal_re, Complex.div_ofReal_im]
    exact ⟨rfl, rfl⟩
  have e1 : (re ∘ toComplex scale) = (fun z : Int => (z : ℝ) / scale) ∘ Prod.fst := by funext p; exact (e p).1
  have e2 : (im ∘ toComplex scale) = (fun z : Int => (z : ℝ) / scale) ∘ Prod.snd := by funext p; exact (e p).2
  rw [e1, e2]
  exact h

/-! ### C111: undistorted signals -/

theorem firOutput_init {K : Type} [RCLike K] {E : List (List K)} {p ntaps os m i : Nat} {w : List (List K)} (hm : m < p) (hn : 1 ≤ ntaps) (hw : (initTaps ntaps p : List (List (List K)))[m]? = some w) :
    firOutput E w p ntaps os i = val2 E m (i * os + ntaps / 2) := by
  obtain ⟨w', hw1, -, hw3⟩ := rect_initTaps (K := K) (ntaps := ntaps) hm
  rw [hw, Option.some.injEq] at hw1
  subst hw1
  have hhalf : ntaps / 2 < ntaps := by omega
  unfold firOutput
  rw [Finset.sum_eq_single m, Finset.sum_eq_single (ntaps / 2)]
  · rw [hw3 m _ hm hhalf, if_pos ⟨rfl, rfl⟩, one_mul]
  · intro t ht hne
    rw [hw3 m t hm (Finset.mem_range.1 ht), if_neg (fun h => hne h.2), zero_mul]
  · intro h; exact absurd (Finset.mem_range.2 hhalf) h
  · intro k hk hne
    apply Finset.sum_eq_zero
    intro t ht
    rw [hw3 k t (Finset.mem_range.1 hk) (Finset.mem_range.1 ht), if_neg (fun h => hne h.1), zero_mul]
  · intro h; exact absurd (Finset.mem_range.2 hm) h

theorem initTaps_rect {ntaps p : Nat} : (initTaps ntaps p : List (List (List ℂ))).length = p ∧ ∀ w ∈ (initTaps ntaps p : List (List (List ℂ))), Rect w p ntaps := by
  refine ⟨by simp [initTaps], ?_⟩
  intro w hw
  obtain ⟨m, hm, hmw⟩ := List.mem_iff_getElem.1 hw
  have hmp : m < p := by simpa [initTaps] using hm
  obtain ⟨w', h1, h2, -⟩ := rect_initTaps (K := ℂ) (ntaps := ntaps) hmp
  rw [List.getElem?_eq_getElem hm, Option.some.injEq, hmw] at h1
  rw [h1]
  exact h2

/-- The default number of training symbols. -/
theorem trainingLen_default {os ntaps L : Nat} (hos : 0 < os) (hn : 0 < ntaps) (hL : ntaps * os ≤ L) :
    ∃ T, trainingLen none os ntaps L = .ok T ∧ (T = 0 ∨ (T - 1) * os + ntaps ≤ L) ∧ L < (T + 2 * ntaps) * os := by
  obtain ⟨n, h1, h2, h3, h4⟩ := C27_default_fits (L := L) hos hn
  have hnn := h2.2 hL
  refine ⟨n.toNat, ?_, h3 hnn, h4 hnn⟩
  unfold trainingLen
  rw [h1]
  show (if n < 0 then Except.error PyErr.value else Except.ok n.toNat) = _
  rw [if_neg (by omega)]

theorem reshape_length {α : Type} {gen : Except PyErr (List (List α))} {symbols : Option (List (List α))} {method : String} {n : Nat} {rows : List (List α)}
    (h : reshapeSymbols gen symbols method n = .ok rows) : rows.length = n := by
  unfold reshapeSymbols at h
  generalize selectSymbols gen symbols method = s at h
  rcases s with e | s
  · cases h
  · change (match s with
      | [row] => Except.ok (List.replicate n row)
      | _ => if s.length ≠ n then Except.error PyErr.value else Except.ok s) = Except.ok rows at h
    split at h
    · injection h with h; rw [← h]; simp
    · split at h
      · cases h
      · next h' =>
        injection h with h
        rw [← h]
        simpa using h'

/-- C111: if all samples at the symbol positions are perfect in the sense of the method (a constellation point for the decision directed ones, the transmitted symbol for the data aided one, the
reference modulus for CMA, ...), `equalise_signal(apply=True)` from the default taps returns exactly these samples, the default taps and zero errors. For all numbers of modes, taps, samples,
oversampling ratios, iterations, step sizes. -/
theorem C111_transparent {syms : List ℂ} {E : List (List ℂ)} {p L os ntaps nIter T : Nat} {mu : ℝ} {trSyms : Option Int} {method : String} {adaptive : Bool}
    {symbols : Option (List (List ℂ))} {rows : List (List ℂ)} {errf : ℂ → List ℂ → Nat → Option ℂ} (hE : Rect E p L) (hos : 0 < os) (hn : 1 ≤ ntaps) (hnL : ntaps ≤ L + 1)
    (hmeth : errorFct method = some errf) (hrows : reshapeSymbols (generateSymbols method syms) symbols method p = .ok rows)
    (hT : trainingLen trSyms os ntaps L = .ok T) (hfit : T = 0 ∨ (T - 1) * os + ntaps ≤ L)
    (hperf : ∀ m < p, ∀ i < T, ∀ x s, at2 E m (i * os + ntaps / 2) = some x → rows[m]? = some s → Perfect method x s i) :
    ∃ out, equaliseSignalApply syms E L os mu none ntaps trSyms nIter method adaptive symbols none =
        .ok (some (out, { err := List.replicate p (List.replicate (T * nIter) 0), wx := initTaps ntaps p, mu := mu })) ∧
      Rect out p ((L + 1 - ntaps) / os) ∧ ∀ m < p, ∀ i < (L + 1 - ntaps) / os, ∃ x, at2 E m (i * os + ntaps / 2) = some x ∧ at2 out m i = some x := by
  obtain ⟨out, h1, h2, h3⟩ := C25_pass_through hE hos hnL hn
  refine ⟨out, ?_, h2, h3⟩
  have hms : chooseModes none E.length = .ok (List.range p) := by rw [hE.1]; rfl
  have hwx : startTaps (none : Option (List (List (List ℂ)))) ntaps E.length = .ok (initTaps ntaps p) := by
    unfold startTaps
    rw [hE.1]
    dsimp only
    rw [if_neg (by omega)]
  have hbind : ∀ {α β : Type} (x : α) (f : α → Except PyErr β), ((Except.ok x) >>= f) = f x := fun _ _ => rfl
  have htrain : trainEqualiser errf adaptStep adaptive E T nIter os mu (initTaps ntaps p) ntaps (List.range p) rows =
      some { err := List.replicate p (List.replicate (T * nIter) 0), wx := initTaps ntaps p, mu := mu } := by
    refine C29_methods hmeth hE initTaps_rect.1 initTaps_rect.2 (reshape_length hrows) (fun m hm => List.mem_range.1 hm) hfit ?_
    intro m hm w s hw hs i hi
    have hmp := List.mem_range.1 hm
    rw [firOutput_init hmp hn hw]
    refine hperf m hmp i hi _ s (at2_of_rect hE hmp ?_) hs
    have hT1 : T ≠ 0 := by omega
    have hfit' : (T - 1) * os + ntaps ≤ L := by rcases hfit with h | h <;> [omega; exact h]
    have : i * os ≤ (T - 1) * os := Nat.mul_le_mul_right _ (by omega)
    omega
  have heq : equaliseSignal syms E L os mu none ntaps trSyms nIter method adaptive symbols none =
      .ok (some { err := List.replicate p (List.replicate (T * nIter) 0), wx := initTaps ntaps p, mu := mu }) := by
    unfold equaliseSignal
    rw [hms, hbind, hwx, hbind, hT, hbind, hE.1, hrows, hbind, hmeth]
    dsimp only
    rw [htrain]
  unfold equaliseSignalApply
  rw [hms, hbind, heq, hbind]
  show Except.ok _ = _
  refine congrArg Except.ok ?_
  dsimp only [Option.bind]
  rw [h1]
  rfl

/-- C111 for the decision directed methods with default arguments: any signal whose samples at the symbol positions are constellation points. -/
theorem C111_decision {syms : List ℂ} {E : List (List ℂ)} {p L os ntaps nIter : Nat} {mu : ℝ} {method : String} {adaptive : Bool} (hm : method = "sbd" ∨ method = "mddma" ∨ method = "dd")
    (hE : Rect E p L) (hos : 0 < os) (hn : 1 ≤ ntaps) (hL : ntaps * os ≤ L) (hsym : ∀ m < p, ∀ i x, at2 E m (i * os + ntaps / 2) = some x → x ∈ syms) :
    ∃ out r, equaliseSignalApply syms E L os mu none ntaps none nIter method adaptive none none = .ok (some (out, r)) ∧ r.wx = initTaps ntaps p ∧ (∀ e ∈ r.err, ∀ x ∈ e, x = 0) ∧
      ∀ m < p, ∀ i < (L + 1 - ntaps) / os, at2 out m i = at2 E m (i * os + ntaps / 2) := by
  obtain ⟨T, hT, hfit, -⟩ := trainingLen_default hos hn hL
  have hgen : generateSymbols method syms = .ok [syms] := by rcases hm with rfl | rfl | rfl <;> simp [generateSymbols]
  have hrows : reshapeSymbols (generateSymbols method syms) none method p = .ok (List.replicate p syms) := by rw [hgen]; rfl
  obtain ⟨errf, hmeth⟩ : ∃ errf, errorFct method = some errf := by rcases hm with rfl | rfl | rfl <;> exact ⟨_, rfl⟩
  have hnL : ntaps ≤ L + 1 := by
    have : ntaps * 1 ≤ ntaps * os := Nat.mul_le_mul_left _ hos
    omega
  obtain ⟨out, h1, -, h3⟩ := C111_transparent (mu := mu) (nIter := nIter) (adaptive := adaptive) hE hos hn hnL hmeth hrows hT hfit (by
    intro m hmp i _ x s hx hs
    rw [List.getElem?_replicate, if_pos hmp, Option.some.injEq] at hs
    subst hs
    have := hsym m hmp i x hx
    rcases hm with rfl | rfl | rfl <;> exact this)
  refine ⟨out, _, h1, rfl, ?_, ?_⟩
  · intro e he x hx
    obtain ⟨-, rfl⟩ := List.mem_replicate.1 he
    exact (List.mem_replicate.1 hx).2
  · intro m hmp i hi
    obtain ⟨x, a, b⟩ := h3 m hmp i hi
    rw [a, b]

/-- C111 for the data aided method: the given symbols are the transmitted ones. -/
theorem C111_data {syms : List ℂ} {E : List (List ℂ)} {p L os ntaps nIter : Nat} {mu : ℝ} {adaptive : Bool} {tx : List (List ℂ)}
    (hE : Rect E p L) (hos : 0 < os) (hn : 1 ≤ ntaps) (hL : ntaps * os ≤ L) (htx : tx.length = p) (hsym : ∀ m < p, ∀ i x, at2 E m (i * os + ntaps / 2) = some x → i * os + ntaps ≤ L → at2 tx m i = some x) :
    ∃ out r, equaliseSignalApply syms E L os mu none ntaps none nIter "sbd_data" adaptive (some tx) none = .ok (some (out, r)) ∧ r.wx = initTaps ntaps p ∧
      ∀ m < p, ∀ i < (L + 1 - ntaps) / os, at2 out m i = at2 tx m i := by
  obtain ⟨T, hT, hfit, -⟩ := trainingLen_default hos hn hL
  obtain ⟨rows, hrows, hlen, hget⟩ := C109_complex (generateSymbols "sbd_data" syms) tx "sbd_data" p (by decide) (Or.inr htx)
  have hnL : ntaps ≤ L + 1 := by
    have : ntaps * 1 ≤ ntaps * os := Nat.mul_le_mul_left _ hos
    omega
  obtain ⟨out, h1, -, h3⟩ := C111_transparent (mu := mu) (nIter := nIter) (adaptive := adaptive) hE hos hn hnL (errf := sbdDataError) rfl hrows hT hfit (by
    intro m hmp i hi x s hx hs
    have hs' : tx[m]? = some s := by
      rw [hget m hmp] at hs
      split at hs
      · next h =>
        have : m = 0 := by omega
        rw [this]; exact hs
      · exact hs
    have hbound : i * os + ntaps ≤ L := by
      have hfit' : (T - 1) * os + ntaps ≤ L := by rcases hfit with h | h <;> [omega; exact h]
      have : i * os ≤ (T - 1) * os := Nat.mul_le_mul_right _ (by omega)
      omega
    have := hsym m hmp i x hx hbound
    unfold at2 at this
    rw [hs', Option.bind_some] at this
    exact this)
  refine ⟨out, _, h1, rfl, ?_⟩
  intro m hmp i hi
  obtain ⟨x, a, b⟩ := h3 m hmp i hi
  rw [b, hsym m hmp i x a (window_in_range hos hnL hi)]

/-- C111: with default arguments the driver stays inside all arrays for every method with generated constants, any signal and any constellation; it raises ValueError exactly when there is less
than one window of `Ntaps` symbols. -/
theorem C111_in_bounds {syms : List ℂ} {E : List (List ℂ)} {p L os ntaps nIter : Nat} {mu : ℝ} {method : String} {adaptive : Bool} (hsy : syms ≠ [])
    (hm : method ∈ ["cma", "cma2", "sgncma", "mcma", "rde", "sbd", "mddma", "dd"]) (hE : Rect E p L) (hos : 0 < os) (hn : 1 ≤ ntaps) :
    (ntaps * os ≤ L → ∃ r, equaliseSignal syms E L os mu none ntaps none nIter method adaptive none none = .ok (some r) ∧ r.wx.length = p ∧ ∀ w ∈ r.wx, Rect w p ntaps) ∧
    (L < ntaps * os → equaliseSignal syms E L os mu none ntaps none nIter method adaptive none none = .error .value) := by
  have hms : chooseModes none E.length = .ok (List.range p) := by rw [hE.1]; rfl
  have hwx : startTaps (none : Option (List (List (List ℂ)))) ntaps E.length = .ok (initTaps ntaps p) := by
    unfold startTaps
    rw [hE.1]
    dsimp only
    rw [if_neg (by omega)]
  have hbind : ∀ {α β : Type} (x : α) (f : α → Except PyErr β), ((Except.ok x) >>= f) = f x := fun _ _ => rfl
  constructor
  · intro hL
    obtain ⟨T, hT, hfit, -⟩ := trainingLen_default hos hn hL
    obtain ⟨row, hgen, hu⟩ : ∃ row, generateSymbols method syms = .ok [row] ∧ Usable method row T := by
      simp only [List.mem_cons, List.not_mem_nil, or_false] at hm
      rcases hm with rfl | rfl | rfl | rfl | rfl | rfl | rfl | rfl
      · exact ⟨[(rConstant syms : ℂ)], by simp [generateSymbols], by simp [Usable]⟩
      · exact ⟨[(rConstant syms : ℂ)], by simp [generateSymbols], by simp [Usable]⟩
      · exact ⟨[(rConstant syms : ℂ)], by simp [generateSymbols], by simp [Usable]⟩
      · exact ⟨[rConstantComplex syms], by simp [generateSymbols], by simp [Usable]⟩
      · exact ⟨partitionCodesRadius syms, by simp [generateSymbols], C27_rde_usable syms hsy T⟩
      · exact ⟨syms, by simp [generateSymbols], trivial⟩
      · exact ⟨syms, by simp [generateSymbols], trivial⟩
      · exact ⟨syms, by simp [generateSymbols], trivial⟩
    obtain ⟨errf, hmeth⟩ : ∃ errf, errorFct method = some errf := by
      simp only [List.mem_cons, List.not_mem_nil, or_false] at hm
      rcases hm with rfl | rfl | rfl | rfl | rfl | rfl | rfl | rfl <;> exact ⟨_, rfl⟩
    have hrows : reshapeSymbols (generateSymbols method syms) none method p = .ok (List.replicate p row) := by rw [hgen]; rfl
    obtain ⟨r, h1, h2, h3, -⟩ := C27_methods (adaptive := adaptive) (nIter := nIter) (mu := mu) (modes := List.range p) hmeth hE initTaps_rect.1 initTaps_rect.2
      (symbols := List.replicate p row) (by simp) (fun m hm => List.mem_range.1 hm) hfit (fun s hs => by rw [(List.mem_replicate.1 hs).2]; exact hu)
    refine ⟨r, ?_, h2, h3⟩
    unfold equaliseSignal
    rw [hms, hbind, hwx, hbind, hT, hbind, hE.1, hrows, hbind, hmeth]
    dsimp only
    rw [h1]
  · intro hL
    have hT : trainingLen none os ntaps L = .error .value := by
      obtain ⟨n, h1, h2, -, -⟩ := C27_default_fits (L := L) hos hn
      have hneg : n < 0 := by
        by_contra hc
        have := h2.1 (not_lt.1 hc)
        omega
      unfold trainingLen
      rw [h1]
      show (if n < 0 then Except.error PyErr.value else Except.ok n.toNat) = _
      rw [if_pos hneg]
    unfold equaliseSignal
    rw [hms, hbind, hwx, hbind, hT]
    rfl

/-- C111, chosen modes: an empty choice and a mode the signal does not have are refused before anything is computed, whatever the other arguments are; with modes the signal has, any taps of the
right shape and at least one window of samples the driver stays inside all arrays. -/
theorem C111_modes {syms : List ℂ} {E : List (List ℂ)} {p L os ntaps nIter : Nat} {mu : ℝ} {method : String} {adaptive : Bool} (hE : Rect E p L) (ms : List Nat) :
    (∀ wxy trSyms symbols, ms = [] → equaliseSignal syms E L os mu wxy ntaps trSyms nIter method adaptive symbols (some ms) = .error .value) ∧
    (∀ wxy trSyms symbols, (∃ m ∈ ms, p ≤ m) → equaliseSignal syms E L os mu wxy ntaps trSyms nIter method adaptive symbols (some ms) = .error .assertion) ∧
    (∀ wx : List (List (List ℂ)), syms ≠ [] → method ∈ ["cma", "cma2", "sgncma", "mcma", "rde", "sbd", "mddma", "dd"] → 0 < os → 1 ≤ ntaps → ntaps * os ≤ L → wx.length = p → (∀ w ∈ wx, Rect w p ntaps) →
      ms ≠ [] → (∀ m ∈ ms, m < p) →
      ∃ r, equaliseSignal syms E L os mu (some wx) ntaps none nIter method adaptive none (some ms) = .ok (some r) ∧ r.wx.length = p ∧ ∀ w ∈ r.wx, Rect w p ntaps) := by
  have hbind : ∀ {α β : Type} (x : α) (f : α → Except PyErr β), ((Except.ok x) >>= f) = f x := fun _ _ => rfl
  have hbinde : ∀ {α β : Type} (x : PyErr) (f : α → Except PyErr β), ((Except.error x : Except PyErr α) >>= f) = .error x := fun _ _ => rfl
  refine ⟨?_, ?_, ?_⟩
  · rintro wxy trSyms symbols rfl
    have hms : chooseModes (some []) E.length = .error .value := by unfold chooseModes; simp
    unfold equaliseSignal
    rw [hms, hbinde]
  · rintro wxy trSyms symbols ⟨m, hm, hpm⟩
    have hms : chooseModes (some ms) E.length = .error .assertion := by
      unfold chooseModes
      dsimp only
      rw [if_neg (List.ne_nil_of_mem hm), if_neg]
      intro h
      have := List.all_eq_true.1 h m hm
      rw [decide_eq_true_eq, hE.1] at this
      omega
    unfold equaliseSignal
    rw [hms, hbinde]
  · intro wx hsy hm hos hn hL hwl hw hne hlt
    obtain ⟨T, hT, hfit, -⟩ := trainingLen_default hos hn hL
    obtain ⟨row, hgen, hu⟩ : ∃ row, generateSymbols method syms = .ok [row] ∧ Usable method row T := by
      simp only [List.mem_cons, List.not_mem_nil, or_false] at hm
      rcases hm with rfl | rfl | rfl | rfl | rfl | rfl | rfl | rfl
      · exact ⟨[(rConstant syms : ℂ)], by simp [generateSymbols], by simp [Usable]⟩
      · exact ⟨[(rConstant syms : ℂ)], by simp [generateSymbols], by simp [Usable]⟩
      · exact ⟨[(rConstant syms : ℂ)], by simp [generateSymbols], by simp [Usable]⟩
      · exact ⟨[rConstantComplex syms], by simp [generateSymbols], by simp [Usable]⟩
      · exact ⟨partitionCodesRadius syms, by simp [generateSymbols], C27_rde_usable syms hsy T⟩
      · exact ⟨syms, by simp [generateSymbols], trivial⟩
      · exact ⟨syms, by simp [generateSymbols], trivial⟩
      · exact ⟨syms, by simp [generateSymbols], trivial⟩
    obtain ⟨errf, hmeth⟩ : ∃ errf, errorFct method = some errf := by
      simp only [List.mem_cons, List.not_mem_nil, or_false] at hm
      rcases hm with rfl | rfl | rfl | rfl | rfl | rfl | rfl | rfl <;> exact ⟨_, rfl⟩
    have hrows : reshapeSymbols (generateSymbols method syms) none method p = .ok (List.replicate p row) := by rw [hgen]; rfl
    have hms : chooseModes (some ms) E.length = .ok ms := by
      unfold chooseModes
      dsimp only
      rw [if_neg hne, if_pos]
      rw [List.all_eq_true]
      intro m hmm
      rw [decide_eq_true_eq, hE.1]
      exact hlt m hmm
    have hwx : startTaps (some wx) ntaps E.length = .ok wx := by
      unfold startTaps
      dsimp only
      rw [if_pos]
      refine ⟨by rw [hwl, hE.1], ?_⟩
      rw [List.all_eq_true]
      intro w hww
      rw [decide_eq_true_eq, hE.1]
      exact (hw w hww).1
    obtain ⟨r, h1, h2, h3, -⟩ := C27_methods (adaptive := adaptive) (nIter := nIter) (mu := mu) (modes := ms) hmeth hE hwl hw
      (symbols := List.replicate p row) (by simp) hlt hfit (fun s hs => by rw [(List.mem_replicate.1 hs).2]; exact hu)
    refine ⟨r, ?_, h2, h3⟩
    unfold equaliseSignal
    rw [hms, hbind, hwx, hbind, hT, hbind, hE.1, hrows, hbind, hmeth]
    dsimp only
    rw [h1]

/-- QPSK samples in one mode at one sample per symbol meet the hypotheses of `C111_decision`. -/
example : ∃ out r, equaliseSignalApply [⟨1, 1⟩, ⟨-1, 1⟩, ⟨1, -1⟩, ⟨-1, -1⟩] [[⟨1, 1⟩, ⟨-1, 1⟩, ⟨-1, -1⟩, ⟨1, 1⟩]] 4 1 (1 / 10) none 1 none 2 "sbd" true none none = .ok (some (out, r)) ∧
    at2 out 0 2 = some ⟨-1, -1⟩ := by
  obtain ⟨out, r, h1, -, -, h4⟩ := C111_decision (syms := [⟨1, 1⟩, ⟨-1, 1⟩, ⟨1, -1⟩, ⟨-1, -1⟩]) (E := [[⟨1, 1⟩, ⟨-1, 1⟩, ⟨-1, -1⟩, ⟨1, 1⟩]]) (p := 1) (L := 4) (os := 1) (ntaps := 1) (nIter := 2)
    (mu := 1 / 10) (method := "sbd") (adaptive := true) (Or.inl rfl) ⟨rfl, by simp⟩ one_pos le_rfl (by norm_num) (by
      intro m hm i x hx
      have : m = 0 := by omega
      subst this
      have hx' : x ∈ ([⟨1, 1⟩, ⟨-1, 1⟩, ⟨-1, -1⟩, ⟨1, 1⟩] : List ℂ) := List.mem_of_getElem? hx
      simp only [List.mem_cons, List.not_mem_nil, or_false] at hx' ⊢
      tauto)
  exact ⟨out, r, h1, by rw [h4 0 (by norm_num) 2 (by decide)]; rfl⟩

/-! ### C112: two stages -/

/-- C112: a stage started from taps whose outputs at the training symbols are perfect returns these taps. -/
theorem C112_stage_keeps {syms : List ℂ} {E : List (List ℂ)} {p L os ntaps nIter T : Nat} {mu : ℝ} {trSyms : Option Int} {method : String} {adaptive : Bool}
    {symbols : List (List ℂ)} {rows : List (List ℂ)} {errf : ℂ → List ℂ → Nat → Option ℂ} {wx : List (List (List ℂ))} (hE : Rect E p L)
    (hwl : wx.length = p) (hw : ∀ w ∈ wx, Rect w p ntaps)
    (hmeth : errorFct method = some errf) (hrows : reshapeSymbols (generateSymbols method syms) (some symbols) method p = .ok rows)
    (hT : trainingLen trSyms os ntaps L = .ok T) (hfit : T = 0 ∨ (T - 1) * os + ntaps ≤ L)
    (hperf : ∀ m < p, ∀ i < T, ∀ w s, wx[m]? = some w → rows[m]? = some s → Perfect method (firOutput E w p ntaps os i) s i) :
    equaliseSignal syms E L os mu (some wx) ntaps trSyms nIter method adaptive (some symbols) none =
      .ok (some { err := List.replicate p (List.replicate (T * nIter) 0), wx := wx, mu := mu }) := by
  have hms : chooseModes none E.length = .ok (List.range p) := by rw [hE.1]; rfl
  have hwx : startTaps (some wx) ntaps E.length = .ok wx := by
    unfold startTaps
    rw [hE.1]
    dsimp only
    rw [if_pos ⟨hwl, List.all_eq_true.2 fun v hv => decide_eq_true (hw v hv).1⟩]
  have hbind : ∀ {α β : Type} (x : α) (f : α → Except PyErr β), ((Except.ok x) >>= f) = f x := fun _ _ => rfl
  unfold equaliseSignal
  rw [hms, hbind, hwx, hbind, hT, hbind, hE.1, hrows, hbind, hmeth]
  dsimp only
  rw [C29_methods hmeth hE hwl hw (reshape_length hrows) (fun m hm => List.mem_range.1 hm) hfit
    (fun m hm w s hw hs i hi => hperf m (List.mem_range.1 hm) i hi w s hw hs)]

/-- C112: if the first stage converged, i.e. its taps produce constellation points, the decision directed second stage returns the same taps, and the output are the constellation points. -/
theorem C112_converged {syms : List ℂ} {E : List (List ℂ)} {p L os ntaps : Nat} {nIter : Nat × Nat} {mu : ℝ × ℝ} {tr1 : Option Int} {method1 method2 : String} {adaptive : Bool × Bool}
    {sy : List (List ℂ)} {r1 : TrainResult ℂ} (hm2 : method2 = "sbd" ∨ method2 = "mddma" ∨ method2 = "dd") (hE : Rect E p L) (hos : 0 < os) (hn : 1 ≤ ntaps) (hL : ntaps * os ≤ L)
    (h1 : equaliseSignal syms E L os mu.1 none ntaps tr1 nIter.1 method1 adaptive.1 (some sy) none = .ok (some r1)) (hwl : r1.wx.length = p) (hw : ∀ w ∈ r1.wx, Rect w p ntaps)
    (hconv : ∀ m < p, ∀ w, r1.wx[m]? = some w → ∀ i, i * os + ntaps ≤ L → firOutput E w p ntaps os i ∈ syms) :
    ∃ (out : List (List ℂ)) (r2 : TrainResult ℂ), dualModeEqualisation syms E L os mu none ntaps (tr1, none) nIter (method1, method2) adaptive (sy, [syms]) none = .ok (some (out, r1, r2)) ∧
      r2.wx = r1.wx ∧ (∀ e ∈ r2.err, ∀ x ∈ e, x = 0) ∧ ∀ m < p, ∀ i < (L + 1 - ntaps) / os, ∃ x ∈ syms, at2 out m i = some x := by
  obtain ⟨T, hT, hfit, -⟩ := trainingLen_default hos hn hL
  have hms : chooseModes none E.length = .ok (List.range p) := by rw [hE.1]; rfl
  have hbind : ∀ {α β : Type} (x : α) (f : α → Except PyErr β), ((Except.ok x) >>= f) = f x := fun _ _ => rfl
  have hnL : ntaps ≤ L + 1 := by
    have : ntaps * 1 ≤ ntaps * os := Nat.mul_le_mul_left _ hos
    omega
  have hnd : method2 ∉ nonDecision := by rcases hm2 with rfl | rfl | rfl <;> decide
  obtain ⟨rows, hrows, -, hget⟩ := C109_complex (generateSymbols method2 syms) [syms] method2 p hnd (Or.inl rfl)
  obtain ⟨errf, hmeth⟩ : ∃ errf, errorFct method2 = some errf := by rcases hm2 with rfl | rfl | rfl <;> exact ⟨_, rfl⟩
  have hs2 := C112_stage_keeps (mu := mu.2) (nIter := nIter.2) (adaptive := adaptive.2) hE hwl hw hmeth hrows hT hfit (by
    intro m hmp i hi w s hwm hs
    rw [hget m hmp] at hs
    simp only [List.length_singleton, if_true, List.getElem?_cons_zero, Option.some.injEq] at hs
    subst hs
    have hbound : i * os + ntaps ≤ L := by
      have hfit' : (T - 1) * os + ntaps ≤ L := by rcases hfit with h | h <;> [omega; exact h]
      have : i * os ≤ (T - 1) * os := Nat.mul_le_mul_right _ (by omega)
      omega
    have := hconv m hmp w hwm i hbound
    rcases hm2 with rfl | rfl | rfl <;> exact this)
  obtain ⟨out, ho1, ho2, ho3, ho4⟩ := C24_apply_filter (K := ℂ) (wx := r1.wx) (modes := List.range p) hE hos hnL (by
    intro m hm
    have hmp := List.mem_range.1 hm
    exact ⟨_, List.getElem?_eq_getElem (by rw [hwl]; exact hmp), hw _ (List.getElem_mem _)⟩)
  refine ⟨out, { err := List.replicate p (List.replicate (T * nIter.2) 0), wx := r1.wx, mu := mu.2 }, ?_, rfl, ?_, ?_⟩
  · unfold dualModeEqualisation
    rw [hms, hbind, h1, hbind]
    dsimp only
    rw [hs2, hbind]
    show Except.ok _ = _
    refine congrArg Except.ok ?_
    dsimp only [Option.bind]
    rw [ho1]
    rfl
  · intro e he x hx
    obtain ⟨-, rfl⟩ := List.mem_replicate.1 he
    exact (List.mem_replicate.1 hx).2
  · intro m hmp i hi
    have hwm : r1.wx[m]? = some (r1.wx[m]'(by rw [hwl]; exact hmp)) := List.getElem?_eq_getElem _
    obtain ⟨hb, ho⟩ := ho4 m m _ (by rw [List.getElem?_range hmp]) hwm i hi
    exact ⟨_, hconv m hmp _ hwm i hb, ho⟩

/-- C112: on an undistorted signal both stages keep the default taps. -/
theorem C112_transparent {syms : List ℂ} {E : List (List ℂ)} {p L os ntaps : Nat} {nIter : Nat × Nat} {mu : ℝ × ℝ} {method1 method2 : String} {adaptive : Bool × Bool}
    (hm1 : method1 = "sbd" ∨ method1 = "mddma" ∨ method1 = "dd") (hm2 : method2 = "sbd" ∨ method2 = "mddma" ∨ method2 = "dd") (hE : Rect E p L) (hos : 0 < os) (hn : 1 ≤ ntaps)
    (hL : ntaps * os ≤ L) (hsym : ∀ m < p, ∀ i x, at2 E m (i * os + ntaps / 2) = some x → x ∈ syms) :
    ∃ (out : List (List ℂ)) (r1 r2 : TrainResult ℂ),
      dualModeEqualisation syms E L os mu none ntaps (none, none) nIter (method1, method2) adaptive ([syms], [syms]) none = .ok (some (out, r1, r2)) ∧
      r1.wx = initTaps ntaps p ∧ r2.wx = initTaps ntaps p ∧ ∀ m < p, ∀ i < (L + 1 - ntaps) / os, ∃ x ∈ syms, at2 out m i = some x := by
  obtain ⟨T, hT, hfit, -⟩ := trainingLen_default hos hn hL
  have hms : chooseModes none E.length = .ok (List.range p) := by rw [hE.1]; rfl
  have hbind : ∀ {α β : Type} (x : α) (f : α → Except PyErr β), ((Except.ok x) >>= f) = f x := fun _ _ => rfl
  have hnd : method1 ∉ nonDecision := by rcases hm1 with rfl | rfl | rfl <;> decide
  obtain ⟨rows, hrows, -, hget⟩ := C109_complex (generateSymbols method1 syms) [syms] method1 p hnd (Or.inl rfl)
  obtain ⟨errf, hmeth⟩ : ∃ errf, errorFct method1 = some errf := by rcases hm1 with rfl | rfl | rfl <;> exact ⟨_, rfl⟩
  have hconv : ∀ m < p, ∀ w, (initTaps ntaps p : List (List (List ℂ)))[m]? = some w → ∀ i, i * os + ntaps ≤ L → firOutput E w p ntaps os i ∈ syms := by
    intro m hmp w hw i hi
    rw [firOutput_init hmp hn hw]
    exact hsym m hmp i _ (at2_of_rect hE hmp (by omega))
  have hs1 := C112_stage_keeps (mu := mu.1) (nIter := nIter.1) (adaptive := adaptive.1) hE initTaps_rect.1 initTaps_rect.2 hmeth hrows hT hfit (by
    intro m hmp i hi w s hwm hs
    rw [hget m hmp] at hs
    simp only [List.length_singleton, if_true, List.getElem?_cons_zero, Option.some.injEq] at hs
    subst hs
    have hbound : i * os + ntaps ≤ L := by
      have hfit' : (T - 1) * os + ntaps ≤ L := by rcases hfit with h | h <;> [omega; exact h]
      have : i * os ≤ (T - 1) * os := Nat.mul_le_mul_right _ (by omega)
      omega
    have := hconv m hmp w hwm i hbound
    rcases hm1 with rfl | rfl | rfl <;> exact this)
  have hs1' : equaliseSignal syms E L os mu.1 none ntaps none nIter.1 method1 adaptive.1 (some [syms]) none =
      .ok (some { err := List.replicate p (List.replicate (T * nIter.1) 0), wx := initTaps ntaps p, mu := mu.1 }) := by
    rw [← hs1]
    have ht : startTaps (none : Option (List (List (List ℂ)))) ntaps E.length = startTaps (some (initTaps ntaps p)) ntaps E.length := by
      unfold startTaps
      rw [hE.1]
      dsimp only
      rw [if_neg (by omega), if_pos ⟨initTaps_rect.1, List.all_eq_true.2 fun v hv => decide_eq_true (initTaps_rect.2 v hv).1⟩]
    unfold equaliseSignal
    rw [ht]
  obtain ⟨out, r2, h1, h2, -, h4⟩ := C112_converged (mu := mu) (nIter := nIter) (adaptive := adaptive) hm2 hE hos hn hL hs1' initTaps_rect.1 initTaps_rect.2 hconv
  exact ⟨out, _, r2, h1, rfl, h2, h4⟩

/-- C112 as stated for `dual_mode_equalisation` of the core module without symbols: a decision directed stage decides for the points of the constellation. -/
def C112_statement : Prop := ∀ (k n : Nat) (scale : ℝ) (method : String) (a b rows : List (List (Option ℂ))), 1 ≤ n → 0 < scale → (method = "sbd" ∨ method = "mddma" ∨ method = "dd") →
  dualStageSymbols (.none : DualSymbols ℂ) = .ok (a, b) →
  reshapeSymbols ((generateSymbols method ((symbolsQam k).map (toComplex scale))).map (·.map (·.map some))) (some b) method n = .ok rows →
  ∀ row ∈ rows, ∀ X ∈ (symbolsQam k).map (toComplex scale), decideNan X row = X

theorem decideNan_none (X : ℂ) (n : Nat) : decideNan X (List.replicate n none) = 1 := by
  unfold decideNan
  induction n with
  | zero => rfl
  | succ n ih => simp only [List.replicate_succ, detSymbolNan]; exact ih

/-- C112 fails: `np.atleast_1d(None)` turns the missing alphabet into nan, and every decision is the initial value 1. -/
theorem C112_false : ¬ C112_statement := by
  intro h
  have h1 := h 2 1 1 "sbd" [[none]] [[none]] [[none]] le_rfl one_pos (Or.inl rfl) rfl rfl [none] (by simp) (toComplex 1 (-1, -1)) (List.mem_map.2 ⟨(-1, -1), by decide, rfl⟩)
  rw [show decideNan (toComplex 1 (-1, -1)) [none] = 1 from decideNan_none _ 1] at h1
  have := congrArg Complex.re h1
  simp [toComplex] at this
  norm_num at this

/-- C112 for no symbols, all decision directed methods and numbers of modes: every decision of both stages is 1, whatever the signal. -/
theorem C112_no_symbols (X : ℂ) (gen : Except PyErr (List (List (Option ℂ)))) (method : String) (n : Nat) (hm : method ∉ nonDecision) :
    ∃ a b rows, dualStageSymbols (.none : DualSymbols ℂ) = .ok (a, b) ∧ a = b ∧ reshapeSymbols gen (some b) method n = .ok rows ∧ rows.length = n ∧ ∀ row ∈ rows, decideNan X row = 1 := by
  obtain ⟨rows, h1, h2, h3⟩ := C109_complex gen [[(none : Option ℂ)]] method n hm (Or.inl rfl)
  refine ⟨_, _, rows, rfl, rfl, h1, h2, ?_⟩
  intro row hrow
  obtain ⟨i, hi, rfl⟩ := List.mem_iff_getElem.1 hrow
  have := h3 i (by omega)
  rw [List.getElem?_eq_getElem hi] at this
  simp only [List.length_singleton, if_true, List.getElem?_cons_zero, Option.some.injEq] at this
  rw [this]
  exact decideNan_none X 1

/-- C112 (partial: symbols are given): both stages get the given alphabet and decide for a nearest point of it. -/
theorem C112_given_partial (X : ℂ) (rows : List (List ℂ)) (row : List ℂ) (hrow : row ∈ rows) (h : ∃ c ∈ row, ‖X - c‖ ^ 2 < 1000) :
    ∃ a b, dualStageSymbols (.d2 rows) = .ok (a, b) ∧ row.map some ∈ a ∧ row.map some ∈ b ∧ decideNan X (row.map some) ∈ row ∧ ∀ c ∈ row, ‖X - decideNan X (row.map some)‖ ≤ ‖X - c‖ := by
  have key : ∀ (l : List ℂ) (s : ℂ) (d : ℝ), detSymbolNan X (l.map some) s d = detSymbolGo X l s d := by
    intro l
    induction l with
    | nil => intro s d; rfl
    | cons c l ih => intro s d; simp only [List.map_cons, detSymbolNan, detSymbolGo, ih]
  have hk : decideNan X (row.map some) = (detSymbol X row).1 := by
    unfold decideNan detSymbol
    rw [key]
  obtain ⟨j, c, h1, h2, h3, -⟩ := C108_nearest_partial X row h
  refine ⟨_, _, rfl, List.mem_map.2 ⟨row, hrow, rfl⟩, List.mem_map.2 ⟨row, hrow, rfl⟩, ?_, ?_⟩
  · rw [hk, h2]; exact List.mem_of_getElem? h1
  · rw [hk, h2]; exact h3

/-! ### C114: symbols of the front end -/

/-- C114 as stated: each stage gets the symbols its method needs, the transmitted ones for a data aided method, the alphabet otherwise. -/
def C114_statement : Prop := ∀ (m1 m2 : String) (transmitted coded : List ℂ), ∀ m ∈ [m1, m2], frontEndSymbols [m1, m2] transmitted (some coded) = some (if m ∈ dataAided then transmitted else coded)

theorem C114_false : ¬ C114_statement := by
  intro h
  have := h "sbd_data" "sbd" [1] [2] "sbd_data" (by simp)
  simp [frontEndSymbols, dataAided] at this

/-- C114 (partial): the last method decides for both stages; right if both methods are data aided or both are not. -/
theorem C114_partial {α : Type} (ms : List String) (last : String) (transmitted : α) (coded : Option α) :
    frontEndSymbols (ms ++ [last]) transmitted coded = (if last ∈ dataAided then some transmitted else coded) ∧
    ((∀ m ∈ ms, (m ∈ dataAided ↔ last ∈ dataAided)) → ∀ m ∈ ms ++ [last], frontEndSymbols (ms ++ [last]) transmitted coded = if m ∈ dataAided then some transmitted else coded) := by
  have h1 : frontEndSymbols (ms ++ [last]) transmitted coded = (if last ∈ dataAided then some transmitted else coded) := by
    unfold frontEndSymbols
    rw [List.foldl_append]
    rfl
  refine ⟨h1, ?_⟩
  intro hms m hm
  rw [h1]
  rcases List.mem_append.1 hm with h | h
  · simp only [hms m h]
  · rw [List.mem_singleton.1 h]

/-- C114: consequence of the choice for ("sbd_data", "sbd"): the data aided stage is trained with the alphabet as the transmitted sequence and reads outside of it as soon as there are more
training symbols than constellation points. -/
theorem C114_outside {syms : List ℂ} {E : List (List ℂ)} {p L os ntaps nIter T : Nat} {mu : ℝ} {adaptive : Bool} {transmitted sy : List (List ℂ)} {method : String} (hd : method ∉ dataAided)
    (hE : Rect E p L) (hp : 1 ≤ p) (hn : 1 ≤ ntaps) (hI : 1 ≤ nIter) (hsy : frontEndSymbols ["sbd_data", method] transmitted (some [syms]) = some sy)
    (hT : trainingLen none os ntaps L = .ok T) (hlong : syms.length < T) :
    equaliseSignal syms E L os mu none ntaps none nIter "sbd_data" adaptive (some sy) none = .ok none := by
  have hsy' : sy = [syms] := by
    have := (C114_partial ["sbd_data"] method transmitted (some [syms])).1
    rw [if_neg hd] at this
    rw [List.singleton_append] at this
    rw [hsy, Option.some.injEq] at this
    exact this
  subst hsy'
  have hms : chooseModes none E.length = .ok (List.range p) := by rw [hE.1]; rfl
  have hwx : startTaps (none : Option (List (List (List ℂ)))) ntaps E.length = .ok (initTaps ntaps p) := by
    unfold startTaps
    rw [hE.1]
    dsimp only
    rw [if_neg (by omega)]
  have hbind : ∀ {α β : Type} (x : α) (f : α → Except PyErr β), ((Except.ok x) >>= f) = f x := fun _ _ => rfl
  have hrows : reshapeSymbols (generateSymbols "sbd_data" syms) (some [syms]) "sbd_data" p = .ok (List.replicate p syms) := rfl
  unfold equaliseSignal
  rw [hms, hbind, hwx, hbind, hT, hbind, hE.1, hrows, hbind, show errorFct "sbd_data" = some sbdDataError from rfl]
  dsimp only
  refine congrArg Except.ok ?_
  unfold trainEqualiser
  obtain ⟨q, rfl⟩ : ∃ q, p = q + 1 := ⟨p - 1, by omega⟩
  rw [List.range_succ_eq_map, List.foldlM_cons]
  have hlen : 0 < (initTaps ntaps (q + 1) : List (List (List ℂ))).length := by rw [initTaps_rect.1]; omega
  simp only [List.getElem?_eq_getElem hlen, List.replicate_succ, List.getElem?_cons_zero, bind, Option.bind]
  rw [C27_data_short hI hlong]

/-- BPSK, twenty samples: nineteen training symbols but two constellation points. -/
example : equaliseSignal [1, -1] [List.replicate 20 1] 20 1 (1 / 10) none 1 none 1 "sbd_data" false (some [[1, -1]]) none = .ok none :=
  C114_outside (method := "sbd") (p := 1) (T := 19) (transmitted := [List.replicate 20 1]) (by decide) ⟨rfl, by simp⟩ le_rfl le_rfl le_rfl (by simp [frontEndSymbols, dataAided]) (by decide) (by decide)

/-! ### C113: several frames -/

/-- C113 as stated: without a choice of frames all complete frames of the signal are equalised. -/
def C113_statement : Prop := ∀ L shift os fl : Int, 0 < os → 0 < fl → 0 ≤ shift → shift + os * fl ≤ L →
  ∃ fs, framesToEqualise L shift os fl none = .ok fs ∧ ∀ i : Int, i ∈ fs ↔ 0 ≤ i ∧ shift + (i + 1) * (os * fl) ≤ L

/-- C113 fails for a signal of exactly one frame. -/
theorem C113_false : ¬ C113_statement := by
  intro h
  obtain ⟨fs, h1, -⟩ := h 4 0 2 2 (by norm_num) (by norm_num) (by norm_num) (by norm_num)
  have : framesToEqualise 4 0 2 2 none = .error .assertion := by decide
  rw [this] at h1
  cases h1

theorem max_range (n : Nat) (hn : 0 < n) : (((List.range n).map fun (i : Nat) => (i : Int)).max?) = some ((n : Int) - 1) := by
  rw [List.max?_eq_some_iff]
  constructor
  · exact List.mem_map.2 ⟨n - 1, List.mem_range.2 (by omega), by push_cast [Nat.cast_sub hn]; ring⟩
  · intro b hb
    obtain ⟨i, hi, rfl⟩ := List.mem_map.1 hb
    have := List.mem_range.1 hi
    omega

/-- C113 (partial, exact): all complete frames, unless the samples after the shift are an exact number of frames; then AssertionError. -/
theorem C113_frames_partial (L shift os fl : Int) (hos : 0 < os) (hfl : 0 < fl) (hL : shift + os * fl ≤ L) :
    (¬ (os * fl) ∣ (L - shift) → ∃ fs, framesToEqualise L shift os fl none = .ok fs ∧ fs.Nodup ∧ fs.Pairwise (· < ·) ∧ ∀ i : Int, i ∈ fs ↔ 0 ≤ i ∧ shift + (i + 1) * (os * fl) ≤ L) ∧
    ((os * fl) ∣ (L - shift) → framesToEqualise L shift os fl none = .error .assertion) := by
  have hF : 0 < os * fl := mul_pos hos hfl
  obtain ⟨F, hFe⟩ : ∃ F, F = os * fl := ⟨_, rfl⟩
  obtain ⟨q, hq⟩ : ∃ q, q = (L - shift) / F := ⟨_, rfl⟩
  obtain ⟨r, hr⟩ : ∃ r, r = (L - shift) % F := ⟨_, rfl⟩
  rw [← hFe] at hF hL ⊢
  have hdm : F * q + r = L - shift := by rw [hq, hr]; exact Int.mul_ediv_add_emod _ _
  have hr0 : 0 ≤ r := by rw [hr]; exact Int.emod_nonneg _ hF.ne'
  have hrF : r < F := by rw [hr]; exact Int.emod_lt_of_pos _ hF
  have hq1 : 1 ≤ q := by rw [hq]; exact (Int.le_ediv_iff_mul_le hF).2 (by linarith)
  have hqn : 0 < q.toNat := by omega
  have hmax := max_range q.toNat hqn
  have hcast : ((q.toNat : Nat) : Int) = q := Int.toNat_of_nonneg (by omega)
  have hcmp : (L - (shift + (q - 1) * fl * os) > fl * os) ↔ 0 < r := by
    have e1 : (q - 1) * fl * os = F * q - F := by rw [hFe]; ring
    have e2 : fl * os = F := by rw [hFe]; ring
    rw [e1, e2]
    constructor <;> intro h <;> linarith
  have hval : framesToEqualise L shift os fl none = if 0 < r then .ok ((List.range q.toNat).map fun (i : Nat) => (i : Int)) else .error .assertion := by
    unfold framesToEqualise framesAsked
    rw [if_neg (by rw [← hFe]; omega)]
    dsimp only
    rw [← hFe, ← hq, hmax, hcast]
    dsimp only
    by_cases h : 0 < r
    · rw [if_pos h, if_pos (hcmp.2 h)]
    · rw [if_neg h, if_neg (fun hc => h (hcmp.1 hc))]
  constructor
  · intro hnd
    have hrpos : 0 < r := by
      rcases lt_or_eq_of_le hr0 with h | h
      · exact h
      · exact absurd (Int.dvd_of_emod_eq_zero (by rw [← hr]; exact h.symm)) hnd
    have hpw : (((List.range q.toNat).map fun (i : Nat) => (i : Int))).Pairwise (· < ·) := by
      rw [List.pairwise_map]
      exact List.pairwise_lt_range.imp (fun h => by exact_mod_cast h)
    refine ⟨_, by rw [hval, if_pos hrpos], hpw.imp (fun h => ne_of_lt h), hpw, ?_⟩
    intro i
    constructor
    · intro hi
      obtain ⟨k, hk, rfl⟩ := List.mem_map.1 hi
      have hk' := List.mem_range.1 hk
      refine ⟨by positivity, ?_⟩
      have : ((k : Int) + 1) ≤ q := by omega
      nlinarith
    · rintro ⟨h0, h1⟩
      have hiq : i < q := by
        by_contra hc
        have : q ≤ i := not_lt.1 hc
        nlinarith
      exact List.mem_map.2 ⟨i.toNat, List.mem_range.2 (by omega), by omega⟩
  · intro hd
    have : r = 0 := by rw [hr]; exact Int.emod_eq_zero_of_dvd hd
    rw [hval, this, if_neg (lt_irrefl _)]

/-- C113: whatever the frames asked for, all accepted frames are complete. -/
theorem C113_complete (L shift os fl : Int) (frames : Option (List Int)) (fs : List Int) (hos : 0 < os) (hfl : 0 < fl) (h : framesToEqualise L shift os fl frames = .ok fs) :
    ∀ i ∈ fs, shift + (i + 1) * (os * fl) < L := by
  unfold framesToEqualise at h
  rw [if_neg (by rintro ⟨h0, -⟩; exact (mul_pos hos hfl).ne' h0)] at h
  generalize framesAsked L shift os fl frames = gs at h
  rcases hm : gs.max? with _ | m
  · rw [hm] at h; cases h
  · rw [hm] at h
    dsimp only at h
    split at h
    · next hc =>
      injection h with h
      subst h
      intro i hi
      have him := (List.max?_eq_some_iff.1 hm).2 i hi
      have hF := mul_pos hos hfl
      nlinarith
    · cases h

theorem framesLoop_nozero {τ σ : Type} (eq : Option τ → Int → Except PyErr (τ × σ)) (w : Option τ) (fs : List Int) (rs : List (τ × σ)) (h0 : (0 : Int) ∉ fs) (h : framesLoop eq w fs = .ok rs) :
    rs.length = fs.length ∧ ∀ (j : Nat) (i : Int), fs[j]? = some i → ∃ r, rs[j]? = some r ∧ eq w i = .ok r := by
  induction fs generalizing rs with
  | nil => injection h with h; subst h; exact ⟨rfl, by simp⟩
  | cons a fs ih =>
    unfold framesLoop at h
    rcases ha : eq w a with e | r
    · rw [ha] at h; cases h
    · rw [ha] at h
      have hane : a ≠ 0 := fun hc => h0 (by rw [hc]; simp)
      have h' : ((framesLoop eq (if a = 0 then some r.1 else w) fs) >>= fun rs => (Except.ok (r :: rs) : Except PyErr _)) = .ok rs := h
      rw [if_neg hane] at h'
      rcases hb : framesLoop eq w fs with e | rs'
      · rw [hb] at h'; cases h'
      · rw [hb] at h'
        injection h' with h'
        subst h'
        obtain ⟨h1, h2⟩ := ih rs' (fun hc => h0 (List.mem_cons_of_mem _ hc)) hb
        refine ⟨by simp [h1], ?_⟩
        intro j i hj
        rcases j with _ | j
        · simp only [List.getElem?_cons_zero, Option.some.injEq] at hj
          subst hj
          exact ⟨r, rfl, ha⟩
        · exact h2 j i (by simpa using hj)

/-- C113: the results are in the order of the frames; frames before frame 0 start from the given taps, frame 0 as well, all frames after it start from the taps of frame 0. -/
theorem C113_loop {τ σ : Type} (eq : Option τ → Int → Except PyErr (τ × σ)) (w : Option τ) (pre post : List Int) (rs : List (τ × σ)) (h1 : (0 : Int) ∉ pre) (h2 : (0 : Int) ∉ post)
    (h : framesLoop eq w (pre ++ 0 :: post) = .ok rs) :
    ∃ (a b : List (τ × σ)) (r0 : τ × σ), rs = a ++ r0 :: b ∧ a.length = pre.length ∧ b.length = post.length ∧ eq w 0 = .ok r0 ∧
      (∀ (j : Nat) (i : Int), pre[j]? = some i → ∃ r, a[j]? = some r ∧ eq w i = .ok r) ∧ (∀ (j : Nat) (i : Int), post[j]? = some i → ∃ r, b[j]? = some r ∧ eq (some r0.1) i = .ok r) := by
  induction pre generalizing rs with
  | nil =>
    rw [List.nil_append] at h
    unfold framesLoop at h
    rcases ha : eq w 0 with e | r
    · rw [ha] at h; cases h
    · rw [ha] at h
      have h' : ((framesLoop eq (if (0 : Int) = 0 then some r.1 else w) post) >>= fun rs => (Except.ok (r :: rs) : Except PyErr _)) = .ok rs := h
      rw [if_pos rfl] at h'
      rcases hb : framesLoop eq (some r.1) post with e | rs'
      · rw [hb] at h'; cases h'
      · rw [hb] at h'
        injection h' with h'
        subst h'
        obtain ⟨k1, k2⟩ := framesLoop_nozero eq _ post rs' h2 hb
        exact ⟨[], rs', r, rfl, rfl, k1, rfl, by simp, k2⟩
  | cons c pre ih =>
    rw [List.cons_append] at h
    unfold framesLoop at h
    rcases ha : eq w c with e | r
    · rw [ha] at h; cases h
    · rw [ha] at h
      have hne : c ≠ 0 := fun hc => h1 (by rw [hc]; simp)
      have h' : ((framesLoop eq (if c = 0 then some r.1 else w) (pre ++ 0 :: post)) >>= fun rs => (Except.ok (r :: rs) : Except PyErr _)) = .ok rs := h
      rw [if_neg hne] at h'
      rcases hb : framesLoop eq w (pre ++ 0 :: post) with e | rs'
      · rw [hb] at h'; cases h'
      · rw [hb] at h'
        injection h' with h'
        subst h'
        obtain ⟨a, b, r0, e, k1, k2, k3, k4, k5⟩ := ih rs' (fun hc => h1 (List.mem_cons_of_mem _ hc)) hb
        refine ⟨r :: a, b, r0, by rw [e]; rfl, by simp [k1], k2, k3, ?_, k5⟩
        intro j i hj
        rcases j with _ | j
        · simp only [List.getElem?_cons_zero, Option.some.injEq] at hj
          subst hj
          exact ⟨r, rfl, ha⟩
        · exact k4 j i (by simpa using hj)

/-- C113, return values as stated: every combination of the flags `apply` and `verbose` can be used with any list of frames. -/
def C113_return_statement : Prop := ∀ (apply verbose : Bool) (frames : List Int), framesReturn apply verbose false frames = .ok ()

/-- C113: `apply=False` with the default `verbose=True` fails for every list of frames, `verbose=False` fails as soon as a frame follows frame 0. -/
theorem C113_return_false : ¬ C113_return_statement ∧ (∀ frames, frames ≠ [] → framesReturn false true false frames = .error .typ) ∧
    ∀ pre post : List Int, (0 : Int) ∉ pre → post ≠ [] → framesReturn false false false (pre ++ 0 :: post) = .error .assertion := by
  have h1 : ∀ frames, frames ≠ [] → framesReturn false true false frames = .error .typ := by
    intro frames h
    rcases frames with _ | ⟨a, t⟩
    · exact absurd rfl h
    · rfl
  refine ⟨fun h => ?_, h1, ?_⟩
  · have := h false true [0]
    rw [h1 [0] (by simp)] at this
    cases this
  · intro pre post hpre hpost
    induction pre with
    | nil =>
      rcases post with _ | ⟨a, t⟩
      · exact absurd rfl hpost
      · rfl
    | cons c pre ih =>
      have hne : c ≠ 0 := fun hc => hpre (by rw [hc]; simp)
      show (framesReturn false false (false || decide (c = 0)) (pre ++ 0 :: post)) = _
      rw [decide_eq_false hne]
      exact ih (fun hc => hpre (List.mem_cons_of_mem _ hc))

/-- C113 (partial): with `apply=True` all lists of frames work, without it (and without `verbose`) those in which nothing follows frame 0. -/
theorem C113_return_partial (verbose : Bool) (frames : List Int) : framesReturn true verbose false frames = .ok () ∧ ((0 : Int) ∉ frames.dropLast → framesReturn false false false frames = .ok ()) := by
  constructor
  · induction frames with
    | nil => rfl
    | cons a t ih =>
      rcases verbose with _ | _ <;> exact ih
  · induction frames with
    | nil => intro _; rfl
    | cons a t ih =>
      intro h
      rcases t with _ | ⟨b, t⟩
      · rfl
      · have hne : a ≠ 0 := fun hc => h (by rw [hc]; simp)
        show framesReturn false false (false || decide (a = 0)) (b :: t) = _
        rw [decide_eq_false hne]
        exact ih (fun hc => h (by rw [List.dropLast_cons_cons]; exact List.mem_cons_of_mem _ hc))

example : framesToEqualise 9 0 2 2 none = .ok [0, 1] := by decide

example : framesLoop (fun (w : Option Int) i => .ok (w.getD 7 + i, ())) none [2, 0, 1, 3] = .ok [(9, ()), (7, ()), (8, ()), (10, ())] := by decide

end Qampy
