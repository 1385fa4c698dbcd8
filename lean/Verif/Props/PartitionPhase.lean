import Verif.Props.Partition

/-!
C198: the phase estimated by the 16-QAM partition algorithm for a noiseless signal.
-/

namespace Qampy

open Complex (I)

/-- A point of the 16-QAM grid. -/
def Grid16 (p : ℤ × ℤ) : Prop := (p.1 ^ 2 = 1 ∨ p.1 ^ 2 = 9) ∧ (p.2 ^ 2 = 1 ∨ p.2 ^ 2 = 9)

/-- A point of the integer grid as complex number. -/
def gridC (p : ℤ × ℤ) : ℂ := ⟨p.1, p.2⟩

/-- The points on the diagonals: inner and outer ring. -/
def onDiag (p : ℤ × ℤ) : Bool := decide (p.1 ^ 2 = p.2 ^ 2)

/-- Sum of the fourth powers of the radii of the points on the diagonals. -/
def diagWeight (b : List (ℤ × ℤ)) : ℝ := (b.map fun p => if onDiag p then ((p.1 ^ 2 + p.2 ^ 2 : ℤ) : ℝ) ^ 2 else 0).sum

/-- Number of points on the middle ring. -/
def midCount (b : List (ℤ × ℤ)) : Nat := b.countP fun p => !onDiag p

theorem gridC_four (p : ℤ × ℤ) (hp : Grid16 p) : (onDiag p = true → gridC p ^ 4 = -((((p.1 ^ 2 + p.2 ^ 2 : ℤ) : ℝ) ^ 2 : ℝ) : ℂ)) ∧
    (onDiag p = false → gridC p ^ 4 = ⟨28, 96⟩ ∨ gridC p ^ 4 = ⟨28, -96⟩) := by
  obtain ⟨a, b⟩ := p
  obtain ⟨h1, h2⟩ := hp
  simp only at h1 h2
  have e : gridC (a, b) ^ 4 = ⟨((a ^ 2 * a ^ 2 - 6 * (a ^ 2 * b ^ 2) + b ^ 2 * b ^ 2 : ℤ) : ℝ), ((4 * (a * b) * (a ^ 2 - b ^ 2) : ℤ) : ℝ)⟩ := by
    rw [show 4 = 2 * 2 from rfl, pow_mul, pow_two, pow_two]
    unfold gridC
    apply Complex.ext
    · simp only [Complex.mul_re, Complex.mul_im]
      push_cast
      ring
    · simp only [Complex.mul_re, Complex.mul_im]
      push_cast
      ring
  rw [e]
  unfold onDiag
  simp only [decide_eq_true_eq, decide_eq_false_iff_not]
  constructor
  · intro h
    rw [h]
    apply Complex.ext
    · simp only [Complex.neg_re, Complex.ofReal_re]
      push_cast
      ring
    · rw [Complex.neg_im, Complex.ofReal_im]
      simp
  · intro h
    have hab : (a * b) ^ 2 = 9 := by
      rw [mul_pow]
      rcases h1 with h1 | h1 <;> rcases h2 with h2 | h2 <;> rw [h1, h2] at h ⊢ <;> first | exact absurd rfl h | norm_num
    have hab' : a * b = 3 ∨ a * b = -3 := sq_eq_sq_iff_eq_or_eq_neg.1 (by rw [hab]; norm_num)
    rcases h1 with h1 | h1 <;> rcases h2 with h2 | h2 <;> rw [h1, h2] at h ⊢ <;> try exact absurd rfl h
    · rcases hab' with h3 | h3 <;> rw [h3]
      · right; norm_num
      · left; norm_num
    · rcases hab' with h3 | h3 <;> rw [h3]
      · left; norm_num
      · right; norm_num

theorem exp_neg_dphi16 : Complex.exp (I * ((-dphi16 : ℝ) : ℂ)) ^ 4 = ⟨-7 / 25, 24 / 25⟩ := by
  have : Complex.exp (I * ((-dphi16 : ℝ) : ℂ)) = (starRingEnd ℂ) (Complex.exp (I * (dphi16 : ℂ))) := by
    rw [← Complex.exp_conj, map_mul, Complex.conj_I, Complex.conj_ofReal]
    congr 1; push_cast; ring
  rw [this, ← map_pow, exp_dphi16]
  apply Complex.ext
  · simp
  · simp; norm_num

/-- A point of the middle ring: if the signal phase is in the right range the algorithm selects the rotation that takes it to the diagonals. -/
theorem mid_choice (p : ℤ × ℤ) (hp : Grid16 p) (hd : onDiag p = false) (g s1 : ℂ) (hr : 7 * |(g ^ 4).im| < -(24 * (g ^ 4).re)) :
    complexMin (s1 - (g * gridC p * Complex.exp (I * (dphi16 : ℂ))) ^ 4) (s1 - (g * gridC p * Complex.exp (I * ((-dphi16 : ℝ) : ℂ))) ^ 4) = s1 + 100 * g ^ 4 := by
  obtain ⟨x, hx⟩ : ∃ x, x = g ^ 4 := ⟨_, rfl⟩
  rw [mul_pow, mul_pow, mul_pow _ (Complex.exp _), exp_dphi16, exp_neg_dphi16]
  rw [mul_pow, ← hx]
  rw [← hx] at hr
  have a1 := abs_lt.1 (show |x.im| < -(24 * x.re) / 7 by rw [lt_div_iff₀ (by norm_num)]; linarith)
  rcases (gridC_four p hp).2 hd with h | h
  · have e1 : x * (⟨28, 96⟩ : ℂ) * ⟨-7 / 25, -24 / 25⟩ = x * ⟨2108 / 25, -1344 / 25⟩ := by
      rw [mul_assoc]; congr 1; apply Complex.ext <;> simp <;> norm_num
    have e2 : x * (⟨28, 96⟩ : ℂ) * ⟨-7 / 25, 24 / 25⟩ = -(100 * x) := by
      rw [mul_assoc, show (⟨28, 96⟩ : ℂ) * ⟨-7 / 25, 24 / 25⟩ = -100 by apply Complex.ext <;> simp <;> norm_num]; ring
    rw [h, e1, e2, complexMin, if_pos]
    · ring
    · left
      simp
      linarith
  · have e1 : x * (⟨28, -96⟩ : ℂ) * ⟨-7 / 25, 24 / 25⟩ = x * ⟨2108 / 25, 1344 / 25⟩ := by
      rw [mul_assoc]; congr 1; apply Complex.ext <;> simp <;> norm_num
    have e2 : x * (⟨28, -96⟩ : ℂ) * ⟨-7 / 25, -24 / 25⟩ = -(100 * x) := by
      rw [mul_assoc, show (⟨28, -96⟩ : ℂ) * ⟨-7 / 25, -24 / 25⟩ = -100 by apply Complex.ext <;> simp <;> norm_num]; ring
    rw [h, e1, e2, complexMin, if_neg]
    · ring
    · have : (s1 - -(100 * x)).re < (s1 - x * ⟨2108 / 25, 1344 / 25⟩).re := by
        simp
        linarith
      push Not
      exact ⟨this.le, fun h => absurd h this.ne'⟩

theorem diag_sum (b : List (ℤ × ℤ)) (hb : ∀ p ∈ b, Grid16 p) (g : ℂ) :
    ((b.map fun p => (g * gridC p, onDiag p)).map fun q => if q.2 then q.1 ^ 4 else 0).sum = -(g ^ 4 * (diagWeight b : ℂ)) := by
  unfold diagWeight
  induction b with
  | nil => simp
  | cons p b ih =>
    simp only [List.map_cons, List.sum_cons, ih fun q hq => hb q (by simp [hq])]
    cases h : onDiag p
    · simp
    · simp only [if_true]
      rw [mul_pow, (gridC_four p (hb p (by simp))).1 h]
      push_cast
      ring

/-- One block: the estimate is the fourfold phase of the signal plus a half turn. -/
theorem blockPhase16_grid (b : List (ℤ × ℤ)) (hb : ∀ p ∈ b, Grid16 p) (g : ℂ) (hr : midCount b = 0 ∨ 7 * |(g ^ 4).im| < -(24 * (g ^ 4).re))
    (hw : 100 * (midCount b : ℝ) < diagWeight b * (1 + midCount b)) :
    (‖g‖ ^ 4 : ℝ) * Complex.exp (I * (blockPhase16 (b.map fun p => (g * gridC p, onDiag p)) : ℂ)) = -g ^ 4 := by
  have hmid : (((b.map fun p => (g * gridC p, onDiag p)).filter fun p => !p.2).map fun p =>
      complexMin (-(g ^ 4 * (diagWeight b : ℂ)) - (p.1 * Complex.exp (I * (dphi16 : ℂ))) ^ 4) (-(g ^ 4 * (diagWeight b : ℂ)) - (p.1 * Complex.exp (I * ((-dphi16 : ℝ) : ℂ))) ^ 4)).sum =
      midCount b * (-(g ^ 4 * (diagWeight b : ℂ)) + 100 * g ^ 4) := by
    generalize -(g ^ 4 * (diagWeight b : ℂ)) = s1
    unfold midCount at hr ⊢
    clear hw
    induction b with
    | nil => simp
    | cons p b ih =>
      rw [List.countP_cons] at hr ⊢
      cases h : onDiag p
      · simp only [h, Bool.not_false, if_true] at hr ⊢
        have hr' : 7 * |(g ^ 4).im| < -(24 * (g ^ 4).re) := by
          rcases hr with hr | hr
          · omega
          · exact hr
        have := ih (fun q hq => hb q (by simp [hq])) (Or.inr hr')
        simp only [List.map_cons, h, List.filter_cons, Bool.not_false, if_true, List.sum_cons]
        rw [this, mid_choice p (hb p (by simp)) h g s1 hr']
        push_cast
        ring
      · simp only [h, Bool.not_true, Bool.false_eq_true, if_false, add_zero] at hr ⊢
        have := ih (fun q hq => hb q (by simp [hq])) hr
        simp only [List.map_cons, h, List.filter_cons, Bool.not_true, Bool.false_eq_true, if_false]
        rw [this]
  obtain ⟨κ, hκ⟩ : ∃ κ : ℝ, κ = diagWeight b * (1 + midCount b) - 100 * midCount b := ⟨_, rfl⟩
  have hκ0 : 0 < κ := by rw [hκ]; linarith
  have hphase : blockPhase16 (b.map fun p => (g * gridC p, onDiag p)) = Complex.arg (-(g ^ 4 * (κ : ℂ))) := by
    unfold blockPhase16
    simp only
    rw [diag_sum b hb g, hmid, hκ]
    congr 1
    push_cast
    ring
  rw [hphase, mul_comm I]
  have := Complex.norm_mul_exp_arg_mul_I (-(g ^ 4 * (κ : ℂ)))
  rw [norm_neg, norm_mul, norm_pow, Complex.norm_real, Real.norm_of_nonneg hκ0.le] at this
  have hκc : (κ : ℂ) ≠ 0 := by exact_mod_cast hκ0.ne'
  apply mul_right_cancel₀ hκc
  push_cast at this ⊢
  linear_combination this

/-- The estimate at sample `t` is that of its block. -/
theorem phiEst16_getElem? (E : List ℂ) (N t : Nat) (hN : 1 ≤ N) (ht : t < E.length) :
    (phiEst16 E N)[t]? = some (blockPhase16 (((E.zip (partition16 E).1).drop (t / N * N)).take N)) := by
  have hz : (E.zip (partition16 E).1).length = E.length := by rw [List.length_zip, (C62_exactly_one E).1, Nat.min_self]
  unfold phiEst16
  dsimp only
  rw [← hz] at ht ⊢
  generalize E.zip (partition16 E).1 = z at ht
  have hlen : ∀ n, ((List.range n).flatMap fun i => List.replicate ((z.drop (i * N)).take N).length (blockPhase16 ((z.drop (i * N)).take N))).length = min (n * N) z.length := by
    intro n
    induction n with
    | zero => simp
    | succ n ih =>
      rw [List.range_succ, List.flatMap_append, List.length_append, ih]
      simp only [List.flatMap_cons, List.flatMap_nil, List.append_nil, List.length_replicate, List.length_take, List.length_drop, Nat.succ_mul]
      omega
  have key : ∀ n, t < n * N → ((List.range n).flatMap fun i => List.replicate ((z.drop (i * N)).take N).length (blockPhase16 ((z.drop (i * N)).take N)))[t]? =
      some (blockPhase16 ((z.drop (t / N * N)).take N)) := by
    intro n
    induction n with
    | zero => intro h; omega
    | succ n ih =>
      intro h
      rw [List.range_succ, List.flatMap_append]
      by_cases hn : t < n * N
      · rw [List.getElem?_append_left (by rw [hlen]; omega), ih hn]
      · have e : t / N = n := by
          apply Nat.div_eq_of_lt_le
          · omega
          · exact h
        rw [List.getElem?_append_right (by rw [hlen]; omega), hlen, e]
        simp only [List.flatMap_cons, List.flatMap_nil, List.append_nil]
        rw [List.getElem?_replicate, if_pos]
        rw [List.length_take, List.length_drop]
        rw [Nat.succ_mul] at h
        omega
  apply key
  have h2 := Nat.div_add_mod (z.length + N - 1) N
  have h3 := Nat.mod_lt (z.length + N - 1) (show 0 < N by omega)
  rw [Nat.mul_comm] at h2
  omega

/-- The masks of a noiseless signal with the symbol frequencies of 16-QAM. -/
theorem partition16_grid (pts : List (ℤ × ℤ)) (hgrid : ∀ p ∈ pts, Grid16 p) (g : ℂ) (hg : g ≠ 0) (hbal : Balanced16 (Real.sqrt 10 * ‖g‖) (pts.map fun p => g * gridC p)) :
    (partition16 (pts.map fun p => g * gridC p)).1 = pts.map onDiag := by
  have hg0 : 0 < ‖g‖ := norm_pos_iff.2 hg
  have h := C62_noiseless _ (Real.sqrt 10 * ‖g‖) (by positivity) hbal
  apply List.ext_getElem?
  intro t
  by_cases ht : t < pts.length
  · rw [(h t (g * gridC pts[t]) (by simp [ht])).1, List.getElem?_map, List.getElem?_eq_getElem ht, Option.map_some]
    congr 1
    have hn : ‖g * gridC pts[t]‖ = Real.sqrt 10 * ‖g‖ ↔ pts[t].1 ^ 2 + pts[t].2 ^ 2 = 10 := by
      have hs : ‖gridC pts[t]‖ = Real.sqrt ((pts[t].1 ^ 2 + pts[t].2 ^ 2 : ℤ) : ℝ) := by
        rw [Complex.norm_def, gridC, Complex.normSq_mk]
        congr 1
        push_cast
        ring
      rw [norm_mul, mul_comm, mul_left_inj' hg0.ne', hs, Real.sqrt_inj (by positivity) (by norm_num)]
      exact_mod_cast Iff.rfl
    unfold onDiag
    rw [decide_eq_decide, ne_eq, hn]
    obtain ⟨h1, h2⟩ := hgrid pts[t] (List.getElem_mem _)
    rcases h1 with h1 | h1 <;> rcases h2 with h2 | h2 <;> rw [h1, h2] <;> norm_num
  · rw [List.getElem?_eq_none (by rw [(C62_exactly_one _).1, List.length_map]; omega), List.getElem?_eq_none (by simp; omega)]

/-- The full claim: the phase returned for a noiseless 16-QAM signal is the phase of the signal, up to quarter turns. -/
def C198_statement : Prop :=
  ∀ (pts : List (ℤ × ℤ)) (g : ℂ) (N : Nat), (∀ p ∈ pts, Grid16 p) → g ≠ 0 → Balanced16 (Real.sqrt 10 * ‖g‖) (pts.map fun p => g * gridC p) → 1 ≤ N →
    ∃ out ph, phasePartition16 [pts.map fun p => g * gridC p] N = .ok (out, [ph]) ∧ ph.length = pts.length ∧
      ∀ (t : Nat) (p : ℝ), ph[t]? = some p → (‖g‖ ^ 4 : ℝ) * Complex.exp (I * (p : ℂ)) ^ 4 = g ^ 4

/-- C198: the phase is right at every sample whose block has no symbols of the middle ring, or if the phase of the signal is less than `arctan(24/7)/4` (18.4 degrees) from the diagonal, up to
quarter turns, and the symbols on the diagonals have enough weight in the block. Missing: other phases, where the wrong rotation of the middle ring is selected. -/
theorem C198_phase_partial (pts : List (ℤ × ℤ)) (hgrid : ∀ p ∈ pts, Grid16 p) (g : ℂ) (hg : g ≠ 0) (hbal : Balanced16 (Real.sqrt 10 * ‖g‖) (pts.map fun p => g * gridC p)) (N : Nat) (hN : 1 ≤ N) :
    ∃ out ph, phasePartition16 [pts.map fun p => g * gridC p] N = .ok (out, [ph]) ∧ ph.length = pts.length ∧
      ∀ (t : Nat) (p : ℝ), ph[t]? = some p →
        (midCount ((pts.drop (t / N * N)).take N) = 0 ∨ 7 * |(g ^ 4).im| < -(24 * (g ^ 4).re)) →
        100 * (midCount ((pts.drop (t / N * N)).take N) : ℝ) < diagWeight ((pts.drop (t / N * N)).take N) * (1 + midCount ((pts.drop (t / N * N)).take N)) →
          (‖g‖ ^ 4 : ℝ) * Complex.exp (I * (p : ℂ)) ^ 4 = g ^ 4 := by
  have hok : phasePartition16 [pts.map fun p => g * gridC p] N = .ok ([pts.map fun p => g * gridC p].map fun r => List.zipWith (fun (e : ℂ) (p : ℝ) => e * Complex.exp (-I * (p : ℂ))) r
      (phiEst16 (pts.map fun p => g * gridC p) N), [(unwrap (phiEst16 (pts.map fun p => g * gridC p) N)).map fun p => p / 4 - Real.pi / 4]) := by
    unfold phasePartition16
    simp only [List.getLast?_singleton]
    rw [if_neg (by omega)]
    rfl
  refine ⟨_, _, hok, ?_, ?_⟩
  · simp [length_phiEst16 _ _ hN]
  · intro t p hp hr hw
    have ht : t < pts.length := by
      have := (List.getElem?_eq_some_iff.1 hp).1
      simpa [length_phiEst16 _ _ hN] using this
    have hphi := phiEst16_getElem? (pts.map fun p => g * gridC p) N t hN (by simpa using ht)
    have hzip : (pts.map fun p => g * gridC p).zip (pts.map onDiag) = pts.map fun p => (g * gridC p, onDiag p) := by
      rw [List.zip_map']
    rw [partition16_grid pts hgrid g hg hbal, hzip, ← List.map_drop, ← List.map_take] at hphi
    obtain ⟨k, hk⟩ := unwrap_mul _ _ _ hphi
    rw [List.getElem?_map, hk, Option.map_some, Option.some.injEq] at hp
    have hb := blockPhase16_grid ((pts.drop (t / N * N)).take N) (fun q hq => hgrid q (List.mem_of_mem_drop (List.mem_of_mem_take hq))) g hr hw
    generalize blockPhase16 (((pts.drop (t / N * N)).take N).map fun p => (g * gridC p, onDiag p)) = φ at *
    rw [← hp, ← Complex.exp_nat_mul]
    have e1 : ((4 : ℕ) : ℂ) * (I * (((φ + 2 * Real.pi * k) / 4 - Real.pi / 4 : ℝ) : ℂ)) = I * (φ : ℂ) - Real.pi * I + (k : ℂ) * (2 * Real.pi * I) := by
      push_cast; ring
    rw [e1, Complex.exp_add, Complex.exp_int_mul_two_pi_mul_I, Complex.exp_sub, Complex.exp_pi_mul_I]
    linear_combination (-1) * hb

theorem balanced_four (g : ℂ) (pts : List (ℤ × ℤ)) (h : pts.Perm [(1, 1), (1, 3), (3, 1), (3, 3)]) : Balanced16 (Real.sqrt 10 * ‖g‖) (pts.map fun p => g * gridC p) := by
  have hs : (Real.sqrt 10 * ‖g‖) ^ 2 = 10 * ‖g‖ ^ 2 := by rw [mul_pow, Real.sq_sqrt (by norm_num)]
  have hn : ∀ p : ℤ × ℤ, ‖g * gridC p‖ ^ 2 = ‖g‖ ^ 2 * ((p.1 : ℝ) ^ 2 + (p.2 : ℝ) ^ 2) := by
    intro p
    rw [norm_mul, mul_pow, ← Complex.normSq_eq_norm_sq (gridC p), gridC, Complex.normSq_mk]
    ring
  refine ⟨[g * gridC (1, 1)], [g * gridC (1, 3), g * gridC (3, 1)], [g * gridC (3, 3)], 1, by norm_num, rfl, rfl, rfl, ?_, ?_, ?_, ?_⟩
  · have := h.map fun p => g * gridC p
    simpa using this
  · intro e he
    rw [List.mem_singleton] at he
    rw [he, hn, hs]; norm_num; ring
  · intro e he
    simp only [List.mem_cons, List.not_mem_nil, or_false] at he
    rcases he with he | he <;> rw [he, hn, hs] <;> norm_num <;> ring
  · intro e he
    rw [List.mem_singleton] at he
    rw [he, hn, hs]; norm_num; ring

theorem grid_four (pts : List (ℤ × ℤ)) (h : pts.Perm [(1, 1), (1, 3), (3, 1), (3, 3)]) : ∀ p ∈ pts, Grid16 p := by
  intro p hp
  have := h.mem_iff.1 hp
  simp only [List.mem_cons, List.not_mem_nil, or_false] at this
  rcases this with h | h | h | h <;> rw [h] <;> unfold Grid16 <;> norm_num

/-- Non-vacuity: at a phase of 45 degrees one block of four symbols is recovered. -/
example : ∃ out ph, phasePartition16 [([(1, 1), (1, 3), (3, 1), (3, 3)] : List (ℤ × ℤ)).map fun p => (1 + I) * gridC p] 4 = .ok (out, [ph]) ∧ ph.length = 4 ∧
    ∀ (t : Nat) (p : ℝ), ph[t]? = some p → Complex.exp (I * (p : ℂ)) ^ 4 = -1 := by
  have hI : (1 + I) ^ 4 = -4 := by
    have : (1 + I) ^ 2 = 2 * I := by linear_combination Complex.I_sq
    rw [show 4 = 2 * 2 from rfl, pow_mul, this]
    linear_combination 4 * Complex.I_sq
  have hg : (1 + I) ≠ 0 := by intro h; rw [h] at hI; norm_num at hI
  obtain ⟨out, ph, h1, h2, h3⟩ := C198_phase_partial [(1, 1), (1, 3), (3, 1), (3, 3)] (grid_four _ (List.Perm.refl _)) (1 + I) hg (balanced_four _ _ (List.Perm.refl _)) 4 (by norm_num)
  refine ⟨out, ph, h1, h2, ?_⟩
  intro t p hp
  have ht : t < 4 := by
    have := (List.getElem?_eq_some_iff.1 hp).1
    rw [h2] at this
    exact this
  have h0 : t / 4 * 4 = 0 := by omega
  have hn : (‖1 + I‖ ^ 4 : ℝ) = 4 := by rw [← norm_pow, hI]; simp
  have := h3 t p hp (Or.inr (by rw [hI]; norm_num)) (by
    rw [h0]
    norm_num [midCount, diagWeight, onDiag, List.countP_cons])
  rw [hn, hI] at this
  push_cast at this
  linear_combination this / 4

/-- Non-vacuity: without a rotation the samples of a block with symbols on the diagonals only are recovered, whatever follows. -/
example : ∃ out ph, phasePartition16 [([(1, 1), (3, 3), (1, 3), (3, 1)] : List (ℤ × ℤ)).map fun p => 1 * gridC p] 2 = .ok (out, [ph]) ∧
    ∀ (t : Nat) (p : ℝ), t < 2 → ph[t]? = some p → Complex.exp (I * (p : ℂ)) ^ 4 = 1 := by
  have hp4 : ([(1, 1), (3, 3), (1, 3), (3, 1)] : List (ℤ × ℤ)).Perm [(1, 1), (1, 3), (3, 1), (3, 3)] := by decide
  obtain ⟨out, ph, h1, h2, h3⟩ := C198_phase_partial _ (grid_four _ hp4) 1 one_ne_zero (balanced_four _ _ hp4) 2 (by norm_num)
  refine ⟨out, ph, h1, ?_⟩
  intro t p ht hp
  have h0 : t / 2 * 2 = 0 := by omega
  have := h3 t p hp (Or.inl (by rw [h0]; decide)) (by
    rw [h0]
    norm_num [midCount, diagWeight, onDiag, List.countP_cons])
  simpa using this

/-- C198: the full claim fails: without a rotation the block of the symbols `1+i` and `1+3i` is given a wrong phase. -/
theorem C198_false : ¬ C198_statement := by
  intro h
  obtain ⟨out, ph, h1, -, h3⟩ := h [(1, 1), (1, 3), (3, 1), (3, 3)] 1 2 (grid_four _ (List.Perm.refl _)) one_ne_zero (balanced_four _ _ (List.Perm.refl _)) (by norm_num)
  have hphi := phiEst16_getElem? (([(1, 1), (1, 3), (3, 1), (3, 3)] : List (ℤ × ℤ)).map fun p => 1 * gridC p) 2 0 (by norm_num) (by simp)
  have hzip : (([(1, 1), (1, 3), (3, 1), (3, 3)] : List (ℤ × ℤ)).map fun p => 1 * gridC p).zip (([(1, 1), (1, 3), (3, 1), (3, 3)] : List (ℤ × ℤ)).map onDiag) =
      ([(1, 1), (1, 3), (3, 1), (3, 3)] : List (ℤ × ℤ)).map fun p => (1 * gridC p, onDiag p) := by rw [List.zip_map']
  rw [partition16_grid _ (grid_four _ (List.Perm.refl _)) 1 one_ne_zero (balanced_four _ _ (List.Perm.refl _)), hzip, ← List.map_drop, ← List.map_take] at hphi
  obtain ⟨k, hk⟩ := unwrap_mul _ _ _ hphi
  have hok : ph = (unwrap (phiEst16 (([(1, 1), (1, 3), (3, 1), (3, 3)] : List (ℤ × ℤ)).map fun p => 1 * gridC p) 2)).map fun p => p / 4 - Real.pi / 4 := by
    unfold phasePartition16 at h1
    simp only [List.getLast?_singleton] at h1
    rw [if_neg (by norm_num)] at h1
    injection h1 with h1
    injection h1 with _ h1
    injection h1 with h1 _
    exact h1.symm
  have hp := h3 0 _ (by rw [hok, List.getElem?_map, hk, Option.map_some])
  have hb : blockPhase16 ((([(1, 1), (1, 3), (3, 1), (3, 3)] : List (ℤ × ℤ)).drop (0 / 2 * 2)).take 2 |>.map fun p => (1 * gridC p, onDiag p)) = Complex.arg ⟨-2308 / 25, -1344 / 25⟩ := by
    have d1 : onDiag (1, 1) = true := by decide
    have d2 : onDiag (1, 3) = false := by decide
    have e1 : gridC (1, 1) ^ 4 = -4 := by
      rw [(gridC_four (1, 1) (by unfold Grid16; norm_num)).1 d1]; norm_num
    have e2 : gridC (1, 3) ^ 4 = ⟨28, -96⟩ := by
      have : gridC (1, 3) ^ 2 = ⟨-8, 6⟩ := by rw [pow_two]; unfold gridC; apply Complex.ext <;> simp <;> norm_num
      rw [show 4 = 2 * 2 from rfl, pow_mul, this, pow_two]
      apply Complex.ext <;> simp <;> norm_num
    have f1 : -4 - (⟨28, -96⟩ : ℂ) * ⟨-7 / 25, -24 / 25⟩ = ⟨96, 0⟩ := by apply Complex.ext <;> simp <;> norm_num
    have f2 : -4 - (⟨28, -96⟩ : ℂ) * ⟨-7 / 25, 24 / 25⟩ = ⟨-2208 / 25, -1344 / 25⟩ := by apply Complex.ext <;> simp <;> norm_num
    unfold blockPhase16
    simp only [Nat.zero_div, Nat.zero_mul, List.drop_zero, List.take_succ_cons, List.take_zero, List.map_cons, List.map_nil, d1, d2, List.sum_cons, List.sum_nil, if_true, Bool.false_eq_true, if_false,
      List.filter_cons, List.filter_nil, Bool.not_true, Bool.not_false, one_mul, add_zero, e1]
    rw [mul_pow, mul_pow, exp_dphi16, exp_neg_dphi16, e2, f1, f2, complexMin, if_pos (by norm_num)]
    congr 1
    apply Complex.ext
    · simp; norm_num
    · simp
  rw [hb, norm_one, one_pow, one_pow, ← Complex.exp_nat_mul] at hp
  have e1 : ((4 : ℕ) : ℂ) * (I * (((Complex.arg ⟨-2308 / 25, -1344 / 25⟩ + 2 * Real.pi * k) / 4 - Real.pi / 4 : ℝ) : ℂ)) =
      (Complex.arg ⟨-2308 / 25, -1344 / 25⟩ : ℂ) * I - Real.pi * I + (k : ℂ) * (2 * Real.pi * I) := by
    push_cast; ring
  rw [e1, Complex.exp_add, Complex.exp_int_mul_two_pi_mul_I, Complex.exp_sub, Complex.exp_pi_mul_I] at hp
  have hn := Complex.norm_mul_exp_arg_mul_I ⟨-2308 / 25, -1344 / 25⟩
  have he : Complex.exp ((Complex.arg ⟨-2308 / 25, -1344 / 25⟩ : ℂ) * I) = -1 := by
    push_cast at hp
    linear_combination (-1) * hp
  rw [he] at hn
  have := congrArg Complex.im hn
  norm_num at this

end Qampy
