import Verif.Model.DspCython
import Verif.Tactics

/-!
C230: the Cython versions of the compiled functions agree with the Pythran versions.
-/

namespace Qampy

theorem cabsq_norm (z : ℂ) : cabsq z = ‖z‖ ^ 2 := by
  rw [Complex.sq_norm, Complex.normSq_apply, cabsq]
  ring

/-- The two searches differ in their start values only; both distances are cut at 100. -/
theorem cyDet_cap (X : ℂ) (symbols : List ℂ) :
    (if (cyDetSymbol symbols X).2 < 100 then (cyDetSymbol symbols X).2 else 100) = if detDist X symbols < 100 then detDist X symbols else (100 : ℝ) := by
  have key : ∀ (l : List ℂ) (s : ℂ) (d d' : ℝ), min d 100 = min d' 100 →
      min (cyDetSymbolGo X l s d).2 100 = min (l.foldl (fun d0 s => if cabsq (X - s) < d0 then cabsq (X - s) else d0) d') 100 := by
    intro l
    induction l with
    | nil => intro s d d' h; exact h
    | cons c l ih =>
      intro s d d' h
      have hc : (c.re - X.re) ^ 2 + (c.im - X.im) ^ 2 = cabsq (X - c) := by
        unfold cabsq
        simp only [Complex.sub_re, Complex.sub_im]
        ring
      rw [cyDetSymbolGo, List.foldl_cons, hc]
      have hstep : min (if cabsq (X - c) < d then cabsq (X - c) else d) 100 = min (if cabsq (X - c) < d' then cabsq (X - c) else d') 100 := by
        have e : ∀ t : ℝ, (if cabsq (X - c) < t then cabsq (X - c) else t) = min (cabsq (X - c)) t := by
          intro t
          rcases lt_or_ge (cabsq (X - c)) t with h | h
          · rw [if_pos h, min_eq_left h.le]
          · rw [if_neg (not_lt.2 h), min_eq_right h]
        rw [e, e, min_assoc, min_assoc, h]
      by_cases hd : cabsq (X - c) < d
      · rw [if_pos hd]
        rw [if_pos hd] at hstep
        exact ih c _ _ hstep
      · rw [if_neg hd]
        rw [if_neg hd] at hstep
        exact ih s _ _ hstep
  have h := key symbols 0 10000 1000 (by norm_num)
  have e : ∀ t : ℝ, (if t < 100 then t else 100) = min t 100 := by
    intro t
    rcases lt_or_ge t 100 with h | h
    · rw [if_pos h, min_eq_left h.le]
    · rw [if_neg (not_lt.2 h), min_eq_right h]
  rw [e, e]
  exact h

/-- C230, blind phase search: the same indices for all signals, test angles, alphabets and block lengths. -/
theorem C230_bps (E : List ℂ) (angles : List (List ℝ)) (symbols : List ℂ) (N : Nat) : cyBps E angles symbols N = bpsIdx E angles symbols N := by
  unfold cyBps bpsIdx bpsDists
  simp only [cyDet_cap]

/-- The array after the loops of the demappers. -/
theorem cyDemapLoop_get (N nb : Nat) (val : Nat → Nat → ℝ) :
    (cyDemapLoop N nb val).length = N * nb ∧ ∀ s < N, ∀ b < nb, (cyDemapLoop N nb val)[s * nb + b]? = some (val s b) := by
  have hidx : ∀ s s' b b' : Nat, b < nb → b' < nb → s * nb + b = s' * nb + b' → s = s' ∧ b = b' := by
    intro s s' b b' hb hb' h
    have h1 := congrArg (· / nb) h
    have h2 := congrArg (· % nb) h
    have hp : 0 < nb := by omega
    simp only [Nat.mul_comm s nb, Nat.mul_comm s' nb, Nat.mul_add_div hp, Nat.mul_add_mod, Nat.div_eq_of_lt hb, Nat.div_eq_of_lt hb', Nat.mod_eq_of_lt hb, Nat.mod_eq_of_lt hb'] at h1 h2
    omega
  have hlt : ∀ s b : Nat, s < N → b < nb → s * nb + b < N * nb := by
    intro s b hs hb
    have : (s + 1) * nb ≤ N * nb := Nat.mul_le_mul_right _ hs
    rw [Nat.add_mul] at this
    omega
  have inner : ∀ (bit : Nat), bit < nb → ∀ (n : Nat), n ≤ N → ∀ L : List ℝ, L.length = N * nb →
      ((List.range n).foldl (fun L symb => L.set (symb * nb + bit) (val symb bit)) L).length = N * nb ∧
      ∀ s < N, ∀ b < nb, ((List.range n).foldl (fun L symb => L.set (symb * nb + bit) (val symb bit)) L)[s * nb + b]? = if b = bit ∧ s < n then some (val s b) else L[s * nb + b]? := by
    intro bit hbit n
    induction n with
    | zero => intro _ L hL; exact ⟨hL, fun s _ b _ => by simp⟩
    | succ n ih =>
      intro hn L hL
      obtain ⟨h1, h2⟩ := ih (by omega) L hL
      rw [List.range_succ, List.foldl_append, List.foldl_cons, List.foldl_nil]
      refine ⟨by rw [List.length_set, h1], fun s hs b hb => ?_⟩
      by_cases h : n * nb + bit = s * nb + b
      · obtain ⟨rfl, rfl⟩ := hidx _ _ _ _ hbit hb h
        rw [List.getElem?_set_self (by rw [h1]; exact hlt _ _ hs hb), if_pos ⟨rfl, Nat.lt_succ_self _⟩]
      · rw [List.getElem?_set_ne h, h2 s hs b hb]
        have : (b = bit ∧ s < n) ↔ (b = bit ∧ s < n + 1) := by
          constructor
          · rintro ⟨a, c⟩; exact ⟨a, by omega⟩
          · rintro ⟨rfl, c⟩
            refine ⟨rfl, ?_⟩
            rcases Nat.lt_succ_iff_lt_or_eq.1 c with c | rfl
            · exact c
            · exact absurd rfl h
        simp only [this]
  have outer : ∀ n ≤ nb, ((List.range n).foldl (fun L bit => (List.range N).foldl (fun L symb => L.set (symb * nb + bit) (val symb bit)) L) (List.replicate (N * nb) 0)).length = N * nb ∧
      ∀ s < N, ∀ b < nb, b < n → ((List.range n).foldl (fun L bit => (List.range N).foldl (fun L symb => L.set (symb * nb + bit) (val symb bit)) L) (List.replicate (N * nb) 0))[s * nb + b]? = some (val s b) := by
    intro n
    induction n with
    | zero => intro _; exact ⟨by simp, fun s _ b _ h => absurd h (Nat.not_lt_zero _)⟩
    | succ n ih =>
      intro hn
      obtain ⟨h1, h2⟩ := ih (by omega)
      rw [List.range_succ, List.foldl_append, List.foldl_cons, List.foldl_nil]
      obtain ⟨i1, i2⟩ := inner n (by omega) N le_rfl _ h1
      refine ⟨i1, fun s hs b hb hbn => ?_⟩
      rw [i2 s hs b hb]
      by_cases h : b = n
      · rw [if_pos ⟨h, hs⟩]
      · rw [if_neg (fun hc => h hc.1)]
        exact h2 s hs b hb (by omega)
  obtain ⟨h1, h2⟩ := outer nb le_rfl
  exact ⟨h1, fun s hs b hb => h2 s hs b hb hb⟩

/-- A flat array with the rows one behind the other. -/
theorem flatten_rows {α β : Type} (rx : List α) (cols : List β) (f : α → β → ℝ) (da : α) (db : β) (L : List ℝ) (hL : L.length = rx.length * cols.length)
    (h : ∀ s < rx.length, ∀ b < cols.length, L[s * cols.length + b]? = some (f (rx.getD s da) (cols.getD b db))) :
    L = (rx.map fun r => cols.map fun c => f r c).flatten := by
  induction rx generalizing L with
  | nil =>
    simp only [List.length_nil, Nat.zero_mul] at hL
    simp [List.length_eq_zero_iff.1 hL]
  | cons r rx ih =>
    rw [List.map_cons, List.flatten_cons]
    have hlen : L.length = cols.length + rx.length * cols.length := by rw [hL, List.length_cons, Nat.add_mul]; omega
    rw [← List.take_append_drop cols.length L]
    congr 1
    · apply List.ext_getElem?
      intro b
      by_cases hb : b < cols.length
      · have := h 0 (by simp) b hb
        rw [List.getElem?_take_of_lt hb, List.getElem?_map]
        simp only [Nat.zero_mul, Nat.zero_add, List.getD_cons_zero] at this
        rw [this, List.getElem?_eq_getElem hb, Option.map_some, List.getD_eq_getElem?_getD, List.getElem?_eq_getElem hb, Option.getD_some]
      · rw [List.getElem?_eq_none (by simp; omega), List.getElem?_eq_none (by simp; omega)]
    · apply ih
      · rw [List.length_drop, hlen]; omega
      · intro s hs b hb
        have := h (s + 1) (by simp; omega) b hb
        rw [List.getElem?_drop, List.getD_cons_succ] at *
        rw [← this]
        congr 1
        ring

theorem cyExpSums_eq (snr : ℝ) (r : ℂ) (c : List ℂ × List ℂ) (h : c.1.length = c.2.length) :
    cyExpSums snr r (c.1.zip c.2) = ((c.2.map fun s => Real.exp (-snr * ‖s - r‖ ^ 2)).sum, (c.1.map fun s => Real.exp (-snr * ‖s - r‖ ^ 2)).sum) := by
  have key : ∀ (l0 l1 : List ℂ) (t : ℝ × ℝ), l0.length = l1.length →
      (l0.zip l1).foldl (fun t b => (t.1 + Real.exp (-snr * cabsq (b.2 - r)), t.2 + Real.exp (-snr * cabsq (b.1 - r)))) t =
        (t.1 + (l1.map fun s => Real.exp (-snr * ‖s - r‖ ^ 2)).sum, t.2 + (l0.map fun s => Real.exp (-snr * ‖s - r‖ ^ 2)).sum) := by
    intro l0
    induction l0 with
    | nil =>
      intro l1 t h
      rw [List.length_eq_zero_iff.1 h.symm]
      simp
    | cons a l0 ih =>
      intro l1 t h
      cases l1 with
      | nil => simp at h
      | cons b l1 =>
        rw [List.zip_cons_cons, List.foldl_cons, ih l1 _ (by simpa using h)]
        simp only [List.map_cons, List.sum_cons, cabsq_norm, add_assoc]
  unfold cyExpSums
  rw [key c.1 c.2 (0, 0) h]
  simp

theorem cyMinmax_eq (r : ℂ) (c : List ℂ × List ℂ) : cyMinmax r (c.1.zip c.2) = findMinmax c r := by
  have key : ∀ (l : List (ℂ × ℂ)) (t : ℝ × ℝ),
      l.foldl (fun t b => (if cabsq (b.2 - r) < t.1 then cabsq (b.2 - r) else t.1, if cabsq (b.1 - r) < t.2 then cabsq (b.1 - r) else t.2)) t = findMinmaxLoop r l t := by
    intro l
    induction l with
    | nil => intro t; rfl
    | cons b l ih =>
      intro t
      rw [List.foldl_cons, ih, findMinmaxLoop]
      simp only [cabsq_norm]
  exact key _ _

/-- C230, soft demapping: the flat array has the L-values of the Pythran version row by row. -/
theorem C230_soft (rx : List ℂ) (snr : ℝ) (bitsMap : List (List ℂ × List ℂ)) (h : ∀ c ∈ bitsMap, c.1.length = c.2.length) :
    cySoftLValueDemapper rx bitsMap.length snr bitsMap = (softLValueDemapper rx snr bitsMap).flatten := by
  unfold softLValueDemapper
  obtain ⟨h1, h2⟩ := cyDemapLoop_get rx.length bitsMap.length fun symb bit =>
    Real.log (cyExpSums snr (rx.getD symb 0) ((bitsMap.getD bit ([], [])).1.zip (bitsMap.getD bit ([], [])).2)).1 -
      Real.log (cyExpSums snr (rx.getD symb 0) ((bitsMap.getD bit ([], [])).1.zip (bitsMap.getD bit ([], [])).2)).2
  apply flatten_rows rx bitsMap (fun r c => calLValues c r snr) 0 ([], []) _ h1
  intro s hs b hb
  refine (h2 s hs b hb).trans ?_
  have hc : (bitsMap.getD b ([], [])).1.length = (bitsMap.getD b ([], [])).2.length := by
    rw [List.getD_eq_getElem?_getD, List.getElem?_eq_getElem hb, Option.getD_some]
    exact h _ (List.getElem_mem _)
  rw [cyExpSums_eq _ _ _ hc]
  rfl

/-- C230, max-log demapping. -/
theorem C230_minmax (rx : List ℂ) (snr : ℝ) (bitsMap : List (List ℂ × List ℂ)) :
    cySoftLValueDemapperMinmax rx bitsMap.length snr bitsMap = (softLValueDemapperMinmax rx snr bitsMap).flatten := by
  unfold softLValueDemapperMinmax
  obtain ⟨h1, h2⟩ := cyDemapLoop_get rx.length bitsMap.length fun symb bit =>
    snr * ((cyMinmax (rx.getD symb 0) ((bitsMap.getD bit ([], [])).1.zip (bitsMap.getD bit ([], [])).2)).2 -
      (cyMinmax (rx.getD symb 0) ((bitsMap.getD bit ([], [])).1.zip (bitsMap.getD bit ([], [])).2)).1)
  apply flatten_rows rx bitsMap (fun r c => maxLogLValue c r snr) 0 ([], []) _ h1
  intro s hs b hb
  refine (h2 s hs b hb).trans ?_
  rw [cyMinmax_eq]
  rfl

theorem sum_swap {α β : Type} (l : List α) (m : List β) (f : α → β → ℝ) : (l.map fun a => (m.map fun b => f a b).sum).sum = (m.map fun b => (l.map fun a => f a b).sum).sum := by
  induction l with
  | nil => simp
  | cons a l ih => simp only [List.map_cons, List.sum_cons, ih, List.sum_map_add]

theorem sum_quot {α : Type} (l : List α) (f : α → ℝ) (c : ℝ) : (l.map fun a => f a / c).sum = (l.map f).sum / c := by
  induction l with
  | nil => simp
  | cons a l ih => simp only [List.map_cons, List.sum_cons, ih, add_div]

/-- C230, Monte Carlo GMI: the same value for the same noise (without noise values the Pythran version is nan). -/
theorem C230_gmi (symbols : List ℂ) (snr : ℝ) (z : List ℂ) (_hz : z ≠ []) (nbits : Nat) (bitMap : List (List ℂ × List ℂ)) :
    cyCalGmiMc symbols snr z nbits bitMap = calGmiMc symbols snr z nbits bitMap := by
  have hcol : ∀ col : List ℂ, (col.map fun sym => (z.map fun zl => Real.logb 2 (calExpSum sym symbols zl snr / calExpSum sym col zl snr) / z.length).sum).sum =
      (z.map fun zl => (col.map fun sym => Real.logb 2 (calExpSum sym symbols zl snr / calExpSum sym col zl snr)).sum).sum / z.length := by
    intro col
    simp only [sum_quot]
    rw [sum_swap]
  have hrow : ∀ c : List ℂ × List ℂ, ([c.1, c.2].map fun col => (col.map fun sym => (z.map fun zl =>
      Real.logb 2 (calExpSum sym symbols zl snr / calExpSum sym col zl snr) / z.length).sum).sum).sum =
      ([false, true].map fun b => (z.map fun zl => ((if b then c.2 else c.1).map fun sym =>
        Real.logb 2 (calExpSum sym symbols zl snr / calExpSum sym (if b then c.2 else c.1) zl snr)).sum).sum).sum / z.length := by
    intro c
    rw [List.map_cons, List.map_cons, List.map_nil, hcol, hcol]
    simp [add_div]
  unfold cyCalGmiMc calGmiMc
  rw [List.map_congr_left fun c _ => hrow c, sum_quot]
  dsimp only
  rw [div_div, mul_comm (z.length : ℝ)]

/-- Two samples of 4-QAM give four L-values in the order of the bits. -/
example : (cySoftLValueDemapper [1, Complex.I] 2 3 [([1, -1], [Complex.I, 2]), ([1, 2], [-1, Complex.I])]).length = 4 := by
  have := C230_soft [1, Complex.I] 3 [([1, -1], [Complex.I, 2]), ([1, 2], [-1, Complex.I])] (by simp)
  exact (congrArg List.length this).trans rfl

end Qampy
