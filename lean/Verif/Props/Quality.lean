import Verif.Model.Quality
import Verif.Lemmas.Constellation
import Verif.Props.Constellation
import Mathlib.Analysis.SpecialFunctions.Log.Base

/-!
C18, C19, C46, C47, C66, C76, C77: soft demapping, information rates, error rates, EVM, SNR estimation.
-/

namespace Qampy

/-! ### C18, C19: L-values -/

theorem findMinmaxLoop_spec (rx : ℂ) (l : List (ℂ × ℂ)) (a b : ℝ) :
    let r := findMinmaxLoop rx l (a, b)
    (r.1 ≤ a ∧ (∀ p ∈ l, r.1 ≤ ‖p.2 - rx‖ ^ 2) ∧ (r.1 = a ∨ ∃ p ∈ l, r.1 = ‖p.2 - rx‖ ^ 2)) ∧
    (r.2 ≤ b ∧ (∀ p ∈ l, r.2 ≤ ‖p.1 - rx‖ ^ 2) ∧ (r.2 = b ∨ ∃ p ∈ l, r.2 = ‖p.1 - rx‖ ^ 2)) := by
  induction l generalizing a b with
  | nil => simp [findMinmaxLoop]
  | cons p l ih =>
    obtain ⟨s0, s1⟩ := p
    simp only [findMinmaxLoop]
    set a' := if ‖s1 - rx‖ ^ 2 < a then ‖s1 - rx‖ ^ 2 else a with ha'
    set b' := if ‖s0 - rx‖ ^ 2 < b then ‖s0 - rx‖ ^ 2 else b with hb'
    obtain ⟨⟨h1, h2, h3⟩, h4, h5, h6⟩ := ih a' b'
    have ea : a' ≤ a ∧ a' ≤ ‖s1 - rx‖ ^ 2 ∧ (a' = a ∨ a' = ‖s1 - rx‖ ^ 2) := by
      rw [ha']; split_ifs with h
      · exact ⟨h.le, le_rfl, Or.inr rfl⟩
      · exact ⟨le_rfl, not_lt.1 h, Or.inl rfl⟩
    have eb : b' ≤ b ∧ b' ≤ ‖s0 - rx‖ ^ 2 ∧ (b' = b ∨ b' = ‖s0 - rx‖ ^ 2) := by
      rw [hb']; split_ifs with h
      · exact ⟨h.le, le_rfl, Or.inr rfl⟩
      · exact ⟨le_rfl, not_lt.1 h, Or.inl rfl⟩
    refine ⟨⟨h1.trans ea.1, ?_, ?_⟩, h4.trans eb.1, ?_, ?_⟩
    · intro p hp
      rcases List.mem_cons.1 hp with rfl | hp
      · exact h1.trans ea.2.1
      · exact h2 p hp
    · rcases h3 with h | ⟨p, hp, h⟩
      · rcases ea.2.2 with h' | h'
        · exact Or.inl (h.trans h')
        · exact Or.inr ⟨(s0, s1), by simp, h.trans h'⟩
      · exact Or.inr ⟨p, by simp [hp], h⟩
    · intro p hp
      rcases List.mem_cons.1 hp with rfl | hp
      · exact h4.trans eb.2.1
      · exact h5 p hp
    · rcases h6 with h | ⟨p, hp, h⟩
      · rcases eb.2.2 with h' | h'
        · exact Or.inl (h.trans h')
        · exact Or.inr ⟨(s0, s1), by simp, h.trans h'⟩
      · exact Or.inr ⟨p, by simp [hp], h⟩

theorem exists_zip_left {α β : Type _} {l : List α} {m : List β} (h : l.length = m.length) {a : α} (ha : a ∈ l) :
    ∃ p ∈ l.zip m, p.1 = a := by
  have : a ∈ (l.zip m).map Prod.fst := by rwa [List.map_fst_zip h.le]
  obtain ⟨p, hp, rfl⟩ := List.mem_map.1 this
  exact ⟨p, hp, rfl⟩

theorem exists_zip_right {α β : Type _} {l : List α} {m : List β} (h : l.length = m.length) {b : β} (hb : b ∈ m) :
    ∃ p ∈ l.zip m, p.2 = b := by
  have : b ∈ (l.zip m).map Prod.snd := by rwa [List.map_snd_zip h.ge]
  obtain ⟨p, hp, rfl⟩ := List.mem_map.1 this
  exact ⟨p, hp, rfl⟩

theorem findMinmax_spec (btx : List ℂ × List ℂ) (hl : btx.1.length = btx.2.length) (rx : ℂ) :
    let r := findMinmax btx rx
    (r.1 ≤ 10000 ∧ (∀ s ∈ btx.2, r.1 ≤ ‖s - rx‖ ^ 2) ∧ (r.1 = 10000 ∨ ∃ s ∈ btx.2, r.1 = ‖s - rx‖ ^ 2)) ∧
    (r.2 ≤ 10000 ∧ (∀ s ∈ btx.1, r.2 ≤ ‖s - rx‖ ^ 2) ∧ (r.2 = 10000 ∨ ∃ s ∈ btx.1, r.2 = ‖s - rx‖ ^ 2)) := by
  obtain ⟨⟨h1, h2, h3⟩, h4, h5, h6⟩ := findMinmaxLoop_spec rx (btx.1.zip btx.2) 10000 10000
  refine ⟨⟨h1, ?_, ?_⟩, h4, ?_, ?_⟩
  · intro s hs
    obtain ⟨p, hp, rfl⟩ := exists_zip_right hl hs
    exact h2 p hp
  · rcases h3 with h | ⟨p, hp, h⟩
    · exact Or.inl h
    · exact Or.inr ⟨p.2, (List.of_mem_zip hp).2, h⟩
  · intro s hs
    obtain ⟨p, hp, rfl⟩ := exists_zip_left hl hs
    exact h5 p hp
  · rcases h6 with h | ⟨p, hp, h⟩
    · exact Or.inl h
    · exact Or.inr ⟨p.1, (List.of_mem_zip hp).1, h⟩

/-- C18: a nonzero max-log L-value has the sign of the bit in the label of the hard decision. -/
theorem C18_sign (k : Nat) (coded : List ℂ) (hl : coded.length = 2 ^ k) (m : List (List ℂ × List ℂ))
    (hm : bitmapMtx k coded = .ok m) (snr : ℝ) (hsnr : 0 < snr) (rx : List ℂ) (d : List (ℂ × ℝ × Nat))
    (hd : makeDecision rx coded = some d) (n bit : Nat) (row : List ℝ) (v : ℝ) (s : ℂ) (r : ℝ) (l : Nat)
    (hrow : (softLValueDemapperMinmax rx snr m)[n]? = some row) (hv : row[bit]? = some v)
    (hdn : d[n]? = some (s, r, l)) :
    (0 < v → (encodingRow k l)[bit]? = some true) ∧ (v < 0 → (encodingRow k l)[bit]? = some false) := by
  obtain ⟨m', hm', hml, hspec⟩ := C17_bitmap k coded hl
  rw [hm] at hm'
  have : m = m' := by injection hm'
  subst this
  rw [softLValueDemapperMinmax, List.getElem?_map, Option.map_eq_some_iff] at hrow
  obtain ⟨x, hx, rfl⟩ := hrow
  rw [List.getElem?_map, Option.map_eq_some_iff] at hv
  obtain ⟨c, hc, rfl⟩ := hv
  obtain ⟨h1, h2, -, h3, h4⟩ := hspec bit c hc
  have hbit : bit < k := by rw [← hml]; exact (List.getElem?_eq_some_iff.1 hc).1
  have hne : coded ≠ [] := by
    rintro rfl
    have : 0 < 2 ^ k := by positivity
    rw [List.length_nil] at hl
    omega
  obtain ⟨d', hd', -, hdspec⟩ := C16_min_distance rx coded hne
  rw [hd] at hd'
  have : d = d' := by simpa using hd'
  subst this
  obtain ⟨g1, -, g3, -⟩ := hdspec n x s r l hx hdn
  obtain ⟨⟨a1, a2, a3⟩, b1, b2, b3⟩ := findMinmax_spec c (h1.trans h2.symm) x
  have hrow : (encodingRow k l)[bit]? = some (l.testBit (k - 1 - bit)) := encodingRow_getElem? _ _ _ hbit
  have mono : ∀ t ∈ coded, ‖s - x‖ ^ 2 ≤ ‖t - x‖ ^ 2 := by
    intro t ht
    have := g3 t ht
    rw [norm_sub_rev s x, norm_sub_rev t x]
    exact pow_le_pow_left₀ (norm_nonneg _) this 2
  constructor
  · intro hpos
    have hlt : (findMinmax c x).1 < (findMinmax c x).2 := by
      have := (mul_pos_iff_of_pos_left hsnr).1 hpos
      linarith
    rcases a3 with h | ⟨t, ht, h⟩
    · rw [h] at hlt; exact absurd (hlt.trans_le b1) (lt_irrefl _)
    · by_contra hne
      rw [hrow] at hne
      have hf : l.testBit (k - 1 - bit) = false := by simpa using hne
      have hs : s ∈ c.1 := (h3 s).2 ⟨l, g1, by rw [hrow, hf]⟩
      have e1 := b2 s hs
      obtain ⟨lt', ht', -⟩ := (h4 t).1 ht
      have e2 := mono t (List.mem_of_getElem? ht')
      rw [← h] at e2
      linarith
  · intro hneg
    have hlt : (findMinmax c x).2 < (findMinmax c x).1 := by
      rw [maxLogLValue] at hneg
      by_contra hge
      have := mul_nonneg hsnr.le (sub_nonneg.2 (not_lt.1 hge))
      linarith
    rcases b3 with h | ⟨t, ht, h⟩
    · rw [h] at hlt; exact absurd (hlt.trans_le a1) (lt_irrefl _)
    · by_contra hne
      rw [hrow] at hne
      have hf : l.testBit (k - 1 - bit) = true := by simpa using hne
      have hs : s ∈ c.2 := (h4 s).2 ⟨l, g1, by rw [hrow, hf]⟩
      have e1 := a2 s hs
      obtain ⟨lt', ht', -⟩ := (h3 t).1 ht
      have e2 := mono t (List.mem_of_getElem? ht')
      rw [← h] at e2
      linarith

theorem findMinmax_isLeast (btx : List ℂ × List ℂ) (hl : btx.1.length = btx.2.length) (rx : ℂ)
    (h0 : ∃ s ∈ btx.1, ‖s - rx‖ ≤ 100) (h1 : ∃ s ∈ btx.2, ‖s - rx‖ ≤ 100) :
    IsLeast {d | ∃ s ∈ btx.1, d = ‖s - rx‖ ^ 2} (findMinmax btx rx).2 ∧
    IsLeast {d | ∃ s ∈ btx.2, d = ‖s - rx‖ ^ 2} (findMinmax btx rx).1 := by
  obtain ⟨⟨a1, a2, a3⟩, b1, b2, b3⟩ := findMinmax_spec btx hl rx
  have cap : ∀ s : ℂ, ‖s - rx‖ ≤ 100 → ‖s - rx‖ ^ 2 ≤ 10000 := by
    intro s hs
    nlinarith [norm_nonneg (s - rx)]
  constructor
  · refine ⟨?_, ?_⟩
    · rcases b3 with h | h
      · obtain ⟨s, hs, hd⟩ := h0
        exact ⟨s, hs, le_antisymm (b2 s hs) (by rw [h]; exact cap s hd)⟩
      · exact h
    · rintro d ⟨s, hs, rfl⟩
      exact b2 s hs
  · refine ⟨?_, ?_⟩
    · rcases a3 with h | h
      · obtain ⟨s, hs, hd⟩ := h1
        exact ⟨s, hs, le_antisymm (a2 s hs) (by rw [h]; exact cap s hd)⟩
      · exact h
    · rintro d ⟨s, hs, rfl⟩
      exact a2 s hs

/-- C18, the value: with a symbol of each kind within distance 100 the max-log L-value is the SNR times the difference
of the smallest squared distances to symbols with a zero and with a one. -/
theorem C18_value (btx : List ℂ × List ℂ) (hl : btx.1.length = btx.2.length) (rx : ℂ) (snr : ℝ)
    (h0 : ∃ s ∈ btx.1, ‖s - rx‖ ≤ 100) (h1 : ∃ s ∈ btx.2, ‖s - rx‖ ≤ 100) :
    ∃ m0 m1, IsLeast {d | ∃ s ∈ btx.1, d = ‖s - rx‖ ^ 2} m0 ∧ IsLeast {d | ∃ s ∈ btx.2, d = ‖s - rx‖ ^ 2} m1 ∧
      maxLogLValue btx rx snr = snr * (m0 - m1) := by
  obtain ⟨a, b⟩ := findMinmax_isLeast btx hl rx h0 h1
  exact ⟨_, _, a, b, rfl⟩

/-- BPSK: a sample at 0.5 has a positive L-value 2·snr for its bit. -/
example : maxLogLValue ([-1], [1]) (1 / 2) 3 = 6 := by
  simp only [maxLogLValue, findMinmax, findMinmaxLoop, List.zip_cons_cons, List.zip_nil_right]
  norm_num

/-- C18: the exact L-value is the log-likelihood ratio of the bit being 1 against it being 0: its exponential times the likelihood of all
symbols with a 0 in this place of their label is the likelihood of those with a 1. -/
theorem C18_exact (k : Nat) (coded : List ℂ) (hl : coded.length = 2 ^ k) (hnd : coded.Nodup) (m : List (List ℂ × List ℂ))
    (hm : bitmapMtx k coded = .ok m) (snr : ℝ) (rx : List ℂ) (n bit : Nat) (x : ℂ) (row : List ℝ) (v : ℝ) (hx : rx[n]? = some x)
    (hrow : (softLValueDemapper rx snr m)[n]? = some row) (hv : row[bit]? = some v) (S0 S1 : Finset ℂ)
    (hS0 : ∀ s, s ∈ S0 ↔ ∃ l : Nat, coded[l]? = some s ∧ (encodingRow k l)[bit]? = some false)
    (hS1 : ∀ s, s ∈ S1 ↔ ∃ l : Nat, coded[l]? = some s ∧ (encodingRow k l)[bit]? = some true) :
    Real.exp v * ∑ s ∈ S0, Real.exp (-(snr * ‖x - s‖ ^ 2)) = ∑ s ∈ S1, Real.exp (-(snr * ‖x - s‖ ^ 2)) := by
  classical
  obtain ⟨m', hm', hml, hspec⟩ := C17_bitmap k coded hl
  rw [hm] at hm'
  have : m = m' := by injection hm'
  subst this
  rw [softLValueDemapper, List.getElem?_map, hx, Option.map_some, Option.some.injEq] at hrow
  subst hrow
  rw [List.getElem?_map, Option.map_eq_some_iff] at hv
  obtain ⟨c, hc, rfl⟩ := hv
  obtain ⟨h1, h2, hperm, h3, h4⟩ := hspec bit c hc
  have hnd' : (c.1 ++ c.2).Nodup := hperm.nodup_iff.2 hnd
  have nd1 := (List.nodup_append.1 hnd').1
  have nd2 := (List.nodup_append.1 hnd').2.1
  have e0 : S0 = c.1.toFinset := by ext s; rw [hS0, List.mem_toFinset, h3]
  have e1 : S1 = c.2.toFinset := by ext s; rw [hS1, List.mem_toFinset, h4]
  have hsum : ∀ L : List ℂ, L.Nodup → ∑ s ∈ L.toFinset, Real.exp (-(snr * ‖x - s‖ ^ 2)) =
      (L.map fun s => Real.exp (-snr * ‖s - x‖ ^ 2)).sum := by
    intro L hL
    rw [List.sum_toFinset _ hL]
    congr 1
    apply List.map_congr_left
    intro s _
    rw [norm_sub_rev, neg_mul]
  have hpos : ∀ L : List ℂ, 0 < L.length → 0 < (L.map fun s => Real.exp (-snr * ‖s - x‖ ^ 2)).sum := by
    intro L hL
    apply List.sum_pos
    · intro y hy
      obtain ⟨s, -, rfl⟩ := List.mem_map.1 hy
      exact Real.exp_pos _
    · intro h0
      have := congrArg List.length h0
      simp at this
      simp [this] at hL
  have hp : 0 < 2 ^ (k - 1) := by positivity
  rw [e0, e1, hsum _ nd1, hsum _ nd2, calLValues, Real.exp_sub, Real.exp_log (hpos _ (by omega)), Real.exp_log (hpos _ (by omega))]
  exact div_mul_cancel₀ _ (hpos _ (by omega)).ne'

/-- The hypotheses of `C18_exact` hold for BPSK, labels 0 and 1. -/
example : bitmapMtx 1 [(-1 : ℂ), 1] = .ok [([-1], [1])] ∧
    (softLValueDemapper [1 / 2] 3 [([-1], [1])])[0]? = some [calLValues ([-1], [1]) (1 / 2) 3] ∧ encodingRow 1 1 = [true] := ⟨rfl, rfl, rfl⟩

theorem logsumexp_bounds (l : List ℂ) (rx : ℂ) (snr : ℝ) (hs : 0 < snr) (m : ℝ)
    (hm : IsLeast {d | ∃ s ∈ l, d = ‖s - rx‖ ^ 2} m) :
    -snr * m ≤ Real.log (l.map fun s => Real.exp (-snr * ‖s - rx‖ ^ 2)).sum ∧
    Real.log (l.map fun s => Real.exp (-snr * ‖s - rx‖ ^ 2)).sum ≤ -snr * m + Real.log l.length := by
  obtain ⟨⟨s, hsl, rfl⟩, hmin⟩ := hm
  have hnn : ∀ x ∈ l.map fun s => Real.exp (-snr * ‖s - rx‖ ^ 2), (0 : ℝ) ≤ x := by
    intro x hx
    obtain ⟨t, -, rfl⟩ := List.mem_map.1 hx
    exact (Real.exp_pos _).le
  have hge : Real.exp (-snr * ‖s - rx‖ ^ 2) ≤ (l.map fun s => Real.exp (-snr * ‖s - rx‖ ^ 2)).sum :=
    List.single_le_sum hnn _ (List.mem_map_of_mem hsl)
  have hpos : 0 < (l.map fun s => Real.exp (-snr * ‖s - rx‖ ^ 2)).sum := (Real.exp_pos _).trans_le hge
  have hlen : (0 : ℝ) < l.length := by
    have := List.length_pos_of_mem hsl
    exact_mod_cast this
  constructor
  · rw [Real.le_log_iff_exp_le hpos]; exact hge
  · have hle : (l.map fun s => Real.exp (-snr * ‖s - rx‖ ^ 2)).sum ≤ l.length * Real.exp (-snr * ‖s - rx‖ ^ 2) := by
      have := List.sum_le_card_nsmul (l.map fun s => Real.exp (-snr * ‖s - rx‖ ^ 2)) (Real.exp (-snr * ‖s - rx‖ ^ 2)) (by
        intro x hx
        obtain ⟨t, ht, rfl⟩ := List.mem_map.1 hx
        apply Real.exp_le_exp.2
        have := hmin ⟨t, ht, rfl⟩
        nlinarith)
      simpa using this
    have := Real.log_le_log hpos hle
    rw [Real.log_mul hlen.ne' (Real.exp_pos _).ne', Real.log_exp] at this
    linarith

/-- The full statement of C19: no restriction on the sample. -/
def C19_statement : Prop :=
  ∀ (k : Nat) (coded : List ℂ) (m : List (List ℂ × List ℂ)) (bit : Nat) (c : List ℂ × List ℂ) (rx : ℂ) (snr : ℝ),
    1 ≤ k → coded.length = 2 ^ k → bitmapMtx k coded = .ok m → m[bit]? = some c → 0 < snr →
    |calLValues c rx snr - maxLogLValue c rx snr| ≤ Real.log (2 ^ k / 2)

/-- C19 fails for samples further than 100 from the constellation, where the start value 10000 of the minimum search
is returned. -/
theorem C19_false : ¬ C19_statement := by
  intro h
  have hm : bitmapMtx 1 [(-1 : ℂ), 1] = .ok [([-1], [1])] := by rfl
  have := h 1 [-1, 1] _ 0 ([-1], [1]) 1000 1 le_rfl rfl hm rfl one_pos
  have e1 : calLValues ([(-1 : ℂ)], [1]) 1000 1 = 4000 := by
    simp only [calLValues, List.map_cons, List.map_nil, List.sum_cons, List.sum_nil, add_zero, Real.log_exp]
    norm_num
  have e2 : maxLogLValue ([(-1 : ℂ)], [1]) 1000 1 = 0 := by
    simp only [maxLogLValue, findMinmax, findMinmaxLoop, List.zip_cons_cons, List.zip_nil_right]
    norm_num
  rw [e1, e2] at this
  norm_num at this

/-- C19 for samples within distance 100 of a symbol of each kind. Missing: samples further away, where it fails. -/
theorem C19_maxlog_bound_partial (k : Nat) (hk : 1 ≤ k) (coded : List ℂ) (hl : coded.length = 2 ^ k)
    (m : List (List ℂ × List ℂ)) (hm : bitmapMtx k coded = .ok m) (bit : Nat) (c : List ℂ × List ℂ)
    (hc : m[bit]? = some c) (rx : ℂ) (snr : ℝ) (hs : 0 < snr) (hrx : ∀ s ∈ coded, ‖s - rx‖ ≤ 100) :
    |calLValues c rx snr - maxLogLValue c rx snr| ≤ Real.log (2 ^ k / 2) := by
  obtain ⟨m', hm', hml, hspec⟩ := C17_bitmap k coded hl
  rw [hm] at hm'
  have : m = m' := by injection hm'
  subst this
  obtain ⟨h1, h2, -, h3, h4⟩ := hspec bit c hc
  have hp : 0 < 2 ^ (k - 1) := by positivity
  have n1 : ∃ s ∈ c.1, ‖s - rx‖ ≤ 100 := by
    obtain ⟨s, hs⟩ := List.exists_mem_of_length_pos (l := c.1) (by omega)
    obtain ⟨l, hl', -⟩ := (h3 s).1 hs
    exact ⟨s, hs, hrx s (List.mem_of_getElem? hl')⟩
  have n2 : ∃ s ∈ c.2, ‖s - rx‖ ≤ 100 := by
    obtain ⟨s, hs⟩ := List.exists_mem_of_length_pos (l := c.2) (by omega)
    obtain ⟨l, hl', -⟩ := (h4 s).1 hs
    exact ⟨s, hs, hrx s (List.mem_of_getElem? hl')⟩
  obtain ⟨l0, l1⟩ := findMinmax_isLeast c (h1.trans h2.symm) rx n1 n2
  obtain ⟨a1, a2⟩ := logsumexp_bounds c.1 rx snr hs _ l0
  obtain ⟨b1, b2⟩ := logsumexp_bounds c.2 rx snr hs _ l1
  have e : (2 : ℝ) ^ k / 2 = ((2 ^ (k - 1) : Nat) : ℝ) := by
    obtain ⟨j, rfl⟩ : ∃ j, k = j + 1 := ⟨k - 1, by omega⟩
    push_cast
    rw [pow_succ]; simp
  rw [h1] at a2
  rw [h2] at b2
  rw [e, abs_le, calLValues, maxLogLValue]
  constructor <;> linarith

example : ∃ m, bitmapMtx 1 [(-1 : ℂ), 1] = .ok m ∧ m[0]? = some ([(-1 : ℂ)], [(1 : ℂ)]) ∧ ∀ s ∈ [(-1 : ℂ), 1], ‖s - (1 / 2 : ℂ)‖ ≤ 100 := by
  refine ⟨_, rfl, rfl, ?_⟩
  intro s hs
  simp only [List.mem_cons, List.not_mem_nil, or_false] at hs
  rcases hs with rfl | rfl <;> norm_num

/-! ### C46: information rates -/

theorem one_le_sum_exp {α : Type _} (l : List α) (f : α → ℝ) (a : α) (ha : a ∈ l) (h0 : f a = 0) :
    1 ≤ (l.map fun s => Real.exp (f s)).sum := by
  have hnn : ∀ x ∈ l.map fun s => Real.exp (f s), (0 : ℝ) ≤ x := by
    intro x hx
    obtain ⟨t, -, rfl⟩ := List.mem_map.1 hx
    exact (Real.exp_pos _).le
  have := List.single_le_sum hnn (Real.exp (f a)) (List.mem_map_of_mem (f := fun s => Real.exp (f s)) ha)
  rwa [h0, Real.exp_zero] at this

theorem list_sum_nonneg {α : Type _} (l : List α) (f : α → ℝ) (h : ∀ a ∈ l, 0 ≤ f a) : 0 ≤ (l.map f).sum := by
  apply List.sum_nonneg
  intro x hx
  obtain ⟨a, ha, rfl⟩ := List.mem_map.1 hx
  exact h a ha

/-- C46: the Monte-Carlo mutual information is at most `log2 M`, for every noise realisation and every `N0`. -/
theorem C46_mi_mc (noise symbols : List ℂ) (N0 : ℝ) (_hn : noise ≠ []) (_hs : symbols ≠ []) :
    calMiMc noise symbols N0 ≤ Real.logb 2 symbols.length := by
  simp only [calMiMc]
  apply sub_le_self
  apply div_nonneg (div_nonneg _ (Nat.cast_nonneg _)) (Nat.cast_nonneg _)
  apply list_sum_nonneg
  intro s hs
  apply list_sum_nonneg
  intro z _
  apply Real.logb_nonneg (by norm_num)
  exact one_le_sum_exp symbols (fun sj => -(‖s - sj‖ ^ 2 + 2 * ((s - sj) * z).re) / N0) s hs (by simp)

/-- C46, fast estimator: at most `log2 M` whenever the transmitted symbols belong to the alphabet. -/
theorem C46_mi_mc_fast (sig sigTx symbols : List ℂ) (N0 : ℝ) (_hn : sig ≠ []) (htx : ∀ s ∈ sigTx, s ∈ symbols) :
    calMiMcFast sig sigTx symbols N0 ≤ Real.logb 2 symbols.length := by
  simp only [calMiMcFast]
  apply sub_le_self
  apply div_nonneg _ (Nat.cast_nonneg _)
  apply list_sum_nonneg
  intro p hp
  apply Real.logb_nonneg (by norm_num)
  exact one_le_sum_exp symbols (fun sj => -(‖p.1 - sj‖ ^ 2 - ‖p.1 - p.2‖ ^ 2) / N0) p.2
    (htx _ (List.of_mem_zip hp).2) (by simp)

/-- C46, GMI estimator of theory: at most the number of bits, for every noise draw and the bit map of the library. -/
theorem C46_gmi_mc (k : Nat) (coded : List ℂ) (hl : coded.length = 2 ^ k) (m : List (List ℂ × List ℂ))
    (hm : bitmapMtx k coded = .ok m) (snr : ℝ) (z : List ℂ) (_hz : z ≠ []) :
    calGmiMc coded snr z k m ≤ k := by
  obtain ⟨m', hm', hml, hspec⟩ := C17_bitmap k coded hl
  rw [hm] at hm'
  have : m = m' := by injection hm'
  subst this
  simp only [calGmiMc]
  apply sub_le_self
  apply div_nonneg _ (by positivity)
  have hpos : ∀ (l : List ℂ) (s zl : ℂ), s ∈ l → 0 < calExpSum s l zl snr := by
    intro l s zl hs
    have := one_le_sum_exp l (fun t => -snr * (2 * (zl * (s - t)).re + ‖s - t‖ ^ 2)) s hs (by simp)
    rw [calExpSum]; linarith
  have hsplit : ∀ (l1 l2 : List ℂ) (s zl : ℂ), (l1 ++ l2).Perm coded →
      calExpSum s coded zl snr = calExpSum s l1 zl snr + calExpSum s l2 zl snr := by
    intro l1 l2 s zl hp
    rw [calExpSum, calExpSum, calExpSum, ← (hp.map _).sum_eq, List.map_append, List.sum_append]
  have hnn : ∀ (l : List ℂ) (s zl : ℂ), 0 ≤ calExpSum s l zl snr := by
    intro l s zl
    exact list_sum_nonneg _ _ (fun _ _ => (Real.exp_pos _).le)
  apply list_sum_nonneg
  intro c hc
  obtain ⟨bit, hbit⟩ := List.getElem?_of_mem hc
  obtain ⟨-, -, hperm, -, -⟩ := hspec bit c hbit
  have col : ∀ b : Bool, 0 ≤ (z.map fun zl => ((if b then c.2 else c.1).map fun sym =>
      Real.logb 2 (calExpSum sym coded zl snr / calExpSum sym (if b then c.2 else c.1) zl snr)).sum).sum := by
    intro b
    apply list_sum_nonneg
    intro zl _
    apply list_sum_nonneg
    intro s hs
    apply Real.logb_nonneg (by norm_num)
    rw [le_div_iff₀ (hpos _ s zl hs), one_mul, hsplit c.1 c.2 s zl hperm]
    cases b
    · simpa using hnn c.2 s zl
    · simpa using hnn c.1 s zl
  apply list_sum_nonneg
  intro b _
  exact col b

/-- C46, GMI from L-values (`cal_gmi`): strictly less than one bit per bit position, and less than `log2 M` in total,
for all L-values. -/
theorem C46_gmi (k : Nat) (bits : List (List Bool)) (lvalues : List (List ℝ)) (hb : bits ≠ [])
    (hl : bits.length = lvalues.length) :
    (∀ g ∈ gmiPerBit k bits lvalues, g < 1) ∧ calGmi k bits lvalues ≤ k := by
  have h1 : ∀ g ∈ gmiPerBit k bits lvalues, g < 1 := by
    intro g hg
    simp only [gmiPerBit, List.mem_map, List.mem_range] at hg
    obtain ⟨bit, -, rfl⟩ := hg
    apply sub_lt_self
    have hlen : (0 : ℝ) < bits.length := by
      have := List.length_pos_of_ne_nil hb
      exact_mod_cast this
    apply div_pos _ hlen
    apply List.sum_pos
    · intro x hx
      obtain ⟨p, -, rfl⟩ := List.mem_map.1 hx
      apply Real.logb_pos (by norm_num)
      have := Real.exp_pos ((-1) ^ (p.1.getD bit false).toNat * p.2.getD bit 0)
      linarith
    · intro hnil
      have := congrArg List.length hnil
      simp only [List.length_map, List.length_zip, ← hl, min_self, List.length_nil] at this
      exact hb (List.length_eq_zero_iff.1 this)
  refine ⟨h1, ?_⟩
  have h2 := List.sum_le_card_nsmul (gmiPerBit k bits lvalues) 1 (fun g hg => (h1 g hg).le)
  simpa [calGmi, gmiPerBit] using h2

/-- C46, lower bound tying soft and hard decisions: if no hard decision is wrong, the max-log GMI per bit lies in
`[0, 1)`. -/
theorem C46_gmi_error_free (k : Nat) (coded : List ℂ) (hl : coded.length = 2 ^ k) (m : List (List ℂ × List ℂ))
    (hm : bitmapMtx k coded = .ok m) (snr : ℝ) (hsnr : 0 < snr) (rx : List ℂ) (hrx : rx ≠ []) (d : List (ℂ × ℝ × Nat))
    (hd : makeDecision rx coded = some d) :
    ∀ g ∈ gmiPerBit k (d.map fun r => encodingRow k r.2.2) (softLValueDemapperMinmax rx snr m), 0 ≤ g ∧ g < 1 := by
  have hdl : d.length = rx.length := by
    have := (mapM_eq_some_iff _ _ _).1 hd
    have := congrArg List.length this
    simpa using this.symm
  intro g hg
  refine ⟨?_, (C46_gmi k _ _ ?_ ?_).1 g hg⟩
  · simp only [gmiPerBit, List.mem_map, List.mem_range] at hg
    obtain ⟨bit, hbit, rfl⟩ := hg
    rw [sub_nonneg]
    have hlen : (0 : ℝ) < (d.map fun r => encodingRow k r.2.2).length := by
      have := List.length_pos_of_ne_nil hrx
      rw [List.length_map, hdl]
      exact_mod_cast this
    rw [div_le_one hlen]
    have hsum := List.sum_le_card_nsmul
      (((d.map fun r => encodingRow k r.2.2).zip (softLValueDemapperMinmax rx snr m)).map fun p =>
        Real.logb 2 (1 + Real.exp ((-1) ^ (p.1.getD bit false).toNat * p.2.getD bit 0))) 1 (by
      intro x hx
      obtain ⟨⟨brow, lrow⟩, hp, rfl⟩ := List.mem_map.1 hx
      obtain ⟨n, hn⟩ := List.getElem?_of_mem hp
      rw [List.getElem?_zip_eq_some] at hn
      obtain ⟨hn1, hn2⟩ := hn
      rw [List.getElem?_map, Option.map_eq_some_iff] at hn1
      obtain ⟨⟨s, r, l⟩, hdn, rfl⟩ := hn1
      simp only
      have hm' := C17_bitmap k coded hl
      obtain ⟨m', hm', hml, -⟩ := hm'
      rw [hm] at hm'
      have : m = m' := by injection hm'
      subst this
      have hlrow : lrow.length = k := by
        rw [softLValueDemapperMinmax, List.getElem?_map, Option.map_eq_some_iff] at hn2
        obtain ⟨x, -, rfl⟩ := hn2
        rw [List.length_map, hml]
      have hvv : lrow[bit]? = some (lrow[bit]'(by omega)) := List.getElem?_eq_getElem (by omega)
      obtain ⟨q1, q2⟩ := C18_sign k coded hl m hm snr hsnr rx d hd n bit lrow _ s r l hn2 hvv hdn
      rw [List.getD_eq_getElem?_getD, List.getD_eq_getElem?_getD, hvv]
      simp only [Option.getD_some]
      set v := lrow[bit]'(by omega) with hv
      have hexp : (-1) ^ ((encodingRow k l)[bit]?.getD false).toNat * v ≤ 0 := by
        rcases lt_trichotomy v 0 with h | h | h
        · rw [q2 h]; simp; exact h.le
        · rw [h]; simp
        · rw [q1 h]; simp; exact h.le
      have h1 : Real.exp ((-1) ^ ((encodingRow k l)[bit]?.getD false).toNat * v) ≤ 1 := Real.exp_le_one_iff.2 hexp
      rw [Real.logb_le_iff_le_rpow (by norm_num) (by positivity)]
      rw [Real.rpow_one]
      linarith)
    refine hsum.trans ?_
    rw [List.length_map, List.length_zip, nsmul_eq_mul, mul_one]
    exact_mod_cast Nat.min_le_left _ _
  · intro h
    have := congrArg List.length h
    rw [List.length_map, hdl] at this
    exact hrx (List.length_eq_zero_iff.1 this)
  · simp [softLValueDemapperMinmax, hdl]

example : (bitmapMtx 1 [(-1 : ℂ), 1] = .ok [([-1], [1])]) ∧ ∃ d, makeDecision [(2 : ℂ)] [-1, 1] = some d :=
  ⟨rfl, by
    obtain ⟨d, h, -⟩ := C16_min_distance [(2 : ℂ)] [-1, 1] (by simp)
    exact ⟨d, h⟩⟩

/-! ### C47: error rates -/

/-- Decided label, transmitted label: Hamming distance of the label rows. -/
theorem row_errors (k i j : Nat) (hi : i < 2 ^ k) (hj : j < 2 ^ k) :
    let h := ((encodingRow k j).zip (encodingRow k i)).countP fun p => p.1 ^^ p.2
    h ≤ k ∧ (i = j → h = 0) ∧ (i ≠ j → 1 ≤ h) := by
  intro h
  refine ⟨?_, ?_, ?_⟩
  · have := List.countP_le_length (p := fun p : Bool × Bool => p.1 ^^ p.2) (l := (encodingRow k j).zip (encodingRow k i))
    simpa [length_encodingRow] using this
  · rintro rfl
    apply List.countP_eq_zero.2
    intro p hp
    have key : ∀ l : List Bool, ∀ p ∈ l.zip l, p.1 = p.2 := by
      intro l
      induction l with
      | nil => simp
      | cons a l ih =>
        intro p hp
        simp only [List.zip_cons_cons, List.mem_cons] at hp
        rcases hp with rfl | hp
        · rfl
        · exact ih p hp
    rw [key _ p hp]; simp
  · intro hne
    by_contra h0
    have h0 : h = 0 := by omega
    have hall := List.countP_eq_zero.1 h0
    apply hne
    have : encodingRow k i = encodingRow k j := by
      apply List.ext_getElem?
      intro t
      by_cases ht : t < k
      · have hi' : (encodingRow k i)[t]? = some (i.testBit (k - 1 - t)) := encodingRow_getElem? k i t ht
        have hj' : (encodingRow k j)[t]? = some (j.testBit (k - 1 - t)) := encodingRow_getElem? k j t ht
        have hz : ((encodingRow k j).zip (encodingRow k i))[t]? = some (j.testBit (k - 1 - t), i.testBit (k - 1 - t)) := by
          rw [List.getElem?_zip_eq_some]; exact ⟨hj', hi'⟩
        have := hall _ (List.mem_of_getElem? hz)
        rw [hi', hj']
        congr 1
        revert this
        cases i.testBit (k - 1 - t) <;> cases j.testBit (k - 1 - t) <;> simp
      · rw [List.getElem?_eq_none (by rw [length_encodingRow]; omega),
          List.getElem?_eq_none (by rw [length_encodingRow]; omega)]
    rw [← bitsToIdx_encodingRow k i hi, this, bitsToIdx_encodingRow k j hj]

theorem bit_errors (k : Nat) (I J : List Nat) (h : I.length = J.length) (hI : ∀ i ∈ I, i < 2 ^ k)
    (hJ : ∀ j ∈ J, j < 2 ^ k) :
    let b := (((J.map (encodingRow k)).flatten).zip ((I.map (encodingRow k)).flatten)).countP fun p => p.1 ^^ p.2
    let e := (I.zip J).countP fun p => decide (p.1 ≠ p.2)
    e ≤ b ∧ b ≤ k * e := by
  induction I generalizing J with
  | nil =>
    have : J = [] := List.length_eq_zero_iff.1 (by simpa using h.symm)
    subst this; simp
  | cons i I ih =>
    cases J with
    | nil => simp at h
    | cons j J =>
      obtain ⟨h1, h2⟩ := ih J (by simpa using h) (fun i hi => hI i (by simp [hi])) (fun j hj => hJ j (by simp [hj]))
      obtain ⟨g1, g2, g3⟩ := row_errors k i j (hI i (by simp)) (hJ j (by simp))
      simp only [List.map_cons, List.flatten_cons]
      rw [List.zip_append (by rw [length_encodingRow, length_encodingRow]), List.countP_append, List.zip_cons_cons,
        List.countP_cons]
      by_cases hij : i = j
      · have := g2 hij
        simp only [hij] at this ⊢
        rw [this]
        simp only [ne_eq, not_true_eq_false, decide_false, Bool.false_eq_true, if_false, add_zero, zero_add]
        exact ⟨h1, h2⟩
      · have := g3 hij
        simp only [ne_eq, hij, not_false_eq_true, decide_true, if_true]
        constructor
        · simp only [ne_eq] at h1; omega
        · simp only [ne_eq] at h2
          rw [Nat.mul_add]; omega

theorem length_makeDecision {rx coded : List ℂ} {d : List (ℂ × ℝ × Nat)} (hd : makeDecision rx coded = some d) :
    d.length = rx.length := by
  have := (mapM_eq_some_iff _ _ _).1 hd
  have := congrArg List.length this
  simpa using this.symm

/-- C47: the symbol error rate is the fraction of positions at which the nearest constellation point (first one in
case of a tie) is not the transmitted symbol; it is between zero and one and zero exactly if there is no such
position. -/
theorem C47_ser (coded rx tx : List ℂ) (hc : coded ≠ []) (hl : rx.length = tx.length) (hne : rx ≠ []) :
    ∃ (ser : ℚ) (d : List (ℂ × ℝ × Nat)), calSer coded rx tx = some ser ∧ makeDecision rx coded = some d ∧
      ser = (((Finset.range rx.length).filter fun n => (d[n]?).map (·.1) ≠ tx[n]?).card : ℚ) / rx.length ∧
      0 ≤ ser ∧ ser ≤ 1 ∧ (ser = 0 ↔ d.map (·.1) = tx) := by
  obtain ⟨d, hd, hdl, -⟩ := C16_min_distance rx coded hc
  have hpos : (0 : ℚ) < rx.length := by
    have := List.length_pos_of_ne_nil hne
    exact_mod_cast this
  refine ⟨((d.zip tx).countP fun p => decide (p.1.1 - p.2 ≠ 0) : ℚ) / d.length, d, by rw [calSer, hd]; rfl, hd, ?_, ?_, ?_, ?_⟩
  · rw [hdl]
    congr 1
    have key : ∀ (d : List (ℂ × ℝ × Nat)) (tx : List ℂ), d.length = tx.length →
        ((d.zip tx).countP fun p => decide (p.1.1 - p.2 ≠ 0)) =
        ((Finset.range d.length).filter fun n => (d[n]?).map (·.1) ≠ tx[n]?).card := by
      intro d
      induction d with
      | nil => intro tx _; simp
      | cons a d ih =>
        intro tx htx
        cases tx with
        | nil => simp at htx
        | cons t tx =>
          rw [List.zip_cons_cons, List.countP_cons, ih tx (by simpa using htx), List.length_cons,
            Finset.card_filter, Finset.card_filter, Finset.sum_range_succ']
          simp [sub_eq_zero]
    rw [key d tx (by omega), hdl]
  · positivity
  · rw [hdl, div_le_one hpos]
    have := List.countP_le_length (p := fun p : (ℂ × ℝ × Nat) × ℂ => decide (p.1.1 - p.2 ≠ 0)) (l := d.zip tx)
    rw [List.length_zip, hdl, hl, min_self] at this
    rw [hl]
    exact_mod_cast this
  · rw [hdl, div_eq_zero_iff]
    have hnz : (rx.length : ℚ) ≠ 0 := hpos.ne'
    simp only [hnz, or_false, Nat.cast_eq_zero]
    rw [List.countP_eq_zero]
    have hdt : d.length = tx.length := by omega
    clear hd hdl
    clear hl hne hpos hnz
    induction d generalizing tx with
    | nil =>
      have : tx = [] := List.length_eq_zero_iff.1 (by simpa using hdt.symm)
      subst this; simp
    | cons a d ih =>
      cases tx with
      | nil => simp at hdt
      | cons t tx =>
        have := ih tx (by simpa using hdt)
        simp only [List.zip_cons_cons, List.forall_mem_cons, this, List.map_cons, List.cons.injEq]
        simp [sub_eq_zero]

/-- C47: bit and symbol error rates satisfy `SER/log2 M ≤ BER ≤ SER`, for all received signals. -/
theorem C47_ber (k : Nat) (hk : 1 ≤ k) (coded : List ℂ) (hlen : coded.length = 2 ^ k) (hnd : coded.Nodup)
    (rx tx : List ℂ) (hl : rx.length = tx.length) (hne : rx ≠ []) (htx : ∀ s ∈ tx, s ∈ coded) :
    ∃ ser ber : ℚ, calSer coded rx tx = some ser ∧ calBer k coded rx tx = some ber ∧ ser / k ≤ ber ∧ ber ≤ ser := by
  have hc : coded ≠ [] := by
    rintro rfl
    have : 0 < 2 ^ k := by positivity
    rw [List.length_nil] at hlen
    omega
  obtain ⟨d, hd, hdl, hds⟩ := C16_min_distance rx coded hc
  obtain ⟨d', hd', hdl', hds'⟩ := C16_min_distance tx coded hc
  obtain ⟨d'', hd'', hdt, -⟩ := C16_idempotent coded tx htx
  rw [hd'] at hd''
  have : d' = d'' := by simpa using hd''
  subst this
  have hidx : ∀ (E : List ℂ) (d : List (ℂ × ℝ × Nat)), makeDecision E coded = some d → ∀ r ∈ d, coded[r.2.2]? = some r.1 := by
    intro E d hd r hr
    have h1 := (mapM_eq_some_iff _ _ _).1 hd
    have h2 : some r ∈ E.map fun x => detSymbolArgmin x coded := by rw [h1]; exact List.mem_map_of_mem hr
    obtain ⟨x, -, hx⟩ := List.mem_map.1 h2
    exact (detSymbolArgmin_spec hx).1
  have hlt : ∀ (E : List ℂ) (d : List (ℂ × ℝ × Nat)), makeDecision E coded = some d →
      ∀ i ∈ d.map (·.2.2), i < 2 ^ k := by
    intro E d hd i hi
    obtain ⟨r, hr, rfl⟩ := List.mem_map.1 hi
    rw [← hlen]
    exact (List.getElem?_eq_some_iff.1 (hidx E d hd r hr)).1
  obtain ⟨b1, b2⟩ := bit_errors k (d.map (·.2.2)) (d'.map (·.2.2)) (by simp; omega) (hlt rx d hd) (hlt tx d' hd')
  have heq : ((d.zip tx).countP fun p => decide (p.1.1 - p.2 ≠ 0)) =
      (((d.map (·.2.2)).zip (d'.map (·.2.2))).countP fun p => decide (p.1 ≠ p.2)) := by
    have h1 := hidx rx d hd
    have h2 := hidx tx d' hd'
    rw [← hdt]
    clear b1 b2 hds hds' hdt
    have hdd : d.length = d'.length := by omega
    clear hd hd' hdl hdl' hd''
    induction d generalizing d' with
    | nil => simp
    | cons a d ih =>
      cases d' with
      | nil => simp at hdd
      | cons a' d' =>
        simp only [List.map_cons, List.zip_cons_cons, List.countP_cons]
        rw [ih d' (fun r hr => h1 r (by simp [hr])) (fun r hr => h2 r (by simp [hr])) (by simpa using hdd)]
        congr 1
        have g1 := h1 a (by simp)
        have g2 := h2 a' (by simp)
        have : (a.1 - a'.1 ≠ 0) ↔ (a.2.2 ≠ a'.2.2) := by
          rw [not_iff_not, sub_eq_zero]
          constructor
          · intro h
            rw [h] at g1
            obtain ⟨p1, p2⟩ := List.getElem?_eq_some_iff.1 g1
            obtain ⟨p3, p4⟩ := List.getElem?_eq_some_iff.1 g2
            exact (List.Nodup.getElem_inj_iff hnd).1 (p2.trans p4.symm)
          · intro h
            rw [h, g2] at g1
            simpa using g1.symm
        simp only [this]
  have hpos : (0 : ℚ) < rx.length := by
    have := List.length_pos_of_ne_nil hne
    exact_mod_cast this
  have hkp : (0 : ℚ) < k := by exact_mod_cast hk
  have hbl : (((d.map (·.2.2)).map (encodingRow k)).flatten).length = rx.length * k := by
    rw [List.length_flatten, List.map_map]
    have : (List.length ∘ encodingRow k) = fun _ => k := by funext i; exact length_encodingRow k i
    rw [this, List.map_map]
    simp [Function.comp_def, hdl]
  refine ⟨((d.zip tx).countP fun p => decide (p.1.1 - p.2 ≠ 0) : ℚ) / d.length,
    (((((d'.map (·.2.2)).map (encodingRow k)).flatten).zip (((d.map (·.2.2)).map (encodingRow k)).flatten)).countP
      fun p => p.1 ^^ p.2 : ℚ) / (rx.length * k), by rw [calSer, hd]; rfl, ?_, ?_, ?_⟩
  · rw [calBer, demodulate, demodulate, hd, hd']
    simp only [Option.map_some, demodulateIdx]
    rw [gather_encoding k _ (hlt rx d hd), gather_encoding k _ (hlt tx d' hd'), hbl]
    push_cast
    rfl
  · rw [heq, hdl, div_div]
    apply div_le_div_of_nonneg_right _ (by positivity)
    exact_mod_cast b1
  · rw [heq, hdl, div_le_div_iff₀ (by positivity) hpos]
    have : ((((((d'.map (·.2.2)).map (encodingRow k)).flatten).zip (((d.map (·.2.2)).map (encodingRow k)).flatten)).countP
      fun p => p.1 ^^ p.2 : Nat) : ℚ) ≤ k * (((d.map (·.2.2)).zip (d'.map (·.2.2))).countP fun p => decide (p.1 ≠ p.2) : Nat) := by
      exact_mod_cast b2
    nlinarith

example : ∃ ser ber : ℚ, calSer (qamCodedSymbols 2 1) [5, 7] ([toComplex 1 (1, 1), toComplex 1 (1, -1)]) = some ser ∧
    calBer 2 (qamCodedSymbols 2 1) [5, 7] ([toComplex 1 (1, 1), toComplex 1 (1, -1)]) = some ber ∧
    ser / (2 : Nat) ≤ ber ∧ ber ≤ ser := by
  apply C47_ber 2 (by norm_num) _ (length_qamCoded 2 1) (nodup_qamCoded 2 one_ne_zero) [5, 7] [toComplex 1 (1, 1), toComplex 1 (1, -1)] rfl (by simp)
  intro s hs
  have hperm := (C13_gray_bijection 2 1 one_ne_zero).2.1
  rw [hperm.mem_iff]
  simp only [List.mem_cons, List.not_mem_nil, or_false] at hs
  rcases hs with rfl | rfl
  · exact List.mem_map_of_mem (by decide)
  · exact List.mem_map_of_mem (by decide)

/-! ### C76: blind EVM -/

/-- C76: the blind EVM never exceeds the EVM against the transmitted symbols. -/
theorem C76_blind_evm_le (coded rx tx : List ℂ) (hc : coded ≠ []) (hl : tx.length = rx.length)
    (htx : ∀ s ∈ tx, s ∈ coded) : ∃ b, evmBlind coded rx = some b ∧ b ≤ evm tx rx := by
  obtain ⟨d, hd, hdl, hds⟩ := C16_min_distance rx coded hc
  refine ⟨_, by rw [evmBlind, hd]; rfl, ?_⟩
  apply Real.sqrt_le_sqrt
  apply div_le_div_of_nonneg_right _ (Nat.cast_nonneg _)
  have hspec := (mapM_eq_some_iff _ _ _).1 hd
  clear hd hds
  induction rx generalizing tx d with
  | nil => simp
  | cons x rx ih =>
    cases tx with
    | nil => simp at hl
    | cons t tx =>
      cases d with
      | nil => simp at hdl
      | cons r d =>
        simp only [List.map_cons, List.cons.injEq] at hspec
        have := ih tx (by simpa using hl) (fun s hs => htx s (by simp [hs])) d (by simpa using hdl) hspec.2
        simp only [List.map_cons, List.zip_cons_cons, List.sum_cons]
        obtain ⟨-, -, h3, -⟩ := detSymbolArgmin_spec hspec.1
        have h4 := h3 t (htx t (by simp))
        have h5 : ‖r.1 - x‖ ^ 2 ≤ ‖t - x‖ ^ 2 := by
          rw [norm_sub_rev r.1 x, norm_sub_rev t x]
          exact pow_le_pow_left₀ (norm_nonneg _) h4 2
        linarith

/-- C76: the blind EVM vanishes exactly for signals made of constellation points. -/
theorem C76_blind_evm_zero (coded rx : List ℂ) (hc : coded ≠ []) (hne : rx ≠ []) :
    ∃ b, evmBlind coded rx = some b ∧ (b = 0 ↔ ∀ x ∈ rx, x ∈ coded) := by
  obtain ⟨d, hd, hdl, hds⟩ := C16_min_distance rx coded hc
  refine ⟨evm (d.map (·.1)) rx, by rw [evmBlind, hd]; rfl, ?_⟩
  have hpos : (0 : ℝ) < rx.length := by
    have := List.length_pos_of_ne_nil hne
    exact_mod_cast this
  have hnn : ∀ l : List (ℂ × ℂ), 0 ≤ (l.map fun p => ‖p.1 - p.2‖ ^ 2).sum :=
    fun l => list_sum_nonneg _ _ (fun _ _ => by positivity)
  rw [evm, Real.sqrt_eq_zero (div_nonneg (hnn _) hpos.le), div_eq_zero_iff]
  simp only [hpos.ne', or_false]
  constructor
  · intro h0
    have key : ∀ l : List (ℂ × ℂ), (l.map fun p => ‖p.1 - p.2‖ ^ 2).sum = 0 → ∀ p ∈ l, p.1 = p.2 := by
      intro l
      induction l with
      | nil => simp
      | cons a l ih =>
        intro h p hp
        simp only [List.map_cons, List.sum_cons] at h
        have h1 := hnn l
        have h2 : 0 ≤ ‖a.1 - a.2‖ ^ 2 := by positivity
        have h3 : ‖a.1 - a.2‖ ^ 2 = 0 := by linarith
        have h4 : (l.map fun p => ‖p.1 - p.2‖ ^ 2).sum = 0 := by linarith
        rcases List.mem_cons.1 hp with rfl | hp
        · rw [sq_eq_zero_iff, norm_eq_zero, sub_eq_zero] at h3; exact h3
        · exact ih h4 p hp
    intro x hx
    obtain ⟨n, hn⟩ := List.getElem?_of_mem hx
    have hnd : n < d.length := by rw [hdl]; exact (List.getElem?_eq_some_iff.1 hn).1
    have hdn : d[n]? = some d[n] := List.getElem?_eq_getElem hnd
    have hz : ((d.map (·.1)).zip rx)[n]? = some (d[n].1, x) := by
      rw [List.getElem?_zip_eq_some, List.getElem?_map, hdn]; exact ⟨rfl, hn⟩
    have := key _ h0 _ (List.mem_of_getElem? hz)
    simp only at this
    rw [← this]
    obtain ⟨h1, -⟩ := hds n x d[n].1 d[n].2.1 d[n].2.2 hn hdn
    exact List.mem_of_getElem? h1
  · intro hmem
    obtain ⟨d', hd', hdt, -⟩ := C16_idempotent coded rx hmem
    rw [hd] at hd'
    have : d = d' := by simpa using hd'
    subst this
    rw [hdt]
    clear hd hdl hds hne hpos hmem hdt hd'
    induction rx with
    | nil => simp
    | cons x rx ih => simpa using ih

example : ∃ b, evmBlind [-1, 1] [(2 : ℂ)] = some b ∧ b ≤ evm [-1] [2] :=
  C76_blind_evm_le _ _ _ (by simp) rfl (by simp)

/-! ### C66: SNR estimation -/

theorem sum_map_div' {α : Type} (l : List α) (f : α → ℝ) (c : ℝ) : (l.map fun x => f x / c).sum = (l.map f).sum / c := by
  simp only [div_eq_mul_inv]
  exact List.sum_map_mul_right ..

theorem sum_sq_shift (l : List ℂ) (hl : l ≠ []) (a : ℂ) :
    (l.map fun x => ‖x - a‖ ^ 2).sum = (l.map fun x => ‖x - cmean l‖ ^ 2).sum + l.length * ‖cmean l - a‖ ^ 2 := by
  have key : ∀ (l : List ℂ) (m : ℂ), (l.map fun x => ‖x - a‖ ^ 2).sum = (l.map fun x => ‖x - m‖ ^ 2).sum
      + l.length * ‖m - a‖ ^ 2 + 2 * ((l.sum - l.length * m) * (starRingEnd ℂ) (m - a)).re := by
    intro l m
    induction l with
    | nil => simp
    | cons x l ih =>
      simp only [List.map_cons, List.sum_cons, ih, List.length_cons]
      have h1 : ‖x - a‖ ^ 2 = ‖x - m‖ ^ 2 + ‖m - a‖ ^ 2 + 2 * ((x - m) * (starRingEnd ℂ) (m - a)).re := by
        rw [show x - a = (x - m) + (m - a) by ring, ← Complex.normSq_eq_norm_sq, ← Complex.normSq_eq_norm_sq,
          ← Complex.normSq_eq_norm_sq, Complex.normSq_add]
      rw [h1, show x + l.sum - ((l.length + 1 : Nat) : ℂ) * m = (x - m) + (l.sum - l.length * m) by push_cast; ring,
        add_mul _ _ ((starRingEnd ℂ) (m - a)), Complex.add_re]
      push_cast
      ring
  rw [key l (cmean l)]
  have hne : (l.length : ℂ) ≠ 0 := by
    have := List.length_pos_of_ne_nil hl
    exact_mod_cast this.ne'
  have : l.sum - l.length * cmean l = 0 := by
    rw [cmean, mul_div_cancel₀ _ hne, sub_self]
  rw [this]
  simp

theorem sum_ite_eq_of_nodup {gray : List ℂ} (hnd : gray.Nodup) {t : ℂ} (ht : t ∈ gray) (v : ℝ) :
    (gray.map fun s => if t = s then v else 0).sum = v := by
  induction gray with
  | nil => simp at ht
  | cons g gray ih =>
    have hnd' := List.nodup_cons.1 hnd
    simp only [List.map_cons, List.sum_cons]
    by_cases h : t = g
    · subst h
      have : (gray.map fun s => if t = s then v else 0) = gray.map fun _ => 0 := by
        apply List.map_congr_left
        intro s hs
        rw [if_neg]
        rintro rfl
        exact hnd'.1 hs
      rw [this]
      simp
    · rw [if_neg h, zero_add]
      exact ih hnd'.2 (by simpa [h] using ht)

theorem sum_classes (z : List (ℂ × ℂ)) (gray : List ℂ) (hnd : gray.Nodup) (hz : ∀ p ∈ z, p.2 ∈ gray) (f : ℂ × ℂ → ℝ) :
    (gray.map fun s => ((z.filter fun p => decide (p.2 = s)).map f).sum).sum = (z.map f).sum := by
  induction z with
  | nil => simp
  | cons p z ih =>
    have h1 : ∀ s, (((p :: z).filter fun p => decide (p.2 = s)).map f).sum
        = (if p.2 = s then f p else 0) + ((z.filter fun p => decide (p.2 = s)).map f).sum := by
      intro s
      by_cases h : p.2 = s
      · rw [List.filter_cons_of_pos (by simpa using h)]; simp [h]
      · rw [List.filter_cons_of_neg (by simpa using h)]; simp [h]
    simp only [h1]
    rw [List.sum_map_add, ih (fun q hq => hz q (by simp [hq])), sum_ite_eq_of_nodup hnd (hz p (by simp))]
    simp

theorem mem_selSymbs_pos {rx tx : List ℂ} (hl : rx.length = tx.length) {s : ℂ} (hs : s ∈ tx) : selSymbs rx tx s ≠ [] := by
  obtain ⟨p, hp, rfl⟩ := exists_zip_right hl hs
  intro h
  have : p.1 ∈ selSymbs rx tx p.2 := by
    rw [selSymbs, List.mem_map]
    exact ⟨p, by simp [hp], rfl⟩
  rw [h] at this
  simp at this

theorem snrTerm_eq {rx tx : List ℂ} {s : ℂ} (h : selSymbs rx tx s ≠ []) :
    snrTerm rx tx s = some (((selSymbs rx tx s).length * ‖cmean (selSymbs rx tx s)‖ ^ 2) / rx.length,
      ((selSymbs rx tx s).map fun x => ‖x - cmean (selSymbs rx tx s)‖ ^ 2).sum / rx.length) := by
  have hlen : (selSymbs rx tx s).length ≠ 0 := by
    have := List.length_pos_of_ne_nil h
    omega
  have hlr : ((selSymbs rx tx s).length : ℝ) ≠ 0 := by exact_mod_cast hlen
  simp only [snrTerm]
  rw [if_neg hlen]
  simp only [Option.some.injEq, Prod.mk.injEq]
  constructor
  · ring
  · rw [sq_abs, Real.sq_sqrt]
    · field_simp
    · exact div_nonneg (list_sum_nonneg _ _ (fun _ _ => by positivity)) (Nat.cast_nonneg _)

/-- The mean of the samples received while `s` was transmitted. -/
noncomputable def classMean (rx tx : List ℂ) (s : ℂ) : ℂ :=
  ((rx.zip tx).map fun p => if p.2 = s then p.1 else 0).sum / (tx.count s : ℂ)

theorem cmean_selSymbs {rx tx : List ℂ} (hl : rx.length = tx.length) (s : ℂ) :
    cmean (selSymbs rx tx s) = classMean rx tx s := by
  rw [cmean, classMean]
  have h1 : (selSymbs rx tx s).sum = ((rx.zip tx).map fun p => if p.2 = s then p.1 else 0).sum := by
    rw [selSymbs]
    generalize rx.zip tx = z
    induction z with
    | nil => simp
    | cons p z ih =>
      by_cases h : p.2 = s
      · rw [List.filter_cons_of_pos (by simpa using h)]; simp [h, ih]
      · rw [List.filter_cons_of_neg (by simpa using h)]; simp [h, ih]
  have h2 : (selSymbs rx tx s).length = tx.count s := by
    rw [selSymbs, List.length_map]
    clear h1
    induction rx generalizing tx with
    | nil =>
      have : tx = [] := List.length_eq_zero_iff.1 (by simpa using hl.symm)
      subst this; simp
    | cons x rx ih =>
      cases tx with
      | nil => simp at hl
      | cons t tx =>
        have := ih (tx := tx) (by simpa using hl)
        rw [List.zip_cons_cons]
        by_cases h : t = s
        · rw [List.filter_cons_of_pos (by simpa using h)]; simp [h, this]
        · rw [List.filter_cons_of_neg (by simpa using h), this, List.count_cons_of_ne h]
  rw [h1, h2]

/-- C66: if every alphabet symbol is transmitted, `estimate_snr` returns the ratio of the mean power of the class means
to the mean squared deviation from the class means; the two powers add up to the mean received power. -/
theorem C66_estimate_snr (rx tx gray : List ℂ) (hl : rx.length = tx.length) (hnd : gray.Nodup)
    (htx : ∀ s ∈ tx, s ∈ gray) (hall : ∀ s ∈ gray, s ∈ tx) :
    ∃ S N : ℝ, estimateSnr rx tx gray = some (S / N, S, N) ∧
      S = ((rx.zip tx).map fun p => ‖classMean rx tx p.2‖ ^ 2).sum / rx.length ∧
      N = ((rx.zip tx).map fun p => ‖p.1 - classMean rx tx p.2‖ ^ 2).sum / rx.length ∧
      S + N = (rx.map fun x => ‖x‖ ^ 2).sum / rx.length := by
  set A : ℂ → ℝ := fun s => ((selSymbs rx tx s).length * ‖cmean (selSymbs rx tx s)‖ ^ 2) / rx.length with hA
  set B : ℂ → ℝ := fun s => ((selSymbs rx tx s).map fun x => ‖x - cmean (selSymbs rx tx s)‖ ^ 2).sum / rx.length with hB
  have hmap : gray.mapM (snrTerm rx tx) = some (gray.map fun s => (A s, B s)) := by
    rw [mapM_eq_some_iff, List.map_map]
    apply List.map_congr_left
    intro s hs
    exact snrTerm_eq (mem_selSymbs_pos hl (hall s hs))
  have hzip : ∀ p ∈ rx.zip tx, p.2 ∈ gray := fun p hp => htx _ (List.of_mem_zip hp).2
  have hS : (gray.map A).sum = ((rx.zip tx).map fun p => ‖classMean rx tx p.2‖ ^ 2).sum / rx.length := by
    rw [← sum_classes (rx.zip tx) gray hnd hzip, hA, ← sum_map_div']
    congr 1
    apply List.map_congr_left
    intro s _
    congr 1
    rw [cmean_selSymbs hl]
    have h1 : ((rx.zip tx).filter fun p => decide (p.2 = s)).map (fun p => ‖classMean rx tx p.2‖ ^ 2)
        = ((rx.zip tx).filter fun p => decide (p.2 = s)).map fun _ => ‖classMean rx tx s‖ ^ 2 := by
      apply List.map_congr_left
      intro p hp
      rw [List.mem_filter] at hp
      have : p.2 = s := by simpa using hp.2
      rw [this]
    rw [h1, selSymbs, List.length_map]
    simp
  have hN : (gray.map B).sum = ((rx.zip tx).map fun p => ‖p.1 - classMean rx tx p.2‖ ^ 2).sum / rx.length := by
    rw [← sum_classes (rx.zip tx) gray hnd hzip, hB, ← sum_map_div']
    congr 1
    apply List.map_congr_left
    intro s _
    congr 2
    rw [cmean_selSymbs hl, selSymbs, List.map_map]
    apply List.map_congr_left
    intro p hp
    rw [List.mem_filter] at hp
    have : p.2 = s := by simpa using hp.2
    rw [Function.comp_apply, this]
  refine ⟨(gray.map A).sum, (gray.map B).sum, ?_, hS, hN, ?_⟩
  · simp only [estimateSnr, hmap, Option.map_some, List.map_map, Function.comp_def]
  · have htot : (gray.map fun s => ((selSymbs rx tx s).map fun x => ‖x‖ ^ 2).sum).sum = (rx.map fun x => ‖x‖ ^ 2).sum := by
      have := sum_classes (rx.zip tx) gray hnd hzip (fun p => ‖p.1‖ ^ 2)
      have e : (rx.zip tx).map (fun p => ‖p.1‖ ^ 2) = rx.map fun x => ‖x‖ ^ 2 := by
        rw [show (fun p : ℂ × ℂ => ‖p.1‖ ^ 2) = (fun x : ℂ => ‖x‖ ^ 2) ∘ Prod.fst from rfl, ← List.map_map,
          List.map_fst_zip hl.le]
      rw [e] at this
      rw [← this]
      congr 1
      apply List.map_congr_left
      intro s _
      rw [selSymbs, List.map_map]
      rfl
    rw [← htot, ← List.sum_map_add, ← sum_map_div']
    congr 1
    apply List.map_congr_left
    intro s hs
    have := sum_sq_shift (selSymbs rx tx s) (mem_selSymbs_pos hl (hall s hs)) 0
    simp only [sub_zero] at this
    rw [this, hA, hB]
    ring

/-- C66: the estimated noise power is at most the mean squared error against the transmitted symbols. -/
theorem C66_noise_le_error (rx tx gray : List ℂ) (hl : rx.length = tx.length) (hnd : gray.Nodup)
    (htx : ∀ s ∈ tx, s ∈ gray) (hall : ∀ s ∈ gray, s ∈ tx) :
    ∃ snr S N : ℝ, estimateSnr rx tx gray = some (snr, S, N) ∧
      0 ≤ N ∧ N ≤ ((rx.zip tx).map fun p => ‖p.1 - p.2‖ ^ 2).sum / rx.length := by
  obtain ⟨S, N, h1, -, h3, -⟩ := C66_estimate_snr rx tx gray hl hnd htx hall
  refine ⟨_, S, N, h1, ?_, ?_⟩
  · rw [h3]
    exact div_nonneg (list_sum_nonneg _ _ (fun _ _ => by positivity)) (Nat.cast_nonneg _)
  · rw [h3]
    apply div_le_div_of_nonneg_right _ (Nat.cast_nonneg _)
    have hzip : ∀ p ∈ rx.zip tx, p.2 ∈ gray := fun p hp => htx _ (List.of_mem_zip hp).2
    rw [← sum_classes (rx.zip tx) gray hnd hzip, ← sum_classes (rx.zip tx) gray hnd hzip]
    apply List.sum_le_sum
    intro s hs
    have e : ∀ g : ℂ → ℂ, (((rx.zip tx).filter fun p => decide (p.2 = s)).map fun p => ‖p.1 - g p.2‖ ^ 2)
        = (selSymbs rx tx s).map fun x => ‖x - g s‖ ^ 2 := by
      intro g
      rw [selSymbs, List.map_map]
      apply List.map_congr_left
      intro p hp
      rw [List.mem_filter] at hp
      have : p.2 = s := by simpa using hp.2
      rw [Function.comp_apply, this]
    have e2 := e id
    simp only [id_eq] at e2
    rw [e (classMean rx tx), e2, ← cmean_selSymbs hl,
      sum_sq_shift (selSymbs rx tx s) (mem_selSymbs_pos hl (hall s hs)) s]
    have : 0 ≤ ((selSymbs rx tx s).length : ℝ) * ‖cmean (selSymbs rx tx s) - s‖ ^ 2 := by positivity
    linarith

/-- C77: the estimate does not depend on gain and phase of the received signal. -/
theorem C77_scale_invariant (rx tx gray : List ℂ) (c : ℂ) (hc : c ≠ 0) :
    (estimateSnr (rx.map fun x => c * x) tx gray).map (·.1) = (estimateSnr rx tx gray).map (·.1) := by
  have hsel : ∀ s, selSymbs (rx.map fun x => c * x) tx s = (selSymbs rx tx s).map fun x => c * x := by
    intro s
    rw [selSymbs, selSymbs, List.zip_map_left, List.filter_map, List.map_map, List.map_map]
    congr 1
  have hterm : ∀ s, snrTerm (rx.map fun x => c * x) tx s
      = (snrTerm rx tx s).map fun p => (‖c‖ ^ 2 * p.1, ‖c‖ ^ 2 * p.2) := by
    intro s
    by_cases h : selSymbs rx tx s = []
    · have h' : selSymbs (rx.map fun x => c * x) tx s = [] := by rw [hsel, h]; rfl
      simp [snrTerm, h, h']
    · have h' : selSymbs (rx.map fun x => c * x) tx s ≠ [] := by rw [hsel]; simpa using h
      rw [snrTerm_eq h, snrTerm_eq h', hsel]
      have hm : cmean ((selSymbs rx tx s).map fun x => c * x) = c * cmean (selSymbs rx tx s) := by
        rw [cmean, cmean, List.sum_map_mul_left, List.map_id', List.length_map, mul_div_assoc]
      rw [hm]
      simp only [Option.map_some, Option.some.injEq, Prod.mk.injEq, List.length_map, List.map_map]
      constructor
      · rw [norm_mul]; ring
      · rw [← mul_div_assoc]
        congr 1
        rw [← List.sum_map_mul_left]
        congr 1
        apply List.map_congr_left
        intro x _
        rw [Function.comp_apply, ← mul_sub, norm_mul]; ring
  have hmap : gray.mapM (snrTerm (rx.map fun x => c * x) tx)
      = (gray.mapM (snrTerm rx tx)).map fun l => l.map fun p => (‖c‖ ^ 2 * p.1, ‖c‖ ^ 2 * p.2) := by
    induction gray with
    | nil => rfl
    | cons s gray ih =>
      rw [List.mapM_cons, List.mapM_cons, ih, hterm]
      cases snrTerm rx tx s with
      | none => rfl
      | some p =>
        cases gray.mapM (snrTerm rx tx) with
        | none => rfl
        | some l => rfl
  rw [estimateSnr, estimateSnr, hmap]
  cases gray.mapM (snrTerm rx tx) with
  | none => rfl
  | some l =>
    simp only [Option.map_some, Option.some.injEq, List.map_map, Function.comp_def]
    rw [List.sum_map_mul_left, List.sum_map_mul_left]
    have : ‖c‖ ^ 2 ≠ 0 := by
      have := norm_ne_zero_iff.2 hc
      positivity
    rw [mul_div_mul_left _ _ this]

/-- C66, outside the stated range: an alphabet symbol that is never transmitted makes the result NaN. -/
theorem C66_missing_symbol (rx tx gray : List ℂ) (s : ℂ) (hs : s ∈ gray) (hm : s ∉ tx) :
    estimateSnr rx tx gray = none := by
  have hsel : selSymbs rx tx s = [] := by
    rw [selSymbs, List.map_eq_nil_iff, List.filter_eq_nil_iff]
    intro p hp h
    have : p.2 = s := by simpa using h
    exact hm (this ▸ (List.of_mem_zip hp).2)
  have hn : gray.mapM (snrTerm rx tx) = none := by
    cases h : gray.mapM (snrTerm rx tx) with
    | none => rfl
    | some l =>
      rw [mapM_eq_some_iff] at h
      have : snrTerm rx tx s ∈ gray.map (snrTerm rx tx) := List.mem_map_of_mem hs
      rw [h] at this
      simp [snrTerm, hsel] at this
  rw [estimateSnr, hn]
  rfl

example : ∃ S N : ℝ, estimateSnr [2, -1, 1] [1, -1, 1] [1, -1] = some (S / N, S, N) ∧ S + N = 2 := by
  obtain ⟨S, N, h1, -, -, h4⟩ := C66_estimate_snr [2, -1, 1] [1, -1, 1] [1, -1] rfl (by norm_num) (by simp)
    (by simp)
  refine ⟨S, N, h1, ?_⟩
  rw [h4]
  norm_num

end Qampy
