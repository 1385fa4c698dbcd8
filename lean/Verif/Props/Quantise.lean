import Verif.Props.Waveform
import Verif.Lemmas.Fourier

/-!
Quantisers (C41), modulator pre-compensation (C42), shaping probabilities (C61), delay compensation (C100).
-/

namespace Qampy

open Complex

/-! ### Quantisers -/

/-- The number of true values of a predicate that is true on an initial segment. -/
theorem countP_initial (p : Nat → Bool) (hp : ∀ k, p (k + 1) = true → p k = true) (K : Nat) :
    (List.range K).countP p ≤ K ∧ (∀ k, k < (List.range K).countP p → p k = true) ∧
      ∀ k, (List.range K).countP p ≤ k → k < K → p k = false := by
  induction K with
  | zero => simp
  | succ K ih =>
    obtain ⟨h1, h2, h3⟩ := ih
    have hdown : ∀ d k, p (k + d) = true → p k = true := by
      intro d
      induction d with
      | zero => intro k h; exact h
      | succ d ihd => intro k h; exact ihd k (hp (k + d) h)
    rw [List.range_succ, List.countP_append]
    by_cases hK : p K = true
    · have hall : ∀ k, k < K → p k = true := fun k hk => hdown (K - k) k (by rwa [Nat.add_sub_cancel' hk.le])
      have hc : (List.range K).countP p = K := by
        have := (List.countP_eq_length (l := List.range K) (p := p)).2 fun k hk => hall k (List.mem_range.1 hk)
        simpa using this
      have hs : List.countP p [K] = 1 := by simp [hK]
      rw [hc, hs]
      refine ⟨le_rfl, fun k hk => ?_, fun k hk hk2 => by omega⟩
      rcases Nat.lt_succ_iff_lt_or_eq.1 hk with h | h
      · exact hall k h
      · rw [h]; exact hK
    · have hs : List.countP p [K] = 0 := by simp [hK]
      rw [hs, Nat.add_zero]
      refine ⟨by omega, h2, fun k hk hk2 => ?_⟩
      rcases Nat.lt_succ_iff_lt_or_eq.1 hk2 with h | h
      · exact h3 k hk h
      · rw [h]; simpa using hK

theorem two_pow_pos' (n : Nat) : (0 : ℝ) < 2 ^ n := by positivity

/-- The levels of the new quantiser are the mid points of `2^n` intervals of equal length dividing `[-1, 1]`. -/
theorem levelsOut_eq (n : Nat) : levelsOut n = (List.range (2 ^ n)).map fun (k : Nat) => -1 + (2 * k + 1) / (2 : ℝ) ^ n := by
  simp only [levelsOut, linspace]
  refine List.map_congr_left fun k hk => ?_
  have hk := List.mem_range.1 hk
  have h2 := two_pow_pos' n
  rcases Nat.eq_zero_or_pos n with rfl | hn
  · have : k = 0 := by simpa using hk
    subst this
    norm_num
  · have h1 : (1 : ℝ) < 2 ^ n := one_lt_pow₀ (by norm_num) hn.ne'
    have h3 : (2 : ℝ) ^ n - 1 ≠ 0 := by linarith
    push_cast
    field_simp
    ring

/-- The bins of the new quantiser. -/
theorem binsNew_eq (n : Nat) : ((levelsOut n).map (· + 2 / 2 ^ n / 2)).dropLast
    = (List.range (2 ^ n - 1)).map fun (k : Nat) => -1 + (2 * k + 2) / (2 : ℝ) ^ n := by
  rw [levelsOut_eq, List.map_map]
  have h : 2 ^ n = (2 ^ n - 1) + 1 := (Nat.sub_add_cancel Nat.one_le_two_pow).symm
  conv_lhs => rw [h, List.range_succ, List.map_append, List.map_singleton, List.dropLast_concat]
  refine List.map_congr_left fun k _ => ?_
  simp only [Function.comp]
  ring

/-- The index found by the new quantiser. -/
theorem quantNew_spec (n : Nat) (x : ℝ) : ∃ j : Nat, j < 2 ^ n ∧ quantNew n x = some (-1 + (2 * (j : ℝ) + 1) / 2 ^ n)
    ∧ (0 < j → -1 + 2 * (j : ℝ) / 2 ^ n ≤ x) ∧ (j + 1 < 2 ^ n → x < -1 + (2 * (j : ℝ) + 2) / 2 ^ n) := by
  have h2 := two_pow_pos' n
  have hpow : 0 < 2 ^ n := Nat.two_pow_pos n
  set p : Nat → Bool := fun k => decide (-1 + (2 * (k : ℝ) + 2) / 2 ^ n ≤ x) with hp
  have hmono : ∀ k, p (k + 1) = true → p k = true := by
    intro k hk
    simp only [hp, decide_eq_true_eq] at hk ⊢
    refine le_trans ?_ hk
    have : (2 * (k : ℝ) + 2) / 2 ^ n ≤ (2 * ((k + 1 : ℕ) : ℝ) + 2) / 2 ^ n := by
      apply div_le_div_of_nonneg_right _ h2.le
      push_cast; linarith
    linarith
  obtain ⟨h3, h4, h5⟩ := countP_initial p hmono (2 ^ n - 1)
  have hd : digitize x ((levelsOut n).map (· + 2 / 2 ^ n / 2)).dropLast = (List.range (2 ^ n - 1)).countP p := by
    rw [digitize, binsNew_eq, List.countP_map]
    rfl
  set j := (List.range (2 ^ n - 1)).countP p with hj
  refine ⟨j, by omega, ?_, fun hj0 => ?_, fun hj1 => ?_⟩
  · simp only [quantNew]
    rw [hd, levelsOut_eq, List.getElem?_map, List.getElem?_range (by omega)]
    rfl
  · have := h4 (j - 1) (by omega)
    simp only [hp, decide_eq_true_eq] at this
    rw [Nat.cast_sub (by omega)] at this
    refine le_trans (le_of_eq ?_) this
    push_cast
    ring
  · have := h5 j le_rfl (by omega)
    simp only [hp, decide_eq_false_iff_not, not_le] at this
    exact this

/-- C41, new quantiser on one quadrature: the result is one of the `2^n` mid points; it is within half a step (`1/2^n`) for values in `[-1, 1]`;
values beyond saturate; the map is monotone; the levels are reproduced. -/
theorem C41_new_scalar (n : Nat) (x : ℝ) : ∃ q, quantNew n x = some q
    ∧ (∃ k : Nat, k < 2 ^ n ∧ q = -1 + (2 * k + 1) / 2 ^ n)
    ∧ (-1 ≤ x → x ≤ 1 → |q - x| ≤ 1 / 2 ^ n)
    ∧ (x < -1 → q = -1 + 1 / 2 ^ n) ∧ (1 < x → q = 1 - 1 / 2 ^ n)
    ∧ (∀ y r, x ≤ y → quantNew n y = some r → q ≤ r)
    ∧ (∀ k : Nat, k < 2 ^ n → x = -1 + (2 * k + 1) / 2 ^ n → q = x) := by
  have h2 := two_pow_pos' n
  obtain ⟨j, h1, h3, h4, h5⟩ := quantNew_spec n x
  have e1 : (2 : ℝ) * j / 2 ^ n = (2 * j + 1) / 2 ^ n - 1 / 2 ^ n := by ring
  have e2 : ((2 : ℝ) * j + 2) / 2 ^ n = (2 * j + 1) / 2 ^ n + 1 / 2 ^ n := by ring
  have hcast : ∀ a b : Nat, a < b → (a : ℝ) + 1 ≤ b := fun a b h => by exact_mod_cast h
  refine ⟨_, h3, ⟨j, h1, rfl⟩, fun hx1 hx2 => ?_, fun hx => ?_, fun hx => ?_, fun y r hy hr => ?_, fun k hk hx => ?_⟩
  · rw [abs_le]
    constructor
    · rcases Nat.lt_or_ge (j + 1) (2 ^ n) with h | h
      · have := h5 h; rw [e2] at this; linarith
      · have hj : (j : ℝ) = 2 ^ n - 1 := by
          have : j + 1 = 2 ^ n := by omega
          have : ((j + 1 : ℕ) : ℝ) = ((2 ^ n : ℕ) : ℝ) := by rw [this]
          push_cast at this
          linarith
        rw [hj]
        have : (-1 : ℝ) + (2 * (2 ^ n - 1) + 1) / 2 ^ n = 1 - 1 / 2 ^ n := by field_simp; ring
        linarith
    · rcases Nat.eq_zero_or_pos j with h | h
      · subst h; simp only [Nat.cast_zero, mul_zero, zero_add]; linarith
      · have := h4 h; rw [e1] at this; linarith
  · have : j = 0 := by
      by_contra h
      have := h4 (Nat.pos_of_ne_zero h)
      have : 0 ≤ 2 * (j : ℝ) / 2 ^ n := by positivity
      linarith
    simp [this]
  · have hj : (j : ℝ) = 2 ^ n - 1 := by
      by_contra hne
      have hj1 : j + 1 < 2 ^ n := by
        rcases Nat.lt_or_ge (j + 1) (2 ^ n) with h | h
        · exact h
        · exfalso; apply hne
          have : j + 1 = 2 ^ n := by omega
          have : ((j + 1 : ℕ) : ℝ) = ((2 ^ n : ℕ) : ℝ) := by rw [this]
          push_cast at this
          linarith
      have := h5 hj1
      have h6 : ((j + 1 : ℕ) : ℝ) + 1 ≤ ((2 ^ n : ℕ) : ℝ) := hcast _ _ hj1
      push_cast at h6
      have : (2 * (j : ℝ) + 2) / 2 ^ n ≤ 2 := by rw [div_le_iff₀ h2]; linarith
      linarith
    rw [hj]
    field_simp; ring
  · obtain ⟨i, g1, g3, g4, g5⟩ := quantNew_spec n y
    rw [g3] at hr
    rw [← Option.some.inj hr]
    have : j ≤ i := by
      by_contra hlt
      have hji := not_le.1 hlt
      have u1 := h4 (by omega)
      have u2 := g5 (by omega)
      have u3 := hcast i j hji
      have : (2 * (i : ℝ) + 2) / 2 ^ n ≤ 2 * j / 2 ^ n := by
        apply div_le_div_of_nonneg_right _ h2.le; linarith
      linarith
    have : (j : ℝ) ≤ i := by exact_mod_cast this
    have : (2 * (j : ℝ) + 1) / 2 ^ n ≤ (2 * i + 1) / 2 ^ n := by
      apply div_le_div_of_nonneg_right _ h2.le; linarith
    linarith
  · have hjk : j = k := by
      rcases lt_trichotomy j k with h | h | h
      · exfalso
        have u1 := h5 (by omega)
        have u2 := hcast j k h
        rw [hx] at u1
        have : (2 * (j : ℝ) + 2) / 2 ^ n ≤ (2 * k + 1) / 2 ^ n := by
          apply div_le_div_of_nonneg_right _ h2.le; linarith
        linarith
      · exact h
      · exfalso
        have u1 := h4 (by omega)
        have u2 := hcast k j h
        rw [hx] at u1
        have : (2 * (k : ℝ) + 1) / 2 ^ n < 2 * j / 2 ^ n := by
          apply div_lt_div_of_pos_right _ h2; linarith
        linarith
    rw [hjk, hx]

/-- The largest modulus of a quadrature. -/
theorem absMax_eq {x : List ℂ} {M : ℝ} (h1 : ∃ z ∈ x, max |z.re| |z.im| = M) (h2 : ∀ z ∈ x, |z.re| ≤ M ∧ |z.im| ≤ M) : absMax x = some M := by
  rw [absMax, List.max?_eq_some_iff]
  refine ⟨?_, ?_⟩
  · obtain ⟨z, hz, h⟩ := h1
    exact List.mem_map.2 ⟨z, hz, h⟩
  · intro b hb
    obtain ⟨z, hz, rfl⟩ := List.mem_map.1 hb
    exact max_le (h2 z hz).1 (h2 z hz).2

/-- C41 in full for `quantize_signal_New` with its default flags: the error of every sample is at most half a step, the step being `2M/2^n` with
`M` the largest quadrature of the signal. -/
def C41_new_statement : Prop :=
  ∀ (sig : List (List ℂ)) (n : Nat) (M : ℝ), 0 < M → (∀ r ∈ sig, ∃ z ∈ r, max |z.re| |z.im| ≠ 0) →
    (∃ r ∈ sig, ∃ z ∈ r, max |z.re| |z.im| = M) → (∀ r ∈ sig, ∀ z ∈ r, |z.re| ≤ M ∧ |z.im| ≤ M) →
    ∃ out, quantizeNew sig n true true = some out
      ∧ List.Forall₂ (List.Forall₂ fun z w => |w.re - z.re| ≤ M / 2 ^ n ∧ |w.im - z.im| ≤ M / 2 ^ n) sig out

theorem quantC_some {q : ℝ → Option ℝ} {z : ℂ} {a b : ℝ} (h1 : q z.re = some a) (h2 : q z.im = some b) : quantC q z = some ⟨a, b⟩ := by
  simp [quantC, h1, h2]

theorem forall₂_map_right' {α β γ : Type} (R : α → γ → Prop) (f : β → γ) {l : List α} {m : List β} (h : List.Forall₂ (fun a b => R a (f b)) l m) :
    List.Forall₂ R l (m.map f) := by
  induction h with
  | nil => exact .nil
  | cons h1 _ ih => exact .cons h1 ih

/-- C41, the part which holds for `quantize_signal_New`: all modes have the same largest quadrature `M` (in particular one mode). The output takes
`2^n` values per quadrature and is within half a step of the input. Missing: modes of different amplitude, which are all blown up to the largest one
(`C41_new_false`), and `rescale_in=False` (`C41_new_no_rescale`). -/
theorem C41_new_partial (sig : List (List ℂ)) (n : Nat) (M : ℝ) (hM : 0 < M) (hne : sig ≠ [])
    (h1 : ∀ r ∈ sig, ∃ z ∈ r, max |z.re| |z.im| = M) (h2 : ∀ r ∈ sig, ∀ z ∈ r, |z.re| ≤ M ∧ |z.im| ≤ M) :
    ∃ out, quantizeNew sig n true true = some out
      ∧ List.Forall₂ (List.Forall₂ fun z w => |w.re - z.re| ≤ M / 2 ^ n ∧ |w.im - z.im| ≤ M / 2 ^ n
          ∧ (∃ k : Nat, k < 2 ^ n ∧ w.re = M * (-1 + (2 * k + 1) / 2 ^ n)) ∧ ∃ k : Nat, k < 2 ^ n ∧ w.im = M * (-1 + (2 * k + 1) / 2 ^ n)) sig out := by
  have e1 : sig.mapM (rescaleRow 1) = some (sig.map fun r => r.map fun z => z / (M : ℂ) * 1) := by
    rw [mapM_eq_some_iff, List.map_map]
    refine List.map_congr_left fun r hr => ?_
    rw [rescaleRow, absMax_eq (h1 r hr) (h2 r hr)]
    simp [hM.ne']
  have e2 : absMax sig.flatten = some M := by
    apply absMax_eq
    · obtain ⟨r, hr⟩ := List.exists_mem_of_ne_nil _ hne
      obtain ⟨z, hz, h⟩ := h1 r hr
      exact ⟨z, List.mem_flatten.2 ⟨r, hr, hz⟩, h⟩
    · intro z hz
      obtain ⟨r, hr, hz⟩ := List.mem_flatten.1 hz
      exact h2 r hr z hz
  have hrow : ∀ r ∈ sig, ∃ q, (r.map fun z => z / (M : ℂ) * 1).mapM (quantC (quantNew n)) = some q ∧
      List.Forall₂ (fun z (w : ℂ) => |(w * (M : ℂ)).re - z.re| ≤ M / 2 ^ n ∧ |(w * (M : ℂ)).im - z.im| ≤ M / 2 ^ n
          ∧ (∃ k : Nat, k < 2 ^ n ∧ (w * (M : ℂ)).re = M * (-1 + (2 * k + 1) / 2 ^ n))
          ∧ ∃ k : Nat, k < 2 ^ n ∧ (w * (M : ℂ)).im = M * (-1 + (2 * k + 1) / 2 ^ n)) r q := by
    intro r hr
    rw [show (r.map fun z => z / (M : ℂ) * 1).mapM (quantC (quantNew n)) = r.mapM fun z => quantC (quantNew n) (z / (M : ℂ) * 1) by
      rw [List.mapM_map]; rfl]
    apply mapM_forall2
    intro z hz
    obtain ⟨b1, b2⟩ := h2 r hr z hz
    have er : (z / (M : ℂ) * 1).re = z.re / M := by rw [mul_one, Complex.div_ofReal_re]
    have ei : (z / (M : ℂ) * 1).im = z.im / M := by rw [mul_one, Complex.div_ofReal_im]
    have scal : ∀ x : ℝ, |x| ≤ M → ∃ q, quantNew n (x / M) = some q ∧ |q * M - x| ≤ M / 2 ^ n
        ∧ ∃ k : Nat, k < 2 ^ n ∧ q * M = M * (-1 + (2 * k + 1) / 2 ^ n) := by
      intro x hx
      obtain ⟨q, hq, ⟨k, hk, hqk⟩, herr, -⟩ := C41_new_scalar n (x / M)
      have hx' := abs_le.1 hx
      have := herr (by rw [le_div_iff₀ hM]; linarith) (by rw [div_le_one hM]; linarith)
      refine ⟨q, hq, ?_, k, hk, by rw [hqk, mul_comm]⟩
      have e : q * M - x = (q - x / M) * M := by field_simp
      rw [e, abs_mul, abs_of_pos hM]
      calc |q - x / M| * M ≤ 1 / 2 ^ n * M := mul_le_mul_of_nonneg_right this hM.le
        _ = M / 2 ^ n := by ring
    obtain ⟨a, ha, ha1, ha2⟩ := scal z.re b1
    obtain ⟨b, hb, hb1, hb2⟩ := scal z.im b2
    refine ⟨⟨a, b⟩, quantC_some (by rw [er]; exact ha) (by rw [ei]; exact hb), ?_⟩
    rw [Complex.re_mul_ofReal, Complex.im_mul_ofReal]
    exact ⟨ha1, hb1, ha2, hb2⟩
  obtain ⟨q, hq, hR⟩ := mapM_forall2 (fun r => (r.map fun z => z / (M : ℂ) * 1).mapM (quantC (quantNew n))) _ sig hrow
  refine ⟨q.map fun r => r.map fun z => z * (M : ℂ), ?_, ?_⟩
  · have e3 : (sig.map fun r => r.map fun z => z / (M : ℂ) * 1).mapM (fun r => r.mapM (quantC (quantNew n))) = some q := by
      rw [List.mapM_map]; exact hq
    simp only [quantizeNew, if_true, e1, e2, Option.bind_eq_bind, Option.bind_some, e3]
    rfl
  · refine forall₂_map_right' _ _ (hR.imp fun r q h => forall₂_map_right' _ _ h)

/-- C41 fails for modes of different amplitude. -/
theorem C41_new_false : ¬ C41_new_statement := by
  intro h
  obtain ⟨out, h1, h2⟩ := h [[4], [1]] 2 4 (by norm_num) (by simp) (by simp) (by simp)
  have hq : quantNew 2 1 = some (3 / 4) := by
    obtain ⟨q, hq, ⟨k, hk, hqk⟩, herr, -⟩ := C41_new_scalar 2 1
    have := abs_le.1 (herr (by norm_num) le_rfl)
    rw [hqk] at this
    have h3 : (3 : ℝ) ≤ k := by
      have h4 := this.1
      norm_num at h4
      linarith
    have h3 : 3 ≤ k := by exact_mod_cast h3
    have : k = 3 := by omega
    rw [hq, hqk, this]; norm_num
  obtain ⟨z0, hz0, -⟩ := C41_new_scalar 2 0
  have hz0' : quantC (quantNew 2) 1 = some ⟨3 / 4, z0⟩ := quantC_some (by simpa using hq) (by simpa using hz0)
  have hr : ∀ c : ℝ, 0 < c → rescaleRow 1 [(c : ℂ)] = some [1] := by
    intro c hc
    have : absMax [(c : ℂ)] = some c := absMax_eq ⟨(c : ℂ), by simp, by simp [abs_of_pos hc, hc.le]⟩ (by simp [abs_of_pos hc, hc.le])
    have h3 : (c : ℂ) ≠ 0 := by exact_mod_cast hc.ne'
    simp [rescaleRow, this, hc.ne', h3]
  have e4 : absMax [(4 : ℂ), 1] = some 4 := by
    apply absMax_eq
    · exact ⟨4, by simp, by simp⟩
    · simp
  have e5 : List.mapM (rescaleRow 1) [[(4 : ℂ)], [1]] = some [[1], [1]] := by
    have h4 := hr 4 (by norm_num)
    have h5 := hr 1 (by norm_num)
    push_cast at h4 h5
    simp [h4, h5]
  have e6 : List.mapM (fun r => List.mapM (quantC (quantNew 2)) r) [[(1 : ℂ)], [1]] = some [[⟨3 / 4, z0⟩], [⟨3 / 4, z0⟩]] := by
    simp only [List.mapM_cons, List.mapM_nil, hz0']
    rfl
  simp only [quantizeNew, if_true, e5, Option.bind_eq_bind, Option.bind_some, e6] at h1
  rw [show ([[(4 : ℂ)], [1]] : List (List ℂ)).flatten = [4, 1] from rfl, e4] at h1
  have h6 := Option.some.inj h1
  rw [← h6] at h2
  cases h2 with
  | cons _ h2 => cases h2 with
    | cons h2 _ => cases h2 with
      | cons h2 _ =>
        have := h2.1
        norm_num at this

/-- C41: with `rescale_in=False` the output does not depend on the samples of the signal (only on its shape): line 389 leaves an array of zeros. -/
theorem C41_new_no_rescale (sig sig' : List (List ℂ)) (n : Nat) (h : sig.map List.length = sig'.map List.length) :
    quantizeNew sig n false false = quantizeNew sig' n false false := by
  have : (sig.map fun r => r.map fun _ => (0 : ℂ)) = sig'.map fun r => r.map fun _ => (0 : ℂ) := by
    have e : ∀ s : List (List ℂ), (s.map fun r => r.map fun _ => (0 : ℂ)) = (s.map List.length).map fun k => List.replicate k (0 : ℂ) := by
      intro s; rw [List.map_map]; exact List.map_congr_left fun r _ => by simp
    rw [e, e, h]
  simp only [quantizeNew, this, Bool.false_eq_true, if_false]

/-- The index found by the old quantiser (`n ≥ 1`). -/
theorem quantOld_spec (n : Nat) (hn : 1 ≤ n) (x : ℝ) : ∃ j : Nat, j < 2 ^ n ∧ quantOld n x = some (-1 + (j : ℝ) * (2 / (2 ^ n - 1)))
    ∧ (0 < j → -1 + ((j : ℝ) - 1) * (2 / (2 ^ n - 1)) ≤ x) ∧ (j + 1 < 2 ^ n → x < -1 + (j : ℝ) * (2 / (2 ^ n - 1))) := by
  have h1 : (1 : ℝ) < 2 ^ n := one_lt_pow₀ (by norm_num) (by omega)
  have hs : (0 : ℝ) < 2 / (2 ^ n - 1) := div_pos (by norm_num) (by linarith)
  have hpow : 0 < 2 ^ n := Nat.two_pow_pos n
  set s : ℝ := 2 / (2 ^ n - 1) with hsdef
  have hl : linspace (-1) 1 (2 ^ n) = (List.range (2 ^ n)).map fun (k : Nat) => -1 + k * s := by
    simp only [linspace]
    refine List.map_congr_left fun k _ => ?_
    rw [hsdef]; push_cast; norm_num
  have hb : (linspace (-1) 1 (2 ^ n)).dropLast = (List.range (2 ^ n - 1)).map fun (k : Nat) => -1 + k * s := by
    rw [hl]
    have h : 2 ^ n = (2 ^ n - 1) + 1 := (Nat.sub_add_cancel Nat.one_le_two_pow).symm
    conv_lhs => rw [h, List.range_succ, List.map_append, List.map_singleton, List.dropLast_concat]
  set p : Nat → Bool := fun k => decide (-1 + (k : ℝ) * s ≤ x) with hp
  have hmono : ∀ k, p (k + 1) = true → p k = true := by
    intro k hk
    simp only [hp, decide_eq_true_eq] at hk ⊢
    push_cast at hk
    nlinarith
  obtain ⟨h3, h4, h5⟩ := countP_initial p hmono (2 ^ n - 1)
  have hd : digitize x (linspace (-1) 1 (2 ^ n)).dropLast = (List.range (2 ^ n - 1)).countP p := by
    rw [digitize, hb, List.countP_map]
    rfl
  set j := (List.range (2 ^ n - 1)).countP p with hj
  refine ⟨j, by omega, ?_, fun hj0 => ?_, fun hj1 => ?_⟩
  · simp only [quantOld]
    rw [hd, hl, List.getElem?_map, List.getElem?_range (by omega)]
    rfl
  · have := h4 (j - 1) (by omega)
    simp only [hp, decide_eq_true_eq] at this
    rwa [Nat.cast_sub (by omega), Nat.cast_one] at this
  · have := h5 j le_rfl (by omega)
    simpa only [hp, decide_eq_false_iff_not, not_le] using this

/-- C41 in full for `quantize_signal`, rows scaled to unit modulus: half a step. -/
def C41_old_statement : Prop :=
  ∀ (x : List ℂ) (n : Nat), 1 ≤ n → (∃ z ∈ x, ‖z‖ = 1) → (∀ z ∈ x, ‖z‖ ≤ 1) →
    ∃ y, quantizeOldRow n true false x = some y
      ∧ List.Forall₂ (fun z w => |w.re - z.re| ≤ 1 / (2 ^ n - 1) ∧ |w.im - z.im| ≤ 1 / (2 ^ n - 1)) x y

/-- C41, the part which holds for `quantize_signal`: a quadrature below one is rounded up to the next of `2^n` levels strictly above, so the error is
positive and up to a whole step `2/(2^n-1)`; one is kept. Missing: the bound of half a step. -/
theorem C41_old_partial (x : List ℂ) (n : Nat) (hn : 1 ≤ n) (h1 : ∃ z ∈ x, ‖z‖ = 1) (h2 : ∀ z ∈ x, ‖z‖ ≤ 1) :
    ∃ y, quantizeOldRow n true false x = some y
      ∧ List.Forall₂ (fun z w =>
          (∃ k : Nat, k < 2 ^ n ∧ w.re = -1 + (k : ℝ) * (2 / (2 ^ n - 1))) ∧ (∃ k : Nat, k < 2 ^ n ∧ w.im = -1 + (k : ℝ) * (2 / (2 ^ n - 1)))
          ∧ (z.re < 1 → z.re < w.re ∧ w.re ≤ z.re + 2 / (2 ^ n - 1)) ∧ (z.re = 1 → w.re = 1)
          ∧ (z.im < 1 → z.im < w.im ∧ w.im ≤ z.im + 2 / (2 ^ n - 1)) ∧ (z.im = 1 → w.im = 1)) x y := by
  have h12 : (1 : ℝ) < 2 ^ n := one_lt_pow₀ (by norm_num) (by omega)
  have hs : (0 : ℝ) < 2 / (2 ^ n - 1) := div_pos (by norm_num) (by linarith)
  have hm : (x.map fun z => ‖z‖).max? = some 1 := by
    rw [List.max?_eq_some_iff]
    refine ⟨?_, ?_⟩
    · obtain ⟨z, hz, h⟩ := h1; exact List.mem_map.2 ⟨z, hz, h⟩
    · intro b hb; obtain ⟨z, hz, rfl⟩ := List.mem_map.1 hb; exact h2 z hz
  have scal : ∀ v : ℝ, |v| ≤ 1 → ∃ q, quantOld n v = some q ∧ (∃ k : Nat, k < 2 ^ n ∧ q = -1 + (k : ℝ) * (2 / (2 ^ n - 1)))
      ∧ (v < 1 → v < q ∧ q ≤ v + 2 / (2 ^ n - 1)) ∧ (v = 1 → q = 1) := by
    intro v hv
    have hv := abs_le.1 hv
    obtain ⟨j, g1, g2, g3, g4⟩ := quantOld_spec n hn v
    have hlast : ¬ (j + 1 < 2 ^ n) → (-1 : ℝ) + (j : ℝ) * (2 / (2 ^ n - 1)) = 1 := by
      intro h
      have : j + 1 = 2 ^ n := by omega
      have : ((j + 1 : ℕ) : ℝ) = ((2 ^ n : ℕ) : ℝ) := by rw [this]
      push_cast at this
      have hj : (j : ℝ) = 2 ^ n - 1 := by linarith
      have : (2 : ℝ) ^ n - 1 ≠ 0 := by linarith
      rw [hj]; field_simp; norm_num
    refine ⟨_, g2, ⟨j, g1, rfl⟩, fun hv1 => ⟨?_, ?_⟩, fun hv1 => ?_⟩
    · by_cases h : j + 1 < 2 ^ n
      · exact g4 h
      · rw [hlast h]; exact hv1
    · rcases Nat.eq_zero_or_pos j with h | h
      · subst h; simp only [Nat.cast_zero, zero_mul]; linarith
      · have := g3 h; linarith
    · by_cases h : j + 1 < 2 ^ n
      · exfalso
        have := g4 h
        have h6 : ((j + 1 : ℕ) : ℝ) + 1 ≤ ((2 ^ n : ℕ) : ℝ) := by exact_mod_cast h
        push_cast at h6
        have : (j : ℝ) * (2 / (2 ^ n - 1)) ≤ 2 := by
          rw [← mul_div_assoc, div_le_iff₀ (by linarith)]; linarith
        linarith
      · exact hlast h
  obtain ⟨y, hy, hR⟩ := mapM_forall2 (quantC (quantOld n)) (fun z w =>
          (∃ k : Nat, k < 2 ^ n ∧ w.re = -1 + (k : ℝ) * (2 / (2 ^ n - 1))) ∧ (∃ k : Nat, k < 2 ^ n ∧ w.im = -1 + (k : ℝ) * (2 / (2 ^ n - 1)))
          ∧ (z.re < 1 → z.re < w.re ∧ w.re ≤ z.re + 2 / (2 ^ n - 1)) ∧ (z.re = 1 → w.re = 1)
          ∧ (z.im < 1 → z.im < w.im ∧ w.im ≤ z.im + 2 / (2 ^ n - 1)) ∧ (z.im = 1 → w.im = 1)) x (by
    intro z hz
    obtain ⟨a, ha, a1, a2, a3⟩ := scal z.re ((Complex.abs_re_le_norm z).trans (h2 z hz))
    obtain ⟨b, hb, b1, b2, b3⟩ := scal z.im ((Complex.abs_im_le_norm z).trans (h2 z hz))
    exact ⟨⟨a, b⟩, quantC_some ha hb, a1, b1, a2, a3, b2, b3⟩)
  refine ⟨y, ?_, hR⟩
  simp only [quantizeOldRow, hm, if_true, Option.bind_some, one_ne_zero, if_false, Complex.ofReal_one, div_one, List.map_id',
    Option.bind_eq_bind, hy]
  rfl

/-- C41 fails for `quantize_signal`: a sample on a level is moved a whole step up. -/
theorem C41_old_false : ¬ C41_old_statement := by
  intro h
  obtain ⟨y, h1, h2⟩ := h [-1] 2 (by norm_num) (by simp) (by simp)
  obtain ⟨y', h1', h2'⟩ := C41_old_partial [-1] 2 (by norm_num) (by simp) (by simp)
  rw [h1] at h1'
  have := Option.some.inj h1'
  subst this
  cases h2 with
  | cons a _ =>
    cases h2' with
    | cons b _ =>
      obtain ⟨⟨k, hk, hw⟩, -, b3, -⟩ := b
      have b4 := b3 (by norm_num)
      have a1 := abs_le.1 a.1
      rw [hw] at a1 b4
      have hk' : k = 0 ∨ 1 ≤ k := by omega
      rcases hk' with rfl | hk'
      · norm_num at b4
      · have : (1 : ℝ) ≤ k := by exact_mod_cast hk'
        norm_num at a1
        linarith [a1.2]

example : ∃ out, quantizeNew [[⟨2, -1⟩, ⟨-1 / 3, 0⟩]] 3 true true = some out := by
  obtain ⟨out, h, _⟩ := C41_new_partial [[⟨2, -1⟩, ⟨-1 / 3, 0⟩]] 3 2 (by norm_num) (by simp)
    (by intro r hr; rw [List.mem_singleton] at hr; subst hr; exact ⟨⟨2, -1⟩, by simp, by norm_num⟩)
    (by intro r hr; rw [List.mem_singleton] at hr; subst hr; intro z hz; simp at hz; rcases hz with rfl | rfl <;> norm_num [abs_le])
  exact ⟨out, h⟩

/-! ### Modulator -/

/-- The modulator at its default bias: half the sines of both quadratures. -/
theorem modulator_default (z : ℂ) :
    modulatorResponse 1 1 0 (1 / 2) 1 z = ((Real.sin (Real.pi / 2 * z.re) : ℝ) + I * (Real.sin (Real.pi / 2 * z.im) : ℝ)) / 2 := by
  have hb1 : bothQuad 1 = 1 + I := by simp [bothQuad]
  have hb0 : bothQuad 0 = 0 := by simp [bothQuad]
  have hmz : ∀ v : ℝ, mzm (v + 1) 1 0 = (Real.sin (Real.pi / 2 * v) : ℝ) := by
    intro v
    have e1 : Real.pi * (v + 1) * (1 + 0) / 2 = Real.pi / 2 * v + Real.pi / 2 := by ring
    have e2 : Real.pi * (v + 1) * (1 - 0) / 2 = Real.pi / 2 * v + Real.pi / 2 := by ring
    have e3 : Real.sin (Real.pi / 2 * v) = -Real.cos (Real.pi / 2 * v + Real.pi / 2) := by rw [Real.cos_add_pi_div_two]; ring
    rw [mzm, e1, e2, e3]
    generalize Real.pi / 2 * v + Real.pi / 2 = t
    have h1 : exp (I * (t : ℂ)) = Real.cos t + Real.sin t * I := by
      rw [mul_comm, Complex.exp_mul_I, Complex.ofReal_cos, Complex.ofReal_sin]
    have h2 : exp (-(I * (t : ℂ))) = Real.cos t - Real.sin t * I := by
      rw [mul_comm, ← neg_mul, Complex.exp_mul_I, Complex.cos_neg, Complex.sin_neg, Complex.ofReal_cos, Complex.ofReal_sin]; ring
    rw [h1, h2]
    push_cast
    ring
  simp only [modulatorResponse, hb1, hb0]
  have r1 : (1 + I : ℂ).re = 1 := by simp
  have r2 : (1 + I : ℂ).im = 1 := by simp
  rw [r1, r2, Complex.zero_re, Complex.zero_im, hmz, hmz]
  have e4 : Real.pi * (1 / 2) / 2 = Real.pi / 4 := by ring
  rw [e4]
  generalize Real.sin (Real.pi / 2 * z.re) = a
  generalize Real.sin (Real.pi / 2 * z.im) = b
  have h1 : exp (I * ((Real.pi / 4 : ℝ) : ℂ)) * exp (-(I * ((Real.pi / 4 : ℝ) : ℂ))) = 1 := by
    rw [← Complex.exp_add]; simp
  have h2 : exp (I * ((Real.pi / 4 : ℝ) : ℂ)) * exp (I * ((Real.pi / 4 : ℝ) : ℂ)) = I := by
    rw [← Complex.exp_add]
    have : I * ((Real.pi / 4 : ℝ) : ℂ) + I * ((Real.pi / 4 : ℝ) : ℂ) = (Real.pi / 2 : ℂ) * I := by push_cast; ring
    rw [this, Complex.exp_pi_div_two_mul_I]
  have : exp (I * ((Real.pi / 4 : ℝ) : ℂ)) * ((a : ℂ) * exp (-(I * ((Real.pi / 4 : ℝ) : ℂ))) + ((1 : ℝ) : ℂ) * b * exp (I * ((Real.pi / 4 : ℝ) : ℂ)))
      = a * (exp (I * ((Real.pi / 4 : ℝ) : ℂ)) * exp (-(I * ((Real.pi / 4 : ℝ) : ℂ))))
        + b * (exp (I * ((Real.pi / 4 : ℝ) : ℂ)) * exp (I * ((Real.pi / 4 : ℝ) : ℂ))) := by push_cast; ring
  rw [this, h1, h2]
  push_cast
  ring

/-- The compensated modulator returns the signal up to one factor, for the Vpi value `v` of `comp_mod_sin`. -/
def Inverts (v : ℝ) : Prop :=
  ∃ c : ℂ, c ≠ 0 ∧ ∀ z : ℂ, |z.re| ≤ 1 → |z.im| ≤ 1 →
    ∃ w, compModSin ⟨v, v⟩ z = some w ∧ modulatorResponse 1 1 0 (1 / 2) 1 w = c * z

/-- C42 in full: for every Vpi. -/
def C42_statement : Prop := ∀ v : ℝ, 0 < v → Inverts v

/-- C42, the part which holds: with `vpi = 1/π` the modulator returns exactly half the signal. Missing: any other Vpi, see `C42_iff`. -/
theorem C42_partial (z : ℂ) (h1 : |z.re| ≤ 1) (h2 : |z.im| ≤ 1) :
    ∃ w, compModSin ⟨1 / Real.pi, 1 / Real.pi⟩ z = some w ∧ modulatorResponse 1 1 0 (1 / 2) 1 w = z / 2 := by
  have hpi := Real.pi_ne_zero
  refine ⟨_, if_pos ⟨h1, h2⟩, ?_⟩
  rw [modulator_default]
  have e : ∀ x : ℝ, |x| ≤ 1 → Real.sin (Real.pi / 2 * (2 * (1 / Real.pi) * Real.arcsin x)) = x := by
    intro x hx
    have : Real.pi / 2 * (2 * (1 / Real.pi) * Real.arcsin x) = Real.arcsin x := by field_simp
    rw [this, Real.sin_arcsin (abs_le.1 hx).1 (abs_le.1 hx).2]
  show ((Real.sin (Real.pi / 2 * (2 * (1 / Real.pi) * Real.arcsin z.re)) : ℝ)
    + I * (Real.sin (Real.pi / 2 * (2 * (1 / Real.pi) * Real.arcsin z.im)) : ℝ) : ℂ) / 2 = _
  rw [e _ h1, e _ h2]
  congr 1
  rw [mul_comm]
  exact Complex.re_add_im z

/-- C42: among the positive values of Vpi only `1/π` gives the inverse of the modulator of this package. -/
theorem C42_iff (v : ℝ) (hv : 0 < v) : Inverts v ↔ v = 1 / Real.pi := by
  have hpi := Real.pi_pos
  constructor
  · rintro ⟨c, hc, h⟩
    set a := Real.pi * v with ha
    have hapos : 0 < a := mul_pos hpi hv
    -- on the real axis
    have key : ∀ t : ℝ, -(Real.pi / 2) ≤ t → t ≤ Real.pi / 2 → ((Real.sin (a * t) : ℝ) : ℂ) = 2 * c * (Real.sin t : ℝ) := by
      intro t h1 h2
      have hs : |(((Real.sin t : ℝ) : ℂ)).re| ≤ 1 := by rw [Complex.ofReal_re]; exact Real.abs_sin_le_one t
      obtain ⟨w, hw, he⟩ := h ((Real.sin t : ℝ) : ℂ) hs (by simp)
      rw [compModSin, if_pos ⟨hs, by simp⟩] at hw
      have hw := Option.some.inj hw
      rw [← hw, modulator_default] at he
      simp only [Complex.ofReal_re, Complex.ofReal_im, Real.arcsin_zero, mul_zero, Real.sin_zero, Complex.ofReal_zero, add_zero,
        Real.arcsin_sin h1 h2] at he
      have : Real.pi / 2 * (2 * v * t) = a * t := by rw [ha]; ring
      rw [this] at he
      linear_combination 2 * he
    set t := Real.pi / (4 * (1 + a)) with ht
    have htpos : 0 < t := by positivity
    have ht1 : t ≤ Real.pi / 4 := by
      rw [ht]; apply div_le_div_of_nonneg_left hpi.le (by norm_num); linarith
    have ht2 : a * t ≤ Real.pi := by
      have : a * t = Real.pi / 4 * (a / (1 + a)) := by rw [ht]; field_simp
      rw [this]
      have : a / (1 + a) ≤ 1 := by rw [div_le_one (by linarith)]; linarith
      nlinarith
    have k1 := key t (by linarith) (by linarith)
    have k2 := key (2 * t) (by linarith) (by linarith)
    have hsin : 0 < Real.sin t := Real.sin_pos_of_pos_of_lt_pi htpos (by linarith)
    have e1 : a * (2 * t) = 2 * (a * t) := by ring
    rw [e1, Real.sin_two_mul, Real.sin_two_mul] at k2
    push_cast at k1 k2
    rw [k1] at k2
    have hsC : (Complex.sin (t : ℂ)) ≠ 0 := by rw [← Complex.ofReal_sin]; exact_mod_cast hsin.ne'
    have hcos : Complex.cos ((a : ℂ) * t) = Complex.cos t := by
      have : (4 * c * Complex.sin t) * Complex.cos (a * t) = (4 * c * Complex.sin t) * Complex.cos t := by linear_combination k2
      exact mul_left_cancel₀ (mul_ne_zero (mul_ne_zero (by norm_num) hc) hsC) this
    have hcos' : Real.cos (a * t) = Real.cos t := by
      have : ((Real.cos (a * t) : ℝ) : ℂ) = (Real.cos t : ℝ) := by push_cast; exact hcos
      exact_mod_cast this
    have := Real.injOn_cos ⟨by positivity, ht2⟩ ⟨htpos.le, by linarith⟩ hcos'
    have ha1 : a = 1 := by
      have : a * t = 1 * t := by rw [this, one_mul]
      exact mul_right_cancel₀ htpos.ne' this
    rw [eq_div_iff hpi.ne', mul_comm, ← ha, ha1]
  · rintro rfl
    refine ⟨1 / 2, by norm_num, fun z h1 h2 => ?_⟩
    obtain ⟨w, hw, he⟩ := C42_partial z h1 h2
    exact ⟨w, hw, by rw [he]; ring⟩

/-- C42 fails, already for the default `vpi = 1.14`. -/
theorem C42_false : ¬ Inverts 1.14 ∧ ¬ C42_statement := by
  have h : ¬ Inverts 1.14 := by
    intro h
    have := (C42_iff 1.14 (by norm_num)).1 h
    rw [eq_div_iff Real.pi_ne_zero] at this
    have h3 := Real.two_le_pi
    norm_num at this
    linarith
  exact ⟨h, fun h2 => h (h2 1.14 (by norm_num))⟩

/-- C42 with different Vpi of the two arms: if each arm is driven with its own part of the output, in units of `π` times its Vpi, the modulator returns the signal up to the factor 1/2. -/
theorem C42_arms_partial (vpi z : ℂ) (hr : vpi.re ≠ 0) (hi : vpi.im ≠ 0) (h1 : |z.re| ≤ 1) (h2 : |z.im| ≤ 1) :
    ∃ w, compModSin vpi z = some w ∧ modulatorResponse 1 1 0 (1 / 2) 1 ⟨w.re / (Real.pi * vpi.re), w.im / (Real.pi * vpi.im)⟩ = z / 2 := by
  have hpi := Real.pi_ne_zero
  refine ⟨_, if_pos ⟨h1, h2⟩, ?_⟩
  obtain ⟨w, hw, he⟩ := C42_partial z h1 h2
  rw [compModSin, if_pos ⟨h1, h2⟩, Option.some.injEq] at hw
  rw [← he, ← hw]
  congr 1
  apply Complex.ext
  · show 2 * vpi.re * Real.arcsin z.re / (Real.pi * vpi.re) = 2 * (1 / Real.pi) * Real.arcsin z.re
    field_simp
  · show 2 * vpi.im * Real.arcsin z.im / (Real.pi * vpi.im) = 2 * (1 / Real.pi) * Real.arcsin z.im
    field_simp

example : ∃ w, compModSin ⟨3, 5⟩ ⟨1 / 2, -1⟩ = some w ∧ modulatorResponse 1 1 0 (1 / 2) 1 ⟨w.re / (Real.pi * 3), w.im / (Real.pi * 5)⟩ = ⟨1 / 2, -1⟩ / 2 :=
  C42_arms_partial ⟨3, 5⟩ _ (by norm_num) (by norm_num) (by norm_num [abs_le]) (by norm_num)

example : ∃ w, compModSin ⟨1 / Real.pi, 1 / Real.pi⟩ ⟨1 / 2, -1⟩ = some w ∧ modulatorResponse 1 1 0 (1 / 2) 1 w = ⟨1 / 2, -1⟩ / 2 :=
  C42_partial _ (by norm_num [abs_le]) (by norm_num)

/-! ### Shaping probabilities -/

/-- C61: the levels are the distinct real parts in increasing order; the weights are positive, sum to one, are in the Maxwell-Boltzmann ratio, hence
depend only on the energy of the level and decrease with it for a positive shaping parameter; they are uniform for parameter zero. -/
theorem C61_maxwell_boltzmann (symbols : List ℂ) (hne : symbols ≠ []) (nu : ℝ) :
    ∃ s p, calPsProbablts symbols nu = (s, p) ∧ s.Pairwise (· < ·) ∧ (∀ v, v ∈ s ↔ ∃ z ∈ symbols, z.re = v) ∧ p.length = s.length
      ∧ p.sum = 1 ∧ (∀ q ∈ p, 0 < q)
      ∧ (∀ (i j : Nat) (a b q r : ℝ), s[i]? = some a → s[j]? = some b → p[i]? = some q → p[j]? = some r →
          q = r * Real.exp (-nu * (a ^ 2 - b ^ 2)) ∧ (a ^ 2 = b ^ 2 → q = r) ∧ (0 < nu → a ^ 2 < b ^ 2 → r < q))
      ∧ (nu = 0 → ∀ q ∈ p, q = 1 / s.length) := by
  set s := psLevels symbols with hs
  set D := (s.map fun s => Real.exp (-nu * |s| ^ 2)).sum with hD
  have hmem : ∀ v, v ∈ s ↔ ∃ z ∈ symbols, z.re = v := by
    intro v; rw [hs, psLevels, Finset.mem_sort, List.mem_toFinset, List.mem_map]
  have hsne : s ≠ [] := by
    obtain ⟨z, hz⟩ := List.exists_mem_of_ne_nil _ hne
    exact List.ne_nil_of_mem ((hmem z.re).2 ⟨z, hz, rfl⟩)
  have hDpos : 0 < D := by
    rw [hD]
    apply List.sum_pos
    · intro y hy; obtain ⟨v, -, rfl⟩ := List.mem_map.1 hy; exact Real.exp_pos _
    · simpa using hsne
  refine ⟨s, s.map fun s => Real.exp (-nu * |s| ^ 2) / D, rfl, ?_, hmem, by simp, ?_, ?_, ?_, ?_⟩
  · rw [hs, psLevels]; exact (Finset.sortedLT_sort _).pairwise
  · rw [sum_map_div'', ← hD, div_self hDpos.ne']
  · intro q hq; obtain ⟨v, -, rfl⟩ := List.mem_map.1 hq; exact div_pos (Real.exp_pos _) hDpos
  · intro i j a b q r hi hj hq hr
    rw [List.getElem?_map, hi] at hq
    rw [List.getElem?_map, hj] at hr
    have hq := (Option.some.inj hq).symm
    have hr := (Option.some.inj hr).symm
    simp only [sq_abs] at hq hr
    have hrel : q = r * Real.exp (-nu * (a ^ 2 - b ^ 2)) := by
      rw [hq, hr, div_mul_eq_mul_div, ← Real.exp_add]; congr 2; ring
    refine ⟨hrel, fun h => by rw [hq, hr, h], fun h0 h => ?_⟩
    rw [hq, hr]
    apply div_lt_div_of_pos_right _ hDpos
    apply Real.exp_lt_exp.2
    nlinarith
  · rintro rfl q hq
    obtain ⟨v, -, rfl⟩ := List.mem_map.1 hq
    have : D = s.length := by rw [hD]; simp
    rw [this]; simp

example : ∃ s p, calPsProbablts [⟨1, 3⟩, ⟨-1, 0⟩, ⟨3, 3⟩] (1 / 2) = (s, p) ∧ p.sum = 1 := by
  obtain ⟨s, p, h, -, -, -, h2, -⟩ := C61_maxwell_boltzmann [⟨1, 3⟩, ⟨-1, 0⟩, ⟨3, 3⟩] (by simp) (1 / 2)
  exact ⟨s, p, h, h2⟩

/-! ### Delay compensation -/

/-- C100 in full: a delay of `d` sample periods moves the signal by `d` samples (cyclically). -/
def C100_statement : Prop :=
  ∀ (x : List ℝ) (d : Int) (fs : ℝ), 0 < fs → compRfDelay (x.map (fun (v : ℝ) => (v : ℂ))) (d / fs) fs = Np.roll x d

theorem ew_fftfreq (N : Nat) (m : Nat) (hm : m < N) (d : Int) :
    exp (-(I * ((2 * Real.pi * (d * (fftfreq N 1 m)) : ℝ) : ℂ))) = ew N (-(d * m)) := by
  have hN : (N : ℂ) ≠ 0 := by exact_mod_cast (by omega : N ≠ 0)
  have hN0 : 0 < N := by omega
  rw [fftfreq]
  split_ifs with h
  · rw [ew]
    congr 1
    push_cast
    ring
  · have : ew N (-(d * m)) = ew N (-(d * m) + N * d) := by rw [ew_add, ew_mul_self N hN0, mul_one]
    rw [this, ew]
    congr 1
    push_cast
    field_simp
    ring

theorem roll_map' {α β : Type} (f : α → β) (l : List α) (d : Int) : Np.roll (l.map f) d = (Np.roll l d).map f := by
  simp [Np.roll, List.map_drop, List.map_take]

/-- C100, the part which holds: a delay of `d·fs/2` (instead of `d/fs`) moves the signal by `d` samples. Missing: the delay in seconds;
`np.fft.fftfreq` is called with half the sampling rate instead of the sample period. -/
theorem C100_partial (x : List ℝ) (d : Int) (fs : ℝ) (hfs : 0 < fs) :
    compRfDelay (x.map (fun (v : ℝ) => (v : ℂ))) (d * (fs / 2)) fs = Np.roll x d := by
  set X := x.map (fun (v : ℝ) => (v : ℂ)) with hX
  have h : rowMul (((List.range X.length).map fun (m : Nat) => fftfreq X.length (1 / (fs / 2)) m).map fun v =>
      exp (-(I * ((2 * Real.pi * (d * (fs / 2)) * v : ℝ) : ℂ)))) (fft X) = fft (Np.roll X d) := by
    apply ext_at0
    · simp [rowMul]
    · intro k hk
      have hk' : k < X.length := by simpa [rowMul] using hk
      rw [at0_fft_roll X d hk', at0_rowMul _ _ (by simpa using hk') (by simpa using hk'), mul_comm]
      congr 1
      apply at0_of_some
      rw [List.map_map, List.getElem?_map, List.getElem?_range hk', ← ew_fftfreq _ _ hk']
      simp only [Option.map_some, Function.comp]
      congr 4
      have : fftfreq X.length (1 / (fs / 2)) k = fftfreq X.length 1 k / (fs / 2) := by
        rw [fftfreq, fftfreq]
        split_ifs <;> ring
      rw [this]
      field_simp
  simp only [compRfDelay]
  rw [h, ifft_fft, hX, roll_map', List.map_map]
  simp [Function.comp_def]

/-- C100 fails: for a sampling rate of one a delay by one sample moves the signal by two. -/
theorem C100_false : ¬ C100_statement := by
  intro h
  have h1 := h [1, 0, 0] 1 1 one_pos
  have h2 := C100_partial [1, 0, 0] 2 1 one_pos
  have e : ((2 : Int) : ℝ) * (1 / 2) = ((1 : Int) : ℝ) / 1 := by norm_num
  rw [e, h1] at h2
  have e1 : Np.roll ([1, 0, 0] : List ℝ) 1 = [0, 1, 0] := rfl
  have e2 : Np.roll ([1, 0, 0] : List ℝ) 2 = [0, 0, 1] := rfl
  rw [e1, e2] at h2
  norm_num at h2

example : compRfDelay ([1, 2, 3].map (fun v : ℝ => (v : ℂ))) (((1 : Int) : ℝ) * (50 / 2)) 50 = [3, 1, 2] :=
  C100_partial [1, 2, 3] 1 50 (by norm_num)

end Qampy
