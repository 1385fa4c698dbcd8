import Verif.Props.Phase
import Mathlib.Analysis.SpecialFunctions.Trigonometric.Bounds

/-!
Accuracy of the blind phase search for phases between the test angles, with phase drift and noise (C162).
-/

namespace Qampy

open Complex

theorem norm_exp_sub_exp_le (a b : ℝ) : ‖Complex.exp (I * (a : ℂ)) - Complex.exp (I * (b : ℂ))‖ ≤ |a - b| := by
  have h : Complex.exp (I * (a : ℂ)) - Complex.exp (I * (b : ℂ)) =
      Complex.exp (I * (b : ℂ)) * (Complex.exp (I * ((a - b : ℝ) : ℂ)) - 1) := by
    rw [mul_sub, ← Complex.exp_add, mul_one]
    congr 2
    push_cast
    ring
  rw [h, norm_mul]
  have h1 : ‖Complex.exp (I * (b : ℂ))‖ = 1 := by rw [mul_comm]; exact Complex.norm_exp_ofReal_mul_I b
  rw [h1, one_mul]
  have := Real.norm_exp_I_mul_ofReal_sub_one_le (x := a - b)
  simpa using this

theorem norm_exp_I (a : ℝ) : ‖Complex.exp (I * (a : ℂ))‖ = 1 := by rw [mul_comm]; exact Complex.norm_exp_ofReal_mul_I a

theorem norm_I_zpow (q : ℤ) : ‖(I : ℂ) ^ q‖ = 1 := by rw [norm_zpow, Complex.norm_I, one_zpow]

theorem exp_quarter_zero (q : ℤ) : Complex.exp (I * ((Real.pi / 2 * q : ℝ) : ℂ)) = I ^ q := by
  have := exp_quarter 0 q
  simpa using this

/-- Every phase is within half a step of a test angle, up to quarter turns. -/
theorem testAngles_cover (θ : ℝ) (M : Nat) (hM : 1 ≤ M) :
    ∃ (m : Nat) (q : ℤ), m < M ∧ |θ + (-Real.pi / 4 + m * (Real.pi / 2 / M)) - Real.pi / 2 * q| ≤ Real.pi / (4 * M) := by
  have hM' : (0 : ℝ) < M := by exact_mod_cast hM
  have hpi := Real.pi_pos
  obtain ⟨r, hr⟩ : ∃ r : ℤ, |(Real.pi / 4 - θ) / (Real.pi / 2 / M) - r| ≤ 1 / 2 := ⟨_, abs_sub_round _⟩
  have hMz : (0 : ℤ) < M := by exact_mod_cast hM
  obtain ⟨m, hm⟩ : ∃ m : Nat, (m : ℤ) = r % M := ⟨(r % M).toNat, Int.toNat_of_nonneg (Int.emod_nonneg _ hMz.ne')⟩
  have hmM : m < M := by
    have := Int.emod_lt_of_pos r hMz
    omega
  refine ⟨m, -(r / M), hmM, ?_⟩
  have hrm : (r : ℝ) = m + M * ((r / M : ℤ) : ℝ) := by
    have := Int.emod_add_mul_ediv r M
    rw [← hm] at this
    exact_mod_cast this.symm
  have hh : (0 : ℝ) < Real.pi / 2 / M := by positivity
  have key : θ + (-Real.pi / 4 + m * (Real.pi / 2 / M)) - Real.pi / 2 * ((-(r / M : ℤ) : ℤ) : ℝ) =
      -(((Real.pi / 4 - θ) / (Real.pi / 2 / M) - r) * (Real.pi / 2 / M)) := by
    rw [sub_mul, div_mul_cancel₀ _ hh.ne', hrm]
    push_cast
    field_simp
    ring
  rw [key, abs_neg, abs_mul, abs_of_pos hh]
  calc _ ≤ 1 / 2 * (Real.pi / 2 / M) := mul_le_mul_of_nonneg_right hr hh.le
    _ = _ := by field_simp; norm_num

theorem exists_nearestSq (symbols : List ℂ) (h : symbols ≠ []) (z : ℂ) : ∃ d, IsNearestSq symbols z d := by
  obtain ⟨d, hd⟩ : ∃ d, listMin (symbols.map fun s => ‖z - s‖ ^ 2) = some d := by
    unfold listMin
    cases hs : symbols with
    | nil => exact absurd hs h
    | cons a l => exact ⟨_, rfl⟩
  unfold listMin at hd
  rw [List.min?_eq_some_iff] at hd
  obtain ⟨h1, h2⟩ := hd
  obtain ⟨s, hs, hsd⟩ := List.mem_map.1 h1
  exact ⟨d, fun s' hs' => h2 _ (List.mem_map.2 ⟨s', hs', rfl⟩), s, hs, hsd.symm⟩

theorem closed_zpow {symbols : List ℂ} (hI : ∀ s ∈ symbols, I * s ∈ symbols) (q : ℤ) (s : ℂ) (hs : s ∈ symbols) :
    I ^ q * s ∈ symbols := by
  have hnat : ∀ (n : Nat) (s : ℂ), s ∈ symbols → I ^ n * s ∈ symbols := by
    intro n
    induction n with
    | zero => intro s hs; simpa using hs
    | succ n ih => intro s hs; rw [pow_succ, mul_assoc]; exact ih _ (hI s hs)
  have hq : (I : ℂ) ^ q = I ^ (q % 4).toNat := by
    have h4 : (0 : ℤ) ≤ q % 4 := Int.emod_nonneg _ (by norm_num)
    rw [← zpow_natCast, Int.toNat_of_nonneg h4]
    conv_lhs => rw [← Int.emod_add_mul_ediv q 4]
    rw [zpow_add₀ Complex.I_ne_zero, zpow_mul]
    have : (I : ℂ) ^ (4 : ℤ) = 1 := by
      rw [show (4 : ℤ) = ((4 : ℕ) : ℤ) by rfl, zpow_natCast]; exact Complex.I_pow_four
    rw [this, one_zpow, mul_one]
  rw [hq]
  exact hnat _ s hs

/-- A received signal: symbols of an alphabet turned by a phase that moves by at most `Δ` within `N` symbols, with noise of at most `ε`. -/
structure DriftingSignal (E symbols : List ℂ) (s : Nat → ℂ) (θ : Nat → ℝ) (N : Nat) (Δ ε : ℝ) : Prop where
  mem : ∀ j, j < E.length → s j ∈ symbols
  drift : ∀ i j, i < E.length → j < E.length → i ≤ j + N → j ≤ i + N → |θ i - θ j| ≤ Δ
  noise : ∀ j, j < E.length → ‖E.getD j 0 - s j * Complex.exp (I * (θ j : ℂ))‖ ≤ ε

/-- Turned by a test angle the distance of a sample to the turned symbol is that of the phases, up to the noise. -/
theorem turned_dist (e s : ℂ) (θ φ ε : ℝ) (q : ℤ) (hn : ‖e - s * Complex.exp (I * (θ : ℂ))‖ ≤ ε) :
    ‖e * Complex.exp (I * (φ : ℂ)) - I ^ q * s‖ ≤ ‖s‖ * ‖Complex.exp (I * ((θ + φ : ℝ) : ℂ)) - I ^ q‖ + ε ∧
    ‖s‖ * ‖Complex.exp (I * ((θ + φ : ℝ) : ℂ)) - I ^ q‖ ≤ ‖e * Complex.exp (I * (φ : ℂ)) - I ^ q * s‖ + ε := by
  have hx : Complex.exp (I * ((θ + φ : ℝ) : ℂ)) = Complex.exp (I * (θ : ℂ)) * Complex.exp (I * (φ : ℂ)) := by
    rw [← Complex.exp_add]; congr 1; push_cast; ring
  have hn' : ‖(e - s * Complex.exp (I * (θ : ℂ))) * Complex.exp (I * (φ : ℂ))‖ ≤ ε := by
    rw [norm_mul, norm_exp_I, mul_one]; exact hn
  have h1 : e * Complex.exp (I * (φ : ℂ)) - I ^ q * s = s * (Complex.exp (I * ((θ + φ : ℝ) : ℂ)) - I ^ q) +
      (e - s * Complex.exp (I * (θ : ℂ))) * Complex.exp (I * (φ : ℂ)) := by rw [hx]; ring
  have h2 : s * (Complex.exp (I * ((θ + φ : ℝ) : ℂ)) - I ^ q) = (e * Complex.exp (I * (φ : ℂ)) - I ^ q * s) -
      (e - s * Complex.exp (I * (θ : ℂ))) * Complex.exp (I * (φ : ℂ)) := by rw [hx]; ring
  rw [← norm_mul]
  constructor
  · rw [h1]
    exact (norm_add_le _ _).trans (by linarith)
  · rw [h2]
    exact (norm_sub_le _ _).trans (by linarith)

/-- Fit of the search: for any alphabet that a quarter turn maps onto itself, whatever the phase of the signal is, the angle chosen at a
position with a complete window brings the samples of the window to constellation points with a mean square error of at most the
square of (largest amplitude) · (half a step of the test angles + drift) + noise. -/
theorem C162_fit (E symbols : List ℂ) (M N : Nat) (s : Nat → ℂ) (θ : Nat → ℝ) (A Δ ε : ℝ) (hN : 1 ≤ N) (hM : 1 ≤ M)
    (hI : ∀ z ∈ symbols, I * z ∈ symbols) (hA : ∀ z ∈ symbols, ‖z‖ ≤ A) (h0 : symbols ≠ [])
    (h : DriftingSignal E symbols s θ N Δ ε) (h100 : 2 * A + ε ≤ 10)
    (h1000 : 2 * N * (A * (Real.pi / (4 * M) + Δ) + ε) ^ 2 < 1000) :
    ∃ out ph, bps E M symbols N = some (out, ph) ∧ out.length = E.length ∧
      ∀ t, N ≤ t → t + N < E.length → ∃ (φ : ℝ) (q : ℤ), ph[t]? = some (φ + Real.pi / 2 * q) ∧
        out[t]? = some (E.getD t 0 * Complex.exp (I * ((φ + Real.pi / 2 * q : ℝ) : ℂ))) ∧
        ∃ f : Nat → ℂ, (∀ j, f j ∈ symbols) ∧
          ∑ j ∈ Finset.Ioc (t - N) (t + N), ‖E.getD j 0 * Complex.exp (I * (φ : ℂ)) - f j‖ ^ 2 ≤
            2 * N * (A * (Real.pi / (4 * M) + Δ) + ε) ^ 2 := by
  have hA0 : 0 ≤ A := by
    obtain ⟨z, hz⟩ := List.exists_mem_of_ne_nil _ h0
    exact (norm_nonneg z).trans (hA z hz)
  choose D hD using fun (i k : Nat) =>
    exists_nearestSq symbols h0 (E.getD i 0 * Complex.exp (I * (angleAt [testAngles M] i k : ℝ)))
  have hD100 : ∀ i k, i < E.length → k < M → D i k ≤ 100 := by
    intro i k hi _
    have hs := h.mem i hi
    have h1 := (turned_dist (E.getD i 0) (s i) (θ i) (angleAt [testAngles M] i k) ε 0 (h.noise i hi)).1
    rw [zpow_zero, one_mul] at h1
    have h2 : ‖Complex.exp (I * ((θ i + angleAt [testAngles M] i k : ℝ) : ℂ)) - 1‖ ≤ 2 := by
      refine (norm_sub_le _ _).trans ?_
      rw [norm_exp_I, norm_one]; norm_num
    have h3 : ‖E.getD i 0 * Complex.exp (I * (angleAt [testAngles M] i k : ℝ)) - s i‖ ≤ 10 := by
      have := mul_le_mul (hA _ hs) h2 (norm_nonneg _) hA0
      linarith
    refine ((hD i k).1 _ hs).trans ?_
    have := norm_nonneg (E.getD i 0 * Complex.exp (I * (angleAt [testAngles M] i k : ℝ)) - s i)
    nlinarith
  have hbest : ∀ t, N ≤ t → t + N < E.length → ∃ k, k < M ∧
      windowCost D N t k ≤ 2 * N * (A * (Real.pi / (4 * M) + Δ) + ε) ^ 2 := by
    intro t hNt htN
    obtain ⟨m, q, hm, hq⟩ := testAngles_cover (θ t) M hM
    refine ⟨m, hm, ?_⟩
    unfold windowCost
    have hcard : (Finset.Ioc (t - N) (t + N)).card = 2 * N := by rw [Nat.card_Ioc]; omega
    have : ∀ j ∈ Finset.Ioc (t - N) (t + N), D j m ≤ (A * (Real.pi / (4 * M) + Δ) + ε) ^ 2 := by
      intro j hj
      rw [Finset.mem_Ioc] at hj
      have hjE : j < E.length := by omega
      have hs := h.mem j hjE
      refine ((hD j m).1 _ (closed_zpow hI q _ hs)).trans ?_
      rw [angleAt_one, testAngles_getD M m hm]
      have h1 := (turned_dist (E.getD j 0) (s j) (θ j) (-Real.pi / 4 + m * (Real.pi / 2 / M)) ε q (h.noise j hjE)).1
      have h2 : ‖Complex.exp (I * ((θ j + (-Real.pi / 4 + m * (Real.pi / 2 / M)) : ℝ) : ℂ)) - I ^ q‖ ≤ Real.pi / (4 * M) + Δ := by
        rw [← exp_quarter_zero]
        refine (norm_exp_sub_exp_le _ _).trans ?_
        have hd := h.drift j t hjE (by omega) (by omega) (by omega)
        calc _ = |(θ t + (-Real.pi / 4 + m * (Real.pi / 2 / M)) - Real.pi / 2 * q) + (θ j - θ t)| := by congr 1; ring
          _ ≤ _ := (abs_add_le _ _).trans (add_le_add hq hd)
      have h3 := mul_le_mul (hA _ hs) h2 (norm_nonneg _) hA0
      exact pow_le_pow_left₀ (norm_nonneg _) (by linarith) 2
    refine (Finset.sum_le_card_nsmul _ _ _ this).trans ?_
    rw [hcard, nsmul_eq_mul]
    push_cast
    exact le_rfl
  obtain ⟨idx, h1, h2, h3⟩ := C33_compiled E [testAngles M] symbols N M hN (by simp [testAngles]) (Or.inl rfl) D
    (fun i k _ _ => hD i k) hD100 (fun t a b => by
      obtain ⟨k, hk, hc⟩ := hbest t a b
      exact ⟨k, hk, lt_of_le_of_lt hc h1000⟩)
  have hidx : ∀ k ∈ idx, k < M := by
    intro k hk
    obtain ⟨t, ht, htk⟩ := List.mem_iff_getElem.1 hk
    obtain ⟨k', g1, g2, g3⟩ := h3 t (by omega)
    have : k' = k := by
      rw [List.getElem?_eq_getElem ht, htk] at g1
      exact (Option.some.inj g1).symm
    subst this
    by_cases hw : N ≤ t ∧ t + N < E.length
    · exact (g2 hw).1
    · have := g3 hw; omega
  have hsel := selectAngles_one (testAngles M) idx (by simpa [testAngles] using hidx)
  have hb : bps E M symbols N = some (rotateBy E (unwrapInner (idx.map fun k => (testAngles M).getD k 0) N),
      unwrapInner (idx.map fun k => (testAngles M).getD k 0) N) := by
    unfold bps; simp only [h1, hsel, Option.bind_eq_bind, Option.bind_some]
  refine ⟨_, _, hb, by simp [rotateBy, h2], ?_⟩
  intro t hNt htN
  obtain ⟨k, hk, g2, _⟩ := h3 t (by omega)
  obtain ⟨hkM, hmin, _⟩ := g2 ⟨hNt, htN⟩
  have hp : (idx.map fun k => (testAngles M).getD k 0)[t]? = some ((testAngles M).getD k 0) := by simp [hk]
  obtain ⟨q, hq⟩ := unwrapInner_mul _ N t _ hp
  have hE : E[t]? = some (E.getD t 0) := by
    have : t < E.length := by omega
    simp [List.getD, List.getElem?_eq_getElem this]
  refine ⟨(testAngles M).getD k 0, q, hq, getElem?_rotateBy hE hq, ?_⟩
  choose f hf1 hf2 using fun j => (hD j k).2
  refine ⟨f, hf1, ?_⟩
  obtain ⟨m, hm, hc⟩ := hbest t hNt htN
  refine le_trans (le_of_eq ?_) ((hmin m hm).trans hc)
  unfold windowCost
  refine Finset.sum_congr rfl fun j _ => ?_
  rw [hf2 j, angleAt_one]

/-- Accuracy for QPSK: whatever the phase of the signal is, the recovered phase is off by at most half a step of the test angles, twice
the drift and twice the relative noise, and the recovered sample is that close to the transmitted one, up to quarter turns. -/
theorem C162_qpsk (E symbols : List ℂ) (c : ℂ) (M N : Nat) (s : Nat → ℂ) (θ : Nat → ℝ) (Δ ε : ℝ) (hN : 1 ≤ N) (hM : 1 ≤ M)
    (hc : c ≠ 0) (hsym : ∀ z, z ∈ symbols ↔ ∃ q : ℤ, z = I ^ q * c)
    (h : DriftingSignal E symbols s θ N Δ ε) (h100 : 2 * ‖c‖ + ε ≤ 10)
    (h1000 : 2 * N * (‖c‖ * (Real.pi / (4 * M) + Δ) + ε) ^ 2 < 1000) :
    ∃ out ph, bps E M symbols N = some (out, ph) ∧ out.length = E.length ∧
      ∀ t, N ≤ t → t + N < E.length → ∃ (p : ℝ) (r : ℤ) (z : ℂ), ph[t]? = some p ∧ out[t]? = some z ∧
        ‖Complex.exp (I * ((θ t + p : ℝ) : ℂ)) - I ^ r‖ ≤ Real.pi / (4 * M) + 2 * Δ + 2 * ε / ‖c‖ ∧
        ‖z - I ^ r * s t‖ ≤ ‖c‖ * (Real.pi / (4 * M) + 2 * Δ) + 3 * ε := by
  have hc0 : 0 < ‖c‖ := norm_pos_iff.2 hc
  have hnorm : ∀ z ∈ symbols, ‖z‖ = ‖c‖ := by
    intro z hz
    obtain ⟨q, rfl⟩ := (hsym z).1 hz
    rw [norm_mul, norm_I_zpow, one_mul]
  have h0 : symbols ≠ [] := List.ne_nil_of_mem ((hsym c).2 ⟨0, by simp⟩)
  have hI : ∀ z ∈ symbols, I * z ∈ symbols := by
    intro z hz
    obtain ⟨q, rfl⟩ := (hsym z).1 hz
    refine (hsym _).2 ⟨1 + q, ?_⟩
    rw [zpow_add₀ Complex.I_ne_zero, zpow_one, mul_assoc]
  obtain ⟨out, ph, h1, h2, h3⟩ := C162_fit E symbols M N s θ ‖c‖ Δ ε hN hM hI (fun z hz => (hnorm z hz).le) h0 h h100 h1000
  refine ⟨out, ph, h1, h2, ?_⟩
  intro t hNt htN
  obtain ⟨φ, q, hph, hout, f, hf, hsum⟩ := h3 t hNt htN
  have htE : t < E.length := by omega
  obtain ⟨B, hB⟩ : ∃ B, B = ‖c‖ * (Real.pi / (4 * M) + Δ) + ε := ⟨_, rfl⟩
  rw [← hB] at hsum
  have hε : 0 ≤ ε := (norm_nonneg _).trans (h.noise t htE)
  have hΔ : 0 ≤ Δ := (abs_nonneg _).trans (h.drift t t htE htE (by omega) (by omega))
  have hB0 : 0 ≤ B := by rw [hB]; positivity
  obtain ⟨j, hj, hjB⟩ : ∃ j ∈ Finset.Ioc (t - N) (t + N), ‖E.getD j 0 * Complex.exp (I * (φ : ℂ)) - f j‖ ≤ B := by
    by_contra hcon
    push Not at hcon
    have hcard : (Finset.Ioc (t - N) (t + N)).card = 2 * N := by rw [Nat.card_Ioc]; omega
    have hne : (Finset.Ioc (t - N) (t + N)).Nonempty := ⟨t, Finset.mem_Ioc.2 ⟨by omega, by omega⟩⟩
    have := Finset.sum_lt_sum_of_nonempty hne (f := fun _ => B ^ 2) (fun j hj => pow_lt_pow_left₀ (hcon j hj) hB0 two_ne_zero)
    rw [Finset.sum_const, hcard, nsmul_eq_mul] at this
    push_cast at this
    linarith
  have hj' := Finset.mem_Ioc.1 hj
  have hjE : j < E.length := by omega
  obtain ⟨a, ha⟩ := (hsym _).1 (hf j)
  obtain ⟨b, hb⟩ := (hsym _).1 (h.mem j hjE)
  have hfj : f j = I ^ (a - b) * s j := by
    rw [ha, hb, ← mul_assoc, ← zpow_add₀ Complex.I_ne_zero, sub_add_cancel]
  rw [hfj] at hjB
  have hlow := (turned_dist (E.getD j 0) (s j) (θ j) φ ε (a - b) (h.noise j hjE)).2
  rw [hnorm _ (h.mem j hjE)] at hlow
  have hexp : ‖Complex.exp (I * ((θ j + φ : ℝ) : ℂ)) - I ^ (a - b)‖ ≤ Real.pi / (4 * M) + Δ + 2 * ε / ‖c‖ := by
    have : ‖Complex.exp (I * ((θ j + φ : ℝ) : ℂ)) - I ^ (a - b)‖ ≤ (B + ε) / ‖c‖ := by
      rw [le_div_iff₀ hc0]
      linarith
    refine this.trans (le_of_eq ?_)
    rw [hB]
    field_simp
    ring
  have hexpt : ‖Complex.exp (I * ((θ t + φ : ℝ) : ℂ)) - I ^ (a - b)‖ ≤ Real.pi / (4 * M) + 2 * Δ + 2 * ε / ‖c‖ := by
    have hd := norm_exp_sub_exp_le (θ t + φ) (θ j + φ)
    rw [show θ t + φ - (θ j + φ) = θ t - θ j by ring] at hd
    have hdr := h.drift t j htE hjE (by omega) (by omega)
    have := norm_sub_le_norm_sub_add_norm_sub (Complex.exp (I * ((θ t + φ : ℝ) : ℂ))) (Complex.exp (I * ((θ j + φ : ℝ) : ℂ)))
      (I ^ (a - b))
    linarith
  have hfin : ‖Complex.exp (I * ((θ t + (φ + Real.pi / 2 * q) : ℝ) : ℂ)) - I ^ (q + (a - b))‖ ≤
      Real.pi / (4 * M) + 2 * Δ + 2 * ε / ‖c‖ := by
    rw [← add_assoc, exp_quarter, zpow_add₀ Complex.I_ne_zero, ← mul_sub, norm_mul, norm_I_zpow, one_mul]
    exact hexpt
  refine ⟨_, q + (a - b), _, hph, hout, hfin, ?_⟩
  have hup := (turned_dist (E.getD t 0) (s t) (θ t) (φ + Real.pi / 2 * q) ε (q + (a - b)) (h.noise t htE)).1
  rw [hnorm _ (h.mem t htE)] at hup
  have := mul_le_mul_of_nonneg_left hfin hc0.le
  have he : ‖c‖ * (Real.pi / (4 * M) + 2 * Δ + 2 * ε / ‖c‖) = ‖c‖ * (Real.pi / (4 * M) + 2 * Δ) + 2 * ε := by
    field_simp
  linarith

theorem quarter_apart (p : ℤ) (h : (I : ℂ) ^ p ≠ 1) : 2 ≤ ‖(I : ℂ) ^ p - 1‖ ^ 2 := by
  have hq : (I : ℂ) ^ p = I ^ (p % 4).toNat := by
    have h4 : (0 : ℤ) ≤ p % 4 := Int.emod_nonneg _ (by norm_num)
    rw [← zpow_natCast, Int.toNat_of_nonneg h4]
    conv_lhs => rw [← Int.emod_add_mul_ediv p 4]
    rw [zpow_add₀ Complex.I_ne_zero, zpow_mul]
    have : (I : ℂ) ^ (4 : ℤ) = 1 := by
      rw [show (4 : ℤ) = ((4 : ℕ) : ℤ) by rfl, zpow_natCast]; exact Complex.I_pow_four
    rw [this, one_zpow, mul_one]
  rw [hq] at h ⊢
  obtain ⟨n, hn⟩ : ∃ n, n = (p % 4).toNat := ⟨_, rfl⟩
  have hlt : n < 4 := by omega
  rw [← hn] at h ⊢
  rw [← Complex.normSq_eq_norm_sq]
  interval_cases n
  · simp at h
  · simp [Complex.normSq_apply]; norm_num
  · simp [Complex.normSq_apply]; norm_num
  · simp [pow_succ, Complex.normSq_apply]; norm_num

/-- Decisions for QPSK: if half a step of the test angles, drift and noise together stay below the distance to the decision border, every
recovered sample with a complete window is decided as the transmitted symbol, up to quarter turns. -/
theorem C162_decision (E symbols : List ℂ) (c : ℂ) (M N : Nat) (s : Nat → ℂ) (θ : Nat → ℝ) (Δ ε : ℝ) (hN : 1 ≤ N) (hM : 1 ≤ M)
    (hc : c ≠ 0) (hsym : ∀ z, z ∈ symbols ↔ ∃ q : ℤ, z = I ^ q * c)
    (h : DriftingSignal E symbols s θ N Δ ε) (h100 : 2 * ‖c‖ + ε ≤ 10)
    (h1000 : 2 * N * (‖c‖ * (Real.pi / (4 * M) + Δ) + ε) ^ 2 < 1000)
    (hb : ‖c‖ * (Real.pi / (4 * M) + 2 * Δ) + 3 * ε < ‖c‖ / √2) :
    ∃ out ph, bps E M symbols N = some (out, ph) ∧
      ∀ t, N ≤ t → t + N < E.length → ∃ (r : ℤ) (z : ℂ), out[t]? = some z ∧ I ^ r * s t ∈ symbols ∧
        ∀ z' ∈ symbols, z' ≠ I ^ r * s t → ‖z - I ^ r * s t‖ < ‖z - z'‖ := by
  obtain ⟨out, ph, h1, _, h3⟩ := C162_qpsk E symbols c M N s θ Δ ε hN hM hc hsym h h100 h1000
  refine ⟨out, ph, h1, ?_⟩
  intro t hNt htN
  obtain ⟨p, r, z, _, hz, _, hd⟩ := h3 t hNt htN
  have hmem := h.mem t (by omega)
  obtain ⟨b, hb'⟩ := (hsym _).1 hmem
  refine ⟨r, z, hz, (hsym _).2 ⟨r + b, by rw [hb', ← mul_assoc, ← zpow_add₀ Complex.I_ne_zero]⟩, ?_⟩
  intro z' hz' hne
  obtain ⟨a, ha⟩ := (hsym _).1 hz'
  have hrel : z' = I ^ (a - b - r) * (I ^ r * s t) := by
    rw [hb', ha, ← mul_assoc, ← mul_assoc, ← zpow_add₀ Complex.I_ne_zero, ← zpow_add₀ Complex.I_ne_zero]
    congr 2
    ring
  have hp : (I : ℂ) ^ (a - b - r) ≠ 1 := by
    intro he
    rw [he, one_mul] at hrel
    exact hne hrel
  have hap := quarter_apart _ hp
  have hns : ‖I ^ r * s t‖ = ‖c‖ := by rw [hb', norm_mul, norm_mul, norm_I_zpow, norm_I_zpow, one_mul, one_mul]
  have h2 : (0 : ℝ) < √2 := by positivity
  have h22 : √2 * √2 = 2 := Real.mul_self_sqrt (by norm_num)
  have hroot : √2 ≤ ‖(I : ℂ) ^ (a - b - r) - 1‖ := by
    rw [show √2 = √(2 : ℝ) from rfl, Real.sqrt_le_left (norm_nonneg _)]
    exact hap
  have hdist : ‖c‖ * √2 ≤ ‖z' - I ^ r * s t‖ := by
    have : z' - I ^ r * s t = (I ^ (a - b - r) - 1) * (I ^ r * s t) := by rw [sub_mul, one_mul, ← hrel]
    rw [this, norm_mul, hns, mul_comm]
    exact mul_le_mul_of_nonneg_right hroot (norm_nonneg _)
  have htri : ‖z' - I ^ r * s t‖ ≤ ‖z - z'‖ + ‖z - I ^ r * s t‖ := by
    have := norm_sub_le_norm_sub_add_norm_sub z' z (I ^ r * s t)
    rwa [norm_sub_rev z' z] at this
  have hhalf : ‖c‖ / √2 * 2 = ‖c‖ * √2 := by
    rw [div_mul_eq_mul_div, div_eq_iff h2.ne', mul_assoc, h22]
  linarith

theorem qpsk_members (z : ℂ) : z ∈ [1, I, -1, -I] ↔ ∃ q : ℤ, z = I ^ q * 1 := by
  constructor
  · intro hz
    simp only [List.mem_cons, List.not_mem_nil, or_false] at hz
    rcases hz with rfl | rfl | rfl | rfl
    · exact ⟨0, by simp⟩
    · exact ⟨1, by simp⟩
    · exact ⟨2, by rw [show (2 : ℤ) = ((2 : ℕ) : ℤ) from rfl, zpow_natCast]; simp⟩
    · exact ⟨3, by rw [show (3 : ℤ) = ((3 : ℕ) : ℤ) from rfl, zpow_natCast]; simp [pow_succ]⟩
  · rintro ⟨q, rfl⟩
    refine closed_zpow ?_ q 1 (by simp)
    intro s hs
    simp only [List.mem_cons, List.not_mem_nil, or_false] at hs ⊢
    rcases hs with rfl | rfl | rfl | rfl <;> simp

/-- Three QPSK symbols with a phase between the test angles, that moves by 1/100 per symbol, and with noise on the middle one. -/
theorem drifting_three : DriftingSignal [Complex.exp (I * ((1 / 7 : ℝ) : ℂ)), I * Complex.exp (I * ((1 / 7 + 1 / 100 : ℝ) : ℂ)) + 1 / 50,
    -Complex.exp (I * ((1 / 7 + 2 / 100 : ℝ) : ℂ))] [1, I, -1, -I] (fun j => I ^ j) (fun j => 1 / 7 + j / 100) 1 (1 / 100) (1 / 50) where
  mem := by
    intro j hj
    simp only [List.length_cons, List.length_nil] at hj
    interval_cases j <;> simp
  drift := by
    intro i j _ _ h1 h2
    have h1' : (i : ℝ) ≤ j + 1 := by exact_mod_cast h1
    have h2' : (j : ℝ) ≤ i + 1 := by exact_mod_cast h2
    rw [abs_le]
    constructor <;> linarith
  noise := by
    intro j hj
    simp only [List.length_cons, List.length_nil] at hj
    interval_cases j
    · simp
    · simp only [List.getD, List.getElem?_cons_succ, List.getElem?_cons_zero, Option.getD_some, Nat.cast_one, pow_one,
        add_sub_cancel_left]
      norm_num
    · simp

example : ∃ out ph, bps [Complex.exp (I * ((1 / 7 : ℝ) : ℂ)), I * Complex.exp (I * ((1 / 7 + 1 / 100 : ℝ) : ℂ)) + 1 / 50,
    -Complex.exp (I * ((1 / 7 + 2 / 100 : ℝ) : ℂ))] 8 [1, I, -1, -I] 1 = some (out, ph) ∧
    ∃ (r : ℤ) (z : ℂ), out[1]? = some z ∧ I ^ r * I ∈ [1, I, -1, -I] ∧
      ∀ z' ∈ [1, I, -1, -I], z' ≠ I ^ r * I → ‖z - I ^ r * I‖ < ‖z - z'‖ := by
  have hpi := Real.pi_le_four
  have hpi0 := Real.pi_pos
  have hroot : (1 : ℝ) / √2 > 7 / 10 := by
    have h2 : (0 : ℝ) < √2 := by positivity
    rw [gt_iff_lt, lt_div_iff₀ h2]
    have : √2 < 10 / 7 := by
      rw [Real.sqrt_lt' (by norm_num)]; norm_num
    linarith
  obtain ⟨out, ph, h1, h2⟩ := C162_decision _ [1, I, -1, -I] 1 8 1 _ _ (1 / 100) (1 / 50) le_rfl (by norm_num) one_ne_zero
    qpsk_members drifting_three (by norm_num) (by
      norm_num
      have : (Real.pi / 32 + 1 / 100 + 1 / 50) ^ 2 ≤ 1 := by
        apply pow_le_one₀ (by positivity)
        linarith
      linarith) (by norm_num; norm_num at hroot; linarith)
  refine ⟨out, ph, h1, ?_⟩
  have := h2 1 le_rfl (by simp)
  simpa using this

end Qampy
