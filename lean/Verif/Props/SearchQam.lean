import Verif.Props.CycleSlips
import Verif.Props.Constellation

/-!
Blind phase search with constellations of several rings: accuracy, cycle slips and decisions for QAM (C191).
-/

namespace Qampy

open Complex

/-- The four turns of `c` are the points of the alphabet nearest to any point of the circle through `c`. -/
structure AnchorRing (symbols : List ℂ) (c : ℂ) : Prop where
  mem : c ∈ symbols
  ne : c ≠ 0
  near : ∀ z : ℂ, ‖z‖ = ‖c‖ → ∀ f ∈ symbols, ∃ q : ℤ, ‖z - I ^ q * c‖ ≤ ‖z - f‖

/-- Every complete window has symbols of the anchor ring, at least one in `ρ²`. -/
def AnchoredWindows (s : Nat → ℂ) (c : ℂ) (L N : Nat) (ρ : ℝ) : Prop :=
  ∀ t, N ≤ t → t + N < L → ∃ J : Finset Nat, J ⊆ Finset.Ioc (t - N) (t + N) ∧ (∀ j ∈ J, ∃ q : ℤ, s j = I ^ q * c) ∧
    0 < J.card ∧ (2 * N : ℝ) ≤ ρ ^ 2 * J.card

/-- Bound on the phase error: `(ρ · (largest amplitude · (half a step of the test angles + drift) + noise) + noise) / amplitude of the anchors + drift`. -/
noncomputable def searchBound (A a Δ ε ρ : ℝ) (M : Nat) : ℝ := (ρ * (A * (Real.pi / (4 * M) + Δ) + ε) + ε) / a + Δ

/-- Accuracy for constellations of several rings: whatever the phase of the signal is, the recovered phase is off by at most `searchBound`,
up to quarter turns. -/
theorem C191_accuracy (E symbols : List ℂ) (c : ℂ) (M N : Nat) (s : Nat → ℂ) (θ : Nat → ℝ) (A Δ ε ρ : ℝ) (hN : 1 ≤ N) (hM : 1 ≤ M)
    (hI : ∀ z ∈ symbols, I * z ∈ symbols) (hA : ∀ z ∈ symbols, ‖z‖ ≤ A) (hc : AnchorRing symbols c) (hρ : 0 ≤ ρ)
    (hw : AnchoredWindows s c E.length N ρ)
    (h : DriftingSignal E symbols s θ N Δ ε) (h100 : 2 * A + ε ≤ 10)
    (h1000 : 2 * N * (A * (Real.pi / (4 * M) + Δ) + ε) ^ 2 < 1000) :
    ∃ out ph, bps E M symbols N = some (out, ph) ∧ out.length = E.length ∧
      ∀ t, N ≤ t → t + N < E.length → ∃ (p : ℝ) (r : ℤ) (z : ℂ), ph[t]? = some p ∧ out[t]? = some z ∧
        ‖Complex.exp (I * ((θ t + p : ℝ) : ℂ)) - I ^ r‖ ≤ searchBound A ‖c‖ Δ ε ρ M ∧
        ‖z - I ^ r * s t‖ ≤ A * searchBound A ‖c‖ Δ ε ρ M + ε := by
  have hc0 : 0 < ‖c‖ := norm_pos_iff.2 hc.ne
  have h0 : symbols ≠ [] := List.ne_nil_of_mem hc.mem
  obtain ⟨out, ph, h1, h2, h3⟩ := C162_fit E symbols M N s θ A Δ ε hN hM hI hA h0 h h100 h1000
  refine ⟨out, ph, h1, h2, ?_⟩
  intro t hNt htN
  obtain ⟨φ, q, hph, hout, f, hf, hsum⟩ := h3 t hNt htN
  have htE : t < E.length := by omega
  obtain ⟨B, hB⟩ : ∃ B, B = A * (Real.pi / (4 * M) + Δ) + ε := ⟨_, rfl⟩
  rw [← hB] at hsum
  have hε : 0 ≤ ε := (norm_nonneg _).trans (h.noise t htE)
  have hΔ : 0 ≤ Δ := (abs_nonneg _).trans (h.drift t t htE htE (by omega) (by omega))
  have hA0 : 0 ≤ A := hc0.le.trans (hA c hc.mem)
  have hB0 : 0 ≤ B := by rw [hB]; positivity
  obtain ⟨J, hJ, hJc, hJ0, hJρ⟩ := hw t hNt htN
  -- one of the anchors is as close to a point of the constellation as the mean
  obtain ⟨j, hj, hjB⟩ : ∃ j ∈ J, ‖E.getD j 0 * Complex.exp (I * (φ : ℂ)) - f j‖ ≤ ρ * B := by
    by_contra hcon
    push Not at hcon
    have hlt := Finset.sum_lt_sum_of_nonempty (Finset.card_pos.1 hJ0) (f := fun _ => (ρ * B) ^ 2)
      (fun j hj => pow_lt_pow_left₀ (hcon j hj) (by positivity) two_ne_zero)
    rw [Finset.sum_const, nsmul_eq_mul] at hlt
    have hle := Finset.sum_le_sum_of_subset_of_nonneg hJ (f := fun j => ‖E.getD j 0 * Complex.exp (I * (φ : ℂ)) - f j‖ ^ 2)
      (fun j _ _ => by positivity)
    have := mul_le_mul_of_nonneg_right hJρ (sq_nonneg B)
    nlinarith
  have hj' := Finset.mem_Ioc.1 (hJ hj)
  have hjE : j < E.length := by omega
  obtain ⟨b, hb⟩ := hJc j hj
  have hsn : ‖s j‖ = ‖c‖ := by rw [hb, norm_mul, norm_I_zpow, one_mul]
  obtain ⟨a, ha⟩ := hc.near (s j * Complex.exp (I * ((θ j + φ : ℝ) : ℂ))) (by rw [norm_mul, norm_exp_I, mul_one, hsn]) (f j) (hf j)
  have hac : I ^ a * c = I ^ (a - b) * s j := by
    rw [hb, ← mul_assoc, ← zpow_add₀ Complex.I_ne_zero, sub_add_cancel]
  have hexp : ‖c‖ * ‖Complex.exp (I * ((θ j + φ : ℝ) : ℂ)) - I ^ (a - b)‖ ≤ ρ * B + ε := by
    have e1 : s j * Complex.exp (I * ((θ j + φ : ℝ) : ℂ)) - I ^ a * c = s j * (Complex.exp (I * ((θ j + φ : ℝ) : ℂ)) - I ^ (a - b)) := by
      rw [hac]; ring
    rw [e1, norm_mul, hsn] at ha
    have hx : Complex.exp (I * ((θ j + φ : ℝ) : ℂ)) = Complex.exp (I * (θ j : ℂ)) * Complex.exp (I * (φ : ℂ)) := by
      rw [← Complex.exp_add]; congr 1; push_cast; ring
    have hn' : ‖(E.getD j 0 - s j * Complex.exp (I * (θ j : ℂ))) * Complex.exp (I * (φ : ℂ))‖ ≤ ε := by
      rw [norm_mul, norm_exp_I, mul_one]; exact h.noise j hjE
    have e2 : s j * Complex.exp (I * ((θ j + φ : ℝ) : ℂ)) - f j = (E.getD j 0 * Complex.exp (I * (φ : ℂ)) - f j) -
        (E.getD j 0 - s j * Complex.exp (I * (θ j : ℂ))) * Complex.exp (I * (φ : ℂ)) := by rw [hx]; ring
    rw [e2] at ha
    exact ha.trans ((norm_sub_le _ _).trans (by linarith))
  have hexpt : ‖Complex.exp (I * ((θ t + φ : ℝ) : ℂ)) - I ^ (a - b)‖ ≤ searchBound A ‖c‖ Δ ε ρ M := by
    have hd := norm_exp_sub_exp_le (θ t + φ) (θ j + φ)
    rw [show θ t + φ - (θ j + φ) = θ t - θ j by ring] at hd
    have hdr := h.drift t j htE hjE (by omega) (by omega)
    have := norm_sub_le_norm_sub_add_norm_sub (Complex.exp (I * ((θ t + φ : ℝ) : ℂ))) (Complex.exp (I * ((θ j + φ : ℝ) : ℂ)))
      (I ^ (a - b))
    have hdiv : ‖Complex.exp (I * ((θ j + φ : ℝ) : ℂ)) - I ^ (a - b)‖ ≤ (ρ * B + ε) / ‖c‖ := by
      rw [le_div_iff₀ hc0]; linarith
    unfold searchBound
    rw [← hB]
    linarith
  have hfin : ‖Complex.exp (I * ((θ t + (φ + Real.pi / 2 * q) : ℝ) : ℂ)) - I ^ (q + (a - b))‖ ≤ searchBound A ‖c‖ Δ ε ρ M := by
    rw [← add_assoc, exp_quarter, zpow_add₀ Complex.I_ne_zero, ← mul_sub, norm_mul, norm_I_zpow, one_mul]
    exact hexpt
  refine ⟨_, q + (a - b), _, hph, hout, hfin, ?_⟩
  have hup := (turned_dist (E.getD t 0) (s t) (θ t) (φ + Real.pi / 2 * q) ε (q + (a - b)) (h.noise t htE)).1
  have := mul_le_mul (hA _ (h.mem t htE)) hfin (norm_nonneg _) hA0
  linarith

/-- If the phases are recovered to within `B` and the signal drifts slowly, unwrapping keeps the number of quarter turns. -/
theorem same_quarter {E symbols out : List ℂ} {ph : List ℝ} {M N : Nat} {s : Nat → ℂ} {θ : Nat → ℝ} {Δ ε B C : ℝ} (hN : 1 ≤ N) (hM : 1 ≤ M)
    (h : DriftingSignal E symbols s θ N Δ ε) (h1 : bps E M symbols N = some (out, ph)) (hslip : 2 * B + Δ + Real.pi / 4 < √2)
    (h3 : ∀ t, N ≤ t → t + N < E.length → ∃ (p : ℝ) (r : ℤ) (z : ℂ), ph[t]? = some p ∧ out[t]? = some z ∧
      ‖Complex.exp (I * ((θ t + p : ℝ) : ℂ)) - I ^ r‖ ≤ B ∧ ‖z - I ^ r * s t‖ ≤ C) :
    ∃ r : Nat, r < 4 ∧ ∀ t, N ≤ t → t + N < E.length → ∃ (p : ℝ) (z : ℂ), ph[t]? = some p ∧ out[t]? = some z ∧
      ‖Complex.exp (I * ((θ t + p : ℝ) : ℂ)) - I ^ r‖ ≤ B ∧ ‖z - I ^ r * s t‖ ≤ C := by
  by_cases hin : N + N < E.length
  swap
  · exact ⟨0, by norm_num, fun t a b => by omega⟩
  obtain ⟨ph0, hph0, hrot⟩ := bps_phase h1
  have hlen0 : ph0.length = ph.length := by rw [hph0]; simp
  obtain ⟨p0, r0, z0, g1, g2, g3, g4⟩ := h3 N le_rfl hin
  have hpl : ph.length = E.length := by
    obtain ⟨out', ph', e1, e2, -⟩ := C35_bps E symbols M N hN hM
    rw [h1] at e1
    simp only [Option.some.injEq, Prod.mk.injEq] at e1
    rw [e1.2, e2]
  have hall : ∀ n, N + n + N < E.length → ∀ (p : ℝ) (r : ℤ), ph[N + n]? = some p →
      ‖Complex.exp (I * ((θ (N + n) + p : ℝ) : ℂ)) - I ^ r‖ ≤ B → (I : ℂ) ^ r = I ^ r0 := by
    intro n
    induction n with
    | zero =>
      intro hn p r hp hr
      rw [Nat.add_zero] at hp hr
      rw [g1] at hp
      have hp' := Option.some.inj hp
      subst hp'
      apply quarter_eq_of_close
      have hΔ : 0 ≤ Δ := (abs_nonneg _).trans (h.drift N N (by omega) (by omega) (by omega) (by omega))
      have := norm_sub_le_norm_sub_add_norm_sub (I ^ r) (Complex.exp (I * ((θ N + p0 : ℝ) : ℂ))) (I ^ r0)
      rw [norm_sub_rev (I ^ r) (Complex.exp _)] at this
      have := Real.pi_pos
      linarith
    | succ n ih =>
      intro hn p r hp hr
      obtain ⟨p', r', z', k1, k2, k3, -⟩ := h3 (N + n) (by omega) (by omega)
      rw [← ih (by omega) p' r' k1 k3]
      apply quarter_eq_of_close
      have hstep : |p - p'| ≤ Real.pi / 4 := by
        rw [hph0] at hp k1
        exact unwrapInner_step ph0 N (N + n) p' p hN (by omega) (by omega) k1 (by rw [← hp]; rfl)
      have hd := h.drift (N + (n + 1)) (N + n) (by omega) (by omega) (by omega) (by omega)
      have h5 := norm_exp_sub_exp_le (θ (N + (n + 1)) + p) (θ (N + n) + p')
      have h6 : |θ (N + (n + 1)) + p - (θ (N + n) + p')| ≤ Δ + Real.pi / 4 := by
        calc _ = |(θ (N + (n + 1)) - θ (N + n)) + (p - p')| := by congr 1; ring
          _ ≤ _ := (abs_add_le _ _).trans (add_le_add hd hstep)
      have h7 := norm_sub_le_norm_sub_add_norm_sub (I ^ r) (Complex.exp (I * ((θ (N + (n + 1)) + p : ℝ) : ℂ))) (I ^ r')
      have h8 := norm_sub_le_norm_sub_add_norm_sub (Complex.exp (I * ((θ (N + (n + 1)) + p : ℝ) : ℂ)))
        (Complex.exp (I * ((θ (N + n) + p' : ℝ) : ℂ))) (I ^ r')
      rw [norm_sub_rev (I ^ r) (Complex.exp _)] at h7
      linarith
  have hr0 : (I : ℂ) ^ r0 = I ^ (r0 % 4).toNat := by
    have h4 : (0 : ℤ) ≤ r0 % 4 := Int.emod_nonneg _ (by norm_num)
    rw [← zpow_natCast, Int.toNat_of_nonneg h4]
    conv_lhs => rw [← Int.emod_add_mul_ediv r0 4]
    rw [zpow_add₀ Complex.I_ne_zero, zpow_mul]
    have : (I : ℂ) ^ (4 : ℤ) = 1 := by
      rw [show (4 : ℤ) = ((4 : ℕ) : ℤ) by rfl, zpow_natCast]; exact Complex.I_pow_four
    rw [this, one_zpow, mul_one]
  refine ⟨(r0 % 4).toNat, by omega, ?_⟩
  intro t hNt htN
  obtain ⟨p, r, z, k1, k2, k3, k4⟩ := h3 t hNt htN
  obtain ⟨n, rfl⟩ : ∃ n, t = N + n := ⟨t - N, by omega⟩
  have := hall n htN p r k1 k3
  rw [this, hr0] at k3 k4
  exact ⟨p, z, k1, k2, k3, k4⟩

/-- Error free reception: if drift, noise and half a step of the test angles are small enough for the smallest distance `d` of the
constellation, the signal without its edges is decided as the transmitted symbols turned by one common number of quarter turns, and
its symbol error rate against them is zero. -/
theorem C191_error_free (E symbols : List ℂ) (c : ℂ) (M N : Nat) (s : Nat → ℂ) (θ : Nat → ℝ) (A Δ ε ρ d : ℝ) (hN : 1 ≤ N) (hM : 1 ≤ M)
    (hI : ∀ z ∈ symbols, I * z ∈ symbols) (hA : ∀ z ∈ symbols, ‖z‖ ≤ A) (hc : AnchorRing symbols c) (hρ : 0 ≤ ρ)
    (hw : AnchoredWindows s c E.length N ρ)
    (hmin : ∀ (i j : Nat) (a b : ℂ), symbols[i]? = some a → symbols[j]? = some b → i ≠ j → d ≤ ‖a - b‖)
    (h : DriftingSignal E symbols s θ N Δ ε) (h100 : 2 * A + ε ≤ 10)
    (h1000 : 2 * N * (A * (Real.pi / (4 * M) + Δ) + ε) ^ 2 < 1000)
    (hslip : 2 * searchBound A ‖c‖ Δ ε ρ M + Δ + Real.pi / 4 < √2)
    (hb : A * searchBound A ‖c‖ Δ ε ρ M + ε < d / 2) (hlen : 2 * N < E.length) :
    ∃ (out : List ℂ) (ph : List ℝ) (r : Nat) (dec : List (ℂ × ℝ × Nat)), bps E M symbols N = some (out, ph) ∧ r < 4 ∧
      makeDecision ((out.drop N).take (E.length - 2 * N)) symbols = some dec ∧
      dec.map (·.1) = (List.range (E.length - 2 * N)).map (fun n => I ^ r * s (N + n)) ∧
      calSer symbols ((out.drop N).take (E.length - 2 * N)) ((List.range (E.length - 2 * N)).map fun n => I ^ r * s (N + n)) = some 0 := by
  obtain ⟨out, ph, h1, h2, h3'⟩ := C191_accuracy E symbols c M N s θ A Δ ε ρ hN hM hI hA hc hρ hw h h100 h1000
  obtain ⟨r, hr4, h3⟩ := same_quarter hN hM h h1 hslip h3'
  have hne : symbols ≠ [] := List.ne_nil_of_mem hc.mem
  have hrl : ((out.drop N).take (E.length - 2 * N)).length = E.length - 2 * N := by simp; omega
  obtain ⟨dec, hd, hdt⟩ := C16_recovers symbols d hmin
    ((List.range (E.length - 2 * N)).map fun n => I ^ r * s (N + n)) ((out.drop N).take (E.length - 2 * N)) (by rw [hrl]; simp)
    (by
      intro z hz
      obtain ⟨n, hn, rfl⟩ := List.mem_map.1 hz
      rw [List.mem_range] at hn
      have := closed_zpow hI r _ (h.mem (N + n) (by omega))
      rwa [zpow_natCast] at this)
    (by
      intro n a z ha hz
      have hn : n < E.length - 2 * N := by
        by_contra hcon
        rw [List.getElem?_eq_none (by simp; omega)] at ha
        simp at ha
      rw [List.getElem?_map, List.getElem?_range hn] at ha
      simp only [Option.map_some, Option.some.injEq] at ha
      obtain ⟨p, z', -, k2, -, k4⟩ := h3 (N + n) (by omega) (by omega)
      rw [List.getElem?_take_of_lt hn, List.getElem?_drop, k2] at hz
      have hz' := Option.some.inj hz
      subst hz'
      rw [← ha]
      linarith)
  refine ⟨out, ph, r, dec, h1, hr4, hd, hdt, ?_⟩
  obtain ⟨ser, d', e1, e2, -, -, -, e3⟩ := C47_ser symbols ((out.drop N).take (E.length - 2 * N))
    ((List.range (E.length - 2 * N)).map fun n => I ^ r * s (N + n)) hne (by rw [hrl]; simp)
    (by intro hcon; rw [hcon] at hrl; simp at hrl; omega)
  rw [hd] at e2
  have e2' := Option.some.inj e2
  subst e2'
  rw [e1, e3.2 hdt]

/-- Distance of a coordinate to an odd multiple of `u` is least for the one of its own sign. -/
theorem odd_coord_far {x u : ℝ} {k : ℤ} (hu : 0 < u) (hx : |x| ≤ 2 * u) (hk : k % 2 = 1) : (|x| - u) ^ 2 ≤ (x - u * k) ^ 2 := by
  rw [← sq_abs (x - u * k), ← sq_abs (|x| - u)]
  refine pow_le_pow_left₀ (abs_nonneg _) ?_ 2
  have h1 : k = 1 ∨ k = -1 ∨ 3 ≤ k ∨ k ≤ -3 := by omega
  rcases h1 with rfl | rfl | h | h
  · rw [Int.cast_one, mul_one]
    simpa [abs_of_pos hu] using abs_abs_sub_abs_le x u
  · rw [Int.cast_neg, Int.cast_one, mul_neg, mul_one]
    simpa [abs_of_pos hu] using abs_abs_sub_abs_le x (-u)
  · have h3 : (3 : ℝ) ≤ k := by exact_mod_cast h
    have h4 : 3 * u ≤ u * k := by nlinarith
    obtain ⟨h5, h6⟩ := abs_le.1 hx
    rw [abs_of_nonpos (by linarith : x - u * k ≤ 0), abs_le]
    constructor <;> linarith [abs_nonneg x]
  · have h3 : (k : ℝ) ≤ -3 := by exact_mod_cast h
    have h4 : u * k ≤ -(3 * u) := by nlinarith
    obtain ⟨h5, h6⟩ := abs_le.1 hx
    rw [abs_of_nonneg (by linarith : 0 ≤ x - u * k), abs_le]
    constructor <;> linarith [abs_nonneg x]

theorem diag_turn (x y : ℝ) (u : ℝ) : ∃ q : ℤ, ((I : ℂ) ^ q * (⟨u, u⟩ : ℂ)).re = (if 0 ≤ x then u else -u) ∧
    ((I : ℂ) ^ q * (⟨u, u⟩ : ℂ)).im = if 0 ≤ y then u else -u := by
  by_cases hx : 0 ≤ x <;> by_cases hy : 0 ≤ y
  · exact ⟨0, by simp [hx, hy]⟩
  · refine ⟨3, ?_⟩
    rw [show (3 : ℤ) = ((3 : ℕ) : ℤ) from rfl, zpow_natCast]
    simp [pow_succ, hx, hy]
  · refine ⟨1, ?_⟩
    simp [hx, hy]
  · refine ⟨2, ?_⟩
    rw [show (2 : ℤ) = ((2 : ℕ) : ℤ) from rfl, zpow_natCast]
    simp [hx, hy]

theorem toComplex_eq (scale : ℝ) (a b : ℤ) : toComplex scale (a, b) = ⟨a / scale, b / scale⟩ := by
  apply Complex.ext <;> simp [toComplex]

/-- In every alphabet of odd grid points the four innermost points are an anchor ring. -/
theorem anchorRing_odd (pts : List (Int × Int)) (scale : ℝ) (hs : 0 < scale) (hodd : ∀ p ∈ pts, p.1 % 2 = 1 ∧ p.2 % 2 = 1) (h11 : ((1 : Int), (1 : Int)) ∈ pts) :
    AnchorRing (pts.map (toComplex scale)) (toComplex scale (1, 1)) where
  mem := List.mem_map.2 ⟨_, h11, rfl⟩
  ne := by
    intro h
    rw [toComplex_eq] at h
    have := congrArg Complex.re h
    simp only [Int.cast_one, Complex.zero_re, one_div, inv_eq_zero] at this
    exact hs.ne' this
  near := by
    intro z hz f hf
    obtain ⟨p, hp, rfl⟩ := List.mem_map.1 hf
    obtain ⟨k, l⟩ := p
    obtain ⟨hk, hl⟩ := hodd _ hp
    obtain ⟨u, hu⟩ : ∃ u : ℝ, u = 1 / scale := ⟨_, rfl⟩
    have hu0 : 0 < u := by rw [hu]; positivity
    have h1 : toComplex scale (1, 1) = ⟨u, u⟩ := by rw [toComplex_eq, hu, Int.cast_one]
    have h2 : toComplex scale (k, l) = ⟨u * k, u * l⟩ := by
      rw [toComplex_eq, hu]; congr 1 <;> ring
    rw [h1, h2]
    rw [h1] at hz
    have hz2 : z.re ^ 2 + z.im ^ 2 = 2 * u ^ 2 := by
      have := congrArg (· ^ 2) hz
      simp only [← Complex.normSq_eq_norm_sq, Complex.normSq_apply] at this
      nlinarith
    have hre : |z.re| ≤ 2 * u := abs_le_of_sq_le_sq (by nlinarith [sq_nonneg z.im, sq_nonneg u]) (by linarith)
    have him : |z.im| ≤ 2 * u := abs_le_of_sq_le_sq (by nlinarith [sq_nonneg z.re, sq_nonneg u]) (by linarith)
    obtain ⟨q, q1, q2⟩ := diag_turn z.re z.im u
    refine ⟨q, ?_⟩
    rw [← pow_le_pow_iff_left₀ (norm_nonneg _) (norm_nonneg _) two_ne_zero]
    simp only [← Complex.normSq_eq_norm_sq, Complex.normSq_apply, Complex.sub_re, Complex.sub_im, q1, q2]
    have e : ∀ x : ℝ, (x - if 0 ≤ x then u else -u) * (x - if 0 ≤ x then u else -u) = (|x| - u) ^ 2 := by
      intro x
      by_cases h0 : 0 ≤ x
      · rw [if_pos h0, abs_of_nonneg h0]; ring
      · rw [if_neg h0, abs_of_neg (not_le.1 h0)]; ring
    rw [e, e]
    have := odd_coord_far hu0 hre hk
    have := odd_coord_far hu0 him hl
    nlinarith

/-- M-QAM of all orders except 2-QAM and 8-QAM: odd grid points, closed under quarter turns, with the four innermost points. -/
theorem qam_grid {k : Nat} (hk : k = 2 ∨ 4 ≤ k) : (∀ p ∈ symbolsQam k, p.1 % 2 = 1 ∧ p.2 % 2 = 1) ∧ ((1 : Int), (1 : Int)) ∈ symbolsQam k ∧
    ∀ a b : Int, (a, b) ∈ symbolsQam k → (-b, a) ∈ symbolsQam k := by
  unfold symbolsQam
  split_ifs with hodd
  · have h2 : 2 ≤ k / 2 := by omega
    have hp : (4 : Int) ≤ 2 ^ (k / 2) := by
      calc (4 : Int) = 2 ^ 2 := by norm_num
        _ ≤ _ := pow_le_pow_right₀ (by norm_num) h2
    refine ⟨?_, ?_, ?_⟩
    · rintro ⟨a, b⟩ h
      exact ((mem_crossQam h2 a b).1 h).1
    · rw [mem_crossQam h2]
      norm_num
      omega
    · intro a b h
      rw [mem_crossQam h2] at h ⊢
      rw [abs_neg]
      refine ⟨⟨by omega, h.1.1⟩, h.2.2.1, h.2.1, h.2.2.2.symm⟩
  · have h1 : 1 ≤ k / 2 := by omega
    have hp : (2 : Int) ≤ 2 ^ (k / 2) := by
      calc (2 : Int) = 2 ^ 1 := by norm_num
        _ ≤ _ := pow_le_pow_right₀ (by norm_num) h1
    refine ⟨?_, ?_, ?_⟩
    · rintro ⟨a, b⟩ h
      have := (mem_squareQam h1 a b).1 h
      exact ⟨this.1.1, this.2.1⟩
    · rw [mem_squareQam h1]
      norm_num
      omega
    · intro a b h
      rw [mem_squareQam h1] at h ⊢
      rw [abs_neg]
      refine ⟨⟨by omega, h.2.2⟩, h.1⟩

theorem grid_turn {pts : List (Int × Int)} (h : ∀ a b : Int, (a, b) ∈ pts → (-b, a) ∈ pts) (scale : ℝ) :
    ∀ z ∈ pts.map (toComplex scale), I * z ∈ pts.map (toComplex scale) := by
  intro z hz
  obtain ⟨⟨a, b⟩, hp, rfl⟩ := List.mem_map.1 hz
  refine List.mem_map.2 ⟨_, h a b hp, ?_⟩
  rw [toComplex_eq, toComplex_eq]
  apply Complex.ext
  · simp; ring
  · simp

theorem grid_apart {pts : List (Int × Int)} {scale : ℝ} (hs : 0 < scale) (hnd : pts.Nodup) (hodd : ∀ p ∈ pts, p.1 % 2 = 1 ∧ p.2 % 2 = 1)
    (i j : Nat) (a b : ℂ) (ha : (pts.map (toComplex scale))[i]? = some a) (hb : (pts.map (toComplex scale))[j]? = some b) (hij : i ≠ j) :
    2 / scale ≤ ‖a - b‖ := by
  rw [List.getElem?_map, Option.map_eq_some_iff] at ha hb
  obtain ⟨⟨a1, a2⟩, hp, rfl⟩ := ha
  obtain ⟨⟨b1, b2⟩, hq, rfl⟩ := hb
  have hne : ((a1, a2) : Int × Int) ≠ (b1, b2) := by
    intro he
    rw [he] at hp
    obtain ⟨hi, hp'⟩ := List.getElem?_eq_some_iff.1 hp
    obtain ⟨hj, hq'⟩ := List.getElem?_eq_some_iff.1 hq
    exact hij ((List.Nodup.getElem_inj_iff hnd).1 (hp'.trans hq'.symm))
  have o1 := hodd _ (List.mem_of_getElem? hp)
  have o2 := hodd _ (List.mem_of_getElem? hq)
  simp only at o1 o2
  have h4 : (4 : Int) ≤ (a1 - b1) ^ 2 + (a2 - b2) ^ 2 := by
    have key : ∀ x : Int, x ≠ 0 → x % 2 = 0 → 4 ≤ x ^ 2 := by
      intro x h0 h2
      have : 2 ≤ x ∨ x ≤ -2 := by omega
      rcases this with h | h <;> nlinarith
    by_cases h1 : a1 = b1
    · have : a2 - b2 ≠ 0 := by
        intro h
        exact hne (by rw [h1, show a2 = b2 by omega])
      have := key _ this (by omega)
      nlinarith [sq_nonneg (a1 - b1)]
    · have := key (a1 - b1) (by omega) (by omega)
      nlinarith [sq_nonneg (a2 - b2)]
  have h4' : (4 : ℝ) ≤ (sqNorm (a1 - b1, a2 - b2) : ℝ) := by
    unfold sqNorm
    exact_mod_cast h4
  rw [toComplex_sub, ← pow_le_pow_iff_left₀ (by positivity) (norm_nonneg _) two_ne_zero, normSq_toComplex, div_pow]
  simp only [Prod.mk_sub_mk]
  exact div_le_div_of_nonneg_right (by linarith) (by positivity)

theorem norm_innermost {scale : ℝ} (hs : 0 < scale) : ‖toComplex scale (1, 1)‖ = √2 / scale := by
  rw [← pow_left_inj₀ (norm_nonneg _) (by positivity) two_ne_zero, normSq_toComplex, div_pow, Real.sq_sqrt (by norm_num)]
  norm_num [sqNorm]

/-- M-QAM of the library, of all orders except 2-QAM and 8-QAM: blind phase search followed by the decision receives it without errors, up
to one common number of quarter turns, if every window has enough symbols of the four innermost points. -/
theorem C191_qam (E : List ℂ) (k : Nat) (scale : ℝ) (M N : Nat) (s : Nat → ℂ) (θ : Nat → ℝ) (A Δ ε ρ : ℝ) (hk : k = 2 ∨ 4 ≤ k) (hs : 0 < scale)
    (hN : 1 ≤ N) (hM : 1 ≤ M) (hA : ∀ z ∈ (symbolsQam k).map (toComplex scale), ‖z‖ ≤ A) (hρ : 0 ≤ ρ)
    (hw : AnchoredWindows s (toComplex scale (1, 1)) E.length N ρ)
    (h : DriftingSignal E ((symbolsQam k).map (toComplex scale)) s θ N Δ ε) (h100 : 2 * A + ε ≤ 10)
    (h1000 : 2 * N * (A * (Real.pi / (4 * M) + Δ) + ε) ^ 2 < 1000)
    (hslip : 2 * searchBound A (√2 / scale) Δ ε ρ M + Δ + Real.pi / 4 < √2)
    (hb : A * searchBound A (√2 / scale) Δ ε ρ M + ε < 1 / scale) (hlen : 2 * N < E.length) :
    ∃ (out : List ℂ) (ph : List ℝ) (r : Nat) (dec : List (ℂ × ℝ × Nat)), bps E M ((symbolsQam k).map (toComplex scale)) N = some (out, ph) ∧ r < 4 ∧
      makeDecision ((out.drop N).take (E.length - 2 * N)) ((symbolsQam k).map (toComplex scale)) = some dec ∧
      dec.map (·.1) = (List.range (E.length - 2 * N)).map (fun n => I ^ r * s (N + n)) ∧
      calSer ((symbolsQam k).map (toComplex scale)) ((out.drop N).take (E.length - 2 * N))
        ((List.range (E.length - 2 * N)).map fun n => I ^ r * s (N + n)) = some 0 := by
  obtain ⟨g1, g2, g3⟩ := qam_grid hk
  refine C191_error_free E _ (toComplex scale (1, 1)) M N s θ A Δ ε ρ (2 / scale) hN hM (grid_turn g3 scale) hA (anchorRing_odd _ _ hs g1 g2) hρ hw
    (fun i j a b ha hb hij => grid_apart hs (nodup_symbolsQam k) g1 i j a b ha hb hij) h h100 h1000 ?_ ?_ hlen
  · rw [norm_innermost hs]; exact hslip
  · rw [norm_innermost hs]; exact hb.trans_le (le_of_eq (by field_simp))

/-- The innermost symbols are needed: with symbols of the middle ring of 16-QAM alone no blind search can find the phase. The same samples are
those of two transmitted sequences that are no quarter turn of each other, neither with drift nor noise, and for one of the two the
decision is wrong whichever quarter turn is allowed for, whatever the number of test angles, the window and the position are. -/
theorem C191_needs_innermost (L M N t : Nat) (hN : 1 ≤ N) (hM : 1 ≤ M) (ht : t < L) : ∃ (E : List ℂ) (s : Nat → ℂ) (θ : Nat → ℝ) (out : List ℂ) (ph : List ℝ) (z : ℂ),
    E.length = L ∧ DriftingSignal E ((symbolsQam 4).map (toComplex 1)) s θ N 0 0 ∧
    bps E M ((symbolsQam 4).map (toComplex 1)) N = some (out, ph) ∧ out[t]? = some z ∧ ∀ r : ℤ, 1 ≤ ‖z - I ^ r * s t‖ := by
  obtain ⟨E, hE⟩ : ∃ E : List ℂ, E = List.replicate L (⟨1, 3⟩ : ℂ) := ⟨_, rfl⟩
  obtain ⟨symbols, hsy⟩ : ∃ symbols, symbols = (symbolsQam 4).map (toComplex 1) := ⟨_, rfl⟩
  have hlen : E.length = L := by rw [hE, List.length_replicate]
  have hget : ∀ j, j < L → E.getD j 0 = ⟨1, 3⟩ := by
    intro j hj
    rw [hE]
    simp [List.getD, hj]
  have hmem : ∀ a b : Int, (a, b) ∈ symbolsQam 4 → (⟨a, b⟩ : ℂ) ∈ symbols := by
    intro a b h
    rw [hsy]
    refine List.mem_map.2 ⟨_, h, ?_⟩
    rw [toComplex_eq, div_one, div_one]
  have hm1 : (⟨1, 3⟩ : ℂ) ∈ symbols := by simpa using hmem 1 3 (by decide)
  have hm2 : (⟨3, 1⟩ : ℂ) ∈ symbols := by simpa using hmem 3 1 (by decide)
  have s1 : DriftingSignal E symbols (fun _ => ⟨1, 3⟩) (fun _ => 0) N 0 0 :=
    ⟨fun _ _ => hm1, by simp, fun j hj => by rw [hget j (by omega)]; simp⟩
  have s2 : DriftingSignal E symbols (fun _ => ⟨3, 1⟩) (fun _ => Complex.arg ⟨3 / 5, 4 / 5⟩) N 0 0 := by
    refine ⟨fun _ _ => hm2, by simp, fun j hj => ?_⟩
    rw [hget j (by omega)]
    have hn : ‖(⟨3 / 5, 4 / 5⟩ : ℂ)‖ = 1 := by
      rw [← pow_left_inj₀ (norm_nonneg _) (by norm_num) two_ne_zero, ← Complex.normSq_eq_norm_sq, Complex.normSq_mk]
      norm_num
    have he := Complex.norm_mul_exp_arg_mul_I ⟨3 / 5, 4 / 5⟩
    rw [hn, Complex.ofReal_one, one_mul, mul_comm] at he
    rw [he]
    refine le_of_eq (norm_eq_zero.2 ?_)
    apply Complex.ext <;> norm_num
  obtain ⟨out, ph, h1, h2, h3⟩ := C35_bps E symbols M N hN hM
  have hz : ∃ z, out[t]? = some z := by
    obtain ⟨ph0, -, hrot⟩ := bps_phase h1
    exact ⟨_, List.getElem?_eq_getElem (by rw [hrot]; simp [rotateBy]; omega)⟩
  obtain ⟨z, hz⟩ := hz
  -- no quarter turns bring the two symbols within the distance of two decision regions
  have hapart : ∀ r r' : ℤ, 2 ≤ ‖(I : ℂ) ^ r * ⟨1, 3⟩ - I ^ r' * ⟨3, 1⟩‖ := by
    intro r r'
    have e : (I : ℂ) ^ r * ⟨1, 3⟩ - I ^ r' * ⟨3, 1⟩ = I ^ r * (⟨1, 3⟩ - I ^ (r' - r) * ⟨3, 1⟩) := by
      rw [mul_sub, ← mul_assoc, ← zpow_add₀ Complex.I_ne_zero]
      congr 3
      ring_nf
    rw [e, norm_mul, norm_I_zpow, one_mul]
    obtain ⟨p, hp⟩ : ∃ p, p = r' - r := ⟨_, rfl⟩
    rw [← hp]
    have hq : (I : ℂ) ^ p = I ^ (p % 4).toNat := by
      have h4 : (0 : ℤ) ≤ p % 4 := Int.emod_nonneg _ (by norm_num)
      rw [← zpow_natCast, Int.toNat_of_nonneg h4]
      conv_lhs => rw [← Int.emod_add_mul_ediv p 4]
      rw [zpow_add₀ Complex.I_ne_zero, zpow_mul]
      have : (I : ℂ) ^ (4 : ℤ) = 1 := by
        rw [show (4 : ℤ) = ((4 : ℕ) : ℤ) by rfl, zpow_natCast]; exact Complex.I_pow_four
      rw [this, one_zpow, mul_one]
    obtain ⟨n, hn⟩ : ∃ n, n = (p % 4).toNat := ⟨_, rfl⟩
    have hlt : n < 4 := by omega
    rw [hq, ← hn, ← pow_le_pow_iff_left₀ (by norm_num) (norm_nonneg _) two_ne_zero, ← Complex.normSq_eq_norm_sq, Complex.normSq_apply]
    interval_cases n <;> simp [pow_succ] <;> norm_num
  by_cases hg : ∀ r : ℤ, 1 ≤ ‖z - I ^ r * (⟨1, 3⟩ : ℂ)‖
  · exact ⟨E, _, _, out, ph, z, hlen, hsy ▸ s1, hsy ▸ h1, hz, hg⟩
  · push Not at hg
    obtain ⟨r, hr⟩ := hg
    refine ⟨E, _, _, out, ph, z, hlen, hsy ▸ s2, hsy ▸ h1, hz, ?_⟩
    intro r'
    have h5 := hapart r r'
    have h6 := norm_sub_le_norm_sub_add_norm_sub (I ^ r * (⟨1, 3⟩ : ℂ)) z (I ^ r' * ⟨3, 1⟩)
    rw [norm_sub_rev (I ^ r * (⟨1, 3⟩ : ℂ)) z] at h6
    linarith

/-- 16-QAM whose phase turns on and on, by 1/1000 per symbol: as long as one likes. -/
example (L : Nat) (hL : 3 ≤ L) : ∃ (out : List ℂ) (ph : List ℝ) (r : Nat) (dec : List (ℂ × ℝ × Nat)),
    bps ((List.range L).map fun j : Nat => (if j % 2 = 0 then toComplex 1 (1, 1) else toComplex 1 (3, -1)) * Complex.exp (I * ((j / 1000 : ℝ) : ℂ))) 64
      ((symbolsQam 4).map (toComplex 1)) 1 = some (out, ph) ∧
      makeDecision ((out.drop 1).take (L - 2)) ((symbolsQam 4).map (toComplex 1)) = some dec ∧
      dec.map (·.1) = (List.range (L - 2)).map (fun n => I ^ r * if (1 + n) % 2 = 0 then toComplex 1 (1, 1) else toComplex 1 (3, -1)) := by
  have hpi := Real.pi_le_four
  have hpi0 := Real.pi_pos
  have hroot' : (1.414 : ℝ) < √2 := by
    rw [Real.lt_sqrt (by norm_num)]; norm_num
  have hA : ∀ z ∈ (symbolsQam 4).map (toComplex 1), ‖z‖ ≤ 4.25 := by
    intro z hz
    obtain ⟨⟨a, b⟩, hp, rfl⟩ := List.mem_map.1 hz
    rw [← pow_le_pow_iff_left₀ (norm_nonneg _) (by norm_num) two_ne_zero, normSq_toComplex]
    have : ∀ p ∈ symbolsQam 4, sqNorm p ≤ 18 := by decide
    have h18 : (sqNorm (a, b) : ℝ) ≤ 18 := by exact_mod_cast this _ hp
    norm_num
    linarith
  have hB : searchBound 4.25 (√2 / 1) (1 / 1000) 0 1.5 64 ≤ 0.08 := by
    unfold searchBound
    rw [div_one, add_zero, add_zero]
    have : 1.5 * (4.25 * (Real.pi / (4 * (64 : ℕ)) + 1 / 1000)) / √2 ≤ 0.079 := by
      rw [div_le_iff₀ (by positivity)]
      push_cast
      nlinarith
    linarith
  obtain ⟨out, ph, r, dec, h1, -, h2, h3, -⟩ := C191_qam
    ((List.range L).map fun j : Nat => (if j % 2 = 0 then toComplex 1 (1, 1) else toComplex 1 (3, -1)) * Complex.exp (I * ((j / 1000 : ℝ) : ℂ)))
    4 1 64 1 (fun j => if j % 2 = 0 then toComplex 1 (1, 1) else toComplex 1 (3, -1)) (fun j => j / 1000) 4.25 (1 / 1000) 0 1.5
    (Or.inr le_rfl) one_pos le_rfl (by norm_num) hA (by norm_num) (by
      intro t h1 h2
      rcases Nat.mod_two_eq_zero_or_one t with h | h
      · refine ⟨{t}, by simp; omega, ?_, by simp, by norm_num⟩
        intro j hj
        rw [Finset.mem_singleton.1 hj]
        exact ⟨0, by simp [h]⟩
      · refine ⟨{t + 1}, by simp, ?_, by simp, by norm_num⟩
        intro j hj
        rw [Finset.mem_singleton.1 hj]
        exact ⟨0, by simp [show (t + 1) % 2 = 0 by omega]⟩) {
      mem := by
        intro j _
        split_ifs
        · exact List.mem_map.2 ⟨_, by decide, rfl⟩
        · exact List.mem_map.2 ⟨_, by decide, rfl⟩
      drift := by
        intro i j _ _ g1 g2
        have g1' : (i : ℝ) ≤ j + 1 := by exact_mod_cast g1
        have g2' : (j : ℝ) ≤ i + 1 := by exact_mod_cast g2
        rw [abs_le]
        constructor <;> linarith
      noise := by
        intro j hj
        rw [List.length_map, List.length_range] at hj
        simp only [List.getD, List.getElem?_map, List.getElem?_range hj, Option.map_some, Option.getD_some, sub_self, norm_zero, le_refl] }
    (by norm_num) (by
      push_cast
      have : (4.25 * (Real.pi / (4 * 64) + 1 / 1000) + 0) ^ 2 ≤ (1 : ℝ) := by
        apply pow_le_one₀ (by positivity)
        linarith
      linarith) (by linarith) (by linarith) (by simp; omega)
  rw [List.length_map, List.length_range] at h2 h3
  exact ⟨out, ph, r, dec, h1, h2, h3⟩

end Qampy
