import Verif.Props.SearchAccuracy

/-!
Resolution of the two-stage blind phase search (C164).
-/

namespace Qampy

open Complex

/-- The compiled search at one position: if the best sum stays below the start value there, the first angle with the smallest sum is
chosen. -/
theorem bpsIdx_at (E : List ℂ) (angles : List (List ℝ)) (symbols : List ℂ) (N M : Nat) (hN : 1 ≤ N)
    (hrows : ∀ r ∈ angles, r.length = M) (hlen : angles.length = 1 ∨ angles.length = E.length) (D : Nat → Nat → ℝ)
    (hD : ∀ i k, i < E.length → k < M →
      IsNearestSq symbols (E.getD i 0 * Complex.exp (I * (angleAt angles i k : ℝ))) (D i k))
    (h100 : ∀ i k, i < E.length → k < M → D i k ≤ 100) :
    ∃ idx, bpsIdx E angles symbols N = some idx ∧ idx.length = E.length ∧
      ∀ t, N ≤ t → t + N < E.length → (∃ k, k < M ∧ windowCost D N t k < 1000) →
        ∃ k, idx[t]? = some k ∧ k < M ∧ (∀ k', k' < M → windowCost D N t k ≤ windowCost D N t k') ∧
          ∀ k', k' < k → windowCost D N t k < windowCost D N t k' := by
  obtain ⟨d, h1, h2, h3, h4⟩ := bpsDists_spec E angles symbols M hrows hlen
  obtain ⟨idx, g1, g2, g3⟩ := selectAngleIndex_spec d M (2 * N) h3
  refine ⟨idx, ?_, by rw [g2, h2], ?_⟩
  · unfold bpsIdx
    rw [h1]
    exact g1
  intro t hNt htN ⟨k0, hk0, hlt⟩
  have hcost : ∀ k, k < M → winCost d (2 * N) (t + N) k = windowCost D N t k := by
    intro k hk
    unfold winCost windowCost
    rw [show t + N - 2 * N = t - N by omega]
    refine Finset.sum_congr rfl fun j hj => ?_
    rw [Finset.mem_Ioc] at hj
    rw [h4 j k (by omega) hk, detDist_eq symbols _ _ (hD j k (by omega) hk) (by linarith [h100 j k (by omega) hk]),
      min_eq_right (h100 j k (by omega) hk)]
  have hidx := g3 t (by rw [h2]; omega)
  rw [show 2 * N / 2 = N by omega, h2, if_pos (by omega)] at hidx
  obtain ⟨j, hj, hs⟩ := scanBest_eq_argmin ((List.range M).map (winCost d (2 * N) (t + N))) 1000 0 0
    ⟨_, List.mem_map.2 ⟨k0, List.mem_range.2 hk0, rfl⟩, by rw [hcost k0 hk0]; exact hlt⟩
  rw [hs, zero_add] at hidx
  obtain ⟨hjl, p1, p2⟩ := (argmin_map_range _ _ _).1 hj
  refine ⟨j, hidx, hjl, ?_, ?_⟩
  · intro k hk
    rw [← hcost j hjl, ← hcost k hk]
    exact p1 k hk
  · intro k hk
    rw [← hcost j hjl, ← hcost k (by omega)]
    exact p2 k hk

theorem chord_quarter (α : ℝ) (q : ℤ) : ‖Complex.exp (I * (α : ℂ)) - I ^ q‖ = 2 * |Real.sin ((α - Real.pi / 2 * q) / 2)| := by
  have h : Complex.exp (I * (α : ℂ)) - I ^ q = I ^ q * (Complex.exp (I * ((α - Real.pi / 2 * q : ℝ) : ℂ)) - 1) := by
    rw [mul_sub, mul_one, ← exp_quarter, sub_add_cancel]
  rw [h, norm_mul, norm_I_zpow, one_mul, Complex.norm_exp_I_mul_ofReal_sub_one, Real.norm_eq_abs, abs_mul, abs_two]

theorem abs_sin_half {x : ℝ} (h : |x| ≤ Real.pi) : |Real.sin (x / 2)| = Real.sin (|x| / 2) := by
  have h1 : |x / 2| = |x| / 2 := by rw [abs_div, abs_two]
  rw [← h1]
  rcases le_total 0 (x / 2) with h0 | h0
  · rw [abs_of_nonneg h0, abs_of_nonneg]
    apply Real.sin_nonneg_of_nonneg_of_le_pi h0
    rw [abs_le] at h
    linarith
  · rw [abs_of_nonpos h0, Real.sin_neg, abs_of_nonpos]
    apply Real.sin_nonpos_of_nonpos_of_neg_pi_le h0
    rw [abs_le] at h
    linarith

theorem chord_le_of_angle {α β : ℝ} {q : ℤ} (h : |α - Real.pi / 2 * q| ≤ β) (hβ : β ≤ Real.pi) :
    ‖Complex.exp (I * (α : ℂ)) - I ^ q‖ ≤ 2 * Real.sin (β / 2) := by
  rw [chord_quarter, abs_sin_half (h.trans hβ)]
  have : Real.sin (|α - Real.pi / 2 * q| / 2) ≤ Real.sin (β / 2) := by
    have h0 := abs_nonneg (α - Real.pi / 2 * q)
    exact Real.sin_le_sin_of_le_of_le_pi_div_two (by linarith [Real.pi_pos]) (by linarith) (by linarith)
  linarith

theorem angle_le_of_chord {α β : ℝ} {q : ℤ} (h : ‖Complex.exp (I * (α : ℂ)) - I ^ q‖ ≤ 2 * Real.sin (β / 2)) (h0 : 0 ≤ β)
    (hβ : β ≤ Real.pi) : ∃ q' : ℤ, (I : ℂ) ^ q' = I ^ q ∧ |α - Real.pi / 2 * q'| ≤ β := by
  have hpi := Real.pi_pos
  obtain ⟨r, hr⟩ : ∃ r : ℤ, |(α - Real.pi / 2 * q) / (2 * Real.pi) - r| ≤ 1 / 2 := ⟨_, abs_sub_round _⟩
  have hIq : (I : ℂ) ^ (q + 4 * r) = I ^ q := by
    rw [zpow_add₀ Complex.I_ne_zero, zpow_mul]
    have : (I : ℂ) ^ (4 : ℤ) = 1 := by
      rw [show (4 : ℤ) = ((4 : ℕ) : ℤ) by rfl, zpow_natCast]; exact Complex.I_pow_four
    rw [this, one_zpow, mul_one]
  refine ⟨q + 4 * r, hIq, ?_⟩
  have hy : |α - Real.pi / 2 * ((q + 4 * r : ℤ) : ℝ)| ≤ Real.pi := by
    have : α - Real.pi / 2 * ((q + 4 * r : ℤ) : ℝ) = ((α - Real.pi / 2 * q) / (2 * Real.pi) - r) * (2 * Real.pi) := by
      rw [sub_mul, div_mul_cancel₀ _ (by positivity)]
      push_cast
      ring
    rw [this, abs_mul, abs_of_pos (by positivity : 0 < 2 * Real.pi)]
    nlinarith
  rw [← hIq, chord_quarter, abs_sin_half hy] at h
  by_contra hcon
  push Not at hcon
  have : Real.sin (β / 2) < Real.sin (|α - Real.pi / 2 * ((q + 4 * r : ℤ) : ℝ)| / 2) :=
    Real.sin_lt_sin_of_lt_of_le_pi_div_two (by linarith) (by linarith) (by linarith)
  linarith

theorem nearestSq_unique {symbols : List ℂ} {z : ℂ} {a b : ℝ} (ha : IsNearestSq symbols z a) (hb : IsNearestSq symbols z b) : a = b := by
  obtain ⟨a1, s, hs, a2⟩ := ha
  obtain ⟨b1, u, hu, b2⟩ := hb
  exact le_antisymm (b2 ▸ a1 u hu) (a2 ▸ b1 s hs)

/-- For the four points `c·Iᵠ` the distance of a turned point from the nearest one does not depend on the point. -/
theorem nearestSq_qpsk {symbols : List ℂ} {c : ℂ} (hsym : ∀ z, z ∈ symbols ↔ ∃ q : ℤ, z = I ^ q * c) {s w : ℂ} (hs : s ∈ symbols) {d : ℝ}
    (h : IsNearestSq symbols (s * w) d) : IsNearestSq symbols (c * w) d := by
  obtain ⟨b, rfl⟩ := (hsym _).1 hs
  have hshift : ∀ q : ℤ, ‖I ^ b * c * w - I ^ (b + q) * c‖ = ‖c * w - I ^ q * c‖ := by
    intro q
    rw [zpow_add₀ Complex.I_ne_zero, mul_assoc, mul_assoc (I ^ b), ← mul_sub, norm_mul, norm_I_zpow, one_mul]
  obtain ⟨h1, u, hu, h2⟩ := h
  refine ⟨?_, ?_⟩
  · intro z hz
    obtain ⟨q, rfl⟩ := (hsym _).1 hz
    rw [← hshift]
    exact h1 _ ((hsym _).2 ⟨_, rfl⟩)
  · obtain ⟨q, rfl⟩ := (hsym _).1 hu
    refine ⟨_, (hsym _).2 ⟨q - b, rfl⟩, ?_⟩
    rw [← hshift, add_sub_cancel]
    exact h2

/-- One search over angles that are the same for all samples of a window, of a noise free QPSK signal of constant phase: if one of the
angles is within `β` of a quarter turn of the phase, the chosen one is too. -/
theorem constant_search (E symbols : List ℂ) (angles : List (List ℝ)) (c : ℂ) (M N : Nat) (s : Nat → ℂ) (θ β : ℝ) (hN : 1 ≤ N)
    (hrows : ∀ r ∈ angles, r.length = M) (hlen : angles.length = 1 ∨ angles.length = E.length)
    (hc : c ≠ 0) (hsym : ∀ z, z ∈ symbols ↔ ∃ q : ℤ, z = I ^ q * c)
    (hs : ∀ j, j < E.length → s j ∈ symbols ∧ E.getD j 0 = s j * Complex.exp (I * (θ : ℂ)))
    (h100 : 2 * ‖c‖ ≤ 10) (hβ0 : 0 ≤ β) (hβ : β ≤ Real.pi) (h1000 : 2 * N * (‖c‖ * (2 * Real.sin (β / 2))) ^ 2 < 1000) :
    ∃ idx, bpsIdx E angles symbols N = some idx ∧ idx.length = E.length ∧
      ∀ (t : Nat) (a : Nat → ℝ), N ≤ t → t + N < E.length →
        (∀ j ∈ Finset.Ioc (t - N) (t + N), ∀ k, k < M → angleAt angles j k = a k) →
        (∃ (m : Nat) (q : ℤ), m < M ∧ |θ + a m - Real.pi / 2 * q| ≤ β) →
        ∃ (k : Nat) (q : ℤ), idx[t]? = some k ∧ k < M ∧ |θ + a k - Real.pi / 2 * q| ≤ β ∧
          ∀ (t' k' : Nat), N ≤ t' → t' + N < E.length → (∀ j ∈ Finset.Ioc (t' - N) (t' + N), ∀ k, k < M → angleAt angles j k = a k) →
            idx[t']? = some k' → k' = k := by
  have hc0 : 0 < ‖c‖ := norm_pos_iff.2 hc
  have h0 : symbols ≠ [] := List.ne_nil_of_mem ((hsym c).2 ⟨0, by simp⟩)
  choose D hD using fun (i k : Nat) =>
    exists_nearestSq symbols h0 (E.getD i 0 * Complex.exp (I * (angleAt angles i k : ℝ)))
  choose D' hD' using fun φ : ℝ => exists_nearestSq symbols h0 (c * Complex.exp (I * ((θ + φ : ℝ) : ℂ)))
  -- the distances only depend on the angle
  have hDD : ∀ i k, i < E.length → D i k = D' (angleAt angles i k) := by
    intro i k hi
    obtain ⟨h1, h2⟩ := hs i hi
    have h3 := hD i k
    rw [h2, mul_assoc, ← Complex.exp_add, ← mul_add, ← Complex.ofReal_add] at h3
    exact nearestSq_unique (nearestSq_qpsk hsym h1 h3) (hD' _)
  have hdist : ∀ (φ : ℝ) (q : ℤ), ‖c * Complex.exp (I * ((θ + φ : ℝ) : ℂ)) - I ^ q * c‖ =
      ‖c‖ * ‖Complex.exp (I * ((θ + φ : ℝ) : ℂ)) - I ^ q‖ := by
    intro φ q
    rw [← norm_mul]
    congr 1
    ring
  have hD100 : ∀ i k, i < E.length → k < M → D i k ≤ 100 := by
    intro i k hi _
    rw [hDD i k hi]
    refine ((hD' _).1 _ ((hsym _).2 ⟨0, rfl⟩)).trans ?_
    rw [hdist]
    have h2 : ‖Complex.exp (I * ((θ + angleAt angles i k : ℝ) : ℂ)) - I ^ (0 : ℤ)‖ ≤ 2 := by
      refine (norm_sub_le _ _).trans ?_
      rw [norm_exp_I, norm_I_zpow]; norm_num
    have h3 : ‖c‖ * ‖Complex.exp (I * ((θ + angleAt angles i k : ℝ) : ℂ)) - I ^ (0 : ℤ)‖ ≤ 10 := by nlinarith
    have h4 : 0 ≤ ‖c‖ * ‖Complex.exp (I * ((θ + angleAt angles i k : ℝ) : ℂ)) - I ^ (0 : ℤ)‖ := by positivity
    nlinarith
  obtain ⟨idx, h1, h2, h3⟩ := bpsIdx_at E angles symbols N M hN hrows hlen D (fun i k _ _ => hD i k) hD100
  refine ⟨idx, h1, h2, ?_⟩
  intro t a hNt htN ha ⟨m, q, hm, hq⟩
  have hwin : ∀ t', N ≤ t' → t' + N < E.length → (∀ j ∈ Finset.Ioc (t' - N) (t' + N), ∀ k, k < M → angleAt angles j k = a k) →
      ∀ k, k < M → windowCost D N t' k = 2 * N * D' (a k) := by
    intro t' g1 g2 g3 k hk
    unfold windowCost
    have hcard : (Finset.Ioc (t' - N) (t' + N)).card = 2 * N := by rw [Nat.card_Ioc]; omega
    rw [Finset.sum_congr rfl (g := fun _ => D' (a k)), Finset.sum_const, hcard, nsmul_eq_mul]
    · push_cast; ring
    · intro j hj
      have hj' := Finset.mem_Ioc.1 hj
      rw [hDD j k (by omega), g3 j hj k hk]
  have hNr : (0 : ℝ) < 2 * N := by
    have : (1 : ℝ) ≤ N := by exact_mod_cast hN
    linarith
  have hbest : D' (a m) ≤ (‖c‖ * (2 * Real.sin (β / 2))) ^ 2 := by
    refine ((hD' _).1 _ ((hsym _).2 ⟨q, rfl⟩)).trans ?_
    rw [hdist]
    exact pow_le_pow_left₀ (by positivity) (mul_le_mul_of_nonneg_left (chord_le_of_angle hq hβ) hc0.le) 2
  have hlt : windowCost D N t m < 1000 := by
    rw [hwin t hNt htN ha m hm]
    exact lt_of_le_of_lt (mul_le_mul_of_nonneg_left hbest hNr.le) h1000
  obtain ⟨k, k1, k2, k3, k4⟩ := h3 t hNt htN ⟨m, hm, hlt⟩
  have hk : D' (a k) ≤ (‖c‖ * (2 * Real.sin (β / 2))) ^ 2 := by
    have := k3 m hm
    rw [hwin t hNt htN ha m hm, hwin t hNt htN ha k k2] at this
    exact (le_of_mul_le_mul_left this hNr).trans hbest
  obtain ⟨z, hz, hzd⟩ := (hD' (a k)).2
  obtain ⟨q', rfl⟩ := (hsym _).1 hz
  rw [hzd, hdist] at hk
  have hsin : 0 ≤ Real.sin (β / 2) := Real.sin_nonneg_of_nonneg_of_le_pi (by linarith) (by linarith)
  have hk' := le_of_mul_le_mul_left (abs_le_of_sq_le_sq' hk (by positivity)).2 hc0
  obtain ⟨q'', -, hq''⟩ := angle_le_of_chord hk' hβ0 hβ
  refine ⟨k, q'', k1, k2, hq'', ?_⟩
  intro t' k' g1 g2 g3 g4
  obtain ⟨l, l1, l2, l3, l4⟩ := h3 t' g1 g2 ⟨m, hm, by
    rw [hwin t' g1 g2 g3 m hm, ← hwin t hNt htN ha m hm]; exact hlt⟩
  have hlk : k' = l := by rw [g4] at l1; exact Option.some.inj l1
  rw [hlk]
  have hsame : ∀ i, i < M → windowCost D N t' i = windowCost D N t i := by
    intro i hi
    rw [hwin t' g1 g2 g3 i hi, hwin t hNt htN ha i hi]
  rcases lt_trichotomy l k with hlt' | heq | hgt
  · have e1 := k4 l hlt'
    have e2 := l3 k k2
    rw [hsame l l2, hsame k k2] at e2
    linarith
  · exact heq
  · have e1 := l4 k hgt
    have e2 := k3 l l2
    rw [hsame l l2, hsame k k2] at e1
    linarith

/-- The second stage angles cover the step of the first stage. -/
theorem stageTwo_cover (δ : ℝ) (M B : Nat) (hM : 1 ≤ M) (hB : 2 ≤ B) (h : |δ| ≤ Real.pi / (4 * M)) :
    ∃ k, k < B ∧ |δ + (if B = 1 then -(B : ℝ) / 2 else -(B : ℝ) / 2 + k * ((B : ℝ) / ((B : ℝ) - 1))) / (B * M) * Real.pi / 2| ≤
      Real.pi / (4 * M * (B - 1)) := by
  have hpi := Real.pi_pos
  have hMr : (1 : ℝ) ≤ M := by exact_mod_cast hM
  have hBr : (2 : ℝ) ≤ B := by exact_mod_cast hB
  have hM0 : (0 : ℝ) < M := by linarith
  have hB1 : (0 : ℝ) < (B : ℝ) - 1 := by linarith
  have hB0 : (0 : ℝ) < B := by linarith
  obtain ⟨w, hw⟩ : ∃ w, w = Real.pi / (2 * M * (B - 1)) := ⟨_, rfl⟩
  have hw0 : 0 < w := by rw [hw]; positivity
  have hquart : Real.pi / (4 * M) = w * (B - 1) / 2 := by rw [hw]; field_simp; norm_num
  have hhalf : Real.pi / (4 * M * (B - 1)) = w / 2 := by rw [hw]; field_simp; norm_num
  rw [hquart, abs_le] at h
  rw [hhalf]
  obtain ⟨x, hx⟩ : ∃ x, x = (w * (B - 1) / 2 - δ) / w := ⟨_, rfl⟩
  have hxw : x * w = w * (B - 1) / 2 - δ := by rw [hx, div_mul_cancel₀ _ hw0.ne']
  have hx0 : 0 ≤ x := by rw [hx]; apply div_nonneg _ hw0.le; linarith
  have hx1 : x ≤ B - 1 := by rw [hx, div_le_iff₀ hw0]; linarith
  have hr := abs_sub_round x
  have hr0 : 0 ≤ round x := by
    rw [round_eq]
    exact Int.floor_nonneg.2 (by linarith)
  have hr1 : round x < B := by
    rw [round_eq, Int.floor_lt]
    push_cast
    linarith
  obtain ⟨k, hk⟩ : ∃ k : Nat, (k : ℤ) = round x := ⟨(round x).toNat, Int.toNat_of_nonneg hr0⟩
  refine ⟨k, by omega, ?_⟩
  rw [if_neg (by omega)]
  have hkr : (k : ℝ) = ((round x : ℤ) : ℝ) := by exact_mod_cast hk
  have hoff : δ + (-(B : ℝ) / 2 + k * ((B : ℝ) / ((B : ℝ) - 1))) / (B * M) * Real.pi / 2 = -((x - k) * w) := by
    have e1 : (-(B : ℝ) / 2 + k * ((B : ℝ) / ((B : ℝ) - 1))) / (B * M) * Real.pi / 2 = -(w * (B - 1) / 2) + k * w := by
      rw [hw]; field_simp
    rw [e1, sub_mul, hxw]
    ring
  rw [hoff, abs_neg, abs_mul, abs_of_pos hw0, hkr]
  nlinarith

/-- Resolution of the two-stage search: for a noise free QPSK signal of any constant phase the phase that remains after `B` second stage
angles is at most half a step of the second stage, `π/(4M(B-1))`, up to quarter turns. -/
theorem C164_resolution (E symbols : List ℂ) (c : ℂ) (M N B : Nat) (s : Nat → ℂ) (θ : ℝ) (hN : 1 ≤ N) (hM : 1 ≤ M) (hB : 2 ≤ B)
    (hc : c ≠ 0) (hsym : ∀ z, z ∈ symbols ↔ ∃ q : ℤ, z = I ^ q * c)
    (hs : ∀ j, j < E.length → s j ∈ symbols ∧ E.getD j 0 = s j * Complex.exp (I * (θ : ℂ)))
    (h100 : 2 * ‖c‖ ≤ 10) (h1000 : 2 * N * (‖c‖ * (Real.pi / (4 * M))) ^ 2 < 1000) :
    ∃ out ph, bpsTwostage E M symbols N B = some (out, ph) ∧ out.length = E.length ∧
      ∀ t, 2 * N ≤ t + 1 → t + 2 * N < E.length → ∃ (p : ℝ) (q : ℤ) (z : ℂ), ph[t]? = some p ∧ out[t]? = some z ∧
        |θ + p - Real.pi / 2 * q| ≤ Real.pi / (4 * M * (B - 1)) ∧ ‖z - I ^ q * s t‖ ≤ ‖c‖ * (Real.pi / (4 * M * (B - 1))) := by
  have hpi := Real.pi_pos
  have hMr : (1 : ℝ) ≤ M := by exact_mod_cast hM
  have hBr : (2 : ℝ) ≤ B := by exact_mod_cast hB
  have hM0 : (0 : ℝ) < M := by linarith
  have hc0 : 0 < ‖c‖ := norm_pos_iff.2 hc
  have hb1 : (0 : ℝ) ≤ Real.pi / (4 * M) := by positivity
  have hb1' : Real.pi / (4 * M) ≤ Real.pi := div_le_self hpi.le (by linarith)
  have hb2 : (0 : ℝ) ≤ Real.pi / (4 * M * (B - 1)) := by
    have : (0 : ℝ) ≤ B - 1 := by linarith
    positivity
  have hb12 : Real.pi / (4 * M * (B - 1)) ≤ Real.pi / (4 * M) := by
    apply div_le_div_of_nonneg_left hpi.le (by positivity)
    nlinarith
  have hthr : ∀ β, 0 ≤ β → β ≤ Real.pi / (4 * M) → 2 * N * (‖c‖ * (2 * Real.sin (β / 2))) ^ 2 < 1000 := by
    intro β h0 h1
    refine lt_of_le_of_lt ?_ h1000
    have hsin : 0 ≤ Real.sin (β / 2) := Real.sin_nonneg_of_nonneg_of_le_pi (by linarith) (by linarith)
    have hsin' : Real.sin (β / 2) ≤ β / 2 := Real.sin_le (by linarith)
    apply mul_le_mul_of_nonneg_left _ (by positivity)
    exact pow_le_pow_left₀ (by positivity) (mul_le_mul_of_nonneg_left (by linarith) hc0.le) 2
  obtain ⟨idx, idx2, phf, h1, h2, h3, h4, h5, h6, h7, h8, h9⟩ := bpsTwostage_spec E symbols M N B hN hM (by omega)
  refine ⟨_, _, h9, by simp [rotateBy, h7], ?_⟩
  intro t ht1 ht2
  -- first stage: one angle for all positions with a complete window
  obtain ⟨idx', f1, -, f3⟩ := constant_search E symbols [testAngles M] c M N s θ (Real.pi / (4 * M)) hN (by simp) (Or.inl rfl) hc hsym hs
    h100 hb1 hb1' (hthr _ hb1 le_rfl)
  obtain rfl := Option.some.inj (h1.symm.trans f1)
  obtain ⟨m, qm, hm, hqm⟩ := testAngles_cover θ M hM
  obtain ⟨k1, q1, e1, e2, e3, e4⟩ := f3 t (fun k => (testAngles M).getD k 0) (by omega) (by omega)
    (fun j _ k _ => angleAt_one _ _ _) ⟨m, qm, hm, by rw [testAngles_getD M m hm]; exact hqm⟩
  have hfirst : ∀ j, N ≤ j → j + N < E.length → idx[j]? = some k1 := by
    intro j hj1 hj2
    have hj : j < idx.length := by omega
    rw [List.getElem?_eq_getElem hj]
    rw [e4 j idx[j] hj1 hj2 (fun j _ k _ => angleAt_one _ _ _) (List.getElem?_eq_getElem hj)]
  -- second stage
  obtain ⟨l1, l2⟩ := length_stageTwoAngles (idx.map fun k => (testAngles M).getD k 0) M B
  rw [List.length_map, h2] at l1
  obtain ⟨idx2', g1, -, g3⟩ := constant_search E symbols _ c B N s θ (Real.pi / (4 * M * (B - 1))) hN l2 (Or.inr l1) hc hsym hs h100 hb2
    (hb12.trans hb1') (hthr _ hb2 hb12)
  obtain rfl := Option.some.inj (h4.symm.trans g1)
  have hang : ∀ j ∈ Finset.Ioc (t - N) (t + N), ∀ k, k < B →
      angleAt (stageTwoAngles (idx.map fun k => (testAngles M).getD k 0) M B) j k = (testAngles M).getD k1 0 +
        (if B = 1 then -(B : ℝ) / 2 else -(B : ℝ) / 2 + k * ((B : ℝ) / ((B : ℝ) - 1))) / (B * M) * Real.pi / 2 := by
    intro j hj k hk
    have hj' := Finset.mem_Ioc.1 hj
    exact angleAt_stageTwo _ M B j k _ (by simp [hfirst j (by omega) (by omega)]) hk
  obtain ⟨k0, hk0, hk0'⟩ := stageTwo_cover (θ + (testAngles M).getD k1 0 - Real.pi / 2 * q1) M B hM hB e3
  obtain ⟨k2, q2, d1, d2, d3, -⟩ := g3 t _ (by omega) (by omega) hang ⟨k0, q1, hk0, by
    refine le_trans (le_of_eq ?_) hk0'
    congr 1
    ring⟩
  have hp := h8 t k2 d1
  rw [hang t (Finset.mem_Ioc.2 ⟨by omega, by omega⟩) k2 d2] at hp
  obtain ⟨p0, hp0⟩ : ∃ p0, p0 = (testAngles M).getD k1 0 +
        (if B = 1 then -(B : ℝ) / 2 else -(B : ℝ) / 2 + k2 * ((B : ℝ) / ((B : ℝ) - 1))) / (B * M) * Real.pi / 2 := ⟨_, rfl⟩
  rw [← hp0] at hp d3
  obtain ⟨q, hq⟩ := unwrap4_mul phf t _ hp
  have htE : t < E.length := by omega
  have hE : E[t]? = some (E.getD t 0) := by simp [List.getD, List.getElem?_eq_getElem htE]
  have hfin : |θ + (p0 + Real.pi / 2 * q) - Real.pi / 2 * ((q2 + q : ℤ) : ℝ)| ≤ Real.pi / (4 * M * (B - 1)) := by
    refine le_trans (le_of_eq ?_) d3
    congr 1
    push_cast
    ring
  refine ⟨_, q2 + q, _, hq, getElem?_rotateBy hE hq, hfin, ?_⟩
  obtain ⟨m1, m2⟩ := hs t htE
  have hup := (turned_dist (E.getD t 0) (s t) θ (p0 + Real.pi / 2 * q) 0 (q2 + q) (by rw [m2]; simp)).1
  have hns : ‖s t‖ = ‖c‖ := by
    obtain ⟨b, hb⟩ := (hsym _).1 m1
    rw [hb, norm_mul, norm_I_zpow, one_mul]
  rw [hns, add_zero] at hup
  refine hup.trans (mul_le_mul_of_nonneg_left ?_ hc0.le)
  rw [← exp_quarter_zero]
  exact (norm_exp_sub_exp_le _ _).trans hfin

/-- Four QPSK symbols turned by a phase that is not a test angle, default number of second stage angles. -/
example : ∃ out ph, bpsTwostage ((List.range 4).map fun j : Nat => I ^ j * Complex.exp (I * ((1 / 7 : ℝ) : ℂ))) 8 [1, I, -1, -I] 1 4 = some (out, ph) ∧
    ∃ (p : ℝ) (q : ℤ), ph[1]? = some p ∧ |1 / 7 + p - Real.pi / 2 * q| ≤ Real.pi / 96 := by
  have hpi := Real.pi_le_four
  have hpi0 := Real.pi_pos
  obtain ⟨out, ph, h1, -, h2⟩ := C164_resolution ((List.range 4).map fun j : Nat => I ^ j * Complex.exp (I * ((1 / 7 : ℝ) : ℂ))) [1, I, -1, -I] 1 8 1 4
    (fun j => I ^ j) (1 / 7) le_rfl (by norm_num) (by norm_num) one_ne_zero qpsk_members (by
      intro j hj
      rw [List.length_map, List.length_range] at hj
      refine ⟨(qpsk_members _).2 ⟨j, by simp⟩, ?_⟩
      simp [List.getD, List.getElem?_range hj]) (by norm_num) (by
      norm_num
      have : (Real.pi / 32) ^ 2 ≤ 1 := pow_le_one₀ (by positivity) (by linarith)
      linarith)
  obtain ⟨p, q, z, g1, -, g2, -⟩ := h2 1 (by norm_num) (by simp)
  exact ⟨out, ph, h1, p, q, g1, g2.trans (le_of_eq (by norm_num))⟩

end Qampy
