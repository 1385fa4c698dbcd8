import Verif.Props.SearchAccuracy
import Verif.Props.Quality

/-!
No cycle slips: blind phase search resolves all symbols with the same number of quarter turns (C163).
-/

namespace Qampy

open Complex

/-- Neighbouring phases of the unwrapped part differ by at most an eighth of a turn. -/
theorem unwrapInner_step (ph : List ℝ) (N t : Nat) (a b : ℝ) (hN : 1 ≤ N) (h1 : N ≤ t) (h2 : t + 1 + N < ph.length)
    (ha : (unwrapInner ph N)[t]? = some a) (hb : (unwrapInner ph N)[t + 1]? = some b) : |b - a| ≤ Real.pi / 4 := by
  unfold unwrapInner at ha hb
  rw [if_neg (by omega)] at ha hb
  obtain ⟨u, hu⟩ : ∃ u, u = (ph.drop N).take (ph.length - 2 * N) := ⟨_, rfl⟩
  have hul : u.length = ph.length - 2 * N := by rw [hu]; simp; omega
  rw [← hu] at ha hb
  have hpre : (ph.take N).length = N := by simp; omega
  rw [List.append_assoc, List.getElem?_append_right (by omega), List.getElem?_append_left (by simp; omega), hpre] at ha hb
  have hch := unwrap_chain (u.map (· * 4))
  obtain ⟨v, hv⟩ : ∃ v, v = unwrap (u.map (· * 4)) := ⟨_, rfl⟩
  have hvl : v.length = ph.length - 2 * N := by rw [hv]; simp [hul]
  unfold unwrap4 at ha hb
  rw [← hv] at ha hb hch
  rw [List.getElem?_map, List.getElem?_eq_getElem (by omega)] at ha hb
  simp only [Option.map_some, Option.some.injEq] at ha hb
  rw [List.isChain_iff_getElem] at hch
  have := hch (t - N) (by omega)
  simp only [show t + 1 - N = t - N + 1 by omega] at hb
  rw [← ha, ← hb, ← sub_div, abs_div, abs_of_pos (by norm_num : (0 : ℝ) < 4)]
  linarith

theorem bps_phase {E symbols out : List ℂ} {ph : List ℝ} {M N : Nat} (h : bps E M symbols N = some (out, ph)) :
    ∃ ph0, ph = unwrapInner ph0 N ∧ out = rotateBy E ph := by
  unfold bps at h
  cases h1 : bpsIdx E [testAngles M] symbols N with
  | none => simp [h1] at h
  | some idx =>
    cases h2 : selectAngles [testAngles M] idx with
    | none => simp [h1, h2] at h
    | some p =>
      simp only [h1, h2, Option.bind_eq_bind, Option.bind_some, Option.some.injEq, Prod.mk.injEq] at h
      exact ⟨p, h.2.symm, by rw [← h.1, ← h.2]⟩

/-- Two quarter turns whose distance is less than √2 are the same. -/
theorem quarter_eq_of_close (a b : ℤ) (h : ‖(I : ℂ) ^ a - I ^ b‖ < √2) : (I : ℂ) ^ a = I ^ b := by
  by_contra hne
  have h1 : (I : ℂ) ^ (a - b) ≠ 1 := by
    intro he
    apply hne
    have : (I : ℂ) ^ a = I ^ (a - b) * I ^ b := by rw [← zpow_add₀ Complex.I_ne_zero, sub_add_cancel]
    rw [this, he, one_mul]
  have h2 := quarter_apart _ h1
  have h3 : ‖(I : ℂ) ^ a - I ^ b‖ = ‖(I : ℂ) ^ (a - b) - 1‖ := by
    have : (I : ℂ) ^ a - I ^ b = (I ^ (a - b) - 1) * I ^ b := by
      rw [sub_mul, one_mul, ← zpow_add₀ Complex.I_ne_zero, sub_add_cancel]
    rw [this, norm_mul, norm_I_zpow, mul_one]
  rw [h3] at h
  have h4 := Real.sqrt_le_sqrt h2
  rw [Real.sqrt_sq (norm_nonneg _)] at h4
  linarith

/-- No cycle slips: if drift and noise are small enough the search turns all samples with a complete window by the same number of quarter
turns relative to the transmitted symbols, however far the phase moves along the signal. -/
theorem C163_no_slips (E symbols : List ℂ) (c : ℂ) (M N : Nat) (s : Nat → ℂ) (θ : Nat → ℝ) (Δ ε : ℝ) (hN : 1 ≤ N) (hM : 1 ≤ M)
    (hc : c ≠ 0) (hsym : ∀ z, z ∈ symbols ↔ ∃ q : ℤ, z = I ^ q * c)
    (h : DriftingSignal E symbols s θ N Δ ε) (h100 : 2 * ‖c‖ + ε ≤ 10)
    (h1000 : 2 * N * (‖c‖ * (Real.pi / (4 * M) + Δ) + ε) ^ 2 < 1000)
    (hslip : 2 * (Real.pi / (4 * M) + 2 * Δ + 2 * ε / ‖c‖) + Δ + Real.pi / 4 < √2) :
    ∃ (out : List ℂ) (ph : List ℝ) (r : Nat), bps E M symbols N = some (out, ph) ∧ out.length = E.length ∧ r < 4 ∧
      ∀ t, N ≤ t → t + N < E.length → ∃ (p : ℝ) (z : ℂ), ph[t]? = some p ∧ out[t]? = some z ∧
        ‖Complex.exp (I * ((θ t + p : ℝ) : ℂ)) - I ^ r‖ ≤ Real.pi / (4 * M) + 2 * Δ + 2 * ε / ‖c‖ ∧
        ‖z - I ^ r * s t‖ ≤ ‖c‖ * (Real.pi / (4 * M) + 2 * Δ) + 3 * ε := by
  obtain ⟨out, ph, h1, h2, h3⟩ := C162_qpsk E symbols c M N s θ Δ ε hN hM hc hsym h h100 h1000
  by_cases hin : N + N < E.length
  swap
  · exact ⟨out, ph, 0, h1, h2, by norm_num, fun t a b => by omega⟩
  obtain ⟨ph0, hph0, hrot⟩ := bps_phase h1
  have hlen0 : ph0.length = ph.length := by rw [hph0]; simp
  have hlenp : E.length ≤ ph.length := by
    have : out.length = min E.length ph.length := by rw [hrot]; simp [rotateBy]
    omega
  obtain ⟨B, hB⟩ : ∃ B, B = Real.pi / (4 * M) + 2 * Δ + 2 * ε / ‖c‖ := ⟨_, rfl⟩
  rw [← hB] at hslip h3 ⊢
  obtain ⟨p0, r0, z0, g1, g2, g3, g4⟩ := h3 N le_rfl hin
  have hpl : ph.length = E.length := by
    -- the phase has the length of the signal
    obtain ⟨out', ph', e1, e2, -⟩ := C35_bps E symbols M N hN hM
    rw [h1] at e1
    simp only [Option.some.injEq, Prod.mk.injEq] at e1
    rw [e1.2, e2]
  -- all positions have the same number of quarter turns
  have hall : ∀ n, N + n + N < E.length → ∀ (p : ℝ) (r : ℤ), ph[N + n]? = some p →
      ‖Complex.exp (I * ((θ (N + n) + p : ℝ) : ℂ)) - I ^ r‖ ≤ B → (I : ℂ) ^ r = I ^ r0 := by
    intro n
    induction n with
    | zero =>
      intro hn p r hp hr
      rw [Nat.add_zero] at hp hr
      rw [g1] at hp
      have hp' := Option.some.inj hp
      subst hp'
      apply quarter_eq_of_close
      have hΔ : 0 ≤ Δ := (abs_nonneg _).trans (h.drift N N (by omega) (by omega) (by omega) (by omega))
      have := norm_sub_le_norm_sub_add_norm_sub (I ^ r) (Complex.exp (I * ((θ N + p0 : ℝ) : ℂ))) (I ^ r0)
      rw [norm_sub_rev (I ^ r) (Complex.exp _)] at this
      have := Real.pi_pos
      linarith
    | succ n ih =>
      intro hn p r hp hr
      obtain ⟨p', r', z', k1, k2, k3, -⟩ := h3 (N + n) (by omega) (by omega)
      rw [← ih (by omega) p' r' k1 k3]
      apply quarter_eq_of_close
      have hstep : |p - p'| ≤ Real.pi / 4 := by
        rw [hph0] at hp k1
        exact unwrapInner_step ph0 N (N + n) p' p hN (by omega) (by omega) k1 (by rw [← hp]; rfl)
      have hd := h.drift (N + (n + 1)) (N + n) (by omega) (by omega) (by omega) (by omega)
      have h5 := norm_exp_sub_exp_le (θ (N + (n + 1)) + p) (θ (N + n) + p')
      have h6 : |θ (N + (n + 1)) + p - (θ (N + n) + p')| ≤ Δ + Real.pi / 4 := by
        calc _ = |(θ (N + (n + 1)) - θ (N + n)) + (p - p')| := by congr 1; ring
          _ ≤ _ := (abs_add_le _ _).trans (add_le_add hd hstep)
      have h7 := norm_sub_le_norm_sub_add_norm_sub (I ^ r) (Complex.exp (I * ((θ (N + (n + 1)) + p : ℝ) : ℂ))) (I ^ r')
      have h8 := norm_sub_le_norm_sub_add_norm_sub (Complex.exp (I * ((θ (N + (n + 1)) + p : ℝ) : ℂ)))
        (Complex.exp (I * ((θ (N + n) + p' : ℝ) : ℂ))) (I ^ r')
      rw [norm_sub_rev (I ^ r) (Complex.exp _)] at h7
      linarith
  have hr0 : (I : ℂ) ^ r0 = I ^ (r0 % 4).toNat := by
    have h4 : (0 : ℤ) ≤ r0 % 4 := Int.emod_nonneg _ (by norm_num)
    rw [← zpow_natCast, Int.toNat_of_nonneg h4]
    conv_lhs => rw [← Int.emod_add_mul_ediv r0 4]
    rw [zpow_add₀ Complex.I_ne_zero, zpow_mul]
    have : (I : ℂ) ^ (4 : ℤ) = 1 := by
      rw [show (4 : ℤ) = ((4 : ℕ) : ℤ) by rfl, zpow_natCast]; exact Complex.I_pow_four
    rw [this, one_zpow, mul_one]
  refine ⟨out, ph, (r0 % 4).toNat, h1, h2, by omega, ?_⟩
  intro t hNt htN
  obtain ⟨p, r, z, k1, k2, k3, k4⟩ := h3 t hNt htN
  obtain ⟨n, rfl⟩ : ∃ n, t = N + n := ⟨t - N, by omega⟩
  have := hall n htN p r k1 k3
  rw [this, hr0] at k3 k4
  exact ⟨p, z, k1, k2, k3, k4⟩

/-- Error free reception: without the edges the signal is decided as the transmitted symbols, turned by one common number of quarter
turns, and its symbol error rate against them is zero. -/
theorem C163_error_free (E symbols : List ℂ) (c : ℂ) (M N : Nat) (s : Nat → ℂ) (θ : Nat → ℝ) (Δ ε : ℝ) (hN : 1 ≤ N) (hM : 1 ≤ M)
    (hc : c ≠ 0) (hsym : ∀ z, z ∈ symbols ↔ ∃ q : ℤ, z = I ^ q * c) (hnd : symbols.Nodup)
    (h : DriftingSignal E symbols s θ N Δ ε) (h100 : 2 * ‖c‖ + ε ≤ 10)
    (h1000 : 2 * N * (‖c‖ * (Real.pi / (4 * M) + Δ) + ε) ^ 2 < 1000)
    (hslip : 2 * (Real.pi / (4 * M) + 2 * Δ + 2 * ε / ‖c‖) + Δ + Real.pi / 4 < √2)
    (hb : ‖c‖ * (Real.pi / (4 * M) + 2 * Δ) + 3 * ε < ‖c‖ / √2) (hlen : 2 * N < E.length) :
    ∃ (out : List ℂ) (ph : List ℝ) (r : Nat) (d : List (ℂ × ℝ × Nat)), bps E M symbols N = some (out, ph) ∧
      makeDecision ((out.drop N).take (E.length - 2 * N)) symbols = some d ∧
      d.map (·.1) = (List.range (E.length - 2 * N)).map (fun n => I ^ r * s (N + n)) ∧
      calSer symbols ((out.drop N).take (E.length - 2 * N)) ((List.range (E.length - 2 * N)).map fun n => I ^ r * s (N + n)) = some 0 := by
  obtain ⟨out, ph, r, h1, h2, -, h3⟩ := C163_no_slips E symbols c M N s θ Δ ε hN hM hc hsym h h100 h1000 hslip
  have hne : symbols ≠ [] := List.ne_nil_of_mem ((hsym c).2 ⟨0, by simp⟩)
  have hrl : ((out.drop N).take (E.length - 2 * N)).length = E.length - 2 * N := by simp; omega
  obtain ⟨d, hd, hdt⟩ := C16_recovers symbols (‖c‖ * √2) (by
      intro i j a b ha hb' hij
      obtain ⟨qa, rfl⟩ := (hsym a).1 (List.mem_of_getElem? ha)
      obtain ⟨qb, rfl⟩ := (hsym b).1 (List.mem_of_getElem? hb')
      rw [← sub_mul, norm_mul, mul_comm]
      refine mul_le_mul_of_nonneg_right ?_ (norm_nonneg _)
      by_contra hlt
      push Not at hlt
      have heq := quarter_eq_of_close qa qb hlt
      rw [heq] at ha
      obtain ⟨hi, ha'⟩ := List.getElem?_eq_some_iff.1 ha
      obtain ⟨hj, hb''⟩ := List.getElem?_eq_some_iff.1 hb'
      exact hij ((List.Nodup.getElem_inj_iff hnd).1 (ha'.trans hb''.symm)))
    ((List.range (E.length - 2 * N)).map fun n => I ^ r * s (N + n)) ((out.drop N).take (E.length - 2 * N)) (by rw [hrl]; simp)
    (by
      intro z hz
      obtain ⟨n, hn, rfl⟩ := List.mem_map.1 hz
      rw [List.mem_range] at hn
      obtain ⟨b, hb'⟩ := (hsym _).1 (h.mem (N + n) (by omega))
      refine (hsym _).2 ⟨r + b, ?_⟩
      rw [hb', ← mul_assoc, ← zpow_natCast, ← zpow_add₀ Complex.I_ne_zero])
    (by
      intro n a z ha hz
      have hn : n < E.length - 2 * N := by
        by_contra hcon
        rw [List.getElem?_eq_none (by simp; omega)] at ha
        simp at ha
      rw [List.getElem?_map, List.getElem?_range hn] at ha
      simp only [Option.map_some, Option.some.injEq] at ha
      obtain ⟨p, z', -, k2, -, k4⟩ := h3 (N + n) (by omega) (by omega)
      rw [List.getElem?_take_of_lt hn, List.getElem?_drop, k2] at hz
      have hz' := Option.some.inj hz
      subst hz'
      rw [← ha]
      have h22 : √2 * √2 = 2 := Real.mul_self_sqrt (by norm_num)
      have hhalf : ‖c‖ / √2 = ‖c‖ * √2 / 2 := by
        rw [div_eq_div_iff (by positivity) (by norm_num), mul_assoc, h22]
      linarith)
  refine ⟨out, ph, r, d, h1, hd, hdt, ?_⟩
  obtain ⟨ser, d', e1, e2, -, -, -, e3⟩ := C47_ser symbols ((out.drop N).take (E.length - 2 * N))
    ((List.range (E.length - 2 * N)).map fun n => I ^ r * s (N + n)) hne (by rw [hrl]; simp)
    (by intro hcon; rw [hcon] at hrl; simp at hrl; omega)
  rw [hd] at e2
  have e2' := Option.some.inj e2
  subst e2'
  rw [e1, e3.2 hdt]

/-- A QPSK signal whose phase turns on and on, by 1/100 per symbol, sampled with noise: as long as one likes. -/
example (L : Nat) (hL : 3 ≤ L) : ∃ (out : List ℂ) (ph : List ℝ) (r : Nat) (d : List (ℂ × ℝ × Nat)),
    bps ((List.range L).map fun j : Nat => I ^ j * Complex.exp (I * ((j / 100 : ℝ) : ℂ)) + (-1) ^ j / 50) 16 [1, I, -1, -I] 1 = some (out, ph) ∧
      makeDecision ((out.drop 1).take (L - 2)) [1, I, -1, -I] = some d ∧
      d.map (·.1) = (List.range (L - 2)).map (fun n => I ^ r * I ^ (1 + n)) := by
  have hpi := Real.pi_le_four
  have hroot : (7 : ℝ) / 10 < 1 / √2 := by
    have h2 : (0 : ℝ) < √2 := by positivity
    rw [lt_div_iff₀ h2]
    have : √2 < 10 / 7 := by
      rw [Real.sqrt_lt' (by norm_num)]; norm_num
    linarith
  have hroot' : (14 : ℝ) / 10 < √2 := by
    rw [Real.lt_sqrt (by norm_num)]; norm_num
  obtain ⟨out, ph, r, d, h1, h2, h3, -⟩ := C163_error_free
    ((List.range L).map fun j : Nat => I ^ j * Complex.exp (I * ((j / 100 : ℝ) : ℂ)) + (-1) ^ j / 50) [1, I, -1, -I] 1 16 1
    (fun j => I ^ j) (fun j => j / 100) (1 / 100) (1 / 50) le_rfl (by norm_num) one_ne_zero qpsk_members
    (by simp [Complex.ext_iff]; norm_num) {
      mem := by
        intro j _
        refine (qpsk_members _).2 ⟨j, by simp⟩
      drift := by
        intro i j _ _ g1 g2
        have g1' : (i : ℝ) ≤ j + 1 := by exact_mod_cast g1
        have g2' : (j : ℝ) ≤ i + 1 := by exact_mod_cast g2
        rw [abs_le]
        constructor <;> linarith
      noise := by
        intro j hj
        rw [List.length_map, List.length_range] at hj
        simp only [List.getD, List.getElem?_map, List.getElem?_range hj, Option.map_some, Option.getD_some, add_sub_cancel_left]
        simp }
    (by norm_num) (by
      norm_num
      have : (Real.pi / 64 + 1 / 100 + 1 / 50) ^ 2 ≤ 1 := by
        apply pow_le_one₀ (by positivity)
        linarith
      linarith) (by norm_num; linarith) (by norm_num; norm_num at hroot; linarith) (by simp; omega)
  rw [List.length_map, List.length_range] at h2 h3
  exact ⟨out, ph, r, d, h1, h2, h3⟩

end Qampy
