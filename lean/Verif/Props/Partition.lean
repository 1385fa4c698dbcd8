import Verif.Model.Partition
import Verif.Lemmas.Phase
import Verif.Lemmas.Constellation
import Verif.Props.Constellation

/-!
C62, C89, C90, C91, C92: moment based estimators and the partition phase recovery for 16-QAM.
-/

namespace Qampy

open Complex (I)

/-! ### C90: estimators from the second and fourth moment -/

theorem momentS_exact (E : List ℂ) (gamma S N : ℝ) (hg : gamma < 2) (hS : 0 < S) (hN : 0 ≤ N)
    (h2 : absMoment 2 E = S + N) (h4 : absMoment 4 E = gamma * S ^ 2 + 4 * S * N + 2 * N ^ 2) (h40 : 0 < absMoment 4 E) :
    ∃ c : ℝ, 0 < c ∧ momentS E gamma = some (-(c * S), -(c * N)) := by
  set r2 := absMoment 2 E with hr2
  set r4 := absMoment 4 E with hr4
  have hrp : 0 < r2 := by rw [h2]; linarith
  have ha : 0 < 2 - gamma := by linarith
  have e : r4 = 2 * r2 ^ 2 - (2 - gamma) * S ^ 2 := by rw [h4, h2]; ring
  have hrad : (2 - gamma) * (2 * r2 ^ 4 / r4 ^ 2 - r2 ^ 2 / r4) = ((2 - gamma) * r2 * S / r4) ^ 2 := by
    have : (2 - gamma) * S ^ 2 = 2 * r2 ^ 2 - r4 := by rw [e]; ring
    have h' : ((2 - gamma) * r2 * S / r4) ^ 2 = (2 - gamma) * r2 ^ 2 * ((2 - gamma) * S ^ 2) / r4 ^ 2 := by
      field_simp
    rw [h', this]
    field_simp
  have hsq : Real.sqrt ((2 - gamma) * (2 * r2 ^ 4 / r4 ^ 2 - r2 ^ 2 / r4)) = (2 - gamma) * r2 * S / r4 := by
    rw [hrad]; exact Real.sqrt_sq (by positivity)
  refine ⟨(2 - gamma) * (r2 + S) / r4, by positivity, ?_⟩
  unfold momentS
  simp only [← hr2, ← hr4]
  rw [if_neg (by push Not; exact ⟨h40.ne', by rw [hrad]; positivity⟩), hsq, Option.some.injEq, Prod.mk.injEq]
  constructor
  · field_simp
    rw [e]; ring
  · field_simp
    rw [e, h2]; ring

/-- C90: if the second and fourth absolute moments of the samples are those of a signal of power `S` with kurtosis `gamma` in circular
Gaussian noise of power `N`, `cal_s0` returns `S` and `cal_snr_qam` returns `S/N`. -/
theorem C90_exact_moments (E : List ℂ) (gamma S N : ℝ) (hg0 : 0 ≤ gamma) (hg : gamma < 2) (hS : 0 < S) (hN : 0 < N)
    (h2 : absMoment 2 E = S + N) (h4 : absMoment 4 E = gamma * S ^ 2 + 4 * S * N + 2 * N ^ 2) :
    calS0 E gamma = some S ∧ calSnrQam E gamma = some (S / N) := by
  obtain ⟨c, hc, h⟩ := momentS_exact E gamma S N hg hS hN.le h2 h4 (by rw [h4]; positivity)
  constructor
  · unfold calS0
    rw [h, Option.map_some, Option.some.injEq]
    simp only
    rw [if_neg (neg_ne_zero.2 (mul_pos hc hS).ne'), h2]
    have : S + N ≠ 0 := by positivity
    field_simp
  · unfold calSnrQam
    rw [h, Option.bind_some]
    simp only
    rw [if_neg (neg_ne_zero.2 (mul_pos hc hN).ne'), Option.some.injEq]
    field_simp

/-- C90: the noiseless case, where `cal_snr_qam` is infinite. -/
theorem C90_noiseless (E : List ℂ) (gamma S : ℝ) (hg0 : 0 < gamma) (hg : gamma < 2) (hS : 0 < S)
    (h2 : absMoment 2 E = S) (h4 : absMoment 4 E = gamma * S ^ 2) :
    calS0 E gamma = some S ∧ calSnrQam E gamma = none := by
  obtain ⟨c, hc, h⟩ := momentS_exact E gamma S 0 hg hS le_rfl (by rw [h2, add_zero]) (by rw [h4]; ring) (by rw [h4]; positivity)
  constructor
  · unfold calS0
    rw [h, Option.map_some, Option.some.injEq]
    simp only
    rw [if_neg (neg_ne_zero.2 (mul_pos hc hS).ne'), h2]
    simp
  · unfold calSnrQam
    rw [h, Option.bind_some]
    simp

theorem sum_range_four (n : Nat) (c : Int) :
    15 * ((List.range n).map fun i : Nat => (2 * (i : Int) - c) ^ 4).sum
      = 8 * (n : Int) * (n - 1) * (2 * n - 1) * (3 * n ^ 2 - 3 * n - 1) - 120 * c * (n * (n - 1)) ^ 2
        + 60 * c ^ 2 * n * (n - 1) * (2 * n - 1) - 60 * c ^ 3 * n * (n - 1) + 15 * n * c ^ 4 := by
  induction n with
  | zero => simp
  | succ n ih =>
    rw [List.range_succ, List.map_append, List.sum_append, mul_add, ih]
    simp only [List.map_cons, List.map_nil, List.sum_cons, List.sum_nil, add_zero]
    push_cast
    ring

theorem sum_axisPts_four (n : Nat) :
    15 * ((axisPts n).map fun a => a ^ 4).sum = (n : Int) * ((n : Int) ^ 2 - 1) * (3 * (n : Int) ^ 2 - 7) := by
  rw [axisPts, List.map_map]
  have := sum_range_four n ((n : Int) - 1)
  simp only [Function.comp_def]
  rw [this]; ring

theorem sum_prod_four (l m : List Int) :
    ((l.flatMap fun a => m.map fun b => (a, b)).map fun p => sqNorm p ^ 2).sum
      = (m.length : Int) * (l.map (fun a => a ^ 4)).sum + (l.length : Int) * (m.map (fun a => a ^ 4)).sum
        + 2 * (l.map (fun a => a ^ 2)).sum * (m.map (fun a => a ^ 2)).sum := by
  induction l with
  | nil => simp
  | cons a l ih =>
    rw [List.flatMap_cons, List.map_append, List.sum_append, ih]
    have h1 : ((m.map fun b => (a, b)).map fun p => sqNorm p ^ 2).sum =
        (m.length : Int) * a ^ 4 + 2 * a ^ 2 * (m.map (fun a => a ^ 2)).sum + (m.map (fun a => a ^ 4)).sum := by
      rw [List.map_map]
      clear ih
      induction m with
      | nil => simp
      | cons b m ih =>
        simp only [List.map_cons, List.sum_cons, ih, Function.comp_apply, List.length_cons]
        simp only [sqNorm]
        push_cast; ring
    rw [h1]
    simp only [List.map_cons, List.sum_cons, List.length_cons]
    push_cast; ring

theorem sum_squareQam_four (N : Nat) :
    45 * ((squareQam N).map fun p => sqNorm p ^ 2).sum = 4 * 4 ^ N * (4 ^ N - 1) * (7 * 4 ^ N - 13) := by
  rw [squareQam, sum_prod_four, length_axisPts]
  have h := sum_axisPts_four (2 ^ N)
  have h2 := sum_axisPts_sq (2 ^ N)
  have e : (4 : Int) ^ N = 2 ^ N * 2 ^ N := by rw [← mul_pow]; norm_num
  push_cast at *
  set a := ((axisPts (2 ^ N)).map fun a => a ^ 4).sum
  set b := ((axisPts (2 ^ N)).map fun a => a ^ 2).sum
  set n : Int := 2 ^ N
  rw [e]
  linear_combination (6 * n) * h + (30 * b + 10 * n * (n ^ 2 - 1)) * h2

theorem calGamma_eq (k : Nat) (hs : 0 ≤ scalingFactor k) :
    calGamma k = ((((symbolsQam k).map fun p => sqNorm p ^ 2).sum : Int) : ℝ) / (scalingFactor k : ℝ) ^ 2 / 2 ^ k := by
  unfold calGamma gammaOf
  rw [List.map_map]
  have hs' : (0 : ℝ) ≤ (scalingFactor k : ℝ) := by exact_mod_cast hs
  generalize symbolsQam k = l
  induction l with
  | nil => simp
  | cons p l ih =>
    rw [List.map_cons, List.sum_cons, ih, List.map_cons, List.sum_cons]
    have h1 : ‖(⟨(p.1 : ℝ), (p.2 : ℝ)⟩ : ℂ)‖ ^ 2 = (sqNorm p : ℝ) := by
      rw [← Complex.normSq_eq_norm_sq, Complex.normSq_mk, sqNorm]; push_cast; ring
    have h2 : (‖(⟨(p.1 : ℝ), (p.2 : ℝ)⟩ : ℂ)‖ / Real.sqrt (scalingFactor k : ℝ)) ^ 4 = (sqNorm p : ℝ) ^ 2 / (scalingFactor k : ℝ) ^ 2 := by
      rw [div_pow, show 4 = 2 * 2 from rfl, pow_mul, pow_mul, h1, Real.sq_sqrt hs']
    simp only [Function.comp_apply, h2]
    push_cast
    ring

/-- C90: the kurtosis used for square M-QAM is `(7M-13)/(5(M-1))`, between one and two. -/
theorem C90_gamma_square (k : Nat) (hk : k % 2 = 0) (hk2 : 2 ≤ k) :
    calGamma k = (7 * 2 ^ k - 13) / (5 * (2 ^ k - 1)) ∧ 1 ≤ calGamma k ∧ calGamma k < 2 := by
  obtain ⟨N, rfl⟩ : ∃ N, k = 2 * N := ⟨k / 2, by omega⟩
  have hsf : scalingFactor (2 * N) = 2 / 3 * ((2 : ℚ) ^ (2 * N) - 1) := by rw [scalingFactor, if_pos (by omega)]
  have h4 : (4 : ℝ) ≤ 2 ^ (2 * N) := by
    calc (4 : ℝ) = 2 ^ 2 := by norm_num
      _ ≤ 2 ^ (2 * N) := pow_le_pow_right₀ (by norm_num) hk2
  have h4q : (4 : ℚ) ≤ 2 ^ (2 * N) := by
    calc (4 : ℚ) = 2 ^ 2 := by norm_num
      _ ≤ 2 ^ (2 * N) := pow_le_pow_right₀ (by norm_num) hk2
  have e : calGamma (2 * N) = (7 * 2 ^ (2 * N) - 13) / (5 * (2 ^ (2 * N) - 1)) := by
    rw [calGamma_eq _ (by rw [hsf]; linarith)]
    have hsum := congrArg (Int.cast : Int → ℝ) (sum_squareQam_four N)
    have hsq : symbolsQam (2 * N) = squareQam N := by
      rw [symbolsQam, if_neg (by omega), show 2 * N / 2 = N by omega]
    rw [hsq, hsf]
    have e4 : (2 : ℝ) ^ (2 * N) = 4 ^ N := by rw [pow_mul]; norm_num
    push_cast at hsum ⊢
    rw [e4] at h4 ⊢
    set x : ℝ := 4 ^ N
    have hx1 : x - 1 ≠ 0 := by intro h0; linarith
    have hx0 : x ≠ 0 := by intro h0; linarith
    generalize hT : (((squareQam N).map fun p => sqNorm p ^ 2).map (Int.cast : Int → ℝ)).sum = T at *
    have : T = 4 * x * (x - 1) * (7 * x - 13) / 45 := by linarith
    rw [this]
    field_simp
    ring
  rw [e]
  have hp : 0 < 5 * ((2 : ℝ) ^ (2 * N) - 1) := by linarith
  exact ⟨rfl, by rw [le_div_iff₀ hp]; linarith, by rw [div_lt_iff₀ hp]; linarith⟩

theorem absMoment_perm {n : Nat} {E F : List ℂ} (h : E.Perm F) : absMoment n E = absMoment n F := by
  unfold absMoment
  rw [(h.map _).sum_eq, h.length_eq]

theorem absMoment_replicate (n r : Nat) (hr : r ≠ 0) (l : List ℂ) : absMoment n (List.replicate r l).flatten = absMoment n l := by
  unfold absMoment
  rw [List.map_flatten, List.sum_flatten, List.length_flatten]
  simp only [List.map_replicate, List.sum_replicate, smul_eq_mul, nsmul_eq_mul]
  have : (r : ℝ) ≠ 0 := by exact_mod_cast hr
  push_cast
  rw [mul_div_mul_left _ _ this]

theorem absMoment_gain (n : Nat) (c : ℂ) (l : List ℂ) : absMoment n (l.map fun e => c * e) = ‖c‖ ^ n * absMoment n l := by
  unfold absMoment
  rw [List.map_map, List.length_map, mul_div_assoc', ← List.sum_map_mul_left]
  simp only [Function.comp_def, norm_mul, mul_pow]

/-- C90: on a noiseless square M-QAM signal in which every symbol is used equally often, with any gain and phase and in any order, the
estimator returns the signal power. -/
theorem C90_square_qam (k r : Nat) (hk : k % 2 = 0) (hk2 : 2 ≤ k) (hr : 1 ≤ r) (c : ℂ) (hc : c ≠ 0) (E : List ℂ)
    (hE : E.Perm (List.replicate r ((symbolsQam k).map fun p => c * (⟨(p.1 : ℝ), (p.2 : ℝ)⟩ : ℂ))).flatten) :
    calS0 E (calGamma k) = some (‖c‖ ^ 2 * (2 / 3 * (2 ^ k - 1))) ∧ absMoment 2 E = ‖c‖ ^ 2 * (2 / 3 * (2 ^ k - 1)) := by
  obtain ⟨h1, h2⟩ := C11_scaling_factor k hk
  have h4 : (4 : ℝ) ≤ 2 ^ k := by
    calc (4 : ℝ) = 2 ^ 2 := by norm_num
      _ ≤ 2 ^ k := pow_le_pow_right₀ (by norm_num) hk2
  have hsr : (scalingFactor k : ℝ) = 2 / 3 * (2 ^ k - 1) := by rw [h2]; push_cast; ring
  have hs0 : 0 < (scalingFactor k : ℝ) := by rw [hsr]; linarith
  have hg := calGamma_eq k (by exact_mod_cast hs0.le)
  have hn : ∀ p : Int × Int, ‖(⟨(p.1 : ℝ), (p.2 : ℝ)⟩ : ℂ)‖ ^ 2 = (sqNorm p : ℝ) := by
    intro p
    rw [← Complex.normSq_eq_norm_sq, Complex.normSq_mk, sqNorm]; push_cast; ring
  have hm : ∀ n, absMoment n E = ‖c‖ ^ n * absMoment n ((symbolsQam k).map fun p => (⟨(p.1 : ℝ), (p.2 : ℝ)⟩ : ℂ)) := by
    intro n
    rw [absMoment_perm hE, absMoment_replicate _ _ (by omega), ← absMoment_gain, List.map_map]
    rfl
  have hlen : (symbolsQam k).length = 2 ^ k := length_symbolsQam k
  have hm2 : absMoment 2 E = ‖c‖ ^ 2 * (2 / 3 * (2 ^ k - 1)) := by
    rw [hm 2, ← hsr, h1]
    unfold absMoment
    rw [List.map_map, List.length_map]
    simp only [Function.comp_def, hn]
    push_cast
    simp only [List.map_map, Function.comp_def, Rat.cast_intCast]
  have hm4 : absMoment 4 E = calGamma k * (‖c‖ ^ 2 * (2 / 3 * (2 ^ k - 1))) ^ 2 := by
    rw [hm 4, hg, ← hsr]
    unfold absMoment
    rw [List.map_map, List.length_map, hlen]
    simp only [Function.comp_def, show ∀ z : ℂ, ‖z‖ ^ 4 = (‖z‖ ^ 2) ^ 2 from fun z => by ring, hn]
    push_cast
    rw [List.map_map]
    simp only [Function.comp_def]
    push_cast
    field_simp
  obtain ⟨_, g1, g2⟩ := C90_gamma_square k hk hk2
  exact ⟨(C90_noiseless E _ _ (by linarith) g2 (by have := norm_pos_iff.2 hc; rw [← hsr]; positivity) hm2 hm4).1, hm2⟩

example : calGamma 4 = 33 / 25 := by
  rw [(C90_gamma_square 4 rfl (by norm_num)).1]; norm_num

example : calS0 [3 * (⟨1, 1⟩ : ℂ), 3 * ⟨-1, -1⟩, 3 * ⟨-1, 1⟩, 3 * ⟨1, -1⟩] (calGamma 2) = some 18 := by
  rw [(C90_square_qam 2 1 rfl le_rfl le_rfl 3 (by norm_num) _ ?_).1]
  · norm_num
  · have e : symbolsQam 2 = [(-1, -1), (-1, 1), (1, -1), (1, 1)] := by decide
    rw [e]
    simp only [List.replicate_one, List.flatten_cons, List.flatten_nil, List.append_nil, List.map_cons, List.map_nil]
    push_cast
    generalize (3 * (⟨1, 1⟩ : ℂ)) = a
    generalize (3 * (⟨-1, -1⟩ : ℂ)) = b
    generalize (3 * (⟨-1, 1⟩ : ℂ)) = d
    generalize (3 * (⟨1, -1⟩ : ℂ)) = f
    exact (List.perm_append_comm (l₁ := [a]) (l₂ := [b, d, f]))

/-- A signal with noise to which `C90_exact_moments` applies: two amplitudes with the moments of QPSK (`gamma = 1`) of power 1 in
noise of power 1. -/
example : ∃ E : List ℂ, calS0 E 1 = some 1 ∧ calSnrQam E 1 = some 1 := by
  have h : ‖((Real.sqrt (7 / 2) : ℝ) : ℂ)‖ ^ 2 = 7 / 2 := by
    rw [Complex.norm_real, Real.norm_of_nonneg (Real.sqrt_nonneg _), Real.sq_sqrt (by norm_num)]
  have h4 : ‖((Real.sqrt (7 / 2) : ℝ) : ℂ)‖ ^ 4 = (7 / 2) ^ 2 := by
    rw [show 4 = 2 * 2 from rfl, pow_mul, h]
  refine ⟨[0, 0, 0] ++ List.replicate 4 ((Real.sqrt (7 / 2) : ℝ) : ℂ), ?_⟩
  have := C90_exact_moments ([0, 0, 0] ++ List.replicate 4 ((Real.sqrt (7 / 2) : ℝ) : ℂ)) 1 1 1 (by norm_num) (by norm_num) (by norm_num)
    (by norm_num)
    (by unfold absMoment; simp only [List.map_append, List.map_replicate, h, List.sum_append, List.sum_replicate]; norm_num)
    (by unfold absMoment; simp only [List.map_append, List.map_replicate, h4, List.sum_append, List.sum_replicate]; norm_num)
  simpa using this

/-! ### C92: blind SNR of QPSK -/

/-- C92: with QPSK symbols `s` (`s^4 = -1`) and a received sample `s*w` that is not closer to another symbol (`|arg w| < π/4`), the
estimator removes the modulation: the powers are those of `w`. -/
theorem C92_blind_qpsk (s w : List ℂ) (hs : ∀ x ∈ s, x ^ 4 = -1) (hlen : s.length = w.length)
    (hw : ∀ x ∈ w, |Complex.arg x| < Real.pi / 4) :
    blindSnrQpsk (List.zipWith (· * ·) s w) =
      ((w.map fun x => ‖x‖ ^ 2).sum / w.length, (w.map fun x => ‖x - w.sum / w.length‖ ^ 2).sum / w.length) := by
  have key : (List.zipWith (· * ·) s w).map (fun e => (-e ^ 4) ^ ((1 : ℂ) / 4)) = w := by
    apply List.ext_getElem (by simp [hlen])
    intro i h1 h2
    rw [List.getElem_map, List.getElem_zipWith]
    have h3 := hs s[i] (List.getElem_mem _)
    have h4 := hw w[i] (List.getElem_mem _)
    rw [mul_pow, h3, neg_one_mul, neg_neg]
    obtain ⟨h5, h6⟩ := abs_lt.1 h4
    have := Complex.pow_cpow_nat_inv (x := w[i]) (n := 4) (by norm_num) (by push_cast; linarith) (by push_cast; linarith)
    simpa only [Nat.cast_ofNat, one_div] using this
  unfold blindSnrQpsk absMoment
  simp only [key]

example : blindSnrQpsk [Complex.exp (I * ((Real.pi / 4 : ℝ) : ℂ)) * 3, -Complex.exp (I * ((Real.pi / 4 : ℝ) : ℂ)) * 1] = (5, 1) := by
  have h4 : Complex.exp (I * ((Real.pi / 4 : ℝ) : ℂ)) ^ 4 = -1 := by
    rw [← Complex.exp_nat_mul, ← Complex.exp_pi_mul_I]; congr 1; push_cast; ring
  have := C92_blind_qpsk [Complex.exp (I * ((Real.pi / 4 : ℝ) : ℂ)), -Complex.exp (I * ((Real.pi / 4 : ℝ) : ℂ))] [3, 1] (by
    intro x hx
    simp only [List.mem_cons, List.not_mem_nil, or_false] at hx
    rcases hx with rfl | rfl
    · exact h4
    · rw [neg_pow, h4]; norm_num) rfl (by
    intro x hx
    simp only [List.mem_cons, List.not_mem_nil, or_false] at hx
    have hp := Real.pi_pos
    rcases hx with rfl | rfl
    · rw [show (3 : ℂ) = ((3 : ℝ) : ℂ) by norm_num, Complex.arg_ofReal_of_nonneg (by norm_num), abs_zero]; positivity
    · rw [Complex.arg_one, abs_zero]; positivity)
  simp only [List.zipWith_cons_cons, List.zipWith_nil_right] at this
  rw [this]
  norm_num

/-! ### C62: the partition of 16-QAM -/

/-- C62: every sample is in exactly one of the two classes. -/
theorem C62_exactly_one (E : List ℂ) : (partition16 E).1.length = E.length ∧ (partition16 E).2.length = E.length ∧
    ∀ t, t < E.length → ∃ a b, (partition16 E).1[t]? = some a ∧ (partition16 E).2[t]? = some b ∧ (a = true ↔ b = false) := by
  have h1 : (partition16 E).1.length = E.length := by
    unfold partition16
    simp only
    split
    · simp
    · split_ifs <;> simp
  have h2 : (partition16 E).2 = (partition16 E).1.map not := rfl
  refine ⟨h1, by simp [h2, h1], ?_⟩
  intro t ht
  refine ⟨(partition16 E).1[t]'(by omega), !(partition16 E).1[t]'(by omega), List.getElem?_eq_getElem _, ?_, by simp⟩
  rw [h2, List.getElem?_map, List.getElem?_eq_getElem (by omega)]
  rfl

theorem calGammaSmall_eq : calGammaSmall (33 / 25) = 25 / 33 := by
  have h0 : symbolsSmall (33 / 25) = [(⟨-(Real.sqrt (33 / 25) - 1), -(Real.sqrt (33 / 25) - 1)⟩ : ℂ)] := by
    unfold symbolsSmall
    rw [mul_div_cancel_left₀ _ two_ne_zero]
  unfold calGammaSmall gammaOf
  rw [h0]
  set z : ℂ := ⟨-(Real.sqrt (33 / 25) - 1), -(Real.sqrt (33 / 25) - 1)⟩ with hz
  have hne : ‖z‖ ≠ 0 := by
    rw [norm_ne_zero_iff]
    intro h
    have := congrArg Complex.re h
    simp only [hz, Complex.zero_re] at this
    have h1 : Real.sqrt (33 / 25) = 1 := by linarith
    have h2 := Real.sq_sqrt (show (0 : ℝ) ≤ 33 / 25 by norm_num)
    rw [h1] at h2
    norm_num at h2
  simp only [List.map_cons, List.map_nil, List.sum_cons, List.sum_nil, add_zero, List.length_cons, List.length_nil, zero_add, Nat.cast_one,
    div_one]
  rw [Real.sqrt_sq (norm_nonneg _), div_self hne]
  norm_num

/-- The threshold quantity of a signal with the moments of 16-QAM. -/
theorem calS0_16qam (E : List ℂ) (c : ℝ) (hc : 0 < c) (h2 : absMoment 2 E = c ^ 2) (h4 : absMoment 4 E = 33 / 25 * c ^ 4) :
    ∃ x : ℝ, calS0 E (calGammaSmall (33 / 25)) = some (x * c ^ 2) ∧ 7397 / 10000 < x ∧ x < 74 / 100 := by
  rw [calGammaSmall_eq]
  unfold calS0 momentS
  rw [h2, h4]
  have hrad : (2 - 25 / 33 : ℝ) * (2 * (c ^ 2) ^ 4 / (33 / 25 * c ^ 4) ^ 2 - (c ^ 2) ^ 2 / (33 / 25 * c ^ 4)) = 17425 / 35937 := by
    field_simp
    norm_num
  simp only
  rw [hrad, if_neg (by push Not; exact ⟨by positivity, by norm_num⟩)]
  set ρ := Real.sqrt (17425 / 35937) with hρ
  have hρ1 : 696 / 1000 < ρ := by rw [hρ]; exact Real.lt_sqrt_of_sq_lt (by norm_num)
  have hρ2 : ρ < 697 / 1000 := by rw [hρ]; exact (Real.sqrt_lt' (by norm_num)).2 (by norm_num)
  have e1 : (1 - 2 * (c ^ 2) ^ 2 / (33 / 25 * c ^ 4) - ρ : ℝ) = -(17 / 33 + ρ) := by field_simp; ring
  have e2 : (25 / 33 * (c ^ 2) ^ 2 / (33 / 25 * c ^ 4) - 1 : ℝ) = -(464 / 1089) := by field_simp; norm_num
  rw [e1, e2, Option.map_some]
  simp only
  have hp : 0 < 17 / 33 + ρ := by linarith
  rw [if_neg (neg_ne_zero.2 hp.ne')]
  have hd : 0 < 1025 + 1089 * ρ := by linarith
  refine ⟨(561 + 1089 * ρ) / (1025 + 1089 * ρ), ?_, ?_, ?_⟩
  · rw [Option.some.injEq]
    have : (1 + -(464 / 1089) / -(17 / 33 + ρ) : ℝ) = (1025 + 1089 * ρ) / (561 + 1089 * ρ) := by
      have : (561 + 1089 * ρ) ≠ 0 := by linarith
      field_simp
      ring
    rw [this]
    have : (561 + 1089 * ρ) ≠ 0 := by linarith
    field_simp
  · rw [lt_div_iff₀ hd]; linarith
  · rw [div_lt_iff₀ hd]; linarith

/-- A list of samples on the three rings of 16-QAM with the frequencies of the constellation: radii `c/√5`, `c`, `3c/√5` for a mean
power `c²`, any phases, any order. -/
def Balanced16 (c : ℝ) (E : List ℂ) : Prop := ∃ (A B C : List ℂ) (n : Nat), 0 < n ∧ A.length = n ∧ B.length = 2 * n ∧ C.length = n ∧
  E.Perm (A ++ (B ++ C)) ∧ (∀ e ∈ A, ‖e‖ ^ 2 = c ^ 2 / 5) ∧ (∀ e ∈ B, ‖e‖ ^ 2 = c ^ 2) ∧ (∀ e ∈ C, ‖e‖ ^ 2 = 9 * c ^ 2 / 5)

theorem sum_map_const_on {α : Type _} (l : List α) (f : α → ℝ) (v : ℝ) (h : ∀ a ∈ l, f a = v) : (l.map f).sum = l.length * v := by
  rw [List.map_congr_left h, List.map_const', List.sum_replicate, nsmul_eq_mul]

theorem Balanced16.moments {c : ℝ} {E : List ℂ} (h : Balanced16 c E) : absMoment 2 E = c ^ 2 ∧ absMoment 4 E = 33 / 25 * c ^ 4 := by
  obtain ⟨A, B, C, n, hn, hA, hB, hC, hp, h1, h2, h3⟩ := h
  have hn' : (n : ℝ) ≠ 0 := by exact_mod_cast hn.ne'
  constructor
  · rw [absMoment_perm hp]
    unfold absMoment
    simp only [List.map_append, List.sum_append, List.length_append]
    rw [sum_map_const_on A _ _ h1, sum_map_const_on B _ _ h2, sum_map_const_on C _ _ h3, hA, hB, hC]
    push_cast
    field_simp
    ring
  · rw [absMoment_perm hp]
    unfold absMoment
    simp only [List.map_append, List.sum_append, List.length_append, show ∀ z : ℂ, ‖z‖ ^ 4 = (‖z‖ ^ 2) ^ 2 from fun z => by ring]
    rw [sum_map_const_on A _ ((c ^ 2 / 5) ^ 2) (fun e he => by rw [h1 e he]),
      sum_map_const_on B _ ((c ^ 2) ^ 2) (fun e he => by rw [h2 e he]),
      sum_map_const_on C _ ((9 * c ^ 2 / 5) ^ 2) (fun e he => by rw [h3 e he]), hA, hB, hC]
    push_cast
    field_simp
    ring

theorem partition16_moments (E : List ℂ) (c : ℝ) (hc : 0 < c) (h2 : absMoment 2 E = c ^ 2) (h4 : absMoment 4 E = 33 / 25 * c ^ 4) :
    ∃ a b : ℝ, 6 / 10 < a ∧ a < 7 / 10 ∧ 1 < b ∧ b < 101 / 100 ∧
      (partition16 E).1 = E.map fun e => decide (‖e‖ < a * c) || decide (b * c < ‖e‖) := by
  obtain ⟨x, h, hx1, hx2⟩ := calS0_16qam E c hc h2 h4
  have hx0 : 0 < x := by linarith
  refine ⟨(Real.sqrt (x / 5) + Real.sqrt x) / 2, (Real.sqrt (9 * x / 5) + Real.sqrt x) / 2, ?_, ?_, ?_, ?_, ?_⟩
  · have h1 : 85 / 100 < Real.sqrt x := Real.lt_sqrt_of_sq_lt (by norm_num; linarith)
    have h3 : 38 / 100 < Real.sqrt (x / 5) := Real.lt_sqrt_of_sq_lt (by norm_num; linarith)
    linarith
  · have h1 : Real.sqrt x < 87 / 100 := (Real.sqrt_lt' (by norm_num)).2 (by norm_num; linarith)
    have h3 : Real.sqrt (x / 5) < 4 / 10 := (Real.sqrt_lt' (by norm_num)).2 (by norm_num; linarith)
    linarith
  · have h1 : 860 / 1000 < Real.sqrt x := Real.lt_sqrt_of_sq_lt (by norm_num; linarith)
    have h3 : 1153 / 1000 < Real.sqrt (9 * x / 5) := Real.lt_sqrt_of_sq_lt (by norm_num; linarith)
    linarith
  · have h1 : Real.sqrt x < 861 / 1000 := (Real.sqrt_lt' (by norm_num)).2 (by norm_num; linarith)
    have h3 : Real.sqrt (9 * x / 5) < 1155 / 1000 := (Real.sqrt_lt' (by norm_num)).2 (by norm_num; linarith)
    linarith
  · unfold partition16
    simp only [h]
    rw [if_neg (not_lt.2 (by positivity))]
    have e1 : Real.sqrt (x * c ^ 2 / 5) = Real.sqrt (x / 5) * c := by
      rw [show x * c ^ 2 / 5 = x / 5 * c ^ 2 by ring, Real.sqrt_mul (by positivity), Real.sqrt_sq hc.le]
    have e2 : Real.sqrt (x * c ^ 2) = Real.sqrt x * c := by
      rw [Real.sqrt_mul hx0.le, Real.sqrt_sq hc.le]
    have e3 : Real.sqrt (9 * (x * c ^ 2) / 5) = Real.sqrt (9 * x / 5) * c := by
      rw [show 9 * (x * c ^ 2) / 5 = 9 * x / 5 * c ^ 2 by ring, Real.sqrt_mul (by positivity), Real.sqrt_sq hc.le]
    rw [e1, e2, e3]
    simp only [show ∀ u v : ℝ, (u * c + v * c) / 2 = (u + v) / 2 * c from fun u v => by ring]

/-- C62: a noiseless 16-QAM signal with the right symbol frequencies, any gain, any phase of every sample and any order is partitioned
correctly: class 2 is the middle ring. -/
theorem C62_noiseless (E : List ℂ) (c : ℝ) (hc : 0 < c) (h : Balanced16 c E) :
    ∀ (t : Nat) (e : ℂ), E[t]? = some e →
      (partition16 E).1[t]? = some (decide (‖e‖ ≠ c)) ∧ (partition16 E).2[t]? = some (decide (‖e‖ = c)) := by
  obtain ⟨m2, m4⟩ := h.moments
  obtain ⟨a, b, ha1, ha2, hb1, hb2, hp⟩ := partition16_moments E c hc m2 m4
  intro t e he
  have hmem : e ∈ E := List.mem_of_getElem? he
  have key : (decide (‖e‖ < a * c) || decide (b * c < ‖e‖)) = decide (‖e‖ ≠ c) := by
    obtain ⟨A, B, C, n, hn, hA, hB, hC, hpm, h1, h2, h3⟩ := h
    have := hpm.mem_iff.1 hmem
    simp only [List.mem_append] at this
    rcases this with hm | hm | hm
    · have hlt : ‖e‖ < 1 / 2 * c := lt_of_pow_lt_pow_left₀ 2 (by positivity) (by rw [h1 e hm]; nlinarith [sq_pos_of_pos hc])
      have h' : ‖e‖ < a * c := by nlinarith
      have h'' : ‖e‖ ≠ c := by intro h0; nlinarith
      simp [h', h'']
    · have heq : ‖e‖ = c := by
        have := h2 e hm
        exact (pow_left_inj₀ (norm_nonneg _) hc.le two_ne_zero).1 this
      have h' : ¬ ‖e‖ < a * c := by rw [heq]; nlinarith
      have h'' : ¬ b * c < ‖e‖ := by rw [heq]; nlinarith
      rw [decide_eq_false h', decide_eq_false h'', decide_eq_false (not_not.2 heq)]
      rfl
    · have hlt : 13 / 10 * c < ‖e‖ := lt_of_pow_lt_pow_left₀ 2 (norm_nonneg _) (by rw [h3 e hm]; nlinarith [sq_pos_of_pos hc])
      have h' : b * c < ‖e‖ := by nlinarith
      have h'' : ‖e‖ ≠ c := by intro h0; nlinarith
      simp [h', h'']
  have e1 : (partition16 E).1[t]? = some (decide (‖e‖ ≠ c)) := by
    rw [hp, List.getElem?_map, he, Option.map_some, key]
  refine ⟨e1, ?_⟩
  have h2 : (partition16 E).2 = (partition16 E).1.map not := rfl
  rw [h2, List.getElem?_map, e1]
  simp

example : (partition16 [1, ⟨1, 2⟩, 3 * I, ⟨2, -1⟩]).2 = [false, true, false, true] := by
  have h := C62_noiseless [1, ⟨1, 2⟩, 3 * I, ⟨2, -1⟩] (Real.sqrt 5) (by positivity) (by
    have h5 : Real.sqrt 5 ^ 2 = 5 := Real.sq_sqrt (by norm_num)
    refine ⟨[1], [⟨1, 2⟩, ⟨2, -1⟩], [3 * I], 1, one_pos, rfl, rfl, rfl, ?_, ?_, ?_, ?_⟩
    · exact ((List.Perm.swap _ _ _).cons _).cons _
    · simp [h5]
    · simp only [List.mem_cons, List.not_mem_nil, or_false, h5]
      rintro e (rfl | rfl) <;> rw [← Complex.normSq_eq_norm_sq, Complex.normSq_mk] <;> norm_num
    · simp only [List.mem_cons, List.not_mem_nil, or_false, h5]
      rintro e rfl
      rw [norm_mul, Complex.norm_I]
      norm_num)
  have hn : ∀ a b : ℝ, ‖(⟨a, b⟩ : ℂ)‖ = Real.sqrt (a * a + b * b) := by
    intro a b
    rw [Complex.norm_def, Complex.normSq_mk]
  have h1 : (1 : ℝ) ≠ Real.sqrt 5 := by
    intro h; have := congrArg (· ^ 2) h; norm_num at this
  have h3 : (3 : ℝ) ≠ Real.sqrt 5 := by
    intro h; have := congrArg (· ^ 2) h; norm_num at this
  have g0 := (h 0 1 rfl).2
  have g1 := (h 1 ⟨1, 2⟩ rfl).2
  have g2 := (h 2 (3 * I) rfl).2
  have g3 := (h 3 ⟨2, -1⟩ rfl).2
  have hl := (C62_exactly_one [1, ⟨1, 2⟩, 3 * I, ⟨2, -1⟩]).2.1
  rw [norm_one, decide_eq_false h1] at g0
  rw [hn, decide_eq_true (by norm_num)] at g1
  rw [norm_mul, Complex.norm_I, mul_one, show ‖(3 : ℂ)‖ = 3 by norm_num, decide_eq_false h3] at g2
  rw [hn, decide_eq_true (by norm_num)] at g3
  generalize (partition16 [1, ⟨1, 2⟩, 3 * I, ⟨2, -1⟩]).2 = l at *
  apply List.ext_getElem?
  intro i
  rcases i with _ | _ | _ | _ | i
  · exact g0
  · exact g1
  · exact g2
  · exact g3
  · rw [List.getElem?_eq_none (by rw [hl]; simp), List.getElem?_eq_none (by simp)]

/-! ### C91: the thresholds -/

/-- C91: the thresholds lie half way between the rings: with the moments of 16-QAM of power `c²`, a sample of the middle ring is still
assigned to class 2 if its amplitude is off by less than half of the distance to the next ring. -/
def C91_statement : Prop := ∀ (E : List ℂ) (c : ℝ), 0 < c → absMoment 2 E = c ^ 2 → absMoment 4 E = 33 / 25 * c ^ 4 →
  ∀ (t : Nat) (e : ℂ), E[t]? = some e → c ≤ ‖e‖ → ‖e‖ < (1 + Real.sqrt (9 / 5)) / 2 * c → (partition16 E).2[t]? = some true

/-- The outer threshold is always less than 1.01 times the radius of the middle ring, because 1.32, the kurtosis of 16-QAM, is passed as
QAM order: every sample that is one percent or more outside of the middle ring is assigned to class 1. -/
theorem C91_outer_threshold (E : List ℂ) (c : ℝ) (hc : 0 < c) (h2 : absMoment 2 E = c ^ 2) (h4 : absMoment 4 E = 33 / 25 * c ^ 4)
    (t : Nat) (e : ℂ) (he : E[t]? = some e) (hn : 101 / 100 * c ≤ ‖e‖) : (partition16 E).2[t]? = some false := by
  obtain ⟨a, b, ha1, ha2, hb1, hb2, hp⟩ := partition16_moments E c hc h2 h4
  have h3 : (partition16 E).2 = (partition16 E).1.map not := rfl
  have h' : b * c < ‖e‖ := by nlinarith
  rw [h3, hp, List.getElem?_map, List.getElem?_map, he]
  simp [h']

/-- What holds: between 0.7 and 1 times the radius of the middle ring. Missing: radii from 1.01 up to the middle between the rings, which
are assigned to the wrong class. -/
theorem C91_inner_partial (E : List ℂ) (c : ℝ) (hc : 0 < c) (h2 : absMoment 2 E = c ^ 2) (h4 : absMoment 4 E = 33 / 25 * c ^ 4)
    (t : Nat) (e : ℂ) (he : E[t]? = some e) (h1 : 7 / 10 * c ≤ ‖e‖) (hn : ‖e‖ ≤ c) : (partition16 E).2[t]? = some true := by
  obtain ⟨a, b, ha1, ha2, hb1, hb2, hp⟩ := partition16_moments E c hc h2 h4
  have h3 : (partition16 E).2 = (partition16 E).1.map not := rfl
  have h' : ¬ b * c < ‖e‖ := by push Not; nlinarith
  have h'' : ¬ ‖e‖ < a * c := by push Not; nlinarith
  rw [h3, hp, List.getElem?_map, List.getElem?_map, he]
  simp [h', h'']

theorem norm_sqrt_sq {x : ℝ} (hx : 0 ≤ x) : ‖((Real.sqrt x : ℝ) : ℂ)‖ ^ 2 = x := by
  rw [Complex.norm_real, Real.norm_of_nonneg (Real.sqrt_nonneg _), Real.sq_sqrt hx]

theorem C91_false : ¬ C91_statement := by
  intro h
  have hn : ∀ x : ℝ, 0 ≤ x → ‖((Real.sqrt x : ℝ) : ℂ)‖ ^ 4 = x ^ 2 := by
    intro x hx
    rw [show 4 = 2 * 2 from rfl, pow_mul, norm_sqrt_sq hx]
  set E : List ℂ := [((Real.sqrt (153 / 125) : ℝ) : ℂ), ((Real.sqrt (97 / 125) : ℝ) : ℂ), ((Real.sqrt (221 / 125) : ℝ) : ℂ),
    ((Real.sqrt (29 / 125) : ℝ) : ℂ)] with hE
  have h2 : absMoment 2 E = 1 ^ 2 := by
    unfold absMoment
    rw [hE]
    simp only [List.map_cons, List.map_nil, List.sum_cons, List.sum_nil, List.length_cons, List.length_nil]
    rw [norm_sqrt_sq (by norm_num), norm_sqrt_sq (by norm_num), norm_sqrt_sq (by norm_num), norm_sqrt_sq (by norm_num)]
    norm_num
  have h4 : absMoment 4 E = 33 / 25 * 1 ^ 4 := by
    unfold absMoment
    rw [hE]
    simp only [List.map_cons, List.map_nil, List.sum_cons, List.sum_nil, List.length_cons, List.length_nil]
    rw [hn _ (by norm_num), hn _ (by norm_num), hn _ (by norm_num), hn _ (by norm_num)]
    norm_num
  have hsq := norm_sqrt_sq (show (0 : ℝ) ≤ 153 / 125 by norm_num)
  have hnn := norm_nonneg ((Real.sqrt (153 / 125) : ℝ) : ℂ)
  have g1 := h E 1 one_pos h2 h4 0 _ rfl (by nlinarith) (by
    have : 134 / 100 < Real.sqrt (9 / 5) := Real.lt_sqrt_of_sq_lt (by norm_num)
    nlinarith)
  have g2 := C91_outer_threshold E 1 one_pos h2 h4 0 _ rfl (by nlinarith)
  rw [g1] at g2
  cases g2

/-! ### C89: output of the partition phase recovery -/

/-- C89: the returned field is the input with the returned phase removed, as for the other phase recovery functions. -/
def C89_statement : Prop := ∀ (E : List ℂ) (Nblock : Nat) (out : List (List ℂ)) (ph : List (List ℝ)),
  phasePartition16 [E] Nblock = .ok (out, ph) →
  ∀ (t : Nat) (e : ℂ) (p : ℝ), E[t]? = some e → (ph.getD 0 [])[t]? = some p →
    (out.getD 0 [])[t]? = some (e * Complex.exp (-(I * (p : ℂ))))

theorem length_phiEst16 (E : List ℂ) (N : Nat) (hN : 1 ≤ N) : (phiEst16 E N).length = E.length := by
  unfold phiEst16
  simp only [List.length_flatMap, List.length_replicate, List.length_take, List.length_drop, List.length_zip, (C62_exactly_one E).1,
    Nat.min_self]
  have key : ∀ n, ((List.range n).map fun i => min N (E.length - i * N)).sum = min (n * N) E.length := by
    intro n
    induction n with
    | zero => simp
    | succ n ih =>
      rw [List.range_succ, List.map_append, List.sum_append, ih]
      simp only [List.map_cons, List.map_nil, List.sum_cons, List.sum_nil, add_zero, Nat.succ_mul]
      omega
  rw [key]
  have h2 := Nat.div_add_mod (E.length + N - 1) N
  have h3 := Nat.mod_lt (E.length + N - 1) (show 0 < N by omega)
  rw [Nat.mul_comm] at h2
  omega

/-- What holds: the field of every mode is rotated by minus four times the phase returned for the *last* mode, and negated; amplitudes do
not change. Missing: rotation by the phase itself, and by the phase of its own mode. -/
theorem C89_fourfold_partial (E : List (List ℂ)) (L N : Nat) (hN : 1 ≤ N) (hE : E ≠ []) (hL : ∀ r ∈ E, r.length = L) :
    ∃ out ph, phasePartition16 E N = .ok (out, ph) ∧ out.length = E.length ∧ ph.length = E.length ∧ (∀ r ∈ ph, r.length = L) ∧
      ∀ (m t : Nat) (r : List ℂ) (e : ℂ) (q : List ℝ) (p : ℝ), E[m]? = some r → r[t]? = some e → ph.getLast? = some q → q[t]? = some p →
        ∃ r', out[m]? = some r' ∧ r'.length = L ∧ r'[t]? = some (-(e * Complex.exp (-(4 * (I * (p : ℂ)))))) := by
  obtain ⟨last, hlast⟩ : ∃ last, E.getLast? = some last := ⟨E.getLast hE, List.getLast?_eq_some_getLast hE⟩
  have hll : last.length = L := hL _ (List.mem_of_getLast? hlast)
  unfold phasePartition16
  rw [hlast]
  simp only
  rw [if_neg (by omega)]
  refine ⟨_, _, rfl, by simp, by simp, ?_, ?_⟩
  · intro r hr
    obtain ⟨r0, hr0, rfl⟩ := List.mem_map.1 hr
    simp [length_phiEst16 _ _ hN, hL r0 hr0]
  · intro m t r e q p hr he hq hp
    have hrl : r.length = L := hL r (List.mem_of_getElem? hr)
    refine ⟨_, by rw [List.getElem?_map, hr, Option.map_some], by simp [length_phiEst16 _ _ hN, hrl, hll], ?_⟩
    rw [List.getLast?_map, hlast, Option.map_some, Option.some.injEq] at hq
    subst hq
    have ht : t < L := by rw [← hrl]; exact (List.getElem?_eq_some_iff.1 he).1
    have htp : (phiEst16 last N)[t]? = some ((phiEst16 last N)[t]'(by rw [length_phiEst16 _ _ hN]; omega)) := List.getElem?_eq_getElem _
    obtain ⟨k, hk⟩ := unwrap_mul _ _ _ htp
    rw [List.getElem?_map, hk, Option.map_some, Option.some.injEq] at hp
    rw [List.getElem?_zipWith, he, htp, Option.some.injEq]
    set φ := (phiEst16 last N)[t]'(by rw [length_phiEst16 _ _ hN]; omega)
    rw [← hp]
    have e1 : -(4 * (I * (((φ + 2 * Real.pi * k) / 4 - Real.pi / 4 : ℝ) : ℂ))) = -I * (φ : ℂ) + Real.pi * I + ((-k : ℤ) : ℂ) * (2 * Real.pi * I) := by
      push_cast; ring
    rw [e1, Complex.exp_add, Complex.exp_int_mul_two_pi_mul_I, Complex.exp_add, Complex.exp_pi_mul_I]
    ring

theorem C89_amplitude (E : List (List ℂ)) (L N : Nat) (hN : 1 ≤ N) (hE : E ≠ []) (hL : ∀ r ∈ E, r.length = L) :
    ∃ out ph, phasePartition16 E N = .ok (out, ph) ∧ out.map (List.map norm) = E.map (List.map norm) := by
  obtain ⟨out, ph, h1, h2, h3, h4, h5⟩ := C89_fourfold_partial E L N hN hE hL
  refine ⟨out, ph, h1, ?_⟩
  have hph : ph ≠ [] := by
    rintro rfl
    exact hE (List.length_eq_zero_iff.1 h3.symm)
  obtain ⟨q, hq⟩ : ∃ q, ph.getLast? = some q := ⟨ph.getLast hph, List.getLast?_eq_some_getLast hph⟩
  have hql := h4 q (List.mem_of_getLast? hq)
  apply List.ext_getElem (by simp [h2])
  intro m hm1 hm2
  rw [List.getElem_map, List.getElem_map]
  rw [List.length_map] at hm1 hm2
  have hEm : E[m].length = L := hL _ (List.getElem_mem _)
  have hom : out[m].length = L := by
    rcases Nat.eq_zero_or_pos L with h0 | h0
    · have hz : out[m] = List.zipWith (fun (e : ℂ) (p : ℝ) => e * Complex.exp (-I * (p : ℂ))) E[m] (phiEst16 (E.getLast hE) N) := by
        unfold phasePartition16 at h1
        rw [List.getLast?_eq_some_getLast hE] at h1
        simp only at h1
        rw [if_neg (by omega)] at h1
        have := congrArg Prod.fst (Except.ok.inj h1)
        simp only at this
        subst this
        rw [List.getElem_map]
      rw [hz, List.length_zipWith, hEm, h0, Nat.zero_min]
    · obtain ⟨r', g1, g2, _⟩ := h5 m 0 E[m] (E[m]'hm2)[0] q (q[0]'(by omega)) (List.getElem?_eq_getElem _) (List.getElem?_eq_getElem (by omega)) hq
        (List.getElem?_eq_getElem _)
      rw [List.getElem?_eq_getElem hm1, Option.some.injEq] at g1
      rw [g1, g2]
  apply List.ext_getElem (by simp [hEm, hom])
  intro t ht1 ht2
  rw [List.length_map] at ht1 ht2
  rw [List.getElem_map, List.getElem_map]
  obtain ⟨r', g1, g2, g3⟩ := h5 m t E[m] (E[m]'hm2)[t] q (q[t]'(by omega)) (List.getElem?_eq_getElem _) (List.getElem?_eq_getElem (by omega)) hq
    (List.getElem?_eq_getElem _)
  rw [List.getElem?_eq_getElem hm1, Option.some.injEq] at g1
  subst g1
  rw [List.getElem?_eq_getElem ht1, Option.some.injEq] at g3
  rw [g3, norm_neg, norm_mul, show -(4 * (I * ((q[t]'(by omega) : ℝ) : ℂ))) = ((-(4 * q[t]'(by omega)) : ℝ) : ℂ) * I by push_cast; ring,
    Complex.norm_exp_ofReal_mul_I, mul_one]

theorem exp_dphi16 : Complex.exp (I * (dphi16 : ℂ)) ^ 4 = ⟨-7 / 25, -24 / 25⟩ := by
  have h1 : Complex.exp (I * (dphi16 : ℂ)) ^ 2 = ⟨-3 / 5, 4 / 5⟩ := by
    have e : Complex.exp (I * (dphi16 : ℂ)) ^ 2 = Complex.exp (((2 * dphi16 : ℝ) : ℂ) * I) := by
      rw [← Complex.exp_nat_mul]; congr 1; push_cast; ring
    have e2 : 2 * dphi16 = 2 * Real.arctan (1 / 3) + Real.pi / 2 := by unfold dphi16; ring
    have hc : Real.cos (Real.arctan (1 / 3)) ^ 2 = 9 / 10 := by rw [Real.cos_sq_arctan]; norm_num
    have hs : Real.sin (Real.arctan (1 / 3)) = Real.cos (Real.arctan (1 / 3)) / 3 := by
      have h := Real.tan_arctan (1 / 3)
      rw [Real.tan_eq_sin_div_cos, div_eq_iff (Real.cos_arctan_pos _).ne'] at h
      rw [h]; ring
    rw [e, Complex.exp_mul_I, ← Complex.ofReal_cos, ← Complex.ofReal_sin, e2, Real.cos_add_pi_div_two, Real.sin_add_pi_div_two,
      Real.sin_two_mul, Real.cos_two_mul, hs, hc]
    clear hs e e2
    generalize Real.cos (Real.arctan (1 / 3)) = y at hc ⊢
    apply Complex.ext
    · simp
      linear_combination (-(2 / 3) : ℝ) * hc
    · simp
      norm_num
  rw [show 4 = 2 * 2 from rfl, pow_mul, h1]
  apply Complex.ext
  · rw [pow_two, Complex.mul_re]; norm_num
  · rw [pow_two, Complex.mul_im]; norm_num

theorem C89_false : ¬ C89_statement := by
  intro h
  obtain ⟨hl, _, _⟩ := C62_exactly_one [1]
  obtain ⟨b, hb⟩ : ∃ b, (partition16 [1]).1 = [b] := List.length_eq_one_iff.1 hl
  set φ := blockPhase16 [(1, b)] with hφ
  have hest : phiEst16 [1] 1 = [φ] := by
    unfold phiEst16
    simp only [hb]
    rfl
  have hph : phasePartition16 [[1]] 1 = .ok ([[1 * Complex.exp (-I * (φ : ℂ))]], [[φ / 4 - Real.pi / 4]]) := by
    unfold phasePartition16
    simp only [List.getLast?_singleton, List.map_cons, List.map_nil, hest]
    rfl
  have h1 := h [1] 1 _ _ hph 0 1 (φ / 4 - Real.pi / 4) rfl rfl
  have h2 : Complex.exp (-I * (φ : ℂ)) = Complex.exp (-(I * ((φ / 4 - Real.pi / 4 : ℝ) : ℂ))) := by
    simpa using h1
  -- the phase is its own fourfold
  have h4 : Complex.exp (-(I * ((φ / 4 - Real.pi / 4 : ℝ) : ℂ))) ^ 4 = -Complex.exp (-I * (φ : ℂ)) := by
    rw [← Complex.exp_nat_mul]
    have : ((4 : ℕ) : ℂ) * -(I * ((φ / 4 - Real.pi / 4 : ℝ) : ℂ)) = -I * (φ : ℂ) + Real.pi * I := by push_cast; ring
    rw [this, Complex.exp_add, Complex.exp_pi_mul_I]; ring
  rw [← h2] at h4
  set u := Complex.exp (-I * (φ : ℂ)) with hu
  have hu0 : u ≠ 0 := Complex.exp_ne_zero _
  have h3 : u ^ 3 = -1 := by
    apply mul_right_cancel₀ hu0
    linear_combination h4
  rcases b with _ | _
  · -- class two
    have hz : φ = Complex.arg ⟨7 / 25, -24 / 25⟩ := by
      rw [hφ]
      unfold blockPhase16
      have g1 : (Complex.exp (I * (dphi16 : ℂ))) ^ 4 = ⟨-7 / 25, -24 / 25⟩ := exp_dphi16
      have g2 : (Complex.exp (I * ((-dphi16 : ℝ) : ℂ))) ^ 4 = ⟨-7 / 25, 24 / 25⟩ := by
        have : Complex.exp (I * ((-dphi16 : ℝ) : ℂ)) = (starRingEnd ℂ) (Complex.exp (I * (dphi16 : ℂ))) := by
          rw [← Complex.exp_conj, map_mul, Complex.conj_I, Complex.conj_ofReal]
          congr 1; push_cast; ring
        rw [this, ← map_pow, g1]
        apply Complex.ext <;> simp <;> norm_num
      simp only [List.map_cons, List.map_nil, List.sum_cons, List.sum_nil, List.filter_cons, Bool.not_false, if_true, List.filter_nil, one_mul,
        Bool.false_eq_true, if_false, add_zero, zero_add, zero_sub, g1, g2]
      congr 1
      unfold complexMin
      rw [if_pos]
      · apply Complex.ext <;> (simp; try norm_num)
      · right
        constructor
        · simp
        · simp; norm_num
    have hn : ‖(⟨7 / 25, -24 / 25⟩ : ℂ)‖ = 1 := by
      rw [Complex.norm_def, Complex.normSq_mk]; norm_num
    have he := Complex.norm_mul_exp_arg_mul_I (⟨7 / 25, -24 / 25⟩ : ℂ)
    rw [hn, Complex.ofReal_one, one_mul, ← hz] at he
    have hu' : u * (⟨7 / 25, -24 / 25⟩ : ℂ) = 1 := by
      rw [hu, ← he, ← Complex.exp_add, show -I * (φ : ℂ) + (φ : ℂ) * I = 0 by ring, Complex.exp_zero]
    have h5 : (⟨7 / 25, -24 / 25⟩ : ℂ) ^ 3 = -1 := by
      have : (u * (⟨7 / 25, -24 / 25⟩ : ℂ)) ^ 3 = 1 := by rw [hu', one_pow]
      rw [mul_pow, h3] at this
      linear_combination -this
    have h6 := congrArg Complex.re h5
    rw [pow_succ, pow_two, Complex.mul_re, Complex.mul_re, Complex.mul_im] at h6
    norm_num at h6
  · have hz : φ = 0 := by
      rw [hφ]
      unfold blockPhase16
      simp
    rw [hu, hz] at h3
    norm_num at h3

example : ∃ out ph, phasePartition16 [[1, I, 3], [2, 1, 0]] 2 = .ok (out, ph) ∧ out.map (List.map norm) = [[1, 1, 3], [2, 1, 0]] := by
  obtain ⟨out, ph, h1, h2⟩ := C89_amplitude [[1, I, 3], [2, 1, 0]] 3 2 (by norm_num) (by simp) (by simp)
  exact ⟨out, ph, h1, by rw [h2]; simp⟩

end Qampy
