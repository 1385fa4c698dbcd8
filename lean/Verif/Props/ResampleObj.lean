import Verif.Model.ResampleObj
import Verif.Props.ResampleTime
import Verif.Props.Resample
import Verif.Props.Waveform

/-!
C201: power and duration of resampled signals.
-/

namespace Qampy

/-- `y` has mean zero and the mean power of `x`. -/
def SamePower (x y : List ℂ) : Prop := y.sum = 0 ∧ (y.map fun z => ‖z‖ ^ 2).sum / y.length = (x.map fun z => ‖z‖ ^ 2).sum / x.length

theorem meanR_cabsq (x : List ℂ) : meanR (x.map cabsq) = (x.map fun z => ‖z‖ ^ 2).sum / x.length := by
  unfold meanR
  rw [List.length_map]
  congr 2
  exact List.map_congr_left fun z _ => cabsq_eq z

theorem not_constant_of_normRow {x y : List ℂ} (h : normRow x = some y) : ∃ a ∈ x, ∃ b ∈ x, a ≠ b := by
  by_contra hc
  push Not at hc
  rcases x with _ | ⟨a, l⟩
  · simp [normRow, meanR] at h
  · have : a :: l = List.replicate (a :: l).length a := List.eq_replicate_of_mem fun b hb => hc b hb a (by simp)
    rw [this, C44_constant_fails] at h
    exact absurd h (by simp)

theorem renormTo_power {x y out : List ℂ} (h : renormTo x y = some out) : SamePower x out := by
  unfold renormTo at h
  obtain ⟨z, h1, h2⟩ := Option.map_eq_some_iff.1 h
  obtain ⟨z', h3, h4, -⟩ := normRow_spec (not_constant_of_normRow h1)
  obtain rfl : z = z' := by rw [h1] at h3; exact Option.some.inj h3
  obtain ⟨g1, g2, g3⟩ := h4
  have hp : 0 ≤ meanR (x.map cabsq) := by
    rw [meanR_cabsq]
    exact div_nonneg (sum_map_nonneg' _ _ fun _ _ => by positivity) (Nat.cast_nonneg _)
  subst h2
  constructor
  · rw [List.sum_map_mul_right, List.map_id', g2, zero_mul]
  · have hl : (z.length : ℝ) ≠ 0 := by simpa using g1
    rw [List.map_map, List.length_map, ← meanR_cabsq]
    have e : ((fun w : ℂ => ‖w‖ ^ 2) ∘ fun w : ℂ => w * ((Real.sqrt (meanR (x.map cabsq)) : ℝ) : ℂ)) = fun w => ‖w‖ ^ 2 * meanR (x.map cabsq) := by
      funext w
      simp only [Function.comp]
      rw [norm_mul, mul_pow, Complex.norm_real, Real.norm_eq_abs, sq_abs, Real.sq_sqrt hp]
    rw [e, List.sum_map_mul_right, g3, mul_div_assoc, mul_comm, div_mul_cancel₀ _ hl]

/-- C201: with `renormalise=True` the resampled signal has mean zero and the mean power of the original one, for all other options. -/
def C201_statement : Prop := ∀ (dflt : Nat → Nat → List ℝ) (fftconv : Bool) (up down : Nat) (fold : ℝ) (Ts beta : Option ℝ) (taps : Nat) (sig out : List ℂ),
  rrcosResampleAll dflt fftconv true up down fold Ts beta taps sig = .ok (some out) → SamePower sig out

/-- C201: this holds whenever a roll-off is given. -/
theorem C201_power_partial (dflt : Nat → Nat → List ℝ) (fftconv : Bool) (up down : Nat) (fold b : ℝ) (Ts : Option ℝ) (taps : Nat) (sig out : List ℂ)
    (h : rrcosResampleAll dflt fftconv true up down fold Ts (some b) taps sig = .ok (some out)) : SamePower sig out := by
  unfold rrcosResampleAll at h
  dsimp only at h
  cases hr : rrcosResampleTaps fftconv up down fold (Ts.getD (1 / fold)) b taps sig with
  | error e => rw [hr] at h; exact absurd h (by intro h; cases h)
  | ok y =>
    rw [hr] at h
    have h := Except.ok.inj h
    cases y with
    | none => exact absurd h (by simp)
    | some y => exact renormTo_power h

/-- C201: the same for `resample_poly`, with every window. -/
theorem C201_poly (dflt : Nat → Nat → List ℝ) (window : Option (List ℝ)) (up down : Nat) (sig out : List ℂ) (h : resamplePoly dflt window true up down sig = .ok (some out)) : SamePower sig out := by
  unfold resamplePoly at h
  split_ifs at h with h0 h1
  · exact renormTo_power (Except.ok.inj h)
  · exact absurd rfl h1

/-- C201: without roll-off the option has no effect. -/
theorem C201_ignored (dflt : Nat → Nat → List ℝ) (fftconv : Bool) (up down : Nat) (fold : ℝ) (Ts : Option ℝ) (taps : Nat) (sig : List ℂ) :
    rrcosResampleAll dflt fftconv true up down fold Ts none taps sig = rrcosResampleAll dflt fftconv false up down fold Ts none taps sig := rfl

/-- Equal rates without roll-off: the mean is kept. -/
theorem C201_false : ¬ C201_statement := by
  intro h
  have h1 := (h (fun _ _ => [1]) true 1 1 1 none none 2 [1, 2] [1, 2] (by simp [rrcosResampleAll, resamplePoly, scipyResamplePoly])).1
  norm_num at h1

/-- C201: with normalisation both algorithms give the same signal (see C128 for the result without), for different rates. -/
theorem C201_same (dflt : Nat → Nat → List ℝ) (up down taps : Nat) (fold T b : ℝ) (hup : 1 ≤ up) (hd : 1 ≤ down) (hne : ¬ (up = 1 ∧ down = 1)) (hf : 0 < fold) (hT : 0 < T) (hb : 0 < b) (hb1 : b ≤ 1) (hos : b ≤ up * fold * T)
    (htaps : 2 ≤ taps) (sig : List ℂ) :
    rrcosResampleAll dflt true true up down fold (some T) (some b) taps sig = rrcosResampleAll dflt false true up down fold (some T) (some b) taps sig := by
  obtain ⟨y, h1, h2⟩ := C128_scaled_partial up down taps fold T b hup hd hne hf hT hb hb1 hos htaps sig
  unfold rrcosResampleAll
  simp only [Option.getD_some, h1, h2]
  change Except.ok (renormTo sig y) = Except.ok (renormTo sig (y.map fun z => (up : ℂ) * z))
  congr 1
  unfold renormTo
  have hup' : (0 : ℝ) < up := by exact_mod_cast hup
  have := normRow_affine y (up : ℝ) hup' 0
  simp only [add_zero, Complex.ofReal_natCast] at this
  rw [this]

theorem length_scipyResamplePoly {up down : Nat} (hd : 1 ≤ down) {h : List ℝ} (hh : h ≠ []) (x : List ℂ) : (scipyResamplePoly h x up down).length = (up * x.length + down - 1) / down := by
  by_cases hne : up = 1 ∧ down = 1
  · obtain ⟨rfl, rfl⟩ := hne
    simp [scipyResamplePoly]
  · obtain ⟨n, f, rfl⟩ : ∃ (n : Nat) (f : Fin n → ℂ), x = List.ofFn f := ⟨x.length, x.get, (List.ofFn_get x).symm⟩
    have e : h = (List.range h.length).map fun i => h.getD i 0 := by
      apply List.ext_getElem
      · simp
      · intro i h1 h2
        simp [List.getD, List.getElem?_eq_getElem h1]
    rw [e, poly_path hd (List.length_pos_of_ne_nil hh) _ _ hne]
    simp

/-- C201: with a given filter, output sample `k` of `resample_poly` is the sum of the input samples weighted with that filter, centred at the output sample; the filter that scipy would design plays no role. -/
theorem C201_window (dflt : Nat → Nat → List ℝ) (h : List ℝ) (hh : h ≠ []) (up down : Nat) (hup : 1 ≤ up) (hd : 1 ≤ down) (hne : ¬ (up = 1 ∧ down = 1)) {n : Nat} (x : Fin n → ℂ) :
    ∃ out, resamplePoly dflt (some h) false up down (List.ofFn x) = .ok (some out) ∧ out.length = (up * n + down - 1) / down ∧
      ∀ k < out.length, out.getD k 0 = up * ∑ q : Fin n, (if 0 ≤ (k * down : Int) + ((h.length - 1) / 2 : ℕ) - q * up then (h.getD ((k * down : Int) + ((h.length - 1) / 2 : ℕ) - q * up).toNat 0 : ℂ) else 0) * x q := by
  have e : h = (List.range h.length).map fun i => h.getD i 0 := by
    apply List.ext_getElem
    · simp
    · intro i h1 h2
      simp [List.getD, List.getElem?_eq_getElem h1]
  have hp := poly_path hd (List.length_pos_of_ne_nil hh) (fun i => h.getD i 0) x hne
  rw [← e] at hp
  refine ⟨_, ?_, length_scipyResamplePoly hd hh (List.ofFn x) |>.trans (by rw [List.length_ofFn]), ?_⟩
  · unfold resamplePoly
    rw [if_neg (by omega)]
    rfl
  · intro k hk
    rw [hp, List.length_ofFn] at hk
    rw [hp, List.getD_eq_getElem?_getD, List.getElem?_ofFn, dif_pos hk, Option.getD_some, Finset.mul_sum]
    refine Finset.sum_congr rfl fun q _ => ?_
    have hl := List.length_pos_of_ne_nil hh
    dsimp only
    by_cases hq : -(((h.length - 1) / 2 : ℕ) : ℤ) ≤ ((k * down : ℕ) : ℤ) - (q * up : ℕ)
    · have hi : ((k * down : Int) + ((h.length - 1) / 2 : ℕ) - q * up).toNat = k * down + (h.length - 1) / 2 - q * up := by
        have : ((k * down : Int) + ((h.length - 1) / 2 : ℕ) - q * up) = (k * down : ℕ) + ((h.length - 1) / 2 : ℕ) - (q * up : ℕ) := by push_cast; ring
        omega
      rw [if_pos (show 0 ≤ (k * down : Int) + ((h.length - 1) / 2 : ℕ) - q * up by push_cast at hq ⊢; linarith), hi]
      by_cases h2 : ((k * down : ℕ) : ℤ) - (q * up : ℕ) ≤ (h.length / 2 : ℕ)
      · rw [if_pos ⟨hq, h2⟩]
        ring
      · rw [if_neg (fun h => h2 h.2), List.getD_eq_getElem?_getD, List.getElem?_eq_none (by omega)]
        simp
    · rw [if_neg (fun h => hq h.1), if_neg (by push_cast at hq ⊢; linarith)]
      simp

/-- Doubling the rate with a window of three taps. -/
example : ∃ out, resamplePoly (fun _ _ => [1]) (some [1 / 4, 1 / 2, 1 / 4]) false 2 1 (List.ofFn ![1, 3]) = .ok (some out) ∧ out = [1, 2, 3, (3 / 2 : ℂ)] := by
  obtain ⟨out, h1, h2, h3⟩ := C201_window (fun _ _ => [1]) [1 / 4, 1 / 2, 1 / 4] (by simp) 2 1 (by norm_num) (by norm_num) (by norm_num) (![1, 3] : Fin 2 → ℂ)
  refine ⟨out, h1, ?_⟩
  norm_num at h2
  obtain ⟨a, b, c, d, rfl⟩ : ∃ a b c d, out = [a, b, c, d] := by
    match out, h2 with
    | [a, b, c, d], _ => exact ⟨a, b, c, d, rfl⟩
  have g0 := h3 0 (by simp)
  have g1 := h3 1 (by simp)
  have g2 := h3 2 (by simp)
  have g3 := h3 3 (by simp)
  have e2 : Int.toNat 2 = 2 := rfl
  norm_num [Fin.sum_univ_two, List.getD] at g0 g1 g2 g3
  simp only [e2] at g1 g3
  subst g0 g1 g2 g3
  norm_num

theorem length_renormTo {x y out : List ℂ} (h : renormTo x y = some out) : out.length = y.length := by
  unfold renormTo normRow at h
  dsimp only at h
  split_ifs at h
  · simp at h
  · have := Option.some.inj h
    rw [← this]
    simp

/-- The options of `resample` for which the filter exists. -/
structure ResampleOk (dflt : Nat → Nat → List ℝ) (up : Nat) (fold : ℝ) (Ts beta : Option ℝ) (taps : Nat) : Prop where
  window : ∀ a b, dflt a b ≠ []
  rate : 0 < fold
  width : ∀ T ∈ Ts, 0 < T
  rolloff : ∀ b ∈ beta, 0 < b ∧ b ≤ 1 ∧ b ≤ up * fold * Ts.getD (1 / fold)
  taps : 2 ≤ taps

theorem rrcosResampleAll_length {dflt : Nat → Nat → List ℝ} {up down taps : Nat} {fold : ℝ} {Ts beta : Option ℝ} (h : ResampleOk dflt up fold Ts beta taps) (hup : 1 ≤ up) (hd : 1 ≤ down) (fftconv renormalise : Bool)
    (sig : List ℂ) : ∃ r, rrcosResampleAll dflt fftconv renormalise up down fold Ts beta taps sig = .ok r ∧ (renormalise = false → r.isSome) ∧ ∀ out ∈ r, out.length = (up * sig.length + down - 1) / down := by
  unfold rrcosResampleAll
  cases beta with
  | none =>
    dsimp only
    unfold resamplePoly
    rw [if_neg (by omega)]
    refine ⟨_, rfl, by simp, ?_⟩
    intro out ho
    simp only [Bool.false_eq_true, if_false, Option.mem_def, Option.some.injEq] at ho
    rw [← ho]
    exact length_scipyResamplePoly hd (h.window up down) sig
  | some b =>
    obtain ⟨hb, hb1, hos⟩ := h.rolloff b rfl
    have hT : 0 < Ts.getD (1 / fold) := by
      cases Ts with
      | none => exact one_div_pos.2 h.rate
      | some T => exact h.width T rfl
    obtain ⟨y, hy, hl⟩ : ∃ y, rrcosResampleTaps fftconv up down fold (Ts.getD (1 / fold)) b taps sig = .ok (some y) ∧ y.length = (up * sig.length + down - 1) / down := by
      obtain ⟨g, -, -, -, -, h4⟩ := C127_pulse_train up down taps fold (Ts.getD (1 / fold)) b hup hd h.rate hT hb hb1 hos h.taps _ rfl
      obtain ⟨n, f, rfl⟩ : ∃ (n : Nat) (f : Fin n → ℂ), sig = List.ofFn f := ⟨sig.length, sig.get, (List.ofFn_get sig).symm⟩
      have h5 := h4 n f
      cases fftconv with
      | true => exact ⟨_, h5, by simp⟩
      | false =>
        by_cases hne : up = 1 ∧ down = 1
        · obtain ⟨rfl, rfl⟩ := hne
          exact ⟨_, C128_copy taps fold _ b h.rate hT hb hb1 (by simpa using hos) h.taps _, by simp⟩
        · obtain ⟨out, g1, g2⟩ := C128_scaled_partial up down taps fold _ b hup hd hne h.rate hT hb hb1 hos h.taps (List.ofFn f)
          refine ⟨_, g2, ?_⟩
          rw [g1] at h5
          have := Option.some.inj (Except.ok.inj h5)
          rw [List.length_map, this]
          simp
    dsimp only
    rw [hy]
    refine ⟨_, rfl, ?_, ?_⟩
    · rintro rfl
      simp
    · intro out ho
      simp only [Option.bind_some, Option.mem_def] at ho
      split_ifs at ho with hr
      · rw [length_renormTo ho, hl]
      · rw [← Option.some.inj ho, hl]

/-- The duration of a row at a sampling rate is kept to within one new sample. -/
def SameDuration (fs fnew : ℝ) (x y : List ℂ) : Prop := |(y.length : ℝ) / fnew - x.length / fs| < 1 / fnew

/-- C201: resampling a signal object keeps the duration of every mode to within one sample of the new rate. -/
def C201_duration_statement : Prop := ∀ (dflt : Nat → Nat → List ℝ) (fftconv renormalise : Bool) (Ts beta : Option ℝ) (taps : Nat) (x : ℚ) (fnew : ℝ) (s out : RateSignal),
  0 < s.fs → 0 < fnew → (x : ℝ) = fnew / s.fs → x.den ≤ 1000000 → ResampleOk dflt x.num.toNat s.fs (some (Ts.getD (1 / s.fb))) beta taps →
  objResample dflt fftconv renormalise Ts beta taps x fnew s = .ok (some out) → out.fs = fnew ∧ out.fb = s.fb ∧ List.Forall₂ (SameDuration s.fs fnew) s.data out.data

theorem forall2_mapM_ok {α β : Type _} {P : α → β → Prop} {f : α → Except PyErr (Option β)} : ∀ (l : List α), (∀ a ∈ l, ∃ r, f a = .ok r ∧ ∀ b ∈ r, P a b) →
    ∃ rs, l.mapM f = .ok rs ∧ ∀ d, rs.mapM id = some d → List.Forall₂ P l d := by
  intro l
  induction l with
  | nil =>
    intro _
    refine ⟨[], rfl, ?_⟩
    intro d hd
    have : d = [] := by
      have h : some [] = some d := hd
      exact (Option.some.inj h).symm
    rw [this]
    exact List.Forall₂.nil
  | cons a l ih =>
    intro h
    obtain ⟨r, h1, h2⟩ := h a (by simp)
    obtain ⟨rs, h3, h4⟩ := ih fun b hb => h b (by simp [hb])
    refine ⟨r :: rs, ?_, ?_⟩
    · rw [List.mapM_cons, h1, h3]
      rfl
    · intro d hd
      rw [List.mapM_cons] at hd
      cases r with
      | none => exact absurd hd (by simp)
      | some b =>
        cases hr : rs.mapM id with
        | none => rw [hr] at hd; exact absurd hd (by simp)
        | some d' =>
          rw [hr] at hd
          have h : some (b :: d') = some d := hd
          rw [← Option.some.inj h]
          exact List.Forall₂.cons (h2 b rfl) (h4 d' hr)

theorem duration_of_length {fs fnew : ℝ} (hs : 0 < fs) (hn : 0 < fnew) {up down : Nat} (hd : 1 ≤ down) (hx : fnew / fs = (up : ℝ) / down) {x y : List ℂ} (hl : y.length = (up * x.length + down - 1) / down) :
    SameDuration fs fnew x y := by
  unfold SameDuration
  have hd' : (0 : ℝ) < down := by exact_mod_cast hd
  have h1 : down * y.length < up * x.length + down := by
    have := Nat.div_mul_le_self (up * x.length + down - 1) down
    rw [← hl, mul_comm] at this
    omega
  have h2 : up * x.length ≤ down * y.length := by
    have := Nat.lt_div_mul_add hd (a := up * x.length + down - 1)
    rw [← hl, mul_comm y.length] at this
    omega
  have h1' : (down : ℝ) * y.length < up * x.length + down := by exact_mod_cast h1
  have h2' : (up : ℝ) * x.length ≤ down * y.length := by exact_mod_cast h2
  have e : (y.length : ℝ) / fnew - x.length / fs = (down * y.length - up * x.length) / down / fnew := by
    have hfn : fnew = (up : ℝ) / down * fs := by rw [← hx]; field_simp
    have : (x.length : ℝ) / fs = up * x.length / down / fnew := by
      have hup : (up : ℝ) ≠ 0 := by
        rintro h0
        rw [h0] at hfn
        simp at hfn
        linarith
      rw [hfn]
      field_simp
    rw [this]
    field_simp
  rw [e, abs_of_nonneg (div_nonneg (div_nonneg (by linarith) hd'.le) hn.le), div_lt_div_iff_of_pos_right hn, div_lt_one hd']
  linarith

/-- C201: this holds for rates that are not nearly equal; the length of every mode is the smallest that covers the duration. -/
theorem C201_duration_partial (dflt : Nat → Nat → List ℝ) (fftconv renormalise : Bool) (Ts beta : Option ℝ) (taps : Nat) (x : ℚ) (fnew : ℝ) (s : RateSignal) (hs : 0 < s.fs) (hn : 0 < fnew) (hx : (x : ℝ) = fnew / s.fs)
    (hden : x.den ≤ 1000000) (hok : ResampleOk dflt x.num.toNat s.fs (some (Ts.getD (1 / s.fb))) beta taps) (hc : ¬ isCloseOne x) :
    ∃ r, objResample dflt fftconv renormalise Ts beta taps x fnew s = .ok r ∧ ∀ out ∈ r, out.fs = fnew ∧ out.fb = s.fb ∧ List.Forall₂ (SameDuration s.fs fnew) s.data out.data := by
  have hfac : resamplingFactors x = (x.num, x.den) := by
    refine C58_exact_ratio_partial x x hden ?_
    rw [sub_self, abs_zero]
    have : (0 : ℚ) < x.den := by exact_mod_cast x.den_pos
    positivity
  have hx0 : 0 < x := by
    have : (0 : ℝ) < x := by rw [hx]; positivity
    exact_mod_cast this
  have hnum : 0 < x.num := Rat.num_pos.2 hx0
  have hq : fnew / s.fs = ((x.num.toNat : ℕ) : ℝ) / (x.den : ℕ) := by
    rw [← hx]
    have h1 : ((x.num.toNat : ℕ) : ℤ) = x.num := Int.toNat_of_nonneg hnum.le
    have h2 : ((x.num.toNat : ℕ) : ℝ) = (x.num : ℝ) := by exact_mod_cast congrArg (fun z : ℤ => (z : ℝ)) h1
    rw [h2]
    exact Rat.cast_def x
  obtain ⟨rs, h1, h2⟩ := forall2_mapM_ok (P := SameDuration s.fs fnew) (f := fun r => rrcosResampleAll dflt fftconv renormalise x.num.toNat x.den s.fs (some (Ts.getD (1 / s.fb))) beta taps r) s.data (fun r _ => by
    obtain ⟨o, g1, -, g3⟩ := rrcosResampleAll_length hok (by omega) x.den_pos fftconv renormalise r
    exact ⟨o, g1, fun out ho => duration_of_length hs hn x.den_pos hq (g3 out ho)⟩)
  unfold objResample
  rw [if_neg hc, hfac, h1]
  refine ⟨_, rfl, ?_⟩
  intro out ho
  obtain ⟨d, hd, rfl⟩ := Option.map_eq_some_iff.1 ho
  exact ⟨rfl, rfl, h2 d hd⟩

/-- 400000 samples from rate 200000 to rate 200001: the samples are copied, two samples are missing. -/
theorem C201_duration_false : ¬ C201_duration_statement := by
  intro h
  have hclose : isCloseOne (200001 / 200000) := by unfold isCloseOne; rw [abs_le]; norm_num
  have hden : ((200001 / 200000 : ℚ)).den ≤ 1000000 := by
    have : ((200001 / 200000 : ℚ)).den = 200000 := by norm_num
    omega
  obtain ⟨-, -, h1⟩ := h (fun _ _ => [1]) true false none none 2 (200001 / 200000) 200001 ⟨200000, 200000, [List.replicate 400000 0]⟩ ⟨200000, 200001, [List.replicate 400000 0]⟩ (by norm_num) (by norm_num)
    (by norm_num) hden ⟨by simp, by norm_num, by simp, by simp, le_rfl⟩ (by unfold objResample; rw [if_pos hclose])
  rw [List.forall₂_cons] at h1
  have h2 := h1.1
  unfold SameDuration at h2
  rw [List.length_replicate] at h2
  norm_num at h2

/-- From rate 2 to rate 3 with normalisation: five samples from three. -/
example (dflt : Nat → Nat → List ℝ) (hd : ∀ a b, dflt a b ≠ []) : ∃ r, objResample dflt true true none (some (1 / 2)) 11 (3 / 2) 3 ⟨1, 2, [[1, 2, 4]]⟩ = .ok r ∧
    ∀ out ∈ r, out.fs = 3 ∧ out.fb = 1 ∧ List.Forall₂ (SameDuration 2 3) [[1, 2, 4]] out.data := by
  refine C201_duration_partial dflt true true none (some (1 / 2)) 11 (3 / 2) 3 ⟨1, 2, [[1, 2, 4]]⟩ (by norm_num) (by norm_num) (by norm_num) ?_ ⟨hd, by norm_num, by simp, ?_, by norm_num⟩ ?_
  · have : ((3 / 2 : ℚ)).den = 2 := by norm_num
    omega
  · have : ((3 / 2 : ℚ)).num.toNat = 3 := by norm_num; rfl
    rw [this]
    simp
    norm_num
  · unfold isCloseOne
    norm_num

/-- Both algorithms, doubling the rate of two samples. -/
example (dflt : Nat → Nat → List ℝ) : rrcosResampleAll dflt true true 2 1 1 (some 1) (some 1) 3 [1, 3] = rrcosResampleAll dflt false true 2 1 1 (some 1) (some 1) 3 [1, 3] :=
  C201_same dflt 2 1 3 1 1 1 (by norm_num) le_rfl (by norm_num) one_pos one_pos one_pos le_rfl (by norm_num) (by norm_num) _

/-- The normalised copy of two samples: mean zero, power 5/2. -/
example : ∃ out, resamplePoly (fun _ _ => [1]) none true 1 1 [1, 2] = .ok (some out) ∧ SamePower [1, 2] out := by
  obtain ⟨y, h, -⟩ := normRow_spec (x := [1, 2]) ⟨1, by simp, 2, by simp, by norm_num⟩
  have h1 : resamplePoly (fun _ _ => [1]) none true 1 1 [1, 2] = .ok (some (y.map fun z => z * (Real.sqrt (meanR (([1, 2] : List ℂ).map cabsq)) : ℝ))) := by
    simp [resamplePoly, scipyResamplePoly, renormTo, h]
  exact ⟨_, h1, C201_poly _ none 1 1 _ _ h1⟩

end Qampy
