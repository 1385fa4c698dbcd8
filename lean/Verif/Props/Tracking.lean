import Verif.Props.TrainDecide
import Verif.Props.Descent
import Mathlib.Analysis.SpecialFunctions.Trigonometric.Bounds

/-!
# C246: an equaliser with one tap follows a moving phase
-/

namespace Qampy

open Complex

/-- The received samples: symbols `s`, gain `g` and a phase `theta`, one value per symbol, at the sampling instants of the trainer. -/
def MovingPhase (x : List ℂ) (os N : Nat) (g : ℂ) (s : Nat → ℂ) (theta : Nat → ℝ) : Prop := ∀ i < N, x[i * os]? = some (g * s i * exp (I * (theta i : ℂ)))

theorem norm_exp_phase (a : ℝ) : ‖exp (I * (a : ℂ))‖ = 1 := by rw [mul_comm]; exact norm_exp_ofReal_mul_I a

/-- One step of the tap, seen at the output: `c` is the factor between symbols and output. -/
theorem tracking_step {c u : ℂ} {k kmin delta : ℝ} (hk1 : k ≤ 1) (hk : kmin ≤ k) (hu : ‖u‖ = 1) (hd : ‖u - 1‖ ≤ delta) :
    ‖(c + (k : ℂ) * (1 - c)) * u - 1‖ ≤ (1 - kmin) * ‖c - 1‖ + delta := by
  have e : (c + (k : ℂ) * (1 - c)) * u - 1 = ((1 - k : ℝ) : ℂ) * (c - 1) * u + (u - 1) := by push_cast; ring
  rw [e]
  refine (norm_add_le _ _).trans (add_le_add ?_ hd)
  rw [norm_mul, norm_mul, hu, mul_one, norm_real, Real.norm_of_nonneg (by linarith)]
  exact mul_le_mul_of_nonneg_right (by linarith) (norm_nonneg _)

/-- The trainer with one tap and an error function that gives `rho` times the distance to the symbol, as long as the output is within `r` of it. -/
theorem tracking_core {errf : ℂ → List ℂ → Nat → Option ℂ} {x : List ℂ} {N os : Nat} {g w0 : ℂ} {s : Nat → ℂ} {theta : Nat → ℝ} {symbs : List ℂ} {mu rho kmin delta r : ℝ}
    (hx : MovingPhase x os N g s theta)
    (herr : ∀ i < N, ∀ (c e : ℂ), ‖c - 1‖ ≤ r → errf (c * s i) symbs i = some e → e = (rho : ℂ) * (s i - c * s i))
    (hk : 0 < kmin) (hkap : ∀ i < N, kmin ≤ mu * rho * ‖g‖ ^ 2 * ‖s i‖ ^ 2 ∧ mu * rho * ‖g‖ ^ 2 * ‖s i‖ ^ 2 ≤ 1)
    (hth : ∀ i, i + 1 < N → |theta (i + 1) - theta i| ≤ delta) (hd : 0 ≤ delta) (h0 : ‖w0 * g * exp (I * (theta 0 : ℂ)) - 1‖ ≤ r) (hr : delta ≤ kmin * r) {res : TrainResult ℂ}
    (h : trainEqualiser errf adaptStep false [x] N 1 os mu [[[w0]]] 1 [0] [symbs] = some res) :
    ∃ (errs : List ℂ) (c : Nat → ℂ), res.err[0]? = some errs ∧ errs.length = N ∧ c 0 = w0 * g * exp (I * (theta 0 : ℂ)) ∧
      (∀ i < N, errs[i]? = some ((rho : ℂ) * (s i - c i * s i)) ∧ ‖c i - 1‖ ≤ r ∧ ‖c i - 1‖ ≤ (1 - kmin) ^ i * ‖c 0 - 1‖ + delta / kmin) ∧
      ∀ i, i + 1 < N → c (i + 1) = (c i + ((mu * rho * ‖g‖ ^ 2 * ‖s i‖ ^ 2 : ℝ) : ℂ) * (1 - c i)) * exp (I * ((theta (i + 1) - theta i : ℝ) : ℂ)) := by
  have hL : N = 0 ∨ (N - 1) * os + 1 ≤ x.length := by
    rcases Nat.eq_zero_or_pos N with h | h
    · exact .inl h
    · exact .inr (List.getElem?_eq_some_iff.1 (hx (N - 1) (by omega))).1
  obtain ⟨w, sy, errs, e1, e2, e3, e4, W, e5, -, e6⟩ := C94_equaliser (p := 1) (L := x.length) ⟨rfl, by simp⟩ (by simp [Rect]) (by simp) (by simp) hL h 0 (by simp)
  simp at e1 e2
  subst e1 e2
  rw [one_mul] at e4
  have hval : ∀ i < N, val2 [x] 0 (i * os) = g * s i * exp (I * (theta i : ℂ)) := fun i hi => by simp [val2, at2, hx i hi]
  set c : Nat → ℂ := fun i => val2 (W i) 0 0 * g * exp (I * (theta i : ℂ)) with hc
  have hc0 : c 0 = w0 * g * exp (I * (theta 0 : ℂ)) := by simp [hc, e5, val2, at2]
  have hout : ∀ i < N, firOutput [x] (W i) 1 1 os i = c i * s i := by
    intro i hi
    simp only [firOutput, Finset.sum_range_one, add_zero, hval i hi, hc]
    ring
  have hstep : ∀ i < N, ‖c i - 1‖ ≤ r → errs[i]? = some ((rho : ℂ) * (s i - c i * s i)) ∧
      (i + 1 < N → c (i + 1) = (c i + ((mu * rho * ‖g‖ ^ 2 * ‖s i‖ ^ 2 : ℝ) : ℂ) * (1 - c i)) * exp (I * ((theta (i + 1) - theta i : ℝ) : ℂ))) := by
    intro i hi hci
    have hg := List.getElem?_eq_getElem (show i < errs.length by omega)
    obtain ⟨f1, f2⟩ := e6 i _ hg
    rw [Nat.mod_eq_of_lt hi] at f1 f2
    rw [hout i hi] at f1
    have he := herr i hi _ _ hci f1
    rw [he] at hg f2
    refine ⟨hg, fun _ => ?_⟩
    have f3 := f2 0 0 one_pos one_pos
    rw [add_zero, hval i hi] at f3
    have hpow : ∀ z : ℂ, z * star z = ((‖z‖ ^ 2 : ℝ) : ℂ) := fun z => by rw [← starRingEnd_apply, mul_conj, normSq_eq_norm_sq]
    have hu : exp (I * (theta i : ℂ)) * star (exp (I * (theta i : ℂ))) = 1 := by rw [hpow, norm_exp_phase]; simp
    have hexp : exp (I * (theta (i + 1) : ℂ)) = exp (I * (theta i : ℂ)) * exp (I * ((theta (i + 1) - theta i : ℝ) : ℂ)) := by
      rw [← exp_add]; congr 1; push_cast; ring
    have hgg := hpow g
    have hss := hpow (s i)
    simp only [hc, f3, hexp]
    rw [star_mul', star_mul']
    push_cast at hgg hss ⊢
    rw [← hgg, ← hss]
    simp only [RCLike.ofReal_eq_complex_ofReal] at *
    generalize exp (I * ((theta (i + 1) : ℂ) - (theta i : ℂ))) = v
    generalize exp (I * (theta i : ℂ)) = u at hu ⊢
    linear_combination (mu * rho * (s i - val2 (W i) 0 0 * g * u * s i) * star g * star (s i) * g * v) * hu
  have hall : ∀ i < N, ‖c i - 1‖ ≤ r ∧ ‖c i - 1‖ ≤ (1 - kmin) ^ i * ‖c 0 - 1‖ + delta / kmin := by
    intro i
    induction i with
    | zero => intro _; exact ⟨hc0 ▸ h0, by have := div_nonneg hd hk.le; simpa using this⟩
    | succ i ih =>
      intro hi
      obtain ⟨g1, g2⟩ := ih (by omega)
      obtain ⟨hk1, hk2⟩ := hkap i (by omega)
      have hle := tracking_step (c := c i) (u := exp (I * ((theta (i + 1) - theta i : ℝ) : ℂ))) hk2 hk1 (norm_exp_phase _)
        ((Real.norm_exp_I_mul_ofReal_sub_one_le (x := theta (i + 1) - theta i)).trans (by simpa using hth i hi))
      rw [← (hstep i (by omega) g1).2 hi] at hle
      have hkm : 0 ≤ 1 - kmin := by linarith
      refine ⟨hle.trans ?_, hle.trans ?_⟩
      · nlinarith [mul_le_mul_of_nonneg_left g1 hkm]
      · have h3 := mul_le_mul_of_nonneg_left g2 hkm
        have h4 : (1 - kmin) * (delta / kmin) + delta = delta / kmin := by field_simp; ring
        rw [pow_succ]
        nlinarith
  exact ⟨errs, c, e3, e4, hc0, fun i hi => ⟨(hstep i hi (hall i hi).1).1, hall i hi⟩, fun i hi => (hstep i (by omega) (hall i (by omega)).1).2 hi⟩

/-- C246: data aided training ("sbd_data") with one tap on QPSK like symbols (both quadratures of size `a`), for any path of the phase with steps up to `delta`: the relative error of the
output is at most `delta/k` (`k` the effective step size) and a remainder of the start that decays geometrically. -/
theorem C246_data {errf : ℂ → List ℂ → Nat → Option ℂ} (hmeth : errorFct "sbd_data" = some errf) {x : List ℂ} {N os : Nat} {g w0 : ℂ} {s : Nat → ℂ} {theta : Nat → ℝ} {symbs : List ℂ} {mu a delta : ℝ}
    (hx : MovingPhase x os N g s theta) (hs : ∀ i < N, symbs[i]? = some (s i) ∧ |(s i).re| = a ∧ |(s i).im| = a) (hk0 : 0 < 2 * mu * a ^ 3 * ‖g‖ ^ 2) (hk1 : 2 * mu * a ^ 3 * ‖g‖ ^ 2 ≤ 1)
    (hth : ∀ i, i + 1 < N → |theta (i + 1) - theta i| ≤ delta) (hd : 0 ≤ delta) {res : TrainResult ℂ}
    (h : trainEqualiser errf adaptStep false [x] N 1 os mu [[[w0]]] 1 [0] [symbs] = some res) :
    ∃ errs : List ℂ, res.err[0]? = some errs ∧ errs.length = N ∧ ∀ i < N, ∃ y, errs[i]? = some ((a : ℂ) * (s i - y)) ∧
      ‖y - s i‖ ≤ ‖s i‖ * ((1 - 2 * mu * a ^ 3 * ‖g‖ ^ 2) ^ i * ‖w0 * g * exp (I * (theta 0 : ℂ)) - 1‖ + delta / (2 * mu * a ^ 3 * ‖g‖ ^ 2)) := by
  have : sbdDataError = errf := by simpa [errorFct] using hmeth
  subst this
  have hpow : ∀ i < N, ‖s i‖ ^ 2 = 2 * a ^ 2 := fun i hi => by
    obtain ⟨-, h1, h2⟩ := hs i hi
    rw [← normSq_eq_norm_sq, normSq_apply, ← sq, ← sq, ← sq_abs (s i).re, ← sq_abs (s i).im, h1, h2]; ring
  set k := 2 * mu * a ^ 3 * ‖g‖ ^ 2 with hk
  have hkap : ∀ i < N, mu * a * ‖g‖ ^ 2 * ‖s i‖ ^ 2 = k := fun i hi => by rw [hpow i hi, hk]; ring
  obtain ⟨errs, c, h1, h2, h3, h4, -⟩ := tracking_core (rho := a) (kmin := k) (r := ‖w0 * g * exp (I * (theta 0 : ℂ)) - 1‖ + delta / k) hx (fun i hi c e _ he => by
      unfold sbdDataError at he
      rw [(hs i hi).1] at he
      have := (Option.some.inj he).symm
      rw [this]
      obtain ⟨-, g1, g2⟩ := hs i hi
      apply Complex.ext
      · rw [re_ofReal_mul]; simp only [g1]; ring
      · rw [im_ofReal_mul]; simp only [g2]; ring)
    hk0 (fun i hi => by rw [hkap i hi]; exact ⟨le_rfl, hk1⟩) hth hd (by have := div_nonneg hd hk0.le; linarith) (by
      have h5 : k * (‖w0 * g * exp (I * (theta 0 : ℂ)) - 1‖ + delta / k) = k * ‖w0 * g * exp (I * (theta 0 : ℂ)) - 1‖ + delta := by field_simp
      rw [h5]
      have := mul_nonneg hk0.le (norm_nonneg (w0 * g * exp (I * (theta 0 : ℂ)) - 1))
      linarith) h
  refine ⟨errs, h1, h2, fun i hi => ⟨c i * s i, (h4 i hi).1, ?_⟩⟩
  have e : c i * s i - s i = s i * (c i - 1) := by ring
  rw [e, norm_mul, ← h3]
  exact mul_le_mul_of_nonneg_left (h4 i hi).2.2 (norm_nonneg _)

/-- C246: decision directed training ("dd") with one tap, any alphabet: if the phase moves by at most `k r` per symbol, `k` the smallest effective step size, and an output with the relative error `r` is still
decided correctly, then every decision of the whole run is correct, and the error is bounded as with known data. -/
theorem C246_decision {errf : ℂ → List ℂ → Nat → Option ℂ} (hmeth : errorFct "dd" = some errf) {x : List ℂ} {N os : Nat} {g w0 : ℂ} {s : Nat → ℂ} {theta : Nat → ℝ} {symbs : List ℂ} {mu k delta r : ℝ}
    (hx : MovingPhase x os N g s theta) (hs : ∀ i < N, s i ∈ symbs) (hk : 0 < k) (hkap : ∀ a ∈ symbs, k ≤ mu * ‖g‖ ^ 2 * ‖a‖ ^ 2 ∧ mu * ‖g‖ ^ 2 * ‖a‖ ^ 2 ≤ 1)
    (hth : ∀ i, i + 1 < N → |theta (i + 1) - theta i| ≤ delta) (hd : 0 ≤ delta) (h0 : ‖w0 * g * exp (I * (theta 0 : ℂ)) - 1‖ ≤ r) (hr : delta ≤ k * r)
    (hdist : ∀ a ∈ symbs, (r * ‖a‖) ^ 2 < 1000 ∧ ∀ b ∈ symbs, b ≠ a → 2 * (r * ‖a‖) < ‖a - b‖) {res : TrainResult ℂ}
    (h : trainEqualiser errf adaptStep false [x] N 1 os mu [[[w0]]] 1 [0] [symbs] = some res) :
    ∃ errs : List ℂ, res.err[0]? = some errs ∧ errs.length = N ∧ ∀ i < N, ∃ y, errs[i]? = some (s i - y) ∧ (detSymbol y symbs).1 = s i ∧
      ‖y - s i‖ ≤ ‖s i‖ * ((1 - k) ^ i * ‖w0 * g * exp (I * (theta 0 : ℂ)) - 1‖ + delta / k) := by
  have : ddlmsError = errf := by simpa [errorFct] using hmeth
  subst this
  have hdec : ∀ i < N, ∀ c : ℂ, ‖c - 1‖ ≤ r → (detSymbol (c * s i) symbs).1 = s i := by
    intro i hi c hc
    obtain ⟨g1, g2⟩ := hdist _ (hs i hi)
    have e : c * s i - s i = (c - 1) * s i := by ring
    have hn : ‖c * s i - s i‖ ≤ r * ‖s i‖ := by rw [e, norm_mul]; exact mul_le_mul_of_nonneg_right hc (norm_nonneg _)
    refine detSymbol_clear (hs i hi) ((pow_le_pow_left₀ (norm_nonneg _) hn 2).trans_lt g1) fun b hb hne => ?_
    have h1 := g2 b hb hne
    have h2 : ‖s i - b‖ ≤ ‖c * s i - s i‖ + ‖c * s i - b‖ := by
      have : s i - b = (c * s i - b) - (c * s i - s i) := by ring
      rw [this, add_comm]
      exact norm_sub_le _ _
    linarith
  obtain ⟨errs, c, h1, h2, h3, h4, -⟩ := tracking_core (rho := 1) (kmin := k) (r := r) hx (fun i hi c e hc he => by
      have := (Option.some.inj he).symm
      rw [this, hdec i hi c hc]; push_cast; ring) hk (fun i hi => by simpa using hkap _ (hs i hi)) hth hd h0 hr h
  refine ⟨errs, h1, h2, fun i hi => ⟨c i * s i, by simpa using (h4 i hi).1, hdec i hi _ (h4 i hi).2.1, ?_⟩⟩
  have e : c i * s i - s i = s i * (c i - 1) := by ring
  rw [e, norm_mul, ← h3]
  exact mul_le_mul_of_nonneg_left (h4 i hi).2.2 (norm_nonneg _)

/-- C246: with a constant offset of `phi` per symbol the error of data aided training is known exactly. It does not vanish: the output keeps lagging behind, the error factor tends to
`(1 - e^(i phi)) / (1 - (1-k) e^(i phi))`. -/
theorem C246_lag {errf : ℂ → List ℂ → Nat → Option ℂ} (hmeth : errorFct "sbd_data" = some errf) {x : List ℂ} {N os : Nat} {g w0 : ℂ} {s : Nat → ℂ} {phi : ℝ} {symbs : List ℂ} {mu a : ℝ}
    (hx : MovingPhase x os N g s fun i => phi * i) (hs : ∀ i < N, symbs[i]? = some (s i) ∧ |(s i).re| = a ∧ |(s i).im| = a) {k : ℝ} (hk : k = 2 * mu * a ^ 3 * ‖g‖ ^ 2) (hk0 : 0 < k) (hk1 : k ≤ 1) {res : TrainResult ℂ}
    (h : trainEqualiser errf adaptStep false [x] N 1 os mu [[[w0]]] 1 [0] [symbs] = some res) :
    ∃ (errs : List ℂ) (lag : ℂ), res.err[0]? = some errs ∧ errs.length = N ∧ lag * (1 - (1 - k) * exp (I * (phi : ℂ))) = 1 - exp (I * (phi : ℂ)) ∧
      (lag = 0 ↔ exp (I * (phi : ℂ)) = 1) ∧
      ∀ i < N, errs[i]? = some ((a : ℂ) * s i * (lag - ((1 - k) * exp (I * (phi : ℂ))) ^ i * (w0 * g - 1 + lag))) := by
  have : sbdDataError = errf := by simpa [errorFct] using hmeth
  subst this
  have hpow : ∀ i < N, ‖s i‖ ^ 2 = 2 * a ^ 2 := fun i hi => by
    obtain ⟨-, h1, h2⟩ := hs i hi
    rw [← normSq_eq_norm_sq, normSq_apply, ← sq, ← sq, ← sq_abs (s i).re, ← sq_abs (s i).im, h1, h2]; ring
  have hkap : ∀ i < N, mu * a * ‖g‖ ^ 2 * ‖s i‖ ^ 2 = k := fun i hi => by rw [hpow i hi, hk]; ring
  obtain ⟨errs, c, h1, h2, h3, h4, h5⟩ := tracking_core (rho := a) (kmin := k) (delta := |phi|) (r := ‖w0 * g * exp (I * ((phi * (0 : ℕ) : ℝ) : ℂ)) - 1‖ + |phi| / k) hx (fun i hi c e _ he => by
      unfold sbdDataError at he
      rw [(hs i hi).1] at he
      have := (Option.some.inj he).symm
      rw [this]
      obtain ⟨-, g1, g2⟩ := hs i hi
      apply Complex.ext
      · rw [re_ofReal_mul]; simp only [g1]; ring
      · rw [im_ofReal_mul]; simp only [g2]; ring)
    hk0 (fun i hi => by rw [hkap i hi]; exact ⟨le_rfl, hk1⟩) (fun i _ => by push_cast; rw [show phi * ((i : ℝ) + 1) - phi * i = phi by ring]) (abs_nonneg _)
    (by have := div_nonneg (abs_nonneg phi) hk0.le; linarith) (by
      have h5 : k * (‖w0 * g * exp (I * ((phi * (0 : ℕ) : ℝ) : ℂ)) - 1‖ + |phi| / k) = k * ‖w0 * g * exp (I * ((phi * (0 : ℕ) : ℝ) : ℂ)) - 1‖ + |phi| := by field_simp
      rw [h5]
      have := mul_nonneg hk0.le (norm_nonneg (w0 * g * exp (I * ((phi * (0 : ℕ) : ℝ) : ℂ)) - 1))
      linarith) h
  set u := exp (I * (phi : ℂ)) with hu
  have hden : (1 - (1 - (k : ℂ)) * u) ≠ 0 := by
    intro h0
    have h6 : ‖(1 - (k : ℂ)) * u‖ = 1 := by rw [← sub_eq_zero.1 h0]; simp
    rw [norm_mul, hu, norm_exp_phase, mul_one, show (1 - (k : ℂ)) = ((1 - k : ℝ) : ℂ) by push_cast; ring, norm_real, Real.norm_of_nonneg (by linarith)] at h6
    linarith
  set lag := (1 - u) / (1 - (1 - (k : ℂ)) * u) with hlag
  have hl : lag * (1 - (1 - k) * u) = 1 - u := by rw [hlag, div_mul_cancel₀ _ hden]
  refine ⟨errs, lag, h1, h2, hl, ?_, ?_⟩
  · rw [hlag, div_eq_zero_iff]
    constructor
    · rintro (h0 | h0)
      · exact (sub_eq_zero.1 h0).symm
      · exact absurd h0 hden
    · intro h0; left; rw [h0, sub_self]
  · have hc : ∀ i < N, c i = 1 - lag + ((1 - k) * u) ^ i * (w0 * g - 1 + lag) := by
      intro i
      induction i with
      | zero => intro _; rw [h3]; simp
      | succ i ih =>
        intro hi
        rw [h5 i hi, hkap i (by omega), ih (by omega)]
        have : exp (I * ((phi * ((i + 1 : ℕ) : ℝ) - phi * (i : ℝ) : ℝ) : ℂ)) = u := by rw [hu]; congr 2; push_cast; ring
        rw [this, pow_succ]
        linear_combination hl
    intro i hi
    rw [(h4 i hi).1, hc i hi]
    congr 1
    ring

/-- Received samples with an arbitrary complex factor for every symbol: gain and phase may move, and bounded noise on a symbol other than zero is such a factor. -/
def Fading (x : List ℂ) (os N : Nat) (s z : Nat → ℂ) : Prop := ∀ i < N, x[i * os]? = some (z i * s i)

theorem fading_step {c v : ℂ} {k kmin delta : ℝ} (hk1 : k ≤ 1) (hk : kmin ≤ k) (hd : ‖v - 1‖ ≤ delta) :
    ‖(c + (k : ℂ) * (1 - c)) * v - 1‖ ≤ (1 - kmin) * (1 + delta) * ‖c - 1‖ + delta := by
  have e : (c + (k : ℂ) * (1 - c)) * v - 1 = ((1 - k : ℝ) : ℂ) * (c - 1) * v + (v - 1) := by push_cast; ring
  have hv : ‖v‖ ≤ 1 + delta := by
    have h := norm_add_le (v - 1) 1
    rw [sub_add_cancel, norm_one] at h
    linarith
  rw [e]
  refine (norm_add_le _ _).trans (add_le_add ?_ hd)
  rw [norm_mul, norm_mul, norm_real, Real.norm_of_nonneg (by linarith)]
  calc (1 - k) * ‖c - 1‖ * ‖v‖ ≤ (1 - kmin) * ‖c - 1‖ * (1 + delta) :=
        mul_le_mul (mul_le_mul_of_nonneg_right (by linarith) (norm_nonneg _)) hv (norm_nonneg _) (mul_nonneg (by linarith) (norm_nonneg _))
    _ = _ := by ring

theorem fading_core {errf : ℂ → List ℂ → Nat → Option ℂ} {x : List ℂ} {N os : Nat} {w0 : ℂ} {s z : Nat → ℂ} {symbs : List ℂ} {mu rho kmin delta r : ℝ}
    (hx : Fading x os N s z)
    (herr : ∀ i < N, ∀ (c e : ℂ), ‖c - 1‖ ≤ r → errf (c * s i) symbs i = some e → e = (rho : ℂ) * (s i - c * s i))
    (hk : 0 < kmin) (hkap : ∀ i < N, kmin ≤ mu * rho * ‖z i‖ ^ 2 * ‖s i‖ ^ 2 ∧ mu * rho * ‖z i‖ ^ 2 * ‖s i‖ ^ 2 ≤ 1)
    (hz : ∀ i, i + 1 < N → ‖z (i + 1) - z i‖ ≤ delta * ‖z i‖) (hd : 0 ≤ delta) (h0 : ‖w0 * z 0 - 1‖ ≤ r) (hr : (1 - kmin) * (1 + delta) * r + delta ≤ r) {res : TrainResult ℂ}
    (h : trainEqualiser errf adaptStep false [x] N 1 os mu [[[w0]]] 1 [0] [symbs] = some res) :
    ∃ (errs : List ℂ) (c : Nat → ℂ), res.err[0]? = some errs ∧ errs.length = N ∧ c 0 = w0 * z 0 ∧
      ∀ i < N, errs[i]? = some ((rho : ℂ) * (s i - c i * s i)) ∧ ‖c i - 1‖ ≤ r ∧
        ∀ q : ℝ, (1 - kmin) * (1 + delta) ≤ q → q < 1 → ‖c i - 1‖ ≤ q ^ i * ‖c 0 - 1‖ + delta / (1 - q) := by
  have hL : N = 0 ∨ (N - 1) * os + 1 ≤ x.length := by
    rcases Nat.eq_zero_or_pos N with h | h
    · exact .inl h
    · exact .inr (List.getElem?_eq_some_iff.1 (hx (N - 1) (by omega))).1
  obtain ⟨w, sy, errs, e1, e2, e3, e4, W, e5, -, e6⟩ := C94_equaliser (p := 1) (L := x.length) ⟨rfl, by simp⟩ (by simp [Rect]) (by simp) (by simp) hL h 0 (by simp)
  simp at e1 e2
  subst e1 e2
  rw [one_mul] at e4
  have hval : ∀ i < N, val2 [x] 0 (i * os) = z i * s i := fun i hi => by simp [val2, at2, hx i hi]
  set c : Nat → ℂ := fun i => val2 (W i) 0 0 * z i with hc
  have hc0 : c 0 = w0 * z 0 := by simp [hc, e5, val2, at2]
  have hout : ∀ i < N, firOutput [x] (W i) 1 1 os i = c i * s i := by
    intro i hi
    simp only [firOutput, Finset.sum_range_one, add_zero, hval i hi, hc]
    ring
  have hz0 : ∀ i < N, z i ≠ 0 := by
    intro i hi h0
    have := (hkap i hi).1
    rw [h0, norm_zero] at this
    norm_num at this
    linarith
  have hstep : ∀ i < N, ‖c i - 1‖ ≤ r → errs[i]? = some ((rho : ℂ) * (s i - c i * s i)) ∧
      (i + 1 < N → c (i + 1) = (c i + ((mu * rho * ‖z i‖ ^ 2 * ‖s i‖ ^ 2 : ℝ) : ℂ) * (1 - c i)) * (z (i + 1) / z i)) := by
    intro i hi hci
    have hg := List.getElem?_eq_getElem (show i < errs.length by omega)
    obtain ⟨f1, f2⟩ := e6 i _ hg
    rw [Nat.mod_eq_of_lt hi] at f1 f2
    rw [hout i hi] at f1
    have he := herr i hi _ _ hci f1
    rw [he] at hg f2
    refine ⟨hg, fun _ => ?_⟩
    have f3 := f2 0 0 one_pos one_pos
    rw [add_zero, hval i hi] at f3
    have hpow : ∀ z : ℂ, z * star z = ((‖z‖ ^ 2 : ℝ) : ℂ) := fun z => by rw [← starRingEnd_apply, mul_conj, normSq_eq_norm_sq]
    have hgg := hpow (z i)
    have hss := hpow (s i)
    have hzi := hz0 i hi
    simp only [hc, f3]
    rw [star_mul']
    push_cast at hgg hss ⊢
    rw [← hgg, ← hss]
    simp only [RCLike.ofReal_eq_complex_ofReal]
    field_simp
  have hall : ∀ i < N, ‖c i - 1‖ ≤ r ∧ ∀ q : ℝ, (1 - kmin) * (1 + delta) ≤ q → q < 1 → ‖c i - 1‖ ≤ q ^ i * ‖c 0 - 1‖ + delta / (1 - q) := by
    intro i
    induction i with
    | zero => intro _; exact ⟨hc0 ▸ h0, fun q _ hq => by have := div_nonneg hd (sub_nonneg.2 hq.le); simpa using this⟩
    | succ i ih =>
      intro hi
      obtain ⟨g1, g2⟩ := ih (by omega)
      obtain ⟨hk1, hk2⟩ := hkap i (by omega)
      have hzi := hz0 i (by omega)
      have hle := fading_step (c := c i) (v := z (i + 1) / z i) (delta := delta) hk2 hk1 (by
        rw [div_sub_one hzi, norm_div, div_le_iff₀ (norm_pos_iff.2 hzi)]
        exact hz i hi)
      rw [← (hstep i (by omega) g1).2 hi] at hle
      have hkm : 0 ≤ (1 - kmin) * (1 + delta) := mul_nonneg (by linarith) (by linarith)
      refine ⟨hle.trans ?_, fun q hq1 hq2 => hle.trans ?_⟩
      · have := mul_le_mul_of_nonneg_left g1 hkm
        linarith
      · have h2 := mul_le_mul_of_nonneg_right hq1 (norm_nonneg (c i - 1))
        have h3 := mul_le_mul_of_nonneg_left (g2 q hq1 hq2) (hkm.trans hq1)
        have hq3 : (1 - q) ≠ 0 := by linarith
        have h4 : q * (delta / (1 - q)) + delta = delta / (1 - q) := by field_simp; ring
        rw [pow_succ]
        nlinarith
  exact ⟨errs, c, e3, e4, hc0, fun i hi => ⟨(hstep i hi (hall i hi).1).1, hall i hi⟩⟩

/-- C246: the decision directed trainer with one tap follows a channel whose complex gain changes from symbol to symbol, by at most the fraction `delta`; noise counts as a change of the gain. If an output with the
relative error `r` is still decided correctly and one step does not lead out of this region, all decisions of the run are correct, and with `q = (1-k)(1+delta) < 1` the error is at most `delta/(1-q)` and a part of
the initial error that decays like `q^i`. -/
theorem C246_fading {errf : ℂ → List ℂ → Nat → Option ℂ} (hmeth : errorFct "dd" = some errf) {x : List ℂ} {N os : Nat} {w0 : ℂ} {s z : Nat → ℂ} {symbs : List ℂ} {mu k delta r q : ℝ}
    (hx : Fading x os N s z) (hs : ∀ i < N, s i ∈ symbs) (hk : 0 < k) (hkap : ∀ i < N, k ≤ mu * ‖z i‖ ^ 2 * ‖s i‖ ^ 2 ∧ mu * ‖z i‖ ^ 2 * ‖s i‖ ^ 2 ≤ 1)
    (hz : ∀ i, i + 1 < N → ‖z (i + 1) - z i‖ ≤ delta * ‖z i‖) (hd : 0 ≤ delta) (h0 : ‖w0 * z 0 - 1‖ ≤ r) (hq : q = (1 - k) * (1 + delta)) (hq1 : q < 1) (hr : q * r + delta ≤ r)
    (hdist : ∀ a ∈ symbs, (r * ‖a‖) ^ 2 < 1000 ∧ ∀ b ∈ symbs, b ≠ a → 2 * (r * ‖a‖) < ‖a - b‖) {res : TrainResult ℂ}
    (h : trainEqualiser errf adaptStep false [x] N 1 os mu [[[w0]]] 1 [0] [symbs] = some res) :
    ∃ errs : List ℂ, res.err[0]? = some errs ∧ errs.length = N ∧ ∀ i < N, ∃ y, errs[i]? = some (s i - y) ∧ (detSymbol y symbs).1 = s i ∧
      ‖y - s i‖ ≤ ‖s i‖ * (q ^ i * ‖w0 * z 0 - 1‖ + delta / (1 - q)) := by
  have : ddlmsError = errf := by simpa [errorFct] using hmeth
  subst this
  have hdec : ∀ i < N, ∀ c : ℂ, ‖c - 1‖ ≤ r → (detSymbol (c * s i) symbs).1 = s i := by
    intro i hi c hc
    obtain ⟨g1, g2⟩ := hdist _ (hs i hi)
    have e : c * s i - s i = (c - 1) * s i := by ring
    have hn : ‖c * s i - s i‖ ≤ r * ‖s i‖ := by rw [e, norm_mul]; exact mul_le_mul_of_nonneg_right hc (norm_nonneg _)
    refine detSymbol_clear (hs i hi) ((pow_le_pow_left₀ (norm_nonneg _) hn 2).trans_lt g1) fun b hb hne => ?_
    have h1 := g2 b hb hne
    have h2 : ‖s i - b‖ ≤ ‖c * s i - s i‖ + ‖c * s i - b‖ := by
      have : s i - b = (c * s i - b) - (c * s i - s i) := by ring
      rw [this, add_comm]
      exact norm_sub_le _ _
    linarith
  obtain ⟨errs, c, h1, h2, h3, h4⟩ := fading_core (rho := 1) (kmin := k) (r := r) hx (fun i hi c e hc he => by
      have := (Option.some.inj he).symm
      rw [this, hdec i hi c hc]; push_cast; ring) hk (fun i hi => by simpa using hkap i hi) hz hd h0 (hq ▸ hr) h
  refine ⟨errs, h1, h2, fun i hi => ⟨c i * s i, by simpa using (h4 i hi).1, hdec i hi _ (h4 i hi).2.1, ?_⟩⟩
  have e : c i * s i - s i = s i * (c i - 1) := by ring
  rw [e, norm_mul, ← h3]
  exact mul_le_mul_of_nonneg_left ((h4 i hi).2.2 q hq.ge hq1) (norm_nonneg _)

/-- C246: the same for the method "sbd" and alphabets whose quadratures all have the size `a` (QPSK); the effective step size has the additional factor `a`. -/
theorem C246_sbd {errf : ℂ → List ℂ → Nat → Option ℂ} (hmeth : errorFct "sbd" = some errf) {x : List ℂ} {N os : Nat} {w0 : ℂ} {s z : Nat → ℂ} {symbs : List ℂ} {mu a k delta r q : ℝ}
    (hx : Fading x os N s z) (hs : ∀ i < N, s i ∈ symbs) (hsym : ∀ c ∈ symbs, |c.re| = a ∧ |c.im| = a) (hk : 0 < k) (hkap : ∀ i < N, k ≤ 2 * mu * a ^ 3 * ‖z i‖ ^ 2 ∧ 2 * mu * a ^ 3 * ‖z i‖ ^ 2 ≤ 1)
    (hz : ∀ i, i + 1 < N → ‖z (i + 1) - z i‖ ≤ delta * ‖z i‖) (hd : 0 ≤ delta) (h0 : ‖w0 * z 0 - 1‖ ≤ r) (hq : q = (1 - k) * (1 + delta)) (hq1 : q < 1) (hr : q * r + delta ≤ r)
    (hdist : 2 * r ^ 2 < 1 ∧ a ^ 2 < 1000) {res : TrainResult ℂ}
    (h : trainEqualiser errf adaptStep false [x] N 1 os mu [[[w0]]] 1 [0] [symbs] = some res) :
    ∃ errs : List ℂ, res.err[0]? = some errs ∧ errs.length = N ∧ ∀ i < N, ∃ y, errs[i]? = some ((a : ℂ) * (s i - y)) ∧ (detSymbol y symbs).1 = s i ∧
      ‖y - s i‖ ≤ ‖s i‖ * (q ^ i * ‖w0 * z 0 - 1‖ + delta / (1 - q)) := by
  have : sbdError = errf := by simpa [errorFct] using hmeth
  subst this
  have hpow : ∀ c ∈ symbs, ‖c‖ ^ 2 = 2 * a ^ 2 := fun c hc => by
    obtain ⟨h1, h2⟩ := hsym c hc
    rw [← normSq_eq_norm_sq, normSq_apply, ← sq, ← sq, ← sq_abs c.re, ← sq_abs c.im, h1, h2]; ring
  have hr0 : 0 ≤ r := (norm_nonneg _).trans h0
  have hdec : ∀ i < N, ∀ c : ℂ, ‖c - 1‖ ≤ r → (detSymbol (c * s i) symbs).1 = s i := by
    intro i hi c hc
    have hP := hpow _ (hs i hi)
    have e : c * s i - s i = (c - 1) * s i := by ring
    have hn : ‖c * s i - s i‖ ≤ r * ‖s i‖ := by rw [e, norm_mul]; exact mul_le_mul_of_nonneg_right hc (norm_nonneg _)
    have hrs : (r * ‖s i‖) ^ 2 ≤ a ^ 2 := by rw [mul_pow, hP]; nlinarith [sq_nonneg a]
    refine detSymbol_clear (hs i hi) (((pow_le_pow_left₀ (norm_nonneg _) hn 2).trans hrs).trans_lt hdist.2) fun b hb hne => ?_
    have hsep : (2 * a) ^ 2 ≤ ‖s i - b‖ ^ 2 := by
      obtain ⟨u1, u2⟩ := hsym _ (hs i hi)
      obtain ⟨v1, v2⟩ := hsym _ hb
      have key : ∀ p q : ℝ, |p| = a → |q| = a → p ≠ q → (p - q) ^ 2 = (2 * a) ^ 2 := by
        intro p q hp hq hpq
        rcases abs_eq_abs.1 (hp.trans hq.symm) with h | h
        · exact absurd h hpq
        · rw [← hq, mul_pow, sq_abs, h]; ring
      rw [← normSq_eq_norm_sq, normSq_apply, sub_re, sub_im, ← sq, ← sq]
      by_cases hre : (s i).re = b.re
      · rw [key _ _ u2 v2 fun him => hne (Complex.ext hre him).symm]
        linarith [sq_nonneg ((s i).re - b.re)]
      · rw [key _ _ u1 v1 hre]
        linarith [sq_nonneg ((s i).im - b.im)]
    have ha : 0 ≤ a := (hsym _ (hs i hi)).1 ▸ abs_nonneg _
    have ha0 : 0 < a := by
      rcases ha.lt_or_eq with h | h
      · exact h
      · have := (hkap i hi).1
        rw [← h] at this
        norm_num at this
        linarith
    have h1 : r * ‖s i‖ < a := by
      refine lt_of_pow_lt_pow_left₀ 2 ha ?_
      rw [mul_pow, hP]
      nlinarith [pow_pos ha0 2]
    have h3 : 2 * a ≤ ‖s i - b‖ := le_of_sq_le_sq hsep (norm_nonneg _)
    have h2 : ‖s i - b‖ ≤ ‖c * s i - s i‖ + ‖c * s i - b‖ := by
      have : s i - b = (c * s i - b) - (c * s i - s i) := by ring
      rw [this, add_comm]
      exact norm_sub_le _ _
    linarith
  obtain ⟨errs, c, h1, h2, h3, h4⟩ := fading_core (rho := a) (kmin := k) (r := r) hx (fun i hi c e hc he => by
      unfold sbdError at he
      rw [hdec i hi c hc] at he
      have := (Option.some.inj he).symm
      rw [this]
      obtain ⟨g1, g2⟩ := hsym _ (hs i hi)
      apply Complex.ext
      · rw [re_ofReal_mul]; simp only [g1, sub_re]; ring
      · rw [im_ofReal_mul]; simp only [g2, sub_im]; ring) hk (fun i hi => by
        rw [hpow _ (hs i hi)]
        have := hkap i hi
        rw [show mu * a * ‖z i‖ ^ 2 * (2 * a ^ 2) = 2 * mu * a ^ 3 * ‖z i‖ ^ 2 by ring]
        exact this) hz hd h0 (hq ▸ hr) h
  refine ⟨errs, h1, h2, fun i hi => ⟨c i * s i, (h4 i hi).1, hdec i hi _ (h4 i hi).2.1, ?_⟩⟩
  have e : c i * s i - s i = s i * (c i - 1) := by ring
  rw [e, norm_mul, ← h3]
  exact mul_le_mul_of_nonneg_left ((h4 i hi).2.2 q hq.ge hq1) (norm_nonneg _)

/-! Example: alternating symbols, a phase that moves by `phi` with every symbol, step size 1/4, so `k = 1/2`; any length. -/

noncomputable def exTrackSym (i : Nat) : ℂ := (-1) ^ i * ⟨1, 1⟩

theorem exTrackSym_or (i : Nat) : exTrackSym i = ⟨1, 1⟩ ∨ exTrackSym i = ⟨-1, -1⟩ := by
  rcases neg_one_pow_eq_or ℂ i with h | h <;> simp [exTrackSym, h, Complex.ext_iff]

noncomputable def exTrackX (N : Nat) (phi : ℝ) : List ℂ := (List.range N).map fun i => 1 * exTrackSym i * exp (I * ((phi * (i : ℝ) : ℝ) : ℂ))

theorem exTrack_moving (N : Nat) (phi : ℝ) : MovingPhase (exTrackX N phi) 1 N 1 exTrackSym fun i => phi * i := by
  intro i hi
  simp [exTrackX, hi]

theorem exTrack_runs {method : String} {errf : ℂ → List ℂ → Nat → Option ℂ} (hm : errorFct method = some errf) (N : Nat) (phi : ℝ) {symbs : List ℂ} (hu : Usable method symbs N) :
    ∃ r, trainEqualiser errf adaptStep false [exTrackX N phi] N 1 1 (1 / 4) [[[1]]] 1 [0] [symbs] = some r := by
  obtain ⟨r, hr, -⟩ := C27_methods (adaptive := false) (nIter := 1) (mu := 1 / 4) (modes := [0]) (trSyms := N) (os := 1) (ntaps := 1) (p := 1) (L := N) (E := [exTrackX N phi]) (wx := [[[1]]]) (symbols := [symbs]) hm
    ⟨rfl, by simp [exTrackX]⟩ rfl (by simp [Rect]) rfl (by simp) (by omega) (by simpa using hu)
  exact ⟨r, hr⟩

example (N : Nat) : ∃ r errs, trainEqualiser sbdDataError adaptStep false [exTrackX N (1 / 8)] N 1 1 (1 / 4) [[[1]]] 1 [0] [(List.range N).map exTrackSym] = some r ∧ r.err[0]? = some errs ∧ errs.length = N ∧
    ∀ i < N, ∃ y, errs[i]? = some ((1 : ℝ) * (exTrackSym i - y)) ∧ ‖y - exTrackSym i‖ ≤ ‖exTrackSym i‖ / 4 := by
  obtain ⟨r, hr⟩ := exTrack_runs (method := "sbd_data") rfl N (1 / 8) (symbs := (List.range N).map exTrackSym) (by simp [Usable])
  obtain ⟨errs, h1, h2, h3⟩ := C246_data (a := 1) (delta := 1 / 8) rfl (exTrack_moving N (1 / 8)) (fun i hi => ⟨by simp [hi], by rcases exTrackSym_or i with h | h <;> simp [h]⟩) (by norm_num) (by norm_num)
    (fun i _ => by push_cast; rw [show (1 / 8 : ℝ) * ((i : ℝ) + 1) - 1 / 8 * i = 1 / 8 by ring]; norm_num) (by norm_num) hr
  refine ⟨r, errs, hr, h1, h2, fun i hi => ?_⟩
  obtain ⟨y, g1, g2⟩ := h3 i hi
  refine ⟨y, g1, g2.trans (le_of_eq ?_)⟩
  norm_num
  ring

example (N : Nat) : ∃ r errs, trainEqualiser ddlmsError adaptStep false [exTrackX N (1 / 8)] N 1 1 (1 / 4) [[[1]]] 1 [0] [[⟨1, 1⟩, ⟨-1, -1⟩]] = some r ∧ r.err[0]? = some errs ∧ errs.length = N ∧
    ∀ i < N, ∃ y, errs[i]? = some (exTrackSym i - y) ∧ (detSymbol y [⟨1, 1⟩, ⟨-1, -1⟩]).1 = exTrackSym i := by
  obtain ⟨r, hr⟩ := exTrack_runs (method := "dd") rfl N (1 / 8) (symbs := [⟨1, 1⟩, ⟨-1, -1⟩]) (by simp [Usable])
  have hn : ∀ z : ℂ, ∀ q : ℝ, 0 ≤ q → z.re ^ 2 + z.im ^ 2 = q ^ 2 * 2 → ‖z‖ = q * Real.sqrt 2 := fun z q hq hz => by
    rw [← Real.sqrt_sq (norm_nonneg z), ← normSq_eq_norm_sq, normSq_apply, ← sq, ← sq, hz, Real.sqrt_mul (sq_nonneg q), Real.sqrt_sq hq]
  have ha : ∀ a ∈ ([⟨1, 1⟩, ⟨-1, -1⟩] : List ℂ), ‖a‖ = Real.sqrt 2 := by
    intro a h
    rw [hn a 1 zero_le_one, one_mul]
    simp only [List.mem_cons, List.not_mem_nil, or_false] at h
    rcases h with rfl | rfl <;> norm_num
  have h2 : (0 : ℝ) < Real.sqrt 2 := by positivity
  obtain ⟨errs, h1, h2, h3⟩ := C246_decision (k := 1 / 2) (r := 1 / 2) (delta := 1 / 8) rfl (exTrack_moving N (1 / 8)) (fun i _ => by rcases exTrackSym_or i with h | h <;> simp [h]) (by norm_num)
    (fun a h => by rw [ha a h, Real.sq_sqrt (by norm_num)]; norm_num)
    (fun i _ => by push_cast; rw [show (1 / 8 : ℝ) * ((i : ℝ) + 1) - 1 / 8 * i = 1 / 8 by ring]; norm_num) (by norm_num) (by norm_num) (by norm_num) (fun a h => ⟨by rw [ha a h, mul_pow, Real.sq_sqrt (by norm_num)]; norm_num, fun b hb hne => by
      rw [ha a h, hn (a - b) 2 (by norm_num)]
      · linarith
      · simp only [List.mem_cons, List.not_mem_nil, or_false] at h hb
        rcases h with rfl | rfl <;> rcases hb with rfl | rfl <;> first | exact absurd rfl hne | norm_num⟩) hr
  exact ⟨r, errs, hr, h1, h2, fun i hi => by obtain ⟨y, g1, g2, -⟩ := h3 i hi; exact ⟨y, g1, g2⟩⟩

example (N : Nat) : ∃ r errs lag, trainEqualiser sbdDataError adaptStep false [exTrackX N Real.pi] N 1 1 (1 / 4) [[[1]]] 1 [0] [(List.range N).map exTrackSym] = some r ∧ r.err[0]? = some errs ∧ lag ≠ 0 ∧
    ∀ i < N, errs[i]? = some ((1 : ℝ) * exTrackSym i * (lag - ((1 - (1 / 2 : ℝ)) * exp (I * (Real.pi : ℂ))) ^ i * (1 * 1 - 1 + lag))) := by
  obtain ⟨r, hr⟩ := exTrack_runs (method := "sbd_data") rfl N Real.pi (symbs := (List.range N).map exTrackSym) (by simp [Usable])
  obtain ⟨errs, lag, h1, h2, h3, h4, h5⟩ := C246_lag (a := 1) (k := 1 / 2) rfl (exTrack_moving N Real.pi) (fun i hi => ⟨by simp [hi], by rcases exTrackSym_or i with h | h <;> simp [h]⟩) (by norm_num) (by norm_num) (by norm_num) hr
  refine ⟨r, errs, lag, hr, h1, fun h0 => ?_, h5⟩
  rw [h4, mul_comm, exp_pi_mul_I] at h0
  norm_num at h0

example (N : Nat) (z : Nat → ℂ) (hz : ∀ i, (z i).re = 1 ∧ |(z i).im| ≤ 1 / 20) : ∃ r errs, trainEqualiser ddlmsError adaptStep false [(List.range N).map fun i => z i * exTrackSym i] N 1 1 (1 / 4) [[[1]]] 1 [0] [[⟨1, 1⟩, ⟨-1, -1⟩]] = some r ∧
    r.err[0]? = some errs ∧ ∀ i < N, ∃ y, errs[i]? = some (exTrackSym i - y) ∧ (detSymbol y [⟨1, 1⟩, ⟨-1, -1⟩]).1 = exTrackSym i := by
  obtain ⟨r, hr, -⟩ := C27_methods (method := "dd") (errf := ddlmsError) rfl (adaptive := false) (nIter := 1) (mu := 1 / 4) (modes := [0]) (trSyms := N) (os := 1) (ntaps := 1) (p := 1) (L := N) (E := [(List.range N).map fun i => z i * exTrackSym i])
    (wx := [[[1]]]) (symbols := [[⟨1, 1⟩, ⟨-1, -1⟩]]) ⟨rfl, by simp⟩ rfl (by simp [Rect]) rfl (by simp) (by omega) (by simp [Usable])
  have hsq : ∀ z : ℂ, ‖z‖ ^ 2 = z.re ^ 2 + z.im ^ 2 := fun z => by rw [← normSq_eq_norm_sq, normSq_apply]; ring
  have hn : ∀ z : ℂ, ∀ q : ℝ, 0 ≤ q → z.re ^ 2 + z.im ^ 2 = q ^ 2 * 2 → ‖z‖ = q * Real.sqrt 2 := fun z q hq hz => by
    rw [← Real.sqrt_sq (norm_nonneg z), hsq, hz, Real.sqrt_mul (sq_nonneg q), Real.sqrt_sq hq]
  have ha : ∀ a ∈ ([⟨1, 1⟩, ⟨-1, -1⟩] : List ℂ), ‖a‖ = Real.sqrt 2 := by
    intro a h
    rw [hn a 1 zero_le_one, one_mul]
    simp only [List.mem_cons, List.not_mem_nil, or_false] at h
    rcases h with rfl | rfl <;> norm_num
  have hmem : ∀ i, exTrackSym i ∈ ([⟨1, 1⟩, ⟨-1, -1⟩] : List ℂ) := fun i => by rcases exTrackSym_or i with h | h <;> simp [h]
  have h2 : (0 : ℝ) < Real.sqrt 2 := by positivity
  have hz2 : ∀ i, 1 ≤ ‖z i‖ ^ 2 ∧ ‖z i‖ ^ 2 ≤ 2 := fun i => by
    obtain ⟨g1, g2⟩ := hz i
    rw [hsq, g1]
    have := abs_le.1 g2
    constructor <;> nlinarith
  have him : ∀ v : ℂ, v.re = 0 → ‖v‖ = |v.im| := fun v hv => by
    have : v = (v.im : ℂ) * I := by apply Complex.ext <;> simp [hv]
    rw [this, norm_mul, norm_I, mul_one, norm_real, Real.norm_eq_abs]; simp
  obtain ⟨errs, h1, h2, h3⟩ := C246_fading (k := 1 / 2) (r := 2 / 5) (delta := 1 / 10) (q := 11 / 20) (z := z) (x := (List.range N).map fun i => z i * exTrackSym i) (os := 1) rfl (fun i hi => by simp [hi]) (fun i _ => hmem i) (by norm_num)
    (fun i _ => by rw [ha _ (hmem i), Real.sq_sqrt (by norm_num)]; have := hz2 i; constructor <;> linarith)
    (fun i _ => by
      have h5 : 1 ≤ ‖z i‖ := by nlinarith [(hz2 i).1, norm_nonneg (z i)]
      rw [him _ (by rw [sub_re, (hz i).1, (hz (i + 1)).1, sub_self]), sub_im]
      have := abs_sub (z (i + 1)).im (z i).im
      linarith [(hz i).2, (hz (i + 1)).2]) (by norm_num)
    (by rw [one_mul, him _ (by simp [(hz 0).1])]; simp; linarith [(hz 0).2]) (by norm_num) (by norm_num) (by norm_num) (fun a h => ⟨by rw [ha a h, mul_pow, Real.sq_sqrt (by norm_num)]; norm_num, fun b hb hne => by
      rw [ha a h, hn (a - b) 2 (by norm_num)]
      · linarith
      · simp only [List.mem_cons, List.not_mem_nil, or_false] at h hb
        rcases h with rfl | rfl <;> rcases hb with rfl | rfl <;> first | exact absurd rfl hne | norm_num⟩) hr
  exact ⟨r, errs, hr, h1, fun i hi => by obtain ⟨y, g1, g2, -⟩ := h3 i hi; exact ⟨y, g1, g2⟩⟩

example (N : Nat) (z : Nat → ℂ) (hz : ∀ i, (z i).re = 1 ∧ |(z i).im| ≤ 1 / 20) : ∃ r errs, trainEqualiser sbdError adaptStep false [(List.range N).map fun i => z i * exTrackSym i] N 1 1 (1 / 4) [[[1]]] 1 [0] [exQpsk] = some r ∧
    r.err[0]? = some errs ∧ ∀ i < N, ∃ y, errs[i]? = some ((1 : ℝ) * (exTrackSym i - y)) ∧ (detSymbol y exQpsk).1 = exTrackSym i := by
  obtain ⟨r, hr, -⟩ := C27_methods (method := "sbd") (errf := sbdError) rfl (adaptive := false) (nIter := 1) (mu := 1 / 4) (modes := [0]) (trSyms := N) (os := 1) (ntaps := 1) (p := 1) (L := N) (E := [(List.range N).map fun i => z i * exTrackSym i])
    (wx := [[[1]]]) (symbols := [exQpsk]) ⟨rfl, by simp⟩ rfl (by simp [Rect]) rfl (by simp) (by omega) (by simp [Usable])
  have hsq : ∀ z : ℂ, ‖z‖ ^ 2 = z.re ^ 2 + z.im ^ 2 := fun z => by rw [← normSq_eq_norm_sq, normSq_apply]; ring
  have hz2 : ∀ i, 1 ≤ ‖z i‖ ^ 2 ∧ ‖z i‖ ^ 2 ≤ 2 := fun i => by
    obtain ⟨g1, g2⟩ := hz i
    rw [hsq, g1]
    have := abs_le.1 g2
    constructor <;> nlinarith
  have him : ∀ v : ℂ, v.re = 0 → ‖v‖ = |v.im| := fun v hv => by
    have : v = (v.im : ℂ) * I := by apply Complex.ext <;> simp [hv]
    rw [this, norm_mul, norm_I, mul_one, norm_real, Real.norm_eq_abs]; simp
  obtain ⟨errs, h1, h2, h3⟩ := C246_sbd (s := exTrackSym) (a := 1) (k := 1 / 2) (r := 2 / 5) (delta := 1 / 10) (q := 11 / 20) (z := z) (x := (List.range N).map fun i => z i * exTrackSym i) (os := 1) rfl (fun i hi => by simp [hi])
    (fun i _ => by rcases exTrackSym_or i with h | h <;> simp [h, exQpsk]) (by
      intro c hc
      simp only [exQpsk, List.mem_cons, List.not_mem_nil, or_false] at hc
      rcases hc with rfl | rfl | rfl | rfl <;> simp) (by norm_num)
    (fun i _ => by have := hz2 i; constructor <;> linarith)
    (fun i _ => by
      have h5 : 1 ≤ ‖z i‖ := by nlinarith [(hz2 i).1, norm_nonneg (z i)]
      rw [him _ (by rw [sub_re, (hz i).1, (hz (i + 1)).1, sub_self]), sub_im]
      have := abs_sub (z (i + 1)).im (z i).im
      linarith [(hz i).2, (hz (i + 1)).2]) (by norm_num)
    (by rw [one_mul, him _ (by simp [(hz 0).1])]; simp; linarith [(hz 0).2]) (by norm_num) (by norm_num) (by norm_num) (by norm_num) hr
  exact ⟨r, errs, hr, h1, fun i hi => by obtain ⟨y, g1, g2, -⟩ := h3 i hi; exact ⟨y, g1, g2⟩⟩

end Qampy
