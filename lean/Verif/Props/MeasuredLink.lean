import Verif.Props.SyncLink
import Verif.Props.Sampling
import Verif.Props.SearchQam
import Verif.Props.Hybrid

/-!
C218: the error rates that a user measures on a noisy link, with the alignment found by the metrics themselves, are close to the formulas.
-/

namespace Qampy

open MeasureTheory ProbabilityTheory
open Complex (I)

/-- A permutation of the positions and a permutation of the alphabet keep the frequencies of the symbols. -/
theorem equallyOften_map {n : Nat} {coded : List ℂ} {tx ty : Fin n → ℂ} (h : EquallyOften coded tx) (e : Fin n ≃ Fin n) (f g : ℂ → ℂ) (hfg : ∀ z, f (g z) = z) (hgf : ∀ z, g (f z) = z)
    (hf : ∀ z ∈ coded, f z ∈ coded) (hg : ∀ z ∈ coded, g z ∈ coded) (hty : ∀ k, ty k = f (tx (e k))) : EquallyOften coded ty := by
  refine ⟨fun k => by rw [hty]; exact hf _ (h.1 _), fun s hs => ?_⟩
  refine Eq.trans ?_ (h.2 (g s) (hg s hs))
  congr 1
  refine Finset.card_equiv e fun k => ?_
  simp only [Finset.mem_filter, Finset.mem_univ, true_and, hty]
  constructor
  · intro h1; rw [← h1, hgf]
  · intro h1; rw [h1, hfg]

theorem coded_turn (N : Nat) (hN : 1 ≤ N) (c : ℝ) : ∀ z ∈ qamCodedSymbols (2 * N) c, I * z ∈ qamCodedSymbols (2 * N) c := by
  intro z hz
  obtain ⟨p, hp, rfl⟩ := (mem_qamCoded _ _ _).1 hz
  have h := grid_turn (qam_grid (k := 2 * N) (by omega)).2.2 c _ (List.mem_map.2 ⟨p, hp, rfl⟩)
  obtain ⟨q, hq, e⟩ := List.mem_map.1 h
  exact (mem_qamCoded _ _ _).2 ⟨q, hq, e.symm⟩

theorem coded_turns (N : Nat) (hN : 1 ≤ N) (c : ℝ) (r : Nat) : ∀ z ∈ qamCodedSymbols (2 * N) c, z * I ^ r ∈ qamCodedSymbols (2 * N) c := by
  induction r with
  | zero => intro z hz; rwa [pow_zero, mul_one]
  | succ r ih =>
    intro z hz
    have := coded_turn N hN c _ (ih z hz)
    rwa [mul_left_comm, ← pow_succ'] at this

/-- The positions of a cyclic delay. -/
theorem delay_equiv (N : Nat) (hN : 0 < N) (d : Nat) : ∃ e : Fin N ≃ Fin N, ∀ k : Fin N, ((e k : Fin N) : Nat) = (((k : Nat) - d : Int) % N).toNat := by
  have hb : ∀ a : Int, (a % N).toNat < N := fun a => by
    have h1 := Int.emod_nonneg a (show (N : Int) ≠ 0 by omega)
    have h2 := Int.emod_lt_of_pos a (show (0 : Int) < N by omega)
    omega
  have hc : ∀ a : Int, (((a % N).toNat : Nat) : Int) = a % N := fun a => Int.toNat_of_nonneg (Int.emod_nonneg a (show (N : Int) ≠ 0 by omega))
  have hs : ∀ k : Fin N, ((k : Nat) : Int) % N = k := fun k => Int.emod_eq_of_lt (by omega) (by have := k.2; omega)
  refine ⟨⟨fun k => ⟨(((k : Nat) - d : Int) % N).toNat, hb _⟩, fun k => ⟨(((k : Nat) + d : Int) % N).toNat, hb _⟩, fun k => ?_, fun k => ?_⟩, fun k => rfl⟩
  · apply Fin.ext
    show (((((((k : Nat) - d : Int) % N).toNat : Nat) : Int) + d) % N).toNat = k
    rw [hc, Int.emod_add_emod, sub_add_cancel, hs]
    rfl
  · apply Fin.ext
    show (((((((k : Nat) + d : Int) % N).toNat : Nat) : Int) - d) % N).toNat = k
    rw [hc, Int.emod_sub_emod, add_sub_cancel_right, hs]
    rfl

/-- A cyclic delay and quarter turns keep the frequencies of the symbols of a square QAM signal. -/
theorem balanced_delayed {Nb N : Nat} (hNb : 1 ≤ Nb) (hN : 0 < N) (c : ℝ) (a : Nat → ℂ) (d r : Nat)
    (h : EquallyOften (qamCodedSymbols (2 * Nb) c) fun k : Fin N => a k) : EquallyOften (qamCodedSymbols (2 * Nb) c) fun k : Fin N => delayed N a d k * I ^ r := by
  obtain ⟨e, he⟩ := delay_equiv N hN d
  have h4 : (I : ℂ) ^ (3 * r) * I ^ r = 1 := by
    rw [← pow_add, show 3 * r + r = 4 * r by ring, pow_mul, Complex.I_pow_four, one_pow]
  refine equallyOften_map h e (fun z => z * I ^ r) (fun z => z * I ^ (3 * r)) (fun z => ?_) (fun z => ?_) (coded_turns Nb hNb c r) (coded_turns Nb hNb c (3 * r)) (fun k => ?_)
  · show z * I ^ (3 * r) * I ^ r = z
    rw [mul_assoc, h4, mul_one]
  · show z * I ^ r * I ^ (3 * r) = z
    rw [mul_assoc, mul_comm (I ^ r), h4, mul_one]
  · show delayed N a d k * I ^ r = a (e k) * I ^ r
    rw [he]
    rfl

theorem balanced_energy {Nb n : Nat} (hNb : 1 ≤ Nb) (tx : Fin n → ℂ) (hbal : EquallyOften (qamCodedSymbols (2 * Nb) (Real.sqrt (scalingFactor (2 * Nb) : ℝ))) tx) :
    ∑ k, ‖tx k‖ ^ 2 = n := by
  have hM : (4 : ℝ) ≤ 4 ^ Nb := by
    calc (4 : ℝ) = 4 ^ 1 := (pow_one _).symm
      _ ≤ 4 ^ Nb := pow_le_pow_right₀ (by norm_num) hNb
  have hM0 : (0 : ℝ) < 4 ^ Nb := by linarith
  have hlen : (qamCodedSymbols (2 * Nb) (Real.sqrt (scalingFactor (2 * Nb) : ℝ))).length = 4 ^ Nb := by
    rw [length_qamCoded, pow_mul]; norm_num
  have hnd : (qamCodedSymbols (2 * Nb) (Real.sqrt (scalingFactor (2 * Nb) : ℝ))).Nodup := by
    refine nodup_qamCoded _ ?_
    rw [scaling_even]
    exact (Real.sqrt_pos.2 (by linarith)).ne'
  have h1 := balanced_sum hnd hbal (fun z => ‖z‖ ^ 2)
  have h2 := (C11_unit_power (2 * Nb) (by omega)).1
  rw [hlen] at h1
  have h4 : ((2 : ℝ) ^ (2 * Nb)) = 4 ^ Nb := by rw [pow_mul]; norm_num
  rw [h4, div_eq_one_iff_eq hM0.ne'] at h2
  rw [h2] at h1
  push_cast at h1
  exact mul_right_cancel₀ hM0.ne' h1

/-- **C218** A square QAM signal of several modes with equally frequent symbols, delayed, turned by quarter turns and its modes exchanged, with additive noise: the symbol error
rates that `cal_ser` returns after its own alignment are all within `ε` of the formula, and the bit error rates of `cal_ber` within `ε` of the formula up to the weight of
the errors that skip a neighbour, except with probability `4 m exp(-2 N ε²) + 4 m L (2 N - 1) exp(-η² 10^(snr/10) / (2 N))`. -/
theorem C218_measured {Nb : Nat} (hNb : 1 ≤ Nb) (s : Nat → Nat → ℂ) (tau d r : Nat → Nat) (N L Lr : Nat) (hN : 0 < N) (hLr : 0 < Lr) (c0 η ε fb snr : ℝ) (hc0 : 0 ≤ c0) (hη : 0 ≤ η) (hε : 0 < ε) (hfb : 0 < fb)
    (coded : List ℂ) (hcoded : coded = qamCodedSymbols (2 * Nb) (Real.sqrt (scalingFactor (2 * Nb) : ℝ)))
    (hbal : ∀ i < L, EquallyOften coded fun k : Fin N => s i k)
    (htau : ∀ j < Lr, tau j < L) (hinj : ∀ j k, j < Lr → k < Lr → tau j = tau k → j = k) (hd : ∀ j < Lr, d j < N) (hr : ∀ j < Lr, r j < 4)
    (hside : ∀ j < Lr, ∀ i < L, ∀ k : Int, -(N : Int) < k → k < N → (i ≠ tau j ∨ ¬ k % N = d j % N) →
      ‖∑ m ∈ Finset.range N, (if 0 ≤ k + m ∧ k + m < N then delayed N (s (tau j)) (d j) (k + m).toNat else 0) * (starRingEnd ℂ) (s i m)‖ ≤ c0)
    (hpeak : ∀ j < Lr, c0 + 2 * η < max (∑ m ∈ Finset.Ico 0 (N - d j), ‖s (tau j) m‖ ^ 2) (∑ m ∈ Finset.Ico (N - d j) N, ‖s (tau j) m‖ ^ 2))
    (tx sent : List (List ℂ)) (htx : tx = (List.range L).map fun i => (List.range N).map (s i))
    (hsent : sent = List.ofFn fun j : Fin Lr => List.ofFn fun n : Fin N => delayed N (s (tau j)) (d j) n * I ^ r j) :
    (linkLaw Lr N).real {w | ¬ ∃ (rx : List (List ℂ)) (ser ber : List ℚ), simulateTransmission ⟨fb, fb, none⟩ (modeDraws w) { snr := some snr } sent = .ok rx ∧
      calSerRows coded false tx rx = .ok ser ∧ calBerRows (2 * Nb) coded false tx rx = .ok ber ∧ ser.length = Lr ∧ ber.length = Lr ∧
      (∀ q ∈ ser, |(q : ℝ) - serQam (dB2lin snr) (4 ^ Nb)| < ε) ∧
      ∀ q ∈ ber, berQam (dB2lin snr) (4 ^ Nb) - ε < (q : ℝ) ∧
        (q : ℝ) < berQam (dB2lin snr) (4 ^ Nb) + 2 * (1 - 1 / Nb) * (1 - 2 / 2 ^ Nb) * qFunction (3 * Real.sqrt (3 * dB2lin snr / (4 ^ Nb - 1))) + ε} ≤
    Lr * (4 * Real.exp (-(2 * N * ε ^ 2))) + Lr * L * (2 * N - 1 : ℕ) * (4 * Real.exp (-(η ^ 2 * (10 : ℝ) ^ (snr / 10) / (2 * N)))) := by
  obtain ⟨x, hx⟩ : ∃ x : Fin Lr → Fin N → ℂ, x = fun (j : Fin Lr) (n : Fin N) => delayed N (s (tau j)) (d j) n * I ^ r j := ⟨_, rfl⟩
  have hxb : ∀ j, EquallyOften coded (x j) := fun j => by
    rw [hx, hcoded]
    refine balanced_delayed hNb hN _ (s (tau j)) (d j) (r j) ?_
    rw [← hcoded]
    exact hbal _ (htau j j.2)
  have hNr : (0 : ℝ) < N := by exact_mod_cast hN
  have hLr' : (0 : ℝ) < Lr := by exact_mod_cast hLr
  have hsentx : sent = List.ofFn fun j => List.ofFn (x j) := by rw [hsent, hx]
  have hEn : ∀ j, ∑ k, ‖x j k‖ ^ 2 = N := fun j => balanced_energy hNb (x j) (by rw [← hcoded]; exact hxb j)
  have hEs : ∀ i < L, ∑ m ∈ Finset.range N, ‖s i m‖ ^ 2 = N := fun i hi => by
    rw [← Fin.sum_univ_eq_sum_range fun m => ‖s i m‖ ^ 2]
    exact balanced_energy hNb (fun k : Fin N => s i k) (by rw [← hcoded]; exact hbal i hi)
  -- the power of every mode and of the whole signal is one
  have hPj : ∀ j, meanR ([List.ofFn (x j)].flatten.map fun z => ‖z‖ ^ 2) = 1 := fun j => by
    unfold meanR
    rw [List.flatten_singleton, List.map_ofFn, List.sum_ofFn, List.length_ofFn]
    simp only [Function.comp_apply]
    rw [hEn, div_self hNr.ne']
  have hP : meanR (sent.flatten.map fun z => ‖z‖ ^ 2) = 1 := by
    unfold meanR
    have e1 : (sent.flatten.map fun z => ‖z‖ ^ 2).sum = Lr * N := by
      rw [List.map_flatten, List.sum_flatten, hsentx, List.map_ofFn, List.map_ofFn, List.sum_ofFn]
      simp only [Function.comp_apply, List.map_ofFn, List.sum_ofFn]
      simp only [hEn]
      rw [Finset.sum_const, Finset.card_univ, Fintype.card_fin, nsmul_eq_mul]
    have e2 : (sent.flatten.map fun z => ‖z‖ ^ 2).length = Lr * N := by
      rw [List.length_map, List.length_flatten, hsentx, List.map_ofFn, List.sum_ofFn]
      simp
    rw [e1, e2]
    push_cast
    exact div_self (by positivity)
  -- the rows of the received signal
  obtain ⟨row, hrow⟩ : ∃ row : Fin Lr → (Fin N → ℝ × ℝ) → List ℂ, row = fun j v =>
    (changeSnr [List.ofFn (x j)] snr fb fb [List.ofFn fun k => (v k).1] [List.ofFn fun k => (v k).2]).getD 0 [] := ⟨_, rfl⟩
  have hsim : ∀ w : LinkSpace Lr N, simulateTransmission ⟨fb, fb, none⟩ (modeDraws w) { snr := some snr } sent = .ok (List.ofFn fun j => row j (w j).2) := by
    intro w
    rw [hsentx, simulate_awgn, ← hsentx, hP]
    congr 1
    apply List.ext_getElem
    · rw [hsentx]; simp
    · intro j h1 h2
      have hj : j < Lr := by simpa using h2
      simp only [List.getElem_mapIdx, List.getElem_ofFn, hrow, hsentx]
      have e : (changeSnr [List.ofFn (x ⟨j, hj⟩)] snr fb fb [List.ofFn fun k => ((w ⟨j, hj⟩).2 k).1] [List.ofFn fun k => ((w ⟨j, hj⟩).2 k).2]).getD 0 [] =
          addAwgn (List.ofFn (x ⟨j, hj⟩)) (Real.sqrt (meanR ([List.ofFn (x ⟨j, hj⟩)].flatten.map fun z => ‖z‖ ^ 2)) * ((10 : ℝ) ^ (-snr / 20) * Real.sqrt (fb / fb)))
            (List.ofFn fun k => ((w ⟨j, hj⟩).2 k).1) (List.ofFn fun k => ((w ⟨j, hj⟩).2 k).2) := rfl
      rw [e, hPj, addAwgn_ofFn]
      apply List.ext_getElem
      · simp
      · intro k h3 h4
        have hk : k < N := by simpa using h4
        simp only [List.getElem_mapIdx, List.getElem_ofFn]
        unfold modeNoise
        rw [dif_pos ⟨hj, hk⟩]
  obtain ⟨ser, hser⟩ : ∃ ser : Fin Lr → (Fin N → ℝ × ℝ) → ℝ, ser = fun j v => (((calSer coded (row j v) (List.ofFn (x j))).getD 0 : ℚ) : ℝ) := ⟨_, rfl⟩
  obtain ⟨ber, hber⟩ : ∃ ber : Fin Lr → (Fin N → ℝ × ℝ) → ℝ, ber = fun j v => (((calBer (2 * Nb) coded (row j v) (List.ofFn (x j))).getD 0 : ℚ) : ℝ) := ⟨_, rfl⟩
  obtain ⟨up, hup⟩ : ∃ up, up = berQam (dB2lin snr) (4 ^ Nb) + 2 * (1 - 1 / Nb) * (1 - 2 / 2 ^ Nb) * qFunction (3 * Real.sqrt (3 * dB2lin snr / (4 ^ Nb - 1))) := ⟨_, rfl⟩
  rw [← hup]
  obtain ⟨Bd, hBd⟩ : ∃ Bd : Fin Lr → Set (Fin N → ℝ × ℝ), Bd = fun j =>
    {v | ε ≤ |ser j v - serQam (dB2lin snr) (4 ^ Nb)|} ∪ ({v | ber j v ≤ berQam (dB2lin snr) (4 ^ Nb) - ε} ∪ {v | up + ε ≤ ber j v}) := ⟨_, rfl⟩
  have hBdle : ∀ j, (noiseLaw N).real (Bd j) ≤ 4 * Real.exp (-(2 * N * ε ^ 2)) := by
    intro j
    have hb := hxb j
    rw [hcoded] at hb
    have h1 := (C211_qam hNb hN (x j) hb snr fb ε hfb hε).1
    obtain ⟨h2, h3⟩ := C211_qam_ber hNb hN (x j) hb snr fb ε hfb hε.le
    rw [hBd]
    refine (measureReal_union_le _ _).trans ?_
    have h4 := measureReal_union_le (μ := noiseLaw N) {v | ber j v ≤ berQam (dB2lin snr) (4 ^ Nb) - ε} {v | up + ε ≤ ber j v}
    have k1 : (noiseLaw N).real {v | ε ≤ |ser j v - serQam (dB2lin snr) (4 ^ Nb)|} ≤ 2 * Real.exp (-(2 * N * ε ^ 2)) := by
      rw [hser, hrow, hcoded]; exact h1
    have k2 : (noiseLaw N).real {v | ber j v ≤ berQam (dB2lin snr) (4 ^ Nb) - ε} ≤ Real.exp (-(2 * N * ε ^ 2)) := by
      rw [hber, hrow, hcoded]; exact h2
    have k3 : (noiseLaw N).real {v | up + ε ≤ ber j v} ≤ Real.exp (-(2 * N * ε ^ 2)) := by
      rw [hber, hrow, hcoded, hup]; exact h3
    linarith
  obtain ⟨A, hA⟩ : ∃ A : Set (LinkSpace Lr N), A = {w | ¬ ∃ rx : List (List ℂ), simulateTransmission ⟨fb, fb, none⟩ (modeDraws w) { snr := some snr } sent = .ok rx ∧
      calSerRows coded false tx rx = calSerRows coded true sent rx ∧ calBerRows (2 * Nb) coded false tx rx = calBerRows (2 * Nb) coded true sent rx ∧
      calEvmRows false tx rx = calEvmRows true sent rx ∧ estSnrRows coded false tx rx = estSnrRows coded true sent rx} := ⟨_, rfl⟩
  have hAle : (linkLaw Lr N).real A ≤ Lr * L * (2 * N - 1 : ℕ) * (4 * Real.exp (-(η ^ 2 * (10 : ℝ) ^ (snr / 10) / (2 * N)))) := by
    have hnz : ∀ i < L, ∃ m < N, s i m ≠ 0 := by
      intro i hi
      by_contra hcon
      push Not at hcon
      have h1 := hEs i hi
      rw [Finset.sum_eq_zero fun m hm => by rw [hcon m (Finset.mem_range.1 hm)]; simp] at h1
      linarith
    have h1 := C216_alignment s tau d r N L Lr hN c0 η N fb fb snr hc0 hη hfb hfb htau hinj hd hr (fun i hi => (hEs i hi).le) hnz hside hpeak (2 * Nb) coded tx sent htx hsent
    rw [hA]
    refine h1.trans (le_of_eq ?_)
    rw [hP, one_mul]
    congr 4
    field_simp
  have hCle : (linkLaw Lr N).real (⋃ j : Fin Lr, (fun w : LinkSpace Lr N => (w j).2) ⁻¹' Bd j) ≤ Lr * (4 * Real.exp (-(2 * N * ε ^ 2))) := by
    refine (measureReal_iUnion_fintype_le _).trans ((Finset.sum_le_card_nsmul _ _ (4 * Real.exp (-(2 * N * ε ^ 2))) fun j _ => ?_).trans (le_of_eq ?_))
    · have hmp : MeasurePreserving (fun w : LinkSpace Lr N => (w j).2) (linkLaw Lr N) (noiseLaw N) :=
        measurePreserving_snd.comp (measurePreserving_eval (fun _ : Fin Lr => (drawLaw N).prod (noiseLaw N)) j)
      refine le_trans ?_ (hBdle j)
      have h1 := Measure.le_map_apply (μ := linkLaw Lr N) hmp.measurable.aemeasurable (Bd j)
      rw [hmp.map_eq] at h1
      exact ENNReal.toReal_mono (measure_ne_top _ _) h1
    · rw [Finset.card_univ, Fintype.card_fin, nsmul_eq_mul]
  refine (measureReal_mono (s₂ := (⋃ j : Fin Lr, (fun w : LinkSpace Lr N => (w j).2) ⁻¹' Bd j) ∪ A) ?_ (measure_ne_top _ _)).trans ((measureReal_union_le _ _).trans (add_le_add hCle hAle))
  intro w hbad
  by_contra hgood
  refine hbad ?_
  rw [Set.mem_union, not_or, Set.mem_iUnion, not_exists] at hgood
  obtain ⟨hg1, hg2⟩ := hgood
  rw [hA, Set.mem_ofPred_eq, not_not] at hg2
  obtain ⟨rx, h1, h2, h3, -, -⟩ := hg2
  have hrx : rx = List.ofFn fun j => row j (w j).2 := by
    rw [hsim w] at h1
    exact (Except.ok.inj h1).symm
  have hlenr : ∀ j v, (row j v).length = N := by
    intro j v
    rw [hrow]
    obtain ⟨sg, hsg⟩ := changeSnr_ofFn (x j) snr fb fb
    show (((changeSnr [List.ofFn (x j)] snr fb fb [List.ofFn fun k => (v k).1] [List.ofFn fun k => (v k).2]).getD 0 []).length) = N
    rw [hsg, List.length_ofFn]
  have halign : alignRows true sent rx = .ok (sent, rx) := by
    have h := adjustOnly_same (fun (j n : Nat) => (sent.getD j []).getD n 0) (fun (j n : Nat) => (rx.getD j []).getD n 0) Lr N
    have back : ∀ (y : List (List ℂ)), y.length = Lr → (∀ z ∈ y, z.length = N) → ((List.range Lr).map fun j => (List.range N).map fun n => (y.getD j []).getD n 0) = y := by
      intro y hy1 hy2
      apply List.ext_getElem
      · simp [hy1]
      · intro j g1 g2
        have := hy2 y[j] (List.getElem_mem g2)
        simp only [List.getElem_map, List.getElem_range]
        apply List.ext_getElem
        · simp [this]
        · intro n g3 g4
          simp [g2, g4]
    have e1 : sent.length = Lr ∧ ∀ z ∈ sent, z.length = N := by
      rw [hsentx]
      refine ⟨by simp, fun z hz => ?_⟩
      obtain ⟨j, rfl⟩ := (List.mem_ofFn' _ _).1 hz
      simp
    have e2 : rx.length = Lr ∧ ∀ z ∈ rx, z.length = N := by
      rw [hrx]
      refine ⟨by simp, fun z hz => ?_⟩
      obtain ⟨j, rfl⟩ := (List.mem_ofFn' _ _).1 hz
      exact hlenr j _
    rw [back sent e1.1 e1.2, back rx e2.1 e2.2] at h
    rw [alignRows, if_pos rfl, h]
  have hzip : List.zip sent rx = List.ofFn fun j => (List.ofFn (x j), row j (w j).2) := by
    rw [hsentx, hrx, zip_ofFn]
  have hex : ∀ j : Fin Lr, (∃ q, calSer coded (row j (w j).2) (List.ofFn (x j)) = some q) ∧ ∃ q, calBer (2 * Nb) coded (row j (w j).2) (List.ofFn (x j)) = some q := by
    intro j
    have hb := hxb j
    rw [hcoded] at hb
    rw [hrow, hcoded]
    exact ⟨(C115_ser hNb hN (x j) hb snr fb hfb).1 (w j).2, (C118_ber hNb hN (x j) hb snr fb hfb).1 (w j).2⟩
  have hrowsS : calSerRows coded true sent rx = .ok (List.ofFn fun j => (calSer coded (row j (w j).2) (List.ofFn (x j))).getD 0) := by
    rw [calSerRows, halign]
    show (List.zip sent rx).mapM (fun p => (calSer coded p.2 p.1).elim (Except.error PyErr.index) Except.ok) = Except.ok _
    rw [hzip, mapM_ok (g := fun p => (calSer coded p.2 p.1).getD 0), List.map_ofFn]
    · rfl
    · intro p hp
      obtain ⟨j, rfl⟩ := (List.mem_ofFn' _ _).1 hp
      obtain ⟨q, hq⟩ := (hex j).1
      simp [hq]
  have hrowsB : calBerRows (2 * Nb) coded true sent rx = .ok (List.ofFn fun j => (calBer (2 * Nb) coded (row j (w j).2) (List.ofFn (x j))).getD 0) := by
    rw [calBerRows, halign]
    show (List.zip sent rx).mapM (fun p => (calBer (2 * Nb) coded p.2 p.1).elim (Except.error PyErr.index) Except.ok) = Except.ok _
    rw [hzip, mapM_ok (g := fun p => (calBer (2 * Nb) coded p.2 p.1).getD 0), List.map_ofFn]
    · rfl
    · intro p hp
      obtain ⟨j, rfl⟩ := (List.mem_ofFn' _ _).1 hp
      obtain ⟨q, hq⟩ := (hex j).2
      simp [hq]
  have hgood : ∀ j, |ser j (w j).2 - serQam (dB2lin snr) (4 ^ Nb)| < ε ∧ berQam (dB2lin snr) (4 ^ Nb) - ε < ber j (w j).2 ∧ ber j (w j).2 < up + ε := by
    intro j
    have h := hg1 j
    rw [Set.mem_preimage, hBd] at h
    simp only [Set.mem_union, Set.mem_ofPred_eq, not_or, not_le] at h
    exact h
  refine ⟨rx, _, _, h1, h2.trans hrowsS, h3.trans hrowsB, by simp, by simp, fun q hq => ?_, fun q hq => ?_⟩
  · obtain ⟨j, rfl⟩ := (List.mem_ofFn' _ _).1 hq
    have := (hgood j).1
    rw [hser] at this
    exact this
  · obtain ⟨j, rfl⟩ := (List.mem_ofFn' _ _).1 hq
    have := (hgood j).2
    rw [hber] at this
    exact this

theorem balanced_of_bij {n : Nat} {coded : List ℂ} {tx : Fin n → ℂ} (hlen : coded.length = n) (hmem : ∀ k, tx k ∈ coded) (hinj : Function.Injective tx) (hsurj : ∀ z ∈ coded, ∃ k, tx k = z) :
    EquallyOften coded tx := by
  refine ⟨hmem, fun z hz => ?_⟩
  obtain ⟨k, rfl⟩ := hsurj z hz
  have : (Finset.univ.filter fun j => tx j = tx k) = {k} := by
    ext j
    simp [hinj.eq_iff]
  rw [this, Finset.card_singleton, one_mul, hlen]

/-- The four symbols of QPSK in the order `z, iz, -iz, -z`: a delay by one symbol is recognised with the margin one. -/
theorem qpsk_sequence : ∃ s : Nat → ℂ, EquallyOften (qamCodedSymbols (2 * 1) (Real.sqrt (scalingFactor (2 * 1) : ℝ))) (fun k : Fin 4 => s k) ∧
    (∀ k : Int, -((4 : ℕ) : Int) < k → k < (4 : ℕ) → ¬ k % (4 : ℕ) = (1 : ℕ) % (4 : ℕ) →
      ‖∑ m ∈ Finset.range 4, (if 0 ≤ k + m ∧ k + m < (4 : ℕ) then delayed 4 s 1 (k + m).toNat else 0) * (starRingEnd ℂ) (s m)‖ ≤ 2) ∧
    (2 : ℝ) + 2 * (1 / 4) < max (∑ m ∈ Finset.Ico 0 (4 - 1), ‖s m‖ ^ 2) (∑ m ∈ Finset.Ico (4 - 1) 4, ‖s m‖ ^ 2) := by
  obtain ⟨c, hc⟩ : ∃ c, c = Real.sqrt (scalingFactor (2 * 1) : ℝ) := ⟨_, rfl⟩
  have hc2 : c ^ 2 = 2 := by
    rw [hc, scaling_even, Real.sq_sqrt (by norm_num)]; norm_num
  have hc0 : 0 < c := by
    rw [hc, scaling_even]; exact Real.sqrt_pos.2 (by norm_num)
  have hci : c⁻¹ ^ 2 = 1 / 2 := by rw [inv_pow, hc2]; norm_num
  obtain ⟨z, hz⟩ : ∃ z : ℂ, z = ⟨c⁻¹, c⁻¹⟩ := ⟨_, rfl⟩
  have hzz : z * (starRingEnd ℂ) z = 1 := by
    rw [hz]
    apply Complex.ext
    · simp; linarith [hci]
    · simp
  have hzn : ‖z‖ = 1 := by
    have h := Complex.mul_conj z
    rw [hzz, Complex.normSq_eq_norm_sq] at h
    have h' : ‖z‖ ^ 2 = 1 := by exact_mod_cast h.symm
    nlinarith [norm_nonneg z]
  obtain ⟨t, ht⟩ : ∃ t : Nat → ℂ, t = fun m => if m = 0 then 1 else if m = 1 then I else if m = 2 then -I else -1 := ⟨_, rfl⟩
  refine ⟨fun m => z * t m, ?_, ?_, ?_⟩
  · rw [← hc]
    refine balanced_of_bij (by rw [length_qamCoded]; norm_num) ?_ ?_ ?_
    · intro k
      rw [mem_coded_iff]
      fin_cases k
      · exact ⟨1, by norm_num, 1, by norm_num, by rw [hz, ht]; apply Complex.ext <;> simp [gridPt]⟩
      · exact ⟨0, by norm_num, 1, by norm_num, by rw [hz, ht]; apply Complex.ext <;> (simp [gridPt]; try ring)⟩
      · exact ⟨1, by norm_num, 0, by norm_num, by rw [hz, ht]; apply Complex.ext <;> (simp [gridPt]; try ring)⟩
      · exact ⟨0, by norm_num, 0, by norm_num, by rw [hz, ht]; apply Complex.ext <;> simp [gridPt] <;> ring⟩
    · intro a b hab
      have hz0 : z ≠ 0 := by rw [← norm_ne_zero_iff, hzn]; exact one_ne_zero
      have := mul_left_cancel₀ hz0 hab
      rw [ht] at this
      fin_cases a <;> fin_cases b <;> first | rfl | (exfalso; simp [Complex.ext_iff] at this; try norm_num at this)
    · intro y hy
      obtain ⟨i, hi, j, hj, rfl⟩ := (mem_coded_iff _ _ _).1 hy
      interval_cases i <;> interval_cases j
      · exact ⟨3, by rw [hz, ht]; apply Complex.ext <;> simp [gridPt] <;> ring⟩
      · exact ⟨1, by rw [hz, ht]; apply Complex.ext <;> (simp [gridPt]; try ring)⟩
      · exact ⟨2, by rw [hz, ht]; apply Complex.ext <;> (simp [gridPt]; try ring)⟩
      · exact ⟨0, by rw [hz, ht]; apply Complex.ext <;> simp [gridPt]⟩
  · intro k hk1 hk2 hne
    have e : ∀ m n : Nat, z * t m * (starRingEnd ℂ) (z * t n) = t m * (starRingEnd ℂ) (t n) := by
      intro m n
      rw [map_mul, show z * t m * ((starRingEnd ℂ) z * (starRingEnd ℂ) (t n)) = (z * (starRingEnd ℂ) z) * (t m * (starRingEnd ℂ) (t n)) by ring, hzz, one_mul]
    have hk : k = -3 ∨ k = -2 ∨ k = -1 ∨ k = 0 ∨ k = 1 ∨ k = 2 ∨ k = 3 := by omega
    have n2 : ∀ a b : ℂ, ‖a‖ ≤ 1 → ‖b‖ ≤ 1 → ‖a + b‖ ≤ 2 := fun a b h1 h2 => (norm_add_le a b).trans (by linarith)
    have hsum : ∑ m ∈ Finset.range 4, (if 0 ≤ k + m ∧ k + m < 4 then delayed 4 (fun m => z * t m) 1 (k + m).toNat else 0) * (starRingEnd ℂ) (z * t m) =
        ∑ m ∈ Finset.range 4, (if 0 ≤ k + m ∧ k + m < 4 then delayed 4 t 1 (k + m).toNat else 0) * (starRingEnd ℂ) (t m) := by
      refine Finset.sum_congr rfl fun m _ => ?_
      split_ifs
      · exact e _ _
      · rw [zero_mul, zero_mul]
    refine (congrArg norm hsum).trans_le ?_
    rcases hk with rfl | rfl | rfl | rfl | rfl | rfl | rfl
    · exfalso; revert hne; decide
    · norm_num [Finset.sum_range_succ, delayed]
      rw [ht]
      simpa using n2 (-I) (-1) (by simp) (by simp)
    · norm_num [Finset.sum_range_succ, delayed]
      rw [ht]
      simp
    · norm_num [Finset.sum_range_succ, delayed]
      rw [ht]
      have h := n2 (-1) (-1) (by simp) (by simp)
      rw [show (-1 : ℂ) + -1 = -1 + -I + -1 + I by ring] at h
      simpa using h
    · exfalso; revert hne; decide
    · norm_num [Finset.sum_range_succ, delayed]
      rw [ht]
      simpa using n2 I (-1) (by simp) (by simp)
    · norm_num [Finset.sum_range_succ, delayed]
      rw [ht]
      simp
  · have hn : ∀ m, ‖z * t m‖ = 1 := fun m => by
      rw [norm_mul, hzn, one_mul, ht]
      dsimp only
      split_ifs <;> simp
    simp only [hn]
    norm_num

/-- The four symbols of QPSK in the order `z, iz, -iz, -z`, delayed by one symbol and turned by a quarter turn. -/
example (ε snr : ℝ) (hε : 0 < ε) : ∃ s : Nat → ℂ, ∀ tx sent coded : List _, (coded = qamCodedSymbols (2 * 1) (Real.sqrt (scalingFactor (2 * 1) : ℝ))) →
    (tx = (List.range 1).map fun _ => (List.range 4).map s) → (sent = List.ofFn fun _ : Fin 1 => List.ofFn fun n : Fin 4 => delayed 4 s 1 n * I ^ 1) →
    (linkLaw 1 4).real {w | ¬ ∃ (rx : List (List ℂ)) (ser ber : List ℚ), simulateTransmission ⟨1, 1, none⟩ (modeDraws w) { snr := some snr } sent = .ok rx ∧
      calSerRows coded false tx rx = .ok ser ∧ calBerRows (2 * 1) coded false tx rx = .ok ber ∧ ser.length = 1 ∧ ber.length = 1 ∧
      (∀ q ∈ ser, |(q : ℝ) - serQam (dB2lin snr) (4 ^ 1)| < ε) ∧
      ∀ q ∈ ber, berQam (dB2lin snr) (4 ^ 1) - ε < (q : ℝ) ∧
        (q : ℝ) < berQam (dB2lin snr) (4 ^ 1) + 2 * (1 - 1 / ((1 : ℕ) : ℝ)) * (1 - 2 / 2 ^ 1) * qFunction (3 * Real.sqrt (3 * dB2lin snr / (4 ^ 1 - 1))) + ε} ≤
    ((1 : ℕ) : ℝ) * (4 * Real.exp (-(2 * ((4 : ℕ) : ℝ) * ε ^ 2))) + ((1 : ℕ) : ℝ) * ((1 : ℕ) : ℝ) * ((2 * 4 - 1 : ℕ) : ℝ) * (4 * Real.exp (-((1 / 4) ^ 2 * (10 : ℝ) ^ (snr / 10) / (2 * ((4 : ℕ) : ℝ))))) := by
  obtain ⟨s, hbal, hside, hpeak⟩ := qpsk_sequence
  refine ⟨s, fun tx sent coded hcoded htx hsent => ?_⟩
  rw [← hcoded] at hbal
  exact C218_measured (Nb := 1) (by norm_num) (fun _ => s) (fun j => j) (fun _ => 1) (fun _ => 1) 4 1 1 (by norm_num) (by norm_num) 2 (1 / 4) ε 1 snr (by norm_num) (by norm_num) hε (by norm_num)
    coded hcoded (fun _ _ => hbal) (fun j hj => hj) (fun j k hj hk h => h) (fun _ _ => by norm_num) (fun _ _ => by norm_num)
    (fun j hj i hi k h1 h2 h3 => hside k h1 h2 (by
      rcases h3 with h3 | h3
      · omega
      · exact h3)) (fun _ _ => hpeak) tx sent htx (by rw [hsent])

end Qampy
