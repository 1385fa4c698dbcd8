import Verif.Props.PilotLink
import Verif.Props.CarrierChain

/-!
C214: QPSK with a frequency offset and additive noise, received with frequency offset estimation and blind phase search: probability of an error.
-/

namespace Qampy

open MeasureTheory ProbabilityTheory
open Complex (I)

/-- What `simulate_transmission` returns for several modes with a frequency offset and additive noise. -/
theorem simulate_offset {m n : Nat} (x : Fin m → Fin n → ℂ) (fo fs fb snr : ℝ) (w : LinkSpace m n) :
    simulateTransmission ⟨fs, fb, none⟩ (modeDraws w) { snr := some snr, freqOff := some fo } (List.ofFn fun l => List.ofFn (x l)) =
      .ok ((List.ofFn fun l => List.ofFn (x l)).mapIdx fun l r => r.mapIdx fun j z => z * Complex.exp (I * ((2 * Real.pi * j * fo / fs : ℝ) : ℂ)) +
        modeNoise (Real.sqrt (meanR ((List.ofFn fun l => List.ofFn (x l)).flatten.map fun z => ‖z‖ ^ 2)) * ((10 : ℝ) ^ (-snr / 20) * Real.sqrt (fs / fb))) w l j) := by
  have ht : ((List.ofFn fun l => List.ofFn (x l)).map fun r => addCarrierOffset r fo fs) =
      List.ofFn fun l : Fin m => List.ofFn fun k : Fin n => x l k * Complex.exp (I * ((2 * Real.pi * (k : ℕ) * fo / fs : ℝ) : ℂ)) := by
    rw [List.map_ofFn]
    congr 1
    funext l
    apply List.ext_getElem
    · simp [addCarrierOffset]
    · intro j h1 h2
      simp [addCarrierOffset]
  have h0 : simulateTransmission ⟨fs, fb, none⟩ (modeDraws w) { snr := some snr, freqOff := some fo } (List.ofFn fun l => List.ofFn (x l)) =
      .ok (changeSnr ((List.ofFn fun l => List.ofFn (x l)).map fun r => addCarrierOffset r fo fs) snr fb fs
        (((List.ofFn fun l => List.ofFn (x l)).map fun r => addCarrierOffset r fo fs).mapIdx fun l r => (List.range r.length).map ((modeDraws w).re l))
        (((List.ofFn fun l => List.ofFn (x l)).map fun r => addCarrierOffset r fo fs).mapIdx fun l r => (List.range r.length).map ((modeDraws w).im l))) := rfl
  rw [h0, ht]
  have hp : ((List.ofFn fun l : Fin m => List.ofFn fun k : Fin n => x l k * Complex.exp (I * ((2 * Real.pi * (k : ℕ) * fo / fs : ℝ) : ℂ))).flatten.map fun z => ‖z‖ ^ 2) =
      (List.ofFn fun l => List.ofFn (x l)).flatten.map fun z => ‖z‖ ^ 2 := by
    rw [List.map_flatten, List.map_flatten, List.map_ofFn, List.map_ofFn]
    congr 2
    funext l
    simp only [Function.comp, List.map_ofFn]
    congr 1
    funext k
    simp only [Function.comp]
    rw [norm_mul, norm_exp_I, mul_one]
  congr 1
  unfold changeSnr
  simp only [hp]
  obtain ⟨sg, hsg⟩ : ∃ sg, sg = Real.sqrt (meanR ((List.ofFn fun l => List.ofFn (x l)).flatten.map fun z => ‖z‖ ^ 2)) * ((10 : ℝ) ^ (-snr / 20) * Real.sqrt (fs / fb)) := ⟨_, rfl⟩
  rw [← hsg]
  apply List.ext_getElem
  · simp
  · intro l h1 h2
    simp only [List.length_mapIdx, List.length_ofFn] at h2
    simp only [List.getElem_zipWith, List.getElem_zip, List.getElem_mapIdx, List.getElem_ofFn, List.length_ofFn]
    have e1 : (modeDraws w).re l = drawFun fun k => ((w ⟨l, h2⟩).2 k).1 := by simp [modeDraws, h2]
    have e2 : (modeDraws w).im l = drawFun fun k => ((w ⟨l, h2⟩).2 k).2 := by simp [modeDraws, h2]
    rw [e1, e2, drawFun_range, drawFun_range, addAwgn_ofFn]
    apply List.ext_getElem
    · simp
    · intro j h3 h4
      simp only [List.length_ofFn] at h3
      simp only [List.getElem_ofFn, List.getElem_mapIdx]
      congr 1
      simp [modeNoise, h2, h3]

/-- **C214** QPSK of unit power in `m` modes of `n` samples, with a frequency offset below the ambiguity limit and additive noise: after finding the offset, compensating it
and the blind phase search the probability of any error (a failure, a slip or a wrong decision at a position with a complete window, in any mode) is at most
`m n exp(-10^(snr/10) fb / (1225 fs))`. -/
theorem C214_qpsk_link {m n : Nat} (x : Fin m → Fin n → ℂ) (symbols : List ℂ) (c : ℂ) (fo fs fb snr : ℝ) (fftSize M N : Nat) (average : Bool)
    (hfs : 0 < fs) (hfb : 0 < fb) (hc : ‖c‖ = 1) (hsym : ∀ z, z ∈ symbols ↔ ∃ q : ℤ, z = I ^ q * c) (hnd : symbols.Nodup) (hx : ∀ l k, x l k ∈ symbols)
    (hf : |fo| < fs / 8 - fs / (4 * 2 ^ Nat.clog 2 fftSize)) (hM : 8 ≤ M) (hN : 1 ≤ N) (hN2 : N ≤ 10000) (hF : 32 * N ≤ 2 ^ Nat.clog 2 fftSize)
    (hlen : 2 ^ Nat.clog 2 fftSize ≤ n) :
    (linkLaw m n).real {w | ¬ ∃ (E : List (List ℂ)) (est : List ℝ) (comp : List (List ℂ)),
      simulateTransmission ⟨fs, fb, none⟩ (modeDraws w) { snr := some snr, freqOff := some fo } (List.ofFn fun l => List.ofFn (x l)) = .ok E ∧
      findFreqOffset E fs average fftSize = some est ∧ compFreqOffset E est fs = .ok comp ∧ comp.length = m ∧
      ∀ l : Fin m, ∃ (r out : List ℂ) (ph : List ℝ) (q : Nat) (d : List (ℂ × ℝ × Nat)), comp[(l : ℕ)]? = some r ∧ bps r M symbols N = some (out, ph) ∧
        makeDecision ((out.drop N).take (n - 2 * N)) symbols = some d ∧
        (∀ k : Fin n, N ≤ (k : ℕ) → (k : ℕ) + N < n → (d.map (·.1))[(k : ℕ) - N]? = some (I ^ q * x l k)) ∧ d.length = n - 2 * N} ≤
    m * n * Real.exp (-((10 : ℝ) ^ (snr / 10) * fb / (1225 * fs))) := by
  obtain ⟨sg, hsg⟩ : ∃ sg, sg = Real.sqrt (meanR ((List.ofFn fun l => List.ofFn (x l)).flatten.map fun z => ‖z‖ ^ 2)) * ((10 : ℝ) ^ (-snr / 20) * Real.sqrt (fs / fb)) := ⟨_, rfl⟩
  obtain ⟨μ, hμ⟩ : ∃ μ, μ = linkLaw m n := ⟨_, rfl⟩
  rw [← hμ]
  have hprob : IsProbabilityMeasure μ := by rw [hμ]; infer_instance
  have hunit : ∀ l k, ‖x l k‖ = 1 := by
    intro l k
    obtain ⟨q, hq⟩ := (hsym _).1 (hx l k)
    rw [hq, norm_mul, norm_I_zpow, hc, one_mul]
  have hn0 : 0 < n := lt_of_lt_of_le (by positivity) hlen
  rcases Nat.eq_zero_or_pos m with hm0 | hm0
  · -- no modes
    have hempty : {w : LinkSpace m n | ¬ ∃ (E : List (List ℂ)) (est : List ℝ) (comp : List (List ℂ)),
      simulateTransmission ⟨fs, fb, none⟩ (modeDraws w) { snr := some snr, freqOff := some fo } (List.ofFn fun l => List.ofFn (x l)) = .ok E ∧
      findFreqOffset E fs average fftSize = some est ∧ compFreqOffset E est fs = .ok comp ∧ comp.length = m ∧
      ∀ l : Fin m, ∃ (r out : List ℂ) (ph : List ℝ) (q : Nat) (d : List (ℂ × ℝ × Nat)), comp[(l : ℕ)]? = some r ∧ bps r M symbols N = some (out, ph) ∧
        makeDecision ((out.drop N).take (n - 2 * N)) symbols = some d ∧
        (∀ k : Fin n, N ≤ (k : ℕ) → (k : ℕ) + N < n → (d.map (·.1))[(k : ℕ) - N]? = some (I ^ q * x l k)) ∧ d.length = n - 2 * N} = ∅ := by
      ext w
      simp only [Set.mem_ofPred_eq, Set.mem_empty_iff_false, iff_false, not_not]
      subst hm0
      obtain ⟨est, comp, h1, h2, h3, -⟩ := C167_qpsk_chain [] symbols c (fun _ _ => c) (fun _ => 0) fo fs fftSize M N average hfs hc hsym hnd hf hM hN hN2 hF (by simp)
      exact ⟨[], est, comp, by rw [simulate_offset]; rfl, h1, h2, h3, fun l => l.elim0⟩
    rw [hempty, measureReal_empty]
    positivity
  have hP : meanR ((List.ofFn fun l => List.ofFn (x l)).flatten.map fun z => ‖z‖ ^ 2) = 1 := by
    have : ((List.ofFn fun l => List.ofFn (x l)).flatten.map fun z => ‖z‖ ^ 2) = List.replicate (m * n) 1 := by
      rw [List.eq_replicate_iff]
      constructor
      · rw [List.length_map, List.length_flatten, List.map_ofFn]
        simp [Function.comp_def]
      · intro b hb
        obtain ⟨z, hz, rfl⟩ := List.mem_map.1 hb
        obtain ⟨r, hr, hz⟩ := List.mem_flatten.1 hz
        obtain ⟨l, rfl⟩ := List.mem_ofFn.1 hr
        obtain ⟨k, rfl⟩ := List.mem_ofFn.1 hz
        rw [hunit, one_pow]
    rw [this]
    unfold meanR
    have hmn : (0 : ℝ) < ((m * n : ℕ) : ℝ) := by exact_mod_cast Nat.mul_pos hm0 hn0
    rw [List.sum_replicate, List.length_replicate, nsmul_eq_mul, mul_one, div_self hmn.ne']
  have hsg2 : sg ^ 2 = fs / ((10 : ℝ) ^ (snr / 10) * fb) := by
    rw [hsg, hP, Real.sqrt_one, one_mul, mul_pow, Real.sq_sqrt (by positivity), ← Real.rpow_natCast ((10 : ℝ) ^ (-snr / 20)), ← Real.rpow_mul (by norm_num),
      show -snr / 20 * ((2 : ℕ) : ℝ) = -(snr / 10) by push_cast; ring, Real.rpow_neg (by norm_num)]
    have : (0 : ℝ) < 10 ^ (snr / 10) := by positivity
    field_simp
  have hl : ∀ l : Fin m, MeasurePreserving (fun w : LinkSpace m n => w l) μ ((drawLaw n).prod (noiseLaw n)) := fun l => by
    rw [hμ]
    exact measurePreserving_eval (fun _ : Fin m => (drawLaw n).prod (noiseLaw n)) l
  have hnoise : ∀ (l : Fin m) (k : Fin n), μ.real {w | (1 / 35 : ℝ) < ‖(⟨sg / Real.sqrt 2 * ((w l).2 k).1, sg / Real.sqrt 2 * ((w l).2 k).2⟩ : ℂ)‖} ≤
      Real.exp (-((10 : ℝ) ^ (snr / 10) * fb / (1225 * fs))) := fun l k => by
    refine (noise_tail μ (fun w : LinkSpace m n => (w l).2 k) ((measurePreserving_eval (fun _ : Fin n => stdN2) k).comp (measurePreserving_snd.comp (hl l))) sg (1 / 35)
      (by norm_num)).trans (le_of_eq ?_)
    rw [hsg2]
    congr 2
    have : (0 : ℝ) < 10 ^ (snr / 10) := by positivity
    field_simp
    norm_num
  obtain ⟨B, hB⟩ : ∃ B : Fin m × Fin n → Set (LinkSpace m n), B = fun p =>
    {w | (1 / 35 : ℝ) < ‖(⟨sg / Real.sqrt 2 * ((w p.1).2 p.2).1, sg / Real.sqrt 2 * ((w p.1).2 p.2).2⟩ : ℂ)‖} := ⟨_, rfl⟩
  have hU : μ.real (⋃ p, B p) ≤ m * n * Real.exp (-((10 : ℝ) ^ (snr / 10) * fb / (1225 * fs))) := by
    refine (measureReal_iUnion_fintype_le _).trans ((Finset.sum_le_card_nsmul _ _ (Real.exp (-((10 : ℝ) ^ (snr / 10) * fb / (1225 * fs)))) fun p _ => ?_).trans (le_of_eq ?_))
    · rw [hB]
      exact hnoise p.1 p.2
    · rw [Finset.card_univ, Fintype.card_prod, Fintype.card_fin, Fintype.card_fin, nsmul_eq_mul]
      push_cast
      ring
  refine (measureReal_mono (s₂ := ⋃ p, B p) ?_ (measure_ne_top _ _)).trans hU
  intro w hbad
  by_contra hgood
  refine hbad ?_
  rw [Set.mem_iUnion, not_exists] at hgood
  have hE := simulate_offset x fo fs fb snr w
  rw [← hsg] at hE
  obtain ⟨E, hEd⟩ : ∃ E, E = ((List.ofFn fun l => List.ofFn (x l)).mapIdx fun l r => r.mapIdx fun j z => z * Complex.exp (I * ((2 * Real.pi * j * fo / fs : ℝ) : ℂ)) + modeNoise sg w l j) := ⟨_, rfl⟩
  rw [← hEd] at hE
  have hrow : ∀ l : Fin m, E[(l : ℕ)]? = some (List.ofFn fun k : Fin n => x l k * Complex.exp (I * ((2 * Real.pi * (k : ℕ) * fo / fs : ℝ) : ℂ)) + modeNoise sg w l k) := by
    intro l
    rw [hEd, List.getElem?_mapIdx, List.getElem?_ofFn, dif_pos l.2, Option.map_some]
    congr 1
    apply List.ext_getElem
    · simp
    · intro j h1 h2
      simp
  have hElen : E.length = m := by rw [hEd]; simp
  obtain ⟨est, comp, h1, h2, h3, h4⟩ := C167_qpsk_chain E symbols c (fun l k => if h : l < m ∧ k < n then x ⟨l, h.1⟩ ⟨k, h.2⟩ else c) (fun _ => 0) fo fs fftSize M N average hfs hc hsym hnd hf hM
    hN hN2 hF (by
      intro l r hr
      have hlm : l < m := by
        rw [← hElen]
        exact (List.getElem?_eq_some_iff.1 hr).1
      have := hrow ⟨l, hlm⟩
      simp only at this
      rw [this, Option.some.injEq] at hr
      subst hr
      rw [List.length_ofFn]
      refine ⟨hlen, fun k hk => ⟨?_, ?_⟩⟩
      · rw [dif_pos ⟨hlm, hk⟩]
        exact hx _ _
      · rw [dif_pos ⟨hlm, hk⟩, List.getD_eq_getElem _ _ (by rw [List.length_ofFn]; exact hk), List.getElem_ofFn, add_zero, add_sub_cancel_left]
        have := hgood (⟨l, hlm⟩, ⟨k, hk⟩)
        rw [hB, Set.mem_ofPred_eq, not_lt] at this
        unfold modeNoise
        rw [dif_pos ⟨hlm, hk⟩]
        exact this)
  refine ⟨E, est, comp, hE, h1, h2, by rw [h3, hElen], fun l => ?_⟩
  obtain ⟨r', out, ph, q, d, g1, g2, g3, g4, -⟩ := h4 l _ (hrow l)
  rw [List.length_ofFn] at g3 g4
  refine ⟨r', out, ph, q, d, g1, g2, g3, ?_, ?_⟩
  · intro k hk1 hk2
    rw [g4, List.getElem?_map, List.getElem?_range (by omega), Option.map_some]
    have e : N + ((k : ℕ) - N) = k := by omega
    rw [e, dif_pos ⟨l.2, k.2⟩]
  · have := congrArg List.length g4
    simpa using this

/-- Two modes of 1024 samples each with an offset of a tenth of the symbol rate at 45 dB SNR: an error is less likely than `2048 exp (-25)`. -/
example (x : Fin 2 → Fin 1024 → ℂ) (hx : ∀ l k, x l k ∈ [1, I, -1, -I]) :
    (linkLaw 2 1024).real {w | ¬ ∃ (E : List (List ℂ)) (est : List ℝ) (comp : List (List ℂ)),
      simulateTransmission ⟨1, 1, none⟩ (modeDraws w) { snr := some 45, freqOff := some 0.1 } (List.ofFn fun l => List.ofFn (x l)) = .ok E ∧
      findFreqOffset E 1 false 1024 = some est ∧ compFreqOffset E est 1 = .ok comp ∧ comp.length = 2 ∧
      ∀ l : Fin 2, ∃ (r out : List ℂ) (ph : List ℝ) (q : Nat) (d : List (ℂ × ℝ × Nat)), comp[(l : ℕ)]? = some r ∧ bps r 16 [1, I, -1, -I] 20 = some (out, ph) ∧
        makeDecision ((out.drop 20).take (1024 - 2 * 20)) [1, I, -1, -I] = some d ∧
        (∀ k : Fin 1024, 20 ≤ (k : ℕ) → (k : ℕ) + 20 < 1024 → (d.map (·.1))[(k : ℕ) - 20]? = some (I ^ q * x l k)) ∧ d.length = 1024 - 2 * 20} ≤ 2048 * Real.exp (-25) := by
  have hclog : Nat.clog 2 1024 = 10 := by decide +kernel
  have h := C214_qpsk_link x [1, I, -1, -I] 1 0.1 1 1 45 1024 16 20 false one_pos one_pos norm_one (by
      intro z
      simp only [List.mem_cons, List.not_mem_nil, or_false, mul_one]
      constructor
      · rintro (rfl | rfl | rfl | rfl)
        · exact ⟨0, by simp⟩
        · exact ⟨1, by simp⟩
        · exact ⟨2, by rw [show (2 : ℤ) = (2 : ℕ) by norm_num, zpow_natCast, Complex.I_sq]⟩
        · exact ⟨3, by rw [show (3 : ℤ) = (3 : ℕ) by norm_num, zpow_natCast, pow_succ, Complex.I_sq]; ring⟩
      · rintro ⟨q, rfl⟩
        have hq : q = 4 * (q / 4) + q % 4 := by omega
        have hr : q % 4 = 0 ∨ q % 4 = 1 ∨ q % 4 = 2 ∨ q % 4 = 3 := by omega
        have h4 : I ^ (4 : ℤ) = 1 := by rw [show (4 : ℤ) = (4 : ℕ) by norm_num, zpow_natCast, Complex.I_pow_four]
        rw [hq, zpow_add₀ Complex.I_ne_zero, zpow_mul, h4, one_zpow, one_mul]
        rcases hr with h | h | h | h <;> rw [h]
        · simp
        · simp
        · right; right; left
          rw [show (2 : ℤ) = (2 : ℕ) by norm_num, zpow_natCast, Complex.I_sq]
        · right; right; right
          rw [show (3 : ℤ) = (3 : ℕ) by norm_num, zpow_natCast, pow_succ, Complex.I_sq]; ring) (by
      simp [Complex.ext_iff]
      norm_num) hx (by rw [hclog, abs_of_pos (by norm_num)]; norm_num) (by norm_num) (by norm_num) (by norm_num) (by rw [hclog]; norm_num) (by rw [hclog]; norm_num)
  refine h.trans ?_
  have e2 : Real.exp (-((10 : ℝ) ^ ((45 : ℝ) / 10) * 1 / (1225 * 1))) ≤ Real.exp (-25) := by
    refine Real.exp_le_exp.2 (neg_le_neg ?_)
    have : (10 : ℝ) ^ ((45 : ℝ) / 10) = 10 ^ 4 * Real.sqrt 10 := by
      rw [show (45 : ℝ) / 10 = (4 : ℕ) + 1 / 2 by norm_num, Real.rpow_add (by norm_num), Real.rpow_natCast, ← Real.sqrt_eq_rpow]
    have h10 : (3.16 : ℝ) ≤ Real.sqrt 10 := Real.le_sqrt_of_sq_le (by norm_num)
    rw [this, le_div_iff₀ (by norm_num)]
    linarith
  push_cast
  linarith

end Qampy
