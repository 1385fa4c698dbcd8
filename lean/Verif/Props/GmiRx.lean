import Verif.Props.Info
import Verif.Props.PilotMetrics

/-!
C197: the generalised mutual information of a received signal.
-/

namespace Qampy

open MeasureTheory ProbabilityTheory

/-- Probability, given the received value `x`, that bit `bit` of the label of the sent symbol is `b`, for equally likely symbols and Gaussian noise of variance `1/snr`. -/
noncomputable def bitPosterior {k : Nat} (S : Fin (2 ^ k) → ℂ) (snr : ℝ) (x : ℂ) (bit : Fin k) (b : Bool) : ℝ :=
  (∑ j with labelBit k j bit = b, Real.exp (-(snr * ‖x - S j‖ ^ 2))) / ∑ j, Real.exp (-(snr * ‖x - S j‖ ^ 2))

theorem rows_chunk {k : Nat} : ∀ rows : List (List Bool), (∀ r ∈ rows, r.length = k) → ((List.range rows.length).map fun i => (rows.flatten.drop (i * k)).take k) = rows := by
  intro rows
  induction rows with
  | nil => intro _; rfl
  | cons r rows ih =>
    intro h
    have hr : r.length = k := h r (by simp)
    rw [List.length_cons, List.range_succ_eq_map, List.map_cons, List.map_map, List.flatten_cons]
    congr 1
    · rw [zero_mul, List.drop_zero, List.take_left' hr]
    · conv_rhs => rw [← ih fun r hr => h r (by simp [hr])]
      apply List.map_congr_left
      intro i _
      rw [Function.comp_apply, Nat.succ_mul, Nat.add_comm, ← List.drop_drop, List.drop_left' hr]

/-- The sent bits, one row per symbol. -/
theorem bitRows_demodulate {k n : Nat} (hk : 1 ≤ k) (S : Fin (2 ^ k) → ℂ) (hS : Function.Injective S) (idx : Fin n → Fin (2 ^ k)) :
    ∃ bits, demodulate k (List.ofFn S) (List.ofFn fun t => S (idx t)) = some bits ∧ bitRows k bits = List.ofFn fun t => encodingRow k (idx t) := by
  have hnd : (List.ofFn S).Nodup := List.nodup_ofFn.2 hS
  have hg : (List.ofFn fun t => S (idx t)) = gather (List.ofFn S) (List.ofFn fun t => (idx t : ℕ)) := by
    unfold gather
    rw [List.filterMap_eq_map_iff_forall_eq_some (f := fun i : ℕ => (List.ofFn S)[i]?) (g := fun i : ℕ => (List.ofFn S).getD i 0) |>.2]
    · rw [List.map_ofFn]
      congr 1
      funext t
      simp
    · intro i hi
      obtain ⟨t, rfl⟩ := (List.mem_ofFn' _ _).1 hi
      simp
  refine ⟨((List.ofFn fun t => (idx t : ℕ)).map (encodingRow k)).flatten, ?_, ?_⟩
  · have hlt : ∀ i ∈ (List.ofFn fun t => (idx t : ℕ)), i < 2 ^ k := by
      intro i hi
      obtain ⟨t, rfl⟩ := (List.mem_ofFn' _ _).1 hi
      exact (idx t).2
    rw [hg, demodulate, makeDecision_gather hnd _ (by rw [List.length_ofFn]; exact hlt)]
    simp only [Option.map_some, Option.some.injEq, List.map_map, Function.comp_def, demodulateIdx, List.map_id_fun', id]
    rw [gather_encoding k _ hlt]
  · have h := rows_chunk (k := k) ((List.ofFn fun t => (idx t : ℕ)).map (encodingRow k)) (by
      intro r hr
      obtain ⟨i, -, rfl⟩ := List.mem_map.1 hr
      exact length_encodingRow k i)
    rw [bitRows, length_rows, List.length_ofFn, Nat.mul_div_cancel _ (by omega)]
    rw [List.length_map, List.length_ofFn] at h
    rw [h, List.map_ofFn]
    rfl

/-- One term of the mean of `GMI_per_bit` is minus the logarithm of the posterior probability of the sent bit. -/
theorem gmi_term {k : Nat} (S : Fin (2 ^ k) → ℂ) (snr : ℝ) (x : ℂ) (bit : Fin k) (b : Bool) :
    Real.logb 2 (1 + Real.exp ((-1) ^ b.toNat * calLValues (bitmapColumn k (List.ofFn S) bit) x snr)) = -Real.logb 2 (bitPosterior S snr x bit b) := by
  obtain ⟨m, hm, -, hcol⟩ := C17_bitmap k (List.ofFn S) (by simp)
  rw [bitmapMtx_ofFn] at hm
  cases hm
  obtain ⟨l1, l2, -⟩ := hcol bit (bitmapColumn k (List.ofFn S) bit) (by simp)
  rw [bitmapColumn_ofFn] at l1 l2 ⊢
  dsimp only at l1 l2
  have hpos : ∀ L : List ℂ, L.length = 2 ^ (k - 1) → 0 < (L.map fun s => Real.exp (-snr * ‖s - x‖ ^ 2)).sum := by
    intro L hL
    apply List.sum_pos
    · intro y hy
      obtain ⟨s, -, rfl⟩ := List.mem_map.1 hy
      exact Real.exp_pos _
    · intro h0
      have := congrArg List.length h0
      rw [List.length_map, hL] at this
      have hp : 0 < 2 ^ (k - 1) := by positivity
      simp at this
  have p0 := hpos _ l1
  have p1 := hpos _ l2
  unfold calLValues bitPosterior
  dsimp only
  rw [select_sum] at p0 p1
  rw [select_sum, select_sum]
  have hall := Finset.sum_filter_add_sum_filter_not Finset.univ (fun j : Fin (2 ^ k) => labelBit k j bit = true) fun j => Real.exp (-snr * ‖S j - x‖ ^ 2)
  have e1 : ∀ j, Real.exp (-(snr * ‖x - S j‖ ^ 2)) = Real.exp (-snr * ‖S j - x‖ ^ 2) := by
    intro j
    rw [norm_sub_rev, neg_mul]
  simp_rw [e1]
  simp only [Bool.not_eq_true, Bool.not_eq_true'] at hall p0 ⊢
  obtain ⟨P0, hP0⟩ : ∃ P0, P0 = ∑ j with labelBit k j bit = false, Real.exp (-snr * ‖S j - x‖ ^ 2) := ⟨_, rfl⟩
  obtain ⟨P1, hP1⟩ : ∃ P1, P1 = ∑ j with labelBit k j bit = true, Real.exp (-snr * ‖S j - x‖ ^ 2) := ⟨_, rfl⟩
  rw [← hP0] at p0 hall ⊢
  rw [← hP1] at p1 hall ⊢
  have hb : (∑ j with labelBit k j bit = b, Real.exp (-snr * ‖S j - x‖ ^ 2)) = if b then P1 else P0 := by
    cases b
    · rw [hP0]; rfl
    · rw [hP1]; rfl
  rw [hb, ← hall, ← Real.logb_inv, inv_div]
  congr 1
  cases b
  · simp only [Bool.toNat_false, pow_zero, one_mul, Bool.false_eq_true, if_false]
    rw [Real.exp_sub, Real.exp_log p1, Real.exp_log p0]
    field_simp
    ring
  · simp only [Bool.toNat_true, pow_one, neg_one_mul, neg_sub, if_true]
    rw [Real.exp_sub, Real.exp_log p1, Real.exp_log p0]
    field_simp

/-- C197: the value of `cal_gmi` for one mode is the sum over the bits of the label of one plus the mean logarithm of the posterior probability of the sent bit, for every received signal. -/
theorem C197_posterior {k n : Nat} (hk : 1 ≤ k) (S : Fin (2 ^ k) → ℂ) (hS : Function.Injective S) (m : List (List ℂ × List ℂ)) (hm : bitmapMtx k (List.ofFn S) = .ok m)
    (idx : Fin n → Fin (2 ^ k)) (_hn : 1 ≤ n) (rx : Fin n → ℂ) (snr : ℝ) :
    gmiMode k (List.ofFn S) m false (List.ofFn fun t => S (idx t)) (List.ofFn rx) snr =
      .ok (∑ bit : Fin k, (1 + (∑ t, Real.logb 2 (bitPosterior S snr (rx t) bit ((idx t : ℕ).testBit (k - 1 - bit)))) / n)) := by
  obtain ⟨bits, h1, h2⟩ := bitRows_demodulate hk S hS idx
  rw [bitmapMtx_ofFn] at hm
  cases hm
  unfold gmiMode
  rw [h1]
  dsimp only
  rw [h2]
  congr 1
  unfold calGmi gmiPerBit softLValueDemapper
  have hr : List.range k = List.ofFn fun i : Fin k => (i : ℕ) := by
    apply List.ext_getElem <;> simp
  rw [hr, sum_map_ofFn]
  apply Finset.sum_congr rfl
  intro bit _
  simp only [Bool.false_eq_true, if_false, List.length_ofFn]
  rw [sub_eq_add_neg, ← neg_div, List.map_ofFn, zip_ofFn, sum_map_ofFn, ← Finset.sum_neg_distrib]
  congr 2
  apply Finset.sum_congr rfl
  intro t _
  dsimp only [Function.comp_apply]
  rw [List.getD_eq_getElem?_getD, encodingRow_getElem? _ _ _ bit.2, Option.getD_some]
  have e : (List.map (fun btx => calLValues btx (rx t) snr) (List.ofFn fun bit : Fin k => bitmapColumn k (List.ofFn S) bit)).getD (bit : ℕ) 0 = calLValues (bitmapColumn k (List.ofFn S) bit) (rx t) snr := by
    simp
  rw [e, gmi_term, neg_neg]

/-- C197: if every received value is closer to the sent symbol than to all others, by `g` in the squared distance, the result lies below the number of bits by at most
`k log2 (1 + 2^k exp(-snr g))`, so it tends to `k` for increasing SNR; it is never larger than `k`. -/
theorem C197_high {k n : Nat} (hk : 1 ≤ k) (S : Fin (2 ^ k) → ℂ) (hS : Function.Injective S) (m : List (List ℂ × List ℂ)) (hm : bitmapMtx k (List.ofFn S) = .ok m)
    (idx : Fin n → Fin (2 ^ k)) (hn : 1 ≤ n) (rx : Fin n → ℂ) (snr g : ℝ) (hsnr : 0 ≤ snr) (hg : ∀ t j, j ≠ idx t → ‖rx t - S (idx t)‖ ^ 2 + g ≤ ‖rx t - S j‖ ^ 2) :
    ∃ v, gmiMode k (List.ofFn S) m false (List.ofFn fun t => S (idx t)) (List.ofFn rx) snr = .ok v ∧ k - k * Real.logb 2 (1 + 2 ^ k * Real.exp (-(snr * g))) ≤ v ∧ v ≤ k := by
  refine ⟨_, C197_posterior hk S hS m hm idx hn rx snr, ?_⟩
  have hn' : (0 : ℝ) < n := by exact_mod_cast hn
  have hq : 0 < Real.exp (-(snr * g)) := Real.exp_pos _
  have key : ∀ (bit : Fin k) (t : Fin n), -Real.logb 2 (1 + 2 ^ k * Real.exp (-(snr * g))) ≤ Real.logb 2 (bitPosterior S snr (rx t) bit ((idx t : ℕ).testBit (k - 1 - bit))) ∧
      Real.logb 2 (bitPosterior S snr (rx t) bit ((idx t : ℕ).testBit (k - 1 - bit))) ≤ 0 := by
    intro bit t
    unfold bitPosterior
    have hall := Finset.sum_filter_add_sum_filter_not Finset.univ (fun j : Fin (2 ^ k) => labelBit k j bit = (idx t : ℕ).testBit (k - 1 - bit)) fun j => Real.exp (-(snr * ‖rx t - S j‖ ^ 2))
    have hA : Real.exp (-(snr * ‖rx t - S (idx t)‖ ^ 2)) ≤ ∑ j with labelBit k j bit = (idx t : ℕ).testBit (k - 1 - bit), Real.exp (-(snr * ‖rx t - S j‖ ^ 2)) :=
      Finset.single_le_sum (f := fun j => Real.exp (-(snr * ‖rx t - S j‖ ^ 2))) (fun j _ => (Real.exp_pos _).le) (Finset.mem_filter.2 ⟨Finset.mem_univ (idx t), rfl⟩)
    have hB0 : 0 ≤ ∑ j with ¬ labelBit k j bit = (idx t : ℕ).testBit (k - 1 - bit), Real.exp (-(snr * ‖rx t - S j‖ ^ 2)) := Finset.sum_nonneg fun _ _ => (Real.exp_pos _).le
    have hB : ∑ j with ¬ labelBit k j bit = (idx t : ℕ).testBit (k - 1 - bit), Real.exp (-(snr * ‖rx t - S j‖ ^ 2)) ≤
        2 ^ k * (Real.exp (-(snr * ‖rx t - S (idx t)‖ ^ 2)) * Real.exp (-(snr * g))) := by
      refine (Finset.sum_le_card_nsmul _ _ (Real.exp (-(snr * ‖rx t - S (idx t)‖ ^ 2)) * Real.exp (-(snr * g))) ?_).trans ?_
      · intro j hj
        rw [← Real.exp_add, Real.exp_le_exp]
        have hne : j ≠ idx t := by
          rintro rfl
          exact (Finset.mem_filter.1 hj).2 rfl
        have := mul_le_mul_of_nonneg_left (hg t j hne) hsnr
        linarith
      · rw [nsmul_eq_mul]
        apply mul_le_mul_of_nonneg_right _ (by positivity)
        have := Finset.card_filter_le (Finset.univ : Finset (Fin (2 ^ k))) fun j => ¬ labelBit k j bit = (idx t : ℕ).testBit (k - 1 - bit)
        rw [Finset.card_univ, Fintype.card_fin] at this
        exact_mod_cast this
    rw [← hall]
    have he := Real.exp_pos (-(snr * ‖rx t - S (idx t)‖ ^ 2))
    generalize ∑ j with labelBit k j bit = (idx t : ℕ).testBit (k - 1 - bit), Real.exp (-(snr * ‖rx t - S j‖ ^ 2)) = A at *
    generalize ∑ j with ¬ labelBit k j bit = (idx t : ℕ).testBit (k - 1 - bit), Real.exp (-(snr * ‖rx t - S j‖ ^ 2)) = B at *
    have hA0 : 0 < A := he.trans_le hA
    have h2k : (0 : ℝ) < 2 ^ k := by positivity
    constructor
    · rw [← Real.logb_inv]
      apply Real.logb_le_logb_of_le (by norm_num) (by positivity)
      rw [inv_le_comm₀ (by positivity) (by positivity), inv_div, div_le_iff₀ hA0]
      have := mul_le_mul_of_nonneg_left hA (by positivity : 0 ≤ 2 ^ k * Real.exp (-(snr * g)))
      linarith
    · apply Real.logb_nonpos (by norm_num) (by positivity)
      rw [div_le_one (by linarith)]
      linarith
  have hsum : ∀ f : Fin k → ℝ, (∀ bit, f bit ≤ 1) → ∑ bit, f bit ≤ k := by
    intro f hf
    have := Finset.sum_le_card_nsmul Finset.univ f 1 fun bit _ => hf bit
    simpa using this
  constructor
  · have h := Finset.card_nsmul_le_sum Finset.univ (fun bit : Fin k => 1 + (∑ t, Real.logb 2 (bitPosterior S snr (rx t) bit ((idx t : ℕ).testBit (k - 1 - bit)))) / n)
      (1 - Real.logb 2 (1 + 2 ^ k * Real.exp (-(snr * g)))) (by
        intro bit _
        have h1 := Finset.card_nsmul_le_sum Finset.univ (fun t => Real.logb 2 (bitPosterior S snr (rx t) bit ((idx t : ℕ).testBit (k - 1 - bit)))) _ fun t _ => (key bit t).1
        rw [Finset.card_univ, Fintype.card_fin, nsmul_eq_mul] at h1
        have h2 : -Real.logb 2 (1 + 2 ^ k * Real.exp (-(snr * g))) ≤ (∑ t, Real.logb 2 (bitPosterior S snr (rx t) bit ((idx t : ℕ).testBit (k - 1 - bit)))) / n := by
          rw [le_div_iff₀ hn']
          linarith
        linarith)
    rw [Finset.card_univ, Fintype.card_fin, nsmul_eq_mul] at h
    linarith
  · apply hsum
    intro bit
    have h1 := Finset.sum_nonpos fun t (_ : t ∈ (Finset.univ : Finset (Fin n))) => (key bit t).2
    have h2 := div_nonpos_of_nonpos_of_nonneg h1 hn'.le
    linarith

theorem label_half {k : Nat} (bit : Fin k) (c : Bool) : (Finset.univ.filter fun j => labelBit k j bit = c).card * 2 = 2 ^ k := by
  obtain ⟨m, hm, -, hcol⟩ := C17_bitmap k (List.ofFn fun _ : Fin (2 ^ k) => (0 : ℂ)) (by simp)
  rw [bitmapMtx_ofFn] at hm
  cases hm
  obtain ⟨h1, h2, -⟩ := hcol bit (bitmapColumn k (List.ofFn fun _ : Fin (2 ^ k) => (0 : ℂ)) bit) (by simp)
  rw [bitmapColumn_ofFn] at h1 h2
  have hlen : ∀ b : Fin (2 ^ k) → Bool, ((Np.select (List.ofFn fun _ : Fin (2 ^ k) => (0 : ℂ)) (List.ofFn b)).length : ℝ) = ((Finset.univ.filter fun j => b j = true).card : ℝ) := by
    intro b
    have := select_sum _ (fun _ : Fin (2 ^ k) => (0 : ℂ)) b fun _ => 1
    simpa using this
  have e : 2 ^ (k - 1) * 2 = 2 ^ k := by
    rw [← pow_succ]
    congr 1
    have := bit.2
    omega
  refine Eq.trans ?_ e
  congr 1
  cases c
  · have := hlen fun l => !labelBit k l bit
    dsimp only at h1
    rw [h1] at this
    have h3 : 2 ^ (k - 1) = (Finset.univ.filter fun j => (!labelBit k j bit) = true).card := by exact_mod_cast this
    rw [h3]
    congr 1
    ext j
    simp
  · have := hlen fun l => labelBit k l bit
    dsimp only at h2
    rw [h2] at this
    have h3 : 2 ^ (k - 1) = (Finset.univ.filter fun j => labelBit k j bit = true).card := by exact_mod_cast this
    exact h3.symm

theorem bitInfo_label {k : Nat} (S : Fin (2 ^ k) → ℂ) {N0 : ℝ} (h0 : 0 < N0) (bit : Fin k) :
    bitInfo S (fun l => labelBit k l bit) N0 = 1 - (∑ i, avgLog S N0 (Finset.univ.filter fun j => labelBit k j bit = labelBit k i bit) i / Real.log 2) / 2 ^ k := by
  have hMp : (0 : ℝ) < ((2 ^ k : ℕ) : ℝ) := by positivity
  rw [bitInfo_eq S _ h0]
  have e1 : ∀ i, Real.logb 2 (((2 ^ k : ℕ) : ℝ) / ((Finset.univ.filter fun j => labelBit k j bit = labelBit k i bit).card : ℝ)) = 1 := by
    intro i
    have h2 : ((2 ^ k : ℕ) : ℝ) = ((Finset.univ.filter fun j => labelBit k j bit = labelBit k i bit).card : ℝ) * 2 := by exact_mod_cast (label_half bit (labelBit k i bit)).symm
    have h3 : (0 : ℝ) < ((Finset.univ.filter fun j => labelBit k j bit = labelBit k i bit).card : ℝ) := by
      rw [h2] at hMp
      linarith
    rw [h2, mul_div_cancel_left₀ _ h3.ne']
    exact Real.logb_self_eq_one (by norm_num)
  simp_rw [e1]
  rw [Finset.sum_sub_distrib, Finset.sum_const, Finset.card_univ, Fintype.card_fin, nsmul_eq_mul, mul_one, sub_div, div_self hMp.ne']
  push_cast
  rfl

/-- C197: if the data use all symbols equally often and the signal is received with independent Gaussian noise of variance `N0 = 1/snr`, the average of `cal_gmi` over the noise is the
sum of the mutual informations of the single bits of the label and the received value. -/
theorem C197_average {k n : Nat} (hk : 1 ≤ k) (S : Fin (2 ^ k) → ℂ) (hS : Function.Injective S) (m : List (List ℂ × List ℂ)) (hm : bitmapMtx k (List.ofFn S) = .ok m)
    (idx : Fin n → Fin (2 ^ k)) (hn : 1 ≤ n) (hbal : ∀ i, (Finset.univ.filter fun t => idx t = i).card * 2 ^ k = n) {N0 : ℝ} (h0 : 0 < N0) :
    ∃ g : (Fin n → ℝ × ℝ) → ℝ, (∀ w, gmiMode k (List.ofFn S) m false (List.ofFn fun t => S (idx t)) (List.ofFn fun t => rcv N0 (S (idx t)) (w t)) (1 / N0) = .ok (g w)) ∧
      Integrable g (noiseLaw n) ∧ ∫ w, g w ∂noiseLaw n = ∑ bit : Fin k, bitInfo S (fun l => labelBit k l bit) N0 := by
  have hn' : (0 : ℝ) < n := by exact_mod_cast hn
  refine ⟨_, fun w => C197_posterior hk S hS m hm idx hn _ _, ?_⟩
  obtain ⟨T, hT⟩ : ∃ T : Fin k → Fin (2 ^ k) → ℝ × ℝ → ℝ, T = fun bit i z => Real.logb 2 (bitPosterior S (1 / N0) (rcv N0 (S i) z) bit (labelBit k i bit)) := ⟨_, rfl⟩
  have hTi : ∀ bit i, Integrable (T bit i) stdN2 ∧ ∫ z, T bit i z ∂stdN2 = -(avgLog S N0 (Finset.univ.filter fun j => labelBit k j bit = labelBit k i bit) i / Real.log 2) := by
    intro bit i
    have hi : i ∈ Finset.univ.filter fun j => labelBit k j bit = labelBit k i bit := by simp
    have e : T bit i = fun z => -(Real.log (sumDens S N0 Finset.univ (rcv N0 (S i) z) / sumDens S N0 (Finset.univ.filter fun j => labelBit k j bit = labelBit k i bit) (rcv N0 (S i) z)) / Real.log 2) := by
      funext z
      rw [hT]
      dsimp only
      have hp : bitPosterior S (1 / N0) (rcv N0 (S i) z) bit (labelBit k i bit) =
          (sumDens S N0 Finset.univ (rcv N0 (S i) z) / sumDens S N0 (Finset.univ.filter fun j => labelBit k j bit = labelBit k i bit) (rcv N0 (S i) z))⁻¹ := by
        rw [inv_div]
        unfold bitPosterior sumDens chDens
        rw [← Finset.mul_sum, ← Finset.mul_sum, mul_div_mul_left _ _ (by have := Real.pi_pos; positivity)]
        congr 1 <;> (apply Finset.sum_congr rfl; intro j _; congr 1; ring)
      rw [hp, Real.logb_inv]
      rfl
    rw [e]
    refine ⟨((avgLog_eq S h0 hi).1.div_const _).neg, ?_⟩
    rw [integral_neg, integral_div]
    rfl
  have hsplit : ∀ w : Fin n → ℝ × ℝ, ∑ bit : Fin k, (1 + (∑ t, Real.logb 2 (bitPosterior S (1 / N0) (rcv N0 (S (idx t)) (w t)) bit ((idx t : ℕ).testBit (k - 1 - bit)))) / n) =
      k + (∑ t, ∑ bit, T bit (idx t) (w t)) / n := by
    intro w
    rw [Finset.sum_add_distrib, ← Finset.sum_div, Finset.sum_comm, hT]
    simp [labelBit]
  simp_rw [hsplit]
  obtain ⟨h1, h2⟩ := noise_sum (fun t z => ∑ bit, T bit (idx t) z) fun t => integrable_finsetSum _ fun bit _ => (hTi bit (idx t)).1
  refine ⟨(integrable_const _).add (h1.div_const _), ?_⟩
  rw [integral_add (integrable_const _) (h1.div_const _), integral_div, h2]
  have hint : ∀ t, ∫ z, ∑ bit, T bit (idx t) z ∂stdN2 = ∑ bit, -(avgLog S N0 (Finset.univ.filter fun j => labelBit k j bit = labelBit k (idx t) bit) (idx t) / Real.log 2) := by
    intro t
    rw [integral_finsetSum _ fun bit _ => (hTi bit (idx t)).1]
    exact Finset.sum_congr rfl fun bit _ => (hTi bit (idx t)).2
  simp_rw [hint, bitInfo_label S h0]
  obtain ⟨F, hF⟩ : ∃ F : Fin (2 ^ k) → ℝ, F = fun i => ∑ bit, -(avgLog S N0 (Finset.univ.filter fun j => labelBit k j bit = labelBit k i bit) i / Real.log 2) := ⟨_, rfl⟩
  have hcount : (∑ t, F (idx t)) * 2 ^ k = n * ∑ i, F i := by
    rw [← Finset.sum_fiberwise (s := Finset.univ) (g := idx) (f := fun t => F (idx t)), Finset.sum_mul, Finset.mul_sum]
    apply Finset.sum_congr rfl
    intro i _
    rw [Finset.sum_congr rfl (g := fun _ => F i) (by
      intro t ht
      rw [(Finset.mem_filter.1 ht).2]), Finset.sum_const, nsmul_eq_mul]
    have : ((Finset.univ.filter fun t => idx t = i).card : ℝ) * 2 ^ k = n := by exact_mod_cast hbal i
    rw [← this]
    ring
  have hgoal : (∑ t, F (idx t)) / n = (∑ i, F i) / 2 ^ k := by
    rw [div_eq_div_iff hn'.ne' (by positivity), hcount]
    ring
  rw [hF] at hgoal
  rw [hgoal]
  simp only [integral_const, probReal_univ, smul_eq_mul, one_mul]
  rw [Finset.sum_sub_distrib, Finset.sum_comm, ← Finset.sum_div]
  simp only [Finset.sum_neg_distrib, Finset.sum_const, Finset.card_univ, Fintype.card_fin, nsmul_eq_mul, mul_one]
  ring

/-- C197: `cal_gmi` of a synchronised signal with the SNRs of the modes in dB gives these values, mode by mode. -/
theorem C197_rows {k n L : Nat} (hk : 1 ≤ k) (S : Fin (2 ^ k) → ℂ) (hS : Function.Injective S) (m : List (List ℂ × List ℂ)) (hm : bitmapMtx k (List.ofFn S) = .ok m)
    (idx : Fin L → Fin n → Fin (2 ^ k)) (hn : 1 ≤ n) (rx : Fin L → Fin n → ℂ) (snrDb : Fin L → ℝ) :
    calGmiRows k (List.ofFn S) m false true (some (List.ofFn snrDb)) (List.ofFn fun i => List.ofFn fun t => S (idx i t)) (List.ofFn fun i => List.ofFn (rx i)) =
      .ok (List.ofFn fun i => ∑ bit : Fin k, (1 + (∑ t, Real.logb 2 (bitPosterior S ((10 : ℝ) ^ (snrDb i / 10)) (rx i t) bit ((idx i t : ℕ).testBit (k - 1 - bit)))) / n)) := by
  have hrow : ∀ (f : Fin L → Fin n → ℂ), ∀ r ∈ (List.ofFn fun i => List.ofFn (f i)), r.length = n := by
    intro f r hr
    obtain ⟨i, rfl⟩ := (List.mem_ofFn' _ _).1 hr
    simp
  have hadj := adjustOnly_rows (List.ofFn fun i => List.ofFn fun t => S (idx i t)) (List.ofFn fun i => List.ofFn (rx i)) n n hn (hrow fun i t => S (idx i t)) (hrow rx) (by simp)
  have hsame : ((List.ofFn fun i => List.ofFn fun t => S (idx i t)).map fun r => (List.range n).map fun q => r.getD (q % n) 0) = List.ofFn fun i => List.ofFn fun t => S (idx i t) := by
    conv_rhs => rw [← List.map_id (List.ofFn fun i => List.ofFn fun t => S (idx i t))]
    apply List.map_congr_left
    intro r hr
    have hl := hrow (fun i t => S (idx i t)) r hr
    rw [id, row_as_range r n hl]
    apply List.map_congr_left
    intro q hq
    rw [← row_as_range r n hl, Nat.mod_eq_of_lt (List.mem_range.1 hq)]
  rw [hsame] at hadj
  unfold calGmiRows alignRows
  simp only [if_true, hadj, bind, Except.bind, snrArg, List.length_ofFn, ne_eq, not_true_eq_false, if_false]
  have key : ∀ (l : List (Fin L)), (l.map fun i : Fin L => (i : ℕ)).mapM (fun i => match (List.ofFn fun i => List.ofFn fun t => S (idx i t))[i]?, (List.ofFn fun i => List.ofFn (rx i))[i]?,
      ((List.ofFn snrDb).map fun x => (10 : ℝ) ^ (x / 10))[i]? with
      | some a, some b, some x => gmiMode k (List.ofFn S) m false a b x
      | _, _, _ => .error .index) =
      .ok (l.map fun i => ∑ bit : Fin k, (1 + (∑ t, Real.logb 2 (bitPosterior S ((10 : ℝ) ^ (snrDb i / 10)) (rx i t) bit ((idx i t : ℕ).testBit (k - 1 - bit)))) / n)) := by
    intro l
    induction l with
    | nil => rfl
    | cons i l ih =>
      rw [List.map_cons, List.mapM_cons, ih]
      have e1 : (List.ofFn fun i => List.ofFn fun t => S (idx i t))[(i : ℕ)]? = some (List.ofFn fun t => S (idx i t)) := by simp
      have e2 : (List.ofFn fun i => List.ofFn (rx i))[(i : ℕ)]? = some (List.ofFn (rx i)) := by simp
      have e3 : ((List.ofFn snrDb).map fun x => (10 : ℝ) ^ (x / 10))[(i : ℕ)]? = some ((10 : ℝ) ^ (snrDb i / 10)) := by simp
      simp only [e1, e2, e3]
      rw [C197_posterior hk S hS m hm (idx i) hn (rx i)]
      rfl
  have hr : List.range L = (List.finRange L).map fun i : Fin L => (i : ℕ) := by
    apply List.ext_getElem <;> simp
  rw [hr]
  exact (key (List.finRange L)).trans (by rw [List.ofFn_eq_map])

/-- C197: the same bounds for the max-log L-values (`llr_minmax=True`), without the factor `2^k`, for received values within 100 of all symbols. -/
theorem C197_minmax {k n : Nat} (hk : 1 ≤ k) (S : Fin (2 ^ k) → ℂ) (hS : Function.Injective S) (m : List (List ℂ × List ℂ)) (hm : bitmapMtx k (List.ofFn S) = .ok m)
    (idx : Fin n → Fin (2 ^ k)) (hn : 1 ≤ n) (rx : Fin n → ℂ) (snr g : ℝ) (hsnr : 0 ≤ snr) (hg : ∀ t j, j ≠ idx t → ‖rx t - S (idx t)‖ ^ 2 + g ≤ ‖rx t - S j‖ ^ 2)
    (h100 : ∀ t j, ‖rx t - S j‖ ≤ 100) :
    ∃ v, gmiMode k (List.ofFn S) m true (List.ofFn fun t => S (idx t)) (List.ofFn rx) snr = .ok v ∧ k - k * Real.logb 2 (1 + Real.exp (-(snr * g))) ≤ v ∧ v ≤ k := by
  obtain ⟨bits, h1, h2⟩ := bitRows_demodulate hk S hS idx
  have hn' : (0 : ℝ) < n := by exact_mod_cast hn
  have hbt := bitmapMtx_ofFn S
  rw [hm] at hbt
  cases hbt
  unfold gmiMode
  rw [h1]
  dsimp only
  rw [h2]
  refine ⟨_, rfl, ?_⟩
  simp only [if_true]
  have hterm : ∀ (bit : Fin k) (t : Fin n), Real.logb 2 (1 + Real.exp ((-1) ^ (labelBit k (idx t) bit).toNat * maxLogLValue (bitmapColumn k (List.ofFn S) bit) (rx t) snr)) ≤
      Real.logb 2 (1 + Real.exp (-(snr * g))) := by
    intro bit t
    apply Real.logb_le_logb_of_le (by norm_num) (by positivity)
    have hp := Real.exp_pos
    apply add_le_add_right
    rw [Real.exp_le_exp]
    obtain ⟨m', hm', -, hcol⟩ := C17_bitmap k (List.ofFn S) (by simp)
    rw [hm] at hm'
    cases hm'
    obtain ⟨l1, l2, -, c1, c2⟩ := hcol bit (bitmapColumn k (List.ofFn S) bit) (by simp)
    have hget : ∀ {l : Nat} {s : ℂ}, (List.ofFn S)[l]? = some s → ∃ j : Fin (2 ^ k), s = S j ∧ (j : ℕ) = l := by
      intro l s h
      obtain ⟨hl, e⟩ := List.getElem?_eq_some_iff.1 h
      rw [List.length_ofFn] at hl
      exact ⟨⟨l, hl⟩, by rw [← e, List.getElem_ofFn], rfl⟩
    have hin : ∀ s, (s ∈ (bitmapColumn k (List.ofFn S) bit).1 → ∃ j, s = S j ∧ labelBit k j bit = false) ∧ (s ∈ (bitmapColumn k (List.ofFn S) bit).2 → ∃ j, s = S j ∧ labelBit k j bit = true) := by
      intro s
      constructor
      · intro hs
        obtain ⟨l, e1, e2⟩ := (c1 s).1 hs
        obtain ⟨j, rfl, rfl⟩ := hget e1
        rw [encodingRow_getElem? _ _ _ bit.2] at e2
        exact ⟨j, rfl, by simpa [labelBit] using e2⟩
      · intro hs
        obtain ⟨l, e1, e2⟩ := (c2 s).1 hs
        obtain ⟨j, rfl, rfl⟩ := hget e1
        rw [encodingRow_getElem? _ _ _ bit.2] at e2
        exact ⟨j, rfl, by simpa [labelBit] using e2⟩
    have hp : 0 < 2 ^ (k - 1) := by positivity
    obtain ⟨s0, hs0⟩ := List.exists_mem_of_length_pos (l := (bitmapColumn k (List.ofFn S) bit).1) (by omega)
    obtain ⟨s1, hs1⟩ := List.exists_mem_of_length_pos (l := (bitmapColumn k (List.ofFn S) bit).2) (by omega)
    have n0 : ‖s0 - rx t‖ ≤ 100 := by
      obtain ⟨j, rfl, -⟩ := (hin s0).1 hs0
      rw [norm_sub_rev]
      exact h100 t j
    have n1 : ‖s1 - rx t‖ ≤ 100 := by
      obtain ⟨j, rfl, -⟩ := (hin s1).2 hs1
      rw [norm_sub_rev]
      exact h100 t j
    obtain ⟨m0, m1, q0, q1, e⟩ := C18_value (bitmapColumn k (List.ofFn S) bit) (l1.trans l2.symm) (rx t) snr ⟨s0, hs0, n0⟩ ⟨s1, hs1, n1⟩
    rw [e]
    have hsent : ∀ b, labelBit k (idx t) bit = b → S (idx t) ∈ if b then (bitmapColumn k (List.ofFn S) bit).2 else (bitmapColumn k (List.ofFn S) bit).1 := by
      intro b hb
      cases b
      · simp only [Bool.false_eq_true, if_false]
        exact (c1 _).2 ⟨idx t, by simp, by rw [encodingRow_getElem? _ _ _ bit.2]; exact congrArg some hb⟩
      · simp only [if_true]
        exact (c2 _).2 ⟨idx t, by simp, by rw [encodingRow_getElem? _ _ _ bit.2]; exact congrArg some hb⟩
    cases hb : labelBit k (idx t) bit
    · have u0 := q0.2 ⟨_, by simpa using hsent _ hb, rfl⟩
      obtain ⟨s, hs, rfl⟩ := q1.1
      obtain ⟨j, rfl, hj⟩ := (hin s).2 hs
      have hne : j ≠ idx t := by
        rintro rfl
        rw [hb] at hj
        cases hj
      have := hg t j hne
      rw [norm_sub_rev, norm_sub_rev (rx t)] at this
      simp only [Bool.toNat_false, pow_zero, one_mul]
      have h3 : snr * g ≤ snr * (‖S j - rx t‖ ^ 2 - m0) := mul_le_mul_of_nonneg_left (by linarith) hsnr
      linarith
    · have u0 := q1.2 ⟨_, by simpa using hsent _ hb, rfl⟩
      obtain ⟨s, hs, rfl⟩ := q0.1
      obtain ⟨j, rfl, hj⟩ := (hin s).1 hs
      have hne : j ≠ idx t := by
        rintro rfl
        rw [hb] at hj
        cases hj
      have := hg t j hne
      rw [norm_sub_rev, norm_sub_rev (rx t)] at this
      simp only [Bool.toNat_true, pow_one, neg_one_mul]
      have h3 : snr * g ≤ snr * (‖S j - rx t‖ ^ 2 - m1) := mul_le_mul_of_nonneg_left (by linarith) hsnr
      linarith
  constructor
  · unfold calGmi gmiPerBit softLValueDemapperMinmax
    have hr : List.range k = List.ofFn fun i : Fin k => (i : ℕ) := by
      apply List.ext_getElem <;> simp
    rw [hr, sum_map_ofFn]
    have h := Finset.card_nsmul_le_sum Finset.univ (fun bit : Fin k => 1 - (((List.ofFn fun t => encodingRow k (idx t)).zip ((List.ofFn rx).map fun r =>
      (List.ofFn fun bit : Fin k => bitmapColumn k (List.ofFn S) bit).map fun btx => maxLogLValue btx r snr)).map fun p =>
        Real.logb 2 (1 + Real.exp ((-1) ^ (p.1.getD bit false).toNat * p.2.getD bit 0))).sum / (List.ofFn fun t => encodingRow k (idx t)).length)
      (1 - Real.logb 2 (1 + Real.exp (-(snr * g)))) (by
        intro bit _
        rw [List.map_ofFn, zip_ofFn, sum_map_ofFn, List.length_ofFn]
        apply sub_le_sub_left
        rw [div_le_iff₀ hn']
        have h1 := Finset.sum_le_card_nsmul Finset.univ (fun t => Real.logb 2 (1 + Real.exp ((-1) ^ (labelBit k (idx t) bit).toNat * maxLogLValue (bitmapColumn k (List.ofFn S) bit) (rx t) snr))) _
          fun t _ => hterm bit t
        rw [Finset.card_univ, Fintype.card_fin, nsmul_eq_mul] at h1
        refine (le_of_eq (Finset.sum_congr rfl ?_)).trans (h1.trans (le_of_eq (mul_comm _ _)))
        intro t _
        dsimp only [Function.comp_apply]
        rw [List.getD_eq_getElem?_getD, encodingRow_getElem? _ _ _ bit.2, Option.getD_some]
        congr 5
        simp)
    rw [Finset.card_univ, Fintype.card_fin, nsmul_eq_mul] at h
    linarith
  · apply (C46_gmi k _ _ _ _).2
    · intro h0
      have := congrArg List.length h0
      simp at this
      omega
    · simp [softLValueDemapperMinmax]

/-- Every Gray coded QAM alphabet with the sequence of all symbols satisfies the hypotheses of `C197_posterior` and `C197_average`. -/
example (k : Nat) : ∃ (S : Fin (2 ^ k) → ℂ) (m : List (List ℂ × List ℂ)) (idx : Fin (2 ^ k) → Fin (2 ^ k)), List.ofFn S = qamCodedSymbols k 1 ∧ Function.Injective S ∧
    bitmapMtx k (List.ofFn S) = .ok m ∧ (∀ i, (Finset.univ.filter fun t => idx t = i).card * 2 ^ k = 2 ^ k) := by
  have h : (qamCodedSymbols k (1 : ℝ)).length = 2 ^ k := length_qamCoded _ _
  refine ⟨fun i => (qamCodedSymbols k (1 : ℝ)).get (i.cast h.symm), _, id, ?_, ?_, bitmapMtx_ofFn _, ?_⟩
  · apply List.ext_getElem <;> simp [h]
  · intro i j hij
    have := (List.nodup_iff_injective_get.1 (nodup_qamCoded k (by norm_num : (1 : ℝ) ≠ 0))) hij
    exact Fin.ext (by simpa using congrArg Fin.val this)
  · intro i
    simp [Finset.filter_eq']

/-- BPSK, two symbols received at 0.9 and -1.2 with a margin of 3: at 10 dB the result is within `log2 (1 + 2 exp(-30))` of one bit. -/
example : ∃ v, gmiMode 1 (List.ofFn (![1, -1] : Fin (2 ^ 1) → ℂ)) [([1], [-1])] false (List.ofFn fun t : Fin 2 => (![1, -1] : Fin (2 ^ 1) → ℂ) (![0, 1] t)) (List.ofFn (![9 / 10, -6 / 5] : Fin 2 → ℂ)) 10 = .ok v ∧
    (1 : ℕ) - (1 : ℕ) * Real.logb 2 (1 + 2 ^ 1 * Real.exp (-(10 * 3))) ≤ v ∧ v ≤ (1 : ℕ) := by
  have hne : (1 : ℂ) ≠ -1 := by
    intro h
    have := congrArg Complex.re h
    norm_num at this
  apply C197_high le_rfl _ _ _ _ _ (by norm_num) _ _ _ (by norm_num)
  · intro t j hj
    have e1 : ‖(9 / 10 : ℂ) - 1‖ = 1 / 10 := by rw [show (9 / 10 : ℂ) - 1 = ((-1 / 10 : ℝ) : ℂ) by push_cast; ring, Complex.norm_real]; norm_num
    have e2 : ‖(9 / 10 : ℂ) + 1‖ = 19 / 10 := by rw [show (9 / 10 : ℂ) + 1 = ((19 / 10 : ℝ) : ℂ) by push_cast; ring, Complex.norm_real]; norm_num
    have e3 : ‖(-6 / 5 : ℂ) - 1‖ = 11 / 5 := by rw [show (-6 / 5 : ℂ) - 1 = ((-11 / 5 : ℝ) : ℂ) by push_cast; ring, Complex.norm_real]; norm_num
    have e4 : ‖(-6 / 5 : ℂ) + 1‖ = 1 / 5 := by rw [show (-6 / 5 : ℂ) + 1 = ((-1 / 5 : ℝ) : ℂ) by push_cast; ring, Complex.norm_real]; norm_num
    fin_cases t <;> fin_cases j <;> simp_all <;> norm_num
  · intro i j hij
    fin_cases i <;> fin_cases j <;> simp_all
  · rfl

end Qampy
