import Verif.Model.ResampleTime
import Verif.Props.PulseTime
import Verif.Props.Resample

/-!
`rrcos_resample` evaluates the pulse train at the new sampling times (C127); the two implementations differ (C128).
-/

namespace Qampy

theorem sum_multiples {n up : Nat} (hup : 1 ≤ up) (F : ℕ → ℂ) (x : Fin n → ℂ) (y : Fin (up * n) → ℂ)
    (hy : ∀ p, y p = if (p : ℕ) % up = 0 then (List.ofFn x).getD (p / up) 0 else 0) :
    ∑ p : Fin (up * n), F p * y p = ∑ q : Fin n, F (q * up) * x q := by
  have hlt : ∀ q : Fin n, (q : ℕ) * up < up * n := fun q => by
    rw [mul_comm]
    exact Nat.mul_lt_mul_of_pos_left q.isLt hup
  symm
  apply Finset.sum_of_injOn (fun q : Fin n => (⟨q * up, hlt q⟩ : Fin (up * n)))
  · intro a _ b _ hab
    have h1 : (a : ℕ) * up = b * up := congrArg Fin.val hab
    exact Fin.ext (Nat.eq_of_mul_eq_mul_right hup h1)
  · intro q _
    exact Finset.mem_univ _
  · intro p _ hp
    rw [hy]
    split_ifs with hm
    · exfalso
      apply hp
      obtain ⟨m, hm⟩ := Nat.dvd_of_mod_eq_zero hm
      have hmn : m < n := by
        have := p.isLt
        rw [hm] at this
        exact lt_of_mul_lt_mul_left this (Nat.zero_le _)
      exact ⟨⟨m, hmn⟩, Finset.mem_coe.2 (Finset.mem_univ _), Fin.ext (by dsimp only; rw [hm, mul_comm])⟩
    · rw [mul_zero]
  · intro q _
    rw [hy]
    dsimp only
    rw [if_pos (Nat.mul_mod_left _ _), Nat.mul_div_cancel _ hup]
    simp [List.getD]

theorem insertZeros_ofFn {n up : Nat} (hup : 1 ≤ up) (x : Fin n → ℂ) :
    insertZeros 0 up (List.ofFn x) = List.ofFn fun p : Fin (up * n) => if (p : ℕ) % up = 0 then (List.ofFn x).getD (p / up) 0 else 0 := by
  apply List.ext_getElem?
  intro p
  by_cases hp : p < up * n
  · rw [getElem?_insertZeros _ _ hup _ _ (by rw [List.length_ofFn]; exact hp), List.getElem?_ofFn, List.getElem?_ofFn, dif_pos hp, dif_pos (Nat.div_lt_of_lt_mul hp)]
    dsimp only
    split_ifs with hm
    · have h1 : p / up < n := Nat.div_lt_of_lt_mul hp
      simp [List.getD, h1]
    · rfl
  · rw [List.getElem?_eq_none, List.getElem?_eq_none]
    · rw [List.length_ofFn]; omega
    · rw [length_insertZeros _ _ hup, List.length_ofFn]; omega

/-- Every output sample of the zero insertion path as sum over the input samples. -/
theorem conv_path {n up down taps : Nat} (hup : 1 ≤ up) (hd : 1 ≤ down) (htaps : 0 < taps) (h : ℕ → ℝ) (x : Fin n → ℂ) :
    Np.strided (convSame (insertZeros 0 up (List.ofFn x)) ((List.range taps).map h)) down = List.ofFn fun k : Fin ((up * n + down - 1) / down) =>
      ∑ q : Fin n, if -(((taps - 1) / 2 : ℕ) : ℤ) ≤ ((k * down : ℕ) : ℤ) - (q * up : ℕ) ∧ ((k * down : ℕ) : ℤ) - (q * up : ℕ) ≤ (taps / 2 : ℕ) then (h (k * down + (taps - 1) / 2 - q * up) : ℂ) * x q else 0 := by
  rw [insertZeros_ofFn hup, convSame_ofFn _ _ _ htaps]
  apply List.ext_getElem?
  intro k
  rw [getElem?_strided' _ _ hd, List.getElem?_ofFn, List.getElem?_ofFn]
  have hiff : k * down < up * n ↔ k < (up * n + down - 1) / down := by
    rw [Nat.lt_div_iff_mul_lt hd]
    omega
  by_cases hk : k * down < up * n
  · rw [dif_pos hk, dif_pos (hiff.1 hk)]
    dsimp only
    congr 1
    have h1 := sum_multiples hup (fun p => if -(((taps - 1) / 2 : ℕ) : ℤ) ≤ ((k * down : ℕ) : ℤ) - (p : ℕ) ∧ ((k * down : ℕ) : ℤ) - (p : ℕ) ≤ (taps / 2 : ℕ) then (h (k * down + (taps - 1) / 2 - p) : ℂ) else 0) x _ (fun p => rfl)
    simp only [ite_mul, zero_mul] at h1
    exact h1
  · rw [dif_neg hk, dif_neg (fun h => hk (hiff.2 h))]

theorem postPad_enough (lenX up down need : Nat) (hd : 1 ≤ down) : ∀ (fuel lenH : Nat), need * down ≤ lenH + fuel → 1 ≤ lenH → need ≤ upfirdnLen (lenH + postPad lenH lenX up down need fuel) lenX up down := by
  intro fuel
  induction fuel with
  | zero =>
    intro lenH h h1
    unfold postPad upfirdnLen
    by_cases hn : need = 0
    · subst hn
      exact Nat.zero_le _
    have h2 : need - 1 ≤ ((lenX - 1) * up + (lenH + 0) - 1) / down := by
      rw [Nat.le_div_iff_mul_le hd]
      obtain ⟨m, rfl⟩ : ∃ m, need = m + 1 := ⟨need - 1, by omega⟩
      rw [Nat.add_sub_cancel]
      have : (m + 1) * down = m * down + down := by ring
      omega
    omega
  | succ fuel ih =>
    intro lenH h h1
    unfold postPad
    split_ifs with hc
    · have := ih (lenH + 1) (by omega) (by omega)
      rw [show lenH + (1 + postPad (lenH + 1) lenX up down need fuel) = lenH + 1 + postPad (lenH + 1) lenX up down need fuel by omega]
      exact this
    · rw [add_zero]
      exact not_lt.1 hc

theorem ceilDiv_eq (a d : Nat) (hd : 1 ≤ d) : a / d + (if a % d = 0 then 0 else 1) = (a + d - 1) / d := by
  have h1 := Nat.div_add_mod a d
  have h2 := Nat.mod_lt a hd
  rw [mul_comm] at h1
  symm
  rw [Nat.div_eq_iff hd]
  split_ifs with h
  · rw [add_zero]
    omega
  · rw [add_mul]
    omega

/-- Every output sample of the polyphase path as sum over the input samples. -/
theorem poly_path {n up down taps : Nat} (hd : 1 ≤ down) (htaps : 0 < taps) (h : ℕ → ℝ) (x : Fin n → ℂ) (hne : ¬ (up = 1 ∧ down = 1)) :
    scipyResamplePoly ((List.range taps).map h) (List.ofFn x) up down = List.ofFn fun k : Fin ((up * n + down - 1) / down) =>
      ∑ q : Fin n, if -(((taps - 1) / 2 : ℕ) : ℤ) ≤ ((k * down : ℕ) : ℤ) - (q * up : ℕ) ∧ ((k * down : ℕ) : ℤ) - (q * up : ℕ) ≤ (taps / 2 : ℕ) then (up : ℂ) * (h (k * down + (taps - 1) / 2 - q * up) : ℂ) * x q else 0 := by
  unfold scipyResamplePoly
  rw [if_neg hne]
  dsimp only
  rw [List.length_map, List.length_range, List.length_ofFn]
  obtain ⟨half, hhalf⟩ : ∃ half, half = (taps - 1) / 2 := ⟨_, rfl⟩
  obtain ⟨nOut, hnOut⟩ : ∃ nOut, nOut = n * up / down + (if n * up % down = 0 then 0 else 1) := ⟨_, rfl⟩
  have hnOut' : (up * n + down - 1) / down = nOut := by rw [hnOut, ceilDiv_eq _ _ hd, mul_comm up n]
  rw [hnOut', ← hhalf, ← hnOut]
  obtain ⟨pre, hpre⟩ : ∃ pre, pre = down - half % down := ⟨_, rfl⟩
  obtain ⟨rem, hrem⟩ : ∃ rem, rem = (half + pre) / down := ⟨_, rfl⟩
  rw [← hpre, ← hrem]
  have hrd : rem * down = half + pre := by
    have h1 := Nat.div_add_mod half down
    have h2 := Nat.mod_lt half hd
    have h3 : half + pre = down * (half / down + 1) := by rw [hpre, mul_add]; omega
    rw [hrem, h3, Nat.mul_div_cancel_left _ hd, mul_comm]
  obtain ⟨post, hpost⟩ : ∃ post, post = postPad (taps + pre) n up down (nOut + rem) ((nOut + rem) * down) := ⟨_, rfl⟩
  rw [← hpost]
  have hlen : nOut + rem ≤ upfirdnLen (taps + pre + post) n up down := by
    rw [hpost]
    exact postPad_enough n up down (nOut + rem) hd _ _ (by omega) (by omega)
  have hget : ∀ s, (List.replicate pre (0 : ℝ) ++ ((List.range taps).map h).map (fun v => v * (up : ℝ)) ++ List.replicate post 0).getD s 0 = if pre ≤ s ∧ s < pre + taps then h (s - pre) * up else 0 := by
    intro s
    rw [List.getD_eq_getElem?_getD]
    rcases Nat.lt_or_ge s pre with h1 | h1
    · rw [if_neg (by omega), List.append_assoc, List.getElem?_append_left (by rw [List.length_replicate]; exact h1), List.getElem?_replicate, if_pos h1]
      rfl
    · rcases Nat.lt_or_ge s (pre + taps) with h2 | h2
      · rw [if_pos ⟨h1, h2⟩, List.append_assoc, List.getElem?_append_right (by rw [List.length_replicate]; exact h1), List.length_replicate, List.getElem?_append_left (by rw [List.length_map, List.length_map, List.length_range]; omega)]
        rw [List.getElem?_map, List.getElem?_map, List.getElem?_range (by omega)]
        rfl
      · rw [if_neg (by omega), List.getElem?_append_right (by rw [List.length_append, List.length_map, List.length_map, List.length_range, List.length_replicate]; exact h2), List.getElem?_replicate]
        split_ifs <;> rfl
  apply List.ext_getElem?
  intro k
  rw [List.getElem?_ofFn, List.getElem?_take]
  by_cases hk : k < nOut
  · rw [if_pos hk, dif_pos hk, List.getElem?_drop]
    unfold upfirdn
    rw [List.getElem?_map, List.getElem?_range]
    · rw [Option.map_some]
      congr 1
      rw [List.length_ofFn]
      have h1 : ∀ f : ℕ → ℂ, ((List.range n).map f).sum = ∑ j ∈ Finset.range n, f j := fun f => rfl
      rw [h1, ← Fin.sum_univ_eq_sum_range]
      apply Finset.sum_congr rfl
      intro q _
      rw [hget, add_mul, hrd]
      have hx : (List.ofFn x).getD q 0 = x q := by simp [List.getD]
      rw [hx]
      dsimp only
      by_cases hq : -((half : ℕ) : ℤ) ≤ ((k * down : ℕ) : ℤ) - (q * up : ℕ) ∧ ((k * down : ℕ) : ℤ) - (q * up : ℕ) ≤ (taps / 2 : ℕ)
      · rw [if_pos hq, if_pos (by omega), if_pos (by omega)]
        rw [show half + pre + k * down - q * up - pre = k * down + half - q * up by omega]
        push_cast
        ring
      · rw [if_neg hq]
        split_ifs with h2 h3
        · omega
        · simp
        · rfl
    · have h1 : (List.replicate pre (0 : ℝ) ++ ((List.range taps).map h).map (fun v => v * (up : ℝ)) ++ List.replicate post 0).length = taps + pre + post := by
        simp
        omega
      rw [h1, List.length_ofFn]
      unfold upfirdnLen at hlen
      omega
  · rw [if_neg hk, dif_neg hk]

/-- C127: with the zero insertion path, output sample `k` is the value of the pulse train at the time `k/fnew`, with the input sample `q` at the time `q/fold`. -/
theorem C127_pulse_train (up down taps : Nat) (fold Ts beta : ℝ) (hup : 1 ≤ up) (hd : 1 ≤ down) (hf : 0 < fold) (hT : 0 < Ts) (hb : 0 < beta) (hb1 : beta ≤ 1) (hos : beta ≤ up * fold * Ts) (htaps : 2 ≤ taps) (fnew : ℝ) (hnew : fnew = fold * up / down) :
    ∃ g : ℝ → ℝ, g 0 = 1 ∧ (∀ t, g (-t) = g t) ∧ (∀ t, |g t| ≤ 1) ∧
      (∀ t, (t = 0 ∨ 1 ≤ 4 * (up * fold) * |t|) → (4 * beta * |t| = Ts ∨ 1 ≤ 4 * (up * fold) * |(|t| - Ts / (4 * beta))|) → invFourier (rrcosFreq beta Ts) t = g t * invFourier (rrcosFreq beta Ts) 0) ∧
      ∀ (n : Nat) (x : Fin n → ℂ), rrcosResampleTaps true up down fold Ts beta taps (List.ofFn x) = .ok (some (List.ofFn fun k : Fin ((up * n + down - 1) / down) =>
        ∑ q : Fin n, if -((((taps - 1) / 2 : ℕ) : ℝ) / (up * fold)) ≤ (k : ℝ) / fnew - q / fold ∧ (k : ℝ) / fnew - q / fold ≤ ((taps / 2 : ℕ) : ℝ) / (up * fold) then (g ((k : ℝ) / fnew - q / fold) : ℂ) * x q else 0)) := by
  have hup' : (0 : ℝ) < up := by exact_mod_cast hup
  have hd' : (0 : ℝ) < down := by exact_mod_cast hd
  have hfs : 0 < up * fold := by positivity
  obtain ⟨g, h0, h1, h2, h3, h4⟩ := rrcosTaps_spec (up * fold) Ts beta taps hfs hT hb hb1 hos htaps
  refine ⟨g, h0, h1, h2, h3, ?_⟩
  intro n x
  unfold rrcosResampleTaps rrcosPulseTime
  rw [if_neg (not_not.2 ⟨hb, hb1⟩), if_neg (by omega), if_pos rfl, h4]
  change Except.ok (some (Np.strided (convSame _ _) down)) = _
  rw [conv_path hup hd (by omega)]
  congr 2
  congr 1
  funext k
  apply Finset.sum_congr rfl
  intro q _
  have ht : (k : ℝ) / fnew - q / fold = (((k * down : ℕ) : ℝ) - (q * up : ℕ)) / (up * fold) := by
    rw [hnew]
    push_cast
    field_simp
  rw [ht]
  have e1 : -((((taps - 1) / 2 : ℕ) : ℝ) / (up * fold)) ≤ (((k * down : ℕ) : ℝ) - (q * up : ℕ)) / (up * fold) ↔ -(((taps - 1) / 2 : ℕ) : ℤ) ≤ ((k * down : ℕ) : ℤ) - (q * up : ℕ) := by
    rw [← neg_div, div_le_div_iff_of_pos_right hfs]
    exact_mod_cast Iff.rfl
  have e2 : (((k * down : ℕ) : ℝ) - (q * up : ℕ)) / (up * fold) ≤ ((taps / 2 : ℕ) : ℝ) / (up * fold) ↔ ((k * down : ℕ) : ℤ) - (q * up : ℕ) ≤ (taps / 2 : ℕ) := by
    rw [div_le_div_iff_of_pos_right hfs, sub_le_iff_le_add, sub_le_iff_le_add]
    exact_mod_cast Iff.rfl
  simp only [e1, e2]
  split_ifs with h
  · rw [show (((k * down + (taps - 1) / 2 - q * up : ℕ) : ℝ) - ((taps - 1) / 2 : ℕ)) = ((k * down : ℕ) : ℝ) - (q * up : ℕ) by
      rw [Nat.cast_sub (by omega)]
      push_cast
      ring]
  · rfl

/-- From rate 2 to rate 3: the output sample at the time 2/3 is made of the input samples at 0, 1/2, 1 with the pulse at the distances 2/3, 1/6, -1/3. -/
example (x0 x1 x2 : ℂ) : ∃ g : ℝ → ℝ, g 0 = 1 ∧ ∃ out : List ℂ, rrcosResampleTaps true 3 2 2 1 (1 / 2) 11 [x0, x1, x2] = .ok (some out) ∧ out.length = 5 ∧ out[2]? = some (g (2 / 3) * x0 + g (1 / 6) * x1 + g (-1 / 3) * x2) := by
  obtain ⟨g, h0, -, -, -, h4⟩ := C127_pulse_train 3 2 11 2 1 (1 / 2) (by norm_num) (by norm_num) (by norm_num) one_pos (by norm_num) (by norm_num) (by norm_num) (by norm_num) 3 (by norm_num)
  have h5 := h4 3 ![x0, x1, x2]
  rw [show List.ofFn ![x0, x1, x2] = [x0, x1, x2] by simp [List.ofFn_succ]] at h5
  refine ⟨g, h0, _, h5, ?_, ?_⟩
  · simp
  · rw [List.getElem?_ofFn, dif_pos (by norm_num)]
    simp only [Fin.sum_univ_three]
    norm_num
    exact Or.inl rfl

/-- C128: the switch `fftconv` selects the algorithm, the result is the same. -/
def C128_statement : Prop := ∀ (up down taps : Nat) (fold Ts beta : ℝ) (sig : List ℂ), 1 ≤ up → 1 ≤ down → Nat.Coprime up down → 0 < fold → 0 < Ts → 0 < beta → beta ≤ 1 → 2 ≤ taps →
  rrcosResampleTaps false up down fold Ts beta taps sig = rrcosResampleTaps true up down fold Ts beta taps sig

/-- C128: the polyphase path gives the other result multiplied by the upsampling factor, for different rates. -/
theorem C128_scaled_partial (up down taps : Nat) (fold Ts beta : ℝ) (hup : 1 ≤ up) (hd : 1 ≤ down) (hne : ¬ (up = 1 ∧ down = 1)) (hf : 0 < fold) (hT : 0 < Ts) (hb : 0 < beta) (hb1 : beta ≤ 1) (hos : beta ≤ up * fold * Ts) (htaps : 2 ≤ taps) (sig : List ℂ) :
    ∃ out, rrcosResampleTaps true up down fold Ts beta taps sig = .ok (some out) ∧ rrcosResampleTaps false up down fold Ts beta taps sig = .ok (some (out.map fun y => (up : ℂ) * y)) := by
  have hup' : (0 : ℝ) < up := by exact_mod_cast hup
  have hfs : 0 < up * fold := by positivity
  obtain ⟨g, -, -, -, -, h4⟩ := rrcosTaps_spec (up * fold) Ts beta taps hfs hT hb hb1 hos htaps
  obtain ⟨n, x, rfl⟩ : ∃ (n : Nat) (x : Fin n → ℂ), sig = List.ofFn x := ⟨sig.length, sig.get, (List.ofFn_get sig).symm⟩
  unfold rrcosResampleTaps rrcosPulseTime
  rw [if_neg (not_not.2 ⟨hb, hb1⟩), if_neg (by omega), if_pos rfl, if_neg (not_not.2 ⟨hb, hb1⟩), if_neg (by omega), if_neg Bool.false_ne_true, h4]
  refine ⟨_, rfl, ?_⟩
  change Except.ok (some (scipyResamplePoly _ _ _ _)) = Except.ok (some (List.map _ (Np.strided (convSame _ _) down)))
  rw [conv_path hup hd (by omega), poly_path hd (by omega) _ _ hne, List.map_ofFn]
  congr 2
  congr 1
  funext k
  dsimp only [Function.comp]
  rw [Finset.mul_sum]
  apply Finset.sum_congr rfl
  intro q _
  split_ifs
  · ring
  · ring

/-- C128: for equal rates the polyphase path does not filter at all. -/
theorem C128_copy (taps : Nat) (fold Ts beta : ℝ) (hf : 0 < fold) (hT : 0 < Ts) (hb : 0 < beta) (hb1 : beta ≤ 1) (hos : beta ≤ fold * Ts) (htaps : 2 ≤ taps) (sig : List ℂ) :
    rrcosResampleTaps false 1 1 fold Ts beta taps sig = .ok (some sig) := by
  obtain ⟨g, -, -, -, -, h4⟩ := rrcosTaps_spec ((1 : ℕ) * fold) Ts beta taps (by simpa using hf) hT hb hb1 (by simpa using hos) htaps
  unfold rrcosResampleTaps
  rw [if_neg (not_not.2 ⟨hb, hb1⟩), if_neg one_ne_zero, if_neg Bool.false_ne_true, h4]
  change Except.ok (some (scipyResamplePoly _ _ _ _)) = _
  unfold scipyResamplePoly
  rw [if_pos ⟨rfl, rfl⟩]

/-- Doubling the sampling rate of a single sample: peak 1 and peak 2. -/
theorem C128_false : ¬ C128_statement := by
  intro h
  have h1 := h 2 1 3 1 1 1 [1] (by norm_num) le_rfl (by norm_num) one_pos one_pos one_pos le_rfl (by norm_num)
  obtain ⟨out, h2, h3⟩ := C128_scaled_partial 2 1 3 1 1 1 (by norm_num) le_rfl (by norm_num) one_pos one_pos one_pos le_rfl (by norm_num) (by norm_num) [1]
  rw [h2, h3] at h1
  obtain ⟨g, h0, -, -, -, h4⟩ := C127_pulse_train 2 1 3 1 1 1 (by norm_num) le_rfl one_pos one_pos one_pos le_rfl (by norm_num) (by norm_num) 2 (by norm_num)
  have h5 := h4 1 ![1]
  rw [show List.ofFn ![(1 : ℂ)] = [1] by simp, h2] at h5
  have h6 := Option.some.inj (Except.ok.inj h5)
  have h7 := Option.some.inj (Except.ok.inj h1)
  have h8 := congrArg (fun l => l[0]?) h7
  rw [h6] at h8
  simp [h0] at h8

end Qampy
