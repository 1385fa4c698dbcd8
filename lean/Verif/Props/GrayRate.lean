import Verif.Props.Theory3

/-!
# Bit errors of Gray coded signals: C158
-/

namespace Qampy

open Complex (I)

theorem decIdx_self {coded : List ℂ} (hnd : coded.Nodup) {l : Nat} {s : ℂ} (hl : coded[l]? = some s) : decIdx coded s = l := by
  have hne : coded ≠ [] := by rintro rfl; simp at hl
  rw [decIdx_eq_iff hne]
  refine ⟨s, hl, fun s' _ => by simp, ?_⟩
  intro i hi s' hs'
  rw [sub_self, norm_zero, norm_pos_iff, sub_ne_zero]
  rintro rfl
  obtain ⟨p1, p2⟩ := List.getElem?_eq_some_iff.1 hl
  obtain ⟨p3, p4⟩ := List.getElem?_eq_some_iff.1 hs'
  have := (List.Nodup.getElem_inj_iff hnd).1 (p4.trans p2.symm)
  omega

theorem ofFn_getD (x : List ℂ) (n : Nat) (h : x.length = n) : List.ofFn (fun m : Fin n => x.getD m 0) = x := by
  apply List.ext_getElem?
  intro i
  rw [List.getElem?_ofFn]
  by_cases hi : i < n
  · rw [dif_pos hi, List.getD_eq_getElem?_getD, List.getElem?_eq_getElem (by omega), Option.getD_some]
  · rw [dif_neg hi, List.getElem?_eq_none (by omega)]

/-- If every wrong decision is a label at Hamming distance one, each symbol error is one bit error. -/
theorem ber_of_one_bit {k : Nat} {coded : List ℂ} (hlen : coded.length = 2 ^ k) (hnd : coded.Nodup) (rx tx : List ℂ)
    (hl : rx.length = tx.length) (htx : ∀ s ∈ tx, s ∈ coded)
    (H : ∀ (n l : Nat) (y s : ℂ), rx[n]? = some y → tx[n]? = some s → coded[l]? = some s → decIdx coded y ≠ l → rowErr k l (decIdx coded y) = 1) :
    ∃ ser ber : ℚ, calSer coded rx tx = some ser ∧ calBer k coded rx tx = some ber ∧ ber = ser / k := by
  obtain ⟨n, hn⟩ : ∃ n, n = rx.length := ⟨_, rfl⟩
  have e1 := ofFn_getD rx n hn.symm
  have e2 := ofFn_getD tx n (by omega)
  have hget : ∀ m : Fin n, ∃ l : Nat, coded[l]? = some (tx.getD m 0) := by
    intro m
    have hm : (m : Nat) < tx.length := by have := m.2; omega
    have := htx tx[(m : Nat)] (List.getElem_mem hm)
    obtain ⟨l, hl1, hl2⟩ := List.getElem_of_mem this
    refine ⟨l, ?_⟩
    rw [List.getD_eq_getElem?_getD, List.getElem?_eq_getElem hm, Option.getD_some, List.getElem?_eq_getElem hl1, hl2]
  choose l hlab using hget
  have h1 := calSer_ofFn hnd (fun m : Fin n => rx.getD m 0) (fun m : Fin n => tx.getD m 0) l hlab
  have h2 := calBer_ofFn (k := k) hlen (fun m : Fin n => rx.getD m 0) (fun m : Fin n => tx.getD m 0)
  rw [e1, e2] at h1 h2
  refine ⟨_, _, h1, h2, ?_⟩
  have hsum : ((∑ m : Fin n, rowErr k (decIdx coded (tx.getD m 0)) (decIdx coded (rx.getD m 0)) : Nat) : ℚ) =
      ∑ m : Fin n, if decIdx coded (rx.getD m 0) ≠ l m then (1 : ℚ) else 0 := by
    push_cast
    apply Finset.sum_congr rfl
    intro m _
    rw [decIdx_self hnd (hlab m)]
    have hm1 : (m : Nat) < tx.length := by have := m.2; omega
    have hm2 : (m : Nat) < rx.length := by have := m.2; omega
    by_cases hd : decIdx coded (rx.getD m 0) = l m
    · rw [hd, if_neg (by simp), rowErr_eq, hd_self, Nat.cast_zero]
    · rw [if_pos hd]
      have := H m (l m) (rx.getD m 0) (tx.getD m 0)
        (by rw [List.getD_eq_getElem?_getD, List.getElem?_eq_getElem hm2, Option.getD_some])
        (by rw [List.getD_eq_getElem?_getD, List.getElem?_eq_getElem hm1, Option.getD_some]) (hlab m) hd
      rw [this, Nat.cast_one]
  rw [hsum]
  push_cast
  rw [div_div]

/-- A decision is not further away from the sample than the transmitted point. -/
theorem decision_near {coded : List ℂ} {y s : ℂ} (hs : s ∈ coded) {d : ℝ} (hd : ‖y - s‖ < d) :
    ∃ s', coded[decIdx coded y]? = some s' ∧ ‖s' - s‖ < 2 * d := by
  have hne : coded ≠ [] := by rintro rfl; simp at hs
  obtain ⟨s', h1, h2, -⟩ := (decIdx_eq_iff hne y _).1 rfl
  refine ⟨s', h1, ?_⟩
  have h3 := h2 s hs
  calc ‖s' - s‖ = ‖(y - s) - (y - s')‖ := by congr 1; ring
    _ ≤ ‖y - s‖ + ‖y - s'‖ := norm_sub_le _ _
    _ < 2 * d := by linarith

/-- C158: square QAM of any order: if the deviation of every sample is smaller than the minimum distance over the square root of two, every
symbol error is one bit error and the bit error rate is the symbol error rate divided by the number of bits of a symbol. -/
theorem C158_square_partial (N : Nat) (scale : ℝ) (hs : 0 < scale) (rx tx : List ℂ) (hl : rx.length = tx.length)
    (htx : ∀ s ∈ tx, s ∈ qamCodedSymbols (2 * N) scale)
    (hnear : ∀ (n : Nat) (y s : ℂ), rx[n]? = some y → tx[n]? = some s → ‖y - s‖ < Real.sqrt 2 / scale) :
    ∃ ser ber : ℚ, calSer (qamCodedSymbols (2 * N) scale) rx tx = some ser ∧ calBer (2 * N) (qamCodedSymbols (2 * N) scale) rx tx = some ber ∧
      ber = ser / ((2 * N : Nat) : ℚ) := by
  apply ber_of_one_bit (length_qamCoded (2 * N) scale) (nodup_qamCoded (2 * N) hs.ne') rx tx hl htx
  intro n l y s hy hsn hls hd
  obtain ⟨s', h1, h2⟩ := decision_near (List.mem_of_getElem? hls) (hnear n y s hy hsn)
  obtain ⟨i, hi, j, hj, rfl⟩ := (mem_coded_iff N scale s).1 (List.mem_of_getElem? hls)
  obtain ⟨i', hi', j', hj', rfl⟩ := (mem_coded_iff N scale s').1 (List.mem_of_getElem? h1)
  have el := coded_label_unique hs hi hj hls
  have el' := coded_label_unique hs hi' hj' h1
  rw [el'] at hd ⊢
  rw [el] at hd ⊢
  have hdist := dist_grid N scale i' j' i j 0
  rw [add_zero] at hdist
  simp only [Complex.zero_re, Complex.zero_im, zero_add] at hdist
  have hlt : ((i' : ℝ) - i) ^ 2 + ((j' : ℝ) - j) ^ 2 < 2 := by
    have h3 : ‖gridPt N scale i' j' - gridPt N scale i j‖ ^ 2 < (2 * (Real.sqrt 2 / scale)) ^ 2 := pow_lt_pow_left₀ h2 (norm_nonneg _) (by norm_num)
    have h4 : (0 : ℝ) < 4 / scale ^ 2 := by positivity
    have h5 : (2 * (Real.sqrt 2 / scale)) ^ 2 = 4 / scale ^ 2 * 2 := by
      rw [mul_pow, div_pow, Real.sq_sqrt (by norm_num : (0 : ℝ) ≤ 2)]
      ring
    have h6 : (2 / scale * ((i' : ℝ) - i)) ^ 2 + (2 / scale * ((j' : ℝ) - j)) ^ 2 = 4 / scale ^ 2 * (((i' : ℝ) - i) ^ 2 + ((j' : ℝ) - j) ^ 2) := by ring
    rw [hdist, h5, h6] at h3
    exact lt_of_mul_lt_mul_left h3 h4.le
  have hlt' : ((i' : Int) - i) ^ 2 + ((j' : Int) - j) ^ 2 < 2 := by exact_mod_cast hlt
  have hN : 1 ≤ N := by
    by_contra h0
    have : N = 0 := by omega
    subst this
    have : i = i' := by simp at hi hi'; omega
    have : j = j' := by simp at hj hj'; omega
    subst i j
    exact hd rfl
  have hne : ¬ (i' = i ∧ j' = j) := by
    rintro ⟨rfl, rfl⟩
    exact hd rfl
  obtain ⟨a1, a2, a3, -⟩ := gray_hd_bounds hN hi' hi
  obtain ⟨b1, b2, b3, -⟩ := gray_hd_bounds hN hj' hj
  rw [rowErr_grid hj' hj]
  have c1 := sq_nonneg ((i' : Int) - i)
  have c2 := sq_nonneg ((j' : Int) - j)
  have step : ∀ a b : Nat, a ≠ b → ((a : Int) - b) ^ 2 < 2 → (b = a + 1 ∨ a = b + 1) := by
    intro a b hab h
    have h1 : -2 < (a : Int) - b := by nlinarith
    have h2 : (a : Int) - b < 2 := by nlinarith
    omega
  have pos : ∀ a b : Nat, a ≠ b → 1 ≤ ((a : Int) - b) ^ 2 := by
    intro a b hab
    have : (a : Int) - b ≠ 0 := by omega
    have := sq_pos_of_ne_zero this
    omega
  by_cases hii : i' = i
  · have hjj : j' ≠ j := fun h => hne ⟨hii, h⟩
    have := b3 (step j' j hjj (by omega)).symm.symm
    have := b2 hjj.symm
    rw [a1 hii.symm]
    omega
  · have hjj : j' = j := by
      by_contra hjj
      have := pos i' i hii
      have := pos j' j hjj
      omega
    have := a3 (step i' i hii (by omega))
    have := a2 (Ne.symm hii)
    rw [b1 hjj.symm]
    omega

/-! ### PSK -/

theorem psk_coded_label {k i : Nat} (hi : i < 2 ^ k) :
    (pskCodedSymbols k)[bin2gray i]? = some ((if k = 2 then Complex.exp (Complex.I * (Real.pi / (2 ^ k : ℝ) : ℝ)) else 1) *
      (Complex.exp (2 * Real.pi * Complex.I / ((2 ^ k : Nat) : ℂ))) ^ i) := by
  have h : (grayCodePsk k)[i]? = some (bin2gray i) := by
    rw [grayCodePsk, List.getElem?_map, List.getElem?_range hi, Option.map_some]
  rw [pskCodedSymbols, (codedSymbols_spec (IsPerm.psk k) _ (length_symbolsPsk k)).2 i _ h, symbolsPsk_getElem? k i hi]

theorem gray_wrap (k : Nat) (hk : 1 ≤ k) : bin2gray (2 ^ k - 1) = 2 ^ (k - 1) := by
  unfold bin2gray
  apply Nat.eq_of_testBit_eq
  intro t
  rw [Nat.testBit_xor, Nat.testBit_shiftRight, Nat.testBit_two_pow_sub_one, Nat.testBit_two_pow_sub_one, Nat.testBit_two_pow]
  by_cases h1 : t < k <;> by_cases h2 : 1 + t < k <;> simp [h1, h2] <;> omega

/-- Distance of two points of the PSK circle. -/
theorem psk_chord (k : Nat) (f : ℂ) (hf : ‖f‖ = 1) (i d : Nat) :
    ‖f * (Complex.exp (2 * Real.pi * Complex.I / ((2 ^ k : Nat) : ℂ))) ^ (i + d) - f * (Complex.exp (2 * Real.pi * Complex.I / ((2 ^ k : Nat) : ℂ))) ^ i‖ =
      2 * |Real.sin (Real.pi * d / 2 ^ k)| := by
  have e : Complex.exp (2 * Real.pi * Complex.I / ((2 ^ k : Nat) : ℂ)) = Complex.exp (I * ((2 * Real.pi / 2 ^ k : ℝ) : ℂ)) := by
    congr 1
    push_cast
    ring
  rw [e]
  have e2 : f * Complex.exp (I * ((2 * Real.pi / 2 ^ k : ℝ) : ℂ)) ^ (i + d) - f * Complex.exp (I * ((2 * Real.pi / 2 ^ k : ℝ) : ℂ)) ^ i =
      f * Complex.exp (I * ((2 * Real.pi / 2 ^ k : ℝ) : ℂ)) ^ i * (Complex.exp (I * ((2 * Real.pi * d / 2 ^ k : ℝ) : ℂ)) - 1) := by
    have e3 : Complex.exp (I * ((2 * Real.pi * d / 2 ^ k : ℝ) : ℂ)) = Complex.exp (I * ((2 * Real.pi / 2 ^ k : ℝ) : ℂ)) ^ d := by
      rw [← Complex.exp_nat_mul]
      congr 1
      push_cast
      ring
    rw [e3, pow_add]
    ring
  rw [e2, norm_mul, norm_mul, norm_pow, hf, mul_comm I, Complex.norm_exp_ofReal_mul_I, one_pow, one_mul, one_mul,
    Complex.norm_exp_I_mul_ofReal_sub_one, Real.norm_eq_abs, abs_mul, abs_two]
  congr 3
  ring

theorem sin_ge_of_far {M d : Nat} (h1 : 2 ≤ d) (h2 : d + 2 ≤ M) : Real.sin (2 * Real.pi / M) ≤ |Real.sin (Real.pi * d / M)| := by
  have hp := Real.pi_pos
  have hM : (0 : ℝ) < M := by exact_mod_cast (by omega : 0 < M)
  have h1r : (2 : ℝ) ≤ d := by exact_mod_cast h1
  have h2r : (d : ℝ) + 2 ≤ M := by exact_mod_cast h2
  have h4 : (4 : ℝ) ≤ M := by linarith
  have hq : 2 * Real.pi / M ≤ Real.pi / 2 := by
    rw [div_le_div_iff₀ hM (by norm_num)]
    nlinarith
  refine le_trans ?_ (le_abs_self _)
  by_cases hd : 2 * d ≤ M
  · have hdr : 2 * (d : ℝ) ≤ M := by exact_mod_cast hd
    apply Real.sin_le_sin_of_le_of_le_pi_div_two
    · have : 0 < 2 * Real.pi / M := by positivity
      linarith
    · rw [div_le_div_iff₀ hM (by norm_num)]
      nlinarith
    · apply div_le_div_of_nonneg_right _ hM.le
      nlinarith
  · have hdr : (M : ℝ) < 2 * d := by exact_mod_cast (by omega : M < 2 * d)
    have e : Real.sin (Real.pi * d / M) = Real.sin (Real.pi * (M - d) / M) := by
      rw [← Real.sin_pi_sub]
      congr 1
      field_simp
    rw [e]
    apply Real.sin_le_sin_of_le_of_le_pi_div_two
    · have : 0 < 2 * Real.pi / M := by positivity
      linarith
    · rw [div_le_div_iff₀ hM (by norm_num)]
      nlinarith
    · apply div_le_div_of_nonneg_right _ hM.le
      nlinarith

/-- C158: PSK of any order: if the deviation of every sample is smaller than half of the distance to the points after the next ones, the bit
error rate is the symbol error rate divided by the number of bits. -/
theorem C158_psk_partial (k : Nat) (hk : 2 ≤ k) (rx tx : List ℂ) (hl : rx.length = tx.length) (htx : ∀ s ∈ tx, s ∈ pskCodedSymbols k)
    (hnear : ∀ (n : Nat) (y s : ℂ), rx[n]? = some y → tx[n]? = some s → ‖y - s‖ < Real.sin (2 * Real.pi / 2 ^ k)) :
    ∃ ser ber : ℚ, calSer (pskCodedSymbols k) rx tx = some ser ∧ calBer k (pskCodedSymbols k) rx tx = some ber ∧ ber = ser / k := by
  apply ber_of_one_bit (length_pskCoded k) (nodup_pskCoded k) rx tx hl htx
  intro n l y s hy hsn hls hd
  obtain ⟨s', h1, h2⟩ := decision_near (List.mem_of_getElem? hls) (hnear n y s hy hsn)
  have hidx : ∀ (l : Nat) (s : ℂ), (pskCodedSymbols k)[l]? = some s → ∃ i < 2 ^ k, l = bin2gray i := by
    intro l s hs
    have hlt : l < 2 ^ k := by rw [← length_pskCoded k]; exact (List.getElem?_eq_some_iff.1 hs).1
    have := (IsPerm.psk k).surj hlt
    simp only [grayCodePsk, List.mem_map, List.mem_range] at this
    obtain ⟨i, hi, rfl⟩ := this
    exact ⟨i, hi, rfl⟩
  obtain ⟨i, hi, rfl⟩ := hidx l s hls
  obtain ⟨j, hj, hje⟩ := hidx _ s' h1
  rw [hje] at hd h1 ⊢
  have hf : ‖(if k = 2 then Complex.exp (Complex.I * (Real.pi / (2 ^ k : ℝ) : ℝ)) else 1 : ℂ)‖ = 1 := by
    split_ifs
    · rw [mul_comm, Complex.norm_exp_ofReal_mul_I]
    · simp
  rw [psk_coded_label hi, Option.some.injEq] at hls
  rw [psk_coded_label hj, Option.some.injEq] at h1
  obtain ⟨f, hfe⟩ : ∃ f : ℂ, f = (if k = 2 then Complex.exp (Complex.I * (Real.pi / (2 ^ k : ℝ) : ℝ)) else 1 : ℂ) := ⟨_, rfl⟩
  rw [← hfe] at hf hls h1
  have hfar : ∀ a d : Nat, ‖f * (Complex.exp (2 * Real.pi * Complex.I / ((2 ^ k : Nat) : ℂ))) ^ (a + d) -
      f * (Complex.exp (2 * Real.pi * Complex.I / ((2 ^ k : Nat) : ℂ))) ^ a‖ < 2 * Real.sin (2 * Real.pi / 2 ^ k) → ¬ (2 ≤ d ∧ d + 2 ≤ 2 ^ k) := by
    rintro a d hlt ⟨hd1, hd2⟩
    rw [psk_chord k f hf] at hlt
    have := sin_ge_of_far hd1 hd2
    push_cast at this
    linarith
  have hij : i ≠ j := by rintro rfl; exact hd rfl
  have hcase : ∀ a b : Nat, a < b → b < 2 ^ k → ¬ (2 ≤ b - a ∧ b - a + 2 ≤ 2 ^ k) → (b = a + 1 ∨ (a = 0 ∧ b = 2 ^ k - 1)) := by
    intro a b hab hb h
    omega
  have hbits : ∀ a b : Nat, a < b → b < 2 ^ k → (b = a + 1 ∨ (a = 0 ∧ b = 2 ^ k - 1)) → ∃ m, bin2gray a ^^^ bin2gray b = 2 ^ m := by
    rintro a b hab hb (rfl | ⟨rfl, rfl⟩)
    · exact gray_succ a
    · refine ⟨k - 1, ?_⟩
      rw [gray_wrap k (by omega)]
      simp [bin2gray]
  have hone : ∀ m, bin2gray i ^^^ bin2gray j = 2 ^ m → rowErr k (bin2gray i) (bin2gray j) = 1 := by
    intro m hm
    rw [rowErr_eq]
    have g1 := hd_two_pow (n := k) hm
    have g2 := hd_pos (bin2gray_lt hi) (bin2gray_lt hj) (fun h => hij (bin2gray_inj h))
    omega
  rcases lt_or_gt_of_ne hij with h | h
  · obtain ⟨m, hm⟩ := hbits i j h hj (hcase i j h hj (hfar i (j - i) (by rw [show i + (j - i) = j by omega, hls, h1]; exact h2)))
    exact hone m hm
  · obtain ⟨m, hm⟩ := hbits j i h hi (hcase j i h hi (hfar j (i - j) (by rw [show j + (i - j) = i by omega, hls, h1, norm_sub_rev]; exact h2)))
    rw [Nat.xor_comm] at hm
    exact hone m hm

/-- C158 for every QAM order. -/
def C158_statement : Prop :=
  ∀ (k : Nat) (scale : ℝ) (_ : 1 ≤ k) (_ : 0 < scale) (rx tx : List ℂ) (_ : rx.length = tx.length) (_ : ∀ s ∈ tx, s ∈ qamCodedSymbols k scale)
    (_ : ∀ (n : Nat) (y s : ℂ), rx[n]? = some y → tx[n]? = some s → ‖y - s‖ < Real.sqrt 2 / scale),
    ∃ ser ber : ℚ, calSer (qamCodedSymbols k scale) rx tx = some ser ∧ calBer k (qamCodedSymbols k scale) rx tx = some ber ∧ ber = ser / k

theorem qamCoded_map (k : Nat) (scale : ℝ) : qamCodedSymbols k scale = (codedSymbols (symbolsQam k) (grayCodeQam k)).map (toComplex scale) := by
  unfold qamCodedSymbols codedSymbols gather
  rw [List.map_filterMap]
  congr 1
  funext i
  rw [List.getElem?_map]

/-- Points 1 and 8 of the 32-QAM are neighbours, their labels differ in two bits. -/
theorem C158_false : ¬ C158_statement := by
  intro h
  have hget : ∀ (l : Nat) (p : Int × Int), (codedSymbols (symbolsQam 5) (grayCodeQam 5))[l]? = some p → (qamCodedSymbols 5 1)[l]? = some (toComplex 1 p) := by
    intro l p hp
    rw [qamCoded_map, List.getElem?_map, hp, Option.map_some]
  have h1 : (qamCodedSymbols 5 1)[1]? = some (toComplex 1 (-1, -5)) := hget 1 _ (by decide +kernel)
  have h8 : (qamCodedSymbols 5 1)[8]? = some (toComplex 1 (-1, -3)) := hget 8 _ (by decide +kernel)
  have hnd := nodup_qamCoded 5 (one_ne_zero (α := ℝ))
  have hlen := length_qamCoded 5 1
  have hne : qamCodedSymbols 5 1 ≠ [] := by
    intro h0
    rw [h0] at h1
    simp at h1
  have hdist : ∀ p : Int × Int, ‖(⟨-1, -19 / 5⟩ : ℂ) - toComplex 1 p‖ ^ 2 = ((25 * (p.1 + 1) ^ 2 + (5 * p.2 + 19) ^ 2 : Int) : ℝ) / 25 := by
    intro p
    rw [← Complex.normSq_eq_norm_sq, Complex.normSq_apply]
    simp only [toComplex, Complex.sub_re, Complex.sub_im, Complex.ofReal_one, div_one]
    push_cast
    ring
  have hall : ∀ p ∈ codedSymbols (symbolsQam 5) (grayCodeQam 5), p = (-1, -3) ∨ 16 < 25 * (p.1 + 1) ^ 2 + (5 * p.2 + 19) ^ 2 := by decide +kernel
  have hfar : ∀ s ∈ qamCodedSymbols 5 1, s = toComplex 1 (-1, -3) ∨ ‖(⟨-1, -19 / 5⟩ : ℂ) - toComplex 1 (-1, -3)‖ < ‖(⟨-1, -19 / 5⟩ : ℂ) - s‖ := by
    intro s hs
    rw [qamCoded_map] at hs
    obtain ⟨p, hp, rfl⟩ := List.mem_map.1 hs
    rcases hall p hp with rfl | hgt
    · exact Or.inl rfl
    · right
      apply lt_of_pow_lt_pow_left₀ 2 (norm_nonneg _)
      rw [hdist, hdist]
      have : ((16 : Int) : ℝ) < ((25 * (p.1 + 1) ^ 2 + (5 * p.2 + 19) ^ 2 : Int) : ℝ) := by exact_mod_cast hgt
      apply div_lt_div_of_pos_right _ (by norm_num)
      refine lt_of_le_of_lt ?_ this
      norm_num
  have hdec : decIdx (qamCodedSymbols 5 1) ⟨-1, -19 / 5⟩ = 8 := by
    rw [decIdx_eq_iff hne]
    refine ⟨_, h8, ?_, ?_⟩
    · intro s hs
      rcases hfar s hs with rfl | h
      · exact le_rfl
      · exact h.le
    · intro i hi s hs
      rcases hfar s (List.mem_of_getElem? hs) with rfl | h
      · obtain ⟨p1, p2⟩ := List.getElem?_eq_some_iff.1 h8
        obtain ⟨p3, p4⟩ := List.getElem?_eq_some_iff.1 hs
        have := (List.Nodup.getElem_inj_iff hnd).1 (p4.trans p2.symm)
        omega
      · exact h
  obtain ⟨ser, ber, e1, e2, e3⟩ := h 5 1 (by norm_num) one_pos [⟨-1, -19 / 5⟩] [toComplex 1 (-1, -5)] rfl (by
    intro s hs
    rw [List.mem_singleton] at hs
    rw [hs]
    exact List.mem_of_getElem? h1) (by
    intro n y s hy hs
    obtain ⟨hn, rfl⟩ := List.getElem?_eq_some_iff.1 hy
    have hn0 : n = 0 := by simpa using hn
    subst hn0
    simp only [List.getElem_cons_zero, List.getElem?_cons_zero, Option.some.injEq] at hs ⊢
    rw [← hs, div_one]
    apply lt_of_pow_lt_pow_left₀ 2 (Real.sqrt_nonneg _)
    rw [hdist, Real.sq_sqrt (by norm_num : (0 : ℝ) ≤ 2)]
    norm_num)
  have f1 := calSer_ofFn hnd (fun _ : Fin 1 => (⟨-1, -19 / 5⟩ : ℂ)) (fun _ : Fin 1 => toComplex 1 (-1, -5)) (fun _ => 1) (fun _ => h1)
  have f2 := calBer_ofFn (k := 5) hlen (fun _ : Fin 1 => (⟨-1, -19 / 5⟩ : ℂ)) (fun _ : Fin 1 => toComplex 1 (-1, -5))
  have hrow : rowErr 5 1 8 = 2 := by decide +kernel
  simp only [List.ofFn_succ, List.ofFn_zero, hdec, decIdx_self hnd h1, hrow] at f1 f2
  rw [e1, Option.some.injEq] at f1
  rw [e2, Option.some.injEq] at f2
  rw [f1, f2] at e3
  norm_num at e3

/-- 16-QAM with one error out of two symbols: the bit error rate is one in eight. -/
example : ∃ ser ber : ℚ, calSer (qamCodedSymbols (2 * 2) 1) [⟨-3, -19 / 10⟩, ⟨1, 1 / 2⟩] [toComplex 1 (-3, -3), toComplex 1 (1, 1)] = some ser ∧
    calBer (2 * 2) (qamCodedSymbols (2 * 2) 1) [⟨-3, -19 / 10⟩, ⟨1, 1 / 2⟩] [toComplex 1 (-3, -3), toComplex 1 (1, 1)] = some ber ∧
    ber = ser / ((2 * 2 : Nat) : ℚ) := by
  apply C158_square_partial 2 1 one_pos _ _ (by simp)
  · intro s hs
    rw [qamCoded_map]
    simp only [List.mem_cons, List.not_mem_nil, or_false] at hs
    rcases hs with rfl | rfl <;> exact List.mem_map_of_mem (by decide +kernel)
  · intro n y s hy hs
    have key : ∀ (a b : ℝ) (p : Int × Int), (a - p.1) ^ 2 + (b - p.2) ^ 2 < 2 → ‖(⟨a, b⟩ : ℂ) - toComplex 1 p‖ < Real.sqrt 2 / 1 := by
      intro a b p hab
      rw [div_one]
      apply lt_of_pow_lt_pow_left₀ 2 (Real.sqrt_nonneg _)
      rw [Real.sq_sqrt (by norm_num : (0 : ℝ) ≤ 2), ← Complex.normSq_eq_norm_sq, Complex.normSq_apply]
      simp only [toComplex, Complex.sub_re, Complex.sub_im, Complex.ofReal_one, div_one]
      linarith
    match n with
    | 0 =>
      simp only [List.getElem?_cons_zero, Option.some.injEq] at hy hs
      subst hy; subst hs
      exact key _ _ _ (by norm_num)
    | 1 =>
      simp only [List.getElem?_cons_zero, List.getElem?_cons_succ, Option.some.injEq] at hy hs
      subst hy; subst hs
      exact key _ _ _ (by norm_num)
    | n + 2 => simp at hy

/-- 8-PSK with deviations below the sine of 45 degrees. -/
example (a b : ℂ) (ha : a ∈ pskCodedSymbols 3) (hb : b ∈ pskCodedSymbols 3) : ∃ ser ber : ℚ,
    calSer (pskCodedSymbols 3) [a + 1 / 2, b] [a, b] = some ser ∧ calBer 3 (pskCodedSymbols 3) [a + 1 / 2, b] [a, b] = some ber ∧ ber = ser / (3 : Nat) := by
  have hs : Real.sin (2 * Real.pi / 2 ^ 3) = Real.sqrt 2 / 2 := by
    rw [show 2 * Real.pi / 2 ^ 3 = Real.pi / 4 by ring, Real.sin_pi_div_four]
  have h1 : (1 : ℝ) < Real.sqrt 2 := by
    rw [Real.lt_sqrt (by norm_num)]
    norm_num
  apply C158_psk_partial 3 (by norm_num) _ _ (by simp)
  · intro s hs
    simp only [List.mem_cons, List.not_mem_nil, or_false] at hs
    rcases hs with rfl | rfl
    · exact ha
    · exact hb
  · intro n y s hy hs'
    rw [hs]
    match n with
    | 0 =>
      simp only [List.getElem?_cons_zero, Option.some.injEq] at hy hs'
      subst hy; subst hs'
      rw [add_sub_cancel_left]
      norm_num
      linarith
    | 1 =>
      simp only [List.getElem?_cons_zero, List.getElem?_cons_succ, Option.some.injEq] at hy hs'
      subst hy; subst hs'
      rw [sub_self, norm_zero]
      linarith
    | n + 2 => simp at hy

end Qampy
