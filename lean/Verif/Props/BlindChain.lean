import Verif.Props.GainRde
import Verif.Props.SearchQam

/-!
# The blind receiver for square QAM: radius directed equaliser, filter, phase search, decisions (C192)
-/

namespace Qampy

open Complex (I)

/-- The largest amplitude of a square QAM constellation with `4^q` points. -/
noncomputable def peakAmp (q : Nat) (scale : ℝ) : ℝ := √2 * (2 ^ q - 1) / scale

/-- Relative power error that is left after training with the radius directed algorithm. -/
noncomputable def gainLeft (scale mu P δ : ℝ) (n : Nat) : ℝ := (1 - mu * P * (2 / scale ^ 2) ^ 2 * (1 - δ)) ^ n * δ

theorem squareQam_amp {q : Nat} (hq : 1 ≤ q) {scale : ℝ} (hs : 0 < scale) {s : ℂ} (h : s ∈ (squareQam q).map (toComplex scale)) : ‖s‖ ≤ peakAmp q scale := by
  obtain ⟨j, h1, h2⟩ := squareQam_power hq h
  have h0 : (0 : ℝ) ≤ 2 ^ q - 1 := by
    have : (1 : ℝ) ≤ 2 ^ q := one_le_pow₀ (by norm_num)
    linarith
  unfold peakAmp
  rw [← pow_le_pow_iff_left₀ (norm_nonneg _) (by positivity) two_ne_zero, h1, div_pow, mul_pow, Real.sq_sqrt (by norm_num)]
  exact div_le_div_of_nonneg_right h2 (by positivity)

/-- **C192** The blind receiver for square QAM with `4^q` points. One source is seen with fixed weights in any number of modes and taps. If the power at the output of the initial taps is off by at most
`δ < 2/(2^q-1)²`, the step size is small enough and the training is long enough for the power error that is left, then training with rde, filtering with the trained taps, blind phase search and
decision give in every output mode the transmitted symbols turned by a number of quarter turns, without a single error, whatever the carrier phase is. -/
theorem C192_blind_receiver {E : List (List ℂ)} {c : Nat → ℂ} {h : Nat → Nat → ℂ} {scale δ mu ρ : ℝ} {q p L os ntaps trSyms nIter M N : Nat} {symbols : List (List ℂ)} {wx : List (List (List ℂ))}
    {errf : ℂ → List ℂ → Nat → Option ℂ} (hmeth : errorFct "rde" = some errf) (hq : 1 ≤ q) (hscale : 0 < scale)
    (hcode : symbols = List.replicate p (partitionCodesRadius ((symbolsQam (2 * q)).map (toComplex scale))))
    (hδ0 : 0 ≤ δ) (hδ1 : δ < 1) (hδ : δ * (2 ^ q - 1) ^ 2 < 2)
    (hE : Rect E p L) (hos : 0 < os) (hn : ntaps ≤ L + 1) (hlen : wx.length = p) (hwx : ∀ w ∈ wx, Rect w p ntaps)
    (hT : trSyms ≤ (L + 1 - ntaps) / os) (hs : RingSource E ((symbolsQam (2 * q)).map (toComplex scale)) c h p ntaps os ((L + 1 - ntaps) / os))
    (hP : 0 < sourcePower h p ntaps) (hmu : 0 < mu) (hb : mu * sourcePower h p ntaps * (peakAmp q scale ^ 2) ^ 2 ≤ 1 / 5)
    (hy : ∀ w ∈ wx, |‖response w h p ntaps‖ ^ 2 - 1| ≤ δ)
    (hN : 1 ≤ N) (hM : 1 ≤ M) (hρ : 0 ≤ ρ) (hw : AnchoredWindows c (toComplex scale (1, 1)) ((L + 1 - ntaps) / os) N ρ) (hlong : 2 * N < (L + 1 - ntaps) / os)
    {ε : ℝ} (hε : peakAmp q scale * gainLeft scale mu (sourcePower h p ntaps) δ (nIter * trSyms) ≤ ε)
    (h100 : 2 * peakAmp q scale + ε ≤ 10) (h1000 : 2 * N * (peakAmp q scale * (Real.pi / (4 * M)) + ε) ^ 2 < 1000)
    (hslip : 2 * searchBound (peakAmp q scale) (√2 / scale) 0 ε ρ M + Real.pi / 4 < √2)
    (hdec : peakAmp q scale * searchBound (peakAmp q scale) (√2 / scale) 0 ε ρ M + ε < 1 / scale) :
    ∃ (r : TrainResult ℂ) (out : List (List ℂ)), trainEqualiser errf adaptStep false E trSyms nIter os mu wx ntaps (List.range p) symbols = some r ∧
      applyFilterToSignal E L os r.wx ntaps (List.range p) = some out ∧ out.length = p ∧
      ∀ m < p, ∃ (y rec : List ℂ) (ph : List ℝ) (k : Nat) (dec : List (ℂ × ℝ × Nat)), out[m]? = some y ∧
        bps y M ((symbolsQam (2 * q)).map (toComplex scale)) N = some (rec, ph) ∧
        makeDecision ((rec.drop N).take ((L + 1 - ntaps) / os - 2 * N)) ((symbolsQam (2 * q)).map (toComplex scale)) = some dec ∧
        dec.map (·.1) = (List.range ((L + 1 - ntaps) / os - 2 * N)).map (fun n => I ^ k * c (N + n)) := by
  have hsq : symbolsQam (2 * q) = squareQam q := by
    unfold symbolsQam
    rw [if_neg (by omega), show 2 * q / 2 = q by omega]
  obtain ⟨n, hnn⟩ : ∃ n, n = (L + 1 - ntaps) / os := ⟨_, rfl⟩
  rw [← hnn] at hT hs hw hlong ⊢
  obtain ⟨syms, hsy⟩ : ∃ syms, syms = (symbolsQam (2 * q)).map (toComplex scale) := ⟨_, rfl⟩
  rw [← hsy] at hs hcode ⊢
  have hne : syms ≠ [] := List.ne_nil_of_mem (hs 0 (by omega)).1
  obtain ⟨hmar, hpow⟩ := C190_square_margin (N := q) hq hscale hδ0 hδ
  rw [← hsq, ← hsy] at hmar hpow
  have hA2 : peakAmp q scale ^ 2 = 2 * (2 ^ q - 1) ^ 2 / scale ^ 2 := by
    unfold peakAmp
    rw [div_pow, mul_pow, Real.sq_sqrt (by norm_num)]
  have hA0 : 0 ≤ peakAmp q scale := (norm_nonneg _).trans (squareQam_amp hq hscale (s := c 0) (by rw [← hsq, ← hsy]; exact (hs 0 (by omega)).1))
  have hT' : trSyms = 0 ∨ (trSyms - 1) * os + ntaps ≤ L := by
    rcases Nat.eq_zero_or_pos trSyms with h0 | h0
    · exact Or.inl h0
    · exact Or.inr (window_in_range hos hn (by omega))
  obtain ⟨r, hr, hr1, hr2, -⟩ := C27_methods (method := "rde") (adaptive := false) (nIter := nIter) (mu := mu) (modes := List.range p) (trSyms := trSyms) (os := os) hmeth hE hlen hwx
    (symbols := symbols) (by rw [hcode, List.length_replicate]) (fun m hm => List.mem_range.1 hm) hT' (by
      intro s hs
      rw [hcode] at hs
      rw [(List.mem_replicate.1 hs).2]
      exact C27_rde_usable _ hne _)
  have hout := applyFilterToSignal_eq (K := ℂ) (modes := List.range p) (wx := r.wx) hE hos hn (by
    intro m hm
    have hm := List.mem_range.1 hm
    exact ⟨_, List.getElem?_eq_getElem (by omega), hr2 _ (List.getElem_mem (by omega))⟩)
  rw [← hnn] at hout
  refine ⟨r, _, hr, hout, by simp, ?_⟩
  intro m hm
  have hs' : RingSource E syms c h p ntaps os trSyms := fun i hi => hs i (by omega)
  obtain ⟨w, w', g1, g2, ⟨κ, hκ0, hκ⟩, -, g5⟩ := C190_rde (nIter := nIter) (mu := mu) (δ := δ) (a := 2 / scale ^ 2) (A := peakAmp q scale ^ 2) hmeth
    (by intro s hs; rw [hcode] at hs; exact (List.mem_replicate.1 hs).2) hmar hδ0 hδ1 (by positivity)
    (by rw [hA2]; exact hpow) hE hwx (fun m hm => List.mem_range.1 hm) List.nodup_range hT' hs' hP hmu hb hy hr m (List.mem_range.2 hm)
  obtain ⟨y, hyd⟩ : ∃ y, y = (List.range n).map fun i => firOutput E (r.wx.getD m []) p ntaps os i := ⟨_, rfl⟩
  have hyl : y.length = n := by rw [hyd]; simp
  have hgw : r.wx.getD m [] = w' := by simp [List.getD, g2]
  have hwm : w ∈ wx := List.mem_of_getElem? g1
  have hyw := hy w hwm
  have hresp : response w h p ntaps ≠ 0 := by
    intro h0
    rw [h0] at hyw
    norm_num at hyw
    linarith
  have hresp' : response w' h p ntaps ≠ 0 := by
    rw [hκ]
    exact mul_ne_zero (by exact_mod_cast hκ0.ne') hresp
  have hmu1 : 0 ≤ 1 - mu * sourcePower h p ntaps * (2 / scale ^ 2) ^ 2 * (1 - δ) := by
    have h1 : (2 / scale ^ 2) ^ 2 ≤ (peakAmp q scale ^ 2) ^ 2 := by
      refine pow_le_pow_left₀ (by positivity) ?_ 2
      have hc0 := hpow _ (hs 0 (by omega)).1
      rw [hA2]
      exact hc0.1.trans hc0.2
    have h2 := mul_le_mul_of_nonneg_left h1 (by positivity : 0 ≤ mu * sourcePower h p ntaps)
    have h3 : 0 ≤ mu * sourcePower h p ntaps * (2 / scale ^ 2) ^ 2 := by positivity
    nlinarith
  have hleft : |‖response w' h p ntaps‖ ^ 2 - 1| ≤ gainLeft scale mu (sourcePower h p ntaps) δ (nIter * trSyms) := by
    unfold gainLeft
    exact g5.trans (mul_le_mul_of_nonneg_left hyw (pow_nonneg hmu1 _))
  have hget : ∀ j, j < n → y.getD j 0 = firOutput E w' p ntaps os j := by
    intro j hj
    rw [hyd, hgw]
    simp [List.getD, hj]
  have hsig : DriftingSignal y syms c (fun _ => Complex.arg (response w' h p ntaps)) N 0 ε := by
    refine ⟨fun j hj => (hs j (by omega)).1, by simp, fun j hj => ?_⟩
    rw [hget j (by omega)]
    have h1 := C190_output (w := w') hs (i := j) (by omega) hresp'
    have h2 : Complex.exp (I * (Complex.arg (response w' h p ntaps) : ℂ)) = response w' h p ntaps / ‖response w' h p ntaps‖ := by
      have hn0 : (‖response w' h p ntaps‖ : ℂ) ≠ 0 := by exact_mod_cast (norm_pos_iff.2 hresp').ne'
      rw [eq_div_iff hn0, mul_comm, mul_comm I]
      exact Complex.norm_mul_exp_arg_mul_I _
    rw [h2]
    refine h1.trans (le_trans ?_ hε)
    refine mul_le_mul ?_ hleft (abs_nonneg _) hA0
    have := (hs j (by omega)).1
    rw [hsy, hsq] at this
    exact squareQam_amp hq hscale this
  obtain ⟨rec, ph, k, dec, e1, -, e2, e3, -⟩ := C191_qam y (2 * q) scale M N c (fun _ => Complex.arg (response w' h p ntaps)) (peakAmp q scale) 0 ε ρ (by omega) hscale hN hM
    (by intro z hz; rw [hsq] at hz; exact squareQam_amp hq hscale hz) hρ (by rw [hyl]; exact hw) (by rw [← hsy]; exact hsig) h100 (by rw [add_zero]; exact h1000) (by linarith) hdec (by omega)
  rw [← hsy, hyl] at e2
  rw [← hsy] at e1
  rw [hyl] at e3
  refine ⟨y, rec, ph, k, dec, ?_, e1, e2, e3⟩
  rw [List.getElem?_map, List.getElem?_range hm, hyd]
  rfl

/-- 16-QAM of any length with a gain error of five percent and any carrier phase, trained in at least two thousand iterations. -/
example (L nIter : Nat) (ψ : ℝ) (hL : 3 ≤ L) (hI : 2000 ≤ nIter) : ∃ (r : TrainResult ℂ) (y rec : List ℂ) (ph : List ℝ) (k : Nat) (dec : List (ℂ × ℝ × Nat)),
    trainEqualiser rdeError adaptStep false [(List.range L).map fun j => (if j % 2 = 0 then toComplex 1 (1, 1) else toComplex 1 (3, -1)) * (21 / 20 * Complex.exp (I * (ψ : ℂ)))] L nIter 1 (1 / 2000)
      [[[1]]] 1 [0] [partitionCodesRadius ((symbolsQam 4).map (toComplex 1))] = some r ∧
    applyFilterToSignal [(List.range L).map fun j => (if j % 2 = 0 then toComplex 1 (1, 1) else toComplex 1 (3, -1)) * (21 / 20 * Complex.exp (I * (ψ : ℂ)))] L 1 r.wx 1 [0] = some [y] ∧
    bps y 64 ((symbolsQam 4).map (toComplex 1)) 1 = some (rec, ph) ∧ makeDecision ((rec.drop 1).take (L - 2)) ((symbolsQam 4).map (toComplex 1)) = some dec ∧
    dec.map (·.1) = (List.range (L - 2)).map (fun n => I ^ k * if (1 + n) % 2 = 0 then toComplex 1 (1, 1) else toComplex 1 (3, -1)) := by
  obtain ⟨c, hc⟩ : ∃ c : Nat → ℂ, c = fun j => if j % 2 = 0 then toComplex 1 (1, 1) else toComplex 1 (3, -1) := ⟨_, rfl⟩
  obtain ⟨E, hEd⟩ : ∃ E : List (List ℂ), E = [(List.range L).map fun j => c j * (21 / 20 * Complex.exp (I * (ψ : ℂ)))] := ⟨_, rfl⟩
  have hmem : ∀ j, c j ∈ (symbolsQam (2 * 2)).map (toComplex 1) := by
    intro j
    rw [hc]
    simp only
    split_ifs
    · exact List.mem_map.2 ⟨_, by decide, rfl⟩
    · exact List.mem_map.2 ⟨_, by decide, rfl⟩
  have hpi := Real.pi_le_four
  have hpi0 := Real.pi_pos
  have h2l : (1.414 : ℝ) < √2 := by
    rw [Real.lt_sqrt (by norm_num)]; norm_num
  have h2u : √2 < 1.415 := by
    rw [Real.sqrt_lt' (by norm_num)]; norm_num
  have hamp : peakAmp 2 1 = 3 * √2 := by unfold peakAmp; norm_num; ring
  have hresp : response ([[1]] : List (List ℂ)) (fun _ _ => 21 / 20 * Complex.exp (I * (ψ : ℂ))) 1 1 = 21 / 20 * Complex.exp (I * (ψ : ℂ)) := by
    simp only [response, val2, at2, Finset.sum_range_one]
    norm_num
  have hnr : ‖(21 / 20 * Complex.exp (I * (ψ : ℂ)) : ℂ)‖ = 21 / 20 := by
    rw [norm_mul, norm_exp_I]; norm_num
  have hpow : sourcePower (fun _ _ => 21 / 20 * Complex.exp (I * (ψ : ℂ))) 1 1 = 441 / 400 := by
    simp only [sourcePower, Finset.sum_range_one]
    rw [hnr]
    norm_num
  have hn1 : (L + 1 - 1) / 1 = L := by simp
  have hleft : gainLeft 1 (1 / 2000) (441 / 400) (41 / 400) (nIter * L) ≤ 1 / 120 := by
    unfold gainLeft
    obtain ⟨x, hx⟩ : ∃ x : ℝ, x = 1 / 2000 * (441 / 400) * (2 / 1 ^ 2) ^ 2 * (1 - 41 / 400) := ⟨_, rfl⟩
    rw [← hx]
    have hx1 : (0.0019 : ℝ) ≤ x := by rw [hx]; norm_num
    have hx2 : x ≤ (0.002 : ℝ) := by rw [hx]; norm_num
    have hn : (6000 : ℝ) ≤ ((nIter * L : Nat) : ℝ) := by
      have : 2000 * 3 ≤ nIter * L := Nat.mul_le_mul hI hL
      exact_mod_cast this
    have hber := one_add_mul_le_pow (by linarith : (-2 : ℝ) ≤ x) (nIter * L)
    have hprod : (1 - x) ^ (nIter * L) * (1 + x) ^ (nIter * L) ≤ 1 := by
      rw [← mul_pow]
      exact pow_le_one₀ (by nlinarith) (by nlinarith)
    have hpos : 0 ≤ (1 - x) ^ (nIter * L) := pow_nonneg (by linarith) _
    have h67 : (12.4 : ℝ) ≤ (1 + x) ^ (nIter * L) := by nlinarith
    have : (1 - x) ^ (nIter * L) * 12.4 ≤ 1 := (mul_le_mul_of_nonneg_left h67 hpos).trans hprod
    linarith
  have hSB : searchBound (3 * √2) (√2 / 1) 0 (1 / 25) 1.5 64 ≤ 0.15 := by
    unfold searchBound
    rw [div_one, add_zero, add_zero, div_le_iff₀ (by positivity)]
    push_cast
    nlinarith
  obtain ⟨r, out, h1, h2, h3, h4⟩ := C192_blind_receiver (E := E) (c := c) (h := fun _ _ => 21 / 20 * Complex.exp (I * (ψ : ℂ))) (scale := 1) (δ := 41 / 400) (mu := 1 / 2000) (ρ := 1.5)
    (q := 2) (p := 1) (L := L) (os := 1) (ntaps := 1) (trSyms := L) (nIter := nIter) (M := 64) (N := 1) (symbols := [partitionCodesRadius ((symbolsQam 4).map (toComplex 1))]) (wx := [[[1]]])
    (errf := rdeError) rfl (by norm_num) one_pos rfl (by norm_num) (by norm_num) (by norm_num)
    (by rw [hEd]; exact ⟨rfl, by simp⟩) one_pos (by omega) rfl (by intro w hw; rw [List.mem_singleton.1 hw]; exact ⟨rfl, by simp⟩) (by simp)
    (by
      rw [hn1]
      intro i hi
      refine ⟨hmem i, ?_⟩
      intro k t hk ht
      obtain rfl : k = 0 := by omega
      obtain rfl : t = 0 := by omega
      rw [hEd]
      simp [val2, at2, hi])
    (by rw [hpow]; norm_num) (by norm_num)
    (by rw [hpow, hamp, mul_pow, Real.sq_sqrt (by norm_num)]; norm_num)
    (by intro w hw; rw [List.mem_singleton.1 hw, hresp, hnr]; norm_num [abs_of_pos])
    le_rfl (by norm_num) (by norm_num)
    (by
      rw [hn1, hc]
      intro t h1 h2
      rcases Nat.mod_two_eq_zero_or_one t with h | h
      · refine ⟨{t}, by simp; omega, ?_, by simp, by norm_num⟩
        intro j hj
        rw [Finset.mem_singleton.1 hj]
        exact ⟨0, by simp [h]⟩
      · refine ⟨{t + 1}, by simp, ?_, by simp, by norm_num⟩
        intro j hj
        rw [Finset.mem_singleton.1 hj]
        exact ⟨0, by simp [show (t + 1) % 2 = 0 by omega]⟩)
    (by rw [hn1]; omega) (ε := 1 / 25)
    (by
      rw [hpow, hamp]
      nlinarith)
    (by rw [hamp]; linarith)
    (by
      rw [hamp]
      push_cast
      have : (3 * √2 * (Real.pi / (4 * 64)) + 1 / 25) ^ 2 ≤ (1 : ℝ) := by
        apply pow_le_one₀ (by positivity)
        nlinarith
      linarith)
    (by rw [hamp]; linarith)
    (by rw [hamp]; nlinarith)
  obtain ⟨y, rec, ph, k, dec, e1, e2, e3, e4⟩ := h4 0 one_pos
  obtain ⟨y', rfl⟩ : ∃ y', out = [y'] := List.length_eq_one_iff.1 h3
  simp only [List.getElem?_cons_zero, Option.some.injEq] at e1
  subst e1
  rw [hn1] at e3 e4
  rw [hEd, hc] at h1 h2
  rw [hc] at e4
  exact ⟨r, y', rec, ph, k, dec, h1, h2, e2, e3, e4⟩

end Qampy
