import Verif.Model.Metrics
import Verif.Props.Correlate
import Verif.Props.Quality
import Verif.Props.Modes
import Verif.Props.Sync
import Verif.Lemmas.Pilots
import Verif.Tactics

/-!
C131, C132: the metrics of a whole signal, with and without synchronisation.
-/

namespace Qampy

/-! ### Correlations -/

theorem corrAt_map_mul (x y : List ℂ) (c : ℂ) (k : Int) : corrAt x (y.map (· * c)) k = (starRingEnd ℂ) c * corrAt x y k := by
  unfold corrAt
  rw [List.length_map, Finset.mul_sum]
  apply Finset.sum_congr rfl
  intro j hj
  rw [Finset.mem_range] at hj
  rw [List.getD_eq_getElem?_getD, List.getElem?_map, List.getD_eq_getElem?_getD, List.getElem?_eq_getElem hj]
  simp only [Option.map_some, Option.getD_some, map_mul]
  ring

theorem crossCorr_complex_index {x y : List ℂ} (hx : x ≠ []) (hy : y ≠ []) (k : Int) (h1 : -(y.length : Int) < k) (h2 : k < x.length) : corrAt x y k ∈ crossCorr complexOps x y := by
  have hyl : 0 < y.length := List.length_pos_iff.2 hy
  have := crossCorr_getElem? complexOps x y hx hy (k + (y.length - 1)).toNat (by omega)
  have e : (((k + (y.length - 1)).toNat : Nat) : Int) - (y.length - 1) = k := by omega
  rw [e] at this
  exact List.mem_of_getElem? this

theorem crossCorr_complex_range {x y : List ℂ} (hx : x ≠ []) (hy : y ≠ []) (n : Nat) (v : ℂ) (h : (crossCorr complexOps x y)[n]? = some v) : v = corrAt x y ((n : Int) - (y.length - 1)) := by
  have hlt : n < x.length + y.length - 1 := by
    rw [← length_crossCorr complexOps x y hx hy]
    exact (List.getElem?_eq_some_iff.1 h).1
  rw [crossCorr_getElem? _ _ _ hx hy n hlt] at h
  simpa [corrAt, complexOps] using h.symm

/-- The offset found is a lag with the largest correlation. -/
theorem findSequenceOffset_max {x y : List ℂ} (hx : x ≠ []) (hy : y ≠ []) : ∃ off : Int, findSequenceOffset complexOps x y = .ok off ∧ ∀ k : Int, -(y.length : Int) < k → k < x.length → ‖corrAt x y k‖ ≤ ‖corrAt x y off‖ := by
  have hne : (crossCorr complexOps x y).map complexOps.mag ≠ [] := by
    have hyl : 0 < y.length := List.length_pos_iff.2 hy
    have hxl : 0 < x.length := List.length_pos_iff.2 hx
    have h := length_crossCorr complexOps x y hx hy
    intro h0
    rw [List.map_eq_nil_iff] at h0
    rw [h0] at h
    simp at h
    omega
  obtain ⟨n, hn⟩ := Np.argmax_isSome hne
  obtain ⟨m, h1, h2, -⟩ := Np.argmax_spec hn
  rw [List.getElem?_map] at h1
  cases hv : (crossCorr complexOps x y)[n]? with
  | none => rw [hv] at h1; cases h1
  | some v =>
    rw [hv] at h1
    have hm : m = ‖corrAt x y ((n : Int) - (y.length - 1))‖ := by
      rw [← crossCorr_complex_range hx hy n v hv]
      simpa [complexOps] using h1.symm
    refine ⟨(n : Int) - (y.length - 1), ?_, ?_⟩
    · unfold findSequenceOffset
      rw [hn]
    · intro k hk1 hk2
      rw [← hm]
      exact h2 _ (List.mem_map_of_mem (f := complexOps.mag) (crossCorr_complex_index hx hy k hk1 hk2))

theorem I_pow_conj_mul (r : Nat) : (starRingEnd ℂ) (Complex.I ^ r) * Complex.I ^ r = 1 := by
  rw [mul_comm, Complex.mul_conj, Complex.normSq_eq_norm_sq]
  simp

/-- A dominating peak of the correlation determines offset and rotation. -/
theorem fsoc_peak (x y : List ℂ) (N : Nat) (hN : 0 < N) (hx : x.length = N) (hy : y.length = N) (d : Int) (r : Nat) (hr : r < 4) (c : ℝ) (hc : 0 ≤ c)
    (hpk : ∃ k0 : Int, -(N : Int) < k0 ∧ k0 < N ∧ c < ((starRingEnd ℂ) (Complex.I ^ r) * corrAt x y k0).re)
    (hside : ∀ k : Int, ¬ k % N = d % N → ‖corrAt x y k‖ ≤ c)
    (hrot : ∀ k : Int, k % N = d % N → ∀ i < 4, i ≠ r → ((starRingEnd ℂ) (Complex.I ^ i) * corrAt x y k).re ≤ c) :
    ∃ (off : Int) (acm : ℝ), findSequenceOffsetComplex complexOps true x y = .ok (off, y.map (· * Complex.I ^ r), r, some acm) ∧ off % N = d % N ∧ c < acm := by
  have hxne : x ≠ [] := by intro h; rw [h] at hx; simp at hx; omega
  have hyne : y ≠ [] := by intro h; rw [h] at hy; simp at hy; omega
  obtain ⟨k0, hk1, hk2, hk3⟩ := hpk
  have hyr : ∀ i : Nat, (y.map (· * complexOps.I ^ i)) ≠ [] := by intro i; simpa using hyne
  have hcorr : ∀ (i : Nat) (k : Int), corrAt x (y.map (· * complexOps.I ^ i)) k = (starRingEnd ℂ) (Complex.I ^ i) * corrAt x y k := fun i k => corrAt_map_mul x y _ k
  have hnorm : ∀ (i : Nat) (k : Int), ‖corrAt x (y.map (· * complexOps.I ^ i)) k‖ = ‖corrAt x y k‖ := by
    intro i k
    rw [hcorr, norm_mul, RCLike.norm_conj]
    simp
  obtain ⟨st, hst⟩ := rotLoop_ok complexOps x y hxne hyne [0, 1, 2, 3] none
  obtain ⟨h1, h2, -⟩ := rotLoop_spec _ _ _ _ _ _ hst
  have hpeak : ((starRingEnd ℂ) (Complex.I ^ r) * corrAt x y k0).re ∈ (crossCorr complexOps x (y.map (· * complexOps.I ^ r))).map complexOps.re := by
    rw [← hcorr]
    exact List.mem_map_of_mem (f := complexOps.re) (crossCorr_complex_index hxne (hyr r) k0 (by rw [List.length_map, hy]; exact hk1) (by rw [hx]; exact hk2))
  obtain ⟨s, hs, hsle⟩ := h2 r (by simp; omega) _ hpeak (lt_of_le_of_lt hc hk3)
  rcases h1 with h1 | ⟨i, hi, idx, act, hst', hidx, hact⟩
  · rw [h1] at hs; cases hs
  · rw [hst'] at hs
    cases hs
    dsimp only at hsle
    have hca : c < act := lt_of_lt_of_le hk3 hsle
    obtain ⟨v, hv, hvre⟩ := List.mem_map.1 hact
    obtain ⟨k, hk⟩ := crossCorr_complex_mem hxne (hyr i) hv
    have hre : v.re = act := hvre
    have hi4 : i < 4 := by simp at hi; omega
    have hir : i = r := by
      by_contra hne
      have hle : v.re ≤ c := by
        by_cases hkd : k % N = d % N
        · rw [hk, hcorr]; exact hrot k hkd i hi4 hne
        · refine le_trans (Complex.re_le_norm v) ?_
          rw [hk, hnorm]
          exact hside k hkd
      linarith
    subst hir
    refine ⟨idx, act, ?_, ?_, hca⟩
    · simp only [findSequenceOffsetComplex, hst, hst', bind, Except.bind]
      simp [complexOps]
    · obtain ⟨off, ho, hmax⟩ := findSequenceOffset_max (x := x) hxne (hyr i)
      rw [ho] at hidx
      have hoi : off = idx := by simpa using hidx
      subst hoi
      by_contra hne
      have h3 := hmax k0 (by rw [List.length_map, hy]; exact hk1) (by rw [hx]; exact hk2)
      rw [hnorm, hnorm] at h3
      have h4 : ((starRingEnd ℂ) (Complex.I ^ i) * corrAt x y k0).re ≤ ‖corrAt x y k0‖ := by
        refine le_trans (Complex.re_le_norm _) ?_
        rw [norm_mul, RCLike.norm_conj]
        simp
      have h5 := hside off hne
      linarith

/-- Without any peak above `c` the returned correlation is at most `c`. -/
theorem fsoc_low (x y : List ℂ) (N : Nat) (hN : 0 < N) (hx : x.length = N) (hy : y.length = N) (c : ℝ) (hall : ∀ k : Int, ‖corrAt x y k‖ ≤ c)
    (hne : ∃ k0 : Int, -(N : Int) < k0 ∧ k0 < N ∧ corrAt x y k0 ≠ 0) :
    ∃ (off : Int) (t : List ℂ) (ii : Nat) (acm : ℝ), findSequenceOffsetComplex complexOps true x y = .ok (off, t, ii, some acm) ∧ 0 < acm ∧ acm ≤ c := by
  have hxne : x ≠ [] := by intro h; rw [h] at hx; simp at hx; omega
  have hyne : y ≠ [] := by intro h; rw [h] at hy; simp at hy; omega
  obtain ⟨k0, hk1, hk2, hk3⟩ := hne
  have hyr : ∀ i : Nat, (y.map (· * complexOps.I ^ i)) ≠ [] := by intro i; simpa using hyne
  have hcorr : ∀ (i : Nat) (k : Int), corrAt x (y.map (· * complexOps.I ^ i)) k = (starRingEnd ℂ) (Complex.I ^ i) * corrAt x y k := fun i k => corrAt_map_mul x y _ k
  obtain ⟨st, hst⟩ := rotLoop_ok complexOps x y hxne hyne [0, 1, 2, 3] none
  obtain ⟨h1, h2, -⟩ := rotLoop_spec _ _ _ _ _ _ hst
  obtain ⟨r, hr, hpos⟩ : ∃ r, r < 4 ∧ 0 < ((starRingEnd ℂ) (Complex.I ^ r) * corrAt x y k0).re := by
    generalize corrAt x y k0 = z at hk3
    by_cases ha : z.re = 0
    · have hb : z.im ≠ 0 := fun hb => hk3 (Complex.ext ha hb)
      rcases lt_or_gt_of_ne hb with hb | hb
      · exact ⟨3, by norm_num, by simp [pow_succ]; exact hb⟩
      · exact ⟨1, by norm_num, by simp; exact hb⟩
    · rcases lt_or_gt_of_ne ha with ha | ha
      · exact ⟨2, by norm_num, by simp [pow_succ]; exact ha⟩
      · exact ⟨0, by norm_num, by simp; exact ha⟩
  have hpeak : ((starRingEnd ℂ) (Complex.I ^ r) * corrAt x y k0).re ∈ (crossCorr complexOps x (y.map (· * complexOps.I ^ r))).map complexOps.re := by
    rw [← hcorr]
    exact List.mem_map_of_mem (f := complexOps.re) (crossCorr_complex_index hxne (hyr r) k0 (by rw [List.length_map, hy]; exact hk1) (by rw [hx]; exact hk2))
  obtain ⟨s, hs, hsle⟩ := h2 r (by simp; omega) _ hpeak hpos
  rcases h1 with h1 | ⟨i, hi, idx, act, hst', hidx, hact⟩
  · rw [h1] at hs; cases hs
  · rw [hst'] at hs
    cases hs
    dsimp only at hsle
    refine ⟨idx, y.map (· * complexOps.I ^ i), i, act, ?_, lt_of_lt_of_le hpos hsle, ?_⟩
    · simp only [findSequenceOffsetComplex, hst, hst', bind, Except.bind]
      simp
    · obtain ⟨v, hv, hvre⟩ := List.mem_map.1 hact
      obtain ⟨k, hk⟩ := crossCorr_complex_mem hxne (hyr i) hv
      have hre : v.re = act := hvre
      rw [← hre]
      refine le_trans (Complex.re_le_norm v) ?_
      rw [hk, hcorr, norm_mul, RCLike.norm_conj]
      simpa using hall k

theorem xat_range_map (f : Nat → ℂ) (N : Nat) (k : Int) : xat ((List.range N).map f) k = if 0 ≤ k ∧ k < N then f k.toNat else 0 := by
  unfold xat
  by_cases h0 : 0 ≤ k
  · rw [if_pos h0]
    by_cases h1 : k < N
    · rw [if_pos ⟨h0, h1⟩, List.getD_eq_getElem?_getD, List.getElem?_map, List.getElem?_range (by omega)]
      rfl
    · rw [if_neg (fun h => h1 h.2), List.getD_eq_getElem?_getD, List.getElem?_map, List.getElem?_eq_none (by simp; omega)]
      rfl
  · rw [if_neg h0, if_neg (fun h => h0 h.1)]

theorem corrAt_range_map (f g : Nat → ℂ) (N : Nat) (k : Int) : corrAt ((List.range N).map f) ((List.range N).map g) k =
    ∑ m ∈ Finset.range N, (if 0 ≤ k + m ∧ k + m < N then f (k + m).toNat else 0) * (starRingEnd ℂ) (g m) := by
  unfold corrAt
  rw [List.length_map, List.length_range]
  apply Finset.sum_congr rfl
  intro m hm
  rw [Finset.mem_range] at hm
  rw [xat_range_map, List.getD_eq_getElem?_getD, List.getElem?_map, List.getElem?_range hm]
  rfl

/-- Two sequences which are not identically zero have a lag with non-zero correlation. -/
theorem exists_corr_ne_zero (f g : Nat → ℂ) (N : Nat) (hf : ∃ n < N, f n ≠ 0) (hg : ∃ n < N, g n ≠ 0) :
    ∃ k0 : Int, -(N : Int) < k0 ∧ k0 < N ∧ corrAt ((List.range N).map f) ((List.range N).map g) k0 ≠ 0 := by
  classical
  obtain ⟨b, ⟨hb, hgb⟩, hbmin⟩ : ∃ b, (b < N ∧ g b ≠ 0) ∧ ∀ m < b, ¬ (m < N ∧ g m ≠ 0) := by
    obtain ⟨n, h⟩ := hg
    exact ⟨Nat.find ⟨n, h⟩, Nat.find_spec (⟨n, h⟩ : ∃ n, n < N ∧ g n ≠ 0), fun m hm => Nat.find_min _ hm⟩
  obtain ⟨a, ⟨ha, hfa⟩, hamax⟩ : ∃ a, (a < N ∧ f a ≠ 0) ∧ ∀ m, a < m → m < N → f m = 0 := by
    obtain ⟨n, hn, h⟩ := hf
    have hP : ∃ t, t < N ∧ f (N - 1 - t) ≠ 0 := ⟨N - 1 - n, by omega, by rw [show N - 1 - (N - 1 - n) = n by omega]; exact h⟩
    refine ⟨N - 1 - Nat.find hP, ⟨by omega, (Nat.find_spec hP).2⟩, ?_⟩
    intro m h1 h2
    by_contra h3
    have := Nat.find_min hP (m := N - 1 - m) (by omega)
    apply this
    exact ⟨by omega, by rw [show N - 1 - (N - 1 - m) = m by omega]; exact h3⟩
  refine ⟨(a : Int) - b, by omega, by omega, ?_⟩
  rw [corrAt_range_map, Finset.sum_eq_single b]
  · rw [show (a : Int) - b + b = a by ring, if_pos ⟨by omega, by omega⟩]
    exact mul_ne_zero hfa (by simpa using hgb)
  · intro m hm hne
    rw [Finset.mem_range] at hm
    rcases lt_or_gt_of_ne hne with h | h
    · have : g m = 0 := by
        by_contra h4
        exact hbmin m h ⟨hm, h4⟩
      rw [this]
      simp
    · by_cases h5 : 0 ≤ (a : Int) - b + m ∧ (a : Int) - b + m < N
      · rw [if_pos h5, hamax _ (by omega) (by omega), zero_mul]
      · rw [if_neg h5, zero_mul]
  · intro h
    exact absurd (Finset.mem_range.2 hb) h

/-- `conj(I^i) * I^r` has no positive real part unless `i = r`. -/
theorem quarter_re (i r : Nat) (hi : i < 4) (hr : r < 4) (hne : i ≠ r) : ((starRingEnd ℂ) (Complex.I ^ i) * Complex.I ^ r).re ≤ 0 := by
  interval_cases i <;> interval_cases r <;> first | exact absurd rfl hne | simp [pow_succ]

theorem norm_sum_le_noise (w g : Nat → ℂ) (N : Nat) (ε S : ℝ) (hw : ∀ n < N, ‖w n‖ ≤ ε) (hε : 0 ≤ ε) (hS : ∑ m ∈ Finset.range N, ‖g m‖ ≤ S) (k : Int) :
    ‖∑ m ∈ Finset.range N, (if 0 ≤ k + m ∧ k + m < N then w (k + m).toNat else 0) * (starRingEnd ℂ) (g m)‖ ≤ ε * S := by
  refine le_trans (norm_sum_le _ _) (le_trans (Finset.sum_le_sum (g := fun m => ε * ‖g m‖) ?_) ?_)
  · intro m hm
    rw [norm_mul, RCLike.norm_conj]
    apply mul_le_mul_of_nonneg_right _ (norm_nonneg _)
    split_ifs with h
    · exact hw _ (by omega)
    · simpa using hε
  · rw [← Finset.mul_sum]
    exact mul_le_mul_of_nonneg_left hS hε

/-! ### C131 -/

/-- The `d`-delayed sequence, cyclically with period `N`. -/
def delayed (N : Nat) (a : Nat → ℂ) (d n : Nat) : ℂ := a (((n : Int) - d) % N).toNat

/-- C131 with a bound on the correlations of the disturbance instead of the disturbance. -/
theorem align_corr (s w : Nat → Nat → ℂ) (tau d r : Nat → Nat) (N L Lr : Nat) (hN : 0 < N) (c0 η : ℝ) (hc0 : 0 ≤ c0) (hη : 0 ≤ η)
    (htau : ∀ j < Lr, tau j < L) (hinj : ∀ j k, j < Lr → k < Lr → tau j = tau k → j = k) (hd : ∀ j < Lr, d j < N) (hr : ∀ j < Lr, r j < 4)
    (hw : ∀ j < Lr, ∀ i < L, ∀ k : Int, -(N : Int) < k → k < N →
      ‖∑ m ∈ Finset.range N, (if 0 ≤ k + m ∧ k + m < N then w j (k + m).toNat else 0) * (starRingEnd ℂ) (s i m)‖ ≤ η) (hnz : ∀ i < L, ∃ m < N, s i m ≠ 0)
    (hside : ∀ j < Lr, ∀ i < L, ∀ k : Int, -(N : Int) < k → k < N → (i ≠ tau j ∨ ¬ k % N = d j % N) →
      ‖∑ m ∈ Finset.range N, (if 0 ≤ k + m ∧ k + m < N then delayed N (s (tau j)) (d j) (k + m).toNat else 0) * (starRingEnd ℂ) (s i m)‖ ≤ c0)
    (hpeak : ∀ j < Lr, c0 + 2 * η < max (∑ m ∈ Finset.Ico 0 (N - d j), ‖s (tau j) m‖ ^ 2) (∑ m ∈ Finset.Ico (N - d j) N, ‖s (tau j) m‖ ^ 2)) :
    syncRows ((List.range L).map fun i => (List.range N).map (s i)) ((List.range Lr).map fun j => (List.range N).map fun n => delayed N (s (tau j)) (d j) n * Complex.I ^ r j + w j n) =
    .ok ((List.range Lr).map fun j => (List.range N).map fun n => delayed N (s (tau j)) (d j) n * Complex.I ^ r j,
      (List.range Lr).map fun j => (List.range N).map fun n => delayed N (s (tau j)) (d j) n * Complex.I ^ r j + w j n) := by
  obtain ⟨rxr, hrxr⟩ : ∃ rxr : Nat → List ℂ, rxr = fun j => (List.range N).map fun n => delayed N (s (tau j)) (d j) n * Complex.I ^ r j + w j n := ⟨_, rfl⟩
  obtain ⟨txr, htxr⟩ : ∃ txr : Nat → List ℂ, txr = fun i => (List.range N).map (s i) := ⟨_, rfl⟩
  have hxl : ∀ j, (rxr j).length = N := by intro j; rw [hrxr]; simp
  have hyl : ∀ j, (txr j).length = N := by intro j; rw [htxr]; simp
  -- the correlation is the turned correlation of the signal plus a disturbance
  have hdec : ∀ j < Lr, ∀ i < L, ∀ k : Int, ∃ z : ℂ, ‖z‖ ≤ η ∧ corrAt (rxr j) (txr i) k = Complex.I ^ r j *
      (∑ m ∈ Finset.range N, (if 0 ≤ k + m ∧ k + m < N then delayed N (s (tau j)) (d j) (k + m).toNat else 0) * (starRingEnd ℂ) (s i m)) + z := by
    intro j hj i hi k
    refine ⟨∑ m ∈ Finset.range N, (if 0 ≤ k + m ∧ k + m < N then w j (k + m).toNat else 0) * (starRingEnd ℂ) (s i m), ?_, ?_⟩
    · by_cases h1 : -(N : Int) < k ∧ k < N
      · exact hw j hj i hi k h1.1 h1.2
      · rw [Finset.sum_eq_zero]
        · simpa using hη
        · intro m hm
          rw [Finset.mem_range] at hm
          rw [if_neg (by omega), zero_mul]
    rw [hrxr, htxr]
    dsimp only
    rw [corrAt_range_map, Finset.mul_sum, ← Finset.sum_add_distrib]
    apply Finset.sum_congr rfl
    intro m _
    split_ifs
    · ring
    · ring
  -- aligned correlations
  have haligned : ∀ j < Lr, ∀ k : Int, k % N = (d j : Int) % N →
      (∑ m ∈ Finset.range N, (if 0 ≤ k + m ∧ k + m < N then delayed N (s (tau j)) (d j) (k + m).toNat else 0) * (starRingEnd ℂ) (s (tau j) m)) =
      ((∑ m ∈ Finset.range N, if 0 ≤ k + m ∧ k + m < N then ‖s (tau j) m‖ ^ 2 else 0 : ℝ) : ℂ) := by
    intro j hj k hk
    rw [Complex.ofReal_sum]
    apply Finset.sum_congr rfl
    intro m hm
    rw [Finset.mem_range] at hm
    split_ifs with h
    · unfold delayed
      have e : ((((k + m).toNat : Nat) : Int) - d j) % N = m := by
        rw [Int.toNat_of_nonneg h.1, show k + (m : Int) - d j = m + (k - d j) by ring, Int.add_emod, Int.emod_eq_zero_of_dvd (a := (N : Int)) (b := k - d j) (Int.ModEq.dvd (Int.ModEq.symm hk))]
        rw [add_zero, Int.emod_emod_of_dvd _ (dvd_refl _), Int.emod_eq_of_lt (by omega) (by omega)]
      rw [e, Int.toNat_natCast, Complex.mul_conj, Complex.normSq_eq_norm_sq]
    · simp
  have hpk0 : ∀ j < Lr, ∃ k0 : Int, -(N : Int) < k0 ∧ k0 < N ∧ k0 % N = (d j : Int) % N ∧
      c0 + 2 * η < ∑ m ∈ Finset.range N, if 0 ≤ k0 + m ∧ k0 + m < N then ‖s (tau j) m‖ ^ 2 else 0 := by
    intro j hj
    have hdj := hd j hj
    rcases lt_max_iff.1 (hpeak j hj) with h | h
    · refine ⟨d j, by omega, by omega, rfl, lt_of_lt_of_le h (le_of_eq ?_)⟩
      rw [← Finset.sum_filter]
      apply Finset.sum_congr _ (fun _ _ => rfl)
      ext m
      simp only [Finset.mem_Ico, Finset.mem_filter, Finset.mem_range]
      omega
    · have hd0 : d j ≠ 0 := by
        intro h0
        rw [h0] at h
        simp at h
        linarith
      refine ⟨(d j : Int) - N, by omega, by omega, by simp, lt_of_lt_of_le h (le_of_eq ?_)⟩
      rw [← Finset.sum_filter]
      apply Finset.sum_congr _ (fun _ _ => rfl)
      ext m
      simp only [Finset.mem_Ico, Finset.mem_filter, Finset.mem_range]
      omega
  have hsideN : ∀ j < Lr, ∀ i < L, ∀ k : Int, (i ≠ tau j ∨ ¬ k % N = (d j : Int) % N) → ‖corrAt (rxr j) (txr i) k‖ ≤ c0 + η := by
    intro j hj i hi k hk
    obtain ⟨z, hz, e⟩ := hdec j hj i hi k
    rw [e]
    refine le_trans (norm_add_le _ _) (add_le_add ?_ hz)
    rw [norm_mul, norm_pow, Complex.norm_I, one_pow, one_mul]
    by_cases h1 : -(N : Int) < k ∧ k < N
    · exact hside j hj i hi k h1.1 h1.2 hk
    · rw [Finset.sum_eq_zero]
      · simpa using hc0
      · intro m hm
        rw [Finset.mem_range] at hm
        rw [if_neg (by omega), zero_mul]
  -- the mode sent
  have hmain : ∀ j < Lr, ∃ (off : Int) (acm : ℝ), findSequenceOffsetComplex complexOps true (rxr j) (txr (tau j)) =
      .ok (off, (txr (tau j)).map (· * Complex.I ^ r j), r j, some acm) ∧ off % N = (d j : Int) % N ∧ c0 + η < acm := by
    intro j hj
    apply fsoc_peak (rxr j) (txr (tau j)) N hN (hxl j) (hyl _) (d j) (r j) (hr j hj) (c0 + η) (by linarith)
    · obtain ⟨k0, h1, h2, h3, h4⟩ := hpk0 j hj
      refine ⟨k0, h1, h2, ?_⟩
      obtain ⟨z, hz, e⟩ := hdec j hj (tau j) (htau j hj) k0
      rw [e, haligned j hj k0 h3, mul_add, ← mul_assoc, I_pow_conj_mul, one_mul, Complex.add_re, Complex.ofReal_re]
      have h5 : -η ≤ ((starRingEnd ℂ) (Complex.I ^ r j) * z).re := by
        have h6 := Complex.abs_re_le_norm ((starRingEnd ℂ) (Complex.I ^ r j) * z)
        rw [norm_mul, RCLike.norm_conj, norm_pow, Complex.norm_I, one_pow, one_mul] at h6
        have := (abs_le.1 (le_trans h6 hz)).1
        exact this
      linarith
    · intro k hk
      exact hsideN j hj _ (htau j hj) k (Or.inr hk)
    · intro k hk i hi hne
      obtain ⟨z, hz, e⟩ := hdec j hj (tau j) (htau j hj) k
      rw [e, haligned j hj k hk, mul_add, ← mul_assoc, Complex.add_re, Complex.re_mul_ofReal]
      have h6 := Complex.re_le_norm ((starRingEnd ℂ) (Complex.I ^ i) * z)
      rw [norm_mul, RCLike.norm_conj, norm_pow, Complex.norm_I, one_pow, one_mul] at h6
      have h7 : ((starRingEnd ℂ) (Complex.I ^ i) * Complex.I ^ r j).re * (∑ m ∈ Finset.range N, if 0 ≤ k + m ∧ k + m < N then ‖s (tau j) m‖ ^ 2 else 0) ≤ 0 := by
        apply mul_nonpos_of_nonpos_of_nonneg (quarter_re i (r j) hi (hr j hj) hne)
        apply Finset.sum_nonneg
        intro m _
        split_ifs
        · positivity
        · exact le_refl _
      linarith
  -- the other modes
  have hrx0 : ∀ j < Lr, ∃ n < N, delayed N (s (tau j)) (d j) n * Complex.I ^ r j + w j n ≠ 0 := by
    intro j hj
    by_contra hall
    push Not at hall
    obtain ⟨k0, h1, h2, h3, h4⟩ := hpk0 j hj
    obtain ⟨z, hz, e⟩ := hdec j hj (tau j) (htau j hj) k0
    have h0 : corrAt (rxr j) (txr (tau j)) k0 = 0 := by
      rw [hrxr, htxr]
      dsimp only
      rw [corrAt_range_map]
      apply Finset.sum_eq_zero
      intro m _
      split_ifs with h
      · rw [hall _ (by omega), zero_mul]
      · rw [zero_mul]
    rw [h0, haligned j hj k0 h3] at e
    have h5 : Complex.I ^ r j * ((∑ m ∈ Finset.range N, if 0 ≤ k0 + m ∧ k0 + m < N then ‖s (tau j) m‖ ^ 2 else 0 : ℝ) : ℂ) = -z := by
      rw [eq_neg_iff_add_eq_zero]
      exact e.symm
    have h6 := congrArg norm h5
    rw [norm_mul, norm_pow, Complex.norm_I, one_pow, one_mul, norm_neg, Complex.norm_real, Real.norm_eq_abs] at h6
    have := le_abs_self (∑ m ∈ Finset.range N, if 0 ≤ k0 + m ∧ k0 + m < N then ‖s (tau j) m‖ ^ 2 else 0)
    linarith
  have hother : ∀ j < Lr, ∀ i < L, i ≠ tau j → ∃ (off : Int) (t : List ℂ) (ii : Nat) (acm : ℝ),
      findSequenceOffsetComplex complexOps true (rxr j) (txr i) = .ok (off, t, ii, some acm) ∧ 0 < acm ∧ acm ≤ c0 + η := by
    intro j hj i hi hne
    apply fsoc_low (rxr j) (txr i) N hN (hxl j) (hyl i) (c0 + η) (fun k => hsideN j hj i hi k (Or.inl hne))
    rw [hrxr, htxr]
    exact exists_corr_ne_zero _ _ N (hrx0 j hj) (hnz i hi)
  have hpair : ∀ i j : Nat, ∃ (p : List ℂ × List ℂ) (a : ℝ), i < L → j < Lr → syncPair (txr i) (rxr j) = .ok (p, a) ∧
      (i = tau j → p = ((List.range N).map fun n => delayed N (s (tau j)) (d j) n * Complex.I ^ r j, rxr j) ∧ c0 + η < a) ∧
      (i ≠ tau j → 0 < a ∧ a ≤ c0 + η) := by
    intro i j
    by_cases hij : i < L ∧ j < Lr
    · obtain ⟨hi, hj⟩ := hij
      by_cases he : i = tau j
      · obtain ⟨off, acm, h1, h2, h3⟩ := hmain j hj
        refine ⟨_, acm, fun _ _ => ⟨?_, fun _ => ⟨rfl, h3⟩, fun h => absurd he h⟩⟩
        have hroll : Np.roll ((txr (tau j)).map (· * Complex.I ^ r j)) off = (List.range N).map fun n => delayed N (s (tau j)) (d j) n * Complex.I ^ r j := by
          apply List.ext_getElem?
          intro n
          by_cases hn : n < N
          · rw [Np.getElem?_roll _ _ _ (by simpa [hyl] using hn), List.length_map, hyl, List.getElem?_map, List.getElem?_map, List.getElem?_range hn]
            have hm : ((n : Int) - off) % N = ((n : Int) - d j) % N := by
              rw [Int.sub_emod, h2, ← Int.sub_emod]
            have hlt : (((n : Int) - d j) % N).toNat < N := by
              have h5 := Int.emod_lt_of_pos ((n : Int) - d j) (show (0 : Int) < N by omega)
              have h6 := Int.emod_nonneg ((n : Int) - d j) (show (N : Int) ≠ 0 by omega)
              omega
            rw [hm, htxr]
            dsimp only
            rw [List.getElem?_map, List.getElem?_range hlt]
            rfl
          · rw [List.getElem?_eq_none (by rw [Np.length_roll, List.length_map, hyl]; omega), List.getElem?_eq_none (by simp; omega)]
        rw [he]
        simp only [syncPair, h1, bind, Except.bind, syncAndAdjust, hxl, hyl]
        simp only [gt_iff_lt, lt_irrefl, if_false, pure, Except.pure, Option.getD_some, hroll]
      · obtain ⟨off, t, ii, acm, h1, h2, h3⟩ := hother j hj i hi he
        refine ⟨(Np.roll t off, rxr j), acm, fun _ _ => ⟨?_, fun h => absurd h he, fun _ => ⟨h2, h3⟩⟩⟩
        simp only [syncPair, h1, bind, Except.bind, syncAndAdjust, hxl, hyl]
        simp only [gt_iff_lt, lt_irrefl, if_false, pure, Except.pure, Option.getD_some]
    · exact ⟨([], []), 0, fun h1 h2 => absurd ⟨h1, h2⟩ hij⟩
  choose pair act hpa using hpair
  have hsync : ∀ i j, i < L → j < Lr → syncEntry ((List.range L).map txr) ((List.range Lr).map rxr) i j = .ok (pair i j, act i j) := by
    intro i j hi hj
    rw [syncEntry, List.getElem?_map, List.getElem?_map, List.getElem?_range hi, List.getElem?_range hj]
    exact (hpa i j hi hj).1
  have hnn : ∀ j < Lr, 0 ≤ c0 + η := fun _ _ => add_nonneg hc0 hη
  have key := C54_permutation (syncEntry ((List.range L).map txr) ((List.range Lr).map rxr)) pair act L Lr hsync (by
      intro i j hi hj
      by_cases he : i = tau j
      · have := ((hpa i j hi hj).2.1 he).2
        have := hnn j hj
        linarith
      · have := ((hpa i j hi hj).2.2 he).1
        linarith) tau htau hinj (by
      intro j hj i hi hne
      have h1 := ((hpa i j hi hj).2.2 hne).2
      have h2 := ((hpa (tau j) j (htau j hj) hj).2.1 rfl).2
      linarith)
  have hgoal : syncRows ((List.range L).map txr) ((List.range Lr).map rxr) = .ok ((List.range Lr).map fun j => (List.range N).map fun n => delayed N (s (tau j)) (d j) n * Complex.I ^ r j, (List.range Lr).map rxr) := by
    unfold syncRows
    rw [List.length_map, List.length_range, List.length_map, List.length_range, key]
    simp only [bind, Except.bind, pure, Except.pure, List.map_map]
    congr 2
    · apply List.map_congr_left
      intro j hj
      rw [List.mem_range] at hj
      simp only [Function.comp]
      rw [((hpa (tau j) j (htau j hj) hj).2.1 rfl).1]
    · apply List.map_congr_left
      intro j hj
      rw [List.mem_range] at hj
      simp only [Function.comp]
      rw [((hpa (tau j) j (htau j hj) hj).2.1 rfl).1]
  rw [hrxr, htxr] at hgoal
  exact hgoal

/-- C131: Let the received mode `j` be the transmitted mode `tau j`, cyclically delayed by `d j` symbols, turned by `r j` quarter turns and disturbed by at most `ε`.
If the aligned correlation stands out of all the other correlations (`c0`) by more than the possible effect of the disturbance (`2 ε S`), the alignment returns for each received mode the symbols sent in it, with its delay and its turn. -/
theorem C131_align (s w : Nat → Nat → ℂ) (tau d r : Nat → Nat) (N L Lr : Nat) (hN : 0 < N) (c0 ε S : ℝ) (hc0 : 0 ≤ c0) (hε : 0 ≤ ε)
    (htau : ∀ j < Lr, tau j < L) (hinj : ∀ j k, j < Lr → k < Lr → tau j = tau k → j = k) (hd : ∀ j < Lr, d j < N) (hr : ∀ j < Lr, r j < 4)
    (hw : ∀ j < Lr, ∀ n < N, ‖w j n‖ ≤ ε) (hS : ∀ i < L, ∑ m ∈ Finset.range N, ‖s i m‖ ≤ S) (hnz : ∀ i < L, ∃ m < N, s i m ≠ 0)
    (hside : ∀ j < Lr, ∀ i < L, ∀ k : Int, -(N : Int) < k → k < N → (i ≠ tau j ∨ ¬ k % N = d j % N) →
      ‖∑ m ∈ Finset.range N, (if 0 ≤ k + m ∧ k + m < N then delayed N (s (tau j)) (d j) (k + m).toNat else 0) * (starRingEnd ℂ) (s i m)‖ ≤ c0)
    (hpeak : ∀ j < Lr, c0 + 2 * ε * S < max (∑ m ∈ Finset.Ico 0 (N - d j), ‖s (tau j) m‖ ^ 2) (∑ m ∈ Finset.Ico (N - d j) N, ‖s (tau j) m‖ ^ 2)) :
    syncRows ((List.range L).map fun i => (List.range N).map (s i)) ((List.range Lr).map fun j => (List.range N).map fun n => delayed N (s (tau j)) (d j) n * Complex.I ^ r j + w j n) =
    .ok ((List.range Lr).map fun j => (List.range N).map fun n => delayed N (s (tau j)) (d j) n * Complex.I ^ r j,
      (List.range Lr).map fun j => (List.range N).map fun n => delayed N (s (tau j)) (d j) n * Complex.I ^ r j + w j n) := by
  rcases Nat.eq_zero_or_pos L with rfl | hL
  · obtain rfl : Lr = 0 := by
      by_contra h
      have := htau 0 (by omega)
      omega
    rfl
  have hS0 : 0 ≤ S := le_trans (Finset.sum_nonneg fun m _ => norm_nonneg _) (hS 0 hL)
  exact align_corr s w tau d r N L Lr hN c0 (ε * S) hc0 (mul_nonneg hε hS0) htau hinj hd hr (fun j hj i hi k _ _ => norm_sum_le_noise (w j) (s i) N ε S (hw j hj) hε (hS i hi) k) hnz hside
    (fun j hj => by rw [← mul_assoc]; exact hpeak j hj)

/-- Adjusting arrays of the same shape does nothing. -/
theorem adjustOnly_same {α : Type _} (f g : Nat → Nat → α) (L N : Nat) :
    adjustOnly ((List.range L).map fun i => (List.range N).map (f i)) ((List.range L).map fun i => (List.range N).map (g i)) =
      .ok ((List.range L).map fun i => (List.range N).map (f i), (List.range L).map fun i => (List.range N).map (g i)) := by
  unfold adjustOnly
  simp only [List.length_map, List.length_range, gt_iff_lt, lt_irrefl, if_false]
  rw [if_pos]
  refine ⟨trivial, ?_⟩
  cases L with
  | zero => simp
  | succ L => simp [List.range_succ_eq_map]

/-- C131: under the conditions of `C131_align` each metric of the whole signal is the one obtained by comparing, without any alignment, with the symbols really sent in each received mode. -/
theorem C131_metrics (s w : Nat → Nat → ℂ) (tau d r : Nat → Nat) (N L Lr : Nat) (hN : 0 < N) (c0 ε S : ℝ) (hc0 : 0 ≤ c0) (hε : 0 ≤ ε)
    (htau : ∀ j < Lr, tau j < L) (hinj : ∀ j k, j < Lr → k < Lr → tau j = tau k → j = k) (hd : ∀ j < Lr, d j < N) (hr : ∀ j < Lr, r j < 4)
    (hw : ∀ j < Lr, ∀ n < N, ‖w j n‖ ≤ ε) (hS : ∀ i < L, ∑ m ∈ Finset.range N, ‖s i m‖ ≤ S) (hnz : ∀ i < L, ∃ m < N, s i m ≠ 0)
    (hside : ∀ j < Lr, ∀ i < L, ∀ k : Int, -(N : Int) < k → k < N → (i ≠ tau j ∨ ¬ k % N = d j % N) →
      ‖∑ m ∈ Finset.range N, (if 0 ≤ k + m ∧ k + m < N then delayed N (s (tau j)) (d j) (k + m).toNat else 0) * (starRingEnd ℂ) (s i m)‖ ≤ c0)
    (hpeak : ∀ j < Lr, c0 + 2 * ε * S < max (∑ m ∈ Finset.Ico 0 (N - d j), ‖s (tau j) m‖ ^ 2) (∑ m ∈ Finset.Ico (N - d j) N, ‖s (tau j) m‖ ^ 2))
    (k : Nat) (coded : List ℂ) (tx rx sent : List (List ℂ)) (htx : tx = (List.range L).map fun i => (List.range N).map (s i))
    (hrx : rx = (List.range Lr).map fun j => (List.range N).map fun n => delayed N (s (tau j)) (d j) n * Complex.I ^ r j + w j n)
    (hsent : sent = (List.range Lr).map fun j => (List.range N).map fun n => delayed N (s (tau j)) (d j) n * Complex.I ^ r j) :
    calSerRows coded false tx rx = (List.zip sent rx).mapM (fun p => (calSer coded p.2 p.1).elim (.error .index) .ok) ∧
    calBerRows k coded false tx rx = (List.zip sent rx).mapM (fun p => (calBer k coded p.2 p.1).elim (.error .index) .ok) ∧
    calEvmRows false tx rx = .ok ((List.zip sent rx).map fun p => evm p.1 p.2) ∧
    estSnrRows coded false tx rx = estSnrRows coded true sent rx := by
  have h1 : alignRows false tx rx = .ok (sent, rx) := by
    rw [alignRows, htx, hrx, hsent]
    simp only [Bool.false_eq_true, if_false]
    exact C131_align s w tau d r N L Lr hN c0 ε S hc0 hε htau hinj hd hr hw hS hnz hside hpeak
  have h2 : alignRows true sent rx = .ok (sent, rx) := by
    rw [alignRows, if_pos rfl, hsent, hrx]
    exact adjustOnly_same (fun j n => delayed N (s (tau j)) (d j) n * Complex.I ^ r j) (fun j n => delayed N (s (tau j)) (d j) n * Complex.I ^ r j + w j n) Lr N
  refine ⟨?_, ?_, ?_, ?_⟩
  · rw [calSerRows, h1]; rfl
  · rw [calBerRows, h1]; rfl
  · rw [calEvmRows, h1]; rfl
  · rw [estSnrRows, estSnrRows, h1, h2]

/-- C131: for a constellation which a quarter turn maps to itself and disturbances below half its minimum distance no errors are counted, whatever the delays, the turns and the order of the modes; the EVM does not exceed the disturbance. -/
theorem C131_error_free (s w : Nat → Nat → ℂ) (tau d r : Nat → Nat) (N L Lr : Nat) (hN : 0 < N) (c0 ε S dmin : ℝ) (hc0 : 0 ≤ c0) (hε : 0 ≤ ε)
    (htau : ∀ j < Lr, tau j < L) (hinj : ∀ j k, j < Lr → k < Lr → tau j = tau k → j = k) (hd : ∀ j < Lr, d j < N) (hr : ∀ j < Lr, r j < 4)
    (hw : ∀ j < Lr, ∀ n < N, ‖w j n‖ ≤ ε) (hS : ∀ i < L, ∑ m ∈ Finset.range N, ‖s i m‖ ≤ S) (hnz : ∀ i < L, ∃ m < N, s i m ≠ 0)
    (hside : ∀ j < Lr, ∀ i < L, ∀ k : Int, -(N : Int) < k → k < N → (i ≠ tau j ∨ ¬ k % N = d j % N) →
      ‖∑ m ∈ Finset.range N, (if 0 ≤ k + m ∧ k + m < N then delayed N (s (tau j)) (d j) (k + m).toNat else 0) * (starRingEnd ℂ) (s i m)‖ ≤ c0)
    (hpeak : ∀ j < Lr, c0 + 2 * ε * S < max (∑ m ∈ Finset.Ico 0 (N - d j), ‖s (tau j) m‖ ^ 2) (∑ m ∈ Finset.Ico (N - d j) N, ‖s (tau j) m‖ ^ 2))
    (k : Nat) (hk : 1 ≤ k) (coded : List ℂ) (hlen : coded.length = 2 ^ k) (hnd : coded.Nodup) (hI : ∀ a ∈ coded, a * Complex.I ∈ coded)
    (hmin : ∀ a ∈ coded, ∀ b ∈ coded, a ≠ b → dmin ≤ ‖a - b‖) (hed : ε < dmin / 2) (hs : ∀ i < L, ∀ m < N, s i m ∈ coded)
    (tx rx : List (List ℂ)) (htx : tx = (List.range L).map fun i => (List.range N).map (s i))
    (hrx : rx = (List.range Lr).map fun j => (List.range N).map fun n => delayed N (s (tau j)) (d j) n * Complex.I ^ r j + w j n) :
    calSerRows coded false tx rx = .ok (List.replicate Lr 0) ∧ calBerRows k coded false tx rx = .ok (List.replicate Lr 0) ∧
    ∃ e, calEvmRows false tx rx = .ok e ∧ e.length = Lr ∧ ∀ v ∈ e, v ≤ ε := by
  obtain ⟨h1, h2, h3, -⟩ := C131_metrics s w tau d r N L Lr hN c0 ε S hc0 hε htau hinj hd hr hw hS hnz hside hpeak k coded tx rx _ htx hrx rfl
  have hIr : ∀ (q : Nat) (a : ℂ), a ∈ coded → a * Complex.I ^ q ∈ coded := by
    intro q
    induction q with
    | zero => intro a ha; simpa using ha
    | succ q ih => intro a ha; rw [pow_succ, ← mul_assoc]; exact hI _ (ih a ha)
  have hdel : ∀ j < Lr, ∀ n < N, delayed N (s (tau j)) (d j) n * Complex.I ^ r j ∈ coded := by
    intro j hj n hn
    apply hIr
    unfold delayed
    apply hs _ (htau j hj)
    have h5 := Int.emod_lt_of_pos ((n : Int) - d j) (show (0 : Int) < N by omega)
    have h6 := Int.emod_nonneg ((n : Int) - d j) (show (N : Int) ≠ 0 by omega)
    omega
  have hc : coded ≠ [] := by
    rintro rfl
    have : 0 < 2 ^ k := by positivity
    rw [List.length_nil] at hlen
    omega
  have hrow : ∀ j < Lr, calSer coded ((List.range N).map fun n => delayed N (s (tau j)) (d j) n * Complex.I ^ r j + w j n) ((List.range N).map fun n => delayed N (s (tau j)) (d j) n * Complex.I ^ r j) = some 0 ∧
      calBer k coded ((List.range N).map fun n => delayed N (s (tau j)) (d j) n * Complex.I ^ r j + w j n) ((List.range N).map fun n => delayed N (s (tau j)) (d j) n * Complex.I ^ r j) = some 0 := by
    intro j hj
    have hmem : ∀ a ∈ (List.range N).map fun n => delayed N (s (tau j)) (d j) n * Complex.I ^ r j, a ∈ coded := by
      intro a ha
      obtain ⟨n, hn, rfl⟩ := List.mem_map.1 ha
      exact hdel j hj n (List.mem_range.1 hn)
    have hne : ((List.range N).map fun n => delayed N (s (tau j)) (d j) n * Complex.I ^ r j + w j n) ≠ [] := by
      intro h
      have := congrArg List.length h
      simp at this
      omega
    obtain ⟨dd, hdd, hdt⟩ := C16_recovers coded dmin (by
        intro a b u v hu hv hab
        apply hmin u (List.mem_of_getElem? hu) v (List.mem_of_getElem? hv)
        rintro rfl
        obtain ⟨ha, e1⟩ := List.getElem?_eq_some_iff.1 hu
        obtain ⟨hb, e2⟩ := List.getElem?_eq_some_iff.1 hv
        exact hab ((List.Nodup.getElem_inj_iff hnd).1 (e1.trans e2.symm))) _ ((List.range N).map fun n => delayed N (s (tau j)) (d j) n * Complex.I ^ r j + w j n) (by simp) hmem (by
        intro n u v hu hv
        have hn : n < N := by
          have := (List.getElem?_eq_some_iff.1 hu).1
          simpa using this
        rw [List.getElem?_map, List.getElem?_range hn] at hu hv
        simp only [Option.map_some, Option.some.injEq] at hu hv
        rw [← hu, ← hv, add_sub_cancel_left]
        exact lt_of_le_of_lt (hw j hj n hn) hed)
    obtain ⟨ser, d', hser, hd', -, -, -, hz⟩ := C47_ser coded _ ((List.range N).map fun n => delayed N (s (tau j)) (d j) n * Complex.I ^ r j) hc (by simp) hne
    rw [hdd] at hd'
    cases hd'
    have hs0 : ser = 0 := hz.2 hdt
    obtain ⟨ser', ber, hser', hber, hb1, hb2⟩ := C47_ber k hk coded hlen hnd _ ((List.range N).map fun n => delayed N (s (tau j)) (d j) n * Complex.I ^ r j) (by simp) hne hmem
    rw [hser] at hser'
    cases hser'
    rw [hs0] at hb1 hb2
    rw [zero_div] at hb1
    have hb0 : ber = 0 := le_antisymm hb2 hb1
    rw [hser, hber, hs0, hb0]
    exact ⟨rfl, rfl⟩
  subst hrx
  rw [List.zip_map'] at h1 h2 h3
  refine ⟨?_, ?_, _, h3, by simp, ?_⟩
  · rw [h1, mapM_ok (g := fun _ => (0 : ℚ))]
    · rw [List.map_const', List.length_map, List.length_range]
    · intro p hp
      obtain ⟨j, hj, rfl⟩ := List.mem_map.1 hp
      rw [(hrow j (List.mem_range.1 hj)).1]
      rfl
  · rw [h2, mapM_ok (g := fun _ => (0 : ℚ))]
    · rw [List.map_const', List.length_map, List.length_range]
    · intro p hp
      obtain ⟨j, hj, rfl⟩ := List.mem_map.1 hp
      rw [(hrow j (List.mem_range.1 hj)).2]
      rfl
  · intro v hv
    obtain ⟨p, hp, rfl⟩ := List.mem_map.1 hv
    obtain ⟨j, hj, rfl⟩ := List.mem_map.1 hp
    rw [List.mem_range] at hj
    unfold evm
    dsimp only
    rw [List.zip_map', List.map_map, List.length_map, List.length_range]
    apply Real.sqrt_le_iff.2 ⟨hε, ?_⟩
    have hNpos : (0 : ℝ) < N := by exact_mod_cast hN
    rw [div_le_iff₀ hNpos]
    have e : (List.map ((fun p : ℂ × ℂ => ‖p.1 - p.2‖ ^ 2) ∘ fun n => (delayed N (s (tau j)) (d j) n * Complex.I ^ r j, delayed N (s (tau j)) (d j) n * Complex.I ^ r j + w j n)) (List.range N)).sum = ∑ n ∈ Finset.range N, ‖w j n‖ ^ 2 := by
      change ∑ n ∈ Finset.range N, _ = _
      apply Finset.sum_congr rfl
      intro n _
      simp only [Function.comp]
      rw [sub_add_cancel_left, norm_neg]
    rw [e]
    refine le_trans (Finset.sum_le_card_nsmul _ _ (ε ^ 2) ?_) (by rw [Finset.card_range, nsmul_eq_mul, mul_comm])
    intro n hn
    exact pow_le_pow_left₀ (norm_nonneg _) (hw j hj n (Finset.mem_range.1 hn)) 2

/-- The conditions can be met: two modes of two symbols, exchanged, delayed by one symbol, turned by one and by three quarter turns and disturbed. -/
example : ∃ (s w : Nat → Nat → ℂ) (coded : List ℂ), w 0 1 ≠ 0 ∧
    calSerRows coded false ((List.range 2).map fun i => (List.range 2).map (s i))
      ((List.range 2).map fun j => (List.range 2).map fun n => delayed 2 (s (1 - j)) 1 n * Complex.I ^ (2 * j + 1) + w j n) = .ok [0, 0] := by
  refine ⟨fun i m => if i = 0 then (if m = 0 then -3 else -1) else (if m = 0 then -1 else 3), fun _ _ => 1 / 16,
    [1, Complex.I, -1, -Complex.I, 3, 3 * Complex.I, -3, -(3 * Complex.I)], by norm_num, ?_⟩
  refine (C131_error_free _ (fun _ _ => 1 / 16) (fun j => 1 - j) (fun _ => 1) (fun j => 2 * j + 1) 2 2 2 (by norm_num) 8 (1 / 16) 4 1 (by norm_num) (by norm_num)
    (by intro j hj; omega) (by intro j k hj hk h; omega) (by intro j hj; omega) (by intro j hj; omega) (by intro j _ n _; norm_num) ?_ ?_ ?_ ?_ 3 (by norm_num) _ rfl ?_ ?_ ?_ (by norm_num) ?_ _ _ rfl rfl).1
  · intro i hi
    interval_cases i <;> norm_num [Finset.sum_range_succ]
  · intro i hi
    refine ⟨0, by norm_num, ?_⟩
    interval_cases i <;> norm_num
  · intro j hj i hi k hk1 hk2 hne
    have hk : k = -1 ∨ k = 0 ∨ k = 1 := by omega
    interval_cases j <;> interval_cases i <;> rcases hk with rfl | rfl | rfl <;> first | (exfalso; revert hne; decide) | norm_num [Finset.sum_range_succ, delayed, map_ofNat]
  · intro j hj
    interval_cases j <;> norm_num [Finset.sum_Ico_eq_sum_range]
  · simp [Complex.ext_iff]
    norm_num
  · intro a ha
    simp only [List.mem_cons, List.not_mem_nil, or_false] at ha ⊢
    rcases ha with rfl | rfl | rfl | rfl | rfl | rfl | rfl | rfl <;> simp [Complex.ext_iff]
  · intro a ha b hb hab
    simp only [List.mem_cons, List.not_mem_nil, or_false] at ha hb
    have key : ∀ z : ℂ, 1 ≤ z.re ^ 2 + z.im ^ 2 → 1 ≤ ‖z‖ := by
      intro z hz
      rw [Complex.norm_eq_sqrt_sq_add_sq]
      exact Real.one_le_sqrt.2 hz
    apply key
    rcases ha with rfl | rfl | rfl | rfl | rfl | rfl | rfl | rfl <;> rcases hb with rfl | rfl | rfl | rfl | rfl | rfl | rfl | rfl <;> first | exact absurd rfl hab | norm_num
  · intro i hi m hm
    interval_cases i <;> interval_cases m <;> simp

/-! ### C132 -/

/-- C132: with `synced=True` nothing is moved: symbol `n` of mode `i` is compared with sent symbol `n` (counted cyclically if fewer were sent) of mode `i`; the modes compared are those which both arrays have. -/
theorem C132_adjust {α : Type _} (t x : Nat → Nat → α) (L Lr Nt Nr : Nat) (hNt : 0 < Nt) :
    adjustOnly ((List.range L).map fun i => (List.range Nt).map (t i)) ((List.range Lr).map fun j => (List.range Nr).map (x j)) =
      .ok ((List.range (min L Lr)).map fun i => (List.range Nr).map fun n => t i (n % Nt), (List.range (min L Lr)).map fun j => (List.range Nr).map (x j)) := by
  have htake : (if ((List.range L).map fun i => (List.range Nt).map (t i)).length > ((List.range Lr).map fun j => (List.range Nr).map (x j)).length then ((List.range L).map fun i => (List.range Nt).map (t i)).take ((List.range Lr).map fun j => (List.range Nr).map (x j)).length
      else ((List.range L).map fun i => (List.range Nt).map (t i))) = (List.range (min L Lr)).map fun i => (List.range Nt).map (t i) := by
    simp only [List.length_map, List.length_range]
    split_ifs with h
    · rw [← List.map_take, List.take_range, min_comm]
    · rw [min_eq_left (by omega)]
  unfold adjustOnly
  dsimp only
  rw [htake]
  obtain ⟨q, hq⟩ : ∃ q, q = min L Lr := ⟨_, rfl⟩
  have hqr : q ≤ Lr := by omega
  rw [← hq]
  simp only [List.length_map, List.length_range]
  have hhead : ∀ {f : Nat → List α} (n : Nat), 0 < n → ((List.range n).map f).headD [] = f 0 := by
    intro f n hn
    cases n with
    | zero => omega
    | succ n => simp [List.range_succ_eq_map]
  have hmodeq : ∀ i, Nt = Nr → ((List.range Nr).map fun n => t i (n % Nt)) = (List.range Nt).map (t i) := by
    intro i h
    rw [h]
    apply List.map_congr_left
    intro n hn
    rw [List.mem_range] at hn
    rw [← h, Nat.mod_eq_of_lt (by omega)]
  by_cases hq0 : q = 0
  · subst hq0
    split_ifs with h
    · rw [show Lr = 0 by omega]; rfl
    all_goals rfl
  · rw [hhead q (by omega), hhead Lr (by omega)]
    simp only [List.length_map, List.length_range]
    split_ifs with h1 h2
    · rw [← h1.1]
      simp only [hmodeq _ h1.2]
    all_goals
      rw [mapM_ok (g := fun i => ((List.range Nr).map fun n => t i (n % Nt), (List.range Nr).map (x i)))]
      · simp only [bind, Except.bind, pure, Except.pure, List.map_map, Function.comp_def]
      · intro i hi
        rw [List.mem_range] at hi
        rw [List.getElem?_map, List.getElem?_map, List.getElem?_range hi, List.getElem?_range (by omega)]
        simp only [Option.map_some]
        unfold adjustDataLength
        simp only [List.length_map, List.length_range]
        first
          | (rw [if_pos h2]
             have e : Np.sliceTo ((List.range Nt).map (t i)) Nr = (List.range Nr).map fun n => t i (n % Nt) := by
               rw [Np.sliceTo, show Np.clamp ((List.range Nt).map (t i)).length (Nr : Int) = Nr by rw [List.length_map, List.length_range, Np.clamp, if_neg (by omega), Int.toNat_natCast, min_eq_left (by omega)], ← List.map_take, List.take_range, min_eq_left (by omega)]
               apply List.map_congr_left
               intro n hn
               rw [List.mem_range] at hn
               rw [Nat.mod_eq_of_lt (by omega)]
             rw [e])
          | (by_cases h3 : Nt < Nr
             · rw [if_neg h2, if_pos h3]
               have hne : (List.range Nt).map (t i) ≠ [] := by
                 intro h
                 have := congrArg List.length h
                 simp at this
                 omega
               obtain ⟨l, hl1, hl2, hl3⟩ := adjustTo_back hne Nr
               simp only [extendTo, if_true, hl1, bind, Except.bind, pure, Except.pure]
               have e : l = (List.range Nr).map fun n => t i (n % Nt) := by
                 apply List.ext_getElem?
                 intro n
                 by_cases hn : n < Nr
                 · rw [hl3 n hn, List.length_map, List.length_range, List.getElem?_map, List.getElem?_map, List.getElem?_range hn, List.getElem?_range (Nat.mod_lt _ hNt)]
                   rfl
                 · rw [List.getElem?_eq_none (by omega), List.getElem?_eq_none (by simp; omega)]
               rw [e]
             · rw [if_neg h2, if_neg h3, hmodeq i (by omega)])

/-- C132: the SER of a synchronised signal with at least as many sent as received modes: one value per received mode, the fraction of the symbols whose decision differs from the symbol sent at the same place (cyclically) of the same mode. -/
theorem C132_ser_partial (t x : Nat → Nat → ℂ) (L Lr Nt Nr : Nat) (hNt : 0 < Nt) (hNr : 0 < Nr) (hL : Lr ≤ L) (coded : List ℂ) (hc : coded ≠ []) :
    ∃ v : List ℚ, calSerRows coded true ((List.range L).map fun i => (List.range Nt).map (t i)) ((List.range Lr).map fun j => (List.range Nr).map (x j)) = .ok v ∧
      v.length = Lr ∧ ∀ j < Lr, ∃ dd : List (ℂ × ℝ × Nat), makeDecision ((List.range Nr).map (x j)) coded = some dd ∧
        v[j]? = some ((((Finset.range Nr).filter fun n => (dd[n]?).map (·.1) ≠ some (t j (n % Nt))).card : ℚ) / Nr) := by
  have hrow : ∀ j : Nat, ∃ (ser : ℚ) (dd : List (ℂ × ℝ × Nat)), calSer coded ((List.range Nr).map (x j)) ((List.range Nr).map fun n => t j (n % Nt)) = some ser ∧
      makeDecision ((List.range Nr).map (x j)) coded = some dd ∧ ser = (((Finset.range Nr).filter fun n => (dd[n]?).map (·.1) ≠ some (t j (n % Nt))).card : ℚ) / Nr := by
    intro j
    obtain ⟨ser, dd, h1, h2, h3, -⟩ := C47_ser coded ((List.range Nr).map (x j)) ((List.range Nr).map fun n => t j (n % Nt)) hc (by simp) (by
      intro h
      have := congrArg List.length h
      simp at this
      omega)
    refine ⟨ser, dd, h1, h2, ?_⟩
    rw [h3, List.length_map, List.length_range]
    congr 3
    apply Finset.filter_congr
    intro n hn
    rw [Finset.mem_range] at hn
    rw [List.getElem?_map, List.getElem?_range hn]
    rfl
  choose ser dd h1 h2 h3 using hrow
  refine ⟨(List.range Lr).map ser, ?_, by simp, ?_⟩
  · rw [calSerRows, alignRows, if_pos rfl, C132_adjust t x L Lr Nt Nr hNt, min_eq_right hL]
    simp only [bind, Except.bind]
    rw [List.zip_map', List.mapM_map, mapM_ok (g := ser)]
    intro j _
    simp only [Function.comp]
    rw [h1 j]
    rfl
  · intro j hj
    refine ⟨dd j, h2 j, ?_⟩
    rw [List.getElem?_map, List.getElem?_range hj, Option.map_some, h3 j]

example : ∃ v : List ℚ, calSerRows [1, -1] true ((List.range 3).map fun i => (List.range 2).map fun n => if n = i then 1 else -1) ((List.range 2).map fun j => (List.range 5).map fun n => (n : ℂ) - j) = .ok v ∧ v.length = 2 := by
  obtain ⟨v, h1, h2, -⟩ := C132_ser_partial (fun i n => if n = i then 1 else -1) (fun j n => (n : ℂ) - j) 3 2 2 5 (by norm_num) (by norm_num) (by norm_num) [1, -1] (by simp)
  exact ⟨v, h1, h2⟩

/-- C132 as a user expects it: a metric has one value for each received mode. -/
def C132_statement : Prop := ∀ (coded : List ℂ) (tx rx : List (List ℂ)) (v : List ℚ), calSerRows coded true tx rx = .ok v → v.length = rx.length

/-- With fewer sent than received modes the surplus received modes are left out without a message. -/
theorem C132_dropped (t x : Nat → Nat → ℂ) (L Lr Nt Nr : Nat) (hNt : 0 < Nt) (hL : L ≤ Lr) (coded : List ℂ) :
    calSerRows coded true ((List.range L).map fun i => (List.range Nt).map (t i)) ((List.range Lr).map fun j => (List.range Nr).map (x j)) =
    calSerRows coded true ((List.range L).map fun i => (List.range Nt).map (t i)) ((List.range L).map fun j => (List.range Nr).map (x j)) := by
  rw [calSerRows, calSerRows, alignRows, alignRows, if_pos rfl, if_pos rfl, C132_adjust t x L Lr Nt Nr hNt, C132_adjust t x L L Nt Nr hNt, min_eq_left hL, min_self]

theorem C132_false : ¬ C132_statement := by
  intro h
  obtain ⟨v, h1, h2, -⟩ := C132_ser_partial (fun _ _ => 1) (fun _ _ => 1) 1 1 1 1 (by norm_num) (by norm_num) (le_refl _) [1] (by simp)
  have h3 := h [1] _ _ v ((C132_dropped (fun _ _ => 1) (fun _ _ => 1) 1 2 1 1 (by norm_num) (by norm_num) [1]).trans h1)
  rw [h2] at h3
  simp at h3

theorem mapM_raises {α β : Type _} {f : α → Except PyErr β} {e : PyErr} {l : List α} {a : α} (ha : a ∈ l) (hfa : f a = .error e)
    (h : ∀ y ∈ l, f y = .error e ∨ ∃ v, f y = .ok v) : l.mapM f = .error e := by
  induction l with
  | nil => cases ha
  | cons y l ih =>
    rw [List.mapM_cons]
    rcases h y (by simp) with hy | ⟨v, hy⟩
    · rw [hy]; rfl
    · rw [hy]
      rcases List.mem_cons.1 ha with rfl | ha
      · rw [hfa] at hy; cases hy
      · rw [ih ha (fun z hz => h z (by simp [hz]))]; rfl

/-- The SNR estimate raises IndexError in the same situation. -/
theorem C132_snr_raises (t x : Nat → Nat → ℂ) (L Lr Nt Nr : Nat) (hNt : 0 < Nt) (hL : L < Lr) (coded : List ℂ) :
    estSnrRows coded true ((List.range L).map fun i => (List.range Nt).map (t i)) ((List.range Lr).map fun j => (List.range Nr).map (x j)) = .error .index := by
  rw [estSnrRows, alignRows, if_pos rfl, C132_adjust t x L Lr Nt Nr hNt, min_eq_left hL.le]
  simp only [bind, Except.bind]
  apply mapM_raises (a := L)
  · simpa using hL
  · rw [List.getElem?_eq_none (by simp)]
  · intro i _
    split
    · cases estimateSnr _ _ coded with
      | none => left; rfl
      | some v => right; exact ⟨v, rfl⟩
    · left; rfl

end Qampy
