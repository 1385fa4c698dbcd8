import Verif.Props.Carrier
import Mathlib.Analysis.SpecialFunctions.Trigonometric.Bounds

/-!
C204: pilot based phase recovery (`pilot_based_cpe_new`, qampy/core/pilotbased_receiver.py:258-327) of noisy signals.
-/

namespace Qampy

open Complex

/-- The trace of a mode depends on the received pilots only; the result is the signal turned back by it. -/
theorem cpeMode_split (pilots : List ℂ) (idx : List Nat) (N nlen nkeep ratio nframes : Nat) :
    ∃ G : List ℝ → Nat → Except PyErr (List ℝ), ∀ (sig rec_ : List ℂ), fancyIndex idx sig = .ok rec_ →
      cpeMode sig pilots idx N nlen nkeep ratio nframes = (G (pilotPhase ((Np.tile (Np.strided pilots ratio) nframes).take rec_.length) rec_) rec_.length).map
        fun t : List ℝ => ((rotateBy (sig.take nlen) (t.map (- ·))).take nkeep, t.take nkeep) := by
  refine ⟨fun ph l => do
    let ref := (Np.tile (Np.strided pilots ratio) nframes).take l
    if l ≠ ref.length then throw .assertion
    if ¬ ref.length ≥ N then throw .assertion
    let adj := (N - 1) / 2
    let avg ← (movingAverage ph N).elim (.error .value) .ok
    let idxAvg := (idx.drop adj).take (idx.length - 2 * adj)
    if idxAvg.length ≠ avg.length then throw .assertion
    (List.range nlen).mapM fun n : Nat =>
      (interp n (List.zip (idxAvg.map fun i : Nat => (i : ℝ)) avg)).elim (.error .value) .ok, ?_⟩
  intro sig r hr
  unfold cpeMode
  rw [hr]
  simp only [bind, Except.bind]
  split_ifs
  all_goals try rfl
  simp only [pure, Except.pure]
  cases (movingAverage (pilotPhase ((Np.tile (Np.strided pilots ratio) nframes).take r.length) r) N).elim (Except.error PyErr.value) Except.ok with
  | error e => rfl
  | ok avg =>
    simp only
    split_ifs
    · rfl
    · cases (List.range nlen).mapM (fun n : Nat => (interp n (List.zip (((idx.drop ((N - 1) / 2)).take (idx.length - 2 * ((N - 1) / 2))).map fun i : Nat => (i : ℝ)) avg)).elim (Except.error PyErr.value) Except.ok) with
      | error e => rfl
      | ok t => rfl

theorem rotateBy_take (x : List ℂ) (t : List ℝ) (k : Nat) : (rotateBy x (t.map (- ·))).take k = rotateBy (x.take k) ((t.take k).map (- ·)) := by
  unfold rotateBy
  rw [List.take_zipWith, List.map_take]

/-- The phase of the pilots does not depend on their amplitude. -/
theorem pilotPhase_amp (ref a b : List ℂ) (hl : a.length = b.length) (h : ∀ (j : Nat) (x y : ℂ), a[j]? = some x → b[j]? = some y → ∃ s : ℝ, 0 < s ∧ y = s * x) : pilotPhase ref b = pilotPhase ref a := by
  unfold pilotPhase
  congr 1
  apply List.ext_getElem?
  intro j
  rw [List.getElem?_zipWith, List.getElem?_zipWith]
  cases ref[j]? with
  | none => rfl
  | some p =>
    rcases lt_or_ge j a.length with hj | hj
    · rw [List.getElem?_eq_getElem hj, List.getElem?_eq_getElem (show j < b.length by omega)]
      obtain ⟨s, hs, he⟩ := h j _ _ (List.getElem?_eq_getElem hj) (List.getElem?_eq_getElem (show j < b.length by omega))
      simp only [he]
      rw [show (starRingEnd ℂ) p * ((s : ℂ) * a[j]) = (s : ℂ) * ((starRingEnd ℂ) p * a[j]) by ring, Complex.arg_real_mul _ hs]
    · rw [List.getElem?_eq_none hj, List.getElem?_eq_none (show b.length ≤ j by omega)]

/-- A mode whose received pilots have the phases `θ`, with any positive amplitudes; the other samples are arbitrary. -/
theorem cpeMode_amp (tx rx pilots : List ℂ) (θ : Nat → ℝ) (idx : List Nat) (N nlen nkeep ratio nframes : Nat)
    (hidx : ∀ i ∈ idx, i < nlen) (hnlen : nlen ≤ tx.length) (hkeep : nlen ≤ nkeep) (hrx : rx.length = tx.length)
    (hrl : idx.length ≤ (Np.tile (Np.strided pilots ratio) nframes).length)
    (href : ∀ (j i : Nat) (p : ℂ), idx[j]? = some i → (Np.tile (Np.strided pilots ratio) nframes)[j]? = some p → tx[i]? = some p ∧ p ≠ 0)
    (hamp : ∀ i ∈ idx, ∀ x y : ℂ, tx[i]? = some x → rx[i]? = some y → ∃ s : ℝ, 0 < s ∧ y = s * (x * Complex.exp (I * (θ i : ℂ))))
    (hslow : ∀ (j i i' : Nat), idx[j]? = some i → idx[j + 1]? = some i' → |θ i' - θ i| < Real.pi)
    (hN : 1 ≤ N) (hodd : N % 2 = 1) (hcount : N ≤ idx.length) :
    ∃ (K : ℤ) (avg tr : List ℝ), cpeMode rx pilots idx N nlen nkeep ratio nframes = .ok (rotateBy (rx.take nlen) (tr.map (- ·)), tr) ∧ avg.length = idx.length + 1 - N ∧
      (∀ i, i + N ≤ idx.length → avg[i]? = some ((∑ j ∈ Finset.range N, (θ (idx.getD (i + j) 0) + 2 * Real.pi * K)) / N)) ∧ tr.length = nlen ∧
      ∀ n : Nat, n < nlen → interp (n : ℝ) (List.zip (((idx.drop ((N - 1) / 2)).take (idx.length - 2 * ((N - 1) / 2))).map fun i : Nat => (i : ℝ)) avg) = tr[n]? := by
  obtain ⟨K, avg, tr, c1, c2, c3, c4, c5⟩ := cpeMode_slow tx pilots θ idx N nlen nkeep ratio nframes hidx hnlen hrl href hslow hN hodd hcount
  refine ⟨K, avg, tr, ?_, c2, c3, c4, c5⟩
  obtain ⟨G, hG⟩ := cpeMode_split pilots idx N nlen nkeep ratio nframes
  obtain ⟨tq, htq⟩ : ∃ tq : List ℂ, tq = tx.mapIdx fun n x => x * Complex.exp (I * (θ n : ℂ)) := ⟨_, rfl⟩
  rw [← htq] at c1
  have htql : tq.length = tx.length := by simp [htq]
  have hfi : ∀ s : List ℂ, s.length = tx.length → fancyIndex idx s = .ok (idx.map fun i => s.getD i 0) := by
    intro s hs
    apply fancyIndex_map
    rw [List.map_map]
    apply List.map_congr_left
    intro i hi
    have : i < s.length := by rw [hs]; exact lt_of_lt_of_le (hidx i hi) hnlen
    simp [List.getElem?_eq_getElem this]
  have hph : ∀ ref, pilotPhase ref (idx.map fun i => rx.getD i 0) = pilotPhase ref (idx.map fun i => tq.getD i 0) := by
    intro ref
    apply pilotPhase_amp ref _ _ (by simp)
    intro j x y hx hy
    rw [List.getElem?_map] at hx hy
    obtain ⟨i, hi, rfl⟩ := Option.map_eq_some_iff.1 hx
    rw [hi, Option.map_some, Option.some.injEq] at hy
    have him := List.mem_of_getElem? hi
    have hlt : i < tx.length := lt_of_lt_of_le (hidx i him) hnlen
    obtain ⟨s, hs, he⟩ := hamp i him _ _ (List.getElem?_eq_getElem hlt) (List.getElem?_eq_getElem (show i < rx.length by omega))
    refine ⟨s, hs, ?_⟩
    rw [← hy, List.getD_eq_getElem?_getD, List.getElem?_eq_getElem (show i < rx.length by omega), Option.getD_some, he, htq]
    simp [List.getElem?_eq_getElem hlt]
  have e1 := hG tq _ (hfi tq htql)
  have e2 := hG rx _ (hfi rx hrx)
  rw [hph] at e2
  simp only [List.length_map] at e1 e2
  rw [c1] at e1
  cases hg : G (pilotPhase ((Np.tile (Np.strided pilots ratio) nframes).take idx.length) (idx.map fun i => tq.getD i 0)) idx.length with
  | error e => rw [hg] at e1; cases e1
  | ok t =>
    rw [hg] at e1 e2
    simp only [Except.map, Except.ok.injEq, Prod.mk.injEq] at e1
    rw [e2]
    simp only [Except.map]
    rw [rotateBy_take, ← e1.2, List.take_of_length_le (show tr.length ≤ nkeep by omega), List.take_of_length_le (show (rx.take nlen).length ≤ nkeep by simp; omega)]

theorem interp_bounds (x lo hi : ℝ) : ∀ (l : List (ℝ × ℝ)) (y : ℝ), (∀ p ∈ l, lo ≤ p.2 ∧ p.2 ≤ hi) → interp x l = some y → lo ≤ y ∧ y ≤ hi
  | [], y, _, h => by simp [interp] at h
  | [p], y, hl, h => by
    obtain rfl : p.2 = y := by simpa [interp] using h
    exact hl p (by simp)
  | p :: q :: l, y, hl, h => by
    unfold interp at h
    have hp := hl p (by simp)
    have hq := hl q (by simp)
    split_ifs at h with h1 h2
    · obtain rfl := Option.some.inj h
      exact hp
    · obtain rfl := Option.some.inj h
      push Not at h1
      have hd : 0 < q.1 - p.1 := by linarith
      obtain ⟨t, ht⟩ : ∃ t, t = (x - p.1) / (q.1 - p.1) := ⟨_, rfl⟩
      have ht0 : 0 ≤ t := by rw [ht]; exact div_nonneg (by linarith) hd.le
      have ht1 : t ≤ 1 := by rw [ht, div_le_one hd]; linarith
      have he : (q.2 - p.2) / (q.1 - p.1) * (x - p.1) + p.2 = (1 - t) * p.2 + t * q.2 := by rw [ht]; field_simp; ring
      rw [he]
      constructor
      · nlinarith [hp.1, hq.1]
      · nlinarith [hp.2, hq.2]
    · exact interp_bounds x lo hi (q :: l) y (fun r hr => hl r (by simp [hr])) h

theorem interp_isSome (x : ℝ) : ∀ (l : List (ℝ × ℝ)), l ≠ [] → ∃ y, interp x l = some y
  | [], h => absurd rfl h
  | [p], _ => ⟨p.2, rfl⟩
  | p :: q :: l, _ => by
    unfold interp
    split_ifs
    · exact ⟨_, rfl⟩
    · exact ⟨_, rfl⟩
    · exact interp_isSome x (q :: l) (by simp)

/-- The phase error of a pilot that is disturbed by the fraction `ρ` of its amplitude. -/
theorem arg_disturbed {v : ℂ} {ρ : ℝ} (h0 : 0 ≤ ρ) (h1 : ρ < 1) (hv : ‖v‖ ≤ ρ) : 1 + v ≠ 0 ∧ |Complex.arg (1 + v)| ≤ Real.arcsin ρ := by
  have hre : 0 < (1 + v).re := by
    have := Complex.abs_re_le_norm v
    have := neg_abs_le v.re
    simp only [Complex.add_re, Complex.one_re]
    linarith
  have hne : 1 + v ≠ 0 := by intro h; rw [h] at hre; simp at hre
  refine ⟨hne, ?_⟩
  have hn : 0 < ‖1 + v‖ := norm_pos_iff.2 hne
  have hkey : |(1 + v).im / ‖1 + v‖| ≤ ρ := by
    rw [abs_div, abs_of_pos hn, div_le_iff₀ hn]
    apply abs_le_of_sq_le_sq _ (mul_nonneg h0 hn.le)
    have e1 : ‖1 + v‖ ^ 2 = (1 + v.re) ^ 2 + v.im ^ 2 := by
      rw [Complex.sq_norm, Complex.normSq_apply]; simp; ring
    have e2 : v.re ^ 2 + v.im ^ 2 ≤ ρ ^ 2 := by
      have := pow_le_pow_left₀ (norm_nonneg v) hv 2
      rw [Complex.sq_norm, Complex.normSq_apply] at this
      linarith
    rw [mul_pow, e1]
    simp only [Complex.add_im, Complex.one_im, zero_add]
    have e3 : 0 ≤ 1 - ρ ^ 2 := by nlinarith
    nlinarith [mul_le_mul_of_nonneg_left e2 e3, sq_nonneg (1 + v.re - (1 - ρ ^ 2))]
  rw [Complex.arg_of_re_nonneg hre.le]
  have hle := abs_le.1 hkey
  rw [abs_le]
  constructor
  · rw [← Real.arcsin_neg]
    exact Real.monotone_arcsin hle.1
  · exact Real.monotone_arcsin hle.2

theorem cpePilotIdx_mem {pilotIdx : List Nat} {frameLen nframes ratio nlen : Nat} {maxBlocks : Option Nat} {i : Nat} (h : i ∈ cpePilotIdx pilotIdx frameLen nframes ratio nlen maxBlocks) :
    ∃ i0 ∈ pilotIdx, ∃ f < nframes, i = i0 + f * frameLen := by
  unfold cpePilotIdx at h
  obtain ⟨h1, -⟩ := List.mem_filter.1 h
  obtain ⟨f, hf, h2⟩ := List.mem_flatMap.1 h1
  obtain ⟨i0, h3, rfl⟩ := List.mem_map.1 h2
  refine ⟨i0, ?_, f, List.mem_range.1 hf, rfl⟩
  have h4 := (strided_sublist _ ratio).subset h3
  cases maxBlocks with
  | none => exact h4
  | some m => exact List.mem_of_mem_take h4

/-- A disturbed pilot is a positive multiple of the pilot turned by the carrier phase and a small error. -/
theorem disturbed_pilot {x w : ℂ} {θ ρ : ℝ} (h0 : 0 ≤ ρ) (h1 : ρ < 1) (hx : x ≠ 0) (hw : ‖w‖ ≤ ρ * ‖x‖) :
    ∃ s δ : ℝ, 0 < s ∧ |δ| ≤ Real.arcsin ρ ∧ x * Complex.exp (I * (θ : ℂ)) + w = s * (x * Complex.exp (I * ((θ + δ : ℝ) : ℂ))) := by
  have hxn : 0 < ‖x‖ := norm_pos_iff.2 hx
  have he : ‖Complex.exp (I * (θ : ℂ))‖ = 1 := by rw [mul_comm, Complex.norm_exp_ofReal_mul_I]
  have hen : Complex.exp (I * (θ : ℂ)) ≠ 0 := Complex.exp_ne_zero _
  obtain ⟨v, hv⟩ : ∃ v : ℂ, v = w / (x * Complex.exp (I * (θ : ℂ))) := ⟨_, rfl⟩
  have hvn : ‖v‖ ≤ ρ := by rw [hv, norm_div, norm_mul, he, mul_one, div_le_iff₀ hxn]; exact hw
  obtain ⟨g1, g2⟩ := arg_disturbed h0 h1 hvn
  refine ⟨‖1 + v‖, Complex.arg (1 + v), norm_pos_iff.2 g1, g2, ?_⟩
  have hpol : (‖1 + v‖ : ℂ) * Complex.exp (Complex.arg (1 + v) * I) = 1 + v := Complex.norm_mul_exp_arg_mul_I _
  have hw' : w = v * (x * Complex.exp (I * (θ : ℂ))) := by rw [hv]; field_simp
  have hsplit : Complex.exp (I * ((θ + Complex.arg (1 + v) : ℝ) : ℂ)) = Complex.exp (I * (θ : ℂ)) * Complex.exp (Complex.arg (1 + v) * I) := by
    rw [← Complex.exp_add]; congr 1; push_cast; ring
  rw [hsplit]
  calc x * Complex.exp (I * (θ : ℂ)) + w = x * Complex.exp (I * (θ : ℂ)) * (1 + v) := by rw [hw']; ring
    _ = x * Complex.exp (I * (θ : ℂ)) * ((‖1 + v‖ : ℂ) * Complex.exp (Complex.arg (1 + v) * I)) := by rw [hpol]
    _ = _ := by ring

/-- C204: a signal with the carrier phase `θ`, which in mode `m` stays within `d` of `φ m`, and noise `w`, which at the pilots is at most the fraction `ρ < 1` of the amplitude of the pilot. Pilot based phase
recovery succeeds and every sample is returned with an error of at most the noise of the sample and a phase error of `2 d + arcsin ρ`, whatever the noise of the other samples is and without any cycle slip. -/
theorem C204_noise (tx pilots : List (List ℂ)) (φ : Nat → ℝ) (θ : Nat → Nat → ℝ) (w : Nat → Nat → ℂ) (d ρ : ℝ) (L : Nat) (pilotIdx : List Nat) (frameLen numAverage ratio nframes f0 : Nat) (maxBlocks : Option Nat)
    (hs : PilotSetup tx pilots L pilotIdx frameLen nframes) (hN : 1 < numAverage) (hr : 1 ≤ ratio) (h0 : f0 ≤ nframes) (h1 : f0 * frameLen ≤ L)
    (hcount : oddAverage numAverage ≤ f0 * ((min (maxBlocks.getD pilotIdx.length) pilotIdx.length + ratio - 1) / ratio)) (hmax : ∀ m, maxBlocks = some m → pilotIdx.length ≤ m ∨ nframes ≤ 1)
    (hd : ∀ m n, |θ m n - φ m| ≤ d) (hρ0 : 0 ≤ ρ) (hρ1 : ρ < 1) (hsum : d + Real.arcsin ρ < Real.pi / 2)
    (hw : ∀ (m : Nat) (r : List ℂ) (i f : Nat) (x : ℂ), tx[m]? = some r → i ∈ pilotIdx → f < nframes → r[i + f * frameLen]? = some x → ‖w m (i + f * frameLen)‖ ≤ ρ * ‖x‖) :
    ∃ out, pilotBasedCpe (tx.mapIdx fun m r => r.mapIdx fun n x => x * Complex.exp (I * (θ m n : ℂ)) + w m n) pilots L pilotIdx frameLen numAverage ratio maxBlocks nframes = .ok out ∧ out.length = tx.length ∧
      ∀ (m : Nat) (r : List ℂ) (c : List ℂ × List ℝ), tx[m]? = some r → out[m]? = some c → c.1.length = min (frameLen * nframes) L ∧
        (∃ K : ℤ, ∀ (n : Nat) (t : ℝ), c.2[n]? = some t → |t - (φ m + 2 * Real.pi * K)| ≤ d + Real.arcsin ρ) ∧
        ∀ (n : Nat) (x y : ℂ), r[n]? = some x → c.1[n]? = some y → ‖y - x‖ ≤ (2 * d + Real.arcsin ρ) * ‖x‖ + ‖w m n‖ := by
  obtain ⟨N, hNdef⟩ : ∃ N, N = oddAverage numAverage := ⟨_, rfl⟩
  obtain ⟨idx, hidx⟩ : ∃ idx, cpePilotIdx pilotIdx frameLen nframes ratio (min (frameLen * nframes) L) maxBlocks = idx := ⟨_, rfl⟩
  obtain ⟨β, hβ⟩ : ∃ β, β = Real.arcsin ρ := ⟨_, rfl⟩
  have hβ0 : 0 ≤ β := by rw [hβ]; exact Real.arcsin_nonneg.2 hρ0
  have hodd : N % 2 = 1 := by rw [hNdef, oddAverage]; split_ifs <;> omega
  have hN1 : 1 ≤ N := by omega
  have hlen : N ≤ idx.length := by
    rw [← hidx, hNdef]
    refine le_trans hcount (length_cpePilotIdx_ge pilotIdx frameLen nframes ratio _ f0 maxBlocks hs.inside hr h0 ?_)
    have : f0 * frameLen ≤ nframes * frameLen := Nat.mul_le_mul_right _ h0
    rw [Nat.mul_comm nframes] at this
    omega
  obtain ⟨out, o1, o2, o3⟩ := mapM_zip_ok (tx.mapIdx fun m r => r.mapIdx fun n x => x * Complex.exp (I * (θ m n : ℂ)) + w m n) pilots
    (fun p => cpeMode p.1 p.2 idx N (min (frameLen * nframes) L) (nframes * frameLen) ratio nframes)
    (fun m c => ∀ r : List ℂ, tx[m]? = some r → c.1.length = min (frameLen * nframes) L ∧
        (∃ K : ℤ, ∀ (n : Nat) (t : ℝ), c.2[n]? = some t → |t - (φ m + 2 * Real.pi * K)| ≤ d + β) ∧
        ∀ (n : Nat) (x y : ℂ), r[n]? = some x → c.1[n]? = some y → ‖y - x‖ ≤ (2 * d + β) * ‖x‖ + ‖w m n‖) (by simp [hs.modes]) (by
      intro m a p ha hp
      rw [List.getElem?_mapIdx] at ha
      obtain ⟨r, hr, rfl⟩ := Option.map_eq_some_iff.1 ha
      obtain ⟨q1, q2, q3, q4⟩ := cpe_setup hs ratio maxBlocks hmax m r p hr hp
      rw [hidx] at q1 q2 q3 q4
      have hrl := hs.rows r (List.mem_of_getElem? hr)
      have hpil : ∀ i ∈ idx, ∀ x : ℂ, r[i]? = some x → ∃ s δ : ℝ, 0 < s ∧ |δ| ≤ β ∧ x * Complex.exp (I * (θ m i : ℂ)) + w m i = s * (x * Complex.exp (I * ((θ m i + δ : ℝ) : ℂ))) := by
        intro i hi x hx
        obtain ⟨j, hj⟩ := List.mem_iff_getElem?.1 hi
        have hjl : j < (Np.tile (Np.strided p ratio) nframes).length := lt_of_lt_of_le (List.getElem?_eq_some_iff.1 hj).1 q3
        obtain ⟨g1, g2⟩ := q4 j i _ hj (List.getElem?_eq_getElem hjl)
        rw [hx, Option.some.injEq] at g1
        rw [← g1] at g2
        rw [← hidx] at hi
        obtain ⟨i0, hi0, f, hf, rfl⟩ := cpePilotIdx_mem hi
        rw [hβ]
        exact disturbed_pilot hρ0 hρ1 g2 (hw m r i0 f x hr hi0 hf hx)
      obtain ⟨δ, hδ⟩ : ∃ δ : Nat → ℝ, ∀ i, |δ i| ≤ β ∧ (i ∈ idx → ∀ x : ℂ, r[i]? = some x → ∃ s : ℝ, 0 < s ∧ x * Complex.exp (I * (θ m i : ℂ)) + w m i = s * (x * Complex.exp (I * ((θ m i + δ i : ℝ) : ℂ)))) := by
        have : ∀ i, ∃ e : ℝ, |e| ≤ β ∧ (i ∈ idx → ∀ x : ℂ, r[i]? = some x → ∃ s : ℝ, 0 < s ∧ x * Complex.exp (I * (θ m i : ℂ)) + w m i = s * (x * Complex.exp (I * ((θ m i + e : ℝ) : ℂ)))) := by
          intro i
          by_cases hi : i ∈ idx
          · cases hx : r[i]? with
            | none => exact ⟨0, by simpa using hβ0, fun _ x hx' => by simp at hx'⟩
            | some x =>
              obtain ⟨s, e, g1, g2, g3⟩ := hpil i hi x hx
              refine ⟨e, g2, fun _ x' hx' => ?_⟩
              obtain rfl := Option.some.inj hx'
              exact ⟨s, g1, g3⟩
          · exact ⟨0, by simpa using hβ0, fun h => absurd h hi⟩
        exact ⟨fun i => (this i).choose, fun i => (this i).choose_spec⟩
      have hdev : ∀ i, |(θ m i + δ i) - φ m| ≤ d + β := by
        intro i
        have e1 := abs_le.1 (hd m i)
        have e2 := abs_le.1 (hδ i).1
        rw [abs_le]
        constructor <;> linarith
      obtain ⟨K, avg, tr, c1, c2, c3, c4, c5⟩ := cpeMode_amp r (r.mapIdx fun n x => x * Complex.exp (I * (θ m n : ℂ)) + w m n) p (fun i => θ m i + δ i) idx N (min (frameLen * nframes) L)
        (nframes * frameLen) ratio nframes q1 (by omega) (by rw [Nat.mul_comm nframes]; exact min_le_left _ _) (by simp) q3 q4
        (by
          intro i hi x y hx hy
          rw [List.getElem?_mapIdx, hx, Option.map_some, Option.some.injEq] at hy
          rw [← hy]
          exact (hδ i).2 hi x hx)
        (by
          intro j i i' _ _
          have e1 := abs_le.1 (hdev i)
          have e2 := abs_le.1 (hdev i')
          rw [← hβ] at hsum
          rw [abs_lt]
          constructor <;> linarith) hN1 hodd hlen
      have havg : ∀ v ∈ avg, φ m + 2 * Real.pi * K - (d + β) ≤ v ∧ v ≤ φ m + 2 * Real.pi * K + (d + β) := by
        intro v hv
        obtain ⟨k, hk⟩ := List.mem_iff_getElem?.1 hv
        have hkl : k < avg.length := (List.getElem?_eq_some_iff.1 hk).1
        rw [c3 k (by omega), Option.some.injEq] at hk
        rw [← hk]
        have hNpos : (0 : ℝ) < N := by exact_mod_cast hN1
        constructor
        · rw [le_div_iff₀ hNpos]
          have := Finset.card_nsmul_le_sum (Finset.range N) (fun j => θ m (idx.getD (k + j) 0) + δ (idx.getD (k + j) 0) + 2 * Real.pi * K) (φ m + 2 * Real.pi * K - (d + β)) (fun j _ => by
            have := abs_le.1 (hdev (idx.getD (k + j) 0)); linarith)
          rw [Finset.card_range, nsmul_eq_mul] at this
          linarith
        · rw [div_le_iff₀ hNpos]
          have := Finset.sum_le_card_nsmul (Finset.range N) (fun j => θ m (idx.getD (k + j) 0) + δ (idx.getD (k + j) 0) + 2 * Real.pi * K) (φ m + 2 * Real.pi * K + (d + β)) (fun j _ => by
            have := abs_le.1 (hdev (idx.getD (k + j) 0)); linarith)
          rw [Finset.card_range, nsmul_eq_mul] at this
          linarith
      have htr : ∀ (n : Nat) (t : ℝ), tr[n]? = some t → |t - (φ m + 2 * Real.pi * K)| ≤ d + β := by
        intro n t ht
        have hn : n < min (frameLen * nframes) L := by rw [← c4]; exact (List.getElem?_eq_some_iff.1 ht).1
        have hi := c5 n hn
        rw [ht] at hi
        have hb := interp_bounds (n : ℝ) (φ m + 2 * Real.pi * K - (d + β)) (φ m + 2 * Real.pi * K + (d + β)) _ t (fun q hq => havg q.2 (List.of_mem_zip (show (q.1, q.2) ∈ _ from hq)).2) hi
        rw [abs_le]
        constructor <;> linarith [hb.1, hb.2]
      refine ⟨_, c1, ?_⟩
      intro r' hr'
      obtain rfl : r = r' := by rw [hr] at hr'; exact Option.some.inj hr'
      refine ⟨by simp [rotateBy, c4, hrl], ⟨K, htr⟩, ?_⟩
      intro n x y hx hy
      have hn : n < min (frameLen * nframes) L := by
        have := (List.getElem?_eq_some_iff.1 hy).1
        simpa [rotateBy, c4, hrl] using this
      obtain ⟨t, ht⟩ : ∃ t, tr[n]? = some t := ⟨_, List.getElem?_eq_getElem (by omega)⟩
      rw [getElem?_rotateBy (e := x * Complex.exp (I * (θ m n : ℂ)) + w m n) (p := -t) (by rw [List.getElem?_take_of_lt hn, List.getElem?_mapIdx, hx]; rfl) (by rw [List.getElem?_map, ht]; rfl), Option.some.injEq] at hy
      obtain ⟨γ, hγ⟩ : ∃ γ : ℝ, γ = θ m n - t + 2 * Real.pi * K := ⟨_, rfl⟩
      have hexp : Complex.exp (I * (θ m n : ℂ)) * Complex.exp (I * ((-t : ℝ) : ℂ)) = Complex.exp (I * (γ : ℂ)) := by
        rw [← Complex.exp_add, Complex.exp_eq_exp_iff_exists_int]
        refine ⟨-K, ?_⟩
        rw [hγ]
        push_cast
        ring
      have hyx : y - x = x * (Complex.exp (I * (γ : ℂ)) - 1) + w m n * Complex.exp (I * ((-t : ℝ) : ℂ)) := by
        rw [← hy, ← hexp]; ring
      have hγb : |γ| ≤ 2 * d + β := by
        have e1 := abs_le.1 (hd m n)
        have e2 := abs_le.1 (htr n t ht)
        rw [hγ, abs_le]
        constructor <;> linarith
      have he1 : ‖Complex.exp (I * (γ : ℂ)) - 1‖ ≤ 2 * d + β := le_trans (by simpa using Real.norm_exp_I_mul_ofReal_sub_one_le (x := γ)) hγb
      have he2 : ‖Complex.exp (I * ((-t : ℝ) : ℂ))‖ = 1 := by rw [mul_comm, Complex.norm_exp_ofReal_mul_I]
      rw [hyx]
      calc ‖x * (Complex.exp (I * (γ : ℂ)) - 1) + w m n * Complex.exp (I * ((-t : ℝ) : ℂ))‖ ≤ ‖x * (Complex.exp (I * (γ : ℂ)) - 1)‖ + ‖w m n * Complex.exp (I * ((-t : ℝ) : ℂ))‖ := norm_add_le _ _
        _ = ‖x‖ * ‖Complex.exp (I * (γ : ℂ)) - 1‖ + ‖w m n‖ := by rw [norm_mul, norm_mul, he2, mul_one]
        _ ≤ (2 * d + β) * ‖x‖ + ‖w m n‖ := by rw [mul_comm]; gcongr)
  refine ⟨out, ?_, by simpa using o2, fun m r c hr hc => by rw [← hβ]; exact o3 m c hc r hr⟩
  unfold pilotBasedCpe
  rw [if_neg (by omega), if_neg (by simp [hs.modes])]
  simp only [hidx]
  rw [show (if numAverage % 2 = 0 then numAverage + 1 else numAverage) = N from hNdef.symm]
  exact o1

/-- C204: if the symbols have at least the distance `D`, amplitudes of at most `R`, and noise and phase error stay below half the distance, every symbol is the nearest one to the sample that the phase recovery returns: there are no
symbol errors, at any position and in any mode. -/
theorem C204_decisions (S : List ℂ) (D R W : ℝ) (hD : ∀ a ∈ S, ∀ b ∈ S, a ≠ b → D ≤ ‖a - b‖) (hR : ∀ a ∈ S, ‖a‖ ≤ R) (tx pilots : List (List ℂ)) (φ : Nat → ℝ) (θ : Nat → Nat → ℝ) (w : Nat → Nat → ℂ) (d ρ : ℝ) (L : Nat)
    (pilotIdx : List Nat) (frameLen numAverage ratio nframes f0 : Nat) (maxBlocks : Option Nat) (hS : ∀ r ∈ tx, ∀ x ∈ r, x ∈ S)
    (hs : PilotSetup tx pilots L pilotIdx frameLen nframes) (hN : 1 < numAverage) (hr : 1 ≤ ratio) (h0 : f0 ≤ nframes) (h1 : f0 * frameLen ≤ L)
    (hcount : oddAverage numAverage ≤ f0 * ((min (maxBlocks.getD pilotIdx.length) pilotIdx.length + ratio - 1) / ratio)) (hmax : ∀ m, maxBlocks = some m → pilotIdx.length ≤ m ∨ nframes ≤ 1)
    (hd : ∀ m n, |θ m n - φ m| ≤ d) (hρ0 : 0 ≤ ρ) (hρ1 : ρ < 1) (hsum : d + Real.arcsin ρ < Real.pi / 2)
    (hw : ∀ (m : Nat) (r : List ℂ) (i f : Nat) (x : ℂ), tx[m]? = some r → i ∈ pilotIdx → f < nframes → r[i + f * frameLen]? = some x → ‖w m (i + f * frameLen)‖ ≤ ρ * ‖x‖)
    (hW : ∀ m n, ‖w m n‖ ≤ W) (hmargin : (2 * d + Real.arcsin ρ) * R + W < D / 2) :
    ∃ out, pilotBasedCpe (tx.mapIdx fun m r => r.mapIdx fun n x => x * Complex.exp (I * (θ m n : ℂ)) + w m n) pilots L pilotIdx frameLen numAverage ratio maxBlocks nframes = .ok out ∧ out.length = tx.length ∧
      ∀ (m : Nat) (r : List ℂ) (c : List ℂ × List ℝ), tx[m]? = some r → out[m]? = some c → c.1.length = min (frameLen * nframes) L ∧
        ∀ (n : Nat) (x y : ℂ), r[n]? = some x → c.1[n]? = some y → ∀ s ∈ S, s ≠ x → ‖y - x‖ < ‖y - s‖ := by
  obtain ⟨out, o1, o2, o3⟩ := C204_noise tx pilots φ θ w d ρ L pilotIdx frameLen numAverage ratio nframes f0 maxBlocks hs hN hr h0 h1 hcount hmax hd hρ0 hρ1 hsum hw
  refine ⟨out, o1, o2, fun m r c hr hc => ?_⟩
  obtain ⟨p1, -, p3⟩ := o3 m r c hr hc
  refine ⟨p1, fun n x y hx hy s hsS hsx => ?_⟩
  have hxS := hS r (List.mem_of_getElem? hr) x (List.mem_of_getElem? hx)
  have hb := p3 n x y hx hy
  have hβ0 : 0 ≤ Real.arcsin ρ := Real.arcsin_nonneg.2 hρ0
  have hd0 : 0 ≤ d := le_trans (abs_nonneg _) (hd 0 0)
  have h2 : (2 * d + Real.arcsin ρ) * ‖x‖ ≤ (2 * d + Real.arcsin ρ) * R := mul_le_mul_of_nonneg_left (hR x hxS) (by linarith)
  have h3 := hD s hsS x hxS hsx
  have h4 : ‖s - x‖ ≤ ‖y - s‖ + ‖y - x‖ := by
    have := norm_sub_le (y - x) (y - s)
    rw [show y - x - (y - s) = s - x by ring] at this
    linarith
  linarith [hW m n]

/-- Nine samples of two frames of length four with pilots at the positions 0 and 2, disturbed by noise of 0.1 and a phase that alternates by 0.1. -/
example : ∃ out, pilotBasedCpe ([[1, 5, I, 6, 1, 7, I, 8, 1], [I, 0, 1, 1, I, 0, 1, 2, I]].mapIdx fun m r => r.mapIdx fun n x => x * Complex.exp (I * (((m : ℝ) + 1 + (-1) ^ n * (1 / 10) : ℝ) : ℂ)) + 1 / 10)
      [[1, I], [I, 1]] 9 [0, 2] 4 3 1 none 3 = .ok out ∧ out.length = 2 := by
  obtain ⟨out, o1, o2, -⟩ := C204_noise [[1, 5, I, 6, 1, 7, I, 8, 1], [I, 0, 1, 1, I, 0, 1, 2, I]] [[1, I], [I, 1]] (fun m => (m : ℝ) + 1) (fun m n => (m : ℝ) + 1 + (-1) ^ n * (1 / 10)) (fun _ _ => 1 / 10) (1 / 10) (1 / 2) 9 [0, 2] 4 3 1 3 2 none
    (setup_example 3 le_rfl) (by norm_num) le_rfl (by norm_num) (by norm_num) (by decide) (by simp)
    (by
      intro m n
      rw [add_sub_cancel_left, abs_mul, abs_pow]
      norm_num) (by norm_num) (by norm_num)
    (by
      have : Real.arcsin (1 / 2) = Real.pi / 6 := by
        rw [← Real.sin_pi_div_six, Real.arcsin_sin (by linarith [Real.pi_pos]) (by linarith [Real.pi_pos])]
      rw [this]
      linarith [Real.two_le_pi])
    (by
      intro m r i f x hr hi hf hx
      have hx1 : ‖x‖ = 1 := by
        rcases m with _ | _ | m
        · obtain rfl : _ = r := by simpa using hr
          have hf' : f = 0 ∨ f = 1 ∨ f = 2 := by omega
          rcases List.mem_cons.1 hi with rfl | hi
          · rcases hf' with rfl | rfl | rfl <;> simp at hx <;> rw [← hx] <;> simp
          · obtain rfl := List.mem_singleton.1 hi
            rcases hf' with rfl | rfl | rfl <;> simp at hx <;> rw [← hx] <;> simp
        · obtain rfl : _ = r := by simpa using hr
          have hf' : f = 0 ∨ f = 1 ∨ f = 2 := by omega
          rcases List.mem_cons.1 hi with rfl | hi
          · rcases hf' with rfl | rfl | rfl <;> simp at hx <;> rw [← hx] <;> simp
          · obtain rfl := List.mem_singleton.1 hi
            rcases hf' with rfl | rfl | rfl <;> simp at hx <;> rw [← hx] <;> simp
        · simp at hr
      rw [hx1]
      norm_num)
  exact ⟨out, by simpa using o1, o2⟩

end Qampy
