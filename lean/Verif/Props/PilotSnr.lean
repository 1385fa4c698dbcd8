import Verif.Props.PilotMetrics
import Verif.Props.Normalise

/-!
C199: the SNR estimates of signals with pilots.
-/

namespace Qampy

/-- `S` and `N` are signal and noise power of the received samples `v` for the sent symbols `u`: mean power of the class means and mean squared distance from them. -/
def SnrPowers (u v : List ℂ) (S N : ℝ) : Prop :=
  S = ((v.zip u).map fun p => ‖classMean v u p.2‖ ^ 2).sum / v.length ∧ N = ((v.zip u).map fun p => ‖p.1 - classMean v u p.2‖ ^ 2).sum / v.length ∧
    N ≤ ((v.zip u).map fun p => ‖p.1 - p.2‖ ^ 2).sum / v.length

theorem estSnrRows_tile (coded : List ℂ) (hnd : coded.Nodup) (tx rx : List (List ℂ)) (Nt m : Nat) (hNt : 0 < Nt) (hm : 0 < m) (htx : ∀ r ∈ tx, r.length = Nt) (hrx : ∀ r ∈ rx, r.length = m * Nt)
    (hL : tx.length = rx.length) (hin : ∀ r ∈ tx, ∀ a ∈ r, a ∈ coded) (hall : ∀ r ∈ tx, ∀ a ∈ coded, a ∈ r) :
    ∃ l, estSnrRows coded true tx rx = .ok l ∧ l.length = rx.length ∧
      ∀ (i : Nat) (t r : List ℂ), tx[i]? = some t → rx[i]? = some r → ∃ S N : ℝ, l[i]? = some (S / N, S, N) ∧ SnrPowers (Np.tile t m) r S N := by
  have hal : alignRows true tx rx = .ok (tx.map fun r => Np.tile r m, rx) := by
    rw [alignRows, if_pos rfl, adjustOnly_rows tx rx Nt (m * Nt) hNt htx hrx hL]
    congr 2
    exact List.map_congr_left fun r hr => range_mod_tile r Nt m (htx r hr)
  have hmem : ∀ (t : List ℂ) (a : ℂ), a ∈ Np.tile t m ↔ a ∈ t := by
    intro t a
    unfold Np.tile
    rw [List.mem_flatten]
    constructor
    · rintro ⟨l, hl, ha⟩
      rw [List.eq_of_mem_replicate hl] at ha
      exact ha
    · intro ha
      exact ⟨t, List.mem_replicate.2 ⟨by omega, rfl⟩, ha⟩
  have hrow : ∀ i : Nat, ∃ q : ℝ × ℝ × ℝ, ∀ t r : List ℂ, tx[i]? = some t → rx[i]? = some r → estimateSnr r (Np.tile t m) coded = some q ∧
      ∃ S N : ℝ, q = (S / N, S, N) ∧ SnrPowers (Np.tile t m) r S N := by
    intro i
    rcases ht : tx[i]? with _ | t
    · exact ⟨(0, 0, 0), by simp⟩
    rcases hr : rx[i]? with _ | r
    · exact ⟨(0, 0, 0), by simp⟩
    have htm := List.mem_of_getElem? ht
    have hl : r.length = (Np.tile t m).length := by
      rw [hrx r (List.mem_of_getElem? hr), Np.length_tile, htx t htm]
    have h1 : ∀ a ∈ Np.tile t m, a ∈ coded := fun a ha => hin t htm a ((hmem t a).1 ha)
    have h2 : ∀ a ∈ coded, a ∈ Np.tile t m := fun a ha => (hmem t a).2 (hall t htm a ha)
    obtain ⟨S, N, he, hS, hN, -⟩ := C66_estimate_snr r (Np.tile t m) coded hl hnd h1 h2
    obtain ⟨snr, S', N', he', -, hle⟩ := C66_noise_le_error r (Np.tile t m) coded hl hnd h1 h2
    rw [he] at he'
    cases he'
    refine ⟨(S / N, S, N), fun t' r' e1 e2 => ?_⟩
    cases e1; cases e2
    exact ⟨he, S, N, rfl, hS, hN, hle⟩
  choose q hq using hrow
  refine ⟨(List.range rx.length).map q, ?_, by simp, ?_⟩
  · rw [estSnrRows, hal]
    simp only [bind, Except.bind]
    apply mapM_ok
    intro i hi
    have hi' := List.mem_range.1 hi
    have ht : tx[i]? = some tx[i] := List.getElem?_eq_getElem _
    have hr : rx[i]? = some rx[i] := List.getElem?_eq_getElem _
    rw [List.getElem?_map, ht, hr]
    simp only [Option.map_some]
    rw [(hq i _ _ ht hr).1]
    rfl
  · intro i t r ht hr
    obtain ⟨-, S, N, h1, h2⟩ := hq i t r ht hr
    refine ⟨S, N, ?_, h2⟩
    rw [List.getElem?_map, List.getElem?_range (List.getElem?_eq_some_iff.1 hr).1, Option.map_some, h1]

/-- The received pilots of one mode in the frames `fs`. -/
def pilotSamples (s : PilotSignal ℂ) (fs : List Nat) (r : List ℂ) : List ℂ :=
  fs.flatMap fun f => samplesAt ((r.drop (f * s.frameLen)).take s.frameLen) fun p => !isData s.seqLen s.insRat p

theorem length_pilotSamples (s : PilotSignal ℂ) (n : Nat) (hv : ValidFrames s n) (fs : List Nat) (hfs : ∀ f ∈ fs, f < n) (r : List ℂ) (hr : r ∈ s.rows) :
    (pilotSamples s fs r).length = fs.length * Np.countNonzero s.idxPil := by
  obtain ⟨h1, h2⟩ := calPilotIdx_ok hv.layout
  have hl : s.idxPil.length = s.frameLen := by rw [h2, h1]; simp
  have hrl := hv.rows r hr
  unfold pilotSamples
  induction fs with
  | nil => simp
  | cons f fs ih =>
    rw [List.flatMap_cons, List.length_append, ih fun g hg => hfs g (by simp [hg]), List.length_cons, Nat.succ_mul, Nat.add_comm]
    congr 1
    have hlt := hfs f (by simp)
    have hle : (f + 1) * s.frameLen ≤ r.length := by
      rw [hrl]; exact Nat.mul_le_mul_right _ hlt
    have hlen : ((r.drop (f * s.frameLen)).take s.frameLen).length = s.frameLen := by
      rw [List.length_take, List.length_drop]
      rw [Nat.add_mul] at hle
      omega
    have e : samplesAt ((r.drop (f * s.frameLen)).take s.frameLen) (fun p => !isData s.seqLen s.insRat p) = Np.select ((r.drop (f * s.frameLen)).take s.frameLen) s.idxPil := by
      rw [select_eq_samplesAt _ _ (by rw [hlen, hl])]
      apply samplesAt_congr
      intro i hi
      rw [hlen] at hi
      rw [h2, h1, List.map_map, List.getElem?_map, List.getElem?_range hi]
      simp only [Option.map_some, Function.comp_apply]
      cases isData s.seqLen s.insRat i <;> rfl
    rw [e, Np.length_select _ _ (by rw [hlen, hl])]

/-- C199: with `use_pilots=True` the estimate for a mode is that of the received pilots of the requested frames against the pilot symbols of the mode; the payload does not enter. -/
theorem C199_pilots (s : PilotSignal ℂ) (n : Nat) (hf : 1 ≤ s.frameLen) (hv : ValidFrames s n) (coded codedP : List ℂ) (ref pil : List (List ℂ)) (hp0 : 0 < Np.countNonzero s.idxPil)
    (hpil : ∀ r ∈ pil, r.length = Np.countNonzero s.idxPil) (hm : pil.length = s.rows.length) (hnd : codedP.Nodup) (hin : ∀ r ∈ pil, ∀ a ∈ r, a ∈ codedP) (hall : ∀ r ∈ pil, ∀ a ∈ codedP, a ∈ r)
    (fs : List Nat) (hne : fs ≠ []) (hfs : ∀ f ∈ fs, f < n) :
    ∃ l, pilotEstSnr coded codedP s ref pil (n * s.frameLen) 1 (some fs) true true = .ok l ∧ l.length = s.rows.length ∧
      ∀ (i : Nat) (t r : List ℂ), pil[i]? = some t → s.rows[i]? = some r → ∃ S N : ℝ, l[i]? = some (S / N, S, N) ∧ SnrPowers (Np.tile t fs.length) (pilotSamples s fs r) S N := by
  obtain ⟨l, h1, h2, h3⟩ := estSnrRows_tile codedP hnd pil (s.rows.map (pilotSamples s fs)) _ fs.length hp0 (List.length_pos_iff.2 hne) hpil (by
    intro r hr
    obtain ⟨r', hr', rfl⟩ := List.mem_map.1 hr
    exact length_pilotSamples s n hv fs hfs r' hr') (by rw [List.length_map, hm]) hin hall
  refine ⟨l, ?_, by rw [h2, List.length_map], ?_⟩
  · unfold pilotEstSnr
    rw [if_pos rfl, C21_extract_pilots s n hf hv fs hne hfs]
    exact h1
  · intro i t r ht hr
    exact h3 i t _ ht (by rw [List.getElem?_map, hr, Option.map_some])

/-- C199: without argument all frames are used. -/
theorem C199_pilots_all (s : PilotSignal ℂ) (n : Nat) (hn : 1 ≤ n) (hf : 1 ≤ s.frameLen) (coded codedP : List ℂ) (ref pil : List (List ℂ)) (synced : Bool) :
    pilotEstSnr coded codedP s ref pil (n * s.frameLen) 1 none synced true = pilotEstSnr coded codedP s ref pil (n * s.frameLen) 1 (some (List.range n)) synced true := by
  unfold pilotEstSnr
  rw [if_pos rfl, if_pos rfl, C21_extract_pilots_all s n hn hf]

/-- C199: by default the estimate for a mode is that of the received payload against the data symbols of the mode; the pilots do not enter. The reference covers all frames (`m = 1`) or one frame that is repeated. -/
theorem C199_data (s : PilotSignal ℂ) (n : Nat) (hn : 1 ≤ n) (hf : 1 ≤ s.frameLen) (hv : ValidFrames s n) (coded codedP : List ℂ) (ref pil : List (List ℂ)) (Nt m : Nat) (hNt : 0 < Nt) (hm0 : 0 < m)
    (href : ∀ r ∈ ref, r.length = Nt) (hlen : ∀ r ∈ s.rows, (samplesAt r fun p => isData s.seqLen s.insRat (p % s.frameLen)).length = m * Nt)
    (hm : ref.length = s.rows.length) (hnd : coded.Nodup) (hin : ∀ r ∈ ref, ∀ a ∈ r, a ∈ coded) (hall : ∀ r ∈ ref, ∀ a ∈ coded, a ∈ r) :
    ∃ l, pilotEstSnr coded codedP s ref pil (n * s.frameLen) 1 none true false = .ok l ∧ l.length = s.rows.length ∧
      ∀ (i : Nat) (t r : List ℂ), ref[i]? = some t → s.rows[i]? = some r → ∃ S N : ℝ, l[i]? = some (S / N, S, N) ∧
        SnrPowers (Np.tile t m) (samplesAt r fun p => isData s.seqLen s.insRat (p % s.frameLen)) S N := by
  obtain ⟨l, h1, h2, h3⟩ := estSnrRows_tile coded hnd ref (s.rows.map fun r => samplesAt r fun p => isData s.seqLen s.insRat (p % s.frameLen)) Nt m hNt hm0 href (by
    intro r hr
    obtain ⟨r', hr', rfl⟩ := List.mem_map.1 hr
    exact hlen r' hr') (by rw [List.length_map, hm]) hin hall
  refine ⟨l, ?_, by rw [h2, List.length_map], ?_⟩
  · unfold pilotEstSnr
    rw [if_neg (by simp), C21_get_data s n hn hf hv]
    exact h1
  · intro i t r ht hr
    exact h3 i t _ ht (by rw [List.getElem?_map, hr, Option.map_some])

/-- C199: a signal created with pilots, received with errors of at most `δ`: the noise power estimated from the pilots is at most `δ²`. -/
theorem C199_received (junk : ℂ) (frameLen seqLen rat nframes : Nat) (pilotDraw dataDraw : List (List ℂ)) (repeatData : Bool) (dat pil : List Bool)
    (hlay : calPilotIdx frameLen seqLen rat = .ok (dat, pil)) (hfl : 1 ≤ frameLen) (hnf : 1 ≤ nframes) (hm : pilotDraw.length = dataDraw.length) (hp0 : 0 < Np.countNonzero pil)
    (hp : ∀ r ∈ pilotDraw, r.length = Np.countNonzero pil) (hd : ∀ r ∈ dataDraw, r.length = if repeatData then Np.countNonzero dat else Np.countNonzero dat * nframes)
    (coded codedP : List ℂ) (ref : List (List ℂ)) (hnd : codedP.Nodup) (hin : ∀ r ∈ pilotDraw, ∀ a ∈ r, a ∈ codedP) (hall : ∀ r ∈ pilotDraw, ∀ a ∈ codedP, a ∈ r) :
    ∃ s, pilotNew junk frameLen seqLen rat nframes pilotDraw dataDraw repeatData true = .ok s ∧
      ∀ (rx : List (List ℂ)) (δ : ℝ), List.Forall₂ (List.Forall₂ fun u v : ℂ => ‖u - v‖ ≤ δ) rx s.rows →
        ∃ l, pilotEstSnr coded codedP { s with rows := rx } ref pilotDraw (nframes * frameLen) 1 none true true = .ok l ∧ l.length = rx.length ∧ ∀ q ∈ l, q.2.2 ≤ δ ^ 2 := by
  obtain ⟨s, hs, hv, hsf, -, -, hpi, hex⟩ := C80_new_partial junk frameLen seqLen rat nframes pilotDraw dataDraw repeatData dat pil hlay hfl hnf hm hp hd
  refine ⟨s, hs, ?_⟩
  intro rx δ hrx
  have hfl' : 1 ≤ s.frameLen := by omega
  have hne : List.range nframes ≠ [] := by
    intro h
    have := congrArg List.length h
    simp at this
    omega
  have hfs : ∀ f ∈ List.range nframes, f < nframes := fun f hf => List.mem_range.1 hf
  rw [← hsf, C21_extract_pilots_all s nframes hnf hfl', C21_extract_pilots s nframes hfl' hv _ hne hfs, hpi] at hex
  have hex' : (s.rows.map fun r => pilotSamples s (List.range nframes) r) = pilotDraw.map fun r => Np.tile r nframes := by
    injection hex
  have hv' : ValidFrames { s with rows := rx } nframes := by
    refine ⟨hv.layout, ?_⟩
    intro r hr
    obtain ⟨i, hi, rfl⟩ := List.getElem_of_mem hr
    have hlen := hrx.length_eq
    have h1 := (List.forall₂_iff_get.1 hrx).2 i hi (by rw [← hlen]; exact hi)
    have h2 := h1.length_eq
    have h3 := hv.rows (s.rows[i]'(by rw [← hlen]; exact hi)) (List.getElem_mem _)
    simp only [List.get_eq_getElem] at h2
    change rx[i].length = nframes * s.frameLen
    rw [h2]
    exact h3
  have hlm : pilotDraw.length = rx.length := by
    have := congrArg List.length hex'
    rw [List.length_map, List.length_map] at this
    rw [hrx.length_eq, this]
  have hpilc : s.idxPil = pil := by
    simp only [pilotNew, hlay, bind, Except.bind] at hs
    split at hs
    · exact absurd hs (by simp)
    · simp only [pure, Except.pure, Except.ok.injEq] at hs
      rw [← hs]
  obtain ⟨l, h1, h2, h3⟩ := C199_pilots { s with rows := rx } nframes hfl' hv' coded codedP ref pilotDraw (by change 0 < Np.countNonzero s.idxPil; rw [hpilc]; exact hp0)
    (by intro r hr; change r.length = Np.countNonzero s.idxPil; rw [hpilc]; exact hp r hr) hlm hnd hin hall (List.range nframes) hne hfs
  refine ⟨l, ?_, h2, ?_⟩
  · rw [← hsf]
    have := C199_pilots_all { s with rows := rx } nframes hnf hfl' coded codedP ref pilotDraw true
    rw [h1] at this
    exact this
  · intro q hq
    obtain ⟨i, hi, rfl⟩ := List.getElem_of_mem hq
    have hi' : i < rx.length := by rw [← h2]; exact hi
    have hir : i < s.rows.length := by rw [← hrx.length_eq]; exact hi'
    have hip : i < pilotDraw.length := by omega
    obtain ⟨S, N, e1, -, -, e2⟩ := h3 i pilotDraw[i] rx[i] (List.getElem?_eq_getElem _) (List.getElem?_eq_getElem _)
    rw [List.getElem?_eq_getElem hi, Option.some.injEq] at e1
    rw [e1]
    refine e2.trans ?_
    have hrow : Np.tile pilotDraw[i] nframes = pilotSamples s (List.range nframes) s.rows[i] := by
      have := congrArg (·[i]?) hex'
      simp only [List.getElem?_map, List.getElem?_eq_getElem hir, List.getElem?_eq_getElem hip, Option.map_some, Option.some.injEq] at this
      exact this.symm
    rw [List.length_range, hrow]
    have hcl : List.Forall₂ (fun u v : ℂ => ‖u - v‖ ≤ δ) rx[i] s.rows[i] := (List.forall₂_iff_get.1 hrx).2 i hi' hir
    have hcl2 : List.Forall₂ (fun u v : ℂ => ‖u - v‖ ≤ δ) (pilotSamples { s with rows := rx } (List.range nframes) rx[i]) (pilotSamples s (List.range nframes) s.rows[i]) := by
      unfold pilotSamples
      generalize List.range nframes = fs
      induction fs with
      | nil => exact List.Forall₂.nil
      | cons f fs ih =>
        rw [List.flatMap_cons, List.flatMap_cons]
        apply List.rel_append
        · apply forall₂_samplesAt
          exact List.forall₂_take _ (List.forall₂_drop _ hcl)
        · exact ih
    generalize pilotSamples { s with rows := rx } (List.range nframes) rx[i] = a at hcl2
    generalize pilotSamples s (List.range nframes) s.rows[i] = b at hcl2
    have hsum : ((a.zip b).map fun p => ‖p.1 - p.2‖ ^ 2).sum ≤ a.length * δ ^ 2 := by
      clear e2
      induction hcl2 with
      | nil => simp
      | cons h _ ih =>
        simp only [List.zip_cons_cons, List.map_cons, List.sum_cons, List.length_cons]
        push_cast
        have := pow_le_pow_left₀ (norm_nonneg _) h 2
        linarith
    rcases Nat.eq_zero_or_pos a.length with h0 | h0
    · rw [h0]; simp; positivity
    · rw [div_le_iff₀ (by exact_mod_cast h0)]
      linarith

/-- Non-vacuity: two frames with a BPSK pilot sequence, received with errors of a quarter. -/
example : ∃ s, pilotNew (0 : ℂ) 4 2 0 2 [[1, -1]] [[1, -1]] true true = .ok s ∧
    ∃ l, pilotEstSnr [1, -1] [1, -1] { s with rows := s.rows.map fun r => r.map (· + 1 / 4) } [[1, -1]] [[1, -1]] (2 * 4) 1 none true true = .ok l ∧
      l.length = s.rows.length ∧ ∀ q ∈ l, q.2.2 ≤ (1 / 4 : ℝ) ^ 2 := by
  obtain ⟨s, hs, h⟩ := C199_received 0 4 2 0 2 [[1, -1]] [[1, -1]] true [false, false, true, true] [true, true, false, false] rfl (by norm_num) (by norm_num) rfl (by decide)
    (by simp [Np.countNonzero]) (by simp [Np.countNonzero]) [1, -1] [1, -1] [[1, -1]] (by norm_num) (by simp) (by simp)
  refine ⟨s, hs, ?_⟩
  obtain ⟨l, h1, h2, h3⟩ := h (s.rows.map fun r => r.map (· + 1 / 4)) (1 / 4) (by
    rw [List.forall₂_map_left_iff]
    apply List.forall₂_same.2
    intro r hr
    rw [List.forall₂_map_left_iff]
    apply List.forall₂_same.2
    intro a ha
    rw [add_sub_cancel_left]
    norm_num)
  exact ⟨l, h1, by rw [h2, List.length_map], h3⟩

/-- One mode, one frame of two pilots and two data symbols. -/
def pilotSnrExample : PilotSignal ℂ :=
  { rows := [[1, -1, 2, -1]], frameLen := 4, seqLen := 2, insRat := 0, symbols := [[1, -1]], pilots := [[1, -1]], idxDat := [false, false, true, true], idxPil := [true, true, false, false] }

/-- Non-vacuity of the payload estimate. -/
example : ∃ l, pilotEstSnr [1, -1] [1, -1] pilotSnrExample [[1, -1]] [[1, -1]] (1 * 4) 1 none true false = .ok l ∧ l.length = 1 := by
  obtain ⟨l, h1, h2, -⟩ := C199_data pilotSnrExample 1 (le_refl _) (by norm_num [pilotSnrExample]) ⟨rfl, by simp [pilotSnrExample]⟩ [1, -1] [1, -1] [[1, -1]] [[1, -1]] 2 1 (by norm_num) (by norm_num) (by simp) (by
      intro r hr
      change r ∈ [_] at hr
      rw [List.mem_singleton] at hr
      rw [hr]
      rfl) rfl (by norm_num) (by simp) (by simp)
  exact ⟨l, h1, h2⟩

end Qampy
