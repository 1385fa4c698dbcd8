import Verif.Model.PilotMetrics
import Verif.Props.Metrics
import Verif.Props.Pilots
import Verif.Tactics

/-!
C133, C134: the metrics of signals with pilots.
-/

namespace Qampy

/-! ### Rows as functions -/

theorem row_as_range (r : List ℂ) (N : Nat) (h : r.length = N) : r = (List.range N).map fun n => r.getD n 0 := by
  apply List.ext_getElem?
  intro n
  by_cases hn : n < N
  · rw [List.getElem?_map, List.getElem?_range hn, List.getElem?_eq_getElem (by omega), Option.map_some, List.getD_eq_getElem?_getD, List.getElem?_eq_getElem (by omega)]
    rfl
  · rw [List.getElem?_eq_none (by omega), List.getElem?_eq_none (by simp; omega)]

theorem rows_as_range (rows : List (List ℂ)) (N : Nat) (h : ∀ r ∈ rows, r.length = N) :
    rows = (List.range rows.length).map fun j => (List.range N).map fun n => (rows.getD j []).getD n 0 := by
  apply List.ext_getElem?
  intro j
  by_cases hj : j < rows.length
  · rw [List.getElem?_map, List.getElem?_range hj, List.getElem?_eq_getElem hj, Option.map_some, List.getD_eq_getElem?_getD, List.getElem?_eq_getElem hj]
    simp only [Option.getD_some]
    rw [← row_as_range _ N (h _ (List.getElem_mem hj))]
  · rw [List.getElem?_eq_none (by omega), List.getElem?_eq_none (by simp; omega)]

/-- The adjusted arrays, mode by mode: the sent symbols are repeated or cut. -/
theorem adjustOnly_rows (tx rx : List (List ℂ)) (Nt Nr : Nat) (hNt : 0 < Nt) (htx : ∀ r ∈ tx, r.length = Nt) (hrx : ∀ r ∈ rx, r.length = Nr) (hL : tx.length = rx.length) :
    adjustOnly tx rx = .ok (tx.map fun r => (List.range Nr).map fun n => r.getD (n % Nt) 0, rx) := by
  have h := C132_adjust (fun j n => (tx.getD j []).getD n 0) (fun j n => (rx.getD j []).getD n 0) tx.length rx.length Nt Nr hNt
  rw [← rows_as_range tx Nt htx, ← rows_as_range rx Nr hrx, hL, min_self, ← rows_as_range rx Nr hrx] at h
  rw [h]
  congr 2
  rw [← hL]
  apply List.ext_getElem?
  intro j
  by_cases hj : j < tx.length
  · rw [List.getElem?_map, List.getElem?_map, List.getElem?_range hj, List.getElem?_eq_getElem hj, Option.map_some, Option.map_some, List.getD_eq_getElem?_getD, List.getElem?_eq_getElem hj]
    rfl
  · rw [List.getElem?_eq_none (by simp; omega), List.getElem?_eq_none (by simp; omega)]

theorem range_mod_tile (r : List ℂ) (Nt n : Nat) (hr : r.length = Nt) : ((List.range (n * Nt)).map fun q => r.getD (q % Nt) 0) = Np.tile r n := by
  apply List.ext_getElem?
  intro q
  by_cases hq : q < n * Nt
  · have hN : 0 < Nt := by
      rcases Nat.eq_zero_or_pos Nt with h | h
      · rw [h] at hq; simp at hq
      · exact h
    rw [List.getElem?_map, List.getElem?_range hq, Np.getElem?_tile _ _ _ (by rw [hr]; exact hq), hr, List.getElem?_eq_getElem (by rw [hr]; exact Nat.mod_lt _ hN),
      Option.map_some, List.getD_eq_getElem?_getD, List.getElem?_eq_getElem (by rw [hr]; exact Nat.mod_lt _ hN)]
    rfl
  · rw [List.getElem?_eq_none (by simp; omega), List.getElem?_eq_none (by rw [Np.length_tile, hr]; omega)]

/-- Samples within less than half the minimum distance of the sent symbols have no symbol errors. -/
theorem ser_rows_zero (coded : List ℂ) (dmin : ℝ) (hmin : ∀ (i j : Nat) (s t : ℂ), coded[i]? = some s → coded[j]? = some t → i ≠ j → dmin ≤ ‖s - t‖) (t x : List (List ℂ))
    (hF : List.Forall₂ (fun a b : List ℂ => a ≠ [] ∧ (∀ s ∈ b, s ∈ coded) ∧ List.Forall₂ (fun u v : ℂ => ‖u - v‖ < dmin / 2) a b) x t) :
    (List.zip t x).mapM (fun p => ((calSer coded p.2 p.1).elim (.error .index) .ok : Except PyErr ℚ)) = .ok (List.replicate x.length 0) := by
  induction hF with
  | nil => rfl
  | @cons a b x t h _ ih =>
    obtain ⟨hne, hmem, hcl⟩ := h
    have hlen := hcl.length_eq
    obtain ⟨dd, hdd, hdt⟩ := C16_recovers coded dmin hmin b a hlen hmem (by
      intro n s y hs hy
      obtain ⟨h1, e1⟩ := List.getElem?_eq_some_iff.1 hs
      obtain ⟨h2, e2⟩ := List.getElem?_eq_some_iff.1 hy
      rw [← e1, ← e2]
      exact (List.forall₂_iff_get.1 hcl).2 n h2 h1)
    have hc : coded ≠ [] := by
      obtain ⟨u, a', rfl⟩ := List.exists_cons_of_ne_nil hne
      cases b with
      | nil => simp at hlen
      | cons v b => exact List.ne_nil_of_mem (hmem v (by simp))
    obtain ⟨ser, d', hser, hd', -, -, -, hz⟩ := C47_ser coded a b hc hlen hne
    rw [hdd] at hd'
    cases hd'
    rw [hz.2 hdt] at hser
    rw [List.zip_cons_cons, List.mapM_cons]
    simp only [hser, Option.elim, bind, Except.bind] at ih ⊢
    rw [ih]
    rfl

theorem forall₂_samplesAt {R : ℂ → ℂ → Prop} {a b : List ℂ} (h : List.Forall₂ R a b) (P : Nat → Bool) : List.Forall₂ R (samplesAt a P) (samplesAt b P) := by
  induction h generalizing P with
  | nil => exact List.Forall₂.nil
  | cons h _ ih =>
    rw [samplesAt_cons, samplesAt_cons]
    cases P 0 with
    | false => simpa using ih _
    | true => simpa using ⟨h, ih _⟩

/-- The payload of a disturbed signal is close to the payload of the signal. -/
theorem getData_close (s : PilotSignal ℂ) (n : Nat) (hn : 1 ≤ n) (hf : 1 ≤ s.frameLen) (hv : ValidFrames s n) (R : ℂ → ℂ → Prop) (rx : List (List ℂ)) (hrx : List.Forall₂ (List.Forall₂ R) rx s.rows)
    (d : List (List ℂ)) (hd : getData s (n * s.frameLen) 1 none = .ok d) : ∃ d', getData { s with rows := rx } (n * s.frameLen) 1 none = .ok d' ∧ List.Forall₂ (List.Forall₂ R) d' d := by
  have hv' : ValidFrames { s with rows := rx } n := by
    refine ⟨hv.layout, ?_⟩
    intro r hr
    obtain ⟨i, hi, rfl⟩ := List.getElem_of_mem hr
    have hlen := hrx.length_eq
    have h1 := (List.forall₂_iff_get.1 hrx).2 i hi (by rw [← hlen]; exact hi)
    have h2 := h1.length_eq
    have h3 := hv.rows (s.rows[i]'(by rw [← hlen]; exact hi)) (List.getElem_mem _)
    simp only [List.get_eq_getElem] at h2
    change rx[i].length = n * s.frameLen
    rw [h2]
    exact h3
  have h1 := C21_get_data { s with rows := rx } n hn hf hv'
  have h2 := C21_get_data s n hn hf hv
  rw [h2] at hd
  cases hd
  refine ⟨_, h1, ?_⟩
  change List.Forall₂ (List.Forall₂ R) (rx.map _) (s.rows.map _)
  rw [List.forall₂_map_left_iff, List.forall₂_map_right_iff]
  exact hrx.imp fun a b h => forall₂_samplesAt h _

/-! ### C133 -/

/-- Common part: disturbed payload against the reference, extended to all frames. -/
theorem pilotCalSer_zero (s : PilotSignal ℂ) (n : Nat) (hn : 1 ≤ n) (hf : 1 ≤ s.frameLen) (hv : ValidFrames s n) (coded : List ℂ) (dmin : ℝ)
    (hmin : ∀ (i j : Nat) (a b : ℂ), coded[i]? = some a → coded[j]? = some b → i ≠ j → dmin ≤ ‖a - b‖) (rx : List (List ℂ))
    (hrx : List.Forall₂ (List.Forall₂ fun u v : ℂ => ‖u - v‖ < dmin / 2) rx s.rows) (ref d : List (List ℂ)) (hd : getData s (n * s.frameLen) 1 none = .ok d)
    (Nt Nr : Nat) (hNt : 0 < Nt) (hNr : 0 < Nr) (href : ∀ r ∈ ref, r.length = Nt) (hdl : ∀ r ∈ d, r.length = Nr) (hext : d = ref.map fun r => (List.range Nr).map fun q => r.getD (q % Nt) 0)
    (hmem : ∀ r ∈ d, ∀ a ∈ r, a ∈ coded) :
    pilotCalSer coded { s with rows := rx } ref (n * s.frameLen) 1 none true = .ok (List.replicate s.rows.length 0) := by
  obtain ⟨d', hd', hcl⟩ := getData_close s n hn hf hv _ rx hrx d hd
  have hdlen : d.length = ref.length := by rw [hext, List.length_map]
  have hd'len := hcl.length_eq
  have hrl : d.length = s.rows.length := by
    have h2 := C21_get_data s n hn hf hv
    rw [h2] at hd
    cases hd
    simp
  have hd'l : ∀ r ∈ d', r.length = Nr := by
    intro r hr
    obtain ⟨i, hi, rfl⟩ := List.getElem_of_mem hr
    have h1 := ((List.forall₂_iff_get.1 hcl).2 i hi (by rw [← hd'len]; exact hi)).length_eq
    simp only [List.get_eq_getElem] at h1
    rw [h1]
    exact hdl _ (List.getElem_mem _)
  simp only [pilotCalSer, hd', bind, Except.bind, calSerRows, alignRows, if_true]
  rw [adjustOnly_rows ref d' Nt Nr hNt href hd'l (by omega), ← hext]
  dsimp only
  rw [ser_rows_zero coded dmin hmin d d', hd'len, hrl]
  rw [List.forall₂_iff_get]
  refine ⟨hd'len, ?_⟩
  intro i h1 h2
  refine ⟨?_, ?_, (List.forall₂_iff_get.1 hcl).2 i h1 h2⟩
  · intro h0
    have := hd'l _ (List.getElem_mem h1)
    simp only [List.get_eq_getElem] at h0
    rw [h0] at this
    simp at this
    omega
  · simp only [List.get_eq_getElem]
    exact hmem _ (List.getElem_mem _)

/-- C133: the signal created by the constructor (any number of frames, repeated or new data in each), received with a disturbance of less than half the minimum distance of the payload alphabet at each sample, has no symbol errors in any mode. -/
theorem C133_new_partial (junk : ℂ) (frameLen seqLen rat nframes : Nat) (pilotDraw dataDraw : List (List ℂ)) (repeatData : Bool) (dat pil : List Bool)
    (hlay : calPilotIdx frameLen seqLen rat = .ok (dat, pil)) (hfl : 1 ≤ frameLen) (hnf : 1 ≤ nframes) (hm : pilotDraw.length = dataDraw.length) (hdat : 0 < Np.countNonzero dat)
    (hp : ∀ r ∈ pilotDraw, r.length = Np.countNonzero pil) (hd : ∀ r ∈ dataDraw, r.length = if repeatData then Np.countNonzero dat else Np.countNonzero dat * nframes)
    (coded : List ℂ) (dmin : ℝ) (hmin : ∀ (i j : Nat) (a b : ℂ), coded[i]? = some a → coded[j]? = some b → i ≠ j → dmin ≤ ‖a - b‖) (hcod : ∀ r ∈ dataDraw, ∀ a ∈ r, a ∈ coded) :
    ∃ s, pilotNew junk frameLen seqLen rat nframes pilotDraw dataDraw repeatData true = .ok s ∧ s.rows.length = dataDraw.length ∧
      ∀ rx, List.Forall₂ (List.Forall₂ fun u v : ℂ => ‖u - v‖ < dmin / 2) rx s.rows →
        pilotCalSer coded { s with rows := rx } (refNew dataDraw) (nframes * frameLen) 1 none true = .ok (List.replicate dataDraw.length 0) := by
  obtain ⟨s, hs, hv, hfl', hsym, hget, -, -⟩ := C80_new_partial junk frameLen seqLen rat nframes pilotDraw dataDraw repeatData dat pil hlay hfl hnf hm hp hd
  subst hfl'
  have hsl : s.symbols.length = dataDraw.length := by rw [hsym]; split <;> simp
  have hrl : s.rows.length = dataDraw.length := by
    have h2 := C21_get_data s nframes hnf hfl hv
    rw [hget] at h2
    have := congrArg List.length (Except.ok.inj h2)
    rw [List.length_map] at this
    omega
  refine ⟨s, hs, hrl, ?_⟩
  intro rx hrx
  rw [← hrl]
  have hNr : 0 < nframes * Np.countNonzero dat := Nat.mul_pos hnf hdat
  cases repeatData with
  | true =>
    simp only [if_true] at hd hsym
    apply pilotCalSer_zero s nframes hnf hfl hv coded dmin hmin rx hrx (refNew dataDraw) s.symbols hget (Np.countNonzero dat) (nframes * Np.countNonzero dat) hdat hNr hd
    · intro r hr
      rw [hsym] at hr
      obtain ⟨r', hr', rfl⟩ := List.mem_map.1 hr
      rw [Np.length_tile, hd r' hr']
    · rw [hsym, refNew]
      apply List.map_congr_left
      intro r hr
      rw [range_mod_tile r _ _ (hd r hr)]
    · intro r hr a ha
      rw [hsym] at hr
      obtain ⟨r', hr', rfl⟩ := List.mem_map.1 hr
      rw [Np.tile, List.mem_flatten] at ha
      obtain ⟨l, hl, hal⟩ := ha
      rw [List.eq_of_mem_replicate hl] at hal
      exact hcod r' hr' a hal
  | false =>
    simp only [Bool.false_eq_true, if_false] at hd hsym
    have hd2 : ∀ r ∈ dataDraw, r.length = nframes * Np.countNonzero dat := by intro r hr; rw [hd r hr, Nat.mul_comm]
    apply pilotCalSer_zero s nframes hnf hfl hv coded dmin hmin rx hrx (refNew dataDraw) s.symbols hget (nframes * Np.countNonzero dat) (nframes * Np.countNonzero dat) hNr hNr hd2
    · rw [hsym]; exact hd2
    · rw [hsym, refNew]
      conv_lhs => rw [← List.map_id dataDraw]
      apply List.map_congr_left
      intro r hr
      have := range_mod_tile r _ 1 (hd2 r hr)
      rw [Nat.one_mul] at this
      rw [this]
      simp [Np.tile]
    · rw [hsym]; exact hcod

/-- C133: the same for a signal built from a payload of one frame, or for a single frame. -/
theorem C133_from_array_partial (junk : ℂ) (payload pilots : List (List ℂ)) (N frameLen seqLen rat nframes : Nat) (dat pil : List Bool) (hlay : calPilotIdx frameLen seqLen rat = .ok (dat, pil))
    (hfl : 1 ≤ frameLen) (hnf : 1 ≤ nframes) (hN : ∀ r ∈ payload, r.length = N) (hlong : Np.countNonzero dat ≤ N) (hp : ∀ r ∈ pilots, r.length = Np.countNonzero pil)
    (hm : pilots.length = payload.length) (hdat : 0 < Np.countNonzero dat) (hcase : nframes = 1 ∨ N = Np.countNonzero dat)
    (coded : List ℂ) (dmin : ℝ) (hmin : ∀ (i j : Nat) (a b : ℂ), coded[i]? = some a → coded[j]? = some b → i ≠ j → dmin ≤ ‖a - b‖) (hcod : ∀ r ∈ payload, ∀ a ∈ r, a ∈ coded) :
    ∃ s, pilotFromSymbolArray junk payload N frameLen seqLen rat pilots nframes = .ok s ∧ s.rows.length = payload.length ∧
      ∀ rx, List.Forall₂ (List.Forall₂ fun u v : ℂ => ‖u - v‖ < dmin / 2) rx s.rows →
        pilotCalSer coded { s with rows := rx } (refFromArray payload) (nframes * frameLen) 1 none true = .ok (List.replicate payload.length 0) := by
  obtain ⟨s, hs, hv, hrl, hfl', hget, -⟩ := C21_round_trip junk payload pilots N frameLen seqLen rat nframes dat pil hlay hfl hnf hN hlong hp hm
  subst hfl'
  refine ⟨s, hs, hrl, ?_⟩
  intro rx hrx
  rw [← hrl]
  have hNr : 0 < nframes * Np.countNonzero dat := Nat.mul_pos hnf hdat
  apply pilotCalSer_zero s nframes hnf hfl hv coded dmin hmin rx hrx (refFromArray payload) _ hget N (nframes * Np.countNonzero dat) (by omega) hNr hN
  · intro r hr
    obtain ⟨r', hr', rfl⟩ := List.mem_map.1 hr
    rw [Np.length_tile, List.length_take, hN r' hr', min_eq_left hlong]
  · rw [refFromArray]
    apply List.map_congr_left
    intro r hr
    have htl : (r.take (Np.countNonzero dat)).length = Np.countNonzero dat := by rw [List.length_take, hN r hr, min_eq_left hlong]
    rw [← range_mod_tile (r.take (Np.countNonzero dat)) _ _ htl]
    apply List.map_congr_left
    intro q hq
    rw [List.mem_range] at hq
    rw [List.getD_eq_getElem?_getD, List.getD_eq_getElem?_getD, List.getElem?_take_of_lt (Nat.mod_lt _ hdat)]
    rcases hcase with h | h
    · rw [h, Nat.one_mul] at hq
      rw [Nat.mod_eq_of_lt hq, Nat.mod_eq_of_lt (by omega)]
    · rw [h]
  · intro r hr a ha
    obtain ⟨r', hr', rfl⟩ := List.mem_map.1 hr
    rw [Np.tile, List.mem_flatten] at ha
    obtain ⟨l, hl, hal⟩ := ha
    rw [List.eq_of_mem_replicate hl] at hal
    exact hcod r' hr' a (List.mem_of_mem_take hal)

/-- C133 as a user expects it: an undisturbed signal with pilots has no symbol errors. -/
def C133_statement : Prop := ∀ (junk : ℂ) (payload pilots : List (List ℂ)) (N frameLen seqLen rat nframes : Nat) (s : PilotSignal ℂ) (coded : List ℂ), 1 ≤ nframes → coded.Nodup →
  (∀ r ∈ payload, r.length = N) → (∀ r ∈ payload, ∀ a ∈ r, a ∈ coded) → pilotFromSymbolArray junk payload N frameLen seqLen rat pilots nframes = .ok s →
  ∀ v, pilotCalSer coded s (refFromArray payload) (nframes * frameLen) 1 none true = .ok v → ∀ x ∈ v, x = 0

/-- A payload longer than the frame needs is compared as a whole, not the part in the frame, as soon as there are two frames. -/
theorem C133_false : ¬ C133_statement := by
  intro h
  have hs : pilotFromSymbolArray (0 : ℂ) [[1, -1]] 2 2 1 0 [[1]] 2 = .ok { rows := [[1, 1, 1, 1]], frameLen := 2, seqLen := 1, insRat := 0, symbols := [[1]], pilots := [[1]], idxDat := [false, true], idxPil := [true, false] } := by
    rfl
  obtain ⟨v, h1, h2, h3⟩ := C132_ser_partial (fun _ n => if n = 0 then 1 else -1) (fun _ _ => 1) 1 1 2 2 (by norm_num) (by norm_num) (le_refl _) [1, -1] (by simp)
  obtain ⟨dd, hdd, hv⟩ := h3 0 (by norm_num)
  have hg : pilotCalSer [1, -1] { rows := [[1, 1, 1, 1]], frameLen := 2, seqLen := 1, insRat := 0, symbols := [[1]], pilots := [[1]], idxDat := [false, true], idxPil := [true, false] } (refFromArray [[1, -1]]) (2 * 2) 1 none true = .ok v := by
    exact h1
  have h0 := h 0 [[1, -1]] [[1]] 2 2 1 0 2 _ [1, -1] (by norm_num) (by simp; norm_num) (by simp) (by simp) hs v hg _ (List.mem_of_getElem? hv)
  obtain ⟨d', hd', hdt⟩ := C16_recovers [1, -1] 2 (by
    intro i j s t hi hj hij
    match i, j with
    | 0, 0 => simp at hij
    | 0, 1 => simp at hi hj; subst hi hj; norm_num
    | 1, 0 => simp at hi hj; subst hi hj; norm_num
    | 1, 1 => simp at hij
    | i + 2, _ => simp at hi
    | _, j + 2 => simp at hj) [1, 1] [1, 1] rfl (by simp) (by
      intro n s x h1 h2
      rw [h1] at h2
      cases h2
      simp)
  have e : ((List.range 2).map fun _ : Nat => (1 : ℂ)) = [1, 1] := rfl
  rw [e, hd'] at hdd
  cases hdd
  rw [div_eq_zero_iff] at h0
  rcases h0 with h0 | h0
  · rw [Nat.cast_eq_zero, Finset.card_eq_zero] at h0
    have h4 : (1 : Nat) ∈ (Finset.range 2).filter fun n => (dd[n]?).map (·.1) ≠ some (if n % 2 = 0 then (1 : ℂ) else -1) := by
      rw [Finset.mem_filter]
      refine ⟨by simp, ?_⟩
      have h5 : (dd.map (·.1))[1]? = some 1 := by rw [hdt]; rfl
      rw [List.getElem?_map] at h5
      rw [h5]
      norm_num
    rw [h0] at h4
    simp at h4
  · norm_num at h0

/-- Non-vacuity: two frames of two modes with repeated data, received with an error of 1/4 at each sample. -/
example : ∃ s, pilotNew (0 : ℂ) 3 1 0 2 [[1], [-1]] [[1, -1], [-1, -1]] true true = .ok s ∧
    pilotCalSer [1, -1] { s with rows := s.rows.map fun r => r.map (· + 1 / 4) } (refNew [[1, -1], [-1, -1]]) (2 * 3) 1 none true = .ok [0, 0] := by
  obtain ⟨s, hs, -, h⟩ := C133_new_partial 0 3 1 0 2 [[1], [-1]] [[1, -1], [-1, -1]] true [false, true, true] [true, false, false] rfl (by norm_num) (by norm_num) rfl (by decide)
    (by simp [Np.countNonzero]) (by simp [Np.countNonzero]) [1, -1] 2 (by
    intro i j s t hi hj hij
    match i, j with
    | 0, 0 => simp at hij
    | 0, 1 => simp at hi hj; subst hi hj; norm_num
    | 1, 0 => simp at hi hj; subst hi hj; norm_num
    | 1, 1 => simp at hij
    | i + 2, _ => simp at hi
    | _, j + 2 => simp at hj) (by simp)
  refine ⟨s, hs, h _ ?_⟩
  rw [List.forall₂_map_left_iff, List.forall₂_same]
  intro r _
  rw [List.forall₂_map_left_iff, List.forall₂_same]
  intro a _
  norm_num

/-! ### C134 -/

/-- C134: handing the estimated SNRs over in dB gives the GMI of the default, which uses the estimate itself. -/
theorem C134_own_estimate_partial (k : Nat) (coded : List ℂ) (bitsMap : List (List ℂ × List ℂ)) (minmax synced : Bool) (symbols rx t r : List (List ℂ)) (l : List (ℝ × ℝ × ℝ))
    (hal : alignRows synced symbols rx = .ok (t, r)) (hr : r.length = rx.length) (hest : estSnrRows coded true t r = .ok l) (hpos : ∀ q ∈ l, 0 < q.1) :
    calGmiRows k coded bitsMap minmax synced (some (l.map fun q => 10 * Real.logb 10 q.1)) symbols rx = calGmiRows k coded bitsMap minmax synced none symbols rx := by
  have hlen : l.length = r.length := by
    have key : ∀ {α β : Type} (f : α → Except PyErr β) (a : List α) (b : List β), a.mapM f = .ok b → b.length = a.length := by
      intro α β f a
      induction a with
      | nil => intro b hb; cases hb; rfl
      | cons x a ih =>
        intro b hb
        rw [List.mapM_cons] at hb
        cases hx : f x with
        | error e => rw [hx] at hb; cases hb
        | ok y =>
          cases ha : a.mapM f with
          | error e => rw [hx, ha] at hb; cases hb
          | ok z =>
            rw [hx, ha] at hb
            cases hb
            simp [ih z ha]
    unfold estSnrRows at hest
    cases hA : alignRows true t r with
    | error e => rw [hA] at hest; cases hest
    | ok p =>
      rw [hA] at hest
      have := key _ _ _ hest
      simpa using this
  have h1 : snrArg coded (some (l.map fun q => 10 * Real.logb 10 q.1)) t r rx.length = snrArg coded none t r rx.length := by
    unfold snrArg
    dsimp only
    rw [if_neg (by rw [List.length_map]; omega), hest, List.map_map]
    simp only [Except.map]
    congr 1
    apply List.map_congr_left
    intro q hq
    simp only [Function.comp]
    rw [mul_div_cancel_left₀ _ (by norm_num : (10 : ℝ) ≠ 0), Real.rpow_logb (by norm_num) (by norm_num) (hpos q hq)]
  simp only [calGmiRows, hal, bind, Except.bind, h1]

/-- The estimate used in the examples: mean power 1 and noise power 1. -/
theorem estimateSnr_example : estimateSnr [2, 0, 0, -2] [1, 1, -1, -1] [1, -1] = some (1, 1, 1) := by
  have hone : (1 : ℂ) ≠ -1 := by norm_num
  have hone' : (-1 : ℂ) ≠ 1 := by norm_num
  have h1 : selSymbs [2, 0, 0, -2] [1, 1, -1, -1] 1 = [2, 0] := by simp [selSymbs, hone']
  have h2 : selSymbs [2, 0, 0, -2] [1, 1, -1, -1] (-1) = [0, -2] := by simp [selSymbs, hone]
  have e1 : snrTerm [2, 0, 0, -2] [1, 1, -1, -1] 1 = some (1 / 2, 1 / 2) := by
    simp only [snrTerm, h1, cmean]
    norm_num
  have e2 : snrTerm [2, 0, 0, -2] [1, 1, -1, -1] (-1) = some (1 / 2, 1 / 2) := by
    simp only [snrTerm, h2, cmean]
    norm_num
  simp only [estimateSnr, List.mapM_cons, List.mapM_nil, e1, e2]
  norm_num

theorem estSnrRows_example : estSnrRows [1, -1] true [[1, 1, -1, -1]] [[2, 0, 0, -2]] = .ok [(1, 1, 1)] := by
  simp only [estSnrRows, if_true, bind, Except.bind, alignRows]
  have : adjustOnly [[1, 1, -1, -1]] [[(2 : ℂ), 0, 0, -2]] = .ok ([[1, 1, -1, -1]], [[2, 0, 0, -2]]) := by simp [adjustOnly]
  rw [this]
  simp [estimateSnr_example, pure, Except.pure, bind, Except.bind]

example (bitsMap : List (List ℂ × List ℂ)) : calGmiRows 1 [1, -1] bitsMap false true (some ([((1 : ℝ), (1 : ℝ), (1 : ℝ))].map fun q => 10 * Real.logb 10 q.1)) [[1, 1, -1, -1]] [[2, 0, 0, -2]] =
    calGmiRows 1 [1, -1] bitsMap false true none [[1, 1, -1, -1]] [[2, 0, 0, -2]] := by
  apply C134_own_estimate_partial 1 [1, -1] bitsMap false true _ _ [[1, 1, -1, -1]] [[2, 0, 0, -2]] _ _ rfl estSnrRows_example (by simp)
  simp [alignRows, adjustOnly]

/-- The GMI of a signal with pilots raises ValueError for every signal of at least two frames. -/
theorem C134_multi_frame_raises (k : Nat) (coded codedP : List ℂ) (bitsMap : List (List ℂ × List ℂ)) (s : PilotSignal ℂ) (ref refP : List (List ℂ)) (n : Nat) (hn : 2 ≤ n) (hf : 2 ≤ s.frameLen)
    (hv : ValidFrames s n) (hrow : s.rows ≠ []) (synced : Bool) (snr : Option (List ℝ)) (usePilotSnr : Bool) (h : ¬ (usePilotSnr ∧ snr ≠ none)) :
    pilotCalGmi k coded codedP bitsMap s ref refP (n * s.frameLen) 1 none synced snr usePilotSnr = .error .value := by
  have hne : List.range n ≠ [] := by
    intro h
    have := congrArg List.length h
    simp at this
    omega
  have hmax : (List.range n).max? ≠ some 0 := by
    intro h0
    have := (List.max?_le_iff h0).1 le_rfl 1 (List.mem_range.2 (by omega))
    omega
  unfold pilotCalGmi
  rw [if_neg h, nFrames_one n _ (by omega)]
  simp only [Option.getD_none]
  rw [C22_multi_frame_fails s n hn hf hv hrow (List.range n) hne (fun f hf => List.mem_range.1 hf), if_neg hmax]
  rfl

example : ValidFrames ({ rows := [[1, 1, 1, -1]], frameLen := 2, seqLen := 1, insRat := 0, symbols := [[1]], pilots := [[1]], idxDat := [false, true], idxPil := [true, false] } : PilotSignal ℂ) 2 := ⟨rfl, by simp⟩

/-- C134 as a user expects it: with `use_pilot_snr=True` the SNR estimated from the pilots is used. -/
def C134_statement : Prop := ∀ (k : Nat) (coded codedP : List ℂ) (bitsMap : List (List ℂ × List ℂ)) (s : PilotSignal ℂ) (ref refP : List (List ℂ)) (L : Nat) (synced : Bool) (p : List (ℝ × ℝ × ℝ)),
  pilotEstSnr coded codedP s ref refP L 1 none true true = .ok p → (∀ q ∈ p, 0 < q.1) →
  pilotCalGmi k coded codedP bitsMap s ref refP L 1 none synced none true = pilotCalGmi k coded codedP bitsMap s ref refP L 1 none synced (some (p.map fun q => 10 * Real.logb 10 q.1)) false

/-- The linear estimate is taken for a value in dB. -/
theorem C134_linear_as_db (k : Nat) (coded codedP : List ℂ) (bitsMap : List (List ℂ × List ℂ)) (s : PilotSignal ℂ) (ref refP : List (List ℂ)) (L os : Nat) (frames : Option (List Nat)) (synced : Bool) (p : List (ℝ × ℝ × ℝ))
    (h : pilotEstSnr coded codedP s ref refP L os none true true = .ok p) :
    pilotCalGmi k coded codedP bitsMap s ref refP L os frames synced none true = pilotCalGmi k coded codedP bitsMap s ref refP L os frames synced (some (p.map (·.1))) false := by
  unfold pilotCalGmi
  rw [if_neg (by simp), if_neg (by simp)]
  cases nFrames L os s.frameLen with
  | error e => rfl
  | ok n =>
    simp only [h, bind, Except.bind, if_true, Bool.false_eq_true, if_false]

theorem C134_false : ¬ C134_statement := by
  intro h
  obtain ⟨s, hs⟩ : ∃ s : PilotSignal ℂ, s = { rows := [[2, 0, 0, -2, 1]], frameLen := 5, seqLen := 4, insRat := 0, symbols := [[1]], pilots := [[1, 1, -1, -1]], idxDat := [false, false, false, false, true], idxPil := [true, true, true, true, false] } := ⟨_, rfl⟩
  have hpil : extractPilots s 5 1 none = .ok [[2, 0, 0, -2]] := by rw [hs]; rfl
  have hdat : getData s 5 1 (some (List.range 1)) = .ok [[1]] := by rw [hs]; rfl
  have hone : (1 : ℂ) ≠ -1 := by norm_num
  have hsnr : pilotEstSnr [1, -1] [1, -1] s [[1]] [[1, 1, -1, -1]] 5 1 none true true = .ok [(1, 1, 1)] := by
    simp only [pilotEstSnr, if_true, hpil, bind, Except.bind]
    exact estSnrRows_example
  have hdem : demodulate 1 [1, -1] [(1 : ℂ)] = some [false] := by
    exact C15_demodulate_modulate 1 [1, -1] rfl (by simp [hone]) [false]
  have hgmi : ∀ x : ℝ, gmiMode 1 [1, -1] [([1], [-1])] false [1] [1] x = .ok (1 - Real.logb 2 (1 + Real.exp (-(4 * x)))) := by
    intro x
    simp only [gmiMode, hdem]
    have e : bitRows 1 [false] = [[false]] := rfl
    rw [e]
    have e2 : ‖(-1 : ℂ) - 1‖ = 2 := by norm_num
    simp [calGmi, gmiPerBit, softLValueDemapper, calLValues, e2]
    congr 3
    ring
  have hval : ∀ x : ℝ, pilotCalGmi 1 [1, -1] [1, -1] [([1], [-1])] s [[1]] [[1, 1, -1, -1]] 5 1 none true (some [x]) false = .ok [1 - Real.logb 2 (1 + Real.exp (-(4 * (10 : ℝ) ^ (x / 10))))] := by
    intro x
    unfold pilotCalGmi
    rw [if_neg (by simp)]
    have hnf : nFrames 5 1 s.frameLen = .ok 1 := by rw [hs]; rfl
    rw [hnf]
    simp only [Option.getD_none, hdat, bind, Except.bind, Bool.false_eq_true, if_false, calGmiRows, alignRows, if_true]
    have : adjustOnly [[1]] [[(1 : ℂ)]] = .ok ([[1]], [[1]]) := by simp [adjustOnly]
    rw [this]
    simp [snrArg, hgmi, pure, Except.pure, bind, Except.bind]
  have h0 := h 1 [1, -1] [1, -1] [([1], [-1])] s [[1]] [[1, 1, -1, -1]] 5 true _ hsnr (by simp)
  rw [C134_linear_as_db 1 [1, -1] [1, -1] [([1], [-1])] s [[1]] [[1, 1, -1, -1]] 5 1 none true _ hsnr] at h0
  simp only [List.map_cons, List.map_nil] at h0
  rw [hval, hval] at h0
  have h1 := List.head_eq_of_cons_eq (Except.ok.inj h0)
  have h2 : Real.logb 2 (1 + Real.exp (-(4 * (10 : ℝ) ^ ((1 : ℝ) / 10)))) = Real.logb 2 (1 + Real.exp (-(4 * (10 : ℝ) ^ (10 * Real.logb 10 1 / 10)))) := by linarith
  have h3 := Real.logb_injOn_pos (b := 2) (by norm_num) (Set.mem_Ioi.2 (by positivity)) (Set.mem_Ioi.2 (by positivity)) h2
  have h4 := Real.exp_injective (add_left_cancel h3)
  have h5 : (10 : ℝ) ^ ((1 : ℝ) / 10) = 1 := by
    rw [Real.logb_one] at h4
    norm_num at h4 ⊢
    linarith
  have h6 : (1 : ℝ) < (10 : ℝ) ^ ((1 : ℝ) / 10) := Real.one_lt_rpow (by norm_num) (by norm_num)
  linarith

end Qampy
