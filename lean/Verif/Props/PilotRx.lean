import Verif.Model.PilotRx
import Verif.Props.FrameSync
import Verif.Props.Receiver
import Verif.Props.Modes
import Verif.Props.Pilots
import Verif.Props.Carrier

/-!
C188: the pilot based receiver from the synchronisation to the payload.
-/

namespace Qampy

open Complex (I)

theorem pilotOut_init {E : List (List ℂ)} {p ntaps m a : Nat} (hm : m < p) (hn : 1 ≤ ntaps) : pilotOut E p ntaps (.cplx (initTaps ntaps p)) m a = val2 E m (a + ntaps / 2) := by
  obtain ⟨w, hw1, -, -⟩ := rect_initTaps (K := ℂ) (ntaps := ntaps) hm
  have h := firOutput_init (E := E) (os := 1) (i := a) hm hn hw1
  unfold firOutput at h
  rw [mul_one] at h
  unfold pilotOut
  dsimp only
  rw [List.getD_eq_getElem?_getD, hw1]
  exact h

theorem max?_range {p : Nat} (hp : 1 ≤ p) (g : Nat → Int) : ∃ m < p, ((List.range p).map g).max? = some (g m) := by
  cases h : ((List.range p).map g).max? with
  | none =>
    rw [List.max?_eq_none_iff] at h
    have := congrArg List.length h
    simp at this
    omega
  | some a =>
    obtain ⟨m, hm, rfl⟩ := List.mem_map.1 (List.max?_eq_some_iff.1 h).1
    exact ⟨m, List.mem_range.1 hm, rfl⟩

theorem min?_range {p : Nat} (hp : 1 ≤ p) (g : Nat → Int) : ∃ m < p, ((List.range p).map g).min? = some (g m) := by
  cases h : ((List.range p).map g).min? with
  | none =>
    rw [List.min?_eq_none_iff] at h
    have := congrArg List.length h
    simp at this
    omega
  | some a =>
    obtain ⟨m, hm, rfl⟩ := List.mem_map.1 (List.min?_eq_some_iff.1 h).1
    exact ⟨m, List.mem_range.1 hm, rfl⟩

/-- The shift factors used by training and by filtering of the first frame. -/
theorem first_shifts {p L os fl nt st : Nat} {D t : Nat → Nat} (hp : 1 ≤ p) (hpar : ((nt : Int) - st).natAbs % 2 = 0) (ht : ∀ m < p, (t m : Int) = D m - ((nt : Int) - st) / 2)
    (hlen : ∀ m < p, t m + os * fl + nt ≤ L) (hn : 1 ≤ nt) :
    eqShifts ((List.range p).map fun m => (D m : Int)) L os fl nt st 0 = .ok ((List.range p).map fun m => (t m : Int)) ∧
    pilotShifts ((List.range p).map fun m => (D m : Int)) nt st (os * fl) = .ok ((List.range p).map fun m => (t m : Int)) := by
  have hs : (if nt ≠ st then ((List.range p).map fun m => (D m : Int)).map fun s => s - ((nt : Int) - st) / 2 else (List.range p).map fun m => (D m : Int)) = (List.range p).map fun m => (t m : Int) := by
    split
    · rw [List.map_map]
      apply List.map_congr_left
      intro m hm
      rw [ht m (List.mem_range.1 hm)]
      rfl
    · next h =>
      apply List.map_congr_left
      intro m hm
      rw [ht m (List.mem_range.1 hm), not_not.1 h]
      simp
  constructor
  · have hs' : (if nt ≠ st then ((List.range p).map fun m => (D m : Int)).map fun s => s - ((nt : Int) - st) / 2 + os * fl * (0 : Nat) else (List.range p).map fun m => (D m : Int)) = (List.range p).map fun m => (t m : Int) := by
      rw [← hs]
      congr 1
      apply List.map_congr_left
      intro a _
      simp
    obtain ⟨m, hm, hmax⟩ := max?_range hp fun m => (t m : Int)
    unfold eqShifts
    rw [hs']
    simp only [bind, Except.bind, pure, Except.pure, throw, throwThe, MonadExceptOf.throw]
    rw [if_neg (by omega), hmax]
    simp only
    have h1 := hlen m hm
    have h2 : ((fl : Int) * os) = ((os * fl : Nat) : Int) := by push_cast; ring
    rw [if_neg]
    rw [not_not, h2]
    omega
  · unfold pilotShifts
    simp only
    rw [hs]
    obtain ⟨m, hm, hmin⟩ := min?_range hp fun m => (t m : Int)
    rw [hmin]
    simp only
    rw [if_neg (by omega)]

/-- Filtering the first frame with the initial taps passes the samples at the symbol positions. -/
theorem apply_first {E : List (List ℂ)} {p L os fl nt st : Nat} {D t : Nat → Nat} (hE : Rect E p L) (hp : 1 ≤ p) (hos : 0 < os) (hn : 1 ≤ nt) (hpar : ((nt : Int) - st).natAbs % 2 = 0)
    (ht : ∀ m < p, (t m : Int) = D m - ((nt : Int) - st) / 2) (hlen : ∀ m < p, t m + os * fl + nt ≤ L) :
    ∃ s', applyToPilotSignal E L os fl ((List.range p).map fun m => (D m : Int)) st (.cplx (initTaps nt p)) nt [0] =
      .ok (some ((List.range p).map fun m => (List.range fl).map fun q => val2 E m (D m + q * os + st / 2)), s') := by
  obtain ⟨-, hps⟩ := first_shifts hp hpar ht hlen hn
  have hw : TapsOk p nt (.cplx (initTaps nt p)) := initTaps_rect
  have hsl : ((List.range p).map fun m => (D m : Int)).length = p := by simp
  obtain ⟨m, hm, hmax⟩ := max?_range hp fun m => (t m : Int)
  obtain ⟨r, hr⟩ := (applyToPilotSignal_ok (fl := fl) (os := os) (frames := [0]) (synctaps := st) hE hp hw hsl).2 ⟨hps, 0, _, rfl, hmax, by
    have h1 := hlen m hm
    have h2 : ((os : Int) * fl) = ((os * fl : Nat) : Int) := by push_cast; ring
    rw [h2]
    omega⟩
  refine ⟨(List.range p).map fun m => (t m : Int), ?_⟩
  rw [hr]
  obtain ⟨-, -, out, rfl, h2, h3⟩ := C63_frames hE hp hos hn hw hsl (by
    intro x hx
    obtain ⟨m, hm, rfl⟩ := List.mem_map.1 hx
    have := ht m (List.mem_range.1 hm)
    omega) hr
  congr 3
  apply List.ext_getElem?
  intro m
  by_cases hm : m < p
  · rw [(h3 m (t m) (by simp [hm])).2]
    simp only [List.flatMap_cons, List.flatMap_nil, List.append_nil, List.getElem?_map, List.getElem?_range hm, Option.map_some, Option.some.injEq, Int.toNat_natCast, zero_mul, zero_add]
    apply List.map_congr_left
    intro q _
    rw [pilotOut_init hm hn]
    congr 1
    have := ht m hm
    omega
  · rw [List.getElem?_eq_none (by omega), List.getElem?_eq_none (by simp; omega)]

/-- Equaliser without frequency recovery on perfectly equalised pilots. -/
theorem pilotEqualiser_plain (P : PilotEqParams) {E : List (List ℂ)} {p L fl st : Nat} {D : Nat → Nat} (hE : Rect E p L) (hp : 1 ≤ p) (hos : 0 < P.os) (hn : 1 ≤ P.ntaps)
    (hL : P.ntaps * P.os ≤ P.seqLen * P.os + P.ntaps - 1) (hfl : P.seqLen ≤ fl) (href : Rect P.ref p P.seqLen) (hpar : ((P.ntaps : Int) - st).natAbs % 2 = 0)
    (hpos : ∀ m < p, ((P.ntaps : Int) - st) / 2 ≤ D m) (hlen : ∀ m < p, D m + P.os * fl + st / 2 + (P.ntaps - P.ntaps / 2) ≤ L) (hmix : P.methods.1 ∈ realValued ↔ P.methods.2 ∈ realValued)
    (hperf : ∀ m < p, ∀ i < P.seqLen, ∀ x, at2 E m (D m + i * P.os + st / 2) = some x → StagePerfect P.methods.1 P.symsP none p m i x ∧ StagePerfect P.methods.1 P.symsP (some P.ref) p m i x ∧
      StagePerfect P.methods.2 P.symsP (some P.ref) p m i x ∧ StagePerfect P.methods.2 P.syms4 (some P.ref) p m i x) :
    pilotEqualiser P E L fl ((List.range p).map fun m => (D m : Int)) st false 0 = .ok (some ((List.range p).map fun m => (List.range fl).map fun q => val2 E m (D m + q * P.os + st / 2))) := by
  obtain ⟨t, ht⟩ : ∃ t : Nat → Nat, ∀ m < p, (t m : Int) = D m - ((P.ntaps : Int) - st) / 2 := ⟨fun m => ((D m : Int) - ((P.ntaps : Int) - st) / 2).toNat, fun m hm => by
    have := hpos m hm
    rw [Int.toNat_of_nonneg (by omega)]⟩
  have hlen' : ∀ m < p, t m + P.os * fl + P.ntaps ≤ L := by
    intro m hm
    have h1 := hlen m hm
    have h2 := ht m hm
    omega
  have hpp : ∀ m < p, ∀ i, t m + (i * P.os + P.ntaps / 2) = D m + i * P.os + st / 2 := by
    intro m hm i
    have h2 := ht m hm
    omega
  obtain ⟨h1, -⟩ := first_shifts (os := P.os) hp hpar ht hlen' hn
  have hfits : ∀ m < p, t m + P.seqLen * P.os + P.ntaps ≤ L + 1 := by
    intro m hm
    have := hlen' m hm
    have : P.seqLen * P.os ≤ P.os * fl := by rw [mul_comm]; exact Nat.mul_le_mul_left _ hfl
    omega
  have heq : equalizePilotSequence P E ((List.range p).map fun m => (t m : Int)) false none = .ok (some (initTaps P.ntaps p, List.replicate p 0)) := by
    by_cases hsev : severalValues ((List.range p).map fun m => (t m : Int)) = true
    · refine C143_per_mode_partial P (s := t) hE hp hos hn hL hfits (by intro m hm; simp [hm]) href hsev hmix ?_
      intro m hm i hi x hx
      rw [hpp m hm] at hx
      obtain ⟨a1, a2, a3, a4⟩ := hperf m hm i hi x hx
      rw [hE.1]
      exact ⟨a1, a2, a4⟩
    · have hall : ∀ m < p, t m = t 0 := by
        intro m hm
        unfold severalValues at hsev
        rw [Bool.not_eq_true, List.any_eq_false] at hsev
        have := hsev (t m) (List.mem_map.2 ⟨m, List.mem_range.2 hm, rfl⟩)
        obtain ⟨q, rfl⟩ : ∃ q, p = q + 1 := ⟨p - 1, by omega⟩
        rw [List.range_succ_eq_map] at this
        simpa using this
      refine C143_common_partial P (s := t 0) hE hp hos hn hL (hfits 0 (by omega)) (by
        intro h
        have := congrArg List.length h
        simp at this
        omega) (by
        intro x hx
        obtain ⟨m, hm, rfl⟩ := List.mem_map.1 hx
        rw [hall m (List.mem_range.1 hm)]) hmix ?_
      intro m hm i hi x hx
      rw [← hall m hm, hpp m hm] at hx
      obtain ⟨a1, a2, a3, a4⟩ := hperf m hm i hi x hx
      rw [hE.1]
      exact ⟨a1, a2, a3⟩
  obtain ⟨s', h2⟩ := apply_first hE hp hos hn hpar ht hlen'
  unfold pilotEqualiser
  rw [h1]
  simp only
  rw [heq, thenTry_some]
  simp only [Bool.false_eq_true, if_false]
  rw [h2]
  rfl

theorem compFreq_val {sig : List (List ℂ)} {p N : Nat} (hE : Rect sig p N) (f os : ℝ) :
    ∃ out, compFreqOffset sig (List.replicate p f) os = .ok out ∧ Rect out p N ∧ ∀ m < p, ∀ n < N, val2 out m n = val2 sig m n * Complex.exp (-(I * ((2 * Real.pi * ((n : ℝ) + 1) * f / os : ℝ) : ℂ))) := by
  obtain ⟨g, hg⟩ : ∃ g : List ℂ → List ℂ, g = fun r => r.mapIdx fun (n : Nat) x => x * Complex.exp (-(I * ((2 * Real.pi * ((n : ℝ) + 1) * f / os : ℝ) : ℂ))) := ⟨_, rfl⟩
  have hout : compFreqOffset sig (List.replicate p f) os = .ok (sig.map g) := by
    unfold compFreqOffset
    have h1 : (List.range sig.length).map (fun l => g (sig.getD l [])) = sig.map g := by
      apply List.ext_getElem
      · simp
      · intro i h1 h2
        simp only [List.length_map, List.length_range] at h1
        simp [h1]
    rw [← h1]
    refine mapM_ok fun l hl => ?_
    have hl' := List.mem_range.1 hl
    rw [List.getElem?_replicate, if_pos (by rw [← hE.1]; exact hl'), List.getElem?_eq_getElem hl', hg, List.getD_eq_getElem _ _ hl']
  refine ⟨_, hout, ⟨by simpa using hE.1, ?_⟩, ?_⟩
  · intro r hr
    obtain ⟨q, hq, rfl⟩ := List.mem_map.1 hr
    rw [hg]
    simpa using hE.2 q hq
  · intro m hm n hn
    have hm' : m < sig.length := by rw [hE.1]; exact hm
    have hn' : n < sig[m].length := by rw [hE.2 _ (List.getElem_mem hm')]; exact hn
    unfold val2 at2
    rw [List.getElem?_map, List.getElem?_eq_getElem hm', Option.map_some, Option.bind_some, Option.bind_some, hg, List.getElem?_mapIdx, List.getElem?_eq_getElem hn']
    rfl

/-- Equaliser with frequency recovery on pilots with a frequency offset: the offset is removed up to a constant phase. -/
theorem pilotEqualiser_carrier (P : PilotEqParams) {y E : List (List ℂ)} {p L fl st D : Nat} {f : ℝ} {ref : Nat → Nat → ℂ} (θ : Nat → ℝ) (hy : Rect y p L) (hE : Rect E p L)
    (hrx : ∀ m n, m < p → n < L → val2 E m n = val2 y m n * Complex.exp (I * ((2 * Real.pi * f * n / P.os : ℝ) : ℂ))) (hp : 1 ≤ p) (hos : 0 < P.os) (hn : 1 ≤ P.ntaps)
    (hL : P.ntaps * P.os ≤ P.seqLen * P.os + P.ntaps - 1) (h2 : 2 ≤ P.seqLen) (hfl : P.seqLen ≤ fl) (hpar : ((P.ntaps : Int) - st).natAbs % 2 = 0)
    (hpos : ((P.ntaps : Int) - st) / 2 ≤ D) (hlen : D + P.os * fl + st / 2 + (P.ntaps - P.ntaps / 2) ≤ L)
    (hm1 : P.methods.1 = "cma" ∨ P.methods.1 = "rde") (hm2 : P.methods.2 = "cma" ∨ P.methods.2 = "rde") (hf : |f| < 1 / 2)
    (href : P.ref = (List.range p).map fun m => (List.range P.seqLen).map (ref m)) (href0 : ∀ m < p, ∀ i < P.seqLen, ref m i ≠ 0)
    (hsym : ∀ m < p, ∀ i < P.seqLen, val2 y m (D + i * P.os + st / 2) = ref m i * Complex.exp (I * (θ m : ℂ)))
    (hperf : ∀ m < p, ∀ i < P.seqLen, ∀ x, at2 y m (D + i * P.os + st / 2) = some x → StagePerfect P.methods.1 P.symsP none p m i x ∧ StagePerfect P.methods.1 P.symsP (some P.ref) p m i x ∧
      StagePerfect P.methods.2 P.symsP (some P.ref) p m i x) :
    pilotEqualiser P E L fl ((List.range p).map fun _ => (D : Int)) st true 0 =
      .ok (some ((List.range p).map fun m => (List.range fl).map fun q => val2 y m (D + q * P.os + st / 2) * Complex.exp (I * ((-(2 * Real.pi * f / P.os) : ℝ) : ℂ)))) := by
  obtain ⟨t, ht⟩ : ∃ t : Nat, (t : Int) = D - ((P.ntaps : Int) - st) / 2 := ⟨((D : Int) - ((P.ntaps : Int) - st) / 2).toNat, by rw [Int.toNat_of_nonneg (by omega)]⟩
  have hlen' : t + P.os * fl + P.ntaps ≤ L := by omega
  have hpp : ∀ i, t + (i * P.os + P.ntaps / 2) = D + i * P.os + st / 2 := by intro i; omega
  obtain ⟨h1, -⟩ := first_shifts (L := L) (os := P.os) (fl := fl) (D := fun _ => D) (t := fun _ => t) hp hpar (fun _ _ => ht) (fun _ _ => hlen') hn
  have hfits : t + P.seqLen * P.os + P.ntaps ≤ L + 1 := by
    have : P.seqLen * P.os ≤ P.os * fl := by rw [mul_comm]; exact Nat.mul_le_mul_left _ hfl
    omega
  have heq : equalizePilotSequence P E ((List.range p).map fun _ => (t : Int)) true none = .ok (some (initTaps P.ntaps p, List.replicate p f)) := by
    refine C143_carrier_partial P (s := t) (y := y) (a := fun _ _ => 1) (ref := ref) θ hy hE hrx hp hos hn hL h2 hfits (by
      intro h
      have := congrArg List.length h
      simp at this
      omega) (by
      intro x hx
      obtain ⟨m, hm, rfl⟩ := List.mem_map.1 hx
      rfl) hm1 hm2 hf href href0 (by simp) ?_ ?_
    · intro m hm i hi
      rw [hpp, hsym m hm i hi]
      simp
    · intro m hm i hi x hx
      rw [hpp] at hx
      rw [hy.1]
      exact hperf m hm i hi x hx
  obtain ⟨E', k1, k2, k3⟩ := compFreq_val hE f P.os
  obtain ⟨s', h2⟩ := apply_first (os := P.os) (fl := fl) (D := fun _ => D) (t := fun _ => t) k2 hp hos hn hpar (fun _ _ => ht) (fun _ _ => hlen')
  unfold pilotEqualiser
  rw [h1]
  simp only
  rw [heq, thenTry_some]
  simp only [if_true]
  rw [k1]
  simp only
  rw [h2]
  simp only [Except.map]
  congr 2
  apply List.map_congr_left
  intro m hm
  apply List.map_congr_left
  intro q hq
  have hm' := List.mem_range.1 hm
  have hb : D + q * P.os + st / 2 < L := by
    have h3 : (q + 1) * P.os ≤ P.os * fl := by rw [mul_comm P.os]; exact Nat.mul_le_mul_right _ (List.mem_range.1 hq)
    have h4 : (q + 1) * P.os = q * P.os + P.os := by ring
    omega
  rw [k3 m hm' _ hb, hrx m _ hm' hb, mul_assoc, ← Complex.exp_add]
  congr 2
  have : (P.os : ℂ) ≠ 0 := by exact_mod_cast hos.ne'
  push_cast
  field_simp
  ring

/-- Rows and shift factors sorted by the mode order. -/
theorem sync_sorted {rx : List (List ℂ)} {p L : Nat} {tau D : Nat → Nat} (hE : Rect rx p L) (ht : ∀ l < p, tau l < p) (period : Int) :
    syncToFrame rx ((List.range p).map fun l => (D l : Int)) ((List.range p).map tau) period =
      .ok ((List.range p).map fun m => rx.getD (tau m) [], (List.range p).map fun m => (D (tau m) : Int)) := by
  have hpos : ((List.range p).map fun l => (D l : Int)).map (fun s => if s < 0 then s + period else s) = (List.range p).map fun l => (D l : Int) := by
    rw [List.map_map]
    apply List.map_congr_left
    intro l _
    simp only [Function.comp_apply]
    rw [if_neg (by omega)]
  have hf : ∀ {α : Type} (l : List α) (z : α), l.length = p → fancyIndex ((List.range p).map tau) l = .ok ((List.range p).map fun m => l.getD (tau m) z) := by
    intro α l z hl
    have : (List.range p).map (fun m => l.getD (tau m) z) = ((List.range p).map tau).map fun i => l.getD i z := by rw [List.map_map]; rfl
    unfold fancyIndex
    rw [this]
    refine mapM_ok fun i hi => ?_
    obtain ⟨m, hm, rfl⟩ := List.mem_map.1 hi
    have := ht m (List.mem_range.1 hm)
    rw [List.getElem?_eq_getElem (by omega), List.getD_eq_getElem _ _ (by omega)]
  unfold syncToFrame
  rw [hpos, hf rx [] hE.1, hf _ 0 (by simp)]
  simp only [bind, Except.bind, pure, Except.pure]
  congr 2
  apply List.map_congr_left
  intro m hm
  rw [List.getD_eq_getElem?_getD, List.getElem?_map, List.getElem?_range (ht m (List.mem_range.1 hm))]
  rfl

theorem sorted_rect {rx : List (List ℂ)} {p L : Nat} {tau : Nat → Nat} (hE : Rect rx p L) (ht : ∀ l < p, tau l < p) : Rect ((List.range p).map fun m => rx.getD (tau m) []) p L := by
  refine ⟨by simp, ?_⟩
  intro r hr
  obtain ⟨m, hm, rfl⟩ := List.mem_map.1 hr
  have := ht m (List.mem_range.1 hm)
  rw [List.getD_eq_getElem _ _ (by rw [hE.1]; exact this)]
  exact hE.2 _ (List.getElem_mem _)

theorem sorted_at {rx : List (List ℂ)} {p m n : Nat} {tau : Nat → Nat} (hm : m < p) (hl : tau m < rx.length) : at2 ((List.range p).map fun m => rx.getD (tau m) []) m n = at2 rx (tau m) n := by
  unfold at2
  rw [List.getElem?_map, List.getElem?_range hm, Option.map_some, List.getD_eq_getElem _ _ hl, List.getElem?_eq_getElem hl]

theorem nonzero_sorted (mask : List Bool) : (nonzero mask).Pairwise (· < ·) := by
  unfold nonzero
  exact List.Pairwise.filter _ List.pairwise_lt_range

theorem exceptMapM_spec {α β : Type} {f : α → Except PyErr β} : ∀ {l : List α} {r : List β}, l.mapM f = .ok r → r.length = l.length ∧ ∀ (i : Nat) (a : α), l[i]? = some a → ∃ b, r[i]? = some b ∧ f a = .ok b
  | [], r, h => by
    simp [pure, Except.pure] at h
    subst h
    simp
  | x :: l, r, h => by
    rw [List.mapM_cons] at h
    cases hx : f x with
    | error e => rw [hx] at h; cases h
    | ok b =>
      cases hl : l.mapM f with
      | error e => rw [hx, hl] at h; cases h
      | ok bs =>
        rw [hx, hl] at h
        simp only [bind, Except.bind, pure, Except.pure, Except.ok.injEq] at h
        subst h
        obtain ⟨h1, h2⟩ := exceptMapM_spec hl
        refine ⟨by simp [h1], ?_⟩
        intro i a hi
        cases i with
        | zero => simp only [List.getElem?_cons_zero, Option.some.injEq] at hi; subst hi; exact ⟨b, rfl, hx⟩
        | succ i => exact h2 i a hi

/-- A signal whose pilots are those of its frame: `extract_pilots` of the first frame returns the pilots of the object. -/
theorem frame_pilots {tx : PilotSignal ℂ} (hf : 1 ≤ tx.frameLen) (hex : extractPilots tx tx.frameLen 1 (some [0]) = .ok tx.pilots) :
    tx.pilots.length = tx.rows.length ∧ (∀ q ∈ tx.pilots, q.length = (nonzero tx.idxPil).length) ∧
      ∀ (m : Nat) (r q : List ℂ), tx.rows[m]? = some r → tx.pilots[m]? = some q → ∀ (j i : Nat), (nonzero tx.idxPil)[j]? = some i → r[i]? = q[j]? := by
  have hn := nFrames_one 1 tx.frameLen hf
  rw [one_mul] at hn
  unfold extractPilots framesArg at hex
  rw [hn] at hex
  simp only [List.max?_singleton, Nat.zero_le, if_true, bind, Except.bind, List.flatMap_cons, List.flatMap_nil, List.append_nil, Nat.zero_mul, Nat.add_zero, List.map_id', List.cons_ne_nil, if_false] at hex
  have hrow : ∀ (m : Nat) (r : List ℂ), tx.rows[m]? = some r → ∃ q, tx.pilots[m]? = some q ∧ fancyIndex (nonzero tx.idxPil) r = .ok q := fun m r hr => (exceptMapM_spec hex).2 m r hr
  have hl := (exceptMapM_spec hex).1
  have hfi : ∀ (idx : List Nat) (r q : List ℂ), fancyIndex idx r = .ok q → q.length = idx.length ∧ ∀ (j i : Nat), idx[j]? = some i → r[i]? = q[j]? := by
    intro idx r q h
    refine ⟨(exceptMapM_spec h).1, fun j i hi => ?_⟩
    obtain ⟨x, h1, h2⟩ := (exceptMapM_spec h).2 j i hi
    rw [h1]
    cases hr : r[i]? with
    | none => rw [hr] at h2; cases h2
    | some v => rw [hr] at h2; simpa using h2
  refine ⟨hl, ?_, ?_⟩
  · intro q hq
    obtain ⟨m, hm, rfl⟩ := List.getElem_of_mem hq
    obtain ⟨q', h1, h2⟩ := hrow m _ (List.getElem?_eq_getElem (by omega))
    rw [List.getElem?_eq_getElem hm, Option.some.injEq] at h1
    rw [h1]
    exact (hfi _ _ _ h2).1
  · intro m r q hr hq j i hi
    obtain ⟨q', h1, h2⟩ := hrow m r hr
    rw [hq, Option.some.injEq] at h1
    rw [h1]
    exact (hfi _ _ _ h2).2 j i hi

/-- Pilot based phase recovery of one frame turned by a constant phase in each mode. -/
theorem pilotCpe_frame {tx : PilotSignal ℂ} {numAverage ratio : Nat} {maxBlocks : Option Nat} {useSeq : Bool} (hf : 1 ≤ tx.frameLen) (hv : ValidFrames tx 1)
    (hex : extractPilots tx tx.frameLen 1 (some [0]) = .ok tx.pilots) (hnz : ∀ q ∈ tx.pilots, ∀ x ∈ q, x ≠ 0) (hN : 1 < numAverage) (hr : 1 ≤ ratio)
    (hcount : oddAverage numAverage ≤ (min (maxBlocks.getD (cpePilots tx useSeq).1.length) (cpePilots tx useSeq).1.length + ratio - 1) / ratio) (φ : Nat → ℝ) :
    pilotCpe { tx with rows := tx.rows.mapIdx fun m r => r.map fun x => x * Complex.exp (I * (φ m : ℂ)) } tx.frameLen numAverage ratio maxBlocks 1 useSeq = .ok tx := by
  obtain ⟨h1, h2, h3⟩ := frame_pilots hf hex
  have hrows : ∀ r ∈ tx.rows, r.length = tx.frameLen := fun r hr => by simpa using hv.rows r hr
  have hpl : tx.idxPil.length = tx.frameLen := by
    obtain ⟨e1, e2⟩ := calPilotIdx_ok hv.layout
    rw [e2, e1]; simp
  have hsetup : PilotSetup tx.rows (cpePilots tx useSeq).2 tx.frameLen (cpePilots tx useSeq).1 tx.frameLen 1 := by
    cases useSeq with
    | true =>
      refine ⟨h1, hrows, h2, hnz, nonzero_sorted _, fun i hi => by rw [← hpl]; exact nonzero_lt _ hi, ?_⟩
      intro m r q hr hq f j i x hf' hi hx _
      obtain rfl : f = 0 := by omega
      rw [Nat.zero_mul, Nat.add_zero, h3 m r q hr hq j i hi, hx]
    | false =>
      refine ⟨by simpa [cpePilots] using h1, hrows, ?_, ?_, (nonzero_sorted _).drop, fun i hi => by rw [← hpl]; exact nonzero_lt _ (List.mem_of_mem_drop hi), ?_⟩
      · intro q hq
        obtain ⟨q', hq', rfl⟩ := List.mem_map.1 hq
        simp [cpePilots, h2 q' hq']
      · intro q hq x hx
        obtain ⟨q', hq', rfl⟩ := List.mem_map.1 hq
        exact hnz q' hq' x (List.mem_of_mem_drop hx)
      · intro m r q hr hq f j i x hf' hi hx _
        obtain rfl : f = 0 := by omega
        simp only [cpePilots, Bool.false_eq_true, if_false, List.getElem?_map] at hq hi
        cases hq' : tx.pilots[m]? with
        | none => rw [hq'] at hq; simp at hq
        | some q' =>
          rw [hq', Option.map_some, Option.some.injEq] at hq
          subst hq
          rw [List.getElem?_drop] at hi hx
          rw [Nat.zero_mul, Nat.add_zero, h3 m r q' hr hq' _ i hi, hx]
  obtain ⟨out, g1, g2⟩ := C37_constant_phase_partial tx.rows _ φ tx.frameLen _ tx.frameLen numAverage ratio 1 1 maxBlocks hsetup hN hr le_rfl (by omega) (by rw [one_mul]; exact hcount) (fun _ _ => Or.inr le_rfl)
  unfold pilotCpe
  have e1 : cpePilots { tx with rows := tx.rows.mapIdx fun m r => r.map fun x => x * Complex.exp (I * (φ m : ℂ)) } useSeq = cpePilots tx useSeq := rfl
  rw [e1]
  dsimp only
  rw [g1]
  simp only [Except.map]
  congr 1
  have : tx.rows.map (fun r => r.take (tx.frameLen * 1)) = tx.rows := by
    conv_rhs => rw [← List.map_id tx.rows]
    apply List.map_congr_left
    intro r hr
    rw [mul_one, List.take_of_length_le (by rw [hrows r hr])]
    rfl
  rw [g2, this]

/-- The pilot sequence is at the start of the frame. -/
theorem rows_pilots {tx : PilotSignal ℂ} {m i : Nat} (hf : 1 ≤ tx.frameLen) (hv : ValidFrames tx 1) (hex : extractPilots tx tx.frameLen 1 (some [0]) = .ok tx.pilots) (hseq : tx.seqLen ≤ tx.frameLen)
    (hi : i < tx.seqLen) : val2 (tx.pilots.map fun r => r.take tx.seqLen) m i = val2 tx.rows m i := by
  obtain ⟨h1, h2, h3⟩ := frame_pilots hf hex
  have hidx : (nonzero tx.idxPil)[i]? = some i := by
    obtain ⟨e1, e2⟩ := calPilotIdx_ok hv.layout
    have hpl : tx.idxPil.length = tx.seqLen + (tx.frameLen - tx.seqLen) := by rw [e2, e1]; simp; omega
    unfold nonzero
    rw [hpl, List.range_add, List.filter_append, List.filter_eq_self.2, List.getElem?_append_left (by simpa using hi), List.getElem?_range hi]
    intro a ha
    have ha := List.mem_range.1 ha
    have hpos := C20_layout tx.frameLen tx.seqLen tx.insRat
    rcases hpos with ⟨-, hbad⟩ | ⟨-, dat, pil, hl, -, -, -, hp⟩
    · rw [hv.layout] at hbad; cases hbad
    · rw [hv.layout] at hl
      simp only [Except.ok.injEq, Prod.mk.injEq] at hl
      rw [hl.2]
      simpa using (hp a (by omega)).2 (Or.inl ha)
  unfold val2 at2
  cases hm : tx.rows[m]? with
  | none =>
    rw [List.getElem?_map, List.getElem?_eq_none (show tx.pilots.length ≤ m by rw [h1]; simpa using hm)]
    rfl
  | some r =>
    obtain ⟨q, hq⟩ : ∃ q, tx.pilots[m]? = some q := ⟨_, List.getElem?_eq_getElem (show m < tx.pilots.length by rw [h1]; exact (List.getElem?_eq_some_iff.1 hm).1)⟩
    rw [List.getElem?_map, hq, Option.map_some, Option.bind_some, Option.bind_some, List.getElem?_take, if_pos hi, h3 m r q hm hq i i hidx]

theorem turned_rows {tx : PilotSignal ℂ} (hv : ValidFrames tx 1) {p : Nat} (hp : tx.rows.length = p) (φ : Nat → ℝ) :
    ((List.range p).map fun m => (List.range tx.frameLen).map fun q => val2 tx.rows m q * Complex.exp (I * (φ m : ℂ))) = tx.rows.mapIdx fun m r => r.map fun x => x * Complex.exp (I * (φ m : ℂ)) := by
  apply List.ext_getElem
  · simp [hp]
  · intro m h1 h2
    have hm : m < tx.rows.length := by simpa using h2
    have hl := hv.rows _ (List.getElem_mem hm)
    simp only [List.getElem_map, List.getElem_range, List.getElem_mapIdx]
    apply List.ext_getElem
    · simp [hl]
    · intro q h3 h4
      have hq : q < tx.rows[m].length := by simpa using h4
      simp only [List.getElem_map, List.getElem_range]
      unfold val2 at2
      rw [List.getElem?_eq_getElem hm, Option.bind_some, List.getElem?_eq_getElem hq]
      rfl

/-- What the frame and the settings of the phase recovery have to fulfil: one frame per mode, which carries the pilots of the object at the pilot positions, none of them zero; at least as many pilots are used
as are averaged. -/
structure FrameOk (R : RxSettings) (tx : PilotSignal ℂ) (p : Nat) : Prop where
  hf : 1 ≤ tx.frameLen
  hseq : tx.seqLen ≤ tx.frameLen
  hv : ValidFrames tx 1
  hp : tx.rows.length = p
  hex : extractPilots tx tx.frameLen 1 (some [0]) = .ok tx.pilots
  hnz : ∀ q ∈ tx.pilots, ∀ x ∈ q, x ≠ 0
  hN : 1 < R.numAverage
  hr : 1 ≤ R.ratio
  hcount : oddAverage R.numAverage ≤ (min (R.maxBlocks.getD (cpePilots tx R.useSeq).1.length) (cpePilots tx R.useSeq).1.length + R.ratio - 1) / R.ratio

/-- From the equalised frame on: phase recovery and extraction of the data. -/
theorem receiver_tail (R : RxSettings) {tx : PilotSignal ℂ} {rx : List (List ℂ)} {p L : Nat} (F : FrameOk R tx p) {st : SyncState} {rs : List (List ℂ) × List Int} (φ : Nat → ℝ)
    (h1 : frameSync (R.syncFor tx) rx L (tx.pilots.map fun r => r.take tx.seqLen) tx.seqLen = .ok (some st))
    (h2 : syncToFrame rx st.shifts st.order (tx.frameLen * R.sync.os) = .ok rs)
    (h3 : pilotEqualiser (R.eqFor tx) rs.1 L tx.frameLen rs.2 R.sync.ntaps R.foeComp 0 = .ok (some ((List.range p).map fun m => (List.range tx.frameLen).map fun q => val2 tx.rows m q * Complex.exp (I * (φ m : ℂ))))) :
    pilotReceiver R { tx with rows := rx } L = .ok (some (tx.rows.map fun r => samplesAt r fun q => isData tx.seqLen tx.insRat (q % tx.frameLen))) := by
  rw [turned_rows F.hv F.hp] at h3
  have h4 := pilotCpe_frame F.hf F.hv F.hex F.hnz F.hN F.hr F.hcount φ
  unfold pilotReceiver
  have e1 : R.syncFor { tx with rows := rx } = R.syncFor tx := rfl
  have e2 : R.eqFor { tx with rows := rx } = R.eqFor tx := rfl
  rw [e1]
  rw [h1, thenTry_some]
  dsimp only
  rw [h2]
  dsimp only
  rw [e2, h3, thenTry_some]
  rw [h4]
  have h5 := C21_get_data tx 1 le_rfl F.hf F.hv
  rw [Nat.one_mul] at h5
  dsimp only
  rw [h5]
  rfl

/-- The first sample of the pilots of mode `l` in terms of the search. -/
def pilotStart (S : SyncParams) (seqLen i0 : Nat) (d : Nat → Nat) (l : Nat) : Nat := i0 * searchStep S seqLen - searchWindow S seqLen + d l * S.os

/-- C188: a frame received without noise and distortion, but with the modes swapped (by an involution), at different delays and turned by arbitrary constant phases, is received completely: synchronisation,
training of the equaliser, filtering, phase recovery and extraction of the data return the payload, for any number of modes, any frame, any oversampling, any numbers of taps. -/
theorem C188_payload (R : RxSettings) (tx : PilotSignal ℂ) (rx : List (List ℂ)) {p L i0 T : Nat} {tau d rot : Nat → Nat} {δ c : Nat → ℝ} (φ : Nat → ℝ) (F : FrameOk R tx p)
    (H : UndistortedPilots (R.syncFor tx) rx (tx.pilots.map fun r => r.take tx.seqLen) p L tx.seqLen i0 T tau d rot δ 0 c) (hinv : ∀ l < p, tau (tau l) = l) (hfoe : R.foeComp = false)
    (hframe : ∀ l < p, ∀ q < tx.frameLen, val2 rx l (pilotStart (R.syncFor tx) tx.seqLen i0 d l + q * R.sync.os + R.sync.ntaps / 2) = val2 tx.rows (tau l) q * Complex.exp (I * (φ l : ℂ)))
    (hn : 1 ≤ R.eq.ntaps) (hL : R.eq.ntaps * R.sync.os ≤ tx.seqLen * R.sync.os + R.eq.ntaps - 1) (hpar : ((R.eq.ntaps : Int) - R.sync.ntaps).natAbs % 2 = 0)
    (hpos : ∀ l < p, ((R.eq.ntaps : Int) - R.sync.ntaps) / 2 ≤ pilotStart (R.syncFor tx) tx.seqLen i0 d l)
    (hlen : ∀ l < p, pilotStart (R.syncFor tx) tx.seqLen i0 d l + R.sync.os * tx.frameLen + R.sync.ntaps / 2 + (R.eq.ntaps - R.eq.ntaps / 2) ≤ L)
    (hmix : R.eq.methods.1 ∈ realValued ↔ R.eq.methods.2 ∈ realValued)
    (hperf : ∀ l < p, ∀ i < tx.seqLen, ∀ x, x = val2 tx.rows (tau l) i * Complex.exp (I * (φ l : ℂ)) →
      StagePerfect R.eq.methods.1 R.eq.symsP none p (tau l) i x ∧ StagePerfect R.eq.methods.1 R.eq.symsP (some (R.eqFor tx).ref) p (tau l) i x ∧
      StagePerfect R.eq.methods.2 R.eq.symsP (some (R.eqFor tx).ref) p (tau l) i x ∧ StagePerfect R.eq.methods.2 R.eq.syms4 (some (R.eqFor tx).ref) p (tau l) i x) :
    pilotReceiver R { tx with rows := rx } L = .ok (some (tx.rows.map fun r => samplesAt r fun q => isData tx.seqLen tx.insRat (q % tx.frameLen))) := by
  obtain ⟨st, g1, g2, g3, -⟩ := C150_noiseless_partial (R.syncFor tx) H
  have g4 := sync_sorted (D := pilotStart (R.syncFor tx) tx.seqLen i0 d) H.hE H.ht (tx.frameLen * R.sync.os)
  have hE := sorted_rect H.hE H.ht
  have hval : ∀ m < p, ∀ q < tx.frameLen, val2 ((List.range p).map fun m => rx.getD (tau m) []) m (pilotStart (R.syncFor tx) tx.seqLen i0 d (tau m) + q * R.sync.os + R.sync.ntaps / 2) =
      val2 tx.rows m q * Complex.exp (I * (φ (tau m) : ℂ)) := by
    intro m hm q hq
    have := hframe (tau m) (H.ht m hm) q hq
    rw [hinv m hm] at this
    rw [← this]
    unfold val2
    rw [sorted_at hm (by rw [H.hE.1]; exact H.ht m hm)]
  refine receiver_tail R (rs := ((List.range p).map fun m => rx.getD (tau m) [], (List.range p).map fun m => (pilotStart (R.syncFor tx) tx.seqLen i0 d (tau m) : Int))) F (fun m => φ (tau m)) g1 ?_ ?_
  · rw [g2, g3]
    exact g4
  · rw [hfoe]
    have := pilotEqualiser_plain (R.eqFor tx) (fl := tx.frameLen) (st := R.sync.ntaps) (D := fun m => pilotStart (R.syncFor tx) tx.seqLen i0 d (tau m)) hE H.hp H.hos hn hL F.hseq H.href hpar
      (fun m hm => hpos _ (H.ht m hm)) (fun m hm => hlen _ (H.ht m hm)) hmix (by
        intro m hm i hi x hx
        have hi' : i < tx.seqLen := hi
        have hv := hval m hm i (by have := F.hseq; omega)
        have hx' : val2 ((List.range p).map fun m => rx.getD (tau m) []) m (pilotStart (R.syncFor tx) tx.seqLen i0 d (tau m) + i * R.sync.os + R.sync.ntaps / 2) = x := by
          unfold val2
          change at2 _ m (pilotStart (R.syncFor tx) tx.seqLen i0 d (tau m) + i * R.sync.os + R.sync.ntaps / 2) = some x at hx
          rw [hx]
          rfl
        rw [hx'] at hv
        have := hperf (tau m) (H.ht m hm) i hi' x (by rw [hinv m hm]; exact hv)
        rw [hinv m hm] at this
        exact this)
    dsimp only
    rw [this]
    congr 2
    apply List.map_congr_left
    intro m hm
    apply List.map_congr_left
    intro q hq
    exact hval m (List.mem_range.1 hm) q (List.mem_range.1 hq)

theorem nonzero_take {P : List (List ℂ)} {p n : Nat} (hnz : ∀ q ∈ P, ∀ x ∈ q, x ≠ 0) (h : Rect (P.map fun r => r.take n) p n) {m i : Nat} (hm : m < p) (hi : i < n) :
    val2 (P.map fun r => r.take n) m i ≠ 0 := by
  have hml : m < P.length := by have := h.1; rw [List.length_map] at this; omega
  have hl : (P[m].take n).length = n := h.2 _ (List.mem_map.2 ⟨P[m], List.getElem_mem hml, rfl⟩)
  have hil : i < P[m].length := by rw [List.length_take] at hl; omega
  unfold val2 at2
  rw [List.getElem?_map, List.getElem?_eq_getElem hml, Option.map_some, Option.bind_some, List.getElem?_take, if_pos hi, List.getElem?_eq_getElem hil]
  exact hnz _ (List.getElem_mem hml) _ (List.getElem_mem hil)

/-- C188 with frequency recovery: the received signal is an undistorted one, `y`, with a frequency offset of `f` cycles per symbol, less than a half; pilots at the same sample in all modes, phase blind methods.
The payload is returned. -/
theorem C188_carrier (R : RxSettings) (tx : PilotSignal ℂ) (y rx : List (List ℂ)) {p L i0 T d0 : Nat} {tau d rot : Nat → Nat} {δ : Nat → ℝ} {f : ℝ} {c : Nat → ℝ} (φ : Nat → ℝ) (F : FrameOk R tx p)
    (H : UndistortedPilots (R.syncFor tx) rx (tx.pilots.map fun r => r.take tx.seqLen) p L tx.seqLen i0 T tau d rot δ f c) (hinv : ∀ l < p, tau (tau l) = l) (hfoe : R.foeComp = true)
    (hd : ∀ l < p, d l = d0) (hf : |f| < 1 / 2) (hy : Rect y p L) (hrx : ∀ l n, l < p → n < L → val2 rx l n = val2 y l n * Complex.exp (I * ((2 * Real.pi * f * n / R.sync.os : ℝ) : ℂ)))
    (hframe : ∀ l < p, ∀ q < tx.frameLen, val2 y l (pilotStart (R.syncFor tx) tx.seqLen i0 d l + q * R.sync.os + R.sync.ntaps / 2) = val2 tx.rows (tau l) q * Complex.exp (I * (φ l : ℂ)))
    (hn : 1 ≤ R.eq.ntaps) (hL : R.eq.ntaps * R.sync.os ≤ tx.seqLen * R.sync.os + R.eq.ntaps - 1) (h2 : 2 ≤ tx.seqLen) (hpar : ((R.eq.ntaps : Int) - R.sync.ntaps).natAbs % 2 = 0)
    (hpos : ∀ l < p, ((R.eq.ntaps : Int) - R.sync.ntaps) / 2 ≤ pilotStart (R.syncFor tx) tx.seqLen i0 d l)
    (hlen : ∀ l < p, pilotStart (R.syncFor tx) tx.seqLen i0 d l + R.sync.os * tx.frameLen + R.sync.ntaps / 2 + (R.eq.ntaps - R.eq.ntaps / 2) ≤ L)
    (hm1 : R.eq.methods.1 = "cma" ∨ R.eq.methods.1 = "rde") (hm2 : R.eq.methods.2 = "cma" ∨ R.eq.methods.2 = "rde")
    (hperf : ∀ l < p, ∀ i < tx.seqLen, ∀ x, x = val2 tx.rows (tau l) i * Complex.exp (I * (φ l : ℂ)) →
      StagePerfect R.eq.methods.1 R.eq.symsP none p (tau l) i x ∧ StagePerfect R.eq.methods.1 R.eq.symsP (some (R.eqFor tx).ref) p (tau l) i x ∧
      StagePerfect R.eq.methods.2 R.eq.symsP (some (R.eqFor tx).ref) p (tau l) i x) :
    pilotReceiver R { tx with rows := rx } L = .ok (some (tx.rows.map fun r => samplesAt r fun q => isData tx.seqLen tx.insRat (q % tx.frameLen))) := by
  obtain ⟨st, g1, g2, g3, -⟩ := C150_noiseless_partial (R.syncFor tx) H
  have hp0 := H.hp
  obtain ⟨D, hD⟩ : ∃ D, D = pilotStart (R.syncFor tx) tx.seqLen i0 d 0 := ⟨_, rfl⟩
  have hDl : ∀ l < p, pilotStart (R.syncFor tx) tx.seqLen i0 d l = D := by
    intro l hl
    rw [hD]
    unfold pilotStart
    rw [hd l hl, hd 0 (by omega)]
  have g4 := sync_sorted (D := fun _ => D) H.hE H.ht (tx.frameLen * R.sync.os)
  have hE := sorted_rect H.hE H.ht
  have hEy := sorted_rect hy H.ht
  have hsv : ∀ {z : List (List ℂ)}, Rect z p L → ∀ m < p, ∀ n, val2 ((List.range p).map fun m => z.getD (tau m) []) m n = val2 z (tau m) n := by
    intro z hz m hm n
    unfold val2
    rw [sorted_at hm (by rw [hz.1]; exact H.ht m hm)]
  have hval : ∀ m < p, ∀ q < tx.frameLen, val2 ((List.range p).map fun m => y.getD (tau m) []) m (D + q * R.sync.os + R.sync.ntaps / 2) = val2 tx.rows m q * Complex.exp (I * (φ (tau m) : ℂ)) := by
    intro m hm q hq
    have := hframe (tau m) (H.ht m hm) q hq
    rw [hinv m hm, hDl _ (H.ht m hm)] at this
    rw [← this, hsv hy m hm]
  refine receiver_tail R (rs := ((List.range p).map fun m => rx.getD (tau m) [], (List.range p).map fun m => (D : Int))) F (fun m => φ (tau m) - 2 * Real.pi * f / R.sync.os) g1 ?_ ?_
  · have : st.shifts = (List.range p).map fun _ => (D : Int) := by
      rw [g3]
      apply List.map_congr_left
      intro l hl
      rw [← hDl l (List.mem_range.1 hl)]
      rfl
    rw [g2, this]
    exact g4
  · rw [hfoe]
    have := pilotEqualiser_carrier (R.eqFor tx) (y := (List.range p).map fun m => y.getD (tau m) []) (E := (List.range p).map fun m => rx.getD (tau m) []) (fl := tx.frameLen) (st := R.sync.ntaps) (D := D)
      (ref := fun m i => val2 (tx.pilots.map fun r => r.take tx.seqLen) m i) (f := f) (fun m => φ (tau m)) hEy hE (by
        intro m n hm hn
        rw [hsv H.hE m hm, hsv hy m hm]
        exact hrx _ n (H.ht m hm) hn) H.hp H.hos hn hL h2 F.hseq hpar
      (by rw [hD]; exact hpos 0 (by omega)) (by rw [hD]; exact hlen 0 (by omega)) hm1 hm2 hf (by
        change (tx.pilots.map fun r => r.take tx.seqLen) = (List.range p).map fun m => (List.range tx.seqLen).map fun i => val2 (tx.pilots.map fun r => r.take tx.seqLen) m i
        apply List.ext_getElem
        · rw [H.href.1]; simp
        · intro m h1 h2
          have hl := H.href.2 _ (List.getElem_mem h1)
          apply List.ext_getElem
          · rw [hl]; simp
          · intro i h3 h4
            simp only [List.getElem_map, List.getElem_range]
            unfold val2 at2
            rw [List.getElem?_eq_getElem h1, Option.bind_some, List.getElem?_eq_getElem h3]
            simp) (by
        intro m hm i hi
        exact nonzero_take F.hnz H.href hm hi) (by
        intro m hm i hi
        have hi' : i < tx.seqLen := hi
        rw [rows_pilots F.hf F.hv F.hex F.hseq hi']
        exact hval m hm i (by have := F.hseq; omega)) (by
        intro m hm i hi x hx
        have hi' : i < tx.seqLen := hi
        have hv := hval m hm i (by have := F.hseq; omega)
        have hx' : val2 ((List.range p).map fun m => y.getD (tau m) []) m (D + i * R.sync.os + R.sync.ntaps / 2) = x := by
          unfold val2
          change at2 _ m (D + i * R.sync.os + R.sync.ntaps / 2) = some x at hx
          rw [hx]
          rfl
        rw [hx'] at hv
        have := hperf (tau m) (H.ht m hm) i hi' x (by rw [hinv m hm]; exact hv)
        rw [hinv m hm] at this
        exact this)
    dsimp only
    rw [this]
    congr 2
    apply List.map_congr_left
    intro m hm
    apply List.map_congr_left
    intro q hq
    have h5 := hval m (List.mem_range.1 hm) q (List.mem_range.1 hq)
    change val2 _ m (D + q * R.sync.os + R.sync.ntaps / 2) * Complex.exp (I * ((-(2 * Real.pi * f / R.sync.os) : ℝ) : ℂ)) = _
    rw [h5, mul_assoc, ← Complex.exp_add]
    congr 2
    push_cast
    ring

theorem nonzero_length (m : List Bool) : (nonzero m).length = Np.countNonzero m := by
  induction m with
  | nil => rfl
  | cons b t ih => rw [nonzero_cons]; cases b <;> simp [ih, Np.countNonzero]

theorem fromSymbolArray_attrs {junk : ℂ} {payload pilots : List (List ℂ)} {N frameLen seqLen rat nframes : Nat} {s : PilotSignal ℂ} (hm : pilots.length = payload.length)
    (h : pilotFromSymbolArray junk payload N frameLen seqLen rat pilots nframes = .ok s) : s.pilots = pilots ∧ s.seqLen = seqLen ∧ s.insRat = rat := by
  unfold pilotFromSymbolArray at h
  simp only [bind, Except.bind, pure, Except.pure, hm, if_true] at h
  cases h1 : calPilotIdx frameLen seqLen rat with
  | error e => rw [h1] at h; cases h
  | ok x =>
    rw [h1] at h
    dsimp only at h
    split at h
    · cases h
    · split at h
      · cases h
      · cases h
        exact ⟨rfl, rfl, rfl⟩

/-- C188, the frames which are meant: what `SignalWithPilots.from_symbol_array` makes of any payload and any pilots without zeros is such a frame, its data are the payload. -/
theorem C188_frame (R : RxSettings) (junk : ℂ) (payload pilots : List (List ℂ)) (N frameLen seqLen rat : Nat) (dat pil : List Bool) (hlay : calPilotIdx frameLen seqLen rat = .ok (dat, pil)) (hfl : 1 ≤ frameLen)
    (hseq : seqLen ≤ frameLen) (hN : ∀ r ∈ payload, r.length = N) (hlong : Np.countNonzero dat ≤ N) (hp : ∀ r ∈ pilots, r.length = Np.countNonzero pil) (hm : pilots.length = payload.length)
    (hnz : ∀ q ∈ pilots, ∀ x ∈ q, x ≠ 0) (hav : 1 < R.numAverage) (hr : 1 ≤ R.ratio)
    (hcount : oddAverage R.numAverage ≤ (min (R.maxBlocks.getD (Np.countNonzero pil - if R.useSeq then 0 else seqLen)) (Np.countNonzero pil - if R.useSeq then 0 else seqLen) + R.ratio - 1) / R.ratio) :
    ∃ tx, pilotFromSymbolArray junk payload N frameLen seqLen rat pilots 1 = .ok tx ∧ FrameOk R tx payload.length ∧
      (tx.rows.map fun r => samplesAt r fun q => isData tx.seqLen tx.insRat (q % tx.frameLen)) = payload.map fun r => r.take (Np.countNonzero dat) := by
  obtain ⟨tx, h1, h2, h3, h4, h5, h6⟩ := C21_round_trip junk payload pilots N frameLen seqLen rat 1 dat pil hlay hfl le_rfl hN hlong hp hm
  obtain ⟨a1, a2, a3⟩ := fromSymbolArray_attrs hm h1
  have hex := h6 0 (by omega)
  rw [Nat.one_mul] at h5 hex
  have hidx : tx.idxPil = pil := by
    have := h2.layout
    rw [h4, a2, a3, hlay] at this
    simp only [Except.ok.injEq, Prod.mk.injEq] at this
    exact this.2.symm
  have hc : (cpePilots tx R.useSeq).1.length = Np.countNonzero pil - if R.useSeq then 0 else seqLen := by
    have hl : (nonzero pil).length = Np.countNonzero pil := nonzero_length pil
    unfold cpePilots
    rw [hidx, a2]
    cases R.useSeq <;> simp [hl]
  refine ⟨tx, h1, ⟨by omega, by omega, h2, h3, by rw [h4, a1]; exact hex, by rw [a1]; exact hnz, hav, hr, by rw [hc]; exact hcount⟩, ?_⟩
  have h7 := C21_get_data tx 1 le_rfl (by omega) h2
  rw [Nat.one_mul, h4, h5] at h7
  injection h7 with h7
  rw [h4, ← h7]
  simp [Np.tile]

/-- The frame received in `quietRx`: four pilots, four symbols of payload. -/
noncomputable def quietFrame : PilotSignal ℂ :=
  { rows := [[1, 1, -1, 1, I, -1, -I, 1]], frameLen := 8, seqLen := 4, insRat := 0, symbols := [[I, -1, -I, 1]], pilots := [[1, 1, -1, 1]],
    idxDat := [false, false, false, false, true, true, true, true], idxPil := [true, true, true, true, false, false, false, false] }

noncomputable def quietRxSettings : RxSettings :=
  { sync := quietS, eq := { symsP := eqConst 2, syms4 := eqConst 2, ref := [], seqLen := 0, os := 1, mu := (1 / 100, 1 / 100), ntaps := 1, nIter := 3, adaptive := true, methods := ("cma", "cma") },
    foeComp := false, numAverage := 3, ratio := 1, maxBlocks := none, useSeq := true }

theorem quiet_frame : FrameOk quietRxSettings quietFrame 1 where
  hf := by decide
  hseq := by decide
  hv := ⟨by decide, by simp [quietFrame]⟩
  hp := rfl
  hex := by
    have h := C21_extract_pilots quietFrame 1 (by decide) ⟨by decide, by simp [quietFrame]⟩ [0] (by simp) (by simp)
    refine h.trans ?_
    simp [quietFrame, samplesAt, isData, List.range_succ]
  hnz := by simp [quietFrame]
  hN := by decide
  hr := by decide
  hcount := by decide

/-- Non-vacuity of C188: the payload is received. -/
example : pilotReceiver quietRxSettings { quietFrame with rows := [quietRx] } 16 = .ok (some [[I, -1, -I, 1]]) := by
  have := C188_payload quietRxSettings quietFrame [quietRx] (fun _ => 0) quiet_frame quiet_pilots (by intro l hl; omega) rfl (by
      intro l hl q hq
      obtain rfl : l = 0 := by omega
      have hq : q < 8 := hq
      change val2 [quietRx] 0 (6 + q * 1 + 0) = val2 quietFrame.rows 0 q * _
      interval_cases q <;> simp [val2, at2, quietRx, quietFrame]) (by decide) (by decide) (by decide) (by intro l _; decide +revert) (by intro l _; decide +revert) Iff.rfl (by
      intro l hl i hi x hx
      have h1 : ‖x‖ = 1 := by
        have hi : i < 4 := hi
        rw [hx]
        interval_cases i <;> simp [val2, at2, quietFrame]
      have h0 : 0 < 1 := by omega
      exact ⟨cma_unit h0 _ i h1, cma_unit h0 _ i h1, cma_unit h0 _ i h1, cma_unit h0 _ i h1⟩)
  rw [this]
  simp [quietFrame, samplesAt, isData, List.range_succ]

end Qampy
