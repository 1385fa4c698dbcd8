import Verif.Model.PilotObject
import Verif.Props.Pilots
import Verif.Props.Carrier

/-!
C147: calls of `SignalWithPilots.from_symbol_array` do not influence each other. C148: the pilot scale. C149: `corr_foe`.
-/

namespace Qampy

open Complex

/-! ### C147 -/

/-- The statement of C147: what a call returns does not depend on the calls made before it, nor are the dictionaries of the caller changed. -/
def C147_statement : Prop := ∀ (heap : KwHeap) (cs : List FromArrayCall) (c : FromArrayCall),
  (fromArrayCall (heapAfter heap cs) c).2 = (fromArrayCall heap c).2 ∧ heapAfter heap cs = heap

/-- The orders a history of calls tries to store in the dictionary `r`. -/
def storesOf (cs : List FromArrayCall) (r : Nat) : List Nat := cs.filterMap fun c => if c.ref = r ∧ c.long = true then c.m else none

theorem heapAfter_eq (cs : List FromArrayCall) : ∀ (heap : KwHeap) (r : Nat), heapAfter heap cs r = (heap r).or (storesOf cs r).head? := by
  induction cs with
  | nil => intro heap r; simp [heapAfter, storesOf]
  | cons c cs ih =>
    intro heap r
    have hstep : heapAfter heap (c :: cs) r = heapAfter (fromArrayCall heap c).1 cs r := rfl
    rw [hstep, ih]
    by_cases hl : c.long = true
    · by_cases hr : c.ref = r
      · cases hm : c.m with
        | none =>
          have e : storesOf (c :: cs) r = storesOf cs r := by simp [storesOf, hm, hl, hr]
          simp [fromArrayCall, hl, hm, e]
        | some m =>
          have e : storesOf (c :: cs) r = m :: storesOf cs r := by simp [storesOf, hm, hl, hr]
          rw [e]
          cases hh : heap c.ref with
          | none =>
            subst hr
            simp [fromArrayCall, hl, hm, hh]
          | some k => simp [fromArrayCall, hl, hm, hh, ← hr]
      · have e : storesOf (c :: cs) r = storesOf cs r := by simp [storesOf, hr]
        rw [e]
        have hne : ¬ r = c.ref := fun h => hr h.symm
        cases hm : c.m with
        | none => simp [fromArrayCall, hl, hm]
        | some m =>
          cases hh : heap c.ref with
          | none => simp [fromArrayCall, hl, hm, hh, hne]
          | some k => simp [fromArrayCall, hl, hm, hh]
    · have e : storesOf (c :: cs) r = storesOf cs r := by simp [storesOf, hl]
      rw [e]
      simp [fromArrayCall, hl]

/-- C147: once some call with an order `M` has used a dictionary (for instance the default one, by leaving out the argument), every later call with an order and the same dictionary raises
AssertionError, whatever happened in between and although each of the calls is correct on its own. -/
theorem C147_second_call (heap : KwHeap) (before between : List FromArrayCall) (c d : FromArrayCall) (hc : c.long = true) (hm : c.m ≠ none) (hd : d.m ≠ none) (href : d.ref = c.ref) :
    (fromArrayCall (heapAfter heap (before ++ c :: between)) d).2 = .error .assertion := by
  obtain ⟨mc, hmc⟩ := Option.ne_none_iff_exists'.1 hm
  obtain ⟨md, hmd⟩ := Option.ne_none_iff_exists'.1 hd
  have hs : ∃ k, heapAfter heap (before ++ c :: between) d.ref = some k := by
    rw [heapAfter_eq]
    cases hh : heap d.ref with
    | some k => exact ⟨k, by simp⟩
    | none =>
      have : storesOf (before ++ c :: between) d.ref ≠ [] := by
        intro h0
        have : mc ∈ storesOf (before ++ c :: between) d.ref := by
          simp only [storesOf, List.mem_filterMap]
          exact ⟨c, by simp, by simp [href, hc, hmc]⟩
        rw [h0] at this
        simp at this
      obtain ⟨a, t, ht⟩ := List.exists_cons_of_ne_nil this
      exact ⟨a, by simp [ht]⟩
  obtain ⟨k, hk⟩ := hs
  unfold fromArrayCall
  by_cases hl : d.long = false
  · simp [hl]
  · simp [hl, hmd, hk]

/-- C147: a call that gives no order, with the same dictionary and a plain array, takes the order of the first call that gave one instead of finding it from its own symbols. -/
theorem C147_leak (heap : KwHeap) (before between : List FromArrayCall) (c d : FromArrayCall) (m : Nat) (hempty : heap c.ref = none) (hbefore : ∀ b ∈ before, b.ref = c.ref → b.m = none ∨ b.long = false)
    (hc : c.long = true) (hm : c.m = some m) (href : d.ref = c.ref) (hd : d.m = none) (hdl : d.long = true) (hdp : d.plain = true) :
    (fromArrayCall (heapAfter heap (before ++ c :: between)) d).2 = .ok (.given m) ∧ (fromArrayCall heap d).2 = .ok .fromSymbols := by
  have hb : storesOf before c.ref = [] := by
    simp only [storesOf, List.filterMap_eq_nil_iff]
    intro b hbm
    by_cases hr : b.ref = c.ref
    · rcases hbefore b hbm hr with h | h
      · simp [h]
      · simp [h]
    · simp [hr]
  have hk : heapAfter heap (before ++ c :: between) d.ref = some m := by
    rw [heapAfter_eq, href, hempty]
    have : storesOf (before ++ c :: between) c.ref = m :: storesOf between c.ref := by
      have : storesOf (before ++ c :: between) c.ref = storesOf before c.ref ++ storesOf (c :: between) c.ref := by simp [storesOf]
      rw [this, hb]
      simp [storesOf, hc, hm]
    simp [this]
  refine ⟨?_, ?_⟩
  · unfold fromArrayCall
    simp [hdl, hd, hk, hdp, payloadOrder]
  · unfold fromArrayCall
    simp [hdl, hd, href, hempty, hdp, payloadOrder]

/-- C147: a call with a dictionary that no earlier (successful or not) call with an order has used does what it does on its own. -/
theorem C147_fresh_partial (heap : KwHeap) (cs : List FromArrayCall) (c : FromArrayCall) (h : ∀ d ∈ cs, d.ref = c.ref → d.m = none) :
    (fromArrayCall (heapAfter heap cs) c).2 = (fromArrayCall heap c).2 := by
  have hs : storesOf cs c.ref = [] := by
    simp only [storesOf, List.filterMap_eq_nil_iff]
    intro b hbm
    by_cases hr : b.ref = c.ref
    · simp [h b hbm hr]
    · simp [hr]
  have hk : heapAfter heap cs c.ref = heap c.ref := by rw [heapAfter_eq, hs]; simp
  unfold fromArrayCall
  rw [hk]
  by_cases hl : c.long = false
  · simp [hl]
  · cases hm : c.m with
    | none => simp [hl]
    | some m => cases hh : heap c.ref <;> simp [hl]

/-- C147: without an order among the keywords (or with it in the dictionary itself) nothing is stored; the outcome of a program all of whose calls do that is that of the single calls. -/
theorem C147_no_keyword_partial (heap : KwHeap) (cs : List FromArrayCall) (h : ∀ d ∈ cs, d.m = none) : heapAfter heap cs = heap := by
  funext r
  have hs : storesOf cs r = [] := by
    simp only [storesOf, List.filterMap_eq_nil_iff]
    intro b hbm
    simp [h b hbm]
  rw [heapAfter_eq, hs]
  simp

/-- C147: the same correct call twice. -/
theorem C147_false : ¬ C147_statement := by
  intro h
  have h1 := (h (fun _ => none) [⟨0, some 16, true, true⟩] ⟨0, some 16, true, true⟩).1
  exact absurd h1 (by decide)

-- A program that makes a 64-QAM and then a 16-QAM signal, and one that leaves out the order the second time.
example : (fromArrayCall (heapAfter (fun _ => none) [⟨0, some 64, true, true⟩]) ⟨0, some 16, true, true⟩).2 = .error .assertion ∧
    (fromArrayCall (heapAfter (fun _ => none) [⟨0, some 64, true, false⟩]) ⟨0, none, true, true⟩).2 = .ok (.given 64) ∧
    (fromArrayCall (heapAfter (fun _ => none) [⟨1, some 64, true, true⟩]) ⟨2, some 16, true, true⟩).2 = .ok (.given 16) :=
  ⟨C147_second_call (fun _ => none) [] [] ⟨0, some 64, true, true⟩ ⟨0, some 16, true, true⟩ rfl (by simp) (by simp) rfl,
    (C147_leak (fun _ => none) [] [] ⟨0, some 64, true, false⟩ ⟨0, none, true, true⟩ 64 rfl (by simp) rfl rfl rfl rfl rfl rfl).1,
    (C147_fresh_partial (fun _ => none) [⟨1, some 64, true, true⟩] ⟨2, some 16, true, true⟩ (by simp)).trans rfl⟩

/-! ### C148 -/

/-- The statement of C148, after the documentation of both constructions: the pilots of every frame are the drawn (or given) pilots times the pilot scale. -/
def C148_statement : Prop := ∀ (junk : ℂ) (payload : List (List ℂ)) (N frameLen seqLen rat nframes : Nat) (given : Option (List (List ℂ))) (draw : List (List ℂ)) (scale : ℝ) (dat pil : List Bool)
  (s : PilotSignal ℂ), 0 < scale → calPilotIdx frameLen seqLen rat = .ok (dat, pil) → 1 ≤ frameLen → 1 ≤ nframes → (∀ r ∈ payload, r.length = N) →
  (∀ r ∈ given.getD draw, r.length = Np.countNonzero pil) → (given.getD draw).length = payload.length →
  pilotFromSymbolArrayScaled junk payload N frameLen seqLen rat given draw scale nframes = .ok s → ∀ f < nframes,
    extractPilots s (nframes * frameLen) 1 (some [f]) = .ok ((given.getD draw).map fun r => r.map fun x => x * (scale : ℂ))

/-- C148: `SignalWithPilots(..., pilot_scale)` does multiply: the pilots of all frames are the drawn ones times the scale, so their power is that of the drawn ones times the square. -/
theorem C148_new (junk : ℂ) (frameLen seqLen rat nframes : Nat) (pilotDraw dataDraw : List (List ℂ)) (scale : ℝ) (repeatData : Bool) (dat pil : List Bool)
    (hlay : calPilotIdx frameLen seqLen rat = .ok (dat, pil)) (hfl : 1 ≤ frameLen) (hnf : 1 ≤ nframes) (hm : pilotDraw.length = dataDraw.length)
    (hp : ∀ r ∈ pilotDraw, r.length = Np.countNonzero pil)
    (hd : ∀ r ∈ dataDraw, r.length = if repeatData then Np.countNonzero dat else Np.countNonzero dat * nframes) :
    ∃ s, pilotNewScaled junk frameLen seqLen rat nframes pilotDraw dataDraw scale repeatData = .ok s ∧
      getData s (nframes * frameLen) 1 none = .ok (if repeatData then dataDraw.map fun r => Np.tile r nframes else dataDraw) ∧
      extractPilots s (nframes * frameLen) 1 none = .ok (pilotDraw.map fun r => Np.tile (r.map fun x => x * (scale : ℂ)) nframes) := by
  obtain ⟨s, h1, -, -, h4, h5, h6, h7⟩ := C80_new_partial junk frameLen seqLen rat nframes (scaledPilotsNew pilotDraw scale) dataDraw repeatData dat pil hlay hfl hnf (by simp [scaledPilotsNew, hm])
    (by
      intro r hr
      simp only [scaledPilotsNew, List.mem_map] at hr
      obtain ⟨r', hr', rfl⟩ := hr
      rw [List.length_map]
      exact hp r' hr') hd
  refine ⟨s, h1, by rw [h5, h4], ?_⟩
  rw [h7, h6]
  simp [scaledPilotsNew, Function.comp_def]

/-- C148: `from_symbol_array` divides drawn pilots by the square root of the scale, and leaves given ones as they are. -/
theorem C148_from_array (junk : ℂ) (payload : List (List ℂ)) (N frameLen seqLen rat nframes : Nat) (given : Option (List (List ℂ))) (draw : List (List ℂ)) (scale : ℝ) (dat pil : List Bool)
    (hlay : calPilotIdx frameLen seqLen rat = .ok (dat, pil)) (hfl : 1 ≤ frameLen) (hnf : 1 ≤ nframes) (hN : ∀ r ∈ payload, r.length = N) (hlong : Np.countNonzero dat ≤ N)
    (hp : ∀ r ∈ given.getD draw, r.length = Np.countNonzero pil) (hm : (given.getD draw).length = payload.length) :
    ∃ s, pilotFromSymbolArrayScaled junk payload N frameLen seqLen rat given draw scale nframes = .ok s ∧
      getData s (nframes * frameLen) 1 none = .ok (payload.map fun r => Np.tile (r.take (Np.countNonzero dat)) nframes) ∧
      ∀ f < nframes, extractPilots s (nframes * frameLen) 1 (some [f]) =
        .ok (given.getD (draw.map fun r => r.map fun x => x / ((Real.sqrt scale : ℝ) : ℂ))) := by
  obtain ⟨s, h1, -, -, -, h5, h6⟩ := C21_round_trip junk payload (scaledPilotsFromArray given draw scale) N frameLen seqLen rat nframes dat pil hlay hfl hnf hN hlong
    (by
      cases given with
      | some p => exact hp
      | none =>
        intro r hr
        simp only [scaledPilotsFromArray, List.mem_map] at hr
        obtain ⟨r', hr', rfl⟩ := hr
        rw [List.length_map]
        exact hp r' hr')
    (by cases given with
      | some p => exact hm
      | none => simpa [scaledPilotsFromArray] using hm)
  refine ⟨s, h1, h5, fun f hf => ?_⟩
  rw [h6 f hf]
  cases given <;> rfl

/-- C148: with drawn pilots the documented factor is met exactly for a scale of one (unless all pilots are zero): the two constructions disagree for every other positive scale. -/
theorem C148_agree_iff_one (draw : List (List ℂ)) (scale : ℝ) (hs : 0 < scale) (hne : ∃ r ∈ draw, ∃ x ∈ r, x ≠ 0) :
    scaledPilotsFromArray none draw scale = scaledPilotsNew draw scale ↔ scale = 1 := by
  constructor
  · intro h
    obtain ⟨r, hr, x, hx, hx0⟩ := hne
    simp only [scaledPilotsFromArray, scaledPilotsNew] at h
    have h1 := (List.map_inj_left.1 h) r hr
    have h2 := (List.map_inj_left.1 h1) x hx
    have hsq : (Real.sqrt scale) ≠ 0 := (Real.sqrt_pos.2 hs).ne'
    have hsq' : ((Real.sqrt scale : ℝ) : ℂ) ≠ 0 := by exact_mod_cast hsq
    rw [div_eq_iff hsq', mul_assoc] at h2
    have h3 : ((scale : ℝ) : ℂ) * ((Real.sqrt scale : ℝ) : ℂ) = 1 := by
      have : x * (((scale : ℝ) : ℂ) * ((Real.sqrt scale : ℝ) : ℂ)) = x * 1 := by rw [mul_one]; exact h2.symm
      exact mul_left_cancel₀ hx0 this
    have h4 : scale * Real.sqrt scale = 1 := by exact_mod_cast h3
    have h5 : Real.sqrt scale ^ 3 = 1 := by
      have := Real.sq_sqrt hs.le
      calc Real.sqrt scale ^ 3 = Real.sqrt scale ^ 2 * Real.sqrt scale := by ring
        _ = scale * Real.sqrt scale := by rw [this]
        _ = 1 := h4
    have h6 : Real.sqrt scale = 1 := by
      have := (pow_eq_one_iff_of_nonneg (Real.sqrt_nonneg scale) (by norm_num : (3 : ℕ) ≠ 0)).1 h5
      exact this
    have := Real.sq_sqrt hs.le
    rw [h6] at this
    linarith
  · rintro rfl
    simp [scaledPilotsFromArray, scaledPilotsNew]

theorem C148_false : ¬ C148_statement := by
  intro h
  obtain ⟨s, h1, -, h3⟩ := C148_from_array 0 [[1]] 1 2 1 0 1 none [[1]] 4 [false, true] [true, false] (by rfl) (by norm_num) (by norm_num) (by simp) (by decide) (by simp; decide) (by simp)
  have h4 := h 0 [[1]] 1 2 1 0 1 none [[1]] 4 [false, true] [true, false] s (by norm_num) (by rfl) (by norm_num) (by norm_num) (by simp) (by simp; decide) (by simp) h1 0 (by norm_num)
  rw [h3 0 (by norm_num)] at h4
  have h5 : Real.sqrt 4 = 2 := by rw [show (4 : ℝ) = 2 ^ 2 by norm_num]; exact Real.sqrt_sq (by norm_num)
  simp only [h5, Option.getD_none, Except.ok.injEq, List.map_cons, List.map_nil, List.cons.injEq, and_true] at h4
  norm_num at h4

/-- C148: scale one: both constructions use the pilots as drawn or given. -/
theorem C148_unit_partial (given : Option (List (List ℂ))) (draw : List (List ℂ)) : scaledPilotsFromArray given draw 1 = given.getD draw ∧ scaledPilotsNew draw 1 = draw := by
  refine ⟨?_, by simp [scaledPilotsNew]⟩
  cases given <;> simp [scaledPilotsFromArray]

-- A frame of four symbols with two pilots, scale four: the pilots of the constructor have 16 times, those of `from_symbol_array` a quarter of the power.
example : ∃ s t : PilotSignal ℂ, pilotNewScaled 0 4 2 0 1 [[1, -1]] [[1, 1]] 4 true = .ok s ∧ pilotFromSymbolArrayScaled 0 [[1, 1]] 2 4 2 0 none [[1, -1]] 4 1 = .ok t ∧
    extractPilots s 4 1 none = .ok [Np.tile [1 * ((4 : ℝ) : ℂ), -1 * ((4 : ℝ) : ℂ)] 1] ∧
    extractPilots t 4 1 (some [0]) = .ok [[1 / ((Real.sqrt 4 : ℝ) : ℂ), -1 / ((Real.sqrt 4 : ℝ) : ℂ)]] := by
  obtain ⟨s, h1, -, h3⟩ := C148_new 0 4 2 0 1 [[1, -1]] [[1, 1]] 4 true [false, false, true, true] [true, true, false, false] (by rfl) (by norm_num) (by norm_num) rfl (by simp; decide) (by simp; decide)
  obtain ⟨t, g1, -, g3⟩ := C148_from_array 0 [[1, 1]] 2 4 2 0 1 none [[1, -1]] 4 [false, false, true, true] [true, true, false, false] (by rfl) (by norm_num) (by norm_num) (by simp) (by decide)
    (by simp; decide) (by simp)
  exact ⟨s, t, h1, g1, h3, g3 0 (by norm_num)⟩

/-! ### C149 -/

/-- The statement of C149: on a signal with stored offsets, `corr_foe` can be called again (for instance with a further offset that a finer estimate has found) and compensates the sum. -/
def C149_statement : Prop := ∀ (o : FoeObject) (f : List ℝ) (a b : ℝ), o.foe = .found f → f.length = o.rows.length → f ≠ [] →
  ∃ o1 o2, corrFoe o a = (o1, .ok ()) ∧ corrFoe o1 b = (o2, .ok ()) ∧ (corrFoe o (a + b)).1.rows = o2.rows

/-- C149: the first call after `sync2frame` removes the average of the found offsets plus the additional one: a signal with the carrier offset `fo` (Hz at the rate `fs`) in all modes, for which this
sum is right, becomes the signal without offset up to a constant phase. -/
theorem C149_first_partial (sig : List (List ℂ)) (f : List ℝ) (fo fs os additional : ℝ) (hl : f.length = sig.length) (hfo : fo / fs = (f.sum / f.length + additional) / os) :
    ∃ o', corrFoe ⟨sig.map fun r => addCarrierOffset r fo fs, os, .found f⟩ additional = (o', .ok ()) ∧
      o'.rows = sig.map fun r => r.map fun x => x * Complex.exp (-(I * ((2 * Real.pi * (f.sum / f.length + additional) / os : ℝ) : ℂ))) := by
  have h2 := C36_cancel sig (sig.map fun _ => fo) (f.map fun _ => f.sum / f.length + additional) fs os (by simp) (by simp [hl]) (by
    intro l a b ha hb
    rw [List.getElem?_map] at ha hb
    obtain ⟨_, _, rfl⟩ := Option.map_eq_some_iff.1 ha
    obtain ⟨_, _, rfl⟩ := Option.map_eq_some_iff.1 hb
    exact hfo)
  have e1 : List.zipWith (fun r a => addCarrierOffset r a fs) sig (sig.map fun _ => fo) = sig.map fun r => addCarrierOffset r fo fs := by
    rw [List.zipWith_map_right, List.zipWith_self]
  have e2 : (f.map fun _ => f.sum / f.length + additional) = sig.map fun _ => f.sum / f.length + additional := by
    rw [List.map_const', List.map_const', hl]
  rw [e1] at h2
  refine ⟨⟨sig.map fun r => r.map fun x => x * Complex.exp (-(I * ((2 * Real.pi * (f.sum / f.length + additional) / os : ℝ) : ℂ))), os, .zero⟩, ?_, rfl⟩
  rw [e2] at h2
  rw [List.zipWith_map_right, List.zipWith_self] at h2
  unfold corrFoe
  simp only [e2, h2]

/-- C149: before `sync2frame`, and on every object on which `corr_foe` has run, the call raises AttributeError and leaves the object as it is. -/
theorem C149_needs_sync (o : FoeObject) (a : ℝ) (h : ∀ f, o.foe ≠ .found f) : corrFoe o a = (o, .error .attr) := by
  unfold corrFoe
  cases hf : o.foe with
  | absent => rfl
  | zero => rfl
  | found f => exact absurd hf (h f)

/-- C149: after any call, successful or not, on an object with stored offsets the offsets are gone: every further call raises. -/
theorem C149_once (o : FoeObject) (f : List ℝ) (a b : ℝ) (hf : o.foe = .found f) : corrFoe (corrFoe o a).1 b = ((corrFoe o a).1, .error .attr) := by
  apply C149_needs_sync
  intro g
  unfold corrFoe
  rw [hf]
  simp only
  split <;> simp

theorem C149_false : ¬ C149_statement := by
  intro h
  obtain ⟨o1, o2, h1, h2, -⟩ := h ⟨[[1, I]], 1, .found [0]⟩ [0] 0 0 rfl rfl (by simp)
  have h3 := C149_once ⟨[[1, I]], 1, .found [0]⟩ [0] 0 0 rfl
  rw [h1] at h3
  simp only at h3
  rw [h2] at h3
  simp at h3

/-- C149: the moduli of the samples stay as they are, and a common offset of all modes is never turned into different ones: the phase taken off sample `n` is the same in all modes. -/
theorem C149_common (o : FoeObject) (f : List ℝ) (a : ℝ) (hf : o.foe = .found f) (hl : f.length = o.rows.length) :
    ∃ o', corrFoe o a = (o', .ok ()) ∧ ∃ φ : Nat → ℝ, o'.rows = o.rows.map fun r => r.mapIdx fun n x => x * Complex.exp (-(I * (φ n : ℂ))) := by
  have h2 := compFreqOffset_eq o.rows (f.map fun _ => f.sum / f.length + a) o.os (by simp [hl])
  have e2 : (f.map fun _ => f.sum / f.length + a) = o.rows.map fun _ => f.sum / f.length + a := by
    rw [List.map_const', List.map_const', hl]
  obtain ⟨out, hout⟩ : ∃ out, compFreqOffset o.rows (f.map fun _ => f.sum / f.length + a) o.os = .ok out := ⟨_, h2⟩
  refine ⟨⟨out, o.os, .zero⟩, ?_, ?_⟩
  · unfold corrFoe
    rw [hf]
    simp only [hout]
  · rw [hout, e2, List.zipWith_map_right, List.zipWith_self] at h2
    rw [Except.ok.inj h2]
    refine ⟨fun n => 2 * Real.pi * ((n : ℝ) + 1) * (f.sum / f.length + a) / o.os, ?_⟩
    congr 1

-- Two modes at two samples per symbol with different estimates: the average is removed once.
example : ∃ o', corrFoe ⟨[[1, I, -1], [I, 1, 1]].map fun r => addCarrierOffset r 5 20, 2, .found [1 / 4, 1 / 2]⟩ (1 / 8) = (o', .ok ()) ∧ corrFoe o' 0 = (o', .error .attr) := by
  obtain ⟨o', h1, -⟩ := C149_first_partial [[1, I, -1], [I, 1, 1]] [1 / 4, 1 / 2] 5 20 2 (1 / 8) rfl (by norm_num)
  refine ⟨o', h1, ?_⟩
  have := C149_once ⟨[[1, I, -1], [I, 1, 1]].map fun r => addCarrierOffset r 5 20, 2, .found [1 / 4, 1 / 2]⟩ [1 / 4, 1 / 2] (1 / 8) 0 rfl
  rw [h1] at this
  exact this

end Qampy
