import Verif.Model.PilotTrain
import Verif.Props.Driver
import Verif.Props.Receiver
import Verif.Props.Foe
import Verif.Tactics

/-!
C143, C144: training of the equaliser on the pilot sequence.
-/

namespace Qampy

open Complex

theorem thenTry_some {α β : Type} (a : α) (f : α → Except PyErr (Option β)) : thenTry (.ok (some a)) f = f a := rfl

theorem thenTry_eq {α β : Type} {x : Except PyErr (Option α)} {f : α → Except PyErr (Option β)} {b : β} (h : thenTry x f = .ok (some b)) : ∃ a, x = .ok (some a) ∧ f a = .ok (some b) := by
  unfold thenTry at h
  split at h
  · cases h
  · cases h
  · exact ⟨_, rfl, h⟩

/-! ### Training windows -/

/-- A window inside of the signal. -/
theorem pilotWindow_rect (P : PilotEqParams) {rx : List (List ℂ)} {p L s : Nat} (hE : Rect rx p L) (hn : 1 ≤ P.ntaps) (hs : s + P.seqLen * P.os + P.ntaps ≤ L + 1) :
    Rect (pilotWindow P rx s) p (P.seqLen * P.os + P.ntaps - 1) ∧ ∀ (m j : Nat), j < P.seqLen * P.os + P.ntaps - 1 → at2 (pilotWindow P rx s) m j = at2 rx m (s + j) := by
  have hwin : ∀ r ∈ rx, trainSlice r s P.seqLen P.os P.ntaps = (r.drop s).take (P.seqLen * P.os + P.ntaps - 1) := by
    intro r hr
    unfold trainSlice
    refine slice_eq_window r s (P.seqLen * P.os + P.ntaps - 1) ?_ _ ?_
    · rw [hE.2 r hr]; omega
    · push_cast [Nat.cast_sub (show 1 ≤ P.seqLen * P.os + P.ntaps by omega)]
      ring
  refine ⟨⟨by simp [pilotWindow, hE.1], ?_⟩, ?_⟩
  · intro w hw
    obtain ⟨r, hr, rfl⟩ := List.mem_map.1 hw
    rw [hwin r hr, List.length_take, List.length_drop, hE.2 r hr]
    omega
  · intro m j hj
    unfold at2 pilotWindow
    rw [List.getElem?_map]
    cases hm : rx[m]? with
    | none => rfl
    | some r =>
      rw [Option.map_some, Option.bind_some, Option.bind_some, hwin r (List.mem_of_getElem? hm), List.getElem?_take_of_lt hj, List.getElem?_drop]

theorem columns_rect {E : List (List ℂ)} {p L : Nat} (hp : 1 ≤ p) (hE : Rect E p L) : columns E = L := by
  unfold columns
  rcases E with _ | ⟨r, E⟩
  · have := hE.1; simp at this; omega
  · exact hE.2 r (by simp)

/-- The sample `x` is perfectly equalised in the sense of a training with the method, the constellation and the given symbols. -/
def StagePerfect (method : String) (syms : List ℂ) (symbols : Option (List (List ℂ))) (p m i : Nat) (x : ℂ) : Prop :=
  ∃ (rows : List (List ℂ)) (row : List ℂ), reshapeSymbols (generateSymbols method syms) symbols method p = .ok rows ∧ rows[m]? = some row ∧ Perfect method x row i

/-- Training on perfectly equalised samples with the initial taps. -/
theorem train_perfect {syms : List ℂ} {E : List (List ℂ)} {p N os ntaps nIter : Nat} {mu : ℝ} {wxy : Option (List (List (List ℂ)))} {method : String} {adaptive : Bool}
    {symbols : Option (List (List ℂ))} {modes : Option (List Nat)} {ms : List Nat} (hE : Rect E p (N * os + ntaps - 1)) (hp : 1 ≤ p) (hos : 0 < os) (hn : 1 ≤ ntaps) (hL : ntaps * os ≤ N * os + ntaps - 1)
    (hms : chooseModes modes p = .ok ms) (hne : ms ≠ []) (hwx : wxy = none ∨ wxy = some (initTaps ntaps p))
    (hperf : ∀ m ∈ ms, m < p ∧ ∀ i < N, ∀ x, at2 E m (i * os + ntaps / 2) = some x → StagePerfect method syms symbols p m i x) :
    ∃ T, equaliseSignal syms E (columns E) os mu wxy ntaps none nIter method adaptive symbols modes =
        .ok (some { err := List.replicate p (List.replicate (T * nIter) 0), wx := initTaps ntaps p, mu := mu }) := by
  obtain ⟨T, hT, hfit, -⟩ := trainingLen_default hos hn hL
  have hN : 0 < N := by
    rcases Nat.eq_zero_or_pos N with rfl | h
    · have : ntaps * 1 ≤ ntaps * os := Nat.mul_le_mul_left _ hos
      omega
    · exact h
  have hTN : T ≤ N := by
    rcases hfit with h | h
    · omega
    · by_contra hc
      have : N * os ≤ (T - 1) * os := Nat.mul_le_mul_right _ (by omega)
      omega
  have hpos : ∀ i < N, i * os + ntaps / 2 < N * os + ntaps - 1 := by
    intro i hi
    have : (i + 1) * os ≤ N * os := Nat.mul_le_mul_right _ hi
    rw [Nat.add_mul] at this
    omega
  obtain ⟨m0, hm0⟩ := List.exists_mem_of_ne_nil _ hne
  obtain ⟨hm0p, hperf0⟩ := hperf m0 hm0
  obtain ⟨rows, row0, hrows, hrow0, hP0⟩ := hperf0 0 hN _ (at2_of_rect hE hm0p (hpos 0 hN))
  obtain ⟨errf, hmeth, -⟩ := perfect_zero hP0
  have hst : startTaps wxy ntaps p = .ok (initTaps ntaps p) := by
    rcases hwx with rfl | rfl
    · unfold startTaps
      dsimp only
      rw [if_neg (by omega)]
    · unfold startTaps
      dsimp only
      rw [if_pos]
      refine ⟨initTaps_rect.1, List.all_eq_true.2 fun w hw => ?_⟩
      simpa using (initTaps_rect.2 w hw).1
  refine ⟨T, ?_⟩
  have htrain : trainEqualiser errf adaptStep adaptive E T nIter os mu (initTaps ntaps p) ntaps ms rows =
      some { err := List.replicate p (List.replicate (T * nIter) 0), wx := initTaps ntaps p, mu := mu } := by
    refine C29_methods hmeth hE initTaps_rect.1 initTaps_rect.2 (reshape_length hrows) (fun m hm => (hperf m hm).1) hfit ?_
    intro m hm w s hw hs i hi
    obtain ⟨hmp, hpm⟩ := hperf m hm
    rw [firOutput_init hmp hn hw]
    obtain ⟨rows', row', h1, h2, h3⟩ := hpm i (by omega) _ (at2_of_rect hE hmp (hpos i (by omega)))
    rw [hrows] at h1
    injection h1 with h1
    rw [← h1, hs, Option.some.injEq] at h2
    rw [h2]
    exact h3
  unfold equaliseSignal
  rw [hE.1, hms, columns_rect hp hE, hst, hT, hrows, hmeth]
  show Except.ok _ = _
  rw [htrain]

/-- The filter with the initial taps on the trained modes. -/
theorem apply_perfect {syms : List ℂ} {E : List (List ℂ)} {p N os ntaps nIter : Nat} {mu : ℝ} {wxy : Option (List (List (List ℂ)))} {method : String} {adaptive : Bool}
    {symbols : Option (List (List ℂ))} {modes : Option (List Nat)} {ms : List Nat} (hE : Rect E p (N * os + ntaps - 1)) (hp : 1 ≤ p) (hos : 0 < os) (hn : 1 ≤ ntaps) (hL : ntaps * os ≤ N * os + ntaps - 1)
    (hms : chooseModes modes p = .ok ms) (hne : ms ≠ []) (hwx : wxy = none ∨ wxy = some (initTaps ntaps p))
    (hperf : ∀ m ∈ ms, m < p ∧ ∀ i < N, ∀ x, at2 E m (i * os + ntaps / 2) = some x → StagePerfect method syms symbols p m i x) :
    ∃ T, equaliseSignalApply syms E (columns E) os mu wxy ntaps none nIter method adaptive symbols modes =
        .ok (some (ms.map fun m => (List.range N).map fun i => val2 E m (i * os + ntaps / 2), { err := List.replicate p (List.replicate (T * nIter) 0), wx := initTaps ntaps p, mu := mu })) := by
  obtain ⟨T, hT⟩ := train_perfect (mu := mu) (nIter := nIter) (adaptive := adaptive) hE hp hos hn hL hms hne hwx hperf
  refine ⟨T, ?_⟩
  obtain ⟨out, h1, h2, h3, h4⟩ := C24_apply_filter (K := ℂ) (modes := ms) (wx := initTaps ntaps p) (ntaps := ntaps) hE hos (by omega) (by
    intro m hm
    obtain ⟨w, h1, h2, -⟩ := rect_initTaps (K := ℂ) (ntaps := ntaps) (hperf m hm).1
    exact ⟨w, h1, h2⟩)
  have hN : (N * os + ntaps - 1 + 1 - ntaps) / os = N := by
    rw [show N * os + ntaps - 1 + 1 - ntaps = N * os by omega, Nat.mul_div_cancel _ hos]
  rw [hN] at h3 h4
  have hout : out = ms.map fun m => (List.range N).map fun i => val2 E m (i * os + ntaps / 2) := by
    apply List.ext_getElem
    · simpa using h2
    · intro j hj hj'
      have hjm : j < ms.length := by omega
      have hmem := List.getElem_mem hjm
      apply List.ext_getElem
      · rw [h3 _ (List.getElem_mem hj)]; simp
      · intro i hi hi'
        have hiN : i < N := by rw [h3 _ (List.getElem_mem hj)] at hi; exact hi
        obtain ⟨w, hw1, hw2, hw3⟩ := rect_initTaps (K := ℂ) (ntaps := ntaps) (hperf _ hmem).1
        have h5 := (h4 j _ w (List.getElem?_eq_getElem hjm) hw1 i hiN).2
        unfold at2 at h5
        rw [List.getElem?_eq_getElem hj, Option.bind_some, List.getElem?_eq_getElem hi, Option.some.injEq] at h5
        rw [h5]
        simp only [List.getElem_map, List.getElem_range]
        exact firOutput_init (hperf _ hmem).1 hn hw1
  unfold equaliseSignalApply
  rw [hE.1, hms, hT]
  show Except.ok (Option.map _ (applyFilterToSignal E (columns E) os (initTaps ntaps p) ntaps ms)) = _
  rw [columns_rect hp hE, h1, hout]
  rfl

/-- The samples of mode `m` at the symbol positions of a window are perfectly equalised for a training. -/
def WindowPerfect (P : PilotEqParams) (method : String) (syms : List ℂ) (symbols : Option (List (List ℂ))) (E : List (List ℂ)) (m : Nat) : Prop :=
  ∀ i < P.seqLen, ∀ x, at2 E m (i * P.os + P.ntaps / 2) = some x → StagePerfect method syms symbols E.length m i x

/-- The same for the received signal with shift factor `s`, and for the three trainings of `equalize_pilot_sequence`; `syms2` is the constellation of the last one. -/
def PilotPerfect (P : PilotEqParams) (syms2 : List ℂ) (rx : List (List ℂ)) (s m : Nat) : Prop :=
  ∀ i < P.seqLen, ∀ x, at2 rx m (s + (i * P.os + P.ntaps / 2)) = some x →
    StagePerfect P.methods.1 P.symsP none rx.length m i x ∧ StagePerfect P.methods.1 P.symsP (some P.ref) rx.length m i x ∧ StagePerfect P.methods.2 syms2 (some P.ref) rx.length m i x

theorem secondTrain_perfect (P : PilotEqParams) {syms2 : List ℂ} {E : List (List ℂ)} {p : Nat} {modes : Option (List Nat)} {ms : List Nat} (hE : Rect E p (P.seqLen * P.os + P.ntaps - 1)) (hp : 1 ≤ p)
    (hos : 0 < P.os) (hn : 1 ≤ P.ntaps) (hL : P.ntaps * P.os ≤ P.seqLen * P.os + P.ntaps - 1) (hms : chooseModes modes p = .ok ms) (hne : ms ≠ [])
    (hperf : ∀ m ∈ ms, m < p ∧ WindowPerfect P P.methods.1 P.symsP (some P.ref) E m ∧ WindowPerfect P P.methods.2 syms2 (some P.ref) E m) :
    secondTrain P syms2 E modes (initTaps P.ntaps p) = .ok (some (initTaps P.ntaps p)) := by
  obtain ⟨T, h1⟩ := train_perfect (mu := P.mu.1) (nIter := P.nIter) (adaptive := P.adaptive) (symbols := some P.ref) (syms := P.symsP) (method := P.methods.1) hE hp hos hn hL hms hne (Or.inr rfl)
    (fun m hm => ⟨(hperf m hm).1, fun i hi x hx => by have := (hperf m hm).2.1 i hi x hx; rw [hE.1] at this; exact this⟩)
  obtain ⟨T', h2⟩ := train_perfect (mu := P.mu.2) (nIter := P.nIter) (adaptive := P.adaptive) (symbols := some P.ref) (syms := syms2) (method := P.methods.2) hE hp hos hn hL hms hne (Or.inr rfl)
    (fun m hm => ⟨(hperf m hm).1, fun i hi x hx => by have := (hperf m hm).2.2 i hi x hx; rw [hE.1] at this; exact this⟩)
  unfold secondTrain
  rw [h1, thenTry_some]
  dsimp only
  rw [h2, thenTry_some]

theorem perfect_window {P : PilotEqParams} {syms2 : List ℂ} {rx : List (List ℂ)} {p L s m : Nat} (hE : Rect rx p L) (hos : 0 < P.os) (hn : 1 ≤ P.ntaps) (hs : s + P.seqLen * P.os + P.ntaps ≤ L + 1)
    (h : PilotPerfect P syms2 rx s m) : WindowPerfect P P.methods.1 P.symsP none (pilotWindow P rx s) m ∧ WindowPerfect P P.methods.1 P.symsP (some P.ref) (pilotWindow P rx s) m ∧
      WindowPerfect P P.methods.2 syms2 (some P.ref) (pilotWindow P rx s) m := by
  obtain ⟨h1, h2⟩ := pilotWindow_rect P hE hn hs
  have hlen : (pilotWindow P rx s).length = rx.length := by simp [pilotWindow]
  have hpos : ∀ i < P.seqLen, i * P.os + P.ntaps / 2 < P.seqLen * P.os + P.ntaps - 1 := by
    intro i hi
    have : (i + 1) * P.os ≤ P.seqLen * P.os := Nat.mul_le_mul_right _ hi
    rw [Nat.add_mul] at this
    omega
  refine ⟨fun i hi x hx => ?_, fun i hi x hx => ?_, fun i hi x hx => ?_⟩ <;> rw [h2 m _ (hpos i hi)] at hx <;> rw [hlen]
  · exact (h i hi x hx).1
  · exact (h i hi x hx).2.1
  · exact (h i hi x hx).2.2

/-- The samples of a window at the symbol positions, as the first stage returns them. -/
noncomputable def windowSymbols (P : PilotEqParams) (E : List (List ℂ)) (m : Nat) : List ℂ := (List.range P.seqLen).map fun i => val2 E m (i * P.os + P.ntaps / 2)

theorem firstCommon_perfect (P : PilotEqParams) {rx : List (List ℂ)} {p L s : Nat} (hE : Rect rx p L) (hp : 1 ≤ p) (hos : 0 < P.os) (hn : 1 ≤ P.ntaps) (hL : P.ntaps * P.os ≤ P.seqLen * P.os + P.ntaps - 1)
    (hs : s + P.seqLen * P.os + P.ntaps ≤ L + 1) (hperf : ∀ m < p, WindowPerfect P P.methods.1 P.symsP none (pilotWindow P rx s) m) :
    firstCommon P rx s none = .ok (some (some (initTaps P.ntaps p), (List.range p).map (windowSymbols P (pilotWindow P rx s)))) := by
  have hw := (pilotWindow_rect P hE hn hs).1
  obtain ⟨T, h1⟩ := apply_perfect (mu := P.mu.1) (nIter := P.nIter) (adaptive := P.adaptive) (symbols := none) (syms := P.symsP) (method := P.methods.1) (modes := none) hw hp hos hn hL (ms := List.range p) rfl
    (by simp; omega) (Or.inl rfl) (fun m hm => ⟨List.mem_range.1 hm, fun i hi x hx => by have := hperf m (List.mem_range.1 hm) i hi x hx; rw [hw.1] at this; exact this⟩)
  unfold firstCommon
  rw [h1, thenTry_some]
  rfl

/-- C143, common shift factor, with or without compensation of a frequency offset: if the pilots in the received signal are perfectly equalised in the sense of the first method, and those of the compensated
window in the sense of both methods, the initial taps and the estimated offset are returned. -/
theorem C143_foe_partial (P : PilotEqParams) {rx : List (List ℂ)} {p L s : Nat} {shifts : List Int} {foeComp : Bool} {foe : Option (List ℝ)} {E' : List (List ℂ)} (hE : Rect rx p L) (hp : 1 ≤ p) (hos : 0 < P.os) (hn : 1 ≤ P.ntaps)
    (hL : P.ntaps * P.os ≤ P.seqLen * P.os + P.ntaps - 1) (hs : s + P.seqLen * P.os + P.ntaps ≤ L + 1) (hsh : shifts ≠ []) (hshs : ∀ t ∈ shifts, t = s)
    (hmix : P.methods.1 ∈ realValued ↔ P.methods.2 ∈ realValued)
    (hfoe : pilotTrainFoe P foeComp ((List.range p).map (windowSymbols P (pilotWindow P rx s))) = .ok foe) (hcomp : secondWindow P rx s foe = .ok E') (hE' : Rect E' p (P.seqLen * P.os + P.ntaps - 1))
    (hperf : ∀ m < p, WindowPerfect P P.methods.1 P.symsP none (pilotWindow P rx s) m ∧ WindowPerfect P P.methods.1 P.symsP (some P.ref) E' m ∧ WindowPerfect P P.methods.2 P.symsP (some P.ref) E' m) :
    equalizePilotSequence P rx shifts foeComp none = .ok (some (initTaps P.ntaps p, foe.getD (List.replicate p 0))) := by
  obtain ⟨t, ts, rfl⟩ := List.exists_cons_of_ne_nil hsh
  obtain rfl : t = s := hshs t (by simp)
  have hsev : severalValues ((s : Int) :: ts) = false := by
    unfold severalValues
    rw [List.any_eq_false]
    intro x hx
    rw [hshs x hx]
    simp
  have hm : mixedMethods P.methods = false := by
    unfold mixedMethods
    simp [hmix]
  have h1 := firstCommon_perfect P hE hp hos hn hL hs fun m hm => (hperf m hm).1
  have h2 : secondTrain P P.symsP E' none (initTaps P.ntaps p) = .ok (some (initTaps P.ntaps p)) :=
    secondTrain_perfect P hE' hp hos hn hL (ms := List.range p) rfl (by simp; omega) fun m hm => ⟨List.mem_range.1 hm, (hperf m (List.mem_range.1 hm)).2⟩
  unfold equalizePilotSequence firstStage secondStage secondCommon
  rw [hm, hsev]
  simp only [Bool.false_eq_true, if_false]
  rw [h1, thenTry_some]
  dsimp only
  rw [hfoe]
  simp only [Except.bind]
  rw [hcomp]
  simp only
  rw [h2, thenTry_some, hE.1]

/-- C143, common shift factor: training on perfectly equalised pilots returns the initial taps and no frequency offset. Any number of modes, samples, taps, iterations, any step sizes, fixed or adaptive,
any constellation of the pilots. -/
theorem C143_common_partial (P : PilotEqParams) {rx : List (List ℂ)} {p L s : Nat} {shifts : List Int} (hE : Rect rx p L) (hp : 1 ≤ p) (hos : 0 < P.os) (hn : 1 ≤ P.ntaps)
    (hL : P.ntaps * P.os ≤ P.seqLen * P.os + P.ntaps - 1) (hs : s + P.seqLen * P.os + P.ntaps ≤ L + 1) (hsh : shifts ≠ []) (hshs : ∀ t ∈ shifts, t = s)
    (hmix : P.methods.1 ∈ realValued ↔ P.methods.2 ∈ realValued) (hperf : ∀ m < p, PilotPerfect P P.symsP rx s m) :
    equalizePilotSequence P rx shifts false none = .ok (some (initTaps P.ntaps p, List.replicate p 0)) :=
  C143_foe_partial P hE hp hos hn hL hs hsh hshs hmix (foe := none) rfl rfl (pilotWindow_rect P hE hn hs).1 fun m hm => perfect_window hE hos hn hs (hperf m hm)

theorem firstPerMode_perfect (P : PilotEqParams) {rx : List (List ℂ)} {p L : Nat} {s : Nat → Nat} {shifts : List Int} (hE : Rect rx p L) (hp : 1 ≤ p) (hos : 0 < P.os) (hn : 1 ≤ P.ntaps)
    (hL : P.ntaps * P.os ≤ P.seqLen * P.os + P.ntaps - 1) (hs : ∀ m < p, s m + P.seqLen * P.os + P.ntaps ≤ L + 1) (hsh : ∀ m < p, shifts[m]? = some (s m : Int)) (href : Rect P.ref p P.seqLen)
    (hperf : ∀ m < p, WindowPerfect P P.methods.1 P.symsP none (pilotWindow P rx (s m)) m) :
    ∀ (ms : List Nat) (wx : Option (List (List (List ℂ)))), (∀ m ∈ ms, m < p) → wx = none ∨ wx = some (initTaps P.ntaps p) →
      firstPerMode P rx shifts ms wx = .ok (some (if ms = [] then wx else some (initTaps P.ntaps p), ms.map fun m => windowSymbols P (pilotWindow P rx (s m)) m))
  | [], wx, _, _ => rfl
  | m :: ms, wx, hms, hwx => by
    have hm := hms m (by simp)
    have hw := (pilotWindow_rect P hE hn (hs m hm)).1
    obtain ⟨T, h1⟩ := apply_perfect (mu := P.mu.1) (nIter := P.nIter) (adaptive := P.adaptive) (symbols := none) (syms := P.symsP) (method := P.methods.1) (modes := some [m]) hw hp hos hn hL (ms := [m])
      (by unfold chooseModes; simp [hm]) (by simp) hwx (fun k hk => by
        obtain rfl := List.mem_singleton.1 hk
        exact ⟨hm, fun i hi x hx => by have := hperf k hm i hi x hx; rw [hw.1] at this; exact this⟩)
    have ih := firstPerMode_perfect P hE hp hos hn hL hs hsh href hperf ms (some (initTaps P.ntaps p)) (fun k hk => hms k (by simp [hk])) (Or.inr rfl)
    obtain ⟨r, hr⟩ : ∃ r, P.ref[m]? = some r := ⟨_, List.getElem?_eq_getElem (by rw [href.1]; exact hm)⟩
    unfold firstPerMode
    rw [hsh m hm]
    dsimp only
    rw [h1, thenTry_some]
    dsimp only [List.map_cons, List.map_nil, List.headD_cons]
    rw [hr]
    dsimp only
    rw [if_neg (by rw [href.2 r (List.mem_of_getElem? hr)]; simp), ih, thenTry_some]
    simp [windowSymbols]

theorem secondPerMode_perfect (P : PilotEqParams) {rx : List (List ℂ)} {p L : Nat} {s : Nat → Nat} {shifts : List Int} (hE : Rect rx p L) (hp : 1 ≤ p) (hos : 0 < P.os) (hn : 1 ≤ P.ntaps)
    (hL : P.ntaps * P.os ≤ P.seqLen * P.os + P.ntaps - 1) (hs : ∀ m < p, s m + P.seqLen * P.os + P.ntaps ≤ L + 1) (hsh : ∀ m < p, shifts[m]? = some (s m : Int))
    (hperf : ∀ m < p, WindowPerfect P P.methods.1 P.symsP (some P.ref) (pilotWindow P rx (s m)) m ∧ WindowPerfect P P.methods.2 P.syms4 (some P.ref) (pilotWindow P rx (s m)) m) :
    ∀ ms : List Nat, (∀ m ∈ ms, m < p) → secondPerMode P rx shifts none ms (initTaps P.ntaps p) = .ok (some (initTaps P.ntaps p))
  | [], _ => rfl
  | m :: ms, hms => by
    have hm := hms m (by simp)
    have hw := (pilotWindow_rect P hE hn (hs m hm)).1
    have h1 : secondTrain P P.syms4 (pilotWindow P rx (s m)) (some [m]) (initTaps P.ntaps p) = .ok (some (initTaps P.ntaps p)) :=
      secondTrain_perfect P hw hp hos hn hL (ms := [m]) (by unfold chooseModes; simp [hm]) (by simp) fun k hk => by
        obtain rfl := List.mem_singleton.1 hk
        exact ⟨hm, hperf k hm⟩
    have ih := secondPerMode_perfect P hE hp hos hn hL hs hsh hperf ms fun k hk => hms k (by simp [hk])
    unfold secondPerMode
    rw [hsh m hm]
    show thenTry (secondTrain P P.syms4 (pilotWindow P rx (s m)) (some [m]) (initTaps P.ntaps p)) _ = _
    rw [h1, thenTry_some, ih]

/-- C143, differing shift factors: the same, if the pilots are also perfectly equalised for the last training with the constants of 4 points. -/
theorem C143_per_mode_partial (P : PilotEqParams) {rx : List (List ℂ)} {p L : Nat} {s : Nat → Nat} {shifts : List Int} (hE : Rect rx p L) (hp : 1 ≤ p) (hos : 0 < P.os) (hn : 1 ≤ P.ntaps)
    (hL : P.ntaps * P.os ≤ P.seqLen * P.os + P.ntaps - 1) (hs : ∀ m < p, s m + P.seqLen * P.os + P.ntaps ≤ L + 1) (hsh : ∀ m < p, shifts[m]? = some (s m : Int)) (href : Rect P.ref p P.seqLen)
    (hsev : severalValues shifts = true) (hmix : P.methods.1 ∈ realValued ↔ P.methods.2 ∈ realValued) (hperf : ∀ m < p, PilotPerfect P P.syms4 rx (s m) m) :
    equalizePilotSequence P rx shifts false none = .ok (some (initTaps P.ntaps p, List.replicate p 0)) := by
  have hm : mixedMethods P.methods = false := by
    unfold mixedMethods
    simp [hmix]
  have hw := fun m hm => perfect_window hE hos hn (hs m hm) (hperf m hm)
  have h1 := firstPerMode_perfect P hE hp hos hn hL hs hsh href (fun m hm => (hw m hm).1) (List.range p) none (fun m hm => List.mem_range.1 hm) (Or.inl rfl)
  have h2 := secondPerMode_perfect P hE hp hos hn hL hs hsh (fun m hm => (hw m hm).2) (List.range p) (fun m hm => List.mem_range.1 hm)
  rw [if_neg (by simp; omega)] at h1
  unfold equalizePilotSequence firstStage secondStage pilotTrainFoe
  rw [hm, hsev]
  simp only [Bool.false_eq_true, if_false, if_true]
  rw [hE.1, h1, thenTry_some]
  simp only [Except.bind]
  rw [h2, thenTry_some]
  rfl

/-! ### C144 -/

/-- The training of one mode alone: `nIter` passes over the symbols of the window `E`, starting from the taps `w` of this mode and the given step size. -/
noncomputable def modeRun (P : PilotEqParams) (syms : List ℂ) (method : String) (mu : ℝ) (symbols : Option (List (List ℂ))) (E : List (List ℂ)) (m : Nat) (w : List (List ℂ)) : Option (List (List ℂ)) :=
  match trainingLen none P.os P.ntaps (columns E), reshapeSymbols (generateSymbols method syms) symbols method E.length, errorFct method with
  | .ok T, .ok rows, some errf => (rows[m]?).bind fun row => (trainMode errf adaptStep P.adaptive E T P.nIter P.os P.ntaps row w mu).map fun st => st.w
  | _, _, _ => none

theorem bind_ok_eq {α β : Type} {x : Except PyErr α} {f : α → Except PyErr β} {b : β} (h : (x >>= f) = .ok b) : ∃ a, x = .ok a ∧ f a = .ok b := by
  rcases x with e | a
  · cases h
  · exact ⟨a, rfl, h⟩

/-- What a successful call of the driver did. -/
theorem equaliseSignal_ok {P : PilotEqParams} {syms : List ℂ} {E : List (List ℂ)} {mu : ℝ} {wxy : Option (List (List (List ℂ)))} {method : String}
    {symbols : Option (List (List ℂ))} {modes : Option (List Nat)} {r : TrainResult ℂ}
    (h : equaliseSignal syms E (columns E) P.os mu wxy P.ntaps none P.nIter method P.adaptive symbols modes = .ok (some r)) :
    ∃ ms wx T rows errf, chooseModes modes E.length = .ok ms ∧ startTaps wxy P.ntaps E.length = .ok wx ∧ trainingLen none P.os P.ntaps (columns E) = .ok T ∧
      reshapeSymbols (generateSymbols method syms) symbols method E.length = .ok rows ∧ errorFct method = some errf ∧
      trainEqualiser errf adaptStep P.adaptive E T P.nIter P.os mu wx P.ntaps ms rows = some r := by
  unfold equaliseSignal at h
  obtain ⟨ms, h1, h⟩ := bind_ok_eq h
  obtain ⟨wx, h2, h⟩ := bind_ok_eq h
  obtain ⟨T, h3, h⟩ := bind_ok_eq h
  obtain ⟨rows, h4, h⟩ := bind_ok_eq h
  split at h
  · cases h
  · next errf h5 =>
    injection h with h
    exact ⟨ms, wx, T, rows, errf, h1, h2, h3, h4, h5, h⟩

/-- One mode: the taps of this mode are those of its run, the others stay. -/
theorem equaliseSignal_single {P : PilotEqParams} {syms : List ℂ} {E : List (List ℂ)} {mu : ℝ} {wxy : Option (List (List (List ℂ)))} {method : String}
    {symbols : Option (List (List ℂ))} {m : Nat} {r : TrainResult ℂ}
    (h : equaliseSignal syms E (columns E) P.os mu wxy P.ntaps none P.nIter method P.adaptive symbols (some [m]) = .ok (some r)) :
    ∃ wx w w', startTaps wxy P.ntaps E.length = .ok wx ∧ wx[m]? = some w ∧ modeRun P syms method mu symbols E m w = some w' ∧ r.wx = wx.set m w' := by
  obtain ⟨ms, wx, T, rows, errf, h1, h2, h3, h4, h5, h6⟩ := equaliseSignal_ok h
  have hms : ms = [m] := by
    unfold chooseModes at h1
    simp only [List.cons_ne_self, if_false] at h1
    split at h1
    · injection h1 with h1; exact h1.symm
    · cases h1
  subst hms
  unfold trainEqualiser at h6
  rw [List.foldlM_cons] at h6
  simp only [Option.bind_eq_bind, Option.bind_eq_some_iff, List.foldlM_nil] at h6
  obtain ⟨r1, ⟨w, hw, row, hrow, st, hst, hr1⟩, h6⟩ := h6
  refine ⟨wx, w, st.w, h2, hw, ?_, ?_⟩
  · unfold modeRun
    rw [h3, h4, h5]
    dsimp only
    rw [hrow, Option.bind_some, hst]
    rfl
  · simp only [Option.pure_def, Option.some.injEq] at h6 hr1
    rw [← h6, ← hr1]

/-- Several modes with a fixed step size: the taps of each mode are those of its run. -/
theorem equaliseSignal_all {P : PilotEqParams} {syms : List ℂ} {E : List (List ℂ)} {mu : ℝ} {wxy : Option (List (List (List ℂ)))} {method : String}
    {symbols : Option (List (List ℂ))} {r : TrainResult ℂ} (ha : P.adaptive = false)
    (h : equaliseSignal syms E (columns E) P.os mu wxy P.ntaps none P.nIter method P.adaptive symbols none = .ok (some r)) :
    ∃ wx, startTaps wxy P.ntaps E.length = .ok wx ∧ ∀ m < E.length, ∃ w w', wx[m]? = some w ∧ modeRun P syms method mu symbols E m w = some w' ∧ r.wx[m]? = some w' := by
  obtain ⟨ms, wx, T, rows, errf, h1, h2, h3, h4, h5, h6⟩ := equaliseSignal_ok h
  refine ⟨wx, h2, fun m hm => ?_⟩
  injection h1 with h1
  rw [ha] at h6
  unfold trainEqualiser at h6
  obtain ⟨w, s, st, g1, g2, g3, g4, -⟩ := trainEqualiser_row h6 (by rw [← h1]; exact List.nodup_range) (m := m) (by rw [← h1]; simpa using hm) (by simpa using hm)
  refine ⟨w, st.w, g1, ?_, g4⟩
  unfold modeRun
  rw [h3, h4, h5, ha]
  dsimp only
  dsimp only at g3
  rw [g2, Option.bind_some, g3]
  rfl

theorem startTaps_some {w w' : List (List (List ℂ))} {n p : Nat} (h : startTaps (some w) n p = .ok w') : w' = w := by
  unfold startTaps at h
  dsimp only at h
  split at h
  · injection h with h; exact h.symm
  · cases h

theorem equaliseSignalApply_ok {syms : List ℂ} {E : List (List ℂ)} {L os ntaps nIter : Nat} {mu : ℝ} {wxy : Option (List (List (List ℂ)))} {trSyms : Option Int} {method : String} {adaptive : Bool}
    {symbols : Option (List (List ℂ))} {modes : Option (List Nat)} {o : List (List ℂ) × TrainResult ℂ}
    (h : equaliseSignalApply syms E L os mu wxy ntaps trSyms nIter method adaptive symbols modes = .ok (some o)) :
    equaliseSignal syms E L os mu wxy ntaps trSyms nIter method adaptive symbols modes = .ok (some o.2) := by
  unfold equaliseSignalApply at h
  obtain ⟨ms, h1, h⟩ := bind_ok_eq h
  obtain ⟨r, h2, h⟩ := bind_ok_eq h
  have e : (r.bind fun r => (applyFilterToSignal E L os r.wx ntaps ms).map fun out => (out, r)) = some o := by injection h
  rw [Option.bind_eq_some_iff] at e
  obtain ⟨r', rfl, e'⟩ := e
  rw [Option.map_eq_some_iff] at e'
  obtain ⟨out, -, rfl⟩ := e'
  exact h2

theorem set_get_self {α : Type} {l : List α} {m : Nat} {a b : α} (h : l[m]? = some a) : (l.set m b)[m]? = some b := by
  have : m < l.length := by
    by_contra hc
    rw [List.getElem?_eq_none (by omega)] at h
    cases h
  rw [List.getElem?_set_self this]

theorem firstPerMode_get (P : PilotEqParams) (rx : List (List ℂ)) (shifts : List Int) :
    ∀ (ms : List Nat) (wx wx' : Option (List (List (List ℂ)))) (outs : List (List ℂ)), ms.Nodup → ms ≠ [] → firstPerMode P rx shifts ms wx = .ok (some (wx', outs)) →
      ∃ w0 w1, startTaps wx P.ntaps rx.length = .ok w0 ∧ wx' = some w1 ∧ (∀ m, m ∉ ms → w1[m]? = w0[m]?) ∧
        ∀ m ∈ ms, ∃ s w w', shifts[m]? = some s ∧ w0[m]? = some w ∧ modeRun P P.symsP P.methods.1 P.mu.1 none (pilotWindow P rx s) m w = some w' ∧ w1[m]? = some w'
  | [], _, _, _, _, h, _ => absurd rfl h
  | k :: ms, wx, wx', outs, hnd, _, h => by
    unfold firstPerMode at h
    split at h
    · cases h
    · next s hs =>
      obtain ⟨o, h1, h⟩ := thenTry_eq h
      split at h
      · cases h
      · next r hr =>
        split at h
        · cases h
        · obtain ⟨t, h2, h⟩ := thenTry_eq h
          have ht : t.1 = wx' := by injection h with h; injection h with h; injection h
          obtain ⟨w0, w, w', g1, g2, g3, g4⟩ := equaliseSignal_single (equaliseSignalApply_ok h1)
          have hlen : (pilotWindow P rx s).length = rx.length := by simp [pilotWindow]
          rw [hlen] at g1
          obtain ⟨hk, hnd'⟩ := List.nodup_cons.1 hnd
          have hset : (w0.set k w')[k]? = some w' := set_get_self g2
          by_cases hms : ms = []
          · subst hms
            have : t.1 = some (w0.set k w') := by
              unfold firstPerMode at h2
              injection h2 with h2
              injection h2 with h2
              rw [← h2, g4]
            refine ⟨w0, w0.set k w', g1, by rw [← ht, this], ?_, ?_⟩
            · intro m hm
              exact List.getElem?_set_ne (by simpa [eq_comm] using hm)
            · intro m hm
              obtain rfl := List.mem_singleton.1 hm
              exact ⟨s, w, w', hs, g2, g3, hset⟩
          · obtain ⟨v0, v1, k1, k2, k3, k4⟩ := firstPerMode_get P rx shifts ms (some o.2.wx) t.1 t.2 hnd' hms h2
            have hv := startTaps_some k1
            rw [g4] at hv
            subst hv
            refine ⟨w0, v1, g1, by rw [← ht, k2], ?_, ?_⟩
            · intro m hm
              rw [k3 m (fun hc => hm (by simp [hc])), List.getElem?_set_ne (by rintro rfl; exact hm (by simp))]
            · intro m hm
              rcases List.mem_cons.1 hm with rfl | hm
              · exact ⟨s, w, w', hs, g2, g3, by rw [k3 m hk, hset]⟩
              · obtain ⟨s', u, u', e1, e2, e3, e4⟩ := k4 m hm
                refine ⟨s', u, u', e1, ?_, e3, e4⟩
                rw [← e2, List.getElem?_set_ne (by rintro rfl; exact hk hm)]

/-- The two trainings of the second stage for one mode alone. -/
noncomputable def secondRun (P : PilotEqParams) (syms2 : List ℂ) (E : List (List ℂ)) (m : Nat) (w : List (List ℂ)) : Option (List (List ℂ)) :=
  (modeRun P P.symsP P.methods.1 P.mu.1 (some P.ref) E m w).bind (modeRun P syms2 P.methods.2 P.mu.2 (some P.ref) E m)

theorem secondTrain_single {P : PilotEqParams} {syms2 : List ℂ} {E : List (List ℂ)} {m : Nat} {wx wx' : List (List (List ℂ))} (h : secondTrain P syms2 E (some [m]) wx = .ok (some wx')) :
    ∃ w w', wx[m]? = some w ∧ secondRun P syms2 E m w = some w' ∧ wx' = wx.set m w' := by
  unfold secondTrain at h
  obtain ⟨r, h1, h⟩ := thenTry_eq h
  obtain ⟨r2, h2, h⟩ := thenTry_eq h
  have hr2 : r2.wx = wx' := by injection h with h; injection h
  obtain ⟨u, w, w', g1, g2, g3, g4⟩ := equaliseSignal_single h1
  obtain ⟨u', v, v', k1, k2, k3, k4⟩ := equaliseSignal_single h2
  have := startTaps_some g1
  subst this
  have := startTaps_some k1
  subst this
  rw [g4, set_get_self g2, Option.some.injEq] at k2
  subst k2
  refine ⟨w, v', g2, ?_, ?_⟩
  · unfold secondRun
    rw [g3, Option.bind_some, k3]
  · rw [← hr2, k4, g4, List.set_set]

theorem secondPerMode_get (P : PilotEqParams) (rx : List (List ℂ)) (shifts : List Int) :
    ∀ (ms : List Nat) (wx wx' : List (List (List ℂ))), ms.Nodup → secondPerMode P rx shifts none ms wx = .ok (some wx') → (∀ m, m ∉ ms → wx'[m]? = wx[m]?) ∧
        ∀ m ∈ ms, ∃ s w w', shifts[m]? = some s ∧ wx[m]? = some w ∧ secondRun P P.syms4 (pilotWindow P rx s) m w = some w' ∧ wx'[m]? = some w'
  | [], wx, wx', _, h => by
    have : wx = wx' := by unfold secondPerMode at h; injection h with h; injection h
    subst this
    simp
  | k :: ms, wx, wx', hnd, h => by
    unfold secondPerMode at h
    split at h
    · cases h
    · next s hs =>
      have h : thenTry (secondTrain P P.syms4 (pilotWindow P rx s) (some [k]) wx) (fun w => secondPerMode P rx shifts none ms w) = .ok (some wx') := h
      obtain ⟨u, h1, h⟩ := thenTry_eq h
      obtain ⟨w, w', g1, g2, rfl⟩ := secondTrain_single h1
      obtain ⟨hk, hnd'⟩ := List.nodup_cons.1 hnd
      obtain ⟨k1, k2⟩ := secondPerMode_get P rx shifts ms _ wx' hnd' h
      refine ⟨fun m hm => ?_, fun m hm => ?_⟩
      · rw [k1 m (fun hc => hm (by simp [hc])), List.getElem?_set_ne (by rintro rfl; exact hm (by simp))]
      · rcases List.mem_cons.1 hm with rfl | hm
        · exact ⟨s, w, w', hs, g1, g2, by rw [k1 m hk, set_get_self g1]⟩
        · obtain ⟨s', v, v', e1, e2, e3, e4⟩ := k2 m hm
          refine ⟨s', v, v', e1, ?_, e3, e4⟩
          rw [← e2, List.getElem?_set_ne (by rintro rfl; exact hk hm)]

/-- The three trainings of one mode alone, on the window of its own shift factor. -/
noncomputable def pilotRun (P : PilotEqParams) (syms2 : List ℂ) (rx : List (List ℂ)) (s : Int) (m : Nat) (w : List (List ℂ)) : Option (List (List ℂ)) :=
  (modeRun P P.symsP P.methods.1 P.mu.1 none (pilotWindow P rx s) m w).bind (secondRun P syms2 (pilotWindow P rx s) m)

theorem pilotSequence_ok {P : PilotEqParams} {rx : List (List ℂ)} {shifts : List Int} {wxinit : Option (List (List (List ℂ)))} {r : List (List (List ℂ)) × List ℝ}
    (h : equalizePilotSequence P rx shifts false wxinit = .ok (some r)) :
    ∃ t, firstStage P rx shifts wxinit = .ok (some t) ∧ secondStage P rx shifts none t.1 = .ok (some r.1) ∧ r.2 = List.replicate rx.length 0 := by
  unfold equalizePilotSequence at h
  split at h
  · cases h
  · obtain ⟨t, h1, h⟩ := thenTry_eq h
    have h : thenTry (secondStage P rx shifts none t.1) (fun w => .ok (some (w, List.replicate rx.length 0))) = .ok (some r) := h
    obtain ⟨w, h2, h⟩ := thenTry_eq h
    have h : (w, List.replicate rx.length 0) = r := by injection h with h; injection h
    subst h
    exact ⟨t, h1, h2, rfl⟩

/-- C144, differing shift factors: the taps of each mode are the result of training this mode alone, from its own starting taps, on the window given by its own shift factor, with the step sizes as given;
the other modes, their shift factors and their taps have no influence. Fixed and adaptive step sizes. -/
theorem C144_own_window {P : PilotEqParams} {rx : List (List ℂ)} {shifts : List Int} {wxinit : Option (List (List (List ℂ)))} {r : List (List (List ℂ)) × List ℝ} (hsev : severalValues shifts = true)
    (h : equalizePilotSequence P rx shifts false wxinit = .ok (some r)) {m : Nat} (hm : m < rx.length) :
    ∃ w0 s w, startTaps wxinit P.ntaps rx.length = .ok w0 ∧ shifts[m]? = some s ∧ w0[m]? = some w ∧ r.1[m]? = pilotRun P P.syms4 rx s m w ∧ (pilotRun P P.syms4 rx s m w).isSome := by
  obtain ⟨t, h1, h2, -⟩ := pilotSequence_ok h
  unfold firstStage at h1
  unfold secondStage at h2
  rw [hsev] at h1 h2
  simp only [if_true] at h1 h2
  obtain ⟨w0, w1, g1, g2, -, g4⟩ := firstPerMode_get P rx shifts _ _ _ _ List.nodup_range (by simp; rintro rfl; simp at hm) h1
  rw [g2] at h2
  dsimp only at h2
  obtain ⟨-, k2⟩ := secondPerMode_get P rx shifts _ _ _ List.nodup_range h2
  obtain ⟨s, w, w', e1, e2, e3, e4⟩ := g4 m (List.mem_range.2 hm)
  obtain ⟨s', v, v', f1, f2, f3, f4⟩ := k2 m (List.mem_range.2 hm)
  rw [e1, Option.some.injEq] at f1
  subst f1
  rw [e4, Option.some.injEq] at f2
  subst f2
  have hrun : pilotRun P P.syms4 rx s m w = some v' := by
    unfold pilotRun
    rw [e3, Option.bind_some, f3]
  exact ⟨w0, s, w, g1, e1, e2, by rw [f4, hrun], by rw [hrun]; rfl⟩

theorem firstCommon_get {P : PilotEqParams} {rx : List (List ℂ)} {s : Int} {wx wx' : Option (List (List (List ℂ)))} {outs : List (List ℂ)} (ha : P.adaptive = false) (h : firstCommon P rx s wx = .ok (some (wx', outs))) :
    ∃ w0 w1, startTaps wx P.ntaps rx.length = .ok w0 ∧ wx' = some w1 ∧ ∀ m < rx.length, ∃ w w', w0[m]? = some w ∧ modeRun P P.symsP P.methods.1 P.mu.1 none (pilotWindow P rx s) m w = some w' ∧ w1[m]? = some w' := by
  unfold firstCommon at h
  obtain ⟨o, h1, h⟩ := thenTry_eq h
  have h : some o.2.wx = wx' := by injection h with h; injection h with h; injection h
  have hlen : (pilotWindow P rx s).length = rx.length := by simp [pilotWindow]
  obtain ⟨w0, g1, g2⟩ := equaliseSignal_all ha (equaliseSignalApply_ok h1)
  rw [hlen] at g1 g2
  exact ⟨w0, o.2.wx, g1, h.symm, g2⟩

theorem secondTrain_all {P : PilotEqParams} {syms2 : List ℂ} {E : List (List ℂ)} {wx wx' : List (List (List ℂ))} (ha : P.adaptive = false) (h : secondTrain P syms2 E none wx = .ok (some wx')) :
    ∀ m < E.length, ∃ w w', wx[m]? = some w ∧ secondRun P syms2 E m w = some w' ∧ wx'[m]? = some w' := by
  unfold secondTrain at h
  obtain ⟨r, h1, h⟩ := thenTry_eq h
  obtain ⟨r2, h2, h⟩ := thenTry_eq h
  have hr2 : r2.wx = wx' := by injection h with h; injection h
  obtain ⟨u, g1, g2⟩ := equaliseSignal_all ha h1
  obtain ⟨u', k1, k2⟩ := equaliseSignal_all ha h2
  have := startTaps_some g1
  subst this
  have := startTaps_some k1
  subst this
  intro m hm
  obtain ⟨w, w', e1, e2, e3⟩ := g2 m hm
  obtain ⟨v, v', f1, f2, f3⟩ := k2 m hm
  rw [e3, Option.some.injEq] at f1
  subst f1
  refine ⟨w, v', e1, ?_, by rw [← hr2]; exact f3⟩
  unfold secondRun
  rw [e2, Option.bind_some, f2]

/-- C144, common shift factor, fixed step size: the same, the last training uses the constellation of the pilots. -/
theorem C144_common_partial {P : PilotEqParams} {rx : List (List ℂ)} {shifts : List Int} {wxinit : Option (List (List (List ℂ)))} {r : List (List (List ℂ)) × List ℝ} (hsev : severalValues shifts = false)
    (ha : P.adaptive = false) (h : equalizePilotSequence P rx shifts false wxinit = .ok (some r)) {m : Nat} (hm : m < rx.length) :
    ∃ w0 s w, startTaps wxinit P.ntaps rx.length = .ok w0 ∧ s ∈ shifts ∧ w0[m]? = some w ∧ r.1[m]? = pilotRun P P.symsP rx s m w ∧ (pilotRun P P.symsP rx s m w).isSome := by
  obtain ⟨t, h1, h2, -⟩ := pilotSequence_ok h
  unfold firstStage at h1
  unfold secondStage at h2
  rw [hsev] at h1 h2
  simp only [Bool.false_eq_true, if_false] at h1 h2
  rcases shifts with _ | ⟨s, ss⟩
  · cases h1
  · dsimp only at h1
    obtain ⟨w0, w1, g1, g2, g4⟩ := firstCommon_get ha h1
    rw [g2] at h2
    dsimp only at h2
    obtain ⟨w, w', e1, e2, e3⟩ := g4 m hm
    obtain ⟨v, v', f1, f2, f3⟩ := secondTrain_all ha (show secondTrain P P.symsP (pilotWindow P rx s) none w1 = _ from h2) m (by simpa [pilotWindow] using hm)
    rw [e3, Option.some.injEq] at f1
    subst f1
    have hrun : pilotRun P P.symsP rx s m w = some v' := by
      unfold pilotRun
      rw [e2, Option.bind_some, f2]
    exact ⟨w0, s, w, g1, by simp, e1, by rw [f3, hrun], by rw [hrun]; rfl⟩

/-- C144: with a fixed step size and QPSK pilots the taps of a mode do not depend on whether the shift factors of the other modes differ from its own. -/
theorem C144_same_partial {P : PilotEqParams} {rx : List (List ℂ)} {shifts shifts' : List Int} {wxinit : Option (List (List (List ℂ)))} {r r' : List (List (List ℂ)) × List ℝ} (ha : P.adaptive = false)
    (h4 : P.symsP = P.syms4) (h : equalizePilotSequence P rx shifts false wxinit = .ok (some r)) (h' : equalizePilotSequence P rx shifts' false wxinit = .ok (some r')) {m : Nat} (hm : m < rx.length)
    (hlen : m < shifts.length) (hlen' : m < shifts'.length) (hs : shifts[m]? = shifts'[m]?) : r.1[m]? = r'.1[m]? := by
  have key : ∀ (sh : List Int) (q : List (List (List ℂ)) × List ℝ), equalizePilotSequence P rx sh false wxinit = .ok (some q) → m < sh.length →
      ∃ w0 s w, startTaps wxinit P.ntaps rx.length = .ok w0 ∧ sh[m]? = some s ∧ w0[m]? = some w ∧ q.1[m]? = pilotRun P P.symsP rx s m w := by
    intro sh q hq hl
    cases hsev : severalValues sh with
    | true =>
      obtain ⟨w0, s, w, e1, e2, e3, e4, -⟩ := C144_own_window hsev hq hm
      exact ⟨w0, s, w, e1, e2, e3, by rw [h4]; exact e4⟩
    | false =>
      obtain ⟨w0, s, w, e1, e2, e3, e4, -⟩ := C144_common_partial hsev ha hq hm
      refine ⟨w0, s, w, e1, ?_, e3, e4⟩
      unfold severalValues at hsev
      rw [List.any_eq_false] at hsev
      rw [List.getElem?_eq_getElem hl]
      have a1 := hsev _ (List.getElem_mem hl)
      have a2 := hsev _ e2
      simp only [bne_iff_ne, ne_eq, not_not] at a1 a2
      rw [a1, a2]
  obtain ⟨w0, s, w, e1, e2, e3, e4⟩ := key shifts r h hlen
  obtain ⟨v0, s', v, f1, f2, f3, f4⟩ := key shifts' r' h' hlen'
  rw [hs, f2, Option.some.injEq] at e2
  subst e2
  rw [f1] at e1
  injection e1 with e1
  subst e1
  rw [f3, Option.some.injEq] at e3
  subst e3
  rw [e4, f4]

/-! ### No errors -/

/-- The methods that need no transmitted symbols. -/
def blindMethods : List String := ["cma", "cma2", "sgncma", "mcma", "rde", "sbd", "mddma", "dd"]

theorem rows_usable {method : String} {syms : List ℂ} {ref : List (List ℂ)} {symbols : Option (List (List ℂ))} {p T : Nat} (hsy : syms ≠ [])
    (hm : method ∈ blindMethods ∧ (symbols = none ∨ symbols = some ref) ∨ method = "sbd_data" ∧ symbols = some ref) (href : ref.length = p) (hT : ∀ r ∈ ref, T ≤ r.length) :
    ∃ rows errf, reshapeSymbols (generateSymbols method syms) symbols method p = .ok rows ∧ rows.length = p ∧ errorFct method = some errf ∧ ∀ s ∈ rows, Usable method s T := by
  have hgiven : ∀ (m : String), m ∉ nonDecision → (∀ s ∈ ref, Usable m s T) → ∃ rows, reshapeSymbols (generateSymbols m syms) (some ref) m p = .ok rows ∧ rows.length = p ∧ ∀ s ∈ rows, Usable m s T := by
    intro m hmn hu
    obtain ⟨rows, h1, h2, h3⟩ := C109_complex (generateSymbols m syms) ref m p hmn (Or.inr href)
    refine ⟨rows, h1, h2, fun s hs => ?_⟩
    obtain ⟨j, hj, rfl⟩ := List.mem_iff_getElem.1 hs
    have h4 := h3 j (by omega)
    rw [List.getElem?_eq_getElem hj] at h4
    split at h4
    · exact hu _ (List.mem_of_getElem? h4.symm)
    · exact hu _ (List.mem_of_getElem? h4.symm)
  have hgen : ∀ (m : String) (row : List ℂ), generateSymbols m syms = .ok [row] → Usable m row T → (m ∈ nonDecision ∨ symbols = none) →
      ∃ rows, reshapeSymbols (generateSymbols m syms) symbols m p = .ok rows ∧ rows.length = p ∧ ∀ s ∈ rows, Usable m s T := by
    intro m row hg hu hs
    refine ⟨List.replicate p row, ?_, by simp, fun s hs => by rw [(List.mem_replicate.1 hs).2]; exact hu⟩
    have : selectSymbols (generateSymbols m syms) symbols m = .ok [row] := by
      unfold selectSymbols
      rcases symbols with _ | t
      · exact hg
      · dsimp only
        rw [if_pos (by rcases hs with h | h <;> [exact h; cases h]), hg]
    unfold reshapeSymbols
    rw [this]
    rfl
  rcases hm with ⟨hm, hs⟩ | ⟨rfl, rfl⟩
  · have hdec : ∀ m : String, generateSymbols m syms = .ok [syms] → m ∉ nonDecision → (∀ r, Usable m r T) → ∃ rows, reshapeSymbols (generateSymbols m syms) symbols m p = .ok rows ∧ rows.length = p ∧ ∀ s ∈ rows, Usable m s T := by
      intro m hg hn hu
      rcases hs with h | h
      · exact hgen m syms hg (hu _) (Or.inr h)
      · rw [h]; exact hgiven m hn fun s _ => hu s
    unfold blindMethods at hm
    simp only [List.mem_cons, List.not_mem_nil, or_false] at hm
    rcases hm with rfl | rfl | rfl | rfl | rfl | rfl | rfl | rfl
    · obtain ⟨rows, h1, h2, h3⟩ := hgen "cma" [(rConstant syms : ℂ)] (by simp [generateSymbols]) (by simp [Usable]) (Or.inl (by decide))
      exact ⟨rows, _, h1, h2, rfl, h3⟩
    · obtain ⟨rows, h1, h2, h3⟩ := hgen "cma2" [(rConstant syms : ℂ)] (by simp [generateSymbols]) (by simp [Usable]) (Or.inl (by decide))
      exact ⟨rows, _, h1, h2, rfl, h3⟩
    · obtain ⟨rows, h1, h2, h3⟩ := hgen "sgncma" [(rConstant syms : ℂ)] (by simp [generateSymbols]) (by simp [Usable]) (Or.inl (by decide))
      exact ⟨rows, _, h1, h2, rfl, h3⟩
    · obtain ⟨rows, h1, h2, h3⟩ := hgen "mcma" [rConstantComplex syms] (by simp [generateSymbols]) (by simp [Usable]) (Or.inl (by decide))
      exact ⟨rows, _, h1, h2, rfl, h3⟩
    · obtain ⟨rows, h1, h2, h3⟩ := hgen "rde" (partitionCodesRadius syms) (by simp [generateSymbols]) (C27_rde_usable syms hsy T) (Or.inl (by decide))
      exact ⟨rows, _, h1, h2, rfl, h3⟩
    · obtain ⟨rows, h1, h2, h3⟩ := hdec "sbd" (by simp [generateSymbols]) (by decide) fun _ => trivial
      exact ⟨rows, _, h1, h2, rfl, h3⟩
    · obtain ⟨rows, h1, h2, h3⟩ := hdec "mddma" (by simp [generateSymbols]) (by decide) fun _ => trivial
      exact ⟨rows, _, h1, h2, rfl, h3⟩
    · obtain ⟨rows, h1, h2, h3⟩ := hdec "dd" (by simp [generateSymbols]) (by decide) fun _ => trivial
      exact ⟨rows, _, h1, h2, rfl, h3⟩
  · obtain ⟨rows, h1, h2, h3⟩ := hgiven "sbd_data" (by decide) fun s hs => hT s hs
    exact ⟨rows, _, h1, h2, rfl, h3⟩

/-- Taps for `p` modes. -/
def GoodTaps (w : List (List (List ℂ))) (p ntaps : Nat) : Prop := w.length = p ∧ ∀ v ∈ w, Rect v p ntaps

theorem train_total {syms : List ℂ} {E : List (List ℂ)} {ref : List (List ℂ)} {p N os ntaps nIter : Nat} {mu : ℝ} {wxy : Option (List (List (List ℂ)))} {method : String} {adaptive : Bool}
    {symbols : Option (List (List ℂ))} {modes : Option (List Nat)} {ms : List Nat} (hsy : syms ≠ []) (hm : method ∈ blindMethods ∧ (symbols = none ∨ symbols = some ref) ∨ method = "sbd_data" ∧ symbols = some ref)
    (href : Rect ref p N) (hE : Rect E p (N * os + ntaps - 1)) (hp : 1 ≤ p) (hos : 0 < os) (hn : 1 ≤ ntaps) (hL : ntaps * os ≤ N * os + ntaps - 1)
    (hms : chooseModes modes p = .ok ms) (hmp : ∀ m ∈ ms, m < p) (hwx : ∀ w, wxy = some w → GoodTaps w p ntaps) :
    ∃ r, equaliseSignal syms E (columns E) os mu wxy ntaps none nIter method adaptive symbols modes = .ok (some r) ∧ GoodTaps r.wx p ntaps := by
  obtain ⟨T, hT, hfit, -⟩ := trainingLen_default hos hn hL
  have hTN : T ≤ N := by
    rcases hfit with h | h
    · omega
    · by_contra hc
      have : N * os ≤ (T - 1) * os := Nat.mul_le_mul_right _ (by omega)
      omega
  obtain ⟨rows, errf, hrows, hrl, hmeth, hu⟩ := rows_usable hsy hm href.1 (T := T) fun r hr => by rw [href.2 r hr]; exact hTN
  obtain ⟨w0, hst, hw0⟩ : ∃ w0, startTaps wxy ntaps p = .ok w0 ∧ GoodTaps w0 p ntaps := by
    rcases wxy with _ | w
    · refine ⟨_, ?_, initTaps_rect⟩
      unfold startTaps
      dsimp only
      rw [if_neg (by omega)]
    · refine ⟨w, ?_, hwx w rfl⟩
      unfold startTaps
      dsimp only
      rw [if_pos]
      refine ⟨(hwx w rfl).1, List.all_eq_true.2 fun v hv => ?_⟩
      simpa using ((hwx w rfl).2 v hv).1
  obtain ⟨r, h1, h2, h3, -⟩ := C27_methods (adaptive := adaptive) (nIter := nIter) (mu := mu) hmeth hE hw0.1 hw0.2 hrl hmp hfit hu
  refine ⟨r, ?_, h2, h3⟩
  unfold equaliseSignal
  rw [hE.1, hms, columns_rect hp hE, hst, hT, hrows, hmeth]
  show Except.ok _ = _
  rw [h1]

theorem apply_total {syms : List ℂ} {E : List (List ℂ)} {ref : List (List ℂ)} {p N os ntaps nIter : Nat} {mu : ℝ} {wxy : Option (List (List (List ℂ)))} {method : String} {adaptive : Bool}
    {modes : Option (List Nat)} {ms : List Nat} (hsy : syms ≠ []) (hm : method ∈ blindMethods)
    (href : Rect ref p N) (hE : Rect E p (N * os + ntaps - 1)) (hp : 1 ≤ p) (hos : 0 < os) (hn : 1 ≤ ntaps) (hL : ntaps * os ≤ N * os + ntaps - 1)
    (hms : chooseModes modes p = .ok ms) (hmp : ∀ m ∈ ms, m < p) (hwx : ∀ w, wxy = some w → GoodTaps w p ntaps) :
    ∃ o, equaliseSignalApply syms E (columns E) os mu wxy ntaps none nIter method adaptive none modes = .ok (some o) ∧ GoodTaps o.2.wx p ntaps ∧ Rect o.1 ms.length N := by
  obtain ⟨r, hr, hg⟩ := train_total (ref := ref) (mu := mu) (nIter := nIter) (adaptive := adaptive) hsy (Or.inl ⟨hm, Or.inl rfl⟩) href hE hp hos hn hL hms hmp hwx
  obtain ⟨out, h1, h2, h3, -⟩ := C24_apply_filter (K := ℂ) (modes := ms) (wx := r.wx) (ntaps := ntaps) hE hos (by omega) (by
    intro m hm
    have : m < r.wx.length := by rw [hg.1]; exact hmp m hm
    exact ⟨_, List.getElem?_eq_getElem this, hg.2 _ (List.getElem_mem this)⟩)
  have hN : (N * os + ntaps - 1 + 1 - ntaps) / os = N := by
    rw [show N * os + ntaps - 1 + 1 - ntaps = N * os by omega, Nat.mul_div_cancel _ hos]
  rw [hN] at h3
  refine ⟨(out, r), ?_, hg, h2, h3⟩
  unfold equaliseSignalApply
  rw [hE.1, hms, hr]
  show Except.ok (Option.map _ (applyFilterToSignal E (columns E) os r.wx ntaps ms)) = _
  rw [columns_rect hp hE, h1]
  rfl

theorem firstPerMode_total (P : PilotEqParams) {rx : List (List ℂ)} {p L : Nat} {s : Nat → Nat} {shifts : List Int} (hsy : P.symsP ≠ []) (hm1 : P.methods.1 ∈ blindMethods) (hE : Rect rx p L) (hp : 1 ≤ p) (hos : 0 < P.os)
    (hn : 1 ≤ P.ntaps) (hL : P.ntaps * P.os ≤ P.seqLen * P.os + P.ntaps - 1) (hs : ∀ m < p, s m + P.seqLen * P.os + P.ntaps ≤ L + 1) (hsh : ∀ m < p, shifts[m]? = some (s m : Int)) (href : Rect P.ref p P.seqLen) :
    ∀ (ms : List Nat) (wx : Option (List (List (List ℂ)))), (∀ m ∈ ms, m < p) → (∀ w, wx = some w → GoodTaps w p P.ntaps) →
      ∃ t, firstPerMode P rx shifts ms wx = .ok (some t) ∧ (∀ w, t.1 = some w → GoodTaps w p P.ntaps) ∧ (ms ≠ [] ∨ wx ≠ none → t.1 ≠ none)
  | [], wx, _, hwx => ⟨_, rfl, hwx, fun h => by simpa using h⟩
  | m :: ms, wx, hms, hwx => by
    have hm := hms m (by simp)
    have hw := (pilotWindow_rect P hE hn (hs m hm)).1
    obtain ⟨o, h1, h2, h3⟩ := apply_total (mu := P.mu.1) (nIter := P.nIter) (adaptive := P.adaptive) (modes := some [m]) hsy hm1 href hw hp hos hn hL (ms := [m])
      (by unfold chooseModes; simp [hm]) (fun k hk => by rw [List.mem_singleton.1 hk]; exact hm) hwx
    obtain ⟨t, k1, k2, k3⟩ := firstPerMode_total P hsy hm1 hE hp hos hn hL hs hsh href ms (some o.2.wx) (fun k hk => hms k (by simp [hk])) (fun w hw => by injection hw with hw; rw [← hw]; exact h2)
    obtain ⟨r, hr⟩ : ∃ r, P.ref[m]? = some r := ⟨_, List.getElem?_eq_getElem (by rw [href.1]; exact hm)⟩
    refine ⟨(t.1, o.1.headD [] :: t.2), ?_, k2, fun _ => k3 (Or.inr (by simp))⟩
    unfold firstPerMode
    rw [hsh m hm]
    dsimp only
    rw [h1, thenTry_some]
    rw [hr]
    dsimp only
    rw [if_neg, k1, thenTry_some]
    rw [href.2 r (List.mem_of_getElem? hr), not_not]
    obtain ⟨a, ha⟩ : ∃ a, o.1 = [a] := List.length_eq_one_iff.1 h3.1
    rw [ha]
    exact h3.2 a (by simp [ha])

theorem secondTrain_total (P : PilotEqParams) {syms2 : List ℂ} {E : List (List ℂ)} {p : Nat} {modes : Option (List Nat)} {ms : List Nat} {wx : List (List (List ℂ))} (hsy : P.symsP ≠ []) (hsy2 : syms2 ≠ [])
    (hm1 : P.methods.1 ∈ blindMethods) (hm2 : P.methods.2 ∈ blindMethods ∨ P.methods.2 = "sbd_data") (href : Rect P.ref p P.seqLen) (hE : Rect E p (P.seqLen * P.os + P.ntaps - 1)) (hp : 1 ≤ p)
    (hos : 0 < P.os) (hn : 1 ≤ P.ntaps) (hL : P.ntaps * P.os ≤ P.seqLen * P.os + P.ntaps - 1) (hms : chooseModes modes p = .ok ms) (hmp : ∀ m ∈ ms, m < p) (hwx : GoodTaps wx p P.ntaps) :
    ∃ w, secondTrain P syms2 E modes wx = .ok (some w) ∧ GoodTaps w p P.ntaps := by
  obtain ⟨r, h1, h2⟩ := train_total (mu := P.mu.1) (nIter := P.nIter) (adaptive := P.adaptive) (wxy := some wx) hsy (Or.inl ⟨hm1, Or.inr rfl⟩) href hE hp hos hn hL hms hmp (fun w hw => by injection hw with hw; rw [← hw]; exact hwx)
  obtain ⟨r2, k1, k2⟩ := train_total (mu := P.mu.2) (nIter := P.nIter) (adaptive := P.adaptive) (wxy := some r.wx) (method := P.methods.2) (symbols := some P.ref) (ref := P.ref) hsy2
    (hm2.imp (fun h => ⟨h, Or.inr rfl⟩) (fun h => ⟨h, rfl⟩)) href hE hp hos hn hL hms hmp (fun w hw => by injection hw with hw; rw [← hw]; exact h2)
  refine ⟨r2.wx, ?_, k2⟩
  unfold secondTrain
  rw [h1, thenTry_some, k1, thenTry_some]

theorem secondPerMode_total (P : PilotEqParams) {rx : List (List ℂ)} {p L : Nat} {s : Nat → Nat} {shifts : List Int} (hsy : P.symsP ≠ []) (hsy2 : P.syms4 ≠ [])
    (hm1 : P.methods.1 ∈ blindMethods) (hm2 : P.methods.2 ∈ blindMethods ∨ P.methods.2 = "sbd_data") (hE : Rect rx p L) (hp : 1 ≤ p) (hos : 0 < P.os)
    (hn : 1 ≤ P.ntaps) (hL : P.ntaps * P.os ≤ P.seqLen * P.os + P.ntaps - 1) (hs : ∀ m < p, s m + P.seqLen * P.os + P.ntaps ≤ L + 1) (hsh : ∀ m < p, shifts[m]? = some (s m : Int)) (href : Rect P.ref p P.seqLen) :
    ∀ (ms : List Nat) (wx : List (List (List ℂ))), (∀ m ∈ ms, m < p) → GoodTaps wx p P.ntaps → ∃ w, secondPerMode P rx shifts none ms wx = .ok (some w) ∧ GoodTaps w p P.ntaps
  | [], wx, _, hwx => ⟨wx, rfl, hwx⟩
  | m :: ms, wx, hms, hwx => by
    have hm := hms m (by simp)
    have hw := (pilotWindow_rect P hE hn (hs m hm)).1
    obtain ⟨w, h1, h2⟩ := secondTrain_total P (syms2 := P.syms4) (modes := some [m]) hsy hsy2 hm1 hm2 href hw hp hos hn hL (ms := [m]) (by unfold chooseModes; simp [hm]) (fun k hk => by rw [List.mem_singleton.1 hk]; exact hm) hwx
    obtain ⟨w', k1, k2⟩ := secondPerMode_total P hsy hsy2 hm1 hm2 hE hp hos hn hL hs hsh href ms w (fun k hk => hms k (by simp [hk])) h2
    refine ⟨w', ?_, k2⟩
    unfold secondPerMode
    rw [hsh m hm]
    show thenTry (secondTrain P P.syms4 (pilotWindow P rx (s m)) (some [m]) wx) _ = _
    rw [h1, thenTry_some, k1]

/-- C144: training succeeds, inside of all arrays, for every signal that contains the pilot windows of all modes: any samples, step sizes, numbers of iterations, shift factors equal or not, for the methods
that need no transmitted symbols, and as second method also the data aided one. The taps have the shape of the initial ones. -/
theorem C144_total (P : PilotEqParams) {rx : List (List ℂ)} {p L : Nat} {s : Nat → Nat} {shifts : List Int} (hsy : P.symsP ≠ []) (hsy2 : P.syms4 ≠ [])
    (hm1 : P.methods.1 ∈ blindMethods) (hm2 : P.methods.2 ∈ blindMethods ∨ P.methods.2 = "sbd_data") (hE : Rect rx p L) (hp : 1 ≤ p) (hos : 0 < P.os)
    (hn : 1 ≤ P.ntaps) (hL : P.ntaps * P.os ≤ P.seqLen * P.os + P.ntaps - 1) (hs : ∀ m < p, s m + P.seqLen * P.os + P.ntaps ≤ L + 1) (hsh : ∀ m < p, shifts[m]? = some (s m : Int)) (href : Rect P.ref p P.seqLen) :
    ∃ w, equalizePilotSequence P rx shifts false none = .ok (some (w, List.replicate p 0)) ∧ GoodTaps w p P.ntaps := by
  have hmix : mixedMethods P.methods = false := by
    have a : ∀ m, m ∈ blindMethods ∨ m = "sbd_data" → m ∉ realValued := by
      intro m hm
      unfold blindMethods at hm
      simp only [List.mem_cons, List.not_mem_nil, or_false] at hm
      rcases hm with (rfl | rfl | rfl | rfl | rfl | rfl | rfl | rfl) | rfl <;> decide
    unfold mixedMethods
    simp [a _ (Or.inl hm1), a _ hm2]
  have hfin : ∀ (t : Option (List (List (List ℂ))) × List (List ℂ)) (w : List (List (List ℂ))), firstStage P rx shifts none = .ok (some t) → secondStage P rx shifts none t.1 = .ok (some w) →
      equalizePilotSequence P rx shifts false none = .ok (some (w, List.replicate p 0)) := by
    intro t w h1 h2
    unfold equalizePilotSequence
    rw [hmix, h1]
    show thenTry (secondStage P rx shifts none t.1) (fun w => .ok (some (w, List.replicate rx.length 0))) = _
    rw [h2, thenTry_some, hE.1]
  cases hsev : severalValues shifts with
  | true =>
    obtain ⟨t, h1, h2, h3⟩ := firstPerMode_total P hsy hm1 hE hp hos hn hL hs hsh href (List.range p) none (fun m hm => List.mem_range.1 hm) (fun w hw => by cases hw)
    obtain ⟨w0, hw0⟩ := Option.ne_none_iff_exists'.1 (h3 (Or.inl (by simp; omega)))
    obtain ⟨w, k1, k2⟩ := secondPerMode_total P hsy hsy2 hm1 hm2 hE hp hos hn hL hs hsh href (List.range p) w0 (fun m hm => List.mem_range.1 hm) (h2 w0 hw0)
    refine ⟨w, hfin t w ?_ ?_, k2⟩
    · unfold firstStage
      rw [hsev, if_pos rfl, hE.1, h1]
    · unfold secondStage
      rw [hw0]
      dsimp only
      rw [hsev, if_pos rfl, hE.1, k1]
  | false =>
    obtain ⟨ss, rfl⟩ : ∃ ss, shifts = (s 0 : Int) :: ss := by
      have := hsh 0 (by omega)
      rcases shifts with _ | ⟨a, ss⟩
      · cases this
      · simp at this; exact ⟨ss, by rw [this]⟩
    have hw := (pilotWindow_rect P hE hn (hs 0 (by omega))).1
    obtain ⟨o, h1, h2, -⟩ := apply_total (mu := P.mu.1) (nIter := P.nIter) (adaptive := P.adaptive) (modes := none) (wxy := none) hsy hm1 href hw hp hos hn hL (ms := List.range p)
      rfl (fun k hk => List.mem_range.1 hk) (fun w hw => by cases hw)
    obtain ⟨w, k1, k2⟩ := secondTrain_total P (syms2 := P.symsP) (modes := none) hsy hsy hm1 hm2 href hw hp hos hn hL (ms := List.range p) rfl (fun k hk => List.mem_range.1 hk) h2
    refine ⟨w, hfin (some o.2.wx, o.1) w ?_ ?_, k2⟩
    · unfold firstStage firstCommon
      rw [hsev]
      simp only [Bool.false_eq_true, if_false]
      rw [h1, thenTry_some]
    · unfold secondStage secondCommon
      rw [hsev]
      simp only [Bool.false_eq_true, if_false]
      exact k1

/-! ### Counterexamples -/

/-- A window of two modes with one large sample in each. -/
def cellE : List (List ℂ) := [[2, 0, 0], [0, 2, 0]]

theorem cell_run0 : trainMode cmaError adaptStep true cellE 2 1 1 1 [1] [[1], [0]] 1 = some { w := [[-11], [0]], mu := 1 / 37, errs := [0, -6] } := by
  simp [trainMode, List.range_succ, trainStep, window, applyFilter, at2, cmaError, updateTaps, nextMu, cellE, adaptStep, map_ofNat]
  norm_num

theorem cell_run1 (mu : ℝ) : ∃ mu' errs, trainMode cmaError adaptStep true cellE 2 1 1 1 [1] [[0], [1]] mu = some { w := [[0], [1 - 12 * mu]], mu := mu', errs := errs } := by
  simp [trainMode, List.range_succ, trainStep, window, applyFilter, at2, cmaError, updateTaps, nextMu, cellE, adaptStep, map_ofNat]
  norm_num
  ring

theorem cell_zero0 : ∃ errs, trainMode cmaError adaptStep true cellE 2 1 1 1 [1] [[1], [0]] 0 = some { w := [[1], [0]], mu := 0, errs := errs } := by
  simp [trainMode, List.range_succ, trainStep, window, applyFilter, at2, cmaError, updateTaps, nextMu, cellE, adaptStep]

theorem cell_zero1 : ∃ errs, trainMode cmaError adaptStep true cellE 2 1 1 1 [1] [[0], [1]] 0 = some { w := [[0], [1]], mu := 0, errs := errs } := by
  simp [trainMode, List.range_succ, trainStep, window, applyFilter, at2, cmaError, updateTaps, nextMu, cellE, adaptStep]

/-- The constellation used by the equaliser for `2 ^ k` points. -/
noncomputable def eqConst (k : Nat) : List ℂ := (symbolsQam k).map (toComplex (√(scalingFactor k : ℝ)))

theorem eqConst_sq {k : Nat} (hk : 0 ≤ (scalingFactor k : ℝ)) {x : ℂ} (hx : x ∈ eqConst k) : ∃ q ∈ symbolsQam k, ‖x‖ ^ 2 = (sqNorm q : ℝ) / (scalingFactor k : ℝ) := by
  obtain ⟨q, hq, rfl⟩ := List.mem_map.1 hx
  exact ⟨q, hq, by rw [normSq_toComplex, Real.sq_sqrt hk]⟩

theorem eqConst4_norm {x : ℂ} (hx : x ∈ eqConst 2) : ‖x‖ ^ 2 = 1 := by
  obtain ⟨q, hq, h⟩ := eqConst_sq (by unfold scalingFactor; norm_num) hx
  have : sqNorm q = 2 := by
    have hall : ∀ q ∈ symbolsQam 2, sqNorm q = 2 := by decide
    exact hall q hq
  rw [h, this]
  unfold scalingFactor
  norm_num

theorem eqConst_ne (k : Nat) : eqConst k ≠ [] := by
  intro h
  have := length_scaled k (√(scalingFactor k : ℝ))
  unfold eqConst at h
  rw [h] at this
  have h2 : 0 < 2 ^ k := by positivity
  simp at this
  omega

theorem rConstant_qpsk : rConstant (eqConst 2) = 1 := by
  unfold rConstant meanReal
  have h2 : (eqConst 2).map (fun s => ‖s‖ ^ 2) = (eqConst 2).map fun _ => (1 : ℝ) := List.map_congr_left fun s hs => eqConst4_norm hs
  have h4 : (eqConst 2).map (fun s => ‖s‖ ^ 4) = (eqConst 2).map fun _ => (1 : ℝ) := List.map_congr_left fun s hs => by
    rw [show ‖s‖ ^ 4 = (‖s‖ ^ 2) ^ 2 by ring, eqConst4_norm hs, one_pow]
  have hl : (eqConst 2).length = 4 := length_scaled 2 _
  rw [h2, h4]
  rw [List.map_const', List.sum_replicate, hl]
  norm_num

theorem cma_rows (syms : List ℂ) (symbols : Option (List (List ℂ))) (p : Nat) : reshapeSymbols (generateSymbols "cma" syms) symbols "cma" p = .ok (List.replicate p [(rConstant syms : ℂ)]) := by
  have hg : generateSymbols "cma" syms = .ok [[(rConstant syms : ℂ)]] := by simp [generateSymbols]
  have : selectSymbols (generateSymbols "cma" syms) symbols "cma" = .ok [[(rConstant syms : ℂ)]] := by
    unfold selectSymbols
    rcases symbols with _ | t
    · exact hg
    · dsimp only
      rw [if_pos (by decide), hg]
  unfold reshapeSymbols
  rw [this]
  rfl

/-- The parameters of the counterexample for C144. -/
noncomputable def cellP : PilotEqParams :=
  { symsP := eqConst 2, syms4 := eqConst 2, ref := [[1, 1, 1], [1, 1, 1]], seqLen := 3, os := 1, mu := (0, 1), ntaps := 1, nIter := 1, adaptive := true, methods := ("cma", "cma") }

def cellRx : List (List ℂ) := [[2, 0, 0, 0], [0, 2, 0, 0]]

theorem cell_window : pilotWindow cellP cellRx 0 = cellE := rfl

theorem cell_modeRun (mu : ℝ) (symbols : Option (List (List ℂ))) (m : Nat) (hm : m < 2) (w : List (List ℂ)) :
    modeRun cellP (eqConst 2) "cma" mu symbols cellE m w = (trainMode cmaError adaptStep true cellE 2 1 1 1 [1] w mu).map fun st => st.w := by
  unfold modeRun
  have h1 : trainingLen none cellP.os cellP.ntaps (columns cellE) = .ok 2 := by decide
  have h2 : reshapeSymbols (generateSymbols "cma" (eqConst 2)) symbols "cma" cellE.length = .ok (List.replicate 2 [1]) := by
    rw [cma_rows, rConstant_qpsk, Complex.ofReal_one]; rfl
  rw [h1, h2]
  show ((List.replicate 2 [(1 : ℂ)])[m]?).bind _ = _
  rw [List.getElem?_replicate, if_pos hm, Option.bind_some]
  rfl

theorem cell_pilotRun : pilotRun cellP cellP.syms4 cellRx 0 1 [[0], [1]] = some [[0], [-11]] := by
  obtain ⟨errs, h0⟩ := cell_zero1
  obtain ⟨mu', errs', h1⟩ := cell_run1 1
  unfold pilotRun secondRun
  rw [cell_window]
  show (modeRun cellP (eqConst 2) "cma" 0 none cellE 1 [[0], [1]]).bind (fun w => (modeRun cellP (eqConst 2) "cma" 0 _ cellE 1 w).bind (modeRun cellP (eqConst 2) "cma" 1 _ cellE 1)) = _
  rw [cell_modeRun _ _ _ (by norm_num), h0, Option.map_some, Option.bind_some, cell_modeRun _ _ _ (by norm_num), h0, Option.map_some, Option.bind_some, cell_modeRun _ _ _ (by norm_num), h1, Option.map_some]
  norm_num

theorem cell_train (mu : ℝ) (wxy : Option (List (List (List ℂ)))) (hw : wxy = none ∨ wxy = some [[[1], [0]], [[0], [1]]]) (symbols : Option (List (List ℂ))) (hmu : mu = 0 ∨ mu = 1) :
    ∃ r, equaliseSignal (eqConst 2) cellE (columns cellE) 1 mu wxy 1 none 1 "cma" true symbols none = .ok (some r) ∧
      r.wx = if mu = 0 then [[[1], [0]], [[0], [1]]] else [[[-11], [0]], [[0], [25 / 37]]] := by
  have h2 : reshapeSymbols (generateSymbols "cma" (eqConst 2)) symbols "cma" cellE.length = .ok (List.replicate 2 [1]) := by
    rw [cma_rows, rConstant_qpsk, Complex.ofReal_one]; rfl
  have h1 : trainingLen none 1 1 (columns cellE) = .ok 2 := by decide
  have h3 : startTaps wxy 1 cellE.length = .ok [[[1], [0]], [[0], [1]]] := by
    rcases hw with rfl | rfl
    · simp [startTaps, initTaps, cellE, List.range_succ]
    · simp [startTaps, cellE]
  have key : ∀ r, trainEqualiser cmaError adaptStep true cellE 2 1 1 mu [[[1], [0]], [[0], [1]]] 1 [0, 1] (List.replicate 2 [1]) = some r →
      equaliseSignal (eqConst 2) cellE (columns cellE) 1 mu wxy 1 none 1 "cma" true symbols none = .ok (some r) := by
    intro r hr
    unfold equaliseSignal
    rw [h3, h1, h2]
    show Except.ok (trainEqualiser cmaError adaptStep true cellE 2 1 1 mu [[[1], [0]], [[0], [1]]] 1 [0, 1] (List.replicate 2 [1])) = _
    rw [hr]
  obtain ⟨e0, z0⟩ := cell_zero0
  obtain ⟨e1, z1⟩ := cell_zero1
  have r0 := cell_run0
  obtain ⟨mu', e2, r1⟩ := cell_run1 (1 / 37)
  rcases hmu with rfl | rfl
  · refine ⟨{ err := [e0.reverse, e1.reverse], wx := [[[1], [0]], [[0], [1]]], mu := 0 }, key _ ?_, ?_⟩
    · unfold trainEqualiser
      simp only [List.foldlM_cons, List.foldlM_nil, List.replicate, List.getElem?_cons_zero, List.getElem?_cons_succ, Option.bind_eq_bind, Option.bind_some, z0, z1, List.set_cons_zero, List.set_cons_succ]
      rfl
    · simp
  · refine ⟨{ err := [[-6, 0], e2.reverse], wx := [[[-11], [0]], [[0], [1 - 12 * ((1 / 37 : ℝ) : ℂ)]]], mu := mu' }, key _ ?_, ?_⟩
    · unfold trainEqualiser
      simp only [List.foldlM_cons, List.foldlM_nil, List.replicate, List.getElem?_cons_zero, List.getElem?_cons_succ, Option.bind_eq_bind, Option.bind_some, r0, r1, List.set_cons_zero, List.set_cons_succ]
      rfl
    · simp
      norm_num

/-- The full claim: also with an adaptive step size. -/
def C144_statement : Prop :=
  ∀ (P : PilotEqParams) (rx : List (List ℂ)) (shifts shifts' : List Int) (wxinit : Option (List (List (List ℂ)))) (r r' : List (List (List ℂ)) × List ℝ) (m : Nat), P.symsP = P.syms4 →
    equalizePilotSequence P rx shifts false wxinit = .ok (some r) → equalizePilotSequence P rx shifts' false wxinit = .ok (some r') → m < rx.length → m < shifts.length → m < shifts'.length →
    shifts[m]? = shifts'[m]? → r.1[m]? = r'.1[m]?

/-- With the default adaptive step size and a common shift factor, the step size left by a mode is the one the next mode starts with; with differing shift factors each mode starts with the given one. -/
theorem C144_false : ¬ C144_statement := by
  intro h
  have hE : Rect cellRx 2 4 := ⟨rfl, by simp [cellRx]⟩
  obtain ⟨w, hw, -⟩ := C144_total cellP (s := fun m => if m = 0 then 1 else 0) (shifts := [1, 0]) (eqConst_ne 2) (eqConst_ne 2) (by decide) (Or.inl (by decide)) hE (by norm_num) (by decide) (by decide) (by decide)
    (by decide) (by decide) ⟨rfl, by simp [cellP]⟩
  obtain ⟨w0, s, v, e1, e2, e3, e4, -⟩ := C144_own_window (m := 1) (by decide) hw (by decide)
  have es : s = 0 := by simpa using e2.symm
  have ew : w0 = [[[1], [0]], [[0], [1]]] := by
    have : startTaps (none : Option (List (List (List ℂ)))) cellP.ntaps cellRx.length = .ok [[[1], [0]], [[0], [1]]] := by simp [startTaps, initTaps, cellRx, cellP, List.range_succ]
    rw [this] at e1
    injection e1 with e1
    exact e1.symm
  subst es ew
  have ev : v = [[0], [1]] := by simpa using e3.symm
  subst ev
  rw [cell_pilotRun] at e4
  obtain ⟨r1, k1, k2⟩ := cell_train 0 none (Or.inl rfl) none (Or.inl rfl)
  obtain ⟨r2, l1, l2⟩ := cell_train 0 (some r1.wx) (Or.inr (by rw [k2]; simp)) (some cellP.ref) (Or.inl rfl)
  obtain ⟨r3, n1, n2⟩ := cell_train 1 (some r2.wx) (Or.inr (by rw [l2]; simp)) (some cellP.ref) (Or.inr rfl)
  obtain ⟨o, ho, ho2, -⟩ := apply_total (syms := eqConst 2) (ref := cellP.ref) (E := cellE) (p := 2) (N := 3) (os := 1) (ntaps := 1) (nIter := 1) (mu := 0) (wxy := none) (method := "cma") (adaptive := true) (modes := none) (ms := [0, 1])
    (eqConst_ne 2) (by decide) ⟨rfl, by simp [cellP]⟩ ⟨rfl, by simp [cellE]⟩ (by norm_num) (by norm_num) (by norm_num) (by norm_num) rfl (by decide) (by simp)
  have ho3 := equaliseSignalApply_ok ho
  rw [k1] at ho3
  have ho4 : r1 = o.2 := by injection ho3 with ho3; injection ho3
  have hcommon : equalizePilotSequence cellP cellRx [0, 0] false none = .ok (some (r3.wx, List.replicate 2 0)) := by
    unfold equalizePilotSequence firstStage secondStage firstCommon
    rw [show mixedMethods cellP.methods = false by decide, show severalValues [0, 0] = false by decide]
    simp only [Bool.false_eq_true, if_false]
    rw [cell_window]
    change thenTry (thenTry (equaliseSignalApply (eqConst 2) cellE (columns cellE) 1 0 none 1 none 1 "cma" true none none) _) _ = _
    rw [ho, thenTry_some, thenTry_some]
    change thenTry (secondTrain cellP (eqConst 2) cellE none o.2.wx) _ = _
    unfold secondTrain
    change thenTry (thenTry (equaliseSignal (eqConst 2) cellE (columns cellE) 1 0 (some o.2.wx) 1 none 1 "cma" true (some cellP.ref) none) (fun r => thenTry (equaliseSignal (eqConst 2) cellE (columns cellE) 1 1 (some r.wx) 1 none 1 "cma" true (some cellP.ref) none) _)) _ = _
    rw [← ho4, l1, thenTry_some, n1]
    rfl
  have := h cellP cellRx [1, 0] [0, 0] none _ _ 1 rfl hw hcommon (by decide) (by decide) (by decide) rfl
  rw [e4, n2] at this
  norm_num at this

theorem rde_rows (syms : List ℂ) (symbols : Option (List (List ℂ))) (p : Nat) : reshapeSymbols (generateSymbols "rde" syms) symbols "rde" p = .ok (List.replicate p (partitionCodesRadius syms)) := by
  have hg : generateSymbols "rde" syms = .ok [partitionCodesRadius syms] := by simp [generateSymbols]
  have : selectSymbols (generateSymbols "rde" syms) symbols "rde" = .ok [partitionCodesRadius syms] := by
    unfold selectSymbols
    rcases symbols with _ | t
    · exact hg
    · dsimp only
      rw [if_pos (by decide), hg]
  unfold reshapeSymbols
  rw [this]
  rfl

/-- The outermost point of 16-QAM. -/
noncomputable def corner : ℂ := toComplex (√(scalingFactor 4 : ℝ)) (3, 3)

theorem corner_mem : corner ∈ eqConst 4 := List.mem_map_of_mem (by decide)

theorem corner_sq : ‖corner‖ ^ 2 = 9 / 5 := by
  unfold corner
  rw [normSq_toComplex, Real.sq_sqrt (by unfold scalingFactor; norm_num)]
  unfold scalingFactor sqNorm
  norm_num

/-- 16-QAM pilots, radius directed equalisation. -/
noncomputable def ringP : PilotEqParams :=
  { symsP := eqConst 4, syms4 := eqConst 2, ref := [[corner, corner], [corner, corner]], seqLen := 2, os := 1, mu := (1, 1), ntaps := 1, nIter := 1, adaptive := false, methods := ("rde", "rde") }

noncomputable def ringRx : List (List ℂ) := [[corner, corner, corner], [corner, corner, corner]]

theorem ring_modeRun (syms : List ℂ) (symbols : Option (List (List ℂ))) (e : ℂ) (he : rdeError corner (partitionCodesRadius syms) 0 = some e) :
    modeRun ringP syms "rde" 1 symbols [[corner, corner], [corner, corner]] 0 [[1], [0]] = some [[1 + e * star corner], [e * star corner]] := by
  unfold modeRun
  have h1 : trainingLen none ringP.os ringP.ntaps (columns [[corner, corner], [corner, corner]]) = .ok 1 := rfl
  rw [h1, rde_rows]
  show ((List.replicate 2 (partitionCodesRadius syms))[0]?).bind (fun row => (trainMode rdeError adaptStep false [[corner, corner], [corner, corner]] 1 1 1 1 row [[1], [0]] 1).map fun st => st.w) = _
  simp only [List.replicate, List.getElem?_cons_zero, Option.bind_some]
  simp [trainMode, List.range_succ, trainStep, window, applyFilter, at2, updateTaps, nextMu, he]

/-- The full claim: transparency also for differing shift factors, for pilots of any QAM order. -/
def C143_statement : Prop :=
  ∀ (k : Nat) (P : PilotEqParams) (rx : List (List ℂ)) (p L : Nat) (s : Nat → Nat) (shifts : List Int), P.symsP = eqConst k → P.syms4 = eqConst 2 → Rect rx p L → 1 ≤ p → 0 < P.os → 1 ≤ P.ntaps →
    P.ntaps * P.os ≤ P.seqLen * P.os + P.ntaps - 1 → (∀ m < p, s m + P.seqLen * P.os + P.ntaps ≤ L + 1) → (∀ m < p, shifts[m]? = some (s m : Int)) → Rect P.ref p P.seqLen →
    (P.methods.1 ∈ realValued ↔ P.methods.2 ∈ realValued) → (∀ m < p, PilotPerfect P P.symsP rx (s m) m) →
    equalizePilotSequence P rx shifts false none = .ok (some (initTaps P.ntaps p, List.replicate p 0))

/-- Undistorted 16-QAM pilots with differing shift factors: the last training drives them to the radius of QPSK. -/
theorem C143_false : ¬ C143_statement := by
  intro h
  have hx : ∀ i m x, at2 ringRx m i = some x → x = corner := by
    intro i m x hx
    unfold at2 ringRx at hx
    rw [Option.bind_eq_some_iff] at hx
    obtain ⟨r, hr, hx⟩ := hx
    have h1 := List.mem_of_getElem? hr
    have h2 := List.mem_of_getElem? hx
    simp at h1
    rw [h1] at h2
    simpa using h2
  have hst : ∀ (symbols : Option (List (List ℂ))) (m i : Nat), m < 2 → StagePerfect "rde" (eqConst 4) symbols 2 m i corner := fun symbols m i hm =>
    ⟨_, _, rde_rows _ _ _, by rw [List.getElem?_replicate, if_pos hm], eqConst 4, rfl, corner, corner_mem, rfl⟩
  have hres := h 4 ringP ringRx 2 3 (fun m => m) [0, 1] rfl rfl ⟨rfl, by simp [ringRx]⟩ (by norm_num) (by decide) (by decide) (by decide) (by decide) (by decide) ⟨rfl, by simp [ringP]⟩ Iff.rfl (by
    intro m hm i _ x hx'
    rw [hx _ _ x hx']
    exact ⟨hst _ m i hm, hst _ m i hm, hst _ m i hm⟩)
  obtain ⟨w0, s, v, e1, e2, e3, e4, -⟩ := C144_own_window (m := 0) (by decide) hres (by decide)
  have es : s = 0 := by simpa using e2.symm
  have ew : w0 = [[[1], [0]], [[0], [1]]] := by
    have : startTaps (none : Option (List (List (List ℂ)))) ringP.ntaps ringRx.length = .ok [[[1], [0]], [[0], [1]]] := by simp [startTaps, initTaps, ringRx, ringP, List.range_succ]
    rw [this] at e1
    injection e1 with e1
    exact e1.symm
  subst es ew
  have ev : v = [[1], [0]] := by simpa using e3.symm
  subst ev
  obtain ⟨c, hc, hr, hmin⟩ := C30_rde_codes (eqConst 4) (eqConst_ne 4) corner
  have hc0 := hmin corner corner_mem
  rw [sub_self, abs_zero, abs_nonpos_iff, sub_eq_zero] at hc0
  rw [← hc0, sub_self, Complex.ofReal_zero, mul_zero] at hr
  obtain ⟨d, hd, hr2, -⟩ := C30_rde_codes (eqConst 2) (eqConst_ne 2) corner
  rw [eqConst4_norm hd, corner_sq] at hr2
  have hwin : pilotWindow ringP ringRx 0 = [[corner, corner], [corner, corner]] := rfl
  have hrun : pilotRun ringP ringP.syms4 ringRx 0 0 [[1], [0]] = some [[1 + corner * ((1 - 9 / 5 : ℝ) : ℂ) * star corner], [corner * ((1 - 9 / 5 : ℝ) : ℂ) * star corner]] := by
    unfold pilotRun secondRun
    rw [hwin]
    show (modeRun ringP (eqConst 4) "rde" 1 none [[corner, corner], [corner, corner]] 0 [[1], [0]]).bind (fun w => (modeRun ringP (eqConst 4) "rde" 1 _ _ 0 w).bind (modeRun ringP (eqConst 2) "rde" 1 _ _ 0)) = _
    rw [ring_modeRun _ _ _ hr, zero_mul, add_zero, Option.bind_some, ring_modeRun _ _ _ hr, zero_mul, add_zero, Option.bind_some, ring_modeRun _ _ _ hr2]
  rw [hrun] at e4
  have e5 : [[(1 : ℂ)], [0]] = [[1 + corner * ((1 - 9 / 5 : ℝ) : ℂ) * star corner], [corner * ((1 - 9 / 5 : ℝ) : ℂ) * star corner]] := by
    have h0 : (initTaps ringP.ntaps 2 : List (List (List ℂ)))[0]? = some [[1], [0]] := by simp [initTaps, ringP, List.range_succ]
    rw [h0, Option.some.injEq] at e4
    exact e4
  have e6 : corner * ((1 - 9 / 5 : ℝ) : ℂ) * star corner = 0 := by
    have := congrArg (fun l => (l[1]?.bind fun r => r[0]?)) e5
    simpa using this.symm
  have e7 : corner ≠ 0 := by
    intro h0
    have := corner_sq
    rw [h0] at this
    norm_num at this
  rw [mul_eq_zero, mul_eq_zero, Complex.ofReal_eq_zero, star_eq_zero] at e6
  rcases e6 with (h0 | h0) | h0
  · exact e7 h0
  · norm_num at h0
  · exact e7 h0

/-- Non-vacuity: the same pilots with a common shift factor leave the initial taps as they are. -/
example : equalizePilotSequence ringP ringRx [1, 1] false none = .ok (some (initTaps 1 2, [0, 0])) :=
  C143_common_partial ringP (p := 2) (L := 3) (s := 1) ⟨rfl, by simp [ringRx]⟩ (by norm_num) (by decide) (by decide) (by decide) (by decide) (by simp) (by simp) Iff.rfl (by
    intro m hm i _ x hx'
    have hx : x = corner := by
      unfold at2 ringRx at hx'
      rw [Option.bind_eq_some_iff] at hx'
      obtain ⟨r, hr, hx⟩ := hx'
      have h1 := List.mem_of_getElem? hr
      have h2 := List.mem_of_getElem? hx
      simp at h1
      rw [h1] at h2
      simpa using h2
    rw [hx]
    have hst : ∀ symbols : Option (List (List ℂ)), StagePerfect "rde" (eqConst 4) symbols 2 m i corner := fun symbols =>
      ⟨_, _, rde_rows _ _ _, by rw [List.getElem?_replicate, if_pos hm], eqConst 4, rfl, corner, corner_mem, rfl⟩
    exact ⟨hst _, hst _, hst _⟩)

/-- Non-vacuity of the mode independence: the counterexample signal itself, with a successful run. -/
example : ∃ w, equalizePilotSequence cellP cellRx [1, 0] false none = .ok (some (w, [0, 0])) ∧ w[1]? = some ([[0], [-11]] : List (List ℂ)) := by
  obtain ⟨w, hw, -⟩ := C144_total cellP (rx := cellRx) (p := 2) (L := 4) (s := fun m => if m = 0 then 1 else 0) (shifts := [1, 0]) (eqConst_ne 2) (eqConst_ne 2) (by decide) (Or.inl (by decide)) ⟨rfl, by simp [cellRx]⟩ (by norm_num)
    (by decide) (by decide) (by decide) (by decide) (by decide) ⟨rfl, by simp [cellP]⟩
  obtain ⟨w0, s, v, e1, e2, e3, e4, -⟩ := C144_own_window (m := 1) (by decide) hw (by decide)
  have es : s = 0 := by simpa using e2.symm
  have ew : [[[1], [0]], [[0], [1]]] = w0 := by
    have : startTaps (none : Option (List (List (List ℂ)))) cellP.ntaps cellRx.length = .ok [[[1], [0]], [[0], [1]]] := by simp [startTaps, initTaps, cellRx, cellP, List.range_succ]
    rw [this] at e1
    injection e1
  subst es ew
  have ev : v = [[0], [1]] := by simpa using e3.symm
  subst ev
  exact ⟨w, hw, e4.trans cell_pilotRun⟩

/-! ### The data aided method first -/

/-- The first stage is called without symbols, so the data aided method cannot come first: every signal raises. -/
theorem C143_data_first (P : PilotEqParams) (hm : P.methods.1 = "sbd_data") (rx : List (List ℂ)) (hrx : rx ≠ []) (shifts : List Int) (foeComp : Bool) (wxinit : Option (List (List (List ℂ)))) :
    ∃ e, equalizePilotSequence P rx shifts foeComp wxinit = .error e := by
  have hraise : ∀ (E : List (List ℂ)) (L : Nat) (wx : Option (List (List (List ℂ)))) (modes : Option (List Nat)),
      ∃ e, equaliseSignalApply P.symsP E L P.os P.mu.1 wx P.ntaps none P.nIter P.methods.1 P.adaptive none modes = .error e := by
    intro E L wx modes
    rw [hm]
    unfold equaliseSignalApply equaliseSignal
    cases chooseModes modes E.length with
    | error e => exact ⟨e, rfl⟩
    | ok ms =>
      cases startTaps wx P.ntaps E.length with
      | error e => exact ⟨e, rfl⟩
      | ok w =>
        cases trainingLen none P.os P.ntaps L with
        | error e => exact ⟨e, rfl⟩
        | ok T =>
          have : reshapeSymbols (generateSymbols "sbd_data" P.symsP) none "sbd_data" E.length = .error .value := by
            have hg : generateSymbols "sbd_data" P.symsP = .error .value := by simp [generateSymbols]
            unfold reshapeSymbols selectSymbols
            rw [hg]
            rfl
          rw [this]
          exact ⟨.value, rfl⟩
  have hfirst : ∃ e, firstStage P rx shifts wxinit = .error e := by
    unfold firstStage
    split
    · obtain ⟨n, hn⟩ : ∃ n, List.range rx.length = 0 :: n := by
        rcases rx with _ | ⟨a, rx⟩
        · exact absurd rfl hrx
        · exact ⟨_, List.range_succ_eq_map⟩
      rw [hn]
      unfold firstPerMode
      split
      · exact ⟨_, rfl⟩
      · next s hs =>
        obtain ⟨e, he⟩ := hraise (pilotWindow P rx s) (columns (pilotWindow P rx s)) wxinit (some [0])
        rw [he]
        exact ⟨e, rfl⟩
    · rcases shifts with _ | ⟨s, ss⟩
      · exact ⟨_, rfl⟩
      · dsimp only
        obtain ⟨e, he⟩ := hraise (pilotWindow P rx s) (columns (pilotWindow P rx s)) wxinit none
        unfold firstCommon
        rw [he]
        exact ⟨e, rfl⟩
  unfold equalizePilotSequence
  split
  · exact ⟨_, rfl⟩
  · obtain ⟨e, he⟩ := hfirst
    rw [he]
    exact ⟨e, rfl⟩

/-! ### Frequency offset -/

theorem stagePerfect_phase {method : String} (hm : method = "cma" ∨ method = "rde") {syms : List ℂ} {symbols : Option (List (List ℂ))} {p m i : Nat} {x y : ℂ} (hxy : ‖x‖ = ‖y‖)
    (h : StagePerfect method syms symbols p m i y) : StagePerfect method syms symbols p m i x := by
  obtain ⟨rows, row, h1, h2, h3⟩ := h
  refine ⟨rows, row, h1, h2, ?_⟩
  rcases hm with rfl | rfl
  · obtain ⟨R, a, b⟩ := h3
    exact ⟨R, a, by rw [hxy]; exact b⟩
  · obtain ⟨S, a, c, hc, b⟩ := h3
    exact ⟨S, a, c, hc, by rw [hxy]; exact b⟩

theorem norm_rot (t : ℝ) : ‖Complex.exp (I * (t : ℂ))‖ = 1 := by rw [mul_comm]; exact Complex.norm_exp_ofReal_mul_I t

theorem compFreq_const {sig : List (List ℂ)} {p N : Nat} (hE : Rect sig p N) (f os : ℝ) :
    ∃ out, compFreqOffset sig (List.replicate p f) os = .ok out ∧ Rect out p N ∧ ∀ (m n : Nat) (x : ℂ), at2 out m n = some x → ∃ y, at2 sig m n = some y ∧ ‖x‖ = ‖y‖ := by
  obtain ⟨g, hg⟩ : ∃ g : List ℂ → List ℂ, g = fun r => r.mapIdx fun (n : Nat) x => x * Complex.exp (-(I * ((2 * Real.pi * ((n : ℝ) + 1) * f / os : ℝ) : ℂ))) := ⟨_, rfl⟩
  have hout : compFreqOffset sig (List.replicate p f) os = .ok (sig.map g) := by
    unfold compFreqOffset
    have h1 : (List.range sig.length).map (fun l => g (sig.getD l [])) = sig.map g := by
      apply List.ext_getElem
      · simp
      · intro i h1 h2
        simp only [List.length_map, List.length_range] at h1
        simp [h1]
    rw [← h1]
    refine mapM_ok fun l hl => ?_
    have hl' := List.mem_range.1 hl
    rw [List.getElem?_replicate, if_pos (by rw [← hE.1]; exact hl'), List.getElem?_eq_getElem hl', hg, List.getD_eq_getElem _ _ hl']
  refine ⟨_, hout, ⟨by simpa using hE.1, ?_⟩, ?_⟩
  · intro r hr
    obtain ⟨q, hq, rfl⟩ := List.mem_map.1 hr
    rw [hg]
    simpa using hE.2 q hq
  · intro m n x hx
    unfold at2 at hx
    rw [List.getElem?_map] at hx
    cases hm : sig[m]? with
    | none => rw [hm] at hx; simp at hx
    | some r =>
      rw [hm, Option.map_some, Option.bind_some, hg, List.getElem?_mapIdx] at hx
      cases hn : r[n]? with
      | none => rw [hn] at hx; simp at hx
      | some y =>
        rw [hn, Option.map_some, Option.some.injEq] at hx
        refine ⟨y, by unfold at2; rw [hm, Option.bind_some, hn], ?_⟩
        rw [← hx, norm_mul, show -(I * ((2 * Real.pi * ((n : ℝ) + 1) * f / os : ℝ) : ℂ)) = I * ((-(2 * Real.pi * ((n : ℝ) + 1) * f / os) : ℝ) : ℂ) by push_cast; ring, norm_rot, mul_one]

/-- C143 with frequency recovery: let the received signal be an undistorted one, `y`, turned by a constant phase in each mode, with a frequency offset of `f` cycles per symbol, less than a half. With phase blind methods and a common shift factor
the function returns `f` for all modes, and the initial taps. Any number of modes, taps, samples, iterations. -/
theorem C143_carrier_partial (P : PilotEqParams) {y rx : List (List ℂ)} {p L s : Nat} {shifts : List Int} {f : ℝ} {a : Nat → Nat → ℝ} {ref : Nat → Nat → ℂ} (θ : Nat → ℝ) (hy : Rect y p L) (hE : Rect rx p L)
    (hrx : ∀ m n, m < p → n < L → val2 rx m n = val2 y m n * Complex.exp (I * ((2 * Real.pi * f * n / P.os : ℝ) : ℂ))) (hp : 1 ≤ p) (hos : 0 < P.os) (hn : 1 ≤ P.ntaps)
    (hL : P.ntaps * P.os ≤ P.seqLen * P.os + P.ntaps - 1) (h2 : 2 ≤ P.seqLen) (hs : s + P.seqLen * P.os + P.ntaps ≤ L + 1) (hsh : shifts ≠ []) (hshs : ∀ t ∈ shifts, t = s)
    (hm1 : P.methods.1 = "cma" ∨ P.methods.1 = "rde") (hm2 : P.methods.2 = "cma" ∨ P.methods.2 = "rde") (hf : |f| < 1 / 2)
    (href : P.ref = (List.range p).map fun m => (List.range P.seqLen).map (ref m)) (href0 : ∀ m < p, ∀ i < P.seqLen, ref m i ≠ 0) (ha : ∀ m < p, ∀ i < P.seqLen, 0 < a m i)
    (hsym : ∀ m < p, ∀ i < P.seqLen, val2 y m (s + (i * P.os + P.ntaps / 2)) = a m i * (ref m i * Complex.exp (I * (θ m : ℂ)))) (hperf : ∀ m < p, PilotPerfect P P.symsP y s m) :
    equalizePilotSequence P rx shifts true none = .ok (some (initTaps P.ntaps p, List.replicate p f)) := by
  have hposn : ∀ i < P.seqLen, i * P.os + P.ntaps / 2 < P.seqLen * P.os + P.ntaps - 1 := by
    intro i hi
    have : (i + 1) * P.os ≤ P.seqLen * P.os := Nat.mul_le_mul_right _ hi
    rw [Nat.add_mul] at this
    omega
  have hosR : (P.os : ℝ) ≠ 0 := by exact_mod_cast hos.ne'
  obtain ⟨hw, hwat⟩ := pilotWindow_rect P hE hn hs
  have hlen : (pilotWindow P rx s).length = p := hw.1
  -- samples at the symbol positions
  have hval : ∀ m < p, ∀ i < P.seqLen, val2 (pilotWindow P rx s) m (i * P.os + P.ntaps / 2) =
      (a m i : ℂ) * (ref m i * Complex.exp (I * ((2 * Real.pi * f * i + (2 * Real.pi * f * (s + P.ntaps / 2 : ℕ) / P.os + θ m) + 0 : ℝ) : ℂ))) := by
    intro m hm i hi
    have e1 := hwat m _ (hposn i hi)
    rw [at2_of_rect hw hm (hposn i hi), at2_of_rect hE hm (by have := hposn i hi; omega), Option.some.injEq] at e1
    rw [e1, hrx m _ hm (by have := hposn i hi; omega), hsym m hm i hi, mul_assoc, mul_assoc, ← Complex.exp_add]
    have e2 : θ m + (2 * Real.pi * f * ((s + (i * P.os + P.ntaps / 2) : ℕ) : ℝ) / P.os : ℝ) = 2 * Real.pi * f * i + (2 * Real.pi * f * (s + P.ntaps / 2 : ℕ) / P.os + θ m) + 0 := by
      push_cast
      field_simp
      ring
    rw [← e2]
    push_cast
    ring_nf
  -- phase blind: the offset does not matter to the first stage
  have hrot : ∀ m < p, ∀ i < P.seqLen, ∀ x, at2 (pilotWindow P rx s) m (i * P.os + P.ntaps / 2) = some x → ∃ z, at2 y m (s + (i * P.os + P.ntaps / 2)) = some z ∧ ‖x‖ = ‖z‖ := by
    intro m hm i hi x hx
    have hb := hposn i hi
    refine ⟨_, at2_of_rect hy hm (by omega), ?_⟩
    rw [hwat m _ hb, at2_of_rect hE hm (by omega), Option.some.injEq] at hx
    rw [← hx, hrx m _ hm (by omega), norm_mul, norm_rot, mul_one]
  have hfoe : pilotTrainFoe P true ((List.range p).map (windowSymbols P (pilotWindow P rx s))) = .ok (some (List.replicate p f)) := by
    obtain ⟨avg, per, ph', g1, g2, g3⟩ := C129_error p P.seqLen h2 hp ref href0 a ha (fun _ => f) (fun m => 2 * Real.pi * f * (s + P.ntaps / 2 : ℕ) / P.os + θ m) (fun _ _ => 0) 0 le_rfl (by simp) (by
      intro l _
      have := Real.pi_pos
      nlinarith)
    have hin : (List.range p).map (windowSymbols P (pilotWindow P rx s)) = (List.range p).map fun l => (List.range P.seqLen).map fun k : ℕ =>
        (a l k : ℂ) * (ref l k * Complex.exp (I * ((2 * Real.pi * f * k + (2 * Real.pi * f * (s + P.ntaps / 2 : ℕ) / P.os + θ l) + 0 : ℝ) : ℂ))) := by
      apply List.map_congr_left
      intro m hm
      unfold windowSymbols
      apply List.map_congr_left
      intro i hi
      exact hval m (List.mem_range.1 hm) i (List.mem_range.1 hi)
    unfold pilotTrainFoe
    rw [if_pos rfl, hin, href, g1]
    simp only [Except.bind, List.length_map, List.length_range]
    have : avg = f := by
      have h0 : (∑ l ∈ Finset.range p, f) / (p : ℝ) = f := by
        rw [Finset.sum_const, Finset.card_range, nsmul_eq_mul]
        have : (p : ℝ) ≠ 0 := by exact_mod_cast (by omega : p ≠ 0)
        field_simp
      rw [h0] at g3
      simp only [zero_div, zero_mul] at g3
      linarith [abs_nonpos_iff.1 g3]
    rw [this]
  obtain ⟨E', k1, k2, k3⟩ := compFreq_const hw f P.os
  refine C143_foe_partial P hE hp hos hn hL hs hsh hshs ?_ hfoe (show secondWindow P rx s (some (List.replicate p f)) = .ok E' from k1) k2 ?_
  · rcases hm1 with h | h <;> rcases hm2 with h' | h' <;> rw [h, h']
    · exact ⟨fun h => absurd h (by decide), fun h => absurd h (by decide)⟩
    · exact ⟨fun h => absurd h (by decide), fun h => absurd h (by decide)⟩
  · intro m hm
    refine ⟨fun i hi x hx => ?_, fun i hi x hx => ?_, fun i hi x hx => ?_⟩
    · obtain ⟨z, z1, z2⟩ := hrot m hm i hi x hx
      rw [hlen, ← hy.1]
      exact stagePerfect_phase hm1 z2 (hperf m hm i hi z z1).1
    · obtain ⟨x', x1, x2⟩ := k3 m _ x hx
      obtain ⟨z, z1, z2⟩ := hrot m hm i hi x' x1
      rw [k2.1, ← hy.1]
      exact stagePerfect_phase hm1 (x2.trans z2) (hperf m hm i hi z z1).2.1
    · obtain ⟨x', x1, x2⟩ := k3 m _ x hx
      obtain ⟨z, z1, z2⟩ := hrot m hm i hi x' x1
      rw [k2.1, ← hy.1]
      exact stagePerfect_phase hm2 (x2.trans z2) (hperf m hm i hi z z1).2.2

/-- QPSK pilots, constant modulus algorithm, for the examples. -/
noncomputable def qpskP (p : Nat) : PilotEqParams :=
  { symsP := eqConst 2, syms4 := eqConst 2, ref := List.replicate p [1, 1], seqLen := 2, os := 1, mu := (1 / 1000, 1 / 1000), ntaps := 1, nIter := 30, adaptive := true, methods := ("cma", "cma") }

theorem qpsk_perfect {p m : Nat} (hm : m < p) (symbols : Option (List (List ℂ))) (i : Nat) : StagePerfect "cma" (eqConst 2) symbols p m i 1 :=
  ⟨_, _, cma_rows _ _ _, by rw [List.getElem?_replicate, if_pos hm], rConstant (eqConst 2), by simp, by rw [rConstant_qpsk]; simp⟩

/-- Non-vacuity, differing shift factors. -/
example : equalizePilotSequence (qpskP 2) [[1, 1, 1], [1, 1, 1]] [0, 1] false none = .ok (some (initTaps 1 2, [0, 0])) :=
  C143_per_mode_partial (qpskP 2) (p := 2) (L := 3) (s := fun m => m) ⟨rfl, by simp⟩ (by norm_num) (by decide) (by decide) (by decide) (by decide) (by decide) ⟨rfl, by simp [qpskP]⟩ (by decide) Iff.rfl (by
    intro m hm i _ x hx'
    have hx : x = 1 := by
      unfold at2 at hx'
      rw [Option.bind_eq_some_iff] at hx'
      obtain ⟨r, hr, hx⟩ := hx'
      have h1 := List.mem_of_getElem? hr
      have h2 := List.mem_of_getElem? hx
      simp at h1
      rw [h1] at h2
      simpa using h2
    rw [hx]
    exact ⟨qpsk_perfect hm _ i, qpsk_perfect hm _ i, qpsk_perfect hm _ i⟩)

/-- Non-vacuity, frequency offset of an eighth of the symbol rate. -/
example : equalizePilotSequence (qpskP 1) [[1, Complex.exp (I * ((Real.pi / 4 : ℝ) : ℂ))]] [0] true none = .ok (some (initTaps 1 1, [1 / 8])) := by
  refine C143_carrier_partial (qpskP 1) (y := [[1, 1]]) (p := 1) (L := 2) (s := 0) (f := 1 / 8) (a := fun _ _ => 1) (ref := fun _ _ => 1) (fun _ => 0) ⟨rfl, by simp⟩ ⟨rfl, by simp⟩ ?_ le_rfl (by decide) (by decide) (by decide) (by decide) (by decide)
    (by simp) (by simp) (Or.inl rfl) (Or.inl rfl) (by rw [abs_of_pos (by norm_num)]; norm_num) ?_ (by simp) (by simp) ?_ ?_
  · intro m n hm hn
    obtain rfl : m = 0 := by omega
    obtain rfl | rfl : n = 0 ∨ n = 1 := by omega
    · simp [val2, at2]
    · simp only [val2, at2, qpskP]
      norm_num
      congr 1
      ring
  · simp [qpskP, List.range_succ]
  · intro m hm i hi
    obtain rfl : m = 0 := by omega
    have : i < 2 := hi
    obtain rfl | rfl : i = 0 ∨ i = 1 := by omega
    · simp [val2, at2, qpskP]
    · simp [val2, at2, qpskP]
  · intro m hm i _ x hx'
    have hx : x = 1 := by
      unfold at2 at hx'
      rw [Option.bind_eq_some_iff] at hx'
      obtain ⟨r, hr, hx⟩ := hx'
      have h1 := List.mem_of_getElem? hr
      have h2 := List.mem_of_getElem? hx
      simp at h1
      rw [h1] at h2
      simpa using h2
    rw [hx]
    exact ⟨qpsk_perfect hm _ i, qpsk_perfect hm _ i, qpsk_perfect hm _ i⟩

end Qampy
