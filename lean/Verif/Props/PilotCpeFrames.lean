import Verif.Props.PilotRx
import Verif.Props.Resample

/-!
C202: pilot based phase recovery over several frames. A signal with repeated pilots holds the pilots of all its frames, and
`ph_pilots` (qampy/signals.py:1664) is this array without the first pilot sequence only; `pilot_cpe` (qampy/phaserec.py:156-189)
repeats it again for every frame.
-/

namespace Qampy

open Complex

/-- Only as many reference pilots as there are received ones matter. -/
theorem cpeMode_refs {sig p p' : List ℂ} {idx : List Nat} {numAverage nlen nkeep ratio nframes : Nat}
    (h : (Np.tile (Np.strided p ratio) nframes).take idx.length = (Np.tile (Np.strided p' ratio) nframes).take idx.length) :
    cpeMode sig p idx numAverage nlen nkeep ratio nframes = cpeMode sig p' idx numAverage nlen nkeep ratio nframes := by
  unfold cpeMode
  cases hr : fancyIndex idx sig with
  | error e => rfl
  | ok r =>
    have hl : r.length = idx.length := (exceptMapM_spec hr).1
    simp only [bind, Except.bind]
    rw [hl, h]

theorem mapM_congr_mem {α β : Type} {f g : α → Except PyErr β} : ∀ {l : List α}, (∀ x ∈ l, f x = g x) → l.mapM f = l.mapM g
  | [], _ => rfl
  | a :: l, h => by
    rw [List.mapM_cons, List.mapM_cons, h a (by simp), mapM_congr_mem fun x hx => h x (by simp [hx])]

theorem zip_map_mapM {α β γ δ : Type} (k : α × γ → Except PyErr δ) (f : β → γ) : ∀ (l : List α) (d : List β),
    (l.zip (d.map f)).mapM k = (l.zip d).mapM fun x => k (x.1, f x.2)
  | [], _ => by simp
  | a :: l, [] => by simp
  | a :: l, b :: d => by
    rw [List.map_cons, List.zip_cons_cons, List.zip_cons_cons, List.mapM_cons, List.mapM_cons, zip_map_mapM k f l d]

theorem pilotBasedCpe_refs {sig draw : List (List ℂ)} {f g : List ℂ → List ℂ} {L : Nat} {pilotIdx : List Nat} {frameLen numAverage ratio nframes : Nat} {maxBlocks : Option Nat}
    (h : ∀ p ∈ draw, ∀ k ≤ nframes * (Np.strided pilotIdx ratio).length, (Np.tile (Np.strided (f p) ratio) nframes).take k = (Np.tile (Np.strided (g p) ratio) nframes).take k) :
    pilotBasedCpe sig (draw.map f) L pilotIdx frameLen numAverage ratio maxBlocks nframes = pilotBasedCpe sig (draw.map g) L pilotIdx frameLen numAverage ratio maxBlocks nframes := by
  have hk : ∀ nlen, (cpePilotIdx pilotIdx frameLen nframes ratio nlen maxBlocks).length ≤ nframes * (Np.strided pilotIdx ratio).length := by
    intro nlen
    unfold cpePilotIdx
    refine (List.length_filter_le _ _).trans ?_
    rw [List.length_flatMap]
    have hle : (Np.strided (match maxBlocks with | none => pilotIdx | some m => pilotIdx.take m) ratio).length ≤ (Np.strided pilotIdx ratio).length := by
      cases maxBlocks with
      | none => exact le_rfl
      | some m => exact (strided_take_prefix pilotIdx m ratio).length_le
    simp only [List.length_map, List.map_const', List.length_range, List.sum_replicate, smul_eq_mul]
    exact Nat.mul_le_mul_left _ hle
  unfold pilotBasedCpe
  simp only [List.length_map]
  split_ifs
  all_goals first
    | rfl
    | (rw [zip_map_mapM, zip_map_mapM]
       apply mapM_congr_mem
       intro x hx
       exact cpeMode_refs (h x.2 (List.of_mem_zip hx).2 _ (hk _)))

/-- The first frame of references is right. -/
theorem refs_one_frame (p : List ℂ) (N s ratio k : Nat) (hN : 1 ≤ N) (hr : 1 ≤ ratio) (hk : k ≤ 1 * (Np.strided (p.drop s) ratio).length) :
    (Np.tile (Np.strided ((Np.tile p N).drop s) ratio) 1).take k = (Np.tile (Np.strided (p.drop s) ratio) 1).take k := by
  have h1 : ∀ l : List ℂ, Np.tile l 1 = l := by intro l; simp [Np.tile]
  rw [h1, h1]
  obtain ⟨N, rfl⟩ : ∃ M, N = M + 1 := ⟨N - 1, by omega⟩
  apply List.ext_getElem?
  intro j
  rw [List.getElem?_take, List.getElem?_take]
  split_ifs with hj
  · have hlt : j < (Np.strided (p.drop s) ratio).length := by omega
    obtain ⟨v, hv⟩ : ∃ v, (Np.strided (p.drop s) ratio)[j]? = some v := ⟨_, List.getElem?_eq_getElem hlt⟩
    have hv' := hv
    rw [getElem?_strided' _ _ hr, List.getElem?_drop] at hv'
    have hlt' : s + j * ratio < p.length := (List.getElem?_eq_some_iff.1 hv').1
    rw [hv, getElem?_strided' _ _ hr, List.getElem?_drop, tile_succ, List.getElem?_append_left hlt', hv']
  · rfl

/-- Whole frames of references, if the used pilots are those of the pilot ratio in every frame. -/
theorem refs_whole (p : List ℂ) (N n ratio k : Nat) (hn : n ≤ N) (hr : 1 ≤ ratio) (hd : ratio ∣ p.length) (hk : k ≤ n * (Np.strided p ratio).length) :
    (Np.tile (Np.strided (Np.tile p N) ratio) n).take k = (Np.tile (Np.strided p ratio) n).take k := by
  obtain ⟨q, hq⟩ := hd
  have hc : ∀ a : Nat, (ratio * a + ratio - 1) / ratio = a := by
    intro a
    rw [Nat.add_sub_assoc hr, Nat.mul_add_div (by omega), Nat.div_eq_of_lt (by omega), Nat.add_zero]
  have hl1 : (Np.strided p ratio).length = q := by rw [length_strided _ _ hr, hq, hc]
  have hl2 : (Np.strided (Np.tile p N) ratio).length = N * q := by
    rw [length_strided _ _ hr, Np.length_tile, hq, show N * (ratio * q) = ratio * (N * q) by ring, hc]
  rw [hl1] at hk
  apply List.ext_getElem?
  intro j
  rw [List.getElem?_take, List.getElem?_take]
  split_ifs with hj
  · have hjn : j < n * q := by omega
    have hjN : j < N * q := lt_of_lt_of_le hjn (Nat.mul_le_mul_right _ hn)
    have hn1 : 1 ≤ n := Nat.one_le_iff_ne_zero.2 (by rintro rfl; simp at hjn)
    rw [Np.getElem?_tile _ _ _ (by rw [hl2]; exact lt_of_lt_of_le hjN (Nat.le_mul_of_pos_left _ hn1)), Np.getElem?_tile _ _ _ (by rw [hl1]; exact hjn), hl1, hl2, Nat.mod_eq_of_lt hjN,
      getElem?_strided' _ _ hr, getElem?_strided' _ _ hr, Np.getElem?_tile _ _ _ (by rw [hq]; calc j * ratio < N * q * ratio := Nat.mul_lt_mul_of_pos_right hjN hr
        _ = N * (ratio * q) := by ring), hq, Nat.mul_comm ratio q, Nat.mul_mod_mul_right]
  · rfl

/-- Pilots `d` (one row per mode) in every frame of the signal. -/
def PilotsPlaced (s : PilotSignal ℂ) (N : Nat) (d : List (List ℂ)) : Prop :=
  d.length = s.rows.length ∧ (∀ q ∈ d, q.length = (nonzero s.idxPil).length) ∧
    ∀ (m : Nat) (r q : List ℂ), s.rows[m]? = some r → d[m]? = some q → ∀ (f j i : Nat), f < N → (nonzero s.idxPil)[j]? = some i → r[i + f * s.frameLen]? = q[j]?

theorem fancyIndex_spec {idx : List Nat} {r q : List ℂ} (h : fancyIndex idx r = .ok q) : q.length = idx.length ∧ ∀ (j i : Nat), idx[j]? = some i → r[i]? = q[j]? := by
  refine ⟨(exceptMapM_spec h).1, fun j i hi => ?_⟩
  obtain ⟨x, h1, h2⟩ := (exceptMapM_spec h).2 j i hi
  rw [h1]
  cases hr : r[i]? with
  | none => rw [hr] at h2; cases h2
  | some v => rw [hr] at h2; simpa using h2

theorem placed_single {s : PilotSignal ℂ} {N : Nat} {d : List (List ℂ)} (hN : 1 ≤ N) (hf : 1 ≤ s.frameLen) (hex : ∀ f < N, extractPilots s (N * s.frameLen) 1 (some [f]) = .ok d) : PilotsPlaced s N d := by
  have hrow : ∀ f < N, s.rows.mapM (fancyIndex ((nonzero s.idxPil).map fun j => j + f * s.frameLen)) = .ok d := by
    intro f hfN
    have h := hex f hfN
    unfold extractPilots framesArg at h
    rw [nFrames_one N s.frameLen hf] at h
    simpa only [List.max?_singleton, if_pos (le_of_lt hfN), bind, Except.bind, List.cons_ne_nil, if_false, List.flatMap_cons, List.flatMap_nil, List.append_nil] using h
  refine ⟨(exceptMapM_spec (hrow 0 (by omega))).1, ?_, ?_⟩
  · intro q hq
    obtain ⟨m, hm, rfl⟩ := List.getElem_of_mem hq
    obtain ⟨hl, h2⟩ := exceptMapM_spec (hrow 0 (by omega))
    obtain ⟨q', g1, g2⟩ := h2 m _ (List.getElem?_eq_getElem (by omega))
    rw [List.getElem?_eq_getElem hm, Option.some.injEq] at g1
    rw [g1, (fancyIndex_spec g2).1, List.length_map]
  · intro m r q hr hq f j i hfN hi
    obtain ⟨q', g1, g2⟩ := (exceptMapM_spec (hrow f hfN)).2 m r hr
    rw [hq, Option.some.injEq] at g1
    subst g1
    exact (fancyIndex_spec g2).2 j (i + f * s.frameLen) (by rw [List.getElem?_map, hi]; rfl)

theorem placed_tiled {s : PilotSignal ℂ} {N : Nat} {d : List (List ℂ)} (hN : 1 ≤ N) (hf : 1 ≤ s.frameLen) (hd : ∀ q ∈ d, q.length = (nonzero s.idxPil).length)
    (hex : extractPilots s (N * s.frameLen) 1 none = .ok (d.map fun r => Np.tile r N)) : PilotsPlaced s N d := by
  unfold extractPilots framesArg at hex
  rw [nFrames_one N s.frameLen hf] at hex
  have hne : List.range N ≠ [] := by
    intro h
    have := congrArg List.length h
    simp at this
    omega
  simp only [bind, Except.bind, if_neg hne] at hex
  obtain ⟨hl, hrow⟩ := exceptMapM_spec hex
  rw [List.length_map] at hl
  refine ⟨hl, hd, ?_⟩
  intro m r q hr hq f j i hfN hi
  obtain ⟨q', g1, g2⟩ := hrow m r hr
  rw [List.getElem?_map, hq, Option.map_some, Option.some.injEq] at g1
  subst g1
  have hql := hd q (List.mem_of_getElem? hq)
  have hj : j < (nonzero s.idxPil).length := (List.getElem?_eq_some_iff.1 hi).1
  have hmap : ∀ f : Nat, ((nonzero s.idxPil).map fun j => j + f * s.frameLen) = (List.range (nonzero s.idxPil).length).map fun j => (nonzero s.idxPil).getD j 0 + f * s.frameLen := by
    intro f
    apply List.ext_getElem
    · simp
    · intro a h1 h2
      have ha : a < (nonzero s.idxPil).length := by simpa using h1
      simp [List.getElem?_eq_getElem ha]
  have hidx := getElem?_flatMap_range N (nonzero s.idxPil).length (fun f j => (nonzero s.idxPil).getD j 0 + f * s.frameLen) f j hfN hj
  have hval := (fancyIndex_spec g2).2 (f * (nonzero s.idxPil).length + j) (i + f * s.frameLen) (by
    simp only [hmap]
    rw [hidx, List.getD_eq_getElem?_getD, hi, Option.getD_some])
  rw [hval, Np.getElem?_tile _ _ _ (by
    rw [hql]
    calc f * (nonzero s.idxPil).length + j < f * (nonzero s.idxPil).length + (nonzero s.idxPil).length := by omega
      _ = (f + 1) * (nonzero s.idxPil).length := by ring
      _ ≤ N * (nonzero s.idxPil).length := Nat.mul_le_mul_right _ hfN), hql, Nat.add_comm, Nat.add_mul_mod_self_right, Nat.mod_eq_of_lt hj]

/-- The setup of `pilot_based_cpe_new` for signals with the pilots `d` in every frame, processing the first `n` of `N` frames. -/
theorem placed_setup {s : PilotSignal ℂ} {N n : Nat} {d : List (List ℂ)} {k : Nat} (hv : ValidFrames s N) (hp : PilotsPlaced s N d) (hn : n ≤ N) (hnz : ∀ q ∈ d, ∀ x ∈ q, x ≠ 0) :
    PilotSetup s.rows (d.map fun r => r.drop k) (N * s.frameLen) ((nonzero s.idxPil).drop k) s.frameLen n := by
  obtain ⟨h1, h2, h3⟩ := hp
  have hpl : s.idxPil.length = s.frameLen := by
    obtain ⟨e1, e2⟩ := calPilotIdx_ok hv.layout
    rw [e2, e1]; simp
  refine ⟨by simpa using h1, hv.rows, ?_, ?_, (nonzero_sorted _).drop, fun i hi => by rw [← hpl]; exact nonzero_lt _ (List.mem_of_mem_drop hi), ?_⟩
  · intro q hq
    obtain ⟨q', hq', rfl⟩ := List.mem_map.1 hq
    simp [h2 q' hq']
  · intro q hq x hx
    obtain ⟨q', hq', rfl⟩ := List.mem_map.1 hq
    exact hnz q' hq' x (List.mem_of_mem_drop hx)
  · intro m r q hr hq f j i x hf' hi hx _
    rw [List.getElem?_map] at hq
    cases hq' : d[m]? with
    | none => rw [hq'] at hq; simp at hq
    | some q' =>
      rw [hq', Option.map_some, Option.some.injEq] at hq
      subst hq
      rw [List.getElem?_drop] at hi hx
      rw [h3 m r q' hr hq' f _ i (by omega) hi, hx]

/-- Phase recovery of `n` of `N` frames with the references `ref`, which agree with those of every frame as far as they are used. -/
theorem pilotCpe_frames {s : PilotSignal ℂ} {N n : Nat} {d : List (List ℂ)} {numAverage ratio : Nat} {useSeq : Bool} (hv : ValidFrames s N) (hp : PilotsPlaced s N d) (hn : n ≤ N)
    (hnz : ∀ q ∈ d, ∀ x ∈ q, x ≠ 0) (hN : 1 < numAverage) (hr : 1 ≤ ratio) (k : Nat) (hk : k = if useSeq then 0 else s.seqLen)
    (hcount : oddAverage numAverage ≤ n * (((nonzero s.idxPil).length - k + ratio - 1) / ratio)) (g : List ℂ → List ℂ) (hpil : s.pilots = d.map g)
    (href : ∀ p ∈ d, ∀ l ≤ n * (Np.strided (p.drop k) ratio).length, (Np.tile (Np.strided ((g p).drop k) ratio) n).take l = (Np.tile (Np.strided (p.drop k) ratio) n).take l) (φ : Nat → ℝ) :
    pilotCpe { s with rows := s.rows.mapIdx fun m r => r.map fun x => x * Complex.exp (I * (φ m : ℂ)) } (N * s.frameLen) numAverage ratio none n useSeq
      = .ok { s with rows := s.rows.map fun r => r.take (n * s.frameLen) } := by
  have hset := placed_setup (k := k) hv hp hn hnz
  obtain ⟨out, g1, g2⟩ := C37_constant_phase_partial s.rows _ φ _ _ s.frameLen numAverage ratio n n none hset hN hr le_rfl (Nat.mul_le_mul_right _ hn)
    (by simpa using hcount) (by simp)
  have e1 : cpePilots { s with rows := s.rows.mapIdx fun m r => r.map fun x => x * Complex.exp (I * (φ m : ℂ)) } useSeq = ((nonzero s.idxPil).drop k, d.map fun p => (g p).drop k) := by
    unfold cpePilots
    cases useSeq with
    | true => simp [hk, hpil]
    | false => simp [hk, hpil, Function.comp_def]
  unfold pilotCpe
  rw [e1]
  dsimp only
  rw [pilotBasedCpe_refs (g := fun p => p.drop k), g1]
  · simp only [Except.map, g2]
    rw [Nat.mul_comm]
  · intro p hpd l hl
    apply href p hpd l
    rw [length_strided _ _ hr] at hl ⊢
    rw [List.length_drop] at hl ⊢
    rw [hp.2.1 p hpd]
    exact hl

theorem pilotNew_fields {α : Type _} {junk : α} {frameLen seqLen rat nframes : Nat} {pilotDraw dataDraw : List (List α)} {repeatData repeatPilots : Bool} {dat pil : List Bool} {s : PilotSignal α}
    (hlay : calPilotIdx frameLen seqLen rat = .ok (dat, pil)) (h : pilotNew junk frameLen seqLen rat nframes pilotDraw dataDraw repeatData repeatPilots = .ok s) :
    s.seqLen = seqLen ∧ s.idxPil = pil := by
  unfold pilotNew at h
  rw [hlay] at h
  simp only [bind, Except.bind] at h
  split at h
  · cases h
  · cases h
    exact ⟨rfl, rfl⟩

theorem pilotFromSymbolArray_fields {α : Type _} {junk : α} {payload pilots : List (List α)} {N frameLen seqLen rat nframes : Nat} {dat pil : List Bool} {s : PilotSignal α}
    (hlay : calPilotIdx frameLen seqLen rat = .ok (dat, pil)) (hm : pilots.length = payload.length) (h : pilotFromSymbolArray junk payload N frameLen seqLen rat pilots nframes = .ok s) :
    s.seqLen = seqLen ∧ s.idxPil = pil ∧ s.pilots = pilots := by
  unfold pilotFromSymbolArray at h
  rw [hlay] at h
  simp only [bind, Except.bind, hm, if_true] at h
  split at h
  · cases h
  · simp only [pure, Except.pure] at h
    split at h
    · cases h
    · cases h
      exact ⟨rfl, rfl, rfl⟩

/-- The arguments of the constructor: pilots that are not zero and as many symbols as the layout has positions. -/
structure NewArgs (frameLen seqLen rat N : Nat) (pilotDraw dataDraw : List (List ℂ)) (repeatData : Bool) (dat pil : List Bool) : Prop where
  layout : calPilotIdx frameLen seqLen rat = .ok (dat, pil)
  frame : 1 ≤ frameLen
  frames : 1 ≤ N
  modes : pilotDraw.length = dataDraw.length
  pilots : ∀ r ∈ pilotDraw, r.length = Np.countNonzero pil
  data : ∀ r ∈ dataDraw, r.length = if repeatData then Np.countNonzero dat else Np.countNonzero dat * N
  nonzero : ∀ r ∈ pilotDraw, ∀ x ∈ r, x ≠ 0

/-- The statement of C202: of a signal of `N` frames with the same pilots in every frame, each mode turned by a constant phase, `pilot_cpe` over `n` frames (which hold enough pilots for the average)
returns these frames as they were sent. -/
def C202_statement : Prop :=
  ∀ (junk : ℂ) (frameLen seqLen rat N n : Nat) (pilotDraw dataDraw : List (List ℂ)) (repeatData : Bool) (dat pil : List Bool) (s : PilotSignal ℂ) (φ : Nat → ℝ) (numAverage ratio : Nat) (useSeq : Bool),
    NewArgs frameLen seqLen rat N pilotDraw dataDraw repeatData dat pil → pilotNew junk frameLen seqLen rat N pilotDraw dataDraw repeatData true = .ok s → n ≤ N → 1 < numAverage → 1 ≤ ratio →
    oddAverage numAverage ≤ n * ((Np.countNonzero pil - (if useSeq then 0 else seqLen) + ratio - 1) / ratio) →
    pilotCpe { s with rows := s.rows.mapIdx fun m r => r.map fun x => x * Complex.exp (I * (φ m : ℂ)) } (N * frameLen) numAverage ratio none n useSeq
      = .ok { s with rows := s.rows.map fun r => r.take (n * frameLen) }

/-- C202 holds for one frame, and for several frames if the pilot sequence is used as well (or there is none) and the pilot ratio divides the number of pilots of a frame. Missing: the default
`use_seq=False` over several frames, and other ratios. -/
theorem C202_frames_partial (junk : ℂ) (frameLen seqLen rat N n : Nat) (pilotDraw dataDraw : List (List ℂ)) (repeatData : Bool) (dat pil : List Bool) (s : PilotSignal ℂ) (φ : Nat → ℝ)
    (numAverage ratio : Nat) (useSeq : Bool) (ha : NewArgs frameLen seqLen rat N pilotDraw dataDraw repeatData dat pil)
    (hs : pilotNew junk frameLen seqLen rat N pilotDraw dataDraw repeatData true = .ok s) (hn : n ≤ N) (hN : 1 < numAverage) (hr : 1 ≤ ratio)
    (hcount : oddAverage numAverage ≤ n * ((Np.countNonzero pil - (if useSeq then 0 else seqLen) + ratio - 1) / ratio))
    (hcase : n = 1 ∨ ((useSeq = true ∨ seqLen = 0) ∧ ratio ∣ Np.countNonzero pil)) :
    pilotCpe { s with rows := s.rows.mapIdx fun m r => r.map fun x => x * Complex.exp (I * (φ m : ℂ)) } (N * frameLen) numAverage ratio none n useSeq
      = .ok { s with rows := s.rows.map fun r => r.take (n * frameLen) } := by
  obtain ⟨s', h1, hv, hfl, -, -, h6, h7⟩ := C80_new_partial junk frameLen seqLen rat N pilotDraw dataDraw repeatData dat pil ha.layout ha.frame ha.frames ha.modes ha.pilots ha.data
  rw [hs] at h1
  obtain rfl := Except.ok.inj h1
  obtain ⟨f1, f2⟩ := pilotNew_fields ha.layout hs
  subst f1 f2 hfl
  rw [h6] at h7
  have hlen : (nonzero s.idxPil).length = Np.countNonzero s.idxPil := nonzero_length _
  have hpl := placed_tiled ha.frames ha.frame (fun q hq => by rw [hlen]; exact ha.pilots q hq) h7
  refine pilotCpe_frames hv hpl hn ha.nonzero hN hr (if useSeq then 0 else s.seqLen) rfl (by rw [hlen]; exact hcount) (fun r => Np.tile r N) h6 ?_ φ
  intro p hp l hl
  rcases hcase with rfl | ⟨hq, hdiv⟩
  · exact refs_one_frame p N _ ratio l ha.frames hr hl
  · have hk : (if useSeq then 0 else s.seqLen) = 0 := by
      rcases hq with hq | hq
      · simp [hq]
      · simp [hq]
    rw [hk, List.drop_zero] at hl ⊢
    exact refs_whole p N n ratio l hn hr (by rw [ha.pilots p hp]; exact hdiv) hl

/-- C202: signals made by `from_symbol_array`, which hold the pilots of one frame, are recovered over any number of frames, with or without pilot sequence and for every ratio. -/
theorem C202_from_array (junk : ℂ) (payload pilots : List (List ℂ)) (Np' frameLen seqLen rat N n : Nat) (dat pil : List Bool) (s : PilotSignal ℂ) (φ : Nat → ℝ) (numAverage ratio : Nat) (useSeq : Bool)
    (hlay : calPilotIdx frameLen seqLen rat = .ok (dat, pil)) (hfl : 1 ≤ frameLen) (hN1 : 1 ≤ N) (hlen : ∀ r ∈ payload, r.length = Np') (hlong : Np.countNonzero dat ≤ Np')
    (hp : ∀ r ∈ pilots, r.length = Np.countNonzero pil) (hm : pilots.length = payload.length) (hnz : ∀ r ∈ pilots, ∀ x ∈ r, x ≠ 0)
    (hs : pilotFromSymbolArray junk payload Np' frameLen seqLen rat pilots N = .ok s) (hn : n ≤ N) (hN : 1 < numAverage) (hr : 1 ≤ ratio)
    (hcount : oddAverage numAverage ≤ n * ((Np.countNonzero pil - (if useSeq then 0 else seqLen) + ratio - 1) / ratio)) :
    pilotCpe { s with rows := s.rows.mapIdx fun m r => r.map fun x => x * Complex.exp (I * (φ m : ℂ)) } (N * frameLen) numAverage ratio none n useSeq
      = .ok { s with rows := s.rows.map fun r => r.take (n * frameLen) } := by
  obtain ⟨s', h1, hv, -, hfl', -, h7⟩ := C21_round_trip junk payload pilots Np' frameLen seqLen rat N dat pil hlay hfl hN1 hlen hlong hp hm
  rw [hs] at h1
  obtain rfl := Except.ok.inj h1
  obtain ⟨f1, f2, f3⟩ := pilotFromSymbolArray_fields hlay hm hs
  subst f1 f2 hfl'
  have hlen' : (nonzero s.idxPil).length = Np.countNonzero s.idxPil := nonzero_length _
  have hpl := placed_single hN1 hfl h7
  exact pilotCpe_frames hv hpl hn hnz hN hr (if useSeq then 0 else s.seqLen) rfl (by rw [hlen']; exact hcount) id (by simpa using f3) (fun p _ l _ => rfl) φ

example : NewArgs 3 1 2 3 [[I, 1], [1, -1]] [[5], [6]] true [false, false, true] [true, true, false] :=
  ⟨rfl, by norm_num, by norm_num, rfl, by simp; decide, by simp; decide, by simp⟩

example (φ : Nat → ℝ) : ∃ s : PilotSignal ℂ, pilotNew (0 : ℂ) 3 1 2 3 [[I, 1], [1, -1]] [[5], [6]] true true = .ok s ∧
    pilotCpe { s with rows := s.rows.mapIdx fun m r => r.map fun x => x * Complex.exp (I * (φ m : ℂ)) } (3 * 3) 3 1 none 2 true = .ok { s with rows := [[I, 1, 5, I, 1, 5], [1, -1, 6, 1, -1, 6]] } := by
  have hs : pilotNew (0 : ℂ) 3 1 2 3 [[I, 1], [1, -1]] [[5], [6]] true true = .ok { rows := [[I, 1, 5, I, 1, 5, I, 1, 5], [1, -1, 6, 1, -1, 6, 1, -1, 6]], frameLen := 3, seqLen := 1, insRat := 2, symbols := [[5, 5, 5], [6, 6, 6]], pilots := [[I, 1, I, 1, I, 1], [1, -1, 1, -1, 1, -1]], idxDat := [false, false, true], idxPil := [true, true, false] } := rfl
  exact ⟨_, hs, C202_frames_partial 0 3 1 2 3 2 [[I, 1], [1, -1]] [[5], [6]] true [false, false, true] [true, true, false] _ φ 3 1 true
    ⟨rfl, by norm_num, by norm_num, rfl, by simp; decide, by simp; decide, by simp⟩ hs (by norm_num) (by norm_num) le_rfl (by decide) (Or.inr ⟨Or.inl rfl, one_dvd _⟩)⟩

/-- Three frames of which each has the pilots `[I, 1]`, the second being the phase pilot: the reference of the second frame is the pilot sequence. -/
theorem C202_false : ¬ C202_statement := by
  intro h
  have ha : NewArgs 3 1 2 3 [[I, 1]] [[5]] true [false, false, true] [true, true, false] := ⟨rfl, by norm_num, by norm_num, rfl, by simp; decide, by simp; decide, by simp⟩
  have hs : pilotNew (0 : ℂ) 3 1 2 3 [[I, 1]] [[5]] true true = .ok { rows := [[I, 1, 5, I, 1, 5, I, 1, 5]], frameLen := 3, seqLen := 1, insRat := 2, symbols := [[5, 5, 5]], pilots := [[I, 1, I, 1, I, 1]], idxDat := [false, false, true], idxPil := [true, true, false] } := rfl
  have h1 := h 0 3 1 2 3 3 [[I, 1]] [[5]] true [false, false, true] [true, true, false] _ (fun _ => 0) 3 1 false ha hs le_rfl (by norm_num) le_rfl (by decide)
  have hsig : ([[I, 1, 5, I, 1, 5, I, 1, 5]].mapIdx fun m r => r.map fun x => x * Complex.exp (I * (((fun _ => 0 : Nat → ℝ) m : ℝ) : ℂ))) = [[I, 1, 5, I, 1, 5, I, 1, 5]] := by simp
  have hnz : nonzero [true, true, false] = [0, 1] := by decide
  have hidx : cpePilotIdx [1] 3 3 1 9 none = [1, 4, 7] := by decide
  have hph : pilotPhase [1, I, 1] [1, 1, 1] = [0, -(Real.pi / 2), 0] := by
    have harg : Complex.arg (-I) = -(Real.pi / 2) := Complex.arg_neg_I
    unfold pilotPhase
    simp only [List.zipWith_cons_cons, List.zipWith_nil_right, map_one, mul_one, Complex.arg_one, Complex.conj_I, harg]
    apply unwrap_of_small
    have hp := Real.pi_pos
    simp only [List.isChain_cons_cons, List.isChain_singleton, and_true]
    constructor <;> rw [abs_lt] <;> constructor <;> linarith
  have hma : movingAverage [0, -(Real.pi / 2), 0] 3 = some [-(Real.pi / 6)] := by
    norm_num [movingAverage, cumsumGo]
    ring
  have href : (Np.tile (Np.strided ([1, I, 1, I, 1] : List ℂ) 1) 3).take 3 = [1, I, 1] := by
    rw [strided_one]; simp [Np.tile]
  have hrec : fancyIndex [1, 4, 7] ([I, 1, 5, I, 1, 5, I, 1, 5] : List ℂ) = .ok [1, 1, 1] := fancyIndex_map rfl
  have htr : (List.range 9).mapM (fun n : Nat => (interp (n : ℝ) (List.zip (([4] : List Nat).map fun i : Nat => (i : ℝ))
      [-(Real.pi / 6)])).elim (.error .value) (.ok : ℝ → Except PyErr ℝ)) = .ok (List.replicate 9 (-(Real.pi / 6))) := by
    simp only [List.map_cons, List.map_nil, List.zip_cons_cons, List.zip_nil_right, interp, Option.elim_some]
    rfl
  have hmode : cpeMode [I, 1, 5, I, 1, 5, I, 1, 5] [1, I, 1, I, 1] [1, 4, 7] 3 9 9 1 3 =
      .ok ((rotateBy [I, 1, 5, I, 1, 5, I, 1, 5] ((List.replicate 9 (-(Real.pi / 6))).map (- ·))).take 9, (List.replicate 9 (-(Real.pi / 6))).take 9) := by
    unfold cpeMode
    simp only [hrec, bind, Except.bind, pure, Except.pure, List.length_cons, List.length_nil, Nat.zero_add, Nat.reduceAdd, href]
    norm_num
    simp only [hph, hma, Option.elim_some]
    rw [if_pos (by rfl)]
    have htr' : (List.range 9).mapM (fun n : Nat => (interp (n : ℝ) (List.zip ([4] : List ℝ) [-(Real.pi / 6)])).elim (.error .value)
        (.ok : ℝ → Except PyErr ℝ)) = .ok (List.replicate 9 (-(Real.pi / 6))) := by
      simpa using htr
    rw [htr']
    simp
  rw [hsig] at h1
  unfold pilotCpe cpePilots pilotBasedCpe at h1
  norm_num [hidx, hnz] at h1
  rw [hmode] at h1
  have h2 := congrArg PilotSignal.rows (Except.ok.inj h1)
  have h3 := congrArg (fun l : List (List ℂ) => (l.getD 0 []).getD 1 0) h2
  simp [rotateBy] at h3
  have h4 := congrArg Complex.im h3
  rw [show I * ((Real.pi : ℂ) / 6) = ((Real.pi / 6 : ℝ) : ℂ) * I by push_cast; ring, Complex.exp_ofReal_mul_I_im,
    Real.sin_pi_div_six] at h4
  norm_num at h4

end Qampy
