import Verif.Lemmas.Pilots

/-!
Properties C20, C21, C22, C23, C78, C79, C80: pilot frames and time domain hybrid QAM.
-/

namespace Qampy

variable {α : Type _}

/-! ### C20: pilot layout -/

/-- The documented layout: position `i` of a frame carries payload iff it lies behind the pilot sequence and (with an
insertion ratio) is not one of the phase pilots at every `rat`-th position starting right after the sequence. -/
def isData (seqLen rat i : Nat) : Bool := decide (seqLen ≤ i ∧ (rat = 0 ∨ ¬ rat ∣ (i - seqLen)))

theorem calPilotIdx_ok {frameLen seqLen rat : Nat} {dat pil : List Bool}
    (h : calPilotIdx frameLen seqLen rat = .ok (dat, pil)) :
    dat = (List.range frameLen).map (isData seqLen rat) ∧ pil = dat.map not := by
  have key : ∀ i : Nat, rat ≠ 0 →
      (decide (((i : Int) - seqLen) % rat ≠ 0) && decide (((i : Int) - seqLen) > 0)) = isData seqLen rat i := by
    intro i hr
    rw [isData, ← Bool.decide_and]
    apply decide_eq_decide.2
    by_cases hi : seqLen ≤ i
    · obtain ⟨d, rfl⟩ : ∃ d, i = seqLen + d := ⟨i - seqLen, by omega⟩
      have e : ((seqLen + d : Nat) : Int) - seqLen = (d : Int) := by push_cast; ring
      rw [e, Nat.add_sub_cancel_left]
      have e2 : ((d : Int) % rat ≠ 0) ↔ ¬ rat ∣ d := by
        rw [Ne, ← Int.dvd_iff_emod_eq_zero]
        exact not_congr Int.natCast_dvd_natCast
      rw [e2]
      constructor
      · rintro ⟨h1, -⟩; exact ⟨by omega, Or.inr h1⟩
      · rintro ⟨-, h1⟩
        rcases h1 with h1 | h1
        · exact absurd h1 hr
        · refine ⟨h1, ?_⟩
          rcases Nat.eq_zero_or_pos d with hd | hd
          · exact absurd (hd ▸ Nat.dvd_zero _) h1
          · exact_mod_cast hd
    · constructor
      · rintro ⟨-, h1⟩; omega
      · rintro ⟨h1, -⟩; omega
  unfold calPilotIdx at h
  by_cases hr : rat = 0
  · rw [if_pos hr] at h
    simp only [Except.ok.injEq, Prod.mk.injEq] at h
    obtain ⟨h1, h2⟩ := h
    have hdat : dat = (List.range frameLen).map (isData seqLen rat) := by
      rw [← h1, List.map_map]
      apply List.map_congr_left
      intro i _
      rw [Function.comp_apply, isData, ← decide_not]
      exact decide_eq_decide.2 (by simp [hr])
    refine ⟨hdat, ?_⟩
    rw [← h1, select_not, h2]
  · rw [if_neg hr] at h
    by_cases hm : ((frameLen : Int) - seqLen) % rat = 0
    · rw [if_neg (by simpa using hm)] at h
      simp only [Except.ok.injEq, Prod.mk.injEq] at h
      obtain ⟨h1, h2⟩ := h
      rw [select_not] at h1
      have hdat : dat = (List.range frameLen).map (isData seqLen rat) := by
        rw [← h1]
        exact List.map_congr_left fun i _ => key i hr
      exact ⟨hdat, by rw [← h2, ← h1]⟩
    · rw [if_pos hm] at h
      simp at h

/-- C20: the layout is computed unless the frame without the pilot sequence is not a multiple of the insertion ratio, in
which case ValueError is raised; payload and pilot positions are complementary and are the documented ones. -/
theorem C20_layout (frameLen seqLen rat : Nat) :
    ((¬ (rat = 0 ∨ (rat : Int) ∣ (frameLen : Int) - seqLen)) ∧ calPilotIdx frameLen seqLen rat = .error .value) ∨
    ((rat = 0 ∨ (rat : Int) ∣ (frameLen : Int) - seqLen) ∧ ∃ dat pil : List Bool,
      calPilotIdx frameLen seqLen rat = .ok (dat, pil) ∧ dat.length = frameLen ∧ pil.length = frameLen ∧
      (∀ i : Nat, i < frameLen → (dat[i]? = some true ↔ pil[i]? = some false) ∧ (dat[i]? = some false ↔ pil[i]? = some true)) ∧
      (∀ i : Nat, i < frameLen → (pil[i]? = some true ↔ i < seqLen ∨ (rat ≠ 0 ∧ ∃ j, i = seqLen + j * rat)))) := by
  by_cases hok : rat = 0 ∨ (rat : Int) ∣ (frameLen : Int) - seqLen
  · right
    refine ⟨hok, ?_⟩
    obtain ⟨dat, pil, h⟩ : ∃ dat pil, calPilotIdx frameLen seqLen rat = .ok (dat, pil) := by
      unfold calPilotIdx
      by_cases hr : rat = 0
      · rw [if_pos hr]; exact ⟨_, _, rfl⟩
      · rw [if_neg hr, if_neg]
        · exact ⟨_, _, rfl⟩
        · rw [not_not]
          exact Int.emod_eq_zero_of_dvd (hok.resolve_left hr)
    obtain ⟨h1, h2⟩ := calPilotIdx_ok h
    have hd : ∀ i : Nat, i < frameLen → dat[i]? = some (isData seqLen rat i) := by
      intro i hi
      rw [h1, List.getElem?_map, List.getElem?_range hi]; rfl
    have hp : ∀ i : Nat, i < frameLen → pil[i]? = some (!isData seqLen rat i) := by
      intro i hi
      rw [h2, List.getElem?_map, hd i hi]; rfl
    refine ⟨dat, pil, h, by rw [h1]; simp, by rw [h2, h1]; simp, ?_, ?_⟩
    · intro i hi
      rw [hd i hi, hp i hi]
      cases isData seqLen rat i <;> simp
    · intro i hi
      rw [hp i hi]
      simp only [isData, Option.some.injEq, Bool.not_eq_true', decide_eq_false_iff_not, not_and_or, not_or, not_le, not_not]
      constructor
      · rintro (h | ⟨hr, h⟩)
        · exact Or.inl h
        · by_cases hlt : i < seqLen
          · exact Or.inl hlt
          · obtain ⟨j, hj⟩ := h
            exact Or.inr ⟨hr, j, by rw [Nat.mul_comm j, ← hj]; omega⟩
      · rintro (h | ⟨hr, j, rfl⟩)
        · exact Or.inl h
        · exact Or.inr ⟨hr, j, by rw [Nat.add_sub_cancel_left, Nat.mul_comm]⟩
  · left
    refine ⟨hok, ?_⟩
    rw [not_or] at hok
    unfold calPilotIdx
    rw [if_neg hok.1, if_pos]
    intro h
    exact hok.2 (Int.dvd_of_emod_eq_zero h)

theorem countP_range_mul (q rat : Nat) (hr : 1 ≤ rat) :
    (List.range (q * rat)).countP (fun i => decide (¬ rat ∣ i)) = q * (rat - 1) := by
  induction q with
  | zero => simp
  | succ q ih =>
    rw [Nat.add_mul, Nat.one_mul, List.range_add, List.countP_append, ih, List.countP_map]
    have : (List.range rat).countP ((fun i => decide (¬ rat ∣ i)) ∘ fun x => q * rat + x) = rat - 1 := by
      obtain ⟨s, rfl⟩ : ∃ s, rat = s + 1 := ⟨rat - 1, by omega⟩
      rw [List.range_succ_eq_map, List.countP_cons, List.countP_map]
      have h0 : (List.range s).countP (((fun i => decide (¬ (s + 1) ∣ i)) ∘ fun x => q * (s + 1) + x) ∘ Nat.succ)
          = (List.range s).length := by
        rw [List.countP_eq_length]
        intro i hi
        have hi := List.mem_range.1 hi
        simp only [Function.comp_apply, decide_eq_true_eq]
        intro hd
        have : s + 1 ∣ i.succ := (Nat.dvd_add_right (Dvd.intro_left q rfl)).1 hd
        have := Nat.le_of_dvd (by omega) this
        omega
      rw [h0]
      simp
    rw [this]; ring

/-- C20: the number of payload positions. -/
theorem C20_count (frameLen seqLen rat : Nat) (hs : seqLen ≤ frameLen) (dat pil : List Bool)
    (h : calPilotIdx frameLen seqLen rat = .ok (dat, pil)) :
    Np.countNonzero dat + Np.countNonzero pil = frameLen ∧
    Np.countNonzero dat = if rat = 0 then frameLen - seqLen else (frameLen - seqLen) / rat * (rat - 1) := by
  obtain ⟨h1, h2⟩ := calPilotIdx_ok h
  constructor
  · have hl : dat.length = frameLen := by rw [h1]; simp
    rw [h2, ← hl]
    clear h h1 h2 hl
    simp only [Np.countNonzero]
    induction dat with
    | nil => rfl
    | cons b dat ih => cases b <;> simp <;> omega
  · have hc : Np.countNonzero dat = (List.range frameLen).countP (isData seqLen rat) := by
      rw [h1, Np.countNonzero, List.count, List.countP_map]
      congr 1
      funext i
      simp
    obtain ⟨d, rfl⟩ : ∃ d, frameLen = seqLen + d := ⟨frameLen - seqLen, by omega⟩
    rw [hc, List.range_add, List.countP_append, List.countP_map, Nat.add_sub_cancel_left]
    have h0 : (List.range seqLen).countP (isData seqLen rat) = 0 := by
      rw [List.countP_eq_zero]
      intro i hi
      have hi := List.mem_range.1 hi
      simp only [isData, decide_eq_true_eq]
      omega
    have hf : (isData seqLen rat ∘ fun x => seqLen + x) = fun i => decide (rat = 0 ∨ ¬ rat ∣ i) := by
      funext i
      simp [isData]
    rw [h0, hf, Nat.zero_add]
    split
    · rename_i hr
      simp [hr]
    · rename_i hr
      have hdvd : rat ∣ d := by
        rcases C20_layout (seqLen + d) seqLen rat with ⟨-, h'⟩ | ⟨h', -⟩
        · rw [h] at h'; simp at h'
        · have := h'.resolve_left hr
          rw [show ((seqLen + d : Nat) : Int) - seqLen = (d : Int) by push_cast; ring] at this
          exact Int.natCast_dvd_natCast.1 this
      obtain ⟨q, rfl⟩ := hdvd
      rw [Nat.mul_div_cancel_left _ (by omega), Nat.mul_comm rat, ← countP_range_mul q rat (by omega)]
      simp [hr]

/-- The frame of the class documentation style: 16 symbols, 4 sequence pilots, one phase pilot every 4 symbols. -/
example : calPilotIdx 16 4 4 = .ok
    ([false, false, false, false, false, true, true, true, false, true, true, true, false, true, true, true],
     [true, true, true, true, true, false, false, false, true, false, false, false, true, false, false, false]) := by rfl

example : calPilotIdx 16 4 5 = .error .value := by rfl

/-! ### C21: insertion and removal -/

/-- The signal `s` has the layout `(frameLen, seqLen, rat)` and whole frames in every mode. -/
structure ValidFrames (s : PilotSignal α) (n : Nat) : Prop where
  layout : calPilotIdx s.frameLen s.seqLen s.insRat = .ok (s.idxDat, s.idxPil)
  rows : ∀ r ∈ s.rows, r.length = n * s.frameLen

theorem nFrames_one (n frameLen : Nat) (h : 1 ≤ frameLen) : nFrames (n * frameLen) 1 frameLen = .ok n := by
  rw [nFrames, if_neg (by omega), Nat.one_mul, Nat.mul_div_cancel _ (by omega)]

/-- C21: `get_data()` of any signal of `n ≥ 1` whole frames returns, per mode, exactly the samples at payload positions of
all frames, in order. -/
theorem C21_get_data (s : PilotSignal α) (n : Nat) (hn : 1 ≤ n) (hf : 1 ≤ s.frameLen) (hv : ValidFrames s n) :
    getData s (n * s.frameLen) 1 none
      = .ok (s.rows.map fun r => samplesAt r fun p => isData s.seqLen s.insRat (p % s.frameLen)) := by
  obtain ⟨h1, h2⟩ := calPilotIdx_ok hv.layout
  have hl : s.idxDat.length = s.frameLen := by rw [h1]; simp
  have hm := dataMask_range s.idxDat (n * s.frameLen) n hn
  rw [hl] at hm
  simp only [getData, framesArg, nFrames_one n _ hf, bind, Except.bind, hm]
  rw [mapM_boolIndex _ _ (fun r hr => by rw [Np.length_tile, hl]; exact hv.rows r hr)]
  congr 1
  apply List.map_congr_left
  intro r hr
  rw [select_eq_samplesAt _ _ (by rw [Np.length_tile, hl]; exact hv.rows r hr)]
  apply samplesAt_congr
  intro i hi
  rw [Np.getElem?_tile _ _ _ (by rw [hl, ← hv.rows r hr]; exact hi), hl, h1, List.getElem?_map,
    List.getElem?_range (Nat.mod_lt _ (by omega)), Option.map_some]
  cases isData s.seqLen s.insRat (i % s.frameLen) <;> rfl

theorem framesArg_some (n frameLen : Nat) (hf : 1 ≤ frameLen) (fs : List Nat) (hne : fs ≠ []) (hfs : ∀ f ∈ fs, f < n) :
    ∃ m, framesArg (n * frameLen) 1 frameLen (some fs) = .ok (fs, m) ∧ fs.max? = some m ∧ m < n := by
  obtain ⟨m, hm⟩ := Option.isSome_iff_exists.1 (List.isSome_max?_of_ne_nil hne)
  have hlt := hfs m (List.max?_mem hm)
  refine ⟨m, ?_, hm, hlt⟩
  simp only [framesArg, nFrames_one n _ hf, hm]
  rw [if_pos (by omega)]

/-- C21: `extract_pilots(frames)` returns, per mode, the samples at the pilot positions of the requested frames in the
requested order. -/
theorem C21_extract_pilots (s : PilotSignal α) (n : Nat) (hf : 1 ≤ s.frameLen) (hv : ValidFrames s n) (fs : List Nat)
    (hne : fs ≠ []) (hfs : ∀ f ∈ fs, f < n) :
    extractPilots s (n * s.frameLen) 1 (some fs) = .ok (s.rows.map fun r => fs.flatMap fun f =>
      samplesAt ((r.drop (f * s.frameLen)).take s.frameLen) fun p => !isData s.seqLen s.insRat p) := by
  obtain ⟨h1, h2⟩ := calPilotIdx_ok hv.layout
  have hl : s.idxPil.length = s.frameLen := by rw [h2, h1]; simp
  obtain ⟨m, hm, -, -⟩ := framesArg_some n s.frameLen hf fs hne hfs
  simp only [extractPilots, hm, bind, Except.bind, if_neg hne]
  apply mapM_ok
  intro r hr
  have hrl := hv.rows r hr
  have := fancyIndex_frames r s.idxPil n (by rw [hl]; exact hrl) fs hfs
  rw [hl] at this
  rw [this]
  congr 1
  apply List.flatMap_congr
  intro f hfm
  have hlt := hfs f hfm
  have hle : (f + 1) * s.frameLen ≤ r.length := by
    rw [hrl]; exact Nat.mul_le_mul_right _ hlt
  have hlen : ((r.drop (f * s.frameLen)).take s.frameLen).length = s.frameLen := by
    rw [List.length_take, List.length_drop]
    rw [Nat.add_mul] at hle
    omega
  rw [select_eq_samplesAt _ _ (by rw [hlen, hl])]
  apply samplesAt_congr
  intro i hi
  rw [hlen] at hi
  rw [h2, h1, List.map_map, List.getElem?_map, List.getElem?_range hi]
  simp only [Option.map_some, Function.comp_apply]
  cases isData s.seqLen s.insRat i <;> rfl

/-- C21: without argument all frames are returned. -/
theorem C21_extract_pilots_all (s : PilotSignal α) (n : Nat) (hn : 1 ≤ n) (hf : 1 ≤ s.frameLen) :
    extractPilots s (n * s.frameLen) 1 none = extractPilots s (n * s.frameLen) 1 (some (List.range n)) := by
  have hne : List.range n ≠ [] := by
    intro h
    have := congrArg List.length h
    simp at this
    omega
  obtain ⟨m, hm, -, -⟩ := framesArg_some n s.frameLen hf (List.range n) hne (fun f hfm => List.mem_range.1 hfm)
  have h0 : framesArg (n * s.frameLen) 1 s.frameLen none = .ok (List.range n, n) := by
    simp only [framesArg, nFrames_one n _ hf]
  rw [extractPilots, extractPilots, hm, h0]
  rfl

theorem boolAssign_ok (mask : List Bool) (row vals : List α) (h1 : row.length = mask.length)
    (h2 : vals.length = Np.countNonzero mask) : boolAssign mask row vals = .ok (Np.assign row mask vals) := by
  unfold boolAssign
  rw [if_neg (not_not.2 h1), if_pos h2]

/-- One frame: the row assembled from pilots `p` and payload `d`. -/
theorem frame_row (junk : α) (dat : List Bool) (p d : List α) (hp : p.length = Np.countNonzero (dat.map not))
    (hd : d.length = Np.countNonzero dat) :
    ∃ r : List α, (do
        let out ← boolAssign (dat.map not) (List.replicate dat.length junk) p
        boolAssign dat out d) = (.ok r : Except PyErr (List α)) ∧
      r.length = dat.length ∧ Np.select r dat = d ∧ Np.select r (dat.map not) = p := by
  have e1 : (List.replicate dat.length junk).length = (dat.map not).length := by simp
  have l1 : (Np.assign (List.replicate dat.length junk) (dat.map not) p).length = dat.length := by
    rw [Np.length_assign, List.length_replicate]
  refine ⟨Np.assign (Np.assign (List.replicate dat.length junk) (dat.map not) p) dat d, ?_, ?_, ?_, ?_⟩
  · rw [boolAssign_ok _ _ _ e1 hp]
    simp only [bind, Except.bind]
    rw [boolAssign_ok _ _ _ l1 hd]
  · rw [Np.length_assign, l1]
  · exact Np.select_assign _ _ _ l1 hd
  · rw [Np.select_not_assign _ _ _ l1]
    exact Np.select_assign _ _ _ e1 hp

theorem mapM_exists {β γ : Type _} (l : List β) (f : β → Except PyErr γ) (R : β → γ → Prop)
    (h : ∀ x ∈ l, ∃ y, f x = .ok y ∧ R x y) :
    ∃ ys, l.mapM f = .ok ys ∧ List.Forall₂ R l ys := by
  induction l with
  | nil => exact ⟨[], rfl, .nil⟩
  | cons x l ih =>
    obtain ⟨ys, h1, h2⟩ := ih (fun y hy => h y (by simp [hy]))
    obtain ⟨y, h3, h4⟩ := h x (by simp)
    refine ⟨y :: ys, ?_, .cons h4 h2⟩
    rw [List.mapM_cons, h3, h1]; rfl

theorem forall₂_map_eq {β γ δ : Type _} {l : List β} {ys : List γ} {f : β → δ} {g : γ → δ}
    (h : List.Forall₂ (fun x y => f x = g y) l ys) : l.map f = ys.map g := by
  induction h with
  | nil => rfl
  | cons h1 _ ih => simp [h1, ih]

theorem forall₂_right {β γ : Type _} {l : List β} {ys : List γ} {P : γ → Prop}
    (h : List.Forall₂ (fun _ y => P y) l ys) : ∀ y ∈ ys, P y := by
  induction h with
  | nil => simp
  | cons h1 _ ih => simpa using ⟨h1, ih⟩

/-- C21: a signal built from a payload (long enough, one row per mode) and pilots (one row per mode) for `nframes` frames
has whole frames, and `get_data()` / `extract_pilots()` return the payload and the pilots of every frame. -/
theorem C21_round_trip (junk : α) (payload pilots : List (List α)) (N frameLen seqLen rat nframes : Nat)
    (dat pil : List Bool) (hlay : calPilotIdx frameLen seqLen rat = .ok (dat, pil)) (hfl : 1 ≤ frameLen)
    (hnf : 1 ≤ nframes) (hN : ∀ r ∈ payload, r.length = N) (hlong : Np.countNonzero dat ≤ N)
    (hp : ∀ r ∈ pilots, r.length = Np.countNonzero pil) (hm : pilots.length = payload.length) :
    ∃ s, pilotFromSymbolArray junk payload N frameLen seqLen rat pilots nframes = .ok s ∧
      ValidFrames s nframes ∧ s.rows.length = payload.length ∧ s.frameLen = frameLen ∧
      getData s (nframes * frameLen) 1 none
        = .ok (payload.map fun r => Np.tile (r.take (Np.countNonzero dat)) nframes) ∧
      (∀ f < nframes, extractPilots s (nframes * frameLen) 1 (some [f]) = .ok pilots) := by
  obtain ⟨h1, h2⟩ := calPilotIdx_ok hlay
  have hl : dat.length = frameLen := by rw [h1]; simp
  obtain ⟨rows, hrows, hR⟩ := mapM_exists (pilots.zip (payload.map fun r => r.take (Np.countNonzero dat)))
    (fun x => do
      let out ← boolAssign pil (List.replicate frameLen junk) x.1
      boolAssign dat out x.2)
    (fun x r => r.length = frameLen ∧ Np.select r dat = x.2 ∧ Np.select r pil = x.1) (by
      intro x hx
      have hx1 := hp _ (List.of_mem_zip hx).1
      have hx2 := (List.of_mem_zip hx).2
      rw [List.mem_map] at hx2
      obtain ⟨r0, hr0, hx2⟩ := hx2
      obtain ⟨r, a, b, c, d⟩ := frame_row junk dat x.1 x.2 (by rw [hx1, h2])
        (by rw [← hx2, List.length_take, hN r0 hr0]; omega)
      rw [hl, ← h2] at a
      exact ⟨r, a, by rw [b, hl], c, by rw [h2]; exact d⟩)
  have hlenrows : rows.length = payload.length := by
    rw [← hR.length_eq]; simp [hm]
  have hrl : ∀ r ∈ rows, r.length = frameLen := forall₂_right (hR.imp fun _ _ h => h.1)
  set s : PilotSignal α := { rows := rows.map fun r => Np.tile r nframes, frameLen := frameLen, seqLen := seqLen, insRat := rat, symbols := payload.map fun r => r.take (Np.countNonzero dat), pilots := pilots, idxDat := dat, idxPil := pil } with hs
  have hval : ValidFrames s nframes := by
    constructor
    · exact hlay
    · intro r hr
      rw [hs] at hr
      simp only [List.mem_map] at hr
      obtain ⟨r', hr', rfl⟩ := hr
      rw [Np.length_tile, hrl r' hr']
  have hdat : rows.map (fun r => Np.select r dat) = payload.map fun r => r.take (Np.countNonzero dat) := by
    have := forall₂_map_eq (f := fun x : List α × List α => x.2) (g := fun r => Np.select r dat)
      (hR.imp fun x r h => h.2.1.symm)
    rw [← this]
    exact List.map_snd_zip (by simp [hm])
  have hpil : rows.map (fun r => Np.select r pil) = pilots := by
    have := forall₂_map_eq (f := fun x : List α × List α => x.1) (g := fun r => Np.select r pil)
      (hR.imp fun x r h => h.2.2.symm)
    rw [← this]
    exact List.map_fst_zip (by simp [hm])
  refine ⟨s, ?_, hval, by rw [hs]; simp [hlenrows], rfl, ?_, ?_⟩
  · simp only [pilotFromSymbolArray, hlay, bind, Except.bind, pure, Except.pure, hm, if_true, hlong, not_true_eq_false,
      if_false]
    simp only [bind, Except.bind] at hrows
    rw [hrows]
  · have hmask := dataMask_range dat (nframes * frameLen) nframes hnf
    rw [hl] at hmask
    have : s.frameLen = frameLen := rfl
    simp only [getData, this, framesArg, nFrames_one nframes _ hfl, bind, Except.bind]
    rw [show s.idxDat = dat from rfl, hmask]
    simp only
    rw [mapM_boolIndex _ _ (fun r hr => by rw [Np.length_tile, hl]; exact hval.rows r hr)]
    congr 1
    rw [show s.rows = rows.map fun r => Np.tile r nframes from rfl, List.map_map]
    rw [show (payload.map fun r => Np.tile (r.take (Np.countNonzero dat)) nframes)
      = (payload.map fun r => r.take (Np.countNonzero dat)).map fun r => Np.tile r nframes by rw [List.map_map]; rfl,
      ← hdat, List.map_map]
    apply List.map_congr_left
    intro r hr
    exact select_tile r dat (by rw [hl]; exact hrl r hr) nframes
  · intro f hf
    have := C21_extract_pilots s nframes hfl hval [f] (by simp) (by simpa using hf)
    rw [show s.frameLen = frameLen from rfl] at this
    rw [this]
    congr 1
    rw [← hpil, show s.rows = rows.map fun r => Np.tile r nframes from rfl, List.map_map]
    apply List.map_congr_left
    intro r hr
    have hr' := hrl r hr
    have ht := tile_frame r nframes f hf
    rw [hr'] at ht
    simp only [Function.comp_apply, List.flatMap_cons, List.flatMap_nil, List.append_nil, ht]
    rw [select_eq_samplesAt _ _ (by rw [hr', h2, List.length_map, hl])]
    apply samplesAt_congr
    intro i hi
    rw [hr'] at hi
    rw [h2, h1, List.map_map, List.getElem?_map, List.getElem?_range hi]
    simp only [Option.map_some, Function.comp_apply, show s.seqLen = seqLen from rfl, show s.insRat = rat from rfl]
    cases isData seqLen rat i <;> rfl

/-- C21, the other direction: any frame is rebuilt from its own pilots and payload. -/
theorem C21_rebuild (junk : α) (frame : List (List α)) (frameLen seqLen rat : Nat)
    (dat pil : List Bool) (hlay : calPilotIdx frameLen seqLen rat = .ok (dat, pil)) 
    (hF : ∀ r ∈ frame, r.length = frameLen) :
    ∃ s, pilotFromFrame junk frame frameLen frameLen seqLen rat 1 = .ok s ∧ s.rows = frame := by
  obtain ⟨h1, h2⟩ := calPilotIdx_ok hlay
  have hl : dat.length = frameLen := by rw [h1]; simp
  have hl2 : pil.length = frameLen := by rw [h2, List.length_map, hl]
  have hcount : Np.countNonzero dat ≤ frameLen := by
    rw [← hl]; exact List.count_le_length
  have hi1 := mapM_boolIndex frame pil (fun r hr => by rw [hl2]; exact hF r hr)
  have hi2 := mapM_boolIndex frame dat (fun r hr => by rw [hl]; exact hF r hr)
  have hrows : ((frame.map fun r => Np.select r pil).zip
      ((frame.map fun r => Np.select r dat).map fun r => r.take (Np.countNonzero dat))).mapM
      (fun x => do
        let out ← boolAssign pil (List.replicate frameLen junk) x.1
        boolAssign dat out x.2) = (.ok frame : Except PyErr _) := by
    clear hi1 hi2
    induction frame with
    | nil => rfl
    | cons r frame ih =>
      have hr := hF r (by simp)
      simp only [List.map_cons, List.zip_cons_cons, List.mapM_cons]
      rw [ih (fun q hq => hF q (by simp [hq]))]
      have hlen : (Np.select r dat).length = Np.countNonzero dat := Np.length_select _ _ (by rw [hr, hl])
      obtain ⟨r', a, b, c, d⟩ := frame_row junk dat (Np.select r pil) (Np.select r dat)
        (by rw [Np.length_select _ _ (by rw [hr, hl2]), h2]) hlen
      rw [hl, ← h2] at a
      rw [List.take_of_length_le (by omega), a]
      have : r' = r := Np.eq_of_select r' r dat b (by rw [hr, hl]) c (by rw [d, h2])
      rw [this]; rfl
  refine ⟨{ rows := frame.map fun r => Np.tile r 1, frameLen := frameLen, seqLen := seqLen, insRat := rat, symbols := (frame.map fun r => Np.select r dat).map fun r => r.take (Np.countNonzero dat), pilots := frame.map fun r => Np.select r pil, idxDat := dat, idxPil := pil }, ?_, ?_⟩
  · simp only [pilotFromFrame, hlay, bind, Except.bind, pure, Except.pure, hcount, not_true_eq_false, if_false, hi1, hi2,
      pilotFromSymbolArray, List.length_map, if_true, le_refl]
    simp only [bind, Except.bind] at hrows
    rw [hrows]
  · simp only [Np.tile, List.replicate_one, List.flatten_singleton]
    exact List.map_id' frame

example : ∃ s, pilotFromSymbolArray (0 : Nat) [[1, 2, 3], [4, 5, 6]] 3 6 2 4 [[10, 11, 12], [20, 21, 22]] 2 = .ok s ∧
    s.rows = [[10, 11, 12, 1, 2, 3, 10, 11, 12, 1, 2, 3], [20, 21, 22, 4, 5, 6, 20, 21, 22, 4, 5, 6]] ∧
    getData s 12 1 none = .ok [[1, 2, 3, 1, 2, 3], [4, 5, 6, 4, 5, 6]] ∧
    extractPilots s 12 1 (some [1]) = .ok [[10, 11, 12], [20, 21, 22]] :=
  ⟨_, rfl, rfl, rfl, rfl⟩

/-! ### C80: the constructor -/

/-- `SignalWithPilots(...)` with repeated pilots: for both settings of `repeat_data` the object has whole frames,
`get_data()` returns `symbols` and every frame has the drawn pilots. -/
theorem C80_new_partial (junk : α) (frameLen seqLen rat nframes : Nat) (pilotDraw dataDraw : List (List α))
    (repeatData : Bool) (dat pil : List Bool) (hlay : calPilotIdx frameLen seqLen rat = .ok (dat, pil))
    (hfl : 1 ≤ frameLen) (hnf : 1 ≤ nframes) (hm : pilotDraw.length = dataDraw.length)
    (hp : ∀ r ∈ pilotDraw, r.length = Np.countNonzero pil)
    (hd : ∀ r ∈ dataDraw, r.length = if repeatData then Np.countNonzero dat else Np.countNonzero dat * nframes) :
    ∃ s, pilotNew junk frameLen seqLen rat nframes pilotDraw dataDraw repeatData true = .ok s ∧
      ValidFrames s nframes ∧ s.frameLen = frameLen ∧
      s.symbols = (if repeatData then dataDraw.map fun r => Np.tile r nframes else dataDraw) ∧
      getData s (nframes * frameLen) 1 none = .ok s.symbols ∧
      s.pilots = (pilotDraw.map fun r => Np.tile r nframes) ∧
      extractPilots s (nframes * frameLen) 1 none = .ok s.pilots := by
  obtain ⟨h1, h2⟩ := calPilotIdx_ok hlay
  have hl : dat.length = frameLen := by rw [h1]; simp
  have hl2 : pil.length = frameLen := by rw [h2, List.length_map, hl]
  have hpt : (Np.tile dat nframes).map not = Np.tile pil nframes := by rw [← tile_map, h2]
  have htl : (Np.tile dat nframes).length = frameLen * nframes := by rw [Np.length_tile, hl, Nat.mul_comm]
  set symbs := (if repeatData then dataDraw.map fun r => Np.tile r nframes else dataDraw) with hsym
  have hsl : symbs.length = dataDraw.length := by rw [hsym]; split <;> simp
  have hsr : ∀ r ∈ symbs, r.length = nframes * Np.countNonzero dat := by
    intro r hr
    cases repeatData
    · have := hd r hr
      rw [this]
      simp [Nat.mul_comm]
    · simp only [hsym, if_true, List.mem_map] at hr
      obtain ⟨r', hr', rfl⟩ := hr
      rw [Np.length_tile, hd r' hr']; rfl
  obtain ⟨rows, hrows, hR⟩ := mapM_exists ((pilotDraw.map fun r => Np.tile r nframes).zip symbs)
    (fun x => do
      let out ← boolAssign (Np.tile pil nframes) (List.replicate (frameLen * nframes) junk) x.1
      boolAssign (Np.tile dat nframes) out x.2)
    (fun x r => r.length = nframes * frameLen ∧ Np.select r (Np.tile dat nframes) = x.2 ∧
      Np.select r (Np.tile pil nframes) = x.1) (by
      intro x hx
      have hx1 := (List.of_mem_zip hx).1
      rw [List.mem_map] at hx1
      obtain ⟨p0, hp0, hx1⟩ := hx1
      have hx2 := hsr _ (List.of_mem_zip hx).2
      obtain ⟨r, a, b, c, d⟩ := frame_row junk (Np.tile dat nframes) x.1 x.2
        (by rw [← hx1, Np.length_tile, hp p0 hp0, hpt, countNonzero_tile])
        (by rw [hx2, countNonzero_tile])
      rw [hpt, htl] at a
      exact ⟨r, a, by rw [b, htl, Nat.mul_comm], c, by rw [← hpt]; exact d⟩)
  have hrl : ∀ r ∈ rows, r.length = nframes * frameLen := forall₂_right (hR.imp fun _ _ h => h.1)
  set s : PilotSignal α := { rows := rows, frameLen := frameLen, seqLen := seqLen, insRat := rat, symbols := symbs, pilots := pilotDraw.map fun r => Np.tile r nframes, idxDat := dat, idxPil := pil } with hs
  have hval : ValidFrames s nframes := ⟨hlay, hrl⟩
  refine ⟨s, ?_, hval, rfl, rfl, ?_, rfl, ?_⟩
  · simp only [pilotNew, hlay, bind, Except.bind, pure, Except.pure, if_true]
    simp only [bind, Except.bind] at hrows
    rw [← hsym, hrows]
  · have hmask := dataMask_range dat (nframes * frameLen) nframes hnf
    rw [hl] at hmask
    simp only [getData, show s.frameLen = frameLen from rfl, framesArg, nFrames_one nframes _ hfl, bind, Except.bind]
    rw [show s.idxDat = dat from rfl, hmask]
    simp only
    rw [mapM_boolIndex _ _ (fun r hr => by rw [htl, Nat.mul_comm]; exact hval.rows r hr)]
    congr 1
    have := forall₂_map_eq (f := fun x : List α × List α => x.2) (g := fun r => Np.select r (Np.tile dat nframes))
      (hR.imp fun x r h => h.2.1.symm)
    rw [show s.rows = rows from rfl, ← this]
    exact List.map_snd_zip (by simp [hm, hsl])
  · rw [show frameLen = s.frameLen from rfl, C21_extract_pilots_all s nframes hnf hfl,
      C21_extract_pilots s nframes hfl hval (List.range nframes)
        (by intro h; have := congrArg List.length h; simp at this; omega) (fun f hf => List.mem_range.1 hf)]
    congr 1
    have := forall₂_map_eq (f := fun x : List α × List α => x.1) (g := fun r => Np.select r (Np.tile pil nframes))
      (hR.imp fun x r h => h.2.2.symm)
    rw [List.map_fst_zip (by simp [hm, hsl])] at this
    rw [show s.pilots = pilotDraw.map fun r => Np.tile r nframes from rfl, this]
    rw [show s.rows = rows from rfl]
    apply List.map_congr_left
    intro r hr
    have hr' := hrl r hr
    have key : ∀ (n : Nat) (r : List α), r.length = n * frameLen → Np.select r (Np.tile pil n)
        = (List.range n).flatMap fun f => samplesAt ((r.drop (f * frameLen)).take frameLen) fun p => !isData seqLen rat p := by
      intro n
      induction n with
      | zero =>
        intro r hr
        have : r = [] := List.length_eq_zero_iff.1 (by simpa using hr)
        subst this
        rfl
      | succ n ih =>
        intro r hr
        have hle : frameLen ≤ r.length := by rw [hr, Nat.add_mul]; omega
        rw [tile_succ, ← List.take_append_drop frameLen r,
          Np.select_append _ _ _ _ (by rw [List.length_take, hl2]; omega),
          ih (r.drop frameLen) (by rw [List.length_drop, hr, Nat.add_mul]; omega), List.take_append_drop,
          List.range_succ_eq_map, List.flatMap_cons, List.flatMap_map]
        congr 1
        · rw [select_eq_samplesAt _ _ (by rw [List.length_take, hl2]; omega), Nat.zero_mul, List.drop_zero]
          apply samplesAt_congr
          intro i hi
          have hi : i < frameLen := by
            rw [List.length_take] at hi; omega
          rw [h2, h1, List.map_map, List.getElem?_map, List.getElem?_range hi]
          simp only [Option.map_some, Function.comp_apply]
          cases isData seqLen rat i <;> rfl
        · apply List.flatMap_congr
          intro f _
          rw [List.drop_drop, show frameLen + f * frameLen = f.succ * frameLen by rw [Nat.succ_mul]; omega]
    exact (key nframes r hr').symm

example : ∃ s, pilotNew 0 6 2 4 2 [[1, 2, 3]] [[4, 5, 6, 7, 8, 9]] false true = .ok s ∧
    s.rows = [[1, 2, 3, 4, 5, 6, 1, 2, 3, 7, 8, 9]] ∧ getData s 12 1 none = .ok [[4, 5, 6, 7, 8, 9]] :=
  ⟨_, rfl, rfl, rfl⟩

/-- The full claim: every combination of the options yields an object. -/
def C80_statement : Prop :=
  ∀ (frameLen seqLen rat nframes : Nat) (dat pil : List Bool) (pilotDraw dataDraw : List (List Nat)) (repeatData repeatPilots : Bool),
    calPilotIdx frameLen seqLen rat = .ok (dat, pil) → pilotDraw.length = dataDraw.length →
    (∀ r ∈ pilotDraw, r.length = Np.countNonzero pil) →
    (∀ r ∈ dataDraw, r.length = if repeatData then Np.countNonzero dat else Np.countNonzero dat * nframes) →
    ∃ s, pilotNew 0 frameLen seqLen rat nframes pilotDraw dataDraw repeatData repeatPilots = .ok s

/-- `repeat_pilots=False` with two frames raises ValueError: only the pilots of one frame are drawn. -/
theorem C80_false : ¬ C80_statement := by
  intro h
  obtain ⟨s, hs⟩ := h 6 2 4 2 [false, false, false, true, true, true] [true, true, true, false, false, false]
    [[1, 2, 3]] [[7, 8, 9]] true false rfl rfl (by decide) (by decide)
  have : pilotNew 0 6 2 4 2 [[1, 2, 3]] [[7, 8, 9]] true false = .error .value := by rfl
  rw [this] at hs
  simp at hs

/-- `repeat_pilots=False` never works for more than one frame with at least two pilots. -/
theorem C80_repeat_pilots_false_fails (junk : α) (frameLen seqLen rat nframes : Nat) (p d : List α)
    (ps ds : List (List α)) (repeatData : Bool) (dat pil : List Bool)
    (hlay : calPilotIdx frameLen seqLen rat = .ok (dat, pil)) (hnf : 2 ≤ nframes) (hp2 : 2 ≤ Np.countNonzero pil)
    (hp : p.length = Np.countNonzero pil) :
    pilotNew junk frameLen seqLen rat nframes (p :: ps) (d :: ds) repeatData false = .error .value := by
  obtain ⟨h1, h2⟩ := calPilotIdx_ok hlay
  have hl2 : pil.length = frameLen := by rw [h2, List.length_map, h1]; simp
  have herr : boolAssign (Np.tile pil nframes) (List.replicate (frameLen * nframes) junk) p = .error .value := by
    unfold boolAssign
    rw [if_neg (by rw [List.length_replicate, Np.length_tile, hl2, Nat.mul_comm]; simp), if_neg (by
      rw [countNonzero_tile, hp]
      intro h
      have : 2 * Np.countNonzero pil ≤ nframes * Np.countNonzero pil := Nat.mul_le_mul_right _ hnf
      omega)]
    match p, hp with
    | [], _ => rfl
    | [_], hp => simp at hp; omega
    | _ :: _ :: _, _ => rfl
  simp only [pilotNew, hlay, bind, Except.bind, Bool.false_eq_true, if_false]
  cases repeatData <;>
    simp only [if_true, List.map_cons, List.zip_cons_cons, List.mapM_cons, bind, Except.bind, herr, Bool.false_eq_true, if_false]

/-! ### C22: selected frames -/

/-- C22: `get_data(frames)` returns the payload of the frames. -/
def C22_statement : Prop :=
  ∀ (s : PilotSignal Nat) (n : Nat) (fs : List Nat), 1 ≤ s.frameLen → ValidFrames s n → fs ≠ [] → (∀ f ∈ fs, f < n) →
    fs.Pairwise (· < ·) →
    getData s (n * s.frameLen) 1 (some fs) = .ok (s.rows.map fun r => fs.flatMap fun f =>
      samplesAt ((r.drop (f * s.frameLen)).take s.frameLen) fun p => isData s.seqLen s.insRat p)

/-- Asking for any valid frames of a signal with at least two frames raises an exception: IndexError if only frame 0 is
requested, ValueError otherwise. -/
theorem C22_multi_frame_fails (s : PilotSignal α) (n : Nat) (hn : 2 ≤ n) (hf : 2 ≤ s.frameLen) (hv : ValidFrames s n)
    (hrow : s.rows ≠ []) (fs : List Nat) (hne : fs ≠ []) (hfs : ∀ f ∈ fs, f < n) :
    getData s (n * s.frameLen) 1 (some fs) = .error (if fs.max? = some 0 then .index else .value) := by
  obtain ⟨h1, h2⟩ := calPilotIdx_ok hv.layout
  have hl : s.idxDat.length = s.frameLen := by rw [h1]; simp
  obtain ⟨m, hm, hmax, hlt⟩ := framesArg_some n s.frameLen (by omega) fs hne hfs
  rw [hmax]
  simp only [getData, hm, bind, Except.bind]
  by_cases hm0 : m = 0
  · subst hm0
    rw [dataMask, if_pos (by omega)]
    obtain ⟨r, rows, hrows⟩ := List.exists_cons_of_ne_nil hrow
    have hrl := hv.rows r (by rw [hrows]; simp)
    simp only [hrows, List.mapM_cons, boolIndex, bind, Except.bind]
    have h2n : 2 * s.frameLen ≤ n * s.frameLen := Nat.mul_le_mul_right _ hn
    rw [if_neg (by rw [hrl, List.length_take, hl]; omega)]
    rfl
  · have herr : dataMask s.idxDat (n * s.frameLen) s.frameLen fs m = .error .value := by
      rw [dataMask, if_neg (by omega)]
      have hmem : m ∈ fs := List.max?_mem hmax
      have hle : ∀ f ∈ fs, f ≤ m := fun f hfm => (List.max?_le_iff hmax).1 le_rfl f hfm
      have hset : ∀ (l : List Bool), l.length = s.frameLen * m → 
          setSlice l (m * s.frameLen) ((m + 1) * s.frameLen) s.idxDat = .error .value := by
        intro l hll
        unfold setSlice
        have e1 : min (m * s.frameLen) l.length = m * s.frameLen := by rw [hll, Nat.mul_comm]; omega
        have e2 : min ((m + 1) * s.frameLen) l.length = m * s.frameLen := by
          rw [hll, Nat.mul_comm s.frameLen, Nat.add_mul]; omega
        simp only [e1, e2]
        rw [if_neg (by omega)]
        match hd : s.idxDat, hl with
        | [], _ => rfl
        | [_], hl => simp at hl; omega
        | _ :: _ :: _, _ => rfl
      have hgood : ∀ (l : List Bool) (i : Nat), l.length = s.frameLen * m → i < m →
          ∃ l' : List Bool, setSlice l (i * s.frameLen) ((i + 1) * s.frameLen) s.idxDat = .ok l' ∧ l'.length = s.frameLen * m := by
        intro l i hll hi
        have hub : (i + 1) * s.frameLen ≤ m * s.frameLen := Nat.mul_le_mul_right _ hi
        have hcomm : s.frameLen * m = m * s.frameLen := Nat.mul_comm _ _
        have hexp : (i + 1) * s.frameLen = i * s.frameLen + s.frameLen := by ring
        unfold setSlice
        have e1 : min (i * s.frameLen) l.length = i * s.frameLen := by omega
        have e2 : min ((i + 1) * s.frameLen) l.length = (i + 1) * s.frameLen := by omega
        simp only [e1, e2]
        rw [if_pos (by omega)]
        refine ⟨_, rfl, ?_⟩
        simp only [List.length_append, List.length_take, List.length_drop]
        omega
      have key : ∀ (gs : List Nat) (l : List Bool), m ∈ gs → (∀ f ∈ gs, f ≤ m) → l.length = s.frameLen * m →
          gs.foldlM (fun idx i => setSlice idx (i * s.frameLen) ((i + 1) * s.frameLen) s.idxDat) l = .error .value := by
        intro gs
        induction gs with
        | nil => intro l h; simp at h
        | cons g gs ih =>
          intro l hmg hle hll
          rw [List.foldlM_cons]
          by_cases hg : g = m
          · rw [hg, hset l hll]; rfl
          · obtain ⟨l', h1, h2⟩ := hgood l g hll (lt_of_le_of_ne (hle g (by simp)) hg)
            rw [h1]
            exact ih l' (by simpa [Ne.symm hg] using hmg) (fun f hf => hle f (by simp [hf])) h2
      exact key fs _ hmem hle (by simp)
    rw [herr, if_neg (by simpa using hm0)]

theorem C22_false : ¬ C22_statement := by
  intro h
  let s : PilotSignal Nat := { rows := [[10, 11, 12, 1, 2, 3, 10, 11, 12, 4, 5, 6]], frameLen := 6, seqLen := 2, insRat := 4, symbols := [[1, 2, 3, 4, 5, 6]], pilots := [[10, 11, 12, 10, 11, 12]], idxDat := [false, false, false, true, true, true], idxPil := [true, true, true, false, false, false] }
  have hv : ValidFrames s 2 := ⟨(by rfl : calPilotIdx 6 2 4 = .ok ([false, false, false, true, true, true], [true, true, true, false, false, false])), by simp [s]⟩
  have h1 := h s 2 [1] (by decide) hv (by simp) (by simp) (by simp)
  have h2 := C22_multi_frame_fails s 2 le_rfl (by decide) hv (by simp [s]) [1] (by simp) (by simp)
  rw [h1] at h2
  simp at h2

/-- C22 holds for signals of a single frame. -/
theorem C22_single_frame_partial (s : PilotSignal α) (hf : 1 ≤ s.frameLen) (hv : ValidFrames s 1) :
    getData s s.frameLen 1 (some [0]) = .ok (s.rows.map fun r => samplesAt r fun p => isData s.seqLen s.insRat p) := by
  obtain ⟨h1, h2⟩ := calPilotIdx_ok hv.layout
  have hl : s.idxDat.length = s.frameLen := by rw [h1]; simp
  obtain ⟨m, hm, hmax, hlt⟩ := framesArg_some 1 s.frameLen hf [0] (by simp) (by simp)
  have hm0 : m = 0 := by omega
  subst hm0
  rw [Nat.one_mul] at hm
  simp only [getData, hm, bind, Except.bind, dataMask, Nat.lt_one_iff, if_true]
  have hrl : ∀ r ∈ s.rows, r.length = s.frameLen := fun r hr => by rw [hv.rows r hr, Nat.one_mul]
  rw [List.take_of_length_le (by omega), mapM_boolIndex _ _ (fun r hr => by rw [hl]; exact hrl r hr)]
  congr 1
  apply List.map_congr_left
  intro r hr
  rw [select_eq_samplesAt _ _ (by rw [hl]; exact hrl r hr)]
  apply samplesAt_congr
  intro i hi
  rw [hrl r hr] at hi
  rw [h1, List.getElem?_map, List.getElem?_range hi, Option.map_some]
  cases isData s.seqLen s.insRat i <;> rfl

/-- C22: a received signal that is longer than its whole frames makes `get_data()` raise IndexError. -/
theorem C22_tail_fails (s : PilotSignal α) (n t : Nat) (hn : 1 ≤ n) (ht0 : 0 < t) (ht : t < s.frameLen)
    (hlay : calPilotIdx s.frameLen s.seqLen s.insRat = .ok (s.idxDat, s.idxPil)) (hrow : s.rows ≠ [])
    (hrows : ∀ r ∈ s.rows, r.length = n * s.frameLen + t) :
    getData s (n * s.frameLen + t) 1 none = .error .index := by
  obtain ⟨h1, h2⟩ := calPilotIdx_ok hlay
  have hl : s.idxDat.length = s.frameLen := by rw [h1]; simp
  have hnf : nFrames (n * s.frameLen + t) 1 s.frameLen = .ok n := by
    rw [nFrames, if_neg (by omega), Nat.one_mul, Nat.add_comm, Nat.add_mul_div_right _ _ (by omega),
      Nat.div_eq_of_lt ht, Nat.zero_add]
  have hm := dataMask_range s.idxDat (n * s.frameLen + t) n hn
  rw [hl] at hm
  simp only [getData, framesArg, hnf, bind, Except.bind, hm]
  obtain ⟨r, rows, hr⟩ := List.exists_cons_of_ne_nil hrow
  have := hrows r (by rw [hr]; simp)
  simp only [hr, List.mapM_cons, boolIndex, bind, Except.bind]
  rw [if_neg (by rw [this, Np.length_tile, hl]; omega)]

/-! ### C79: pilots at given positions -/

/-- C79: `from_symbol_array(..., pilot_idx=...)` puts the pilots at the given (sorted) positions and the payload at the other
positions, in order. -/
def C79_statement : Prop :=
  ∀ (frameLen : Nat) (pilotIdx payload pilots : List Nat), pilotIdx.Pairwise (· < ·) → (∀ i ∈ pilotIdx, i < frameLen) →
    pilots.length = pilotIdx.length → payload.length + pilotIdx.length = frameLen →
    ∃ r, pilotFromSymbolArrayIdx 0 payload frameLen pilotIdx pilots = .ok r ∧
      samplesAt r (fun i => decide (i ∈ pilotIdx)) = pilots ∧ samplesAt r (fun i => decide (i ∉ pilotIdx)) = payload

/-- With the first position a data position one data symbol is dropped (`np.count_nonzero` of indices); here the
remaining one is broadcast over both data positions. -/
theorem C79_false : ¬ C79_statement := by
  intro h
  obtain ⟨r, h1, -, h3⟩ := h 4 [2, 3] [5, 6] [8, 9] (by decide) (by decide) rfl rfl
  have : pilotFromSymbolArrayIdx 0 [5, 6] 4 [2, 3] [8, 9] = .ok [5, 5, 8, 9] := by rfl
  rw [this] at h1
  have hr : [5, 5, 8, 9] = r := by simpa using h1
  subst hr
  revert h3
  decide

theorem foldl_set_getElem? (idx : List Nat) (vals row : List α) (hnd : idx.Nodup) (hl : vals.length = idx.length)
    (hb : ∀ i ∈ idx, i < row.length) :
    ((idx.zip vals).foldl (fun r p => r.set p.1 p.2) row).length = row.length ∧
    (∀ k : Nat, k < idx.length → ∀ i, idx[k]? = some i →
      ((idx.zip vals).foldl (fun r p => r.set p.1 p.2) row)[i]? = vals[k]?) ∧
    (∀ i : Nat, i ∉ idx → ((idx.zip vals).foldl (fun r p => r.set p.1 p.2) row)[i]? = row[i]?) := by
  induction idx generalizing vals row with
  | nil => simp
  | cons j idx ih =>
    cases vals with
    | nil => simp at hl
    | cons v vals =>
      rw [List.nodup_cons] at hnd
      obtain ⟨a, b, c⟩ := ih vals (row.set j v) hnd.2 (by simpa using hl)
        (fun i hi => by rw [List.length_set]; exact hb i (by simp [hi]))
      simp only [List.zip_cons_cons, List.foldl_cons]
      refine ⟨by rw [a, List.length_set], ?_, ?_⟩
      · intro k hk i hi
        cases k with
        | zero =>
          have : j = i := by simpa using hi
          subst this
          rw [c j hnd.1, List.getElem?_set_self (hb j (by simp))]; rfl
        | succ k =>
          rw [b k (by simpa using hk) i (by simpa using hi)]; rfl
      · intro i hi
        simp only [List.mem_cons, not_or] at hi
        rw [c i hi.2, List.getElem?_set_ne (Ne.symm hi.1)]

theorem samplesAt_of_positions (r : List α) (P : Nat → Bool) (v : List α)
    (hl : v.length = ((List.range r.length).filter P).length)
    (h : ∀ k : Nat, k < v.length → ∀ i, ((List.range r.length).filter P)[k]? = some i → r[i]? = v[k]?) :
    samplesAt r P = v := by
  have : ((List.range r.length).filter P).map (r[·]?) = v.map some := by
    apply List.ext_getElem?
    intro k
    rw [List.getElem?_map, List.getElem?_map]
    by_cases hk : k < v.length
    · obtain ⟨i, hi⟩ : ∃ i, ((List.range r.length).filter P)[k]? = some i := by
        rw [hl] at hk
        exact ⟨_, List.getElem?_eq_getElem hk⟩
      rw [hi, Option.map_some, h k hk i hi, List.getElem?_eq_getElem hk]; rfl
    · rw [List.getElem?_eq_none (by omega), List.getElem?_eq_none (by omega)]; rfl
  rw [samplesAt]
  have h2 : List.filterMap (r[·]?) ((List.range r.length).filter P)
      = List.filterMap id (((List.range r.length).filter P).map (r[·]?)) := by
    rw [List.filterMap_map]; rfl
  rw [h2, this, List.filterMap_map]
  simp

/-- C79 holds if the first symbol of the frame is a pilot and the pilots are given. -/
theorem C79_given_positions_partial (junk : α) (frameLen : Nat) (pilotIdx : List Nat) (payload pilots : List α)
    (h0 : 0 ∈ pilotIdx) (hnd : pilotIdx.Nodup) (hb : ∀ i ∈ pilotIdx, i < frameLen) (hp : pilots.length = pilotIdx.length)
    (hd : payload.length + pilotIdx.length = frameLen) :
    ∃ r, pilotFromSymbolArrayIdx junk payload frameLen pilotIdx pilots = .ok r ∧ r.length = frameLen ∧
      samplesAt r (fun i => decide (i ∈ pilotIdx)) = pilots ∧ samplesAt r (fun i => decide (i ∉ pilotIdx)) = payload := by
  set D := (List.range frameLen).filter (fun i => i ∉ pilotIdx) with hD
  set P := (List.range frameLen).filter (fun i => i ∈ pilotIdx) with hP
  have hndD : D.Nodup := List.nodup_range.filter _
  have hndP : P.Nodup := List.nodup_range.filter _
  have hPl : P.length = pilotIdx.length := by
    apply List.Perm.length_eq
    rw [List.perm_ext_iff_of_nodup hndP hnd]
    intro a
    simp only [hP, List.mem_filter, List.mem_range, decide_eq_true_eq]
    exact ⟨fun h => h.2, fun h => ⟨hb a h, h⟩⟩
  have hDl : D.length = payload.length := by
    have : D.length + P.length = frameLen := by
      rw [hD, hP]
      have := List.length_eq_length_filter_add (l := List.range frameLen) (fun i => decide (i ∈ pilotIdx))
      rw [List.length_range] at this
      have e : (List.range frameLen).filter (fun i => decide (i ∉ pilotIdx))
          = (List.range frameLen).filter (fun i => !decide (i ∈ pilotIdx)) := by
        apply List.filter_congr
        intro i _
        simp
      rw [e]
      omega
    omega
  have hcnt : countNonzeroInt D = payload.length := by
    rw [countNonzeroInt, ← hDl, List.countP_eq_length]
    intro a ha
    simp only [hD, List.mem_filter, decide_eq_true_eq] at ha
    simp only [ne_eq, decide_eq_true_eq]
    rintro rfl
    exact ha.2 h0
  have hPb : ∀ i ∈ P, i < (List.replicate frameLen junk).length := by
    intro i hi
    rw [List.length_replicate]
    exact List.mem_range.1 (List.mem_filter.1 hi).1
  obtain ⟨a1, b1, c1⟩ := foldl_set_getElem? P pilots (List.replicate frameLen junk) hndP (by rw [hp, hPl]) hPb
  set r1 := (P.zip pilots).foldl (fun r p => r.set p.1 p.2) (List.replicate frameLen junk) with hr1
  rw [List.length_replicate] at a1
  have hDb : ∀ i ∈ D, i < r1.length := by
    intro i hi
    rw [a1]
    exact List.mem_range.1 (List.mem_filter.1 hi).1
  obtain ⟨a2, b2, c2⟩ := foldl_set_getElem? D payload r1 hndD hDl.symm hDb
  set r2 := (D.zip payload).foldl (fun r p => r.set p.1 p.2) r1 with hr2
  have hr2l : r2.length = frameLen := by rw [a2, a1]
  refine ⟨r2, ?_, hr2l, ?_, ?_⟩
  · simp only [pilotFromSymbolArrayIdx, pilotIdxGiven, bind, Except.bind]
    rw [if_neg (not_not.2 hb)]
    simp only [← hD, ← hP, hcnt, le_refl, not_true_eq_false, if_false, List.take_length]
    simp only [fancyAssign]
    rw [if_neg (not_not.2 hPb), if_pos (by rw [hp, hPl])]
    simp only [← hr1]
    rw [if_neg (not_not.2 hDb), if_pos hDl.symm]
  · apply samplesAt_of_positions
    · rw [hr2l, ← hP, hp, hPl]
    · intro k hk i hi
      rw [hr2l, ← hP] at hi
      have hmem : i ∈ P := List.mem_of_getElem? hi
      rw [c2 i (by
        intro h
        exact (by simpa using (List.mem_filter.1 h).2 : i ∉ pilotIdx) (by simpa using (List.mem_filter.1 hmem).2))]
      exact b1 k (by rw [hPl, ← hp]; exact hk) i hi
  · apply samplesAt_of_positions
    · rw [hr2l, ← hD, hDl]
    · intro k hk i hi
      rw [hr2l, ← hD] at hi
      exact b2 k (by rw [hDl]; exact hk) i hi

example : pilotFromSymbolArrayIdx 0 [5, 6, 7] 6 [0, 2, 5] [10, 11, 12] = .ok [10, 5, 11, 6, 7, 12] := by rfl

/-- Even then `get_data()` fails: the integer index array cannot be assigned to a frame of the boolean mask
(qampy/signals.py:1777-1779), whatever the number of frames. -/
theorem C79_get_data_fails (L frameLen nfr : Nat) (pilotIdx dat pil : List Nat) (h : pilotIdxGiven frameLen pilotIdx = .ok (dat, pil))
    (hne : pilotIdx ≠ []) (h2 : 2 ≤ dat.length) (hn : 1 ≤ nfr) :
    dataMask (dat.map fun i => decide (i ≠ 0)) L frameLen (List.range nfr) nfr = .error .value := by
  rw [pilotIdxGiven] at h
  split at h
  · simp at h
  · rename_i hb
    rw [not_not] at hb
    simp only [Except.ok.injEq, Prod.mk.injEq] at h
    have hlt : dat.length < frameLen := by
      rw [← h.1]
      obtain ⟨i, hi⟩ := List.exists_mem_of_ne_nil _ hne
      have : (List.filter (fun i => decide (i ∉ pilotIdx)) (List.range frameLen)).length < (List.range frameLen).length := by
        rw [List.length_filter_lt_length_iff_exists]
        exact ⟨i, List.mem_range.2 (hb i hi), by simpa using hi⟩
      simpa using this
    rw [dataMask, if_neg (by omega)]
    obtain ⟨k, rfl⟩ : ∃ k, nfr = k + 1 := ⟨nfr - 1, by omega⟩
    rw [List.range_succ_eq_map, List.foldlM_cons]
    have : setSlice (List.replicate (frameLen * (k + 1)) false) (0 * frameLen) ((0 + 1) * frameLen)
        (dat.map fun i => decide (i ≠ 0)) = .error .value := by
      unfold setSlice
      simp only [List.length_replicate, Nat.zero_mul, Nat.zero_min, Nat.zero_add, Nat.one_mul, Nat.sub_zero, List.length_map]
      have : min frameLen (frameLen * (k + 1)) = frameLen := by
        have : frameLen * (k + 1) = frameLen * k + frameLen := by ring
        omega
      rw [this, if_neg (by omega)]
      match dat, h2 with
      | _ :: _ :: _, _ => rfl
    rw [this]; rfl

/-! ### C23, C78: time domain hybrid QAM -/

theorem countP_range_mod (n f f1 : Nat) (hf : 1 ≤ f) (h : f1 ≤ f) :
    (List.range (n * f)).countP (fun i => decide (i % f < f1)) = n * f1 := by
  induction n with
  | zero => simp
  | succ n ih =>
    rw [Nat.add_mul, Nat.one_mul, List.range_add, List.countP_append, ih, List.countP_map, Nat.add_mul, Nat.one_mul]
    congr 1
    have : (List.range f).countP ((fun i => decide (i % f < f1)) ∘ fun x => n * f + x)
        = (List.range f).countP fun i => decide (i < f1) := by
      apply List.countP_congr
      intro i hi
      have hi := List.mem_range.1 hi
      rw [Function.comp_apply, Nat.add_comm, Nat.add_mul_mod_self_right, Nat.mod_eq_of_lt hi]
    rw [this]
    obtain ⟨e, rfl⟩ : ∃ e, f = f1 + e := ⟨f - f1, by omega⟩
    rw [List.range_add, List.countP_append, List.countP_map]
    have h1 : (List.range f1).countP (fun i => decide (i < f1)) = f1 := by
      rw [List.countP_eq_length.2]
      · simp
      · intro i hi; simpa using hi
    have h2 : (List.range e).countP ((fun i => decide (i < f1)) ∘ fun x => f1 + x) = 0 := by
      rw [List.countP_eq_zero]
      intro i _; simp
    rw [h1, h2]; rfl

/-- C23: for a fraction between 0 and 1 the two masks are complementary and a signal of `n` sub-frames has exactly `n·f_M1`
positions of the first and `n·f_M2` of the second format; `f_M2/f_M` is the requested fraction. -/
theorem C23_partition (fr : ℚ) (h0 : 0 ≤ fr) (h1 : fr ≤ 1) (n : Nat) :
    ∃ fM f1 f2 : Nat, calFractions fr = (fM, (f1 : Int), (f2 : Int)) ∧ f1 + f2 = fM ∧ 1 ≤ fM ∧ (f2 : ℚ) / fM = fr ∧
      Nat.Coprime f2 fM ∧
      ∃ i1 i2 : List Bool, calSymbolIdx (n * fM) fM f1 = (i1, i2) ∧ i1.length = n * fM ∧ i2 = i1.map not ∧
        (∀ i : Nat, i < n * fM → i1[i]? = some (decide (i % fM < f1))) ∧
        Np.countNonzero i1 = n * f1 ∧ Np.countNonzero i2 = n * f2 := by
  have hnum : 0 ≤ fr.num := Rat.num_nonneg.2 h0
  have hle : fr.num ≤ fr.den := by
    have := Rat.le_iff (a := fr) (b := 1)
    have h := this.1 h1
    simpa using h
  have hpos : 1 ≤ fr.den := fr.den_pos
  obtain ⟨f2, hf2⟩ : ∃ f2 : Nat, fr.num = f2 := ⟨fr.num.toNat, by omega⟩
  have hf2le : f2 ≤ fr.den := by omega
  refine ⟨fr.den, fr.den - f2, f2, ?_, by omega, hpos, ?_, ?_, ?_⟩
  · simp only [calFractions, Prod.mk.injEq, true_and]
    omega
  · have := Rat.num_div_den fr
    rw [hf2] at this
    simpa using this
  · have := fr.reduced
    rwa [hf2, Int.natAbs_natCast] at this
  · have hmask : ∀ i : Nat, decide (((i % fr.den : Nat) : Int) < ((fr.den - f2 : Nat) : Int))
        = decide (i % fr.den < fr.den - f2) := fun i => decide_eq_decide.2 (by omega)
    refine ⟨_, _, rfl, by simp, ?_, ?_, ?_, ?_⟩
    · rw [List.map_map]
      apply List.map_congr_left
      intro i _
      rw [Function.comp_apply, ← decide_not]
      exact decide_eq_decide.2 (by omega)
    · intro i hi
      rw [List.getElem?_map, List.getElem?_range hi, Option.map_some, hmask]
    · rw [Np.countNonzero, List.count, List.countP_map, ← countP_range_mod n fr.den (fr.den - f2) hpos (by omega)]
      apply List.countP_congr
      intro i _
      rw [Function.comp_apply, hmask]
      simp
    · rw [Np.countNonzero, List.count, List.countP_map]
      have hsum : (List.range (n * fr.den)).length
          = (List.range (n * fr.den)).countP (fun i => decide (i % fr.den < fr.den - f2))
            + (List.range (n * fr.den)).countP (fun i => ! decide (i % fr.den < fr.den - f2)) := by
        have := List.length_eq_countP_add_countP (fun i => decide (i % fr.den < fr.den - f2)) (l := List.range (n * fr.den))
        rw [this]
        congr 1
        apply List.countP_congr
        intro i _
        simp
      rw [countP_range_mod n fr.den (fr.den - f2) hpos (by omega), List.length_range] at hsum
      have hc : (List.range (n * fr.den)).countP ((fun x => x == true) ∘
          fun i : Nat => decide (((i % fr.den : Nat) : Int) ≥ ((fr.den - f2 : Nat) : Int)))
          = (List.range (n * fr.den)).countP (fun i => ! decide (i % fr.den < fr.den - f2)) := by
        apply List.countP_congr
        intro i _
        simp only [Function.comp_apply, beq_true, decide_eq_true_eq, Bool.not_eq_true', decide_eq_false_iff_not]
        omega
      rw [hc]
      have : n * fr.den = n * (fr.den - f2) + n * f2 := by
        rw [← Nat.mul_add]; congr 1; omega
      omega

theorem tdh_rows (zero : α) (i1 : List Bool) (s1 s2 : List α) (h1 : s1.length = Np.countNonzero i1)
    (h2 : s2.length = Np.countNonzero (i1.map not)) :
    ∃ r, (do
        let out ← boolAssign i1 (List.replicate i1.length zero) s1
        boolAssign (i1.map not) out s2) = (.ok r : Except PyErr (List α)) ∧
      r.length = i1.length ∧ Np.select r i1 = s1 ∧ Np.select r (i1.map not) = s2 := by
  have := frame_row zero (i1.map not) s1 s2 (by rw [select_not]; exact h1) h2
  rw [select_not, List.length_map] at this
  obtain ⟨r, a, b, c, d⟩ := this
  exact ⟨r, a, b, d, c⟩

/-- C23: the hybrid signal of `N` requested symbols has `(N/f_M)·f_M` samples, and reading the positions with
`i mod f_M < f_M1` and the others gives back the two symbol streams. -/
theorem C23_round_trip (zero : α) (N : Nat) (fr : ℚ) (h0 : 0 ≤ fr) (h1 : fr ≤ 1) (fM f1 f2 : Nat)
    (hfr : calFractions fr = (fM, (f1 : Int), (f2 : Int))) (s1 s2 : List α) (hs1 : s1.length = N / fM * f1)
    (hs2 : s2.length = N / fM * f2) :
    ∃ out, tdhNew zero N fr s1 s2 = .ok out ∧ out.length = N / fM * fM ∧
      samplesAt out (fun i => decide (i % fM < f1)) = s1 ∧ samplesAt out (fun i => decide (f1 ≤ i % fM)) = s2 := by
  obtain ⟨fM', f1', f2', hfr', -, hpos, -, -, i1, i2, hi, hil, hi2, hix, hc1, hc2⟩ := C23_partition fr h0 h1 (N / fM)
  rw [hfr] at hfr'
  simp only [Prod.mk.injEq, Int.natCast_inj] at hfr'
  obtain ⟨rfl, rfl, rfl⟩ := hfr'
  obtain ⟨r, a, b, c, d⟩ := tdh_rows zero i1 s1 s2 (by rw [hc1, hs1]) (by rw [← hi2, hc2, hs2])
  have hN : (if N % fM > 0 then fM * (N / fM) else N) = N / fM * fM := by
    have := Nat.div_add_mod N fM
    split
    · rw [Nat.mul_comm]
    · rw [Nat.mul_comm]; omega
  refine ⟨r, ?_, by rw [b, hil], ?_, ?_⟩
  · simp only [tdhNew, hfr, hN, hi]
    rw [hi2, ← hil]
    exact a
  · rw [← c, select_eq_samplesAt _ _ b]
    apply samplesAt_congr
    intro i hi
    rw [b, hil] at hi
    rw [hix i hi]
    by_cases h : i % fM < f1 <;> simp [h]
  · rw [← d, select_eq_samplesAt _ _ (by rw [List.length_map, b])]
    apply samplesAt_congr
    intro i hi
    rw [b, hil] at hi
    rw [List.getElem?_map, hix i hi]
    by_cases h : i % fM < f1
    · simp [h, Nat.not_le.2 h]
    · simp [h, Nat.not_lt.1 h]

example : tdhNew 0 7 (1 / 3) [1, 2, 3, 4] [8, 9] = .ok [1, 2, 8, 3, 4, 9] := by decide +kernel

/-- C78: `from_symbol_arrays` truncates the longer of the two arrays, as its warning announces. -/
def C78_statement : Prop :=
  ∀ (fr : ℚ) (s1 s2 : List Nat), 0 < fr → fr < 1 → ∃ out, tdhFromSymbolArrays 0 fr s1 s2 = .ok out

/-- Nothing is truncated: unequal surplus raises ValueError. -/
theorem C78_false : ¬ C78_statement := by
  intro h
  obtain ⟨out, ho⟩ := h (1 / 2) [1, 2, 3] [4, 5] (by norm_num) (by norm_num)
  have : tdhFromSymbolArrays 0 (1 / 2) [1, 2, 3] [4, 5] = .error .value := by decide +kernel
  rw [this] at ho
  simp at ho

/-- C78 holds for arrays that fill the same whole number of sub-frames. -/
theorem C78_exact_lengths_partial (zero : α) (n : Nat) (fr : ℚ) (h0 : 0 ≤ fr) (h1 : fr ≤ 1) (fM f1 f2 : Nat)
    (hfr : calFractions fr = (fM, (f1 : Int), (f2 : Int))) (s1 s2 : List α) (hs1 : s1.length = n * f1)
    (hs2 : s2.length = n * f2) :
    tdhFromSymbolArrays zero fr s1 s2 = tdhNew zero (n * fM) fr s1 s2 := by
  obtain ⟨fM', f1', f2', hfr', hsum, hpos, -⟩ := C23_partition fr h0 h1 n
  rw [hfr] at hfr'
  simp only [Prod.mk.injEq, Int.natCast_inj] at hfr'
  obtain ⟨rfl, rfl, rfl⟩ := hfr'
  have hq : ((s1.length : Int) + s2.length) / (fM : Int) = n := by
    rw [hs1, hs2, show ((n * f1 : Nat) : Int) + ((n * f2 : Nat) : Int) = n * fM by rw [← hsum]; push_cast; ring]
    exact Int.mul_ediv_cancel _ (by omega)
  simp only [tdhFromSymbolArrays, tdhNew, hfr, hq]
  rw [if_neg (by rw [hs1, hs2]; push_cast; simp)]
  simp only [bind, Except.bind, pure, Except.pure]
  rw [show ((n : Int) * fM).toNat = n * fM by rw [← Int.natCast_mul]; exact Int.toNat_natCast _,
    Nat.mul_mod_left, if_neg (by omega)]

theorem boolAssign_length {α : Type _} {mask : List Bool} {row vals out : List α} (h : boolAssign mask row vals = .ok out) :
    row.length = mask.length ∧ (vals.length = Np.countNonzero mask ∨ vals.length = 1) := by
  unfold boolAssign at h
  split at h
  · cases h
  · rename_i h1
    refine ⟨not_not.1 h1, ?_⟩
    split at h
    · rename_i h2; exact Or.inl h2
    · split at h
      · exact Or.inr rfl
      · cases h

/-- C78: nothing but an exact fit is accepted. If `from_symbol_arrays` returns a nonempty signal, the two arrays fill the same whole number
of sub-frames, so no symbol of either array has been cut off. -/
theorem C78_only_exact_partial (zero : α) (fr : ℚ) (h0 : 0 < fr) (h1 : fr < 1) (s1 s2 out : List α)
    (h : tdhFromSymbolArrays zero fr s1 s2 = .ok out) (hne : out ≠ []) :
    ∃ n fM f1 f2 : Nat, calFractions fr = (fM, (f1 : Int), (f2 : Int)) ∧ s1.length = n * f1 ∧ s2.length = n * f2 ∧ 0 < n := by
  obtain ⟨fM, f1, f2, hfr, hsum, hpos, hq, hcop, -⟩ := C23_partition fr h0.le h1.le 0
  have hfM : (0 : ℚ) < fM := by exact_mod_cast hpos
  have hf2 : 0 < f2 := by
    rcases Nat.eq_zero_or_pos f2 with h | h
    · rw [h] at hq; simp at hq; linarith
    · exact h
  have hf1 : 0 < f1 := by
    rcases Nat.eq_zero_or_pos f1 with h | h
    · rw [h, Nat.zero_add] at hsum
      rw [hsum, div_self hfM.ne'] at hq
      linarith
    · exact h
  simp only [tdhFromSymbolArrays, hfr, bind, Except.bind] at h
  obtain ⟨n, hn1, hn2, h⟩ : ∃ n : Nat, n * f1 ≤ s1.length ∧ n * f2 ≤ s2.length ∧
      (boolAssign (calSymbolIdx (n * fM) fM f1).1 (List.replicate (n * fM) zero) s1).bind
        (fun o => boolAssign (calSymbolIdx (n * fM) fM f1).2 o s2) = .ok out := by
    have hcast : ∀ n : Nat, ((n : Int) * fM).toNat = n * fM := fun n => by rw [← Int.natCast_mul]; exact Int.toNat_natCast _
    split at h
    · rw [if_neg (by omega)] at h
      refine ⟨min (s1.length / f1) (s2.length / f2), ?_, ?_, ?_⟩
      · exact (Nat.mul_le_mul_right _ (Nat.min_le_left _ _)).trans (Nat.div_mul_le_self _ _)
      · exact (Nat.mul_le_mul_right _ (Nat.min_le_right _ _)).trans (Nat.div_mul_le_self _ _)
      · rw [← hcast]; push_cast; exact h
    · rename_i hc
      push Not at hc
      refine ⟨(s1.length + s2.length) / fM, ?_, ?_, ?_⟩
      · have := hc.1; exact_mod_cast this
      · have := hc.2; exact_mod_cast this
      · rw [← hcast]; push_cast; exact h
  obtain ⟨fM', f1', f2', hfr', -, -, -, -, i1, i2, hi, hil, -, -, hc1, hc2⟩ := C23_partition fr h0.le h1.le n
  rw [hfr] at hfr'
  simp only [Prod.mk.injEq, Int.natCast_inj] at hfr'
  obtain ⟨rfl, rfl, rfl⟩ := hfr'
  rw [hi] at h
  cases ho : boolAssign i1 (List.replicate (n * fM) zero) s1 with
  | error e => simp only [ho, Except.bind] at h; cases h
  | ok o =>
    simp only [ho, Except.bind] at h
    have l1 := (boolAssign_length ho).2
    have l2 := (boolAssign_length h).2
    rw [hc1] at l1
    rw [hc2] at l2
    have hn : 0 < n := by
      rcases Nat.eq_zero_or_pos n with h0 | h0
      · exfalso
        subst h0
        have hz : i1 = [] := List.length_eq_zero_iff.1 (by rw [hil]; simp)
        apply hne
        have e2 : i2 = [] := by
          have : calSymbolIdx (0 * fM) fM f1 = ([], []) := by simp [calSymbolIdx]
          rw [hi] at this
          exact (Prod.mk.inj this).2
        have := (boolAssign_length h).1
        rw [e2, List.length_nil, List.length_eq_zero_iff] at this
        subst this
        subst e2
        unfold boolAssign at h
        simp only [List.length_nil, ne_eq, not_true_eq_false, if_false] at h
        split at h
        · cases h; simp [Np.assign]
        · split at h
          · cases h; simp [Np.assign]
          · cases h
      · exact h0
    have g1 := Nat.mul_pos hn hf1
    have g2 := Nat.mul_pos hn hf2
    refine ⟨n, fM, f1, f2, hfr, ?_, ?_, hn⟩
    · rcases l1 with l1 | l1 <;> omega
    · rcases l2 with l2 | l2 <;> omega

example : tdhFromSymbolArrays 0 (1 / 3) [1, 2, 3, 4] [8, 9] = .ok [1, 2, 8, 3, 4, 9] := by decide +kernel
example : tdhFromSymbolArrays 0 (1 / 2) [1] [4, 5, 6] = .error .value := by decide +kernel

end Qampy
