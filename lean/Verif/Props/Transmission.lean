import Verif.Model.Transmission
import Verif.Props.Impairments
import Verif.Lemmas.Phase
import Verif.Tactics

/-!
C64: `simulate_transmission` applies exactly the given impairments, in a fixed order.
-/

namespace Qampy

open Complex

/-! ### Optional stages -/

/-- C64: with nothing given the signal comes back unchanged, whatever the random numbers. -/
theorem C64_identity (a : TxAttrs) (d : TxDraws) (theta : ℝ) (sig : List (List ℂ)) : simulateTransmission a d { theta := theta } sig = .ok sig := rfl

/-- C64: a call is the chain of the calls with a single impairment each, in the order frame roll, phase noise, frequency offset, noise, delay,
dispersion, PMD. -/
theorem C64_order (a : TxAttrs) (d : TxDraws) (p : TxParams) (sig : List (List ℂ)) :
    simulateTransmission a d p sig = (do
      let s ← simulateTransmission a d { rollFrame := p.rollFrame } sig
      let s ← simulateTransmission a d { lwdth := p.lwdth } s
      let s ← simulateTransmission a d { freqOff := p.freqOff } s
      let s ← simulateTransmission a d { snr := p.snr } s
      let s ← simulateTransmission a d { modalDelay := p.modalDelay } s
      let s ← simulateTransmission a d { dispersion := p.dispersion } s
      simulateTransmission a d { dgd := p.dgd, theta := p.theta } s) := by
  have e1 : ∀ s, simulateTransmission a d { rollFrame := p.rollFrame } s = txRoll a p s := by
    intro s; unfold simulateTransmission
    have e : txRoll a { rollFrame := p.rollFrame } s = txRoll a p s := rfl
    rw [e]
    cases txRoll a p s <;> rfl
  have e2 : ∀ s, simulateTransmission a d { lwdth := p.lwdth } s = txPhase a d p s := by
    intro s; unfold simulateTransmission txPhase; rcases p.lwdth with _ | x <;> rfl
  have e3 : ∀ s, simulateTransmission a d { freqOff := p.freqOff } s = txOffset a p s := by
    intro s; unfold simulateTransmission txOffset; rcases p.freqOff with _ | x <;> rfl
  have e4 : ∀ s, simulateTransmission a d { snr := p.snr } s = txSnr a d p s := by
    intro s; unfold simulateTransmission txSnr; rcases p.snr with _ | x <;> rfl
  have e5 : ∀ s, simulateTransmission a d { modalDelay := p.modalDelay } s = txDelay p s := by
    intro s; unfold simulateTransmission
    show (do let s ← txDelay p s; txDispersion {} s >>= txPMD a {}) = txDelay p s
    cases txDelay p s <;> rfl
  have e6 : ∀ s, simulateTransmission a d { dispersion := p.dispersion } s = txDispersion p s := by
    intro s; unfold simulateTransmission txDispersion; rcases p.dispersion with _ | x <;> rfl
  have e7 : ∀ s, simulateTransmission a d { dgd := p.dgd, theta := p.theta } s = txPMD a p s := by
    intro s; unfold simulateTransmission; rfl
  simp only [e1, e2, e3, e4, e5, e6, e7]
  rfl

/-- What each single impairment is: the functions of C36, C38, C39, C67 and the frame roll. -/
theorem C64_single (a : TxAttrs) (d : TxDraws) (sig : List (List ℂ)) :
    (∀ n, a.pilotLen = some n → simulateTransmission a d { rollFrame := true } sig = .ok (sig.map (Np.roll · (n : Int)))) ∧
    (∀ df, simulateTransmission a d { lwdth := some df } sig = .ok (applyPhaseNoise sig df a.fs d.ph)) ∧
    (∀ fo, simulateTransmission a d { freqOff := some fo } sig = .ok (sig.map fun r => addCarrierOffset r fo a.fs)) ∧
    (∀ snr, simulateTransmission a d { snr := some snr } sig = .ok (changeSnr sig snr a.fb a.fs
      (sig.mapIdx fun l r => (List.range r.length).map (d.re l)) (sig.mapIdx fun l r => (List.range r.length).map (d.im l)))) ∧
    (∀ ds, simulateTransmission a d { modalDelay := some ds } sig = addModalDelay sig ds) ∧
    (∀ t theta, simulateTransmission a d { dgd := some t, theta := theta } sig = applyPMD sig theta t a.fs) := by
  refine ⟨fun n h => ?_, fun _ => rfl, fun _ => rfl, fun _ => rfl, fun ds => ?_, fun _ _ => rfl⟩
  · unfold simulateTransmission txRoll
    rw [h]
    rfl
  · unfold simulateTransmission
    show (do let s ← addModalDelay sig ds; txDispersion {} s >>= txPMD a {}) = addModalDelay sig ds
    cases addModalDelay sig ds <;> rfl

/-- C64: with a dispersion the call always fails, for the undefined name unless an earlier stage already failed. -/
theorem C64_dispersion (a : TxAttrs) (d : TxDraws) (p : TxParams) (h : p.dispersion ≠ none) (sig : List (List ℂ)) :
    (∃ e, simulateTransmission a d p sig = .error e) ∧
    ((p.rollFrame = true → a.pilotLen ≠ none) → (∀ ds, p.modalDelay = some ds → ds.length = sig.length) → simulateTransmission a d p sig = .error .name) := by
  obtain ⟨D, hD⟩ := Option.ne_none_iff_exists'.1 h
  have hdisp : ∀ s, txDispersion p s = .error .name := fun s => by unfold txDispersion; rw [hD]
  have hrest : simulateTransmission a d p sig = (txRoll a p sig >>= fun s => txPhase a d p s >>= fun s => txOffset a p s >>= fun s => txSnr a d p s >>= fun s =>
      txDelay p s >>= fun _ => .error .name) := by
    unfold simulateTransmission
    simp only [hdisp]
    rfl
  have hph : ∀ s, ∃ s', txPhase a d p s = .ok s' ∧ s'.length = s.length := by
    intro s; unfold txPhase
    split
    · exact ⟨_, rfl, rfl⟩
    · exact ⟨_, rfl, by simp [applyPhaseNoise]⟩
  have hof : ∀ s, ∃ s', txOffset a p s = .ok s' ∧ s'.length = s.length := by
    intro s; unfold txOffset
    split
    · exact ⟨_, rfl, rfl⟩
    · exact ⟨_, rfl, by simp⟩
  have hsn : ∀ s, ∃ s', txSnr a d p s = .ok s' ∧ s'.length = s.length := by
    intro s; unfold txSnr
    split
    · exact ⟨_, rfl, rfl⟩
    · exact ⟨_, rfl, by simp [changeSnr]⟩
  have hrl : (p.rollFrame = true → a.pilotLen ≠ none) → ∃ s', txRoll a p sig = .ok s' ∧ s'.length = sig.length := by
    intro hr; unfold txRoll
    split
    · next hp =>
      obtain ⟨n, hn⟩ := Option.ne_none_iff_exists'.1 (hr hp)
      rw [hn]
      exact ⟨_, rfl, by simp⟩
    · exact ⟨_, rfl, rfl⟩
  constructor
  · rw [hrest]
    rcases txRoll a p sig with e | s0
    · exact ⟨e, rfl⟩
    obtain ⟨s1, h1, -⟩ := hph s0
    obtain ⟨s2, h2, -⟩ := hof s1
    obtain ⟨s3, h3, -⟩ := hsn s2
    simp only [bind, Except.bind, h1, h2, h3]
    rcases txDelay p s3 with e | s4
    · exact ⟨e, rfl⟩
    · exact ⟨_, rfl⟩
  · intro hr hdl
    obtain ⟨s0, h0, l0⟩ := hrl hr
    obtain ⟨s1, h1, l1⟩ := hph s0
    obtain ⟨s2, h2, l2⟩ := hof s1
    obtain ⟨s3, h3, l3⟩ := hsn s2
    rw [hrest]
    simp only [bind, Except.bind, h0, h1, h2, h3]
    have : ∃ s4, txDelay p s3 = .ok s4 := by
      unfold txDelay
      split
      · exact ⟨_, rfl⟩
      · next ds hds =>
        unfold addModalDelay
        rw [if_pos (by rw [hdl ds hds]; omega)]
        exact ⟨_, rfl⟩
    obtain ⟨s4, h4⟩ := this
    rw [h4]

/-! ### Energy -/

/-- C64: sample `k` of mode `l` is turned by `sqrt(2*pi*df/fs)` times the sum of the first `k+1` draws (a random walk from zero). -/
theorem C64_phase_noise (sig : List (List ℂ)) (df fs : ℝ) (f : Nat → Nat → ℝ) (l k : Nat) (r : List ℂ) (x : ℂ) (hr : sig[l]? = some r) (hx : r[k]? = some x) :
    ∃ r', (applyPhaseNoise sig df fs f)[l]? = some r' ∧ r'.length = r.length ∧
      r'[k]? = some (x * exp (I * ((Real.sqrt (2 * Real.pi * df / fs) * ∑ j ∈ Finset.range (k + 1), f l j : ℝ) : ℂ))) := by
  have hk : k < r.length := by
    by_contra hc
    rw [List.getElem?_eq_none (by omega)] at hx
    cases hx
  refine ⟨_, by unfold applyPhaseNoise; rw [List.getElem?_mapIdx, hr]; rfl, ?_, ?_⟩
  · simp [phaseNoiseRow, length_cumsumGo]
  · rw [List.getElem?_zipWith, hx]
    unfold phaseNoiseRow
    rw [getElem?_cumsumGo _ _ _ (by simpa using hk)]
    dsimp only
    have e : ∀ (u v : ℝ), u = v → some (x * exp (I * (u : ℂ))) = some (x * exp (I * (v : ℂ))) := fun u v h => by rw [h]
    refine e _ _ ?_
    rw [zero_add, Finset.mul_sum]
    refine Finset.sum_congr rfl fun j hj => ?_
    have hj' := Finset.mem_range.1 hj
    rw [List.getD_eq_getElem?_getD, List.getElem?_map, List.getElem?_range (by omega)]
    rfl

/-- Two signals have the same shape and the same energy in each mode. -/
def SameRows (s t : List (List ℂ)) : Prop := t.map (fun r => (r.length, energy r)) = s.map fun r => (r.length, energy r)

theorem energy_mul_unit (r : List ℂ) (p : List ℂ) (hl : p.length = r.length) (hp : ∀ z ∈ p, ‖z‖ = 1) : energy (List.zipWith (· * ·) r p) = energy r := energy_rowMul_unit hl hp

theorem sameRows_phase (sig : List (List ℂ)) (df fs : ℝ) (f : Nat → Nat → ℝ) : SameRows sig (applyPhaseNoise sig df fs f) := by
  unfold SameRows applyPhaseNoise
  apply List.ext_getElem?
  intro l
  rw [List.getElem?_map, List.getElem?_map, List.getElem?_mapIdx]
  rcases sig[l]? with _ | r
  · rfl
  · simp only [Option.map_some]
    have e : List.zipWith (fun x (p : ℝ) => x * exp (I * (p : ℂ))) r (phaseNoiseRow df fs (f l) r.length)
        = rowMul r ((phaseNoiseRow df fs (f l) r.length).map fun (p : ℝ) => exp (I * (p : ℂ))) := by
      unfold rowMul; rw [List.zipWith_map_right]
    have hl : (phaseNoiseRow df fs (f l) r.length).length = r.length := by simp [phaseNoiseRow, length_cumsumGo]
    rw [e, energy_rowMul_unit (by simpa using hl)]
    · simp [rowMul, hl]
    · intro z hz
      obtain ⟨p, -, rfl⟩ := List.mem_map.1 hz
      rw [mul_comm]; exact norm_exp_ofReal_mul_I p

theorem sameRows_offset (sig : List (List ℂ)) (fo fs : ℝ) : SameRows sig (sig.map fun r => addCarrierOffset r fo fs) := by
  unfold SameRows
  rw [List.map_map]
  apply List.map_congr_left
  intro r _
  have e : addCarrierOffset r fo fs = rowMul r ((List.range r.length).map fun (n : Nat) => exp (I * ((2 * Real.pi * n * fo / fs : ℝ) : ℂ))) := by
    unfold addCarrierOffset rowMul
    apply List.ext_getElem?
    intro k
    rw [List.getElem?_mapIdx, List.getElem?_zipWith, List.getElem?_map]
    rcases Nat.lt_or_ge k r.length with h | h
    · rw [List.getElem?_eq_getElem h, List.getElem?_range h]; rfl
    · rw [List.getElem?_eq_none h]; rfl
  simp only [Function.comp_apply]
  rw [e, energy_rowMul_unit (by simp)]
  · simp [rowMul]
  · intro z hz
    obtain ⟨p, -, rfl⟩ := List.mem_map.1 hz
    rw [mul_comm]; exact norm_exp_ofReal_mul_I _

theorem sameRows_roll (sig : List (List ℂ)) (n : Int) : SameRows sig (sig.map (Np.roll · n)) := by
  unfold SameRows
  rw [List.map_map]
  apply List.map_congr_left
  intro r _
  simp only [Function.comp_apply, Np.length_roll, energy_roll]

theorem sameRows_delay (sig : List (List ℂ)) (ds : List Int) (h : ds.length = sig.length) : SameRows sig (List.zipWith Np.roll sig ds) := by
  unfold SameRows
  apply List.ext_getElem?
  intro l
  rw [List.getElem?_map, List.getElem?_map, List.getElem?_zipWith]
  rcases Nat.lt_or_ge l sig.length with hl | hl
  · rw [List.getElem?_eq_getElem hl, List.getElem?_eq_getElem (by omega : l < ds.length)]
    simp only [Option.map_some, Np.length_roll, energy_roll]
  · rw [List.getElem?_eq_none hl]

theorem SameRows.trans {s t u : List (List ℂ)} (h1 : SameRows s t) (h2 : SameRows t u) : SameRows s u := Eq.trans h2 h1

theorem SameRows.length {s t : List (List ℂ)} (h : SameRows s t) : t.length = s.length := by
  have := congrArg List.length h
  simpa using this

/-- The stages before the dispersion, without additive noise. -/
theorem stages_sameRows (a : TxAttrs) (d : TxDraws) (p : TxParams) (hs : p.snr = none) (hD : p.dispersion = none) (hr : p.rollFrame = true → a.pilotLen ≠ none)
    (sig : List (List ℂ)) (hdl : ∀ ds, p.modalDelay = some ds → ds.length = sig.length) :
    ∃ s', simulateTransmission a d p sig = txPMD a p s' ∧ SameRows sig s' := by
  have h0 : ∃ s', txRoll a p sig = .ok s' ∧ SameRows sig s' := by
    unfold txRoll
    split
    · next hp =>
      obtain ⟨n, hn⟩ := Option.ne_none_iff_exists'.1 (hr hp)
      rw [hn]
      exact ⟨_, rfl, sameRows_roll _ _⟩
    · exact ⟨_, rfl, rfl⟩
  obtain ⟨s0, h0, r0⟩ := h0
  have h1 : ∃ s', txPhase a d p s0 = .ok s' ∧ SameRows s0 s' := by
    unfold txPhase
    split
    · exact ⟨_, rfl, rfl⟩
    · exact ⟨_, rfl, sameRows_phase _ _ _ _⟩
  obtain ⟨s1, h1, r1⟩ := h1
  have h2 : ∃ s', txOffset a p s1 = .ok s' ∧ SameRows s1 s' := by
    unfold txOffset
    split
    · exact ⟨_, rfl, rfl⟩
    · exact ⟨_, rfl, sameRows_offset _ _ _⟩
  obtain ⟨s2, h2, r2⟩ := h2
  have h3 : txSnr a d p s2 = .ok s2 := by unfold txSnr; rw [hs]
  have hl := ((r0.trans r1).trans r2).length
  have h4 : ∃ s', txDelay p s2 = .ok s' ∧ SameRows s2 s' := by
    unfold txDelay
    split
    · exact ⟨_, rfl, rfl⟩
    · next ds hds =>
      have : ds.length = s2.length := by rw [hdl ds hds, hl]
      unfold addModalDelay
      rw [if_pos this]
      exact ⟨_, rfl, sameRows_delay _ _ this⟩
  obtain ⟨s3, h4, r4⟩ := h4
  have h5 : txDispersion p s3 = .ok s3 := by unfold txDispersion; rw [hD]
  refine ⟨s3, ?_, ((r0.trans r1).trans r2).trans r4⟩
  unfold simulateTransmission
  simp only [bind, Except.bind, h0, h1, h2, h3, h4, h5]

/-- C64: without additive noise, dispersion and PMD every mode keeps its length and energy, for any number of modes. -/
theorem C64_energy_modes (a : TxAttrs) (d : TxDraws) (p : TxParams) (hs : p.snr = none) (hD : p.dispersion = none) (hg : p.dgd = none)
    (hr : p.rollFrame = true → a.pilotLen ≠ none) (sig : List (List ℂ)) (hdl : ∀ ds, p.modalDelay = some ds → ds.length = sig.length) :
    ∃ out, simulateTransmission a d p sig = .ok out ∧ out.map List.length = sig.map List.length ∧ out.map energy = sig.map energy := by
  obtain ⟨s, h1, h2⟩ := stages_sameRows a d p hs hD hr sig hdl
  refine ⟨s, by rw [h1]; unfold txPMD; rw [hg], ?_, ?_⟩
  · have := congrArg (List.map Prod.fst) h2
    simpa [Function.comp_def] using this
  · have := congrArg (List.map Prod.snd) h2
    simpa [Function.comp_def] using this

/-- C64: with PMD the two modes together keep their energy. -/
theorem C64_energy (a : TxAttrs) (d : TxDraws) (p : TxParams) (hs : p.snr = none) (hD : p.dispersion = none) (hr : p.rollFrame = true → a.pilotLen ≠ none)
    (x y : List ℂ) (hxy : x.length = y.length) (hx : x ≠ []) (hdl : ∀ ds, p.modalDelay = some ds → ds.length = 2) :
    ∃ x' y', simulateTransmission a d p [x, y] = .ok [x', y'] ∧ x'.length = x.length ∧ y'.length = x.length ∧ energy x' + energy y' = energy x + energy y := by
  obtain ⟨s, h1, h2⟩ := stages_sameRows a d p hs hD hr [x, y] hdl
  obtain ⟨u, v, rfl⟩ : ∃ u v, s = [u, v] := by
    have := h2.length
    match s, this with
    | [u, v], _ => exact ⟨u, v, rfl⟩
  simp only [SameRows, List.map_cons, List.map_nil, List.cons.injEq, Prod.mk.injEq, and_true] at h2
  obtain ⟨⟨lu, eu⟩, lv, ev⟩ := h2
  rw [h1]
  unfold txPMD
  split
  · exact ⟨u, v, rfl, lu, by omega, by rw [eu, ev]⟩
  · next t _ =>
    obtain ⟨x', y', e, l1, l2, en⟩ := C39_energy (x := u) (y := v) (by omega) (by rintro rfl; exact hx (List.length_eq_zero_iff.1 lu.symm)) p.theta t a.fs
    exact ⟨x', y', e, by omega, by omega, by rw [en, eu, ev]⟩

/-- C64: impairments of size zero change nothing either. -/
theorem C64_zero (a : TxAttrs) (d : TxDraws) (theta : ℝ) (x y : List ℂ) (hxy : x.length = y.length) (hx : x ≠ []) :
    simulateTransmission a d { lwdth := some 0, freqOff := some 0, modalDelay := some [0, 0], dgd := some 0, theta := theta } [x, y] = .ok [x, y] := by
  have h1 : applyPhaseNoise [x, y] 0 a.fs d.ph = [x, y] := by
    apply List.ext_getElem?
    intro l
    unfold applyPhaseNoise
    rw [List.getElem?_mapIdx]
    rcases [x, y][l]? with _ | r
    · rfl
    simp only [Option.map_some, Option.some.injEq]
    apply List.ext_getElem?
    intro k
    rw [List.getElem?_zipWith]
    rcases Nat.lt_or_ge k r.length with h | h
    · unfold phaseNoiseRow
      rw [List.getElem?_eq_getElem h, getElem?_cumsumGo _ _ _ (by simpa using h)]
      simp
    · rw [List.getElem?_eq_none h]
  have h2 : ∀ r, addCarrierOffset r 0 a.fs = r := by
    intro r
    unfold addCarrierOffset
    apply List.ext_getElem?
    intro k
    rw [List.getElem?_mapIdx]
    rcases r[k]? with _ | v
    · rfl
    · simp
  have h3 : ∀ r : List ℂ, Np.roll r 0 = r := by
    intro r
    unfold Np.roll
    simp
  rw [C64_order]
  simp only [C64_single]
  show (do let s ← (simulateTransmission a d {} [x, y]); _) = _
  rw [C64_identity]
  have hid : ∀ s, simulateTransmission a d {} s = .ok s := fun s => rfl
  simp only [bind, Except.bind, hid, h1, h2, List.map_cons, List.map_nil, addModalDelay, List.length_cons, List.length_nil, if_true,
    List.zipWith_cons_cons, List.zipWith_nil_left, h3]
  exact C39_zero hxy hx theta a.fs

/-- The order matters: delaying after the frequency offset is not the same as before. -/
theorem C64_order_matters : ∃ (fo fs : ℝ) (x : List ℂ), Np.roll (addCarrierOffset x fo fs) 1 ≠ addCarrierOffset (Np.roll x 1) fo fs := by
  refine ⟨1, 2, [0, 1], fun h => ?_⟩
  have h1 : Np.roll (addCarrierOffset [0, 1] 1 2) 1 = [exp (I * ((2 * Real.pi * 1 * 1 / 2 : ℝ) : ℂ)), 0] := by
    simp [addCarrierOffset, Np.roll]
  have h2 : Np.roll ([0, 1] : List ℂ) 1 = [1, 0] := rfl
  rw [h1, h2] at h
  simp [addCarrierOffset] at h
  rw [mul_comm, exp_pi_mul_I] at h
  norm_num at h

/-- A two mode signal with pilots through everything but noise and dispersion. -/
example (d : TxDraws) : ∃ x' y', simulateTransmission ⟨2, 1, some 1⟩ d { lwdth := some 1, freqOff := some 3, modalDelay := some [1, -1], dgd := some 1, rollFrame := true }
    [[1, I, 2], [0, 1, 1]] = .ok [x', y'] ∧ x'.length = 3 ∧ y'.length = 3 ∧ energy x' + energy y' = energy [1, I, 2] + energy [0, 1, 1] :=
  C64_energy _ d _ rfl rfl (fun _ => by simp) _ _ rfl (by simp) (fun ds h => by cases h; rfl)

end Qampy
