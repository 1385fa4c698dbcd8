import Verif.Model.ObjImpairments
import Verif.Props.Quantise
import Verif.Tactics

/-!
# C234: the unit in which rates and times are given does not matter

A user may work in hertz and seconds or in gigahertz and nanoseconds. If both rates of the signal and every frequency argument are multiplied by `c`, every time argument is divided
by `c` (and the dispersion, a time per wavelength and length with the wavelength kept, by `c ^ 2`), the samples must not change.
-/

namespace Qampy

open Complex

/-- The same signal with its rates in another unit of frequency. -/
noncomputable def RateSignal.inUnit (s : RateSignal) (c : ℝ) : RateSignal := { s with fb := c * s.fb, fs := c * s.fs }

/-- The parameters of `simulate_transmission` in another unit of frequency. -/
noncomputable def TxParams.inUnit (p : TxParams) (c : ℝ) : TxParams :=
  { p with freqOff := p.freqOff.map (c * ·), lwdth := p.lwdth.map (c * ·), dgd := p.dgd.map (· / c) }

theorem linspaceOpen_unit (c fs : ℝ) (n : Nat) : linspaceOpen (-(c * fs) / 2) (c * fs / 2) n = (linspaceOpen (-fs / 2) (fs / 2) n).map (c * ·) := by
  unfold linspaceOpen
  rw [List.map_map]
  refine List.map_congr_left fun k _ => ?_
  simp only [Function.comp]
  ring

theorem fftfreq_unit (n : Nat) (c fs : ℝ) (m : Nat) : fftfreq n (c * fs) m = c * fftfreq n fs m := by
  unfold fftfreq
  ring

theorem applyPMD_unit {c : ℝ} (hc : c ≠ 0) (field : List (List ℂ)) (theta t fs : ℝ) : applyPMD field theta (t / c) (c * fs) = applyPMD field theta t fs := by
  have e : ∀ w : ℝ, 2 * Real.pi * (c * w) * (t / c) / 2 = 2 * Real.pi * w * t / 2 := fun w => by field_simp
  unfold applyPMD
  simp only [linspaceOpen_unit, List.map_map, Function.comp_def, e]

theorem applyPhaseNoise_unit {c : ℝ} (hc : c ≠ 0) (sig : List (List ℂ)) (df fs : ℝ) (f : Nat → Nat → ℝ) :
    applyPhaseNoise sig (c * df) (c * fs) f = applyPhaseNoise sig df fs f := by
  have e : 2 * Real.pi * (c * df) / (c * fs) = 2 * Real.pi * df / fs := by
    rw [show 2 * Real.pi * (c * df) = c * (2 * Real.pi * df) by ring, mul_div_mul_left _ _ hc]
  unfold applyPhaseNoise phaseNoiseRow
  rw [e]

theorem changeSnr_unit {c : ℝ} (hc : c ≠ 0) (sig : List (List ℂ)) (snr fb fs : ℝ) (n1 n2 : List (List ℝ)) :
    changeSnr sig snr (c * fb) (c * fs) n1 n2 = changeSnr sig snr fb fs n1 n2 := by
  unfold changeSnr
  rw [mul_div_mul_left _ _ hc]

theorem addCarrierOffset_unit {c : ℝ} (hc : c ≠ 0) (r : List ℂ) (fo fs : ℝ) : addCarrierOffset r (c * fo) (c * fs) = addCarrierOffset r fo fs := by
  have e : ∀ n : Nat, 2 * Real.pi * n * (c * fo) / (c * fs) = 2 * Real.pi * n * fo / fs := fun n => by
    rw [show 2 * Real.pi * n * (c * fo) = c * (2 * Real.pi * n * fo) by ring, mul_div_mul_left _ _ hc]
  unfold addCarrierOffset
  simp only [e]

theorem addDispersion_unit {c : ℝ} (hc : c ≠ 0) (sig : List (List ℂ)) (fs D L wl : ℝ) : addDispersion sig (c * fs) (D / c ^ 2) L wl = addDispersion sig fs D L wl := by
  have e : ∀ w : ℝ, 0.5 * (c * w * Real.pi * 2) ^ 2 * (D / c ^ 2 * wl ^ 2 / (cLight * Real.pi * 2)) * L = 0.5 * (w * Real.pi * 2) ^ 2 * (D * wl ^ 2 / (cLight * Real.pi * 2)) * L := fun w => by
    rw [show (c * w * Real.pi * 2) ^ 2 = c ^ 2 * (w * Real.pi * 2) ^ 2 by ring, show D / c ^ 2 * wl ^ 2 / (cLight * Real.pi * 2) = D * wl ^ 2 / (cLight * Real.pi * 2) / c ^ 2 by ring]
    field_simp
  unfold addDispersion disperseRow dispH
  simp only [fftfreq_unit, List.map_map, Function.comp_def, e]

theorem filterGauss_unit {c : ℝ} (hc : c ≠ 0) (sig : List (List ℂ)) (fs cutoff : ℝ) : filterGauss sig (c * fs) (c * cutoff) = filterGauss sig fs cutoff := by
  have e : ∀ f : ℝ, gaussResponse (c * cutoff) (c * f) = gaussResponse cutoff f := fun f => by
    unfold gaussResponse
    congr 1
    rw [show -(c * f) ^ 2 = c ^ 2 * -f ^ 2 by ring, show 2 * (c * cutoff / (2 * Real.sqrt (2 * Real.log 2))) ^ 2 = c ^ 2 * (2 * (cutoff / (2 * Real.sqrt (2 * Real.log 2))) ^ 2) by ring,
      mul_div_mul_left _ _ (pow_ne_zero 2 hc)]
  unfold filterGauss gaussRow gaussH
  simp only [linspaceOpen_unit, List.map_map, Function.comp_def, e]

theorem filterExp_unit {c : ℝ} (hc : c ≠ 0) (sig : List (List ℂ)) (fs cutoff : ℝ) : filterExp sig (c * fs) (c * cutoff) = filterExp sig fs cutoff := by
  have e : ∀ f : ℝ, expResponse (c * cutoff) (c * f) = expResponse cutoff f := fun f => by
    unfold expResponse
    congr 3
    rw [show (c * f) ^ 2 = c ^ 2 * f ^ 2 by ring, show 2 * (c * cutoff / Real.sqrt (2 * Real.log 2 ^ 2)) ^ 2 = c ^ 2 * (2 * (cutoff / Real.sqrt (2 * Real.log 2 ^ 2)) ^ 2) by ring,
      mul_div_mul_left _ _ (pow_ne_zero 2 hc)]
  unfold filterExp expH
  simp only [linspaceOpen_unit, List.map_map, Function.comp_def, e]

theorem tapTimes_unit (taps : Nat) (c fs : ℝ) : tapTimes taps (c * fs) = (tapTimes taps fs).map (· / c) := by
  unfold tapTimes
  rw [List.map_map]
  refine List.map_congr_left fun k _ => ?_
  simp only [Function.comp]
  rw [div_div, mul_comm c fs]

theorem rrcosPoint_unit {c : ℝ} (hc : 0 < c) (beta T eps t : ℝ) : rrcosPoint beta (T / c) (eps / c) (t / c) = (rrcosPoint beta T eps t).map (c * ·) := by
  have hc0 := hc.ne'
  have h1 : |(|t / c| - |T / c / (4 * beta)|)| < eps / c ↔ |(|t| - |T / (4 * beta)|)| < eps := by
    rw [show T / c / (4 * beta) = T / (4 * beta) / c by ring, abs_div, abs_div, ← sub_div, abs_div, abs_abs, abs_of_pos hc, div_lt_div_iff_of_pos_right hc]
  have h2 : |t / c| < eps / c ↔ |t| < eps := by rw [abs_div, abs_of_pos hc, div_lt_div_iff_of_pos_right hc]
  have ht : ∀ a : ℝ, a * (t / c) / (T / c) = a * t / T := fun a => by
    rw [← mul_div_assoc, div_div_div_cancel_right₀ hc0]
  unfold rrcosPoint
  simp only [h1, h2]
  split_ifs
  · simp only [Option.map_some, Option.some.injEq]
    rw [show T / c * Real.sqrt 2 = T * Real.sqrt 2 / c by ring, div_div_eq_mul_div]
    ring
  · simp only [Option.map_some, Option.some.injEq]
    rw [one_div_div]
    ring
  · unfold rrcosRaw
    rw [ht, ht, Option.map_map]
    congr 1
    funext v
    simp only [Function.comp]
    rw [one_div_div]
    ring

theorem mapM_id_scale (c : ℝ) (l : List (Option ℝ)) : (l.map fun o => o.map (c * ·)).mapM id = (l.mapM id).map fun h => h.map (c * ·) := by
  induction l with
  | nil => rfl
  | cons a l ih =>
    rw [List.map_cons, List.mapM_cons, List.mapM_cons, ih]
    cases a with
    | none => rfl
    | some v =>
      cases l.mapM id with
      | none => rfl
      | some h => rfl

theorem max_scale {c : ℝ} (hc : 0 < c) (l : List ℝ) : (l.map (c * ·)).max? = l.max?.map (c * ·) := by
  cases l with
  | nil => rfl
  | cons a l =>
    rw [List.map_cons, List.max?_cons', List.max?_cons', Option.map_some]
    congr 1
    induction l generalizing a with
    | nil => rfl
    | cons b l ih =>
      rw [List.map_cons, List.foldl_cons, List.foldl_cons, ← ih, mul_max_of_nonneg _ _ hc.le]

theorem rrcosTaps_unit {c : ℝ} (hc : 0 < c) (taps : Nat) (fs T beta : ℝ) : rrcosTaps taps (c * fs) (T / c) beta = rrcosTaps taps fs T beta := by
  have h : rrcosTime beta (T / c) (tapTimes taps (c * fs)) = (rrcosTime beta T (tapTimes taps fs)).map fun l => l.map fun o => o.map (c * ·) := by
    rw [tapTimes_unit]
    rcases tapTimes taps fs with _ | ⟨t0, _ | ⟨t1, l⟩⟩
    · rfl
    · rfl
    · simp only [List.map_cons, rrcosTime]
      split_ifs
      · rfl
      · have e : |t0 / c - t1 / c| / 4 = |t0 - t1| / 4 / c := by rw [← sub_div, abs_div, abs_of_pos hc]; ring
        rw [e]
        simp only [List.map_cons, List.map_map, Function.comp_def, rrcosPoint_unit hc, Except.map]
  unfold rrcosTaps
  rw [h]
  cases rrcosTime beta T (tapTimes taps fs) with
  | error e => rfl
  | ok l =>
    change Except.ok _ = Except.ok _
    congr 1
    simp only [mapM_id_scale]
    cases l.mapM id with
    | none => rfl
    | some h =>
      change (do let m ← (h.map (c * ·)).max?; pure ((h.map (c * ·)).map (· / m))) = (do let m ← h.max?; pure (h.map (· / m)))
      rw [max_scale hc]
      cases h.max? with
      | none => rfl
      | some m =>
        change some _ = some _
        rw [List.map_map]
        congr 1
        refine List.map_congr_left fun v _ => ?_
        simp only [Function.comp]
        exact mul_div_mul_left _ _ hc.ne'

theorem simulateTransmission_unit {c : ℝ} (hc : c ≠ 0) (a : TxAttrs) (d : TxDraws) (p : TxParams) (sig : List (List ℂ)) :
    simulateTransmission ⟨c * a.fs, c * a.fb, a.pilotLen⟩ d (p.inUnit c) sig = simulateTransmission a d p sig := by
  have h1 : ∀ s, txPhase ⟨c * a.fs, c * a.fb, a.pilotLen⟩ d (p.inUnit c) s = txPhase a d p s := by
    intro s
    unfold txPhase TxParams.inUnit
    cases p.lwdth with
    | none => rfl
    | some df => exact congrArg Except.ok (applyPhaseNoise_unit hc s df a.fs d.ph)
  have h2 : ∀ s, txOffset ⟨c * a.fs, c * a.fb, a.pilotLen⟩ (p.inUnit c) s = txOffset a p s := by
    intro s
    unfold txOffset TxParams.inUnit
    cases p.freqOff with
    | none => rfl
    | some fo =>
      simp only [Option.map_some, addCarrierOffset_unit hc]
  have h3 : ∀ s, txSnr ⟨c * a.fs, c * a.fb, a.pilotLen⟩ d (p.inUnit c) s = txSnr a d p s := by
    intro s
    unfold txSnr TxParams.inUnit
    cases p.snr with
    | none => rfl
    | some snr => exact congrArg Except.ok (changeSnr_unit hc s snr a.fb a.fs _ _)
  have h4 : ∀ s, txPMD ⟨c * a.fs, c * a.fb, a.pilotLen⟩ (p.inUnit c) s = txPMD a p s := by
    intro s
    unfold txPMD TxParams.inUnit
    cases p.dgd with
    | none => rfl
    | some t => exact applyPMD_unit hc s p.theta t a.fs
  unfold simulateTransmission
  simp only [h1, h2, h3, h4]
  rfl

/-- **C234** Impairments: polarisation mode dispersion, phase noise, noise, carrier offset, dispersion, and the whole simulated transmission give the same samples in every unit of
frequency. -/
theorem C234_impairments {c : ℝ} (hc : 0 < c) (s : RateSignal) :
    (∀ theta t, objApplyPMD (s.inUnit c) theta (t / c) = (objApplyPMD s theta t).map (·.inUnit c)) ∧
    (∀ df f, objPhaseNoise (s.inUnit c) (c * df) f = (objPhaseNoise s df f).inUnit c) ∧
    (∀ snr n1 n2, objChangeSnr (s.inUnit c) snr n1 n2 = (objChangeSnr s snr n1 n2).inUnit c) ∧
    (∀ fo, objAddCarrierOffset (s.inUnit c) (c * fo) = (objAddCarrierOffset s fo).inUnit c) ∧
    (∀ D L wl, objAddDispersion (s.inUnit c) (D / c ^ 2) L wl = (objAddDispersion s D L wl).inUnit c) ∧
    ∀ pl d p, objTransmission (s.inUnit c) pl d (p.inUnit c) = (objTransmission s pl d p).map (·.inUnit c) := by
  refine ⟨fun theta t => ?_, fun df f => ?_, fun snr n1 n2 => ?_, fun fo => ?_, fun D L wl => ?_, fun pl d p => ?_⟩
  · unfold objApplyPMD
    rw [show (s.inUnit c).fs = c * s.fs from rfl, applyPMD_unit hc.ne', show (s.inUnit c).data = s.data from rfl]
    cases applyPMD s.data theta t s.fs <;> rfl
  · unfold objPhaseNoise
    rw [show (s.inUnit c).fs = c * s.fs from rfl, applyPhaseNoise_unit hc.ne']
    rfl
  · unfold objChangeSnr
    rw [show (s.inUnit c).fs = c * s.fs from rfl, show (s.inUnit c).fb = c * s.fb from rfl, changeSnr_unit hc.ne']
    rfl
  · unfold objAddCarrierOffset
    simp only [show (s.inUnit c).fs = c * s.fs from rfl, addCarrierOffset_unit hc.ne']
    rfl
  · unfold objAddDispersion
    rw [show (s.inUnit c).fs = c * s.fs from rfl, addDispersion_unit hc.ne']
    rfl
  · unfold objTransmission
    have h := simulateTransmission_unit hc.ne' ⟨s.fs, s.fb, pl⟩ d p s.data
    rw [show (s.inUnit c).fs = c * s.fs from rfl, show (s.inUnit c).fb = c * s.fb from rfl, show (s.inUnit c).data = s.data from rfl, h]
    cases simulateTransmission ⟨s.fs, s.fb, pl⟩ d p s.data <;> rfl

/-- **C234** Filters: the Gaussian, the exponential and the root raised cosine filter give the same samples in every unit of frequency. -/
theorem C234_filters {c : ℝ} (hc : 0 < c) (s : RateSignal) :
    (∀ cutoff, objFilterGauss (s.inUnit c) (c * cutoff) = (objFilterGauss s cutoff).inUnit c) ∧
    (∀ cutoff, objFilterExp (s.inUnit c) (c * cutoff) = (objFilterExp s cutoff).inUnit c) ∧
    ∀ beta T, objRrcos (s.inUnit c) beta (T / c) = (objRrcos s beta T).map (Option.map (·.inUnit c)) := by
  refine ⟨fun cutoff => ?_, fun cutoff => ?_, fun beta T => ?_⟩
  · unfold objFilterGauss
    rw [show (s.inUnit c).fs = c * s.fs from rfl, filterGauss_unit hc.ne']
    rfl
  · unfold objFilterExp
    rw [show (s.inUnit c).fs = c * s.fs from rfl, filterExp_unit hc.ne']
    rfl
  · unfold objRrcos
    have e : rrcosPulseTime (c * s.fs) (T / c) beta 1001 = rrcosPulseTime s.fs T beta 1001 := by
      funext x
      unfold rrcosPulseTime
      rw [rrcosTaps_unit hc]
    rw [show (s.inUnit c).fs = c * s.fs from rfl, e, show (s.inUnit c).data = s.data from rfl]
    cases s.data.mapM (rrcosPulseTime s.fs T beta 1001) with
    | error e => rfl
    | ok d =>
      change Except.ok _ = Except.ok _
      congr 1
      cases d.mapM id <;> rfl

/-- The full claim also covers the compensation of a delay. -/
def C234_statement : Prop := ∀ (c : ℝ), 0 < c → ∀ (s : RateSignal) (delay : ℝ), objRfDelay (s.inUnit c) (delay / c) = (objRfDelay s delay).inUnit c

/-- `comp_rf_delay` gives the sampling rate to `fftfreq` where a time is expected: its result depends on the unit. -/
theorem C234_false : ¬ C234_statement := by
  intro h
  have h1 := h 2 (by norm_num) ⟨1, 1, [[1, 0, 0, 0].map fun v : ℝ => (v : ℂ)]⟩ 2
  have h2 := congrArg (fun s : RateSignal => (s.data.getD 0 []).getD 0 0) h1
  have e1 := C100_partial [1, 0, 0, 0] 4 1 one_pos
  have e2 := C100_partial [1, 0, 0, 0] 1 2 two_pos
  change ((compRfDelay ([1, 0, 0, 0].map fun v : ℝ => (v : ℂ)) (2 / 2) (2 * 1)).map fun v : ℝ => (v : ℂ)).getD 0 0 =
    ((compRfDelay ([1, 0, 0, 0].map fun v : ℝ => (v : ℂ)) 2 1).map fun v : ℝ => (v : ℂ)).getD 0 0 at h2
  rw [show (2 / 2 : ℝ) = ((1 : Int) : ℝ) * (2 / 2) by norm_num, show (2 * 1 : ℝ) = 2 by norm_num, e2, show (2 : ℝ) = ((4 : Int) : ℝ) * (1 / 2) by norm_num, e1,
    show Np.roll ([1, 0, 0, 0] : List ℝ) 4 = [1, 0, 0, 0] from rfl, show Np.roll ([1, 0, 0, 0] : List ℝ) 1 = [0, 1, 0, 0] from rfl] at h2
  simp at h2

/-- 28 GBaud with two samples per symbol and 3 ps of group delay, in hertz and seconds or in gigahertz and nanoseconds. -/
example : objApplyPMD ⟨28, 56, [[1, I, 3], [2, 3, 0]]⟩ 1 (3e-3) = (objApplyPMD ⟨28e9, 56e9, [[1, I, 3], [2, 3, 0]]⟩ 1 (3e-12)).map (·.inUnit (1e-9)) := by
  have h := (C234_impairments (c := 1e-9) (by norm_num) ⟨28e9, 56e9, [[1, I, 3], [2, 3, 0]]⟩).1 1 (3e-12)
  rw [← h, RateSignal.inUnit]
  norm_num

end Qampy
