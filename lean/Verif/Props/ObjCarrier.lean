import Verif.Model.ObjCarrier
import Verif.Props.Carrier

/-!
# C194: carrier frequencies of signal objects
-/

namespace Qampy

open Complex (I)

/-- A noiseless QPSK like mode: at least two samples, one fourth power. -/
def QuarterMode (r : List ℂ) : Prop := 2 ≤ r.length ∧ ∃ c : ℂ, c ≠ 0 ∧ ∀ z ∈ r, z ^ 4 = c

/-- The statement of C194: for every sampling rate of at least one sample per symbol the object functions report an added carrier offset
as the fraction of the symbol rate, and compensate it up to one constant phase. -/
def C194_statement : Prop :=
  ∀ (s : RateSignal) (fo : ℝ) (fftSize : Nat) (average : Bool) (k : ℤ), 0 < s.fb → s.fb ≤ s.fs → 2 ≤ fftSize →
    4 * (fo / s.fs) * (2 ^ Nat.clog 2 fftSize : ℝ) = k → -(2 ^ Nat.clog 2 fftSize : ℤ) ≤ 2 * k →
    2 * k < (2 ^ Nat.clog 2 fftSize : ℤ) → (∀ r ∈ s.data, QuarterMode r) →
    objFindFreqOffset (objAddCarrierOffset s fo) average fftSize = .ok (some (s.data.map fun _ => fo / s.fb))

theorem rateSignal_os_pos {s : RateSignal} (hb : 0 < s.fb) (h : s.fb ≤ s.fs) : (0 : ℝ) < (s.os : ℝ) ∧ s.os ≠ 0 := by
  have h1 : (1 : ℤ) ≤ s.os := by
    unfold RateSignal.os
    rw [Int.le_floor]
    rw [le_div_iff₀ hb]
    simpa using h
  exact ⟨by exact_mod_cast lt_of_lt_of_le one_pos h1, by omega⟩

/-- What is found: the offset per sample times the truncated number of samples per symbol. -/
theorem C194_found (s : RateSignal) (fo : ℝ) (fftSize : Nat) (average : Bool) (k : ℤ) (hb : 0 < s.fb) (hs : s.fb ≤ s.fs)
    (hsize : 2 ≤ fftSize) (hk : 4 * (fo / s.fs) * (2 ^ Nat.clog 2 fftSize : ℝ) = k)
    (hk1 : -(2 ^ Nat.clog 2 fftSize : ℤ) ≤ 2 * k) (hk2 : 2 * k < (2 ^ Nat.clog 2 fftSize : ℤ))
    (hx : ∀ r ∈ s.data, QuarterMode r) :
    objFindFreqOffset (objAddCarrierOffset s fo) average fftSize = .ok (some (s.data.map fun _ => fo / s.fs * ⌊s.fs / s.fb⌋)) := by
  obtain ⟨hos, hos0⟩ := rateSignal_os_pos hb hs
  have e : (objAddCarrierOffset s fo).os = s.os := rfl
  unfold objFindFreqOffset
  rw [e, if_neg hos0]
  have h := C87_find_freq_offset (s.data.map fun r => addCarrierOffset r fo s.fs) (fo / s.fs * s.os) s.os fftSize average k hos hsize
    (by rw [← hk]; ring) hk1 hk2 (by
      intro r hr
      obtain ⟨r0, hr0, rfl⟩ := List.mem_map.1 hr
      obtain ⟨hl, c, hc, hz⟩ := hx r0 hr0
      refine ⟨by simpa [addCarrierOffset] using hl, c, hc, ?_⟩
      intro n z hnz
      simp only [addCarrierOffset, List.getElem?_mapIdx] at hnz
      obtain ⟨y, hy, rfl⟩ := Option.map_eq_some_iff.1 hnz
      rw [mul_pow, hz y (List.mem_of_getElem? hy), ← Complex.exp_nat_mul]
      congr 2
      have : ((s.os : ℝ) : ℂ) ≠ 0 := by exact_mod_cast hos.ne'
      push_cast at this ⊢
      field_simp)
  have e2 : (objAddCarrierOffset s fo).data = s.data.map fun r => addCarrierOffset r fo s.fs := rfl
  rw [e2, h, List.map_map]
  rfl

/-- With a whole number of samples per symbol the value found is the offset divided by the symbol rate. -/
theorem C194_value_partial (s : RateSignal) (fo : ℝ) (fftSize : Nat) (average : Bool) (k : ℤ) (n : Nat) (hb : 0 < s.fb) (hn : 1 ≤ n)
    (hs : s.fs = n * s.fb) (hsize : 2 ≤ fftSize) (hk : 4 * (fo / s.fs) * (2 ^ Nat.clog 2 fftSize : ℝ) = k)
    (hk1 : -(2 ^ Nat.clog 2 fftSize : ℤ) ≤ 2 * k) (hk2 : 2 * k < (2 ^ Nat.clog 2 fftSize : ℤ))
    (hx : ∀ r ∈ s.data, QuarterMode r) :
    objFindFreqOffset (objAddCarrierOffset s fo) average fftSize = .ok (some (s.data.map fun _ => fo / s.fb)) := by
  have hn' : (1 : ℝ) ≤ n := by exact_mod_cast hn
  have hle : s.fb ≤ s.fs := by rw [hs]; nlinarith
  rw [C194_found s fo fftSize average k hb hle hsize hk hk1 hk2 hx]
  have e : s.fs / s.fb = ((n : ℤ) : ℝ) := by rw [hs]; field_simp; simp
  rw [e, Int.floor_intCast, hs]
  have : (n : ℝ) ≠ 0 := by linarith
  have hfb := hb.ne'
  congr 3
  funext _
  push_cast
  field_simp

/-- Compensating any frequency leaves a carrier offset, in the units of `add_carrier_offset`, of `fo - f * fs / os`. -/
theorem C194_residual (s : RateSignal) (fo : ℝ) (f : List ℝ) (hb : 0 < s.fb) (hs : s.fb ≤ s.fs) (hf : f.length = s.data.length) :
    objCompFreqOffset (objAddCarrierOffset s fo) f = .ok (some { s with
      data := List.zipWith (fun r g => (addCarrierOffset r (fo - g * s.fs / ⌊s.fs / s.fb⌋) s.fs).map fun x =>
        x * Complex.exp (-(I * ((2 * Real.pi * g / ⌊s.fs / s.fb⌋ : ℝ) : ℂ)))) s.data f }) := by
  obtain ⟨hos, hos0⟩ := rateSignal_os_pos hb hs
  have e : (objAddCarrierOffset s fo).os = s.os := rfl
  have hfs : s.fs ≠ 0 := by linarith
  have hosC : ((s.os : ℝ) : ℂ) ≠ 0 := by exact_mod_cast hos.ne'
  have hfsC : (s.fs : ℂ) ≠ 0 := by exact_mod_cast hfs
  have h1 := compFreqOffset_eq (objAddCarrierOffset s fo).data f s.os (by simp [objAddCarrierOffset, hf])
  unfold objCompFreqOffset
  rw [e, h1]
  simp only [hos0, if_false]
  congr 3
  change List.zipWith _ (s.data.map fun r => addCarrierOffset r fo s.fs) f = _
  rw [List.zipWith_map_left]
  congr 1
  funext r g
  apply List.ext_getElem?
  intro n
  simp only [addCarrierOffset, List.getElem?_map, List.getElem?_mapIdx]
  cases r[n]? with
  | none => rfl
  | some x =>
    simp only [Option.map_some, Option.some.injEq]
    rw [mul_assoc x, mul_assoc x, ← Complex.exp_add, ← Complex.exp_add]
    congr 2
    change _ = I * ((2 * Real.pi * n * (fo - g * s.fs / s.os) / s.fs : ℝ) : ℂ) + -(I * ((2 * Real.pi * g / s.os : ℝ) : ℂ))
    push_cast at hosC ⊢
    field_simp
    ring

/-- Finding the offset and compensating what was found restores the signal up to one constant phase, for every sampling rate. -/
theorem C194_round_trip (s : RateSignal) (fo : ℝ) (fftSize : Nat) (average : Bool) (k : ℤ) (hb : 0 < s.fb) (hs : s.fb ≤ s.fs)
    (hsize : 2 ≤ fftSize) (hk : 4 * (fo / s.fs) * (2 ^ Nat.clog 2 fftSize : ℝ) = k)
    (hk1 : -(2 ^ Nat.clog 2 fftSize : ℤ) ≤ 2 * k) (hk2 : 2 * k < (2 ^ Nat.clog 2 fftSize : ℤ))
    (hx : ∀ r ∈ s.data, QuarterMode r) :
    ∃ f, objFindFreqOffset (objAddCarrierOffset s fo) average fftSize = .ok (some f) ∧
      objCompFreqOffset (objAddCarrierOffset s fo) f = .ok (some { s with
        data := s.data.map fun r => r.map fun x => x * Complex.exp (-(I * ((2 * Real.pi * (fo / s.fs) : ℝ) : ℂ))) }) := by
  refine ⟨_, C194_found s fo fftSize average k hb hs hsize hk hk1 hk2 hx, ?_⟩
  obtain ⟨hos, hos0⟩ := rateSignal_os_pos hb hs
  have hos' : ((⌊s.fs / s.fb⌋ : ℤ) : ℝ) ≠ 0 := hos.ne'
  have hfs : s.fs ≠ 0 := by linarith
  rw [C194_residual s fo _ hb hs (by simp), List.zipWith_map_right, List.zipWith_self]
  congr 3
  apply List.map_congr_left
  intro r _
  have e1 : fo - fo / s.fs * ⌊s.fs / s.fb⌋ * s.fs / ⌊s.fs / s.fb⌋ = 0 := by field_simp; ring
  have e2 : 2 * Real.pi * (fo / s.fs * ⌊s.fs / s.fb⌋) / ⌊s.fs / s.fb⌋ = 2 * Real.pi * (fo / s.fs) := by field_simp
  rw [e1, e2]
  congr 1
  apply List.ext_getElem?
  intro n
  simp only [addCarrierOffset, List.getElem?_mapIdx]
  cases r[n]? <;> simp

/-- With less than one sample per symbol finding the offset raises ZeroDivisionError. -/
theorem C194_undersampled (s : RateSignal) (average : Bool) (fftSize : Nat) (hb : 0 < s.fb) (h0 : 0 ≤ s.fs) (hs : s.fs < s.fb) :
    objFindFreqOffset s average fftSize = .error .zeroDiv := by
  have : s.os = 0 := by
    unfold RateSignal.os
    rw [Int.floor_eq_zero_iff]
    exact ⟨div_nonneg h0 hb.le, (div_lt_one hb).2 hs⟩
  unfold objFindFreqOffset
  rw [if_pos this]

/-- A signal of four samples at one and a half samples per symbol. -/
noncomputable def fractionalSignal : RateSignal := { fb := 2, fs := 3, data := [[1, I, -1, -I]] }

theorem fractionalSignal_mode : ∀ r ∈ fractionalSignal.data, QuarterMode r := by
  intro r hr
  simp only [fractionalSignal, List.mem_cons, List.not_mem_nil, or_false] at hr
  subst hr
  refine ⟨by simp, 1, one_ne_zero, ?_⟩
  intro z hz
  simp only [List.mem_cons, List.not_mem_nil, or_false] at hz
  rcases hz with rfl | rfl | rfl | rfl <;>
    first | (norm_num [Complex.I_pow_four]; done) | (rw [neg_pow]; norm_num [Complex.I_pow_four])

/-- At one and a half samples per symbol the offset found is too small by a factor of 3/2. -/
theorem C194_false : ¬ C194_statement := by
  intro h
  have hc : Nat.clog 2 4 = 2 := by decide
  have h1 := h fractionalSignal (3 / 16) 4 true 1 (by norm_num [fractionalSignal]) (by norm_num [fractionalSignal]) (by norm_num)
    (by rw [hc]; norm_num [fractionalSignal]) (by rw [hc]; norm_num) (by rw [hc]; norm_num) fractionalSignal_mode
  rw [C194_found fractionalSignal (3 / 16) 4 true 1 (by norm_num [fractionalSignal]) (by norm_num [fractionalSignal]) (by norm_num)
    (by rw [hc]; norm_num [fractionalSignal]) (by rw [hc]; norm_num) (by rw [hc]; norm_num) fractionalSignal_mode] at h1
  have hf : (⌊(3 : ℝ) / 2⌋ : ℤ) = 1 := by
    rw [Int.floor_eq_iff]; norm_num
  simp only [fractionalSignal, hf, Except.ok.injEq, Option.some.injEq, List.map_cons, List.map_nil, List.cons.injEq] at h1
  norm_num at h1

example : ∃ f, objFindFreqOffset (objAddCarrierOffset fractionalSignal (3 / 16)) false 4 = .ok (some f) ∧
    objCompFreqOffset (objAddCarrierOffset fractionalSignal (3 / 16)) f = .ok (some { fractionalSignal with
      data := fractionalSignal.data.map fun r => r.map fun x =>
        x * Complex.exp (-(I * ((2 * Real.pi * (3 / 16 / fractionalSignal.fs) : ℝ) : ℂ))) }) := by
  have hc : Nat.clog 2 4 = 2 := by decide
  exact C194_round_trip fractionalSignal (3 / 16) 4 false 1 (by norm_num [fractionalSignal]) (by norm_num [fractionalSignal])
    (by norm_num) (by rw [hc]; norm_num [fractionalSignal]) (by rw [hc]; norm_num) (by rw [hc]; norm_num) fractionalSignal_mode

example : objFindFreqOffset (objAddCarrierOffset { fractionalSignal with fs := 4 } (1 / 4)) false 4 =
    .ok (some (fractionalSignal.data.map fun _ => 1 / 4 / 2)) := by
  have hc : Nat.clog 2 4 = 2 := by decide
  exact C194_value_partial { fractionalSignal with fs := 4 } (1 / 4) 4 false 1 2 (by norm_num [fractionalSignal]) (by norm_num)
    (by norm_num [fractionalSignal]) (by norm_num) (by rw [hc]; norm_num) (by rw [hc]; norm_num) (by rw [hc]; norm_num)
    fractionalSignal_mode

end Qampy
