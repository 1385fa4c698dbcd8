import Verif.Model.Transmission
import Verif.Props.LinkNoise
import Verif.Lemmas.Fourier

/-!
# C245: order of the impairments
-/

namespace Qampy

open Complex

/-- C245 in full: laser phase noise and carrier offset can be applied before or after a rotation of the polarisations, and before or after a delay. -/
def C245_statement : Prop := ∀ (x y : List ℂ) (theta df fs fo : ℝ) (f : Nat → Nat → ℝ) (d : List Int), x.length = y.length → 0 < fs → 0 ≤ df → d.length = 2 →
  rotateField (applyPhaseNoise [x, y] df fs f) theta = (rotateField [x, y] theta).map (applyPhaseNoise · df fs f) ∧
  rotateField ([x, y].map (addCarrierOffset · fo fs)) theta = (rotateField [x, y] theta).map (·.map (addCarrierOffset · fo fs)) ∧
  addModalDelay ([x, y].map (addCarrierOffset · fo fs)) d = (addModalDelay [x, y] d).map (·.map (addCarrierOffset · fo fs))

/-- C245: carrier offset and phase noise can be exchanged, for any number of modes of any lengths. -/
theorem C245_offset_noise (sig : List (List ℂ)) (df fs fo : ℝ) (f : Nat → Nat → ℝ) :
    applyPhaseNoise (sig.map (addCarrierOffset · fo fs)) df fs f = (applyPhaseNoise sig df fs f).map (addCarrierOffset · fo fs) := by
  refine List.ext_getElem? fun l => ?_
  simp only [applyPhaseNoise, List.getElem?_mapIdx, List.getElem?_map]
  cases sig[l]? with
  | none => rfl
  | some r =>
    simp only [Option.map_some, Option.some.injEq]
    refine List.ext_getElem? fun n => ?_
    simp only [addCarrierOffset, List.length_mapIdx, List.getElem?_zipWith, List.getElem?_mapIdx]
    cases r[n]? with
    | none => rfl
    | some a =>
      cases (phaseNoiseRow df fs (f l) r.length)[n]? with
      | none => rfl
      | some p =>
        simp only [Option.map_some, Option.some.injEq]
        ring

/-- C245: carrier offset and rotation of the polarisations can be exchanged; with another number of modes both orders raise. -/
theorem C245_offset_rotate (sig : List (List ℂ)) (theta fs fo : ℝ) :
    rotateField (sig.map (addCarrierOffset · fo fs)) theta = (rotateField sig theta).map (·.map (addCarrierOffset · fo fs)) := by
  match sig with
  | [] => rfl
  | [_] => rfl
  | x :: y :: z :: l => rfl
  | [x, y] =>
    have key : ∀ a b : ℂ, List.zipWith (fun u v => a * u + b * v) (addCarrierOffset x fo fs) (addCarrierOffset y fo fs) =
        addCarrierOffset (List.zipWith (fun u v => a * u + b * v) x y) fo fs := by
      intro a b
      refine List.ext_getElem? fun n => ?_
      simp only [addCarrierOffset, List.getElem?_zipWith, List.getElem?_mapIdx]
      cases x[n]? with
      | none => rfl
      | some u =>
        cases y[n]? with
        | none => rfl
        | some v =>
          simp only [Option.map_some, Option.some.injEq]
          ring
    simp only [List.map_cons, List.map_nil, rotateField, rotateRows, Except.map, key]

/-- C245: phase noise and rotation give the same in both orders exactly if the rotation does not mix the modes, or the phases of the two modes differ by whole
turns wherever the field is not zero. -/
theorem C245_noise_rotate (x y : List ℂ) (theta df fs : ℝ) (f : Nat → Nat → ℝ) (h : x.length = y.length) :
    rotateField (applyPhaseNoise [x, y] df fs f) theta = (rotateField [x, y] theta).map (applyPhaseNoise · df fs f) ↔
      Real.sin theta = 0 ∨ ∀ (n : Nat) (u v : ℂ) (p q : ℝ), x[n]? = some u → y[n]? = some v → (phaseNoiseRow df fs (f 0) x.length)[n]? = some p →
        (phaseNoiseRow df fs (f 1) x.length)[n]? = some q → (u = 0 ∧ v = 0) ∨ exp (I * (p : ℂ)) = exp (I * (q : ℂ)) := by
  have hl : ∀ a b : ℂ, (List.zipWith (fun u v => a * u + b * v) x y).length = x.length := fun a b => by simp [h]
  have hr : ∀ (a b : ℂ) (P Q R : List ℝ), P.length = x.length → Q.length = x.length → R.length = x.length →
      (List.zipWith (fun u v => a * u + b * v) (List.zipWith (fun x (p : ℝ) => x * exp (I * (p : ℂ))) x P) (List.zipWith (fun x (p : ℝ) => x * exp (I * (p : ℂ))) y Q) =
        List.zipWith (fun x (p : ℝ) => x * exp (I * (p : ℂ))) (List.zipWith (fun u v => a * u + b * v) x y) R ↔
        ∀ (n : Nat) (u v : ℂ) (p q r : ℝ), x[n]? = some u → y[n]? = some v → P[n]? = some p → Q[n]? = some q → R[n]? = some r →
          a * (u * exp (I * (p : ℂ))) + b * (v * exp (I * (q : ℂ))) = (a * u + b * v) * exp (I * (r : ℂ))) := by
    intro a b P Q R hP hQ hR
    constructor
    · intro e n u v p q r h1 h2 h3 h4 h5
      have := congrArg (·[n]?) e
      simpa [List.getElem?_zipWith, h1, h2, h3, h4, h5] using this
    · intro e
      refine List.ext_getElem? fun n => ?_
      by_cases hn : n < x.length
      · have h1 := List.getElem?_eq_getElem hn
        have h2 := List.getElem?_eq_getElem (h ▸ hn : n < y.length)
        have h3 := List.getElem?_eq_getElem (hP ▸ hn : n < P.length)
        have h4 := List.getElem?_eq_getElem (hQ ▸ hn : n < Q.length)
        have h5 := List.getElem?_eq_getElem (hR ▸ hn : n < R.length)
        simp only [List.getElem?_zipWith, h1, h2, h3, h4, h5]
        exact congrArg some (e n _ _ _ _ _ h1 h2 h3 h4 h5)
      · rw [List.getElem?_eq_none (by simp; omega), List.getElem?_eq_none (by simp; omega)]
  have e1 : applyPhaseNoise [x, y] df fs f = [List.zipWith (fun x (p : ℝ) => x * exp (I * (p : ℂ))) x (phaseNoiseRow df fs (f 0) x.length),
      List.zipWith (fun x (p : ℝ) => x * exp (I * (p : ℂ))) y (phaseNoiseRow df fs (f 1) x.length)] := by
    simp [applyPhaseNoise, h]
  have e2 : (rotateField [x, y] theta).map (applyPhaseNoise · df fs f) = .ok
      [List.zipWith (fun x (p : ℝ) => x * exp (I * (p : ℂ))) (rotateRows theta x y).1 (phaseNoiseRow df fs (f 0) x.length),
       List.zipWith (fun x (p : ℝ) => x * exp (I * (p : ℂ))) (rotateRows theta x y).2 (phaseNoiseRow df fs (f 1) x.length)] := by
    simp [applyPhaseNoise, rotateField, rotateRows, Except.map, h]
  rw [e1, e2]
  simp only [rotateField, rotateRows, Except.ok.injEq, List.cons.injEq, and_true]
  rw [hr _ _ _ _ _ (length_phaseNoiseRow ..) (length_phaseNoiseRow ..) (length_phaseNoiseRow ..), hr _ _ _ _ _ (length_phaseNoiseRow ..) (length_phaseNoiseRow ..) (length_phaseNoiseRow ..)]
  constructor
  · rintro ⟨h1, h2⟩
    by_cases hs : Real.sin theta = 0
    · exact .inl hs
    refine .inr fun n u v p q hu hv hp hq => ?_
    have g1 := h1 n u v p q p hu hv hp hq hp
    have g2 := h2 n u v p q q hu hv hp hq hq
    have hs' : (Real.sin theta : ℂ) ≠ 0 := by exact_mod_cast hs
    by_cases he : exp (I * (p : ℂ)) = exp (I * (q : ℂ))
    · exact .inr he
    have he' := sub_ne_zero.2 he
    refine .inl ⟨?_, ?_⟩
    · have : (Real.sin theta : ℂ) * u * (exp (I * (p : ℂ)) - exp (I * (q : ℂ))) = 0 := by linear_combination g2
      exact (mul_eq_zero.1 ((mul_eq_zero.1 this).resolve_right he')).resolve_left hs'
    · have : (Real.sin theta : ℂ) * v * (exp (I * (p : ℂ)) - exp (I * (q : ℂ))) = 0 := by linear_combination g1
      exact (mul_eq_zero.1 ((mul_eq_zero.1 this).resolve_right he')).resolve_left hs'
  · rintro (hs | hc)
    · rw [hs]
      refine ⟨?_, ?_⟩ <;> intro n u v p q r hu hv hp hq hr'
      · rw [Option.some.inj (hp.symm.trans hr')]; push_cast; ring
      · rw [Option.some.inj (hq.symm.trans hr')]; push_cast; ring
    · refine ⟨?_, ?_⟩ <;> intro n u v p q r hu hv hp hq hr' <;> rcases hc n u v p q hu hv hp hq with ⟨rfl, rfl⟩ | he
      · simp
      · rw [← Option.some.inj (hp.symm.trans hr'), he]; ring
      · simp
      · rw [← Option.some.inj (hq.symm.trans hr'), he]; ring

/-- C245: with the same draws for both modes, as for a single laser, the order does not matter. -/
theorem C245_one_laser (x y : List ℂ) (theta df fs : ℝ) (f : Nat → Nat → ℝ) (h : x.length = y.length) (hf : f 0 = f 1) :
    rotateField (applyPhaseNoise [x, y] df fs f) theta = (rotateField [x, y] theta).map (applyPhaseNoise · df fs f) := by
  refine (C245_noise_rotate x y theta df fs f h).2 (.inr fun n u v p q _ _ hp hq => .inr ?_)
  rw [hf] at hp
  rw [Option.some.inj (hp.symm.trans hq)]

/-- C245: if the offset makes whole turns over the length of the signal, a delay by `d` samples before the offset is a delay behind the offset and a constant phase. -/
theorem C245_offset_delay (x : List ℂ) (fo fs : ℝ) (d : Int) (m : Int) (hm : (x.length : ℝ) * fo / fs = m) :
    Np.roll (addCarrierOffset x fo fs) d = (addCarrierOffset (Np.roll x d) fo fs).map (· * exp (-(I * ((2 * Real.pi * d * fo / fs : ℝ) : ℂ)))) := by
  have hlx : (addCarrierOffset x fo fs).length = x.length := by simp [addCarrierOffset]
  have hlr : (Np.roll x d).length = x.length := (roll_perm x d).length_eq
  refine List.ext_getElem? fun n => ?_
  by_cases hn : n < x.length
  · rw [Np.getElem?_roll _ _ _ (by rw [hlx]; exact hn), hlx]
    simp only [addCarrierOffset, List.getElem?_map, List.getElem?_mapIdx]
    rw [Np.getElem?_roll _ _ _ hn]
    set k := (((n : Int) - d) % (x.length : Int)).toNat with hk
    cases x[k]? with
    | none => rfl
    | some a =>
      simp only [Option.map_some, Option.some.injEq]
      rw [mul_assoc a, ← Complex.exp_add]
      congr 1
      have hN : (0 : Int) < x.length := by omega
      have hk' : (k : Int) = n - d - x.length * (((n : Int) - d) / x.length) := by
        rw [hk, Int.toNat_of_nonneg (Int.emod_nonneg _ (by omega)), Int.emod_def]
      set w := ((n : Int) - d) / (x.length : Int)
      have hkR : (k : ℝ) = n - d - x.length * w := by exact_mod_cast hk'
      rw [Complex.exp_eq_exp_iff_exists_int]
      refine ⟨-(m * w), ?_⟩
      have : 2 * Real.pi * (k : ℝ) * fo / fs = 2 * Real.pi * n * fo / fs - 2 * Real.pi * d * fo / fs - 2 * Real.pi * (m * w) := by
        rw [hkR, ← hm]; ring
      rw [this]
      push_cast
      ring
  · rw [List.getElem?_eq_none (by rw [(roll_perm _ d).length_eq, hlx]; omega), List.getElem?_eq_none (by simp [addCarrierOffset, hlr]; omega)]

theorem C245_false : ¬ C245_statement := by
  intro h
  have := (h [1] [1] (Real.pi / 2) 1 (2 * Real.pi) 0 (fun l _ => if l = 0 then 0 else Real.pi) [0, 0] rfl (by positivity) zero_le_one rfl).1
  rw [C245_noise_rotate _ _ _ _ _ _ rfl] at this
  rcases this with h0 | h0
  · simp at h0
  · have e := h0 0 1 1 0 Real.pi rfl rfl (by simp [phaseNoiseRow, cumsumGo]) (by
      have : 2 * Real.pi * 1 / (2 * Real.pi) = 1 := by field_simp
      simp [phaseNoiseRow, cumsumGo])
    rcases e with ⟨e, -⟩ | e
    · simp at e
    · rw [mul_comm I (Real.pi : ℂ), Complex.exp_pi_mul_I] at e
      norm_num at e

/-- Two modes with different fields and the same draws. -/
example : ([1, I] : List ℂ).length = ([-1, 2] : List ℂ).length ∧ (fun (_ : Nat) (n : Nat) => (n : ℝ)) 0 = (fun (_ : Nat) (n : Nat) => (n : ℝ)) 1 := ⟨rfl, rfl⟩

/-- Four samples with an offset of a quarter of the sampling rate. -/
example : ((([1, I, -1, 2] : List ℂ).length : ℝ)) * 1 / 4 = ((1 : Int) : ℝ) := by norm_num

end Qampy
