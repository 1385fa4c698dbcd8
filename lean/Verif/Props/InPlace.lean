import Verif.Model.InPlace
import Verif.Props.Quantise

/-!
# C244: repeated calls on the same array
-/

namespace Qampy

/-- C244 in full: calls of `quantize_signal` leave the array as it is, and the result of each is the one of a call on an untouched array. -/
def C244_statement : Prop := ∀ (calls : List QuantCall) (arr arr' : List (List ℂ)) (outs : List (List (List ℂ))), runQuant calls arr = some (outs, arr') →
  arr' = arr ∧ ∀ (i : Nat) (c : QuantCall), calls[i]? = some c → arr.mapM (quantizeOldRow c.nbits c.rescale c.renorm) = outs[i]?

theorem peakRow_eq {x y : List ℂ} (h : peakRow x = some y) : ∃ m : ℝ, 0 < m ∧ (∃ z ∈ x, ‖z‖ = m) ∧ (∀ z ∈ x, ‖z‖ ≤ m) ∧ y = x.map fun z => z / (m : ℂ) := by
  unfold peakRow at h
  cases hm : (x.map fun z => ‖z‖).max? with
  | none => rw [hm] at h; simp at h
  | some m =>
    rw [hm] at h
    simp only [Option.bind_some] at h
    split_ifs at h with h0
    obtain ⟨hmem, hle⟩ := List.max?_eq_some_iff.1 hm
    obtain ⟨z, hz, hzm⟩ := List.mem_map.1 hmem
    refine ⟨m, lt_of_le_of_ne (by rw [← hzm]; exact norm_nonneg z) (Ne.symm h0), ⟨z, hz, hzm⟩, fun w hw => hle _ (List.mem_map.2 ⟨w, hw, rfl⟩), ?_⟩
    exact (Option.some.inj h).symm

theorem peakRow_of {x : List ℂ} {m : ℝ} (hm : 0 < m) (h1 : ∃ z ∈ x, ‖z‖ = m) (h2 : ∀ z ∈ x, ‖z‖ ≤ m) : peakRow x = some (x.map fun z => z / (m : ℂ)) := by
  have : (x.map fun z => ‖z‖).max? = some m := by
    rw [List.max?_eq_some_iff]
    refine ⟨?_, ?_⟩
    · obtain ⟨z, hz, e⟩ := h1
      exact List.mem_map.2 ⟨z, hz, e⟩
    · intro b hb
      obtain ⟨z, hz, e⟩ := List.mem_map.1 hb
      exact e ▸ h2 z hz
  unfold peakRow
  rw [this]
  simp [hm.ne']

/-- A scaled row has largest modulus one and stays as it is. -/
theorem peakRow_idem {x y : List ℂ} (h : peakRow x = some y) : peakRow y = some y := by
  obtain ⟨m, hm, ⟨z, hz, hzm⟩, hle, rfl⟩ := peakRow_eq h
  have e : ∀ w : ℂ, ‖w / (m : ℂ)‖ = ‖w‖ / m := fun w => by rw [norm_div, Complex.norm_real, Real.norm_of_nonneg hm.le]
  rw [peakRow_of one_pos ⟨z / m, List.mem_map.2 ⟨z, hz, rfl⟩, by rw [e, hzm, div_self hm.ne']⟩]
  · simp
  · intro w hw
    obtain ⟨v, hv, rfl⟩ := List.mem_map.1 hw
    rw [e, div_le_one hm]
    exact hle v hv

theorem mapM_peakRow_idem {a b : List (List ℂ)} (h : a.mapM peakRow = some b) : b.mapM peakRow = some b := by
  induction a generalizing b with
  | nil => simp at h; subst h; simp
  | cons x a ih =>
    rw [List.mapM_cons] at h
    cases hx : peakRow x with
    | none => simp [hx] at h
    | some y =>
      cases ha : a.mapM peakRow with
      | none => simp [hx, ha] at h
      | some c =>
        simp [hx, ha] at h
        subst h
        simp [List.mapM_cons, peakRow_idem hx, ih ha]

theorem quantizeOldRow_peak (n : Nat) (r : Bool) (x : List ℂ) : quantizeOldRow n true r x = (peakRow x).bind (quantizeOldRow n false r) := by
  unfold quantizeOldRow peakRow
  cases (x.map fun z => ‖z‖).max? with
  | none => simp
  | some m => by_cases h : m = 0 <;> simp [h]

theorem quantizeOldRow_peak' (n : Nat) (r : Bool) : quantizeOldRow n true r = fun x => (peakRow x).bind (quantizeOldRow n false r) :=
  funext (quantizeOldRow_peak n r)

theorem mapM_bind_some {f g : List ℂ → Option (List ℂ)} {a b : List (List ℂ)} (h : a.mapM f = some b) : a.mapM (fun x => (f x).bind g) = b.mapM g := by
  induction a generalizing b with
  | nil => simp at h; subst h; simp
  | cons x a ih =>
    rw [List.mapM_cons] at h
    cases hx : f x with
    | none => simp [hx] at h
    | some y =>
      cases ha : a.mapM f with
      | none => simp [hx, ha] at h
      | some c =>
        simp [hx, ha] at h
        subst h
        simp [List.mapM_cons, hx, ih ha]

/-- C244: what a single call does. The result is the one of the row by row quantiser, and the array of the caller holds the rows divided by their peaks
if `rescale` is set. -/
theorem C244_call (c : QuantCall) (arr arr' out : List (List ℂ)) (h : c.run arr = some (out, arr')) :
    arr.mapM (quantizeOldRow c.nbits c.rescale c.renorm) = some out ∧ (c.rescale = false → arr' = arr) ∧
    (c.rescale = true → List.Forall₂ (fun x y => ∃ m : ℝ, 0 < m ∧ (∃ z ∈ x, ‖z‖ = m) ∧ (∀ z ∈ x, ‖z‖ ≤ m) ∧ y = x.map fun z => z / (m : ℂ)) arr arr') := by
  obtain ⟨n, rs, rn⟩ := c
  unfold QuantCall.run at h
  cases rs with
  | false =>
    simp only [Bool.false_eq_true, if_false, Option.bind_eq_bind, Option.bind_some] at h
    cases ho : arr.mapM (quantizeOldRow n false rn) with
    | none => simp [ho] at h
    | some o =>
      simp [ho] at h
      obtain ⟨rfl, rfl⟩ := h
      exact ⟨rfl, fun _ => rfl, by simp⟩
  | true =>
    simp only [if_true, Option.bind_eq_bind] at h
    cases ha : arr.mapM peakRow with
    | none => simp [ha] at h
    | some a =>
      cases ho : a.mapM (quantizeOldRow n false rn) with
      | none => simp [ha, ho] at h
      | some o =>
        simp [ha, ho] at h
        obtain ⟨rfl, rfl⟩ := h
        refine ⟨?_, by simp, fun _ => ?_⟩
        · show arr.mapM (quantizeOldRow n true rn) = some o
          rw [quantizeOldRow_peak', mapM_bind_some ha, ho]
        · clear ho
          induction arr generalizing a with
          | nil => simp at ha; subst ha; exact .nil
          | cons x arr ih =>
            rw [List.mapM_cons] at ha
            cases hx : peakRow x with
            | none => simp [hx] at ha
            | some y =>
              cases hr : arr.mapM peakRow with
              | none => simp [hx, hr] at ha
              | some b =>
                simp [hx, hr] at ha
                subst ha
                exact .cons (peakRow_eq hx) (ih b hr)

theorem run_peak_invariant {c : QuantCall} {arr arr' out : List (List ℂ)} (h : c.run arr = some (out, arr')) :
    (c.rescale = true → arr.mapM peakRow = some arr') ∧ (c.rescale = false → arr' = arr) := by
  refine ⟨fun hr => ?_, (C244_call c arr arr' out h).2.1⟩
  unfold QuantCall.run at h
  rw [hr] at h
  simp only [if_true, Option.bind_eq_bind] at h
  cases ha : arr.mapM peakRow with
  | none => simp [ha] at h
  | some a =>
    cases ho : a.mapM (quantizeOldRow c.nbits false c.renorm) with
    | none => simp [ha, ho] at h
    | some o =>
      simp [ha, ho] at h
      rw [h.2]

theorem quantizeOldRow_scaled {a : List (List ℂ)} (h : a.mapM peakRow = some a) (n : Nat) (r s : Bool) :
    a.mapM (quantizeOldRow n s r) = a.mapM (quantizeOldRow n true r) := by
  cases s with
  | true => rfl
  | false =>
    rw [quantizeOldRow_peak', mapM_bind_some h]

theorem runQuant_cons {c : QuantCall} {cs : List QuantCall} {arr arr' : List (List ℂ)} {outs : List (List (List ℂ))} (h : runQuant (c :: cs) arr = some (outs, arr')) :
    ∃ o a os, c.run arr = some (o, a) ∧ runQuant cs a = some (os, arr') ∧ outs = o :: os := by
  unfold runQuant at h
  cases hc : c.run arr with
  | none => simp [hc] at h
  | some p =>
    obtain ⟨o, a⟩ := p
    cases hr : runQuant cs a with
    | none => simp [hc, hr] at h
    | some q =>
      obtain ⟨os, b⟩ := q
      simp [hc, hr] at h
      obtain ⟨rfl, rfl⟩ := h
      exact ⟨o, a, os, rfl, hr, rfl⟩

theorem runQuant_scaled (calls : List QuantCall) {a arr' : List (List ℂ)} {outs : List (List (List ℂ))} (ha : a.mapM peakRow = some a) (h : runQuant calls a = some (outs, arr')) :
    arr' = a ∧ ∀ (i : Nat) (c : QuantCall), calls[i]? = some c → a.mapM (quantizeOldRow c.nbits true c.renorm) = outs[i]? := by
  induction calls generalizing outs with
  | nil =>
    simp [runQuant] at h
    exact ⟨h.2.symm, by simp⟩
  | cons c cs ih =>
    obtain ⟨o, b, os, h1, h2, rfl⟩ := runQuant_cons h
    have hb : b = a := by
      have := run_peak_invariant h1
      cases hr : c.rescale with
      | true => exact (Option.some.inj (ha.symm.trans (this.1 hr))).symm
      | false => exact this.2 hr
    subst hb
    obtain ⟨h3, h4⟩ := ih h2
    refine ⟨h3, fun i d hd => ?_⟩
    cases i with
    | zero =>
      simp at hd
      subst hd
      rw [← quantizeOldRow_scaled ha c.nbits c.renorm c.rescale]
      simpa using (C244_call _ _ _ _ h1).1
    | succ i => simpa using h4 i d (by simpa using hd)

/-- C244: any number of calls with any arguments on the same array. A call gives the result of a call on the untouched array in which `rescale` is set
if it is set in this call or was in an earlier one; the array ends up divided by the peaks of its rows if `rescale` was set at all. -/
theorem C244_history (calls : List QuantCall) (arr arr' : List (List ℂ)) (outs : List (List (List ℂ))) (h : runQuant calls arr = some (outs, arr')) :
    (∀ (i : Nat) (c : QuantCall), calls[i]? = some c → arr.mapM (quantizeOldRow c.nbits ((calls.take (i + 1)).any (·.rescale)) c.renorm) = outs[i]?) ∧
    (calls.any (·.rescale) = false → arr' = arr) ∧
    (calls.any (·.rescale) = true → List.Forall₂ (fun x y => ∃ m : ℝ, 0 < m ∧ (∃ z ∈ x, ‖z‖ = m) ∧ (∀ z ∈ x, ‖z‖ ≤ m) ∧ y = x.map fun z => z / (m : ℂ)) arr arr') := by
  induction calls generalizing arr outs with
  | nil =>
    simp [runQuant] at h
    exact ⟨by simp, fun _ => h.2.symm, by simp⟩
  | cons c cs ih =>
    obtain ⟨o, a, os, h1, h2, rfl⟩ := runQuant_cons h
    have hcall := C244_call _ _ _ _ h1
    cases hr : c.rescale with
    | false =>
      have : a = arr := hcall.2.1 hr
      subst this
      obtain ⟨h3, h4, h5⟩ := ih _ _ h2
      refine ⟨fun i d hd => ?_, by simpa [hr] using h4, by simpa [hr] using h5⟩
      cases i with
      | zero => simp at hd; subst hd; simpa using hcall.1
      | succ i => simpa [hr] using h3 i d (by simpa using hd)
    | true =>
      have hp := (run_peak_invariant h1).1 hr
      obtain ⟨h3, h4⟩ := runQuant_scaled cs (mapM_peakRow_idem hp) h2
      subst h3
      refine ⟨fun i d hd => ?_, by simp [hr], fun _ => hcall.2.2 hr⟩
      cases i with
      | zero => simp at hd; subst hd; simpa [hr] using hcall.1
      | succ i =>
        have := h4 i d (by simpa using hd)
        rw [List.getElem?_cons_succ, ← this]
        simp only [List.take_succ_cons, List.any_cons, hr, Bool.true_or]
        rw [quantizeOldRow_peak', mapM_bind_some hp, mapM_bind_some (mapM_peakRow_idem hp)]

/-- C244: a sweep with `rescale` in every call, the default. Every result is the one of a call on the untouched array. -/
theorem C244_sweep (calls : List QuantCall) (hc : ∀ c ∈ calls, c.rescale = true) (arr arr' : List (List ℂ)) (outs : List (List (List ℂ))) (h : runQuant calls arr = some (outs, arr')) (i : Nat) (c : QuantCall)
    (hi : calls[i]? = some c) : arr.mapM (quantizeOldRow c.nbits c.rescale c.renorm) = outs[i]? := by
  have := (C244_history calls arr arr' outs h).1 i c hi
  rw [← this, hc c (List.mem_of_getElem? hi)]
  congr 2
  symm
  rw [List.any_eq_true]
  refine ⟨c, ?_, hc c (List.mem_of_getElem? hi)⟩
  rw [List.mem_iff_getElem?]
  exact ⟨i, by rw [List.getElem?_take]; simp [hi]⟩

theorem quantOld_one (x : ℝ) : quantOld 1 x = some (if -1 ≤ x then 1 else -1) := by
  unfold quantOld digitize linspace
  by_cases h : (-1 : ℝ) ≤ x
  · simp [List.range_succ, h]; norm_num
  · simp [List.range_succ, h]

/-- The array -2 with one bit: first a call with `rescale`, then one without. -/
theorem runQuant_example : runQuant [⟨1, true, false⟩, ⟨1, false, false⟩] [[-2]] = some ([[[⟨1, 1⟩]], [[⟨1, 1⟩]]], [[-1]]) := by
  have hp : peakRow [-2] = some [-1] := by
    rw [peakRow_of (m := 2) (by norm_num) ⟨-2, by simp, by simp⟩ (by simp)]
    norm_num
  have hq : quantizeOldRow 1 false false [-1] = some [⟨1, 1⟩] := by
    unfold quantizeOldRow quantC
    simp [quantOld_one]
  simp [runQuant, QuantCall.run, hp, hq]

theorem C244_false : ¬ C244_statement := by
  intro h
  have h1 := (h _ _ _ _ runQuant_example).1
  simp at h1

/-- C244: the results are affected as well. Quantised with one bit and without `rescale` the sample -2 gives -1, after a call with `rescale` it gives +1. -/
theorem C244_result : ∃ (calls : List QuantCall) (arr arr' : List (List ℂ)) (outs : List (List (List ℂ))), runQuant calls arr = some (outs, arr') ∧
    ∃ (i : Nat) (c : QuantCall), calls[i]? = some c ∧ arr.mapM (quantizeOldRow c.nbits c.rescale c.renorm) = some [[⟨-1, 1⟩]] ∧ outs[i]? = some [[⟨1, 1⟩]] := by
  refine ⟨_, _, _, _, runQuant_example, 1, _, rfl, ?_, rfl⟩
  unfold quantizeOldRow quantC
  simp [quantOld_one]

/-! ### The alphabet in `sim_mi_mc` -/

theorem meanPower_unitPower (symbols : List ℂ) (hP : 0 < meanR (symbols.map fun s => ‖s‖ ^ 2)) : meanR ((unitPower symbols).map fun s => ‖s‖ ^ 2) = 1 := by
  unfold unitPower
  set P := meanR (symbols.map fun s => ‖s‖ ^ 2) with hPd
  rw [List.map_map]
  have e : ((fun s : ℂ => ‖s‖ ^ 2) ∘ fun s => s / (Real.sqrt P : ℂ)) = fun s : ℂ => ‖s‖ ^ 2 * P⁻¹ := by
    funext s
    simp only [Function.comp_apply, norm_div, Complex.norm_real, Real.norm_of_nonneg (Real.sqrt_nonneg P), div_pow, Real.sq_sqrt hP.le]
    rw [div_eq_mul_inv]
  rw [e]
  have : meanR (symbols.map fun s => ‖s‖ ^ 2 * P⁻¹) = P * P⁻¹ := by
    rw [hPd]
    unfold meanR
    rw [List.sum_map_mul_right, List.length_map, List.length_map]
    ring
  rw [this, mul_inv_cancel₀ hP.ne']

theorem unitPower_idem (symbols : List ℂ) (hP : 0 < meanR (symbols.map fun s => ‖s‖ ^ 2)) : unitPower (unitPower symbols) = unitPower symbols := by
  show (unitPower symbols).map (fun s => s / (Real.sqrt (meanR ((unitPower symbols).map fun s => ‖s‖ ^ 2)) : ℂ)) = _
  have := meanPower_unitPower symbols hP
  rw [this]
  simp

/-- C244: a sweep of `sim_mi_mc` with the same array of symbols. Every value is the one for the untouched array; afterwards the array has mean power one and
it has changed unless that was so before. -/
theorem C244_mi (calls : List (ℝ × List (ℝ × ℝ))) (symbols : List ℂ) (hP : 0 < meanR (symbols.map fun s => ‖s‖ ^ 2)) :
    (runMi calls symbols).1 = calls.map (fun c => simMiMc symbols c.1 c.2) ∧
    (calls ≠ [] → meanR ((runMi calls symbols).2.map fun s => ‖s‖ ^ 2) = 1 ∧
      (runMi calls symbols).2 = symbols.map (fun s => s / (Real.sqrt (meanR (symbols.map fun s => ‖s‖ ^ 2)) : ℂ)) ∧
      ((runMi calls symbols).2 = symbols ↔ meanR (symbols.map fun s => ‖s‖ ^ 2) = 1)) := by
  have key : ∀ (calls : List (ℝ × List (ℝ × ℝ))) (s : List ℂ), unitPower s = unitPower symbols → (runMi calls s).1 = calls.map (fun c => simMiMc symbols c.1 c.2) ∧
      (calls ≠ [] → (runMi calls s).2 = unitPower symbols) := by
    intro calls
    induction calls with
    | nil => intro s _; exact ⟨rfl, by simp⟩
    | cons c cs ih =>
      intro s hs
      have h2 : (simMiCall c.1 c.2 s).2 = unitPower symbols := hs
      obtain ⟨h3, h4⟩ := ih (simMiCall c.1 c.2 s).2 (by rw [h2, unitPower_idem symbols hP])
      refine ⟨?_, fun _ => ?_⟩
      · show (simMiCall c.1 c.2 s).1 :: (runMi cs (simMiCall c.1 c.2 s).2).1 = _
        rw [h3, List.map_cons]
        congr 1
        show calMiMc _ (unitPower s) _ = _
        rw [hs]
        rfl
      · show (runMi cs (simMiCall c.1 c.2 s).2).2 = _
        cases cs with
        | nil => exact h2
        | cons d ds => exact h4 (by simp)
  obtain ⟨h1, h2⟩ := key calls symbols rfl
  refine ⟨h1, fun hc => ?_⟩
  rw [h2 hc]
  refine ⟨meanPower_unitPower symbols hP, rfl, fun h => ?_, fun h => ?_⟩
  · have := meanPower_unitPower symbols hP
    rwa [h] at this
  · unfold unitPower
    rw [h]
    simp

example : (0 : ℝ) < meanR (([3, -1] : List ℂ).map fun s => ‖s‖ ^ 2) ∧ meanR (([3, -1] : List ℂ).map fun s => ‖s‖ ^ 2) ≠ 1 := by
  simp [meanR]
  try norm_num

example : ∃ calls arr outs arr', runQuant calls arr = some (outs, arr') ∧ calls.length = 2 ∧ arr' ≠ arr :=
  ⟨_, _, _, _, runQuant_example, rfl, fun h => by simp at h⟩

end Qampy
