import Verif.Model.Impairments
import Verif.Lemmas.Fourier

/-!
C38-C40, C43, C95-C98: polarisation rotation, PMD, modal delay, dispersion and frequency domain filters.
-/

namespace Qampy

open Complex

/-! ### C38 -/

theorem rotateRows_length (theta : ℝ) {x y : List ℂ} (h : x.length = y.length) :
    (rotateRows theta x y).1.length = x.length ∧ (rotateRows theta x y).2.length = y.length := by
  simp [rotateRows, h]

theorem at0_rotateRows (theta : ℝ) {x y : List ℂ} (h : x.length = y.length) {n : Nat} (hn : n < x.length) :
    at0 (rotateRows theta x y).1 n = (Real.cos theta : ℂ) * at0 x n - (Real.sin theta : ℂ) * at0 y n ∧
    at0 (rotateRows theta x y).2 n = (Real.sin theta : ℂ) * at0 x n + (Real.cos theta : ℂ) * at0 y n := by
  constructor
  · apply at0_of_some
    rw [rotateRows, List.getElem?_zipWith, at0_getElem? hn, at0_getElem? (h ▸ hn)]
    simp only [Option.some.injEq]
    ring
  · apply at0_of_some
    rw [rotateRows, List.getElem?_zipWith, at0_getElem? hn, at0_getElem? (h ▸ hn)]

theorem rotate_power (c s : ℝ) (h : c ^ 2 + s ^ 2 = 1) (a b : ℂ) :
    ‖(c : ℂ) * a - (s : ℂ) * b‖ ^ 2 + ‖(s : ℂ) * a + (c : ℂ) * b‖ ^ 2 = ‖a‖ ^ 2 + ‖b‖ ^ 2 := by
  simp only [← Complex.normSq_eq_norm_sq, Complex.normSq_apply, Complex.sub_re, Complex.sub_im, Complex.add_re, Complex.add_im, Complex.mul_re,
    Complex.mul_im, Complex.ofReal_re, Complex.ofReal_im]
  linear_combination (a.re ^ 2 + a.im ^ 2 + b.re ^ 2 + b.im ^ 2) * h

/-- C38: `rotate_field` keeps the total power of every sample. -/
theorem C38_power {x y : List ℂ} (h : x.length = y.length) (theta : ℝ) : ∃ x' y', rotateField [x, y] theta = .ok [x', y'] ∧
    x'.length = x.length ∧ y'.length = x.length ∧
    ∀ (n : Nat) (a b : ℂ), x[n]? = some a → y[n]? = some b →
      ∃ a' b', x'[n]? = some a' ∧ y'[n]? = some b' ∧ ‖a'‖ ^ 2 + ‖b'‖ ^ 2 = ‖a‖ ^ 2 + ‖b‖ ^ 2 := by
  refine ⟨_, _, rfl, (rotateRows_length theta h).1, (rotateRows_length theta h).2.trans h.symm, ?_⟩
  intro n a b ha hb
  have hn : n < x.length := (List.getElem?_eq_some_iff.1 ha).1
  obtain ⟨h1, h2⟩ := at0_rotateRows theta h hn
  rw [at0_of_some ha, at0_of_some hb] at h1 h2
  refine ⟨_, _, at0_getElem? (by rw [(rotateRows_length theta h).1]; exact hn), at0_getElem? (by rw [(rotateRows_length theta h).2]; omega), ?_⟩
  rw [h1, h2, rotate_power _ _ (Real.cos_sq_add_sin_sq theta)]

theorem rotateRows_zero {x y : List ℂ} (h : x.length = y.length) : rotateRows 0 x y = (x, y) := by
  refine Prod.ext (ext_at0 (rotateRows_length 0 h).1 ?_) (ext_at0 (rotateRows_length 0 h).2 ?_)
  · intro n hn
    rw [(rotateRows_length 0 h).1] at hn
    rw [(at0_rotateRows 0 h hn).1]
    simp
  · intro n hn
    rw [(rotateRows_length 0 h).2] at hn
    rw [(at0_rotateRows 0 h (h ▸ hn)).2]
    simp

theorem rotateRows_add {x y : List ℂ} (h : x.length = y.length) (a b : ℝ) :
    rotateRows b (rotateRows a x y).1 (rotateRows a x y).2 = rotateRows (a + b) x y := by
  have l1 := rotateRows_length a h
  have hl : (rotateRows a x y).1.length = (rotateRows a x y).2.length := by rw [l1.1, l1.2, h]
  have l2 := rotateRows_length b hl
  have l3 := rotateRows_length (a + b) h
  refine Prod.ext (ext_at0 (by rw [l2.1, l1.1, l3.1]) ?_) (ext_at0 (by rw [l2.2, l1.2, l3.2]) ?_)
  · intro n hn
    rw [l2.1, l1.1] at hn
    rw [(at0_rotateRows b hl (by rw [l1.1]; exact hn)).1, (at0_rotateRows a h hn).1, (at0_rotateRows a h hn).2, (at0_rotateRows (a + b) h hn).1,
      Real.cos_add, Real.sin_add]
    push_cast
    ring
  · intro n hn
    rw [l2.2, l1.2] at hn
    rw [(at0_rotateRows b hl (by rw [l1.1]; omega)).2, (at0_rotateRows a h (by omega)).1, (at0_rotateRows a h (by omega)).2,
      (at0_rotateRows (a + b) h (by omega)).2, Real.cos_add, Real.sin_add]
    push_cast
    ring

/-- C38: consecutive rotations add their angles. -/
theorem C38_add {x y : List ℂ} (h : x.length = y.length) (a b : ℝ) :
    (rotateField [x, y] a >>= fun f => rotateField f b) = rotateField [x, y] (a + b) := by
  simp only [rotateField, bind, Except.bind]
  rw [rotateRows_add h]

/-- C38: the angle zero is the identity. -/
theorem C38_zero {x y : List ℂ} (h : x.length = y.length) : rotateField [x, y] 0 = .ok [x, y] := by
  simp only [rotateField]
  rw [rotateRows_zero h]

/-- C38: the opposite angle undoes the rotation. -/
theorem C38_inverse {x y : List ℂ} (h : x.length = y.length) (a : ℝ) :
    (rotateField [x, y] a >>= fun f => rotateField f (-a)) = .ok [x, y] := by
  rw [C38_add h, add_neg_cancel, C38_zero h]

/-- C38: a positive angle turns the first polarisation into the second: a quarter turn moves `x` to `y` and `y` to `-x`. -/
theorem C38_quarter {x y : List ℂ} (h : x.length = y.length) : rotateField [x, y] (Real.pi / 2) = .ok [y.map (- ·), x] := by
  simp only [rotateField, Except.ok.injEq, List.cons.injEq, and_true]
  constructor
  · apply ext_at0 (by simp [rotateRows, h])
    intro n hn
    rw [(rotateRows_length _ h).1] at hn
    rw [(at0_rotateRows _ h hn).1]
    simp [at0, List.getElem?_eq_getElem (h ▸ hn)]
  · apply ext_at0 (by simp [rotateRows, h])
    intro n hn
    rw [(rotateRows_length _ h).2] at hn
    rw [(at0_rotateRows _ h (by omega)).2]
    simp

/-- C38: a field with another number of polarisations raises. -/
theorem C38_modes (field : List (List ℂ)) (theta : ℝ) (h : field.length ≠ 2) : rotateField field theta = .error .value := by
  unfold rotateField
  split
  · simp at h
  · rfl

example : ([1, I] : List ℂ).length = ([2, 3] : List ℂ).length := rfl

/-! ### C39 -/

theorem unspectrum_spectrum (x : List ℂ) : unspectrum (spectrum x) = x := by
  unfold unspectrum spectrum
  rw [ifftshift_fftshift, ifft_fft, fftshift_ifftshift]

theorem spectrum_unspectrum (x : List ℂ) : spectrum (unspectrum x) = x := by
  unfold unspectrum spectrum
  rw [ifftshift_fftshift, fft_ifft, fftshift_ifftshift]

@[simp] theorem length_spectrum (x : List ℂ) : (spectrum x).length = x.length := by simp [spectrum]
@[simp] theorem length_unspectrum (x : List ℂ) : (unspectrum x).length = x.length := by simp [unspectrum]

theorem energy_spectrum (x : List ℂ) : energy (spectrum x) = x.length * energy x := by
  unfold spectrum fftshift
  rw [energy_roll, energy_fft, length_ifftshift]
  unfold ifftshift
  rw [energy_roll]

theorem energy_unspectrum (x : List ℂ) : x.length * energy (unspectrum x) = energy x := by
  have := energy_spectrum (unspectrum x)
  rw [spectrum_unspectrum, length_unspectrum] at this
  exact this.symm

theorem energy_rotateRows (theta : ℝ) {x y : List ℂ} (h : x.length = y.length) :
    energy (rotateRows theta x y).1 + energy (rotateRows theta x y).2 = energy x + energy y := by
  have l := rotateRows_length theta h
  rw [energy_eq, energy_eq, energy_eq, energy_eq, l.1, l.2, ← h, ← Finset.sum_add_distrib, ← Finset.sum_add_distrib]
  refine Finset.sum_congr rfl fun n hn => ?_
  obtain ⟨h1, h2⟩ := at0_rotateRows theta h (Finset.mem_range.1 hn)
  rw [h1, h2, rotate_power _ _ (Real.cos_sq_add_sin_sq theta)]

/-- Transfer function of the delay of one polarisation, with sign `s`. -/
noncomputable def pmdH (N : Nat) (fs tdgd : ℝ) : List ℂ :=
  ((linspaceOpen (-fs / 2) (fs / 2) N).map (2 * Real.pi * ·)).map fun w => exp (-(I * ((w * tdgd / 2 : ℝ) : ℂ)))

@[simp] theorem length_pmdH (N : Nat) (fs tdgd : ℝ) : (pmdH N fs tdgd).length = N := by simp [pmdH, linspaceOpen]

theorem at0_pmdH {N : Nat} (fs tdgd : ℝ) {k : Nat} (hk : k < N) :
    at0 (pmdH N fs tdgd) k = exp (-(I * ((2 * Real.pi * (-fs / 2 + k * ((fs / 2 - -fs / 2) / N)) * tdgd / 2 : ℝ) : ℂ))) := by
  apply at0_of_some
  rw [pmdH, linspaceOpen, List.getElem?_map, List.getElem?_map, List.getElem?_map, List.getElem?_range hk]
  rfl

theorem norm_pmdH {N : Nat} {fs tdgd : ℝ} : ∀ z ∈ pmdH N fs tdgd, ‖z‖ = 1 := by
  intro z hz
  obtain ⟨w, -, rfl⟩ := List.mem_map.1 hz
  rw [show -(I * ((w * tdgd / 2 : ℝ) : ℂ)) = ((-(w * tdgd / 2) : ℝ) : ℂ) * I by push_cast; ring, Complex.norm_exp_ofReal_mul_I]

theorem pmdH_mul {N : Nat} (fs s t : ℝ) {k : Nat} (hk : k < N) : at0 (pmdH N fs s) k * at0 (pmdH N fs t) k = at0 (pmdH N fs (s + t)) k := by
  rw [at0_pmdH _ _ hk, at0_pmdH _ _ hk, at0_pmdH _ _ hk, ← Complex.exp_add]
  congr 1
  push_cast
  ring

theorem pmdH_zero {N : Nat} (fs : ℝ) {k : Nat} (hk : k < N) : at0 (pmdH N fs 0) k = 1 := by
  rw [at0_pmdH _ _ hk]
  simp

theorem rowMul_pmdH (x : List ℂ) (fs s t : ℝ) :
    rowMul (rowMul x (pmdH x.length fs s)) (pmdH x.length fs t) = rowMul x (pmdH x.length fs (s + t)) := by
  apply ext_at0 (by simp)
  intro n hn
  have hn : n < x.length := by simpa using hn
  rw [at0_rowMul _ _ (by simpa using hn) (by simpa using hn), at0_rowMul _ _ hn (by simpa using hn), at0_rowMul _ _ hn (by simpa using hn),
    mul_assoc, pmdH_mul _ _ _ hn]

theorem rowMul_pmdH_zero (x : List ℂ) (fs : ℝ) : rowMul x (pmdH x.length fs 0) = x := by
  apply ext_at0 (by simp)
  intro n hn
  have hn : n < x.length := by simpa using hn
  rw [at0_rowMul _ _ hn (by simpa using hn), pmdH_zero _ hn, mul_one]

/-- The result of the model for two polarisations, in rows. -/
theorem applyPMD_eq {x y : List ℂ} (h : x.length = y.length) (h0 : x ≠ []) (theta t fs : ℝ) :
    applyPMD [x, y] theta t fs =
      (let r := rotateRows theta (spectrum x) (spectrum y)
       let q := rotateRows (-theta) (rowMul r.1 (pmdH x.length fs t)) (rowMul r.2 (pmdH x.length fs (-t)))
       .ok [unspectrum q.1, unspectrum q.2]) := by
  have hy0 : y ≠ [] := by
    intro hy
    rw [hy] at h
    exact h0 (List.length_eq_zero_iff.1 h)
  unfold applyPMD
  have hany : ([x, y].any fun r => r.isEmpty) = false := by simp [h0, hy0]
  simp only [hany, Bool.false_eq_true, if_false, List.map_cons, List.map_nil, rotateField, List.headD_cons, List.zipWith_cons_cons,
    List.zipWith_nil_right, bind, Except.bind, pure, Except.pure]
  have : (((linspaceOpen (-fs / 2) (fs / 2) x.length).map (2 * Real.pi * ·)).map fun w => exp (I * ((w * t / 2 : ℝ) : ℂ)))
      = pmdH x.length fs (-t) := by
    unfold pmdH
    apply List.map_congr_left
    intro w _
    congr 1
    push_cast
    ring
  rw [this]
  rfl

/-- Two PMD elements with the same principal axes add their delays. -/
theorem applyPMD_add {x y : List ℂ} (h : x.length = y.length) (h0 : x ≠ []) (theta s t fs : ℝ) :
    (applyPMD [x, y] theta s fs >>= fun f => applyPMD f theta t fs) = applyPMD [x, y] theta (s + t) fs := by
  rw [applyPMD_eq h h0, applyPMD_eq h h0]
  simp only [bind, Except.bind]
  have hs : (spectrum x).length = (spectrum y).length := by simp [h]
  have l1 := rotateRows_length theta hs
  generalize hr : rotateRows theta (spectrum x) (spectrum y) = r at l1 ⊢
  obtain ⟨r1, r2⟩ := r
  simp only [length_spectrum] at l1 ⊢
  have hs2 : (rowMul r1 (pmdH x.length fs s)).length = (rowMul r2 (pmdH x.length fs (-s))).length := by simp [l1, h]
  have l2 := rotateRows_length (-theta) hs2
  have hq := rotateRows_add hs2 (-theta) theta
  rw [neg_add_cancel, rotateRows_zero hs2] at hq
  generalize rotateRows (-theta) (rowMul r1 (pmdH x.length fs s)) (rowMul r2 (pmdH x.length fs (-s))) = q at l2 hq ⊢
  obtain ⟨q1, q2⟩ := q
  simp only [length_rowMul, length_pmdH, l1, h, min_self] at l2
  simp only at hq
  have hq0 : unspectrum q1 ≠ [] := by
    intro hc
    have := congrArg List.length hc
    simp only [length_unspectrum, l2.1, List.length_nil] at this
    exact h0 (List.length_eq_zero_iff.1 (h.trans this))
  rw [applyPMD_eq (by simp [l2]) hq0]
  simp only [spectrum_unspectrum, hq, length_unspectrum, l2.1, ← h]
  have e1 := rowMul_pmdH r1 fs s t
  have e2 := rowMul_pmdH r2 fs (-s) (-t)
  rw [l1.1] at e1
  rw [l1.2, ← h] at e2
  rw [e1, e2, neg_add]

/-- C39: PMD preserves the total energy of both polarisations. -/
theorem C39_energy {x y : List ℂ} (h : x.length = y.length) (h0 : x ≠ []) (theta t fs : ℝ) :
    ∃ x' y', applyPMD [x, y] theta t fs = .ok [x', y'] ∧ x'.length = x.length ∧ y'.length = x.length ∧
      energy x' + energy y' = energy x + energy y := by
  rw [applyPMD_eq h h0]
  have hs : (spectrum x).length = (spectrum y).length := by simp [h]
  have l1 := rotateRows_length theta hs
  have e1 := energy_rotateRows theta hs
  simp only
  generalize rotateRows theta (spectrum x) (spectrum y) = r at l1 e1 ⊢
  obtain ⟨r1, r2⟩ := r
  simp only [length_spectrum] at l1 e1 ⊢
  have hs2 : (rowMul r1 (pmdH x.length fs t)).length = (rowMul r2 (pmdH x.length fs (-t))).length := by simp [l1, h]
  have l2 := rotateRows_length (-theta) hs2
  have e2 := energy_rotateRows (-theta) hs2
  generalize rotateRows (-theta) (rowMul r1 (pmdH x.length fs t)) (rowMul r2 (pmdH x.length fs (-t))) = q at l2 e2 ⊢
  obtain ⟨q1, q2⟩ := q
  simp only [length_rowMul, length_pmdH, l1, ← h, min_self] at l2
  simp only at e2
  refine ⟨_, _, rfl, by simp [l2], by simp [l2], ?_⟩
  rw [energy_rowMul_unit (by simp [l1]) norm_pmdH, energy_rowMul_unit (by simp [l1, h]) norm_pmdH, e1, energy_spectrum, energy_spectrum,
    ← energy_unspectrum q1, ← energy_unspectrum q2, l2.1, l2.2, ← h] at e2
  have hN : (x.length : ℝ) ≠ 0 := by
    have : x.length ≠ 0 := fun hc => h0 (List.length_eq_zero_iff.1 hc)
    exact_mod_cast this
  rw [← mul_add, ← mul_add] at e2
  exact mul_left_cancel₀ hN e2

/-- C39: zero delay is the identity. -/
theorem C39_zero {x y : List ℂ} (h : x.length = y.length) (h0 : x ≠ []) (theta fs : ℝ) : applyPMD [x, y] theta 0 fs = .ok [x, y] := by
  rw [applyPMD_eq h h0]
  have hs : (spectrum x).length = (spectrum y).length := by simp [h]
  have l1 := rotateRows_length theta hs
  have hq := rotateRows_add hs theta (-theta)
  rw [add_neg_cancel, rotateRows_zero hs] at hq
  simp only
  generalize rotateRows theta (spectrum x) (spectrum y) = r at l1 hq ⊢
  obtain ⟨r1, r2⟩ := r
  simp only [length_spectrum] at l1 hq ⊢
  have e1 := rowMul_pmdH_zero r1 fs
  have e2 := rowMul_pmdH_zero r2 fs
  rw [l1.1] at e1
  rw [l1.2, ← h] at e2
  rw [neg_zero, e1, e2, hq]
  simp only [unspectrum_spectrum]

/-- C39: the delays of elements with the same axes add. -/
theorem C39_add {x y : List ℂ} (h : x.length = y.length) (h0 : x ≠ []) (theta s t fs : ℝ) :
    (applyPMD [x, y] theta s fs >>= fun f => applyPMD f theta t fs) = applyPMD [x, y] theta (s + t) fs := applyPMD_add h h0 theta s t fs

/-- C39: the negative delay undoes PMD. -/
theorem C39_inverse {x y : List ℂ} (h : x.length = y.length) (h0 : x ≠ []) (theta t fs : ℝ) :
    (applyPMD [x, y] theta t fs >>= fun f => applyPMD f theta (-t) fs) = .ok [x, y] := by
  rw [C39_add h h0, add_neg_cancel, C39_zero h h0]

example : ([1, I, 3] : List ℂ).length = ([2, 3, 0] : List ℂ).length ∧ ([1, I, 3] : List ℂ) ≠ [] := by simp

/-! ### C40 -/

/-- C40: every mode is shifted cyclically by its own delay. -/
theorem C40_delay {α : Type} {sig : List (List α)} {delay : List Int} (h : delay.length = sig.length) :
    ∃ out, addModalDelay sig delay = .ok out ∧ out.length = sig.length ∧
      ∀ (m : Nat) (row : List α) (d : Int), sig[m]? = some row → delay[m]? = some d → ∃ row', out[m]? = some row' ∧
        row'.length = row.length ∧ row'.Perm row ∧
        ∀ (i j : Nat), i < row.length → j < row.length → ((j : Int) - i - d) % row.length = 0 → row'[j]? = row[i]? := by
  refine ⟨List.zipWith Np.roll sig delay, by simp [addModalDelay, h], by simp [h], ?_⟩
  intro m row d hm hd
  refine ⟨Np.roll row d, by simp [List.getElem?_zipWith, hm, hd], by simp, roll_perm row d, ?_⟩
  intro i j hi hj hij
  obtain ⟨j', h1, h2, h3⟩ := getElem?_roll' row d j hj
  rw [h3]
  congr 1
  have : ((j : Int) - d) % row.length = i := by
    rw [show (j : Int) - d = i + ((j : Int) - i - d) by ring, Int.add_emod, hij, add_zero, Int.emod_emod]
    exact Int.emod_eq_of_lt (by omega) (by omega)
  omega

/-- C40: delays add. -/
theorem C40_add {α : Type} {sig : List (List α)} {d1 d2 : List Int} (h1 : d1.length = sig.length) (h2 : d2.length = sig.length) :
    (addModalDelay sig d1 >>= fun s => addModalDelay s d2) = addModalDelay sig (List.zipWith (· + ·) d1 d2) := by
  simp only [addModalDelay, h1, if_true, bind, Except.bind, List.length_zipWith, h2, min_self, Except.ok.injEq]
  apply List.ext_getElem?
  intro m
  simp only [List.getElem?_zipWith]
  cases sig[m]? <;> cases d1[m]? <;> cases d2[m]? <;> simp [roll_roll]

/-- C40: the negated delays restore the signal. -/
theorem C40_inverse {α : Type} {sig : List (List α)} {d : List Int} (h : d.length = sig.length) :
    (addModalDelay sig d >>= fun s => addModalDelay s (d.map (- ·))) = .ok sig := by
  rw [C40_add h (by simpa using h)]
  simp only [addModalDelay, List.length_zipWith, List.length_map, h, min_self, if_true, Except.ok.injEq]
  apply List.ext_getElem?
  intro m
  simp only [List.getElem?_zipWith, List.getElem?_map]
  by_cases hm : m < sig.length
  · rw [List.getElem?_eq_getElem hm, List.getElem?_eq_getElem (h ▸ hm)]
    simp [roll_zero]
  · rw [List.getElem?_eq_none (by omega)]

/-- C40: a wrong number of delays is refused. -/
theorem C40_wrong_length {α : Type} {sig : List (List α)} {d : List Int} (h : d.length ≠ sig.length) :
    addModalDelay sig d = .error .assertion := by
  simp [addModalDelay, h]

example : addModalDelay [[1, 2, 3, 4], [5, 6, 7, 8]] [1, -1] = .ok [[4, 1, 2, 3], [6, 7, 8, 5]] := rfl

end Qampy
