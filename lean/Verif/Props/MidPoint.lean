import Verif.Model.MidPoint
import Verif.Props.Waveform
import Verif.Tactics

/-!
C186: the mid position helpers.
-/

namespace Qampy

open Complex

/-- The mid of the smallest and the largest of the values. -/
def IsMid (x : List ℝ) (m : ℝ) : Prop := ∃ a ∈ x, ∃ b ∈ x, (∀ c ∈ x, a ≤ c ∧ c ≤ b) ∧ (a + b) / 2 = m

theorem IsMid.unique {x : List ℝ} {m m' : ℝ} (h : IsMid x m) (h' : IsMid x m') : m = m' := by
  obtain ⟨a, ha, b, hb, h1, rfl⟩ := h
  obtain ⟨a', ha', b', hb', h1', rfl⟩ := h'
  have e1 := (h1 a' ha').1
  have e2 := (h1' a ha).1
  have e3 := (h1 b' hb').2
  have e4 := (h1' b hb).2
  linarith

theorem IsMid.affine {x : List ℝ} {m : ℝ} (h : IsMid x m) (s t : ℝ) (hs : 0 ≤ s) : IsMid (x.map fun z => s * z + t) (s * m + t) := by
  obtain ⟨a, ha, b, hb, h1, rfl⟩ := h
  refine ⟨s * a + t, List.mem_map.2 ⟨a, ha, rfl⟩, s * b + t, List.mem_map.2 ⟨b, hb, rfl⟩, fun c hc => ?_, by ring⟩
  obtain ⟨d, hd, rfl⟩ := List.mem_map.1 hc
  have := h1 d hd
  constructor <;> nlinarith

theorem midOf_some {x : List ℝ} {m : ℝ} : midOf x = some m ↔ IsMid x m := by
  constructor
  · intro h
    unfold midOf at h
    simp only [Option.bind_eq_bind, Option.bind_eq_some_iff, Option.pure_def, Option.some.injEq] at h
    obtain ⟨a, ha, b, hb, h⟩ := h
    rw [List.max?_eq_some_iff] at ha
    rw [List.min?_eq_some_iff] at hb
    exact ⟨b, hb.1, a, ha.1, fun c hc => ⟨hb.2 c hc, ha.2 c hc⟩, by rw [← h]; ring⟩
  · rintro ⟨a, ha, b, hb, h1, rfl⟩
    have e1 : x.max? = some b := List.max?_eq_some_iff.2 ⟨hb, fun c hc => (h1 c hc).2⟩
    have e2 : x.min? = some a := List.min?_eq_some_iff.2 ⟨ha, fun c hc => (h1 c hc).1⟩
    unfold midOf
    rw [e1, e2]
    simp only [Option.bind_eq_bind, Option.bind_some, Option.pure_def, Option.some.injEq]
    ring

theorem isMid_exists {x : List ℝ} (h : x ≠ []) : ∃ m, IsMid x m := by
  obtain ⟨a, ha⟩ := Option.isSome_iff_exists.1 (List.isSome_max?_of_ne_nil h)
  obtain ⟨b, hb⟩ := Option.isSome_iff_exists.1 (List.isSome_min?_of_ne_nil h)
  exact ⟨(a + b) / 2, midOf_some.1 (by unfold midOf; rw [ha, hb]; rfl)⟩

/-- C186: any signal with at least one sample can be moved, all samples by the same complex number, and the mid position of both quadratures is the wanted one. -/
theorem C186_mid (E : List (List ℂ)) (mid : ℂ) (h : E.flatten ≠ []) :
    ∃ s t, setMidPoint E mid = some s ∧ s = E.map (fun r => r.map fun z => z + t) ∧ IsMid (s.flatten.map (·.re)) mid.re ∧ IsMid (s.flatten.map (·.im)) mid.im := by
  obtain ⟨a, ha⟩ := isMid_exists (x := E.flatten.map (·.re)) (by simpa using h)
  obtain ⟨b, hb⟩ := isMid_exists (x := E.flatten.map (·.im)) (by simpa using h)
  refine ⟨E.map (fun r => r.map fun z => z + (mid - (a + I * b))), mid - (a + I * b), ?_, rfl, ?_, ?_⟩
  · unfold setMidPoint
    rw [midOf_some.2 ha, midOf_some.2 hb]
    simp only [Option.bind_eq_bind, Option.bind_some, Option.pure_def, Option.some.injEq]
    refine List.map_congr_left fun r _ => List.map_congr_left fun z _ => by ring
  · have := ha.affine 1 (mid.re - a) zero_le_one
    rw [← List.map_flatten]
    simpa [List.map_map, Function.comp_def] using this
  · have := hb.affine 1 (mid.im - b) zero_le_one
    rw [← List.map_flatten]
    simpa [List.map_map, Function.comp_def] using this

/-- C186: a constant offset of the signal has no influence. -/
theorem C186_offset (E : List (List ℂ)) (mid c : ℂ) : setMidPoint (E.map fun r => r.map fun z => z + c) mid = setMidPoint E mid := by
  by_cases h : E.flatten = []
  · have h' : (E.map fun r => r.map fun z => z + c).flatten = [] := by rw [← List.map_flatten, h]; rfl
    unfold setMidPoint
    rw [h, h']
    rfl
  · obtain ⟨a, ha⟩ := isMid_exists (x := E.flatten.map (·.re)) (by simpa using h)
    obtain ⟨b, hb⟩ := isMid_exists (x := E.flatten.map (·.im)) (by simpa using h)
    have ha' := ha.affine 1 c.re zero_le_one
    have hb' := hb.affine 1 c.im zero_le_one
    rw [List.map_map] at ha' hb'
    have e1 : (E.map fun r => r.map fun z => z + c).flatten.map (·.re) = E.flatten.map ((fun z => 1 * z + c.re) ∘ fun x => x.re) := by
      rw [← List.map_flatten, List.map_map]
      exact List.map_congr_left fun z _ => by simp
    have e2 : (E.map fun r => r.map fun z => z + c).flatten.map (·.im) = E.flatten.map ((fun z => 1 * z + c.im) ∘ fun x => x.im) := by
      rw [← List.map_flatten, List.map_map]
      exact List.map_congr_left fun z _ => by simp
    unfold setMidPoint
    rw [midOf_some.2 ha, midOf_some.2 hb, e1, e2, midOf_some.2 ha', midOf_some.2 hb']
    simp only [Option.bind_eq_bind, Option.bind_some, Option.pure_def, Option.some.injEq, List.map_map]
    refine List.map_congr_left fun r _ => ?_
    simp only [Function.comp, List.map_map]
    refine List.map_congr_left fun z _ => ?_
    have hc : c = (c.re : ℂ) + I * c.im := by rw [mul_comm]; exact (re_add_im c).symm
    simp only [Function.comp]
    push_cast
    conv_lhs => rw [hc]
    simp
    ring

/-- C186, real signals: the mid position is the wanted one. -/
theorem C186_real (E : List ℝ) (mid : ℝ) (h : E ≠ []) : ∃ s, setMidPointReal E mid = some s ∧ IsMid s mid ∧ ∃ t, s = E.map (· + t) := by
  obtain ⟨a, ha⟩ := isMid_exists h
  refine ⟨E.map fun z => z - a + mid, ?_, ?_, mid - a, List.map_congr_left fun z _ => by ring⟩
  · unfold setMidPointReal
    rw [midOf_some.2 ha]
    rfl
  · have := ha.affine 1 (mid - a) zero_le_one
    have e : (E.map fun z => z - a + mid) = E.map fun z => 1 * z + (mid - a) := List.map_congr_left fun z _ => by ring
    rw [e]
    simpa using this

/-- C186, one mode moved to zero and scaled: all values of both quadratures are within `±swing`, and one of the quadratures reaches `swing` and `-swing`. -/
theorem C186_swing (x : List ℂ) (swing : ℝ) (hs : 0 < swing) (hx : ∃ a ∈ x, ∃ b ∈ x, a ≠ b) :
    ∃ y, setMidAndRescale [x] 0 swing = some [y] ∧ (∀ z ∈ y, |z.re| ≤ swing ∧ |z.im| ≤ swing)
      ∧ (((∃ z ∈ y, z.re = swing) ∧ ∃ z ∈ y, z.re = -swing) ∨ ((∃ z ∈ y, z.im = swing) ∧ ∃ z ∈ y, z.im = -swing))
      ∧ ∃ (c : ℝ) (t : ℂ), 0 < c ∧ y = x.map fun z => c * (z + t) := by
  have hne : x ≠ [] := by obtain ⟨a, ha, _⟩ := hx; exact List.ne_nil_of_mem ha
  obtain ⟨s, t, h1, rfl, h3, h4⟩ := C186_mid [x] 0 (by simpa using hne)
  simp only [List.map_cons, List.map_nil, List.flatten_cons, List.flatten_nil, List.append_nil, zero_re, zero_im] at h1 h3 h4
  obtain ⟨w, hw⟩ : ∃ w, w = x.map fun z => z + t := ⟨_, rfl⟩
  rw [← hw] at h1 h3 h4
  obtain ⟨a, ha, b, hb, hab, e1⟩ := h3
  obtain ⟨a', ha', b', hb', hab', e2⟩ := h4
  obtain ⟨za, hza, rfl⟩ := List.mem_map.1 ha
  obtain ⟨zb, hzb, rfl⟩ := List.mem_map.1 hb
  obtain ⟨za', hza', rfl⟩ := List.mem_map.1 ha'
  obtain ⟨zb', hzb', rfl⟩ := List.mem_map.1 hb'
  have hr : ∀ z ∈ w, |z.re| ≤ zb.re := fun z hz => by
    have := hab _ (List.mem_map.2 ⟨z, hz, rfl⟩)
    rw [abs_le]
    constructor <;> linarith
  have hi : ∀ z ∈ w, |z.im| ≤ zb'.im := fun z hz => by
    have := hab' _ (List.mem_map.2 ⟨z, hz, rfl⟩)
    rw [abs_le]
    constructor <;> linarith
  have hr0 : 0 ≤ zb.re := (abs_nonneg _).trans (hr _ hzb)
  have hi0 : 0 ≤ zb'.im := (abs_nonneg _).trans (hi _ hzb')
  obtain ⟨M, hM⟩ : ∃ M, M = max zb.re zb'.im := ⟨_, rfl⟩
  have hMabs : absMax w = some M := by
    unfold absMax
    rw [List.max?_eq_some_iff]
    constructor
    · rcases le_total zb.re zb'.im with h | h
      · refine List.mem_map.2 ⟨zb', hzb', ?_⟩
        rw [hM, max_eq_right h, abs_of_nonneg hi0, max_eq_right ((hr _ hzb').trans h)]
      · refine List.mem_map.2 ⟨zb, hzb, ?_⟩
        rw [hM, max_eq_left h, abs_of_nonneg hr0, max_eq_left ((hi _ hzb).trans h)]
    · intro b hb
      obtain ⟨z, hz, rfl⟩ := List.mem_map.1 hb
      rw [hM]
      exact max_le_max (hr z hz) (hi z hz)
  have hM0 : 0 < M := by
    rcases lt_or_ge 0 M with h | h
    · exact h
    exfalso
    have h5 : zb.re ≤ 0 := (le_max_left _ _).trans (hM ▸ h)
    have h6 : zb'.im ≤ 0 := (le_max_right _ _).trans (hM ▸ h)
    have hz : ∀ z ∈ w, z = 0 := fun z hz => by
      apply Complex.ext
      · exact abs_eq_zero.1 (le_antisymm ((hr z hz).trans h5) (abs_nonneg _))
      · exact abs_eq_zero.1 (le_antisymm ((hi z hz).trans h6) (abs_nonneg _))
    obtain ⟨p, hp, q, hq, hpq⟩ := hx
    apply hpq
    have e3 := hz (p + t) (by rw [hw]; exact List.mem_map.2 ⟨p, hp, rfl⟩)
    have e4 := hz (q + t) (by rw [hw]; exact List.mem_map.2 ⟨q, hq, rfl⟩)
    exact add_right_cancel (e3.trans e4.symm)
  have hre : ∀ z : ℂ, (z / (M : ℂ) * (swing : ℂ)) = ((swing / M : ℝ) : ℂ) * z := fun z => by push_cast; ring
  refine ⟨w.map fun z => ((swing / M : ℝ) : ℂ) * z, ?_, ?_, ?_, swing / M, t, by positivity, ?_⟩
  · unfold setMidAndRescale
    rw [h1]
    simp only [Option.bind_eq_bind, Option.bind_some, List.mapM_cons, List.mapM_nil, rescaleRow, hMabs, if_neg hM0.ne', Option.pure_def, hre]
  · intro z hz
    obtain ⟨v, hv, rfl⟩ := List.mem_map.1 hz
    rw [re_ofReal_mul, im_ofReal_mul, abs_mul, abs_mul, abs_of_pos (by positivity : 0 < swing / M)]
    have l1 : |v.re| ≤ M := (hr v hv).trans (hM ▸ le_max_left _ _)
    have l2 : |v.im| ≤ M := (hi v hv).trans (hM ▸ le_max_right _ _)
    constructor
    · calc swing / M * |v.re| ≤ swing / M * M := mul_le_mul_of_nonneg_left l1 (by positivity)
        _ = swing := by field_simp
    · calc swing / M * |v.im| ≤ swing / M * M := mul_le_mul_of_nonneg_left l2 (by positivity)
        _ = swing := by field_simp
  · rcases le_total zb.re zb'.im with h | h
    · right
      have hm : zb'.im = M := by rw [hM, max_eq_right h]
      have hm' : za'.im = -M := by linarith
      refine ⟨⟨_, List.mem_map.2 ⟨zb', hzb', rfl⟩, ?_⟩, ⟨_, List.mem_map.2 ⟨za', hza', rfl⟩, ?_⟩⟩
      · rw [im_ofReal_mul, hm]; field_simp
      · rw [im_ofReal_mul, hm']; field_simp
    · left
      have hm : zb.re = M := by rw [hM, max_eq_left h]
      have hm' : za.re = -M := by linarith
      refine ⟨⟨_, List.mem_map.2 ⟨zb, hzb, rfl⟩, ?_⟩, ⟨_, List.mem_map.2 ⟨za, hza, rfl⟩, ?_⟩⟩
      · rw [re_ofReal_mul, hm]; field_simp
      · rw [re_ofReal_mul, hm']; field_simp
  · rw [hw, List.map_map]
    rfl

/-- The documented claim of `set_mid_and_resale`: the mid position is the given value. -/
def C186_statement : Prop :=
  ∀ (x : List ℂ) (mid : ℂ) (swing : ℝ) (y : List ℂ), 0 < swing → setMidAndRescale [x] mid swing = some [y] → IsMid (y.map (·.re)) mid.re

/-- C186 fails: the scaling moves the mid position. -/
theorem C186_false : ¬ C186_statement := by
  intro h
  have hm : IsMid ([0, 2] : List ℝ) 1 := ⟨0, by simp, 2, by simp, by simp, by norm_num⟩
  have hm0 : IsMid ([0, 0] : List ℝ) 0 := ⟨0, by simp, 0, by simp, by simp, by norm_num⟩
  have hs : setMidAndRescale [[0, 2]] 1 1 = some [[0, 1]] := by
    unfold setMidAndRescale setMidPoint
    simp only [List.flatten_cons, List.flatten_nil, List.append_nil, List.map_cons, List.map_nil, zero_re, zero_im, re_ofNat, im_ofNat]
    rw [midOf_some.2 hm, midOf_some.2 hm0]
    have : absMax [0 - 1 + 1, 2 - 1 + 1] = some 2 := by
      unfold absMax
      norm_num [List.max?_cons]
    simp [rescaleRow]
    norm_num [absMax, List.max?_cons]
  have := h _ _ _ _ one_pos hs
  have h2 : IsMid (([0, 1] : List ℂ).map (·.re)) (1 / 2) := ⟨0, by simp, 1, by simp, by simp, by norm_num⟩
  have := this.unique h2
  norm_num at this

/-- C186: the shift of `get_center_shift_fac` makes the mean zero. -/
theorem C186_center (x : List ℂ) : (x.map fun z => z + centerShift x).sum = 0 := by
  have := sum_centred x
  unfold centerShift
  simpa [sub_eq_add_neg] using this

example : ∃ y, setMidAndRescale [[0, 2, 1 + I]] 0 3 = some [y] ∧ (∀ z ∈ y, |z.re| ≤ 3 ∧ |z.im| ≤ 3) := by
  obtain ⟨y, h1, h2, _⟩ := C186_swing [0, 2, 1 + I] 3 (by norm_num) ⟨0, by simp, 2, by simp, by norm_num⟩
  exact ⟨y, h1, h2⟩

example : ∃ s t, setMidPoint [[0, 2], [1, I]] (3 + I) = some s ∧ s = [[0 + t, 2 + t], [1 + t, I + t]] := by
  obtain ⟨s, t, h1, h2, _⟩ := C186_mid [[0, 2], [1, I]] (3 + I) (by simp)
  exact ⟨s, t, h1, by simpa using h2⟩

end Qampy
