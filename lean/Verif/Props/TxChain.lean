import Verif.Model.TxChain
import Verif.Props.Waveform2

/-!
The converter (C140) and the transmitter with pre-distortion (C141).
-/

namespace Qampy

open Complex MeasureTheory

/-- `M` is the largest quadrature of the row. -/
def PeakIs (M : ℝ) (x : List ℂ) : Prop := (∃ z ∈ x, max |z.re| |z.im| = M) ∧ ∀ z ∈ x, |z.re| ≤ M ∧ |z.im| ≤ M

/-- A quadrature limited to `[-1, 1]`. -/
noncomputable def limit1 (x : ℝ) : ℝ := max (-1) (min x 1)

theorem peak_exists (x : List ℂ) (h : x ≠ []) : ∃ M : ℝ, 0 ≤ M ∧ PeakIs M x := by
  rcases hm : absMax x with _ | M
  · rw [absMax, List.max?_eq_none_iff, List.map_eq_nil_iff] at hm
    exact absurd hm h
  · rw [absMax, List.max?_eq_some_iff] at hm
    obtain ⟨h1, h2⟩ := hm
    obtain ⟨z, hz, rfl⟩ := List.mem_map.1 h1
    refine ⟨_, le_max_of_le_left (abs_nonneg _), ⟨z, hz, rfl⟩, fun w hw => ?_⟩
    have := h2 _ (List.mem_map.2 ⟨w, hw, rfl⟩)
    exact ⟨(le_max_left _ _).trans this, (le_max_right _ _).trans this⟩

theorem peak_pos {x : List ℂ} {M : ℝ} (hM : PeakIs M x) (h : ∃ z ∈ x, z ≠ 0) : 0 < M := by
  obtain ⟨z, hz, h0⟩ := h
  obtain ⟨h1, h2⟩ := hM.2 z hz
  by_contra hc
  push Not at hc
  apply h0
  apply Complex.ext
  · exact abs_eq_zero.1 (le_antisymm (h1.trans hc) (abs_nonneg _))
  · exact abs_eq_zero.1 (le_antisymm (h2.trans hc) (abs_nonneg _))

/-- The clipped sample: both quadratures divided by `c` times the peak of the mode and limited. -/
noncomputable def clipped (c M : ℝ) (z : ℂ) : ℂ := ⟨limit1 (z.re / (c * M)), limit1 (z.im / (c * M))⟩

theorem clip_row (c M : ℝ) (hc : 0 < c) (hM : 0 < M) (x : List ℂ) (h : PeakIs M x) :
    (rescaleRow (1 / c) x).map (fun r => r.map (clipper 1)) = some (x.map (clipped c M)) := by
  rw [rescaleRow, absMax_eq h.1 h.2]
  simp only [Option.bind_eq_bind, Option.bind_some]
  rw [if_neg hM.ne']
  simp only [Option.map_some, List.map_map]
  congr 1
  refine List.map_congr_left fun z _ => ?_
  simp only [Function.comp, clipper, clip_real 1 _ zero_le_one, clipped, limit1]
  have e1 : (z / (M : ℂ) * ((1 / c : ℝ) : ℂ)).re = z.re / (c * M) := by
    rw [Complex.re_mul_ofReal, Complex.div_ofReal_re]; field_simp
  have e2 : (z / (M : ℂ) * ((1 / c : ℝ) : ℂ)).im = z.im / (c * M) := by
    rw [Complex.im_mul_ofReal, Complex.div_ofReal_im]; field_simp
  rw [e1, e2]

theorem abs_limit1 (x : ℝ) : |limit1 x| ≤ 1 := by
  rw [abs_le, limit1]
  exact ⟨le_max_left _ _, max_le (by norm_num) (min_le_right _ _)⟩

/-- A row clipped with a ratio below one has its peak at one. -/
theorem peak_clipped (c M : ℝ) (hc : 0 < c) (hc1 : c < 1) (hM : 0 < M) (x : List ℂ) (h : PeakIs M x) : PeakIs 1 (x.map (clipped c M)) := by
  have hb : ∀ w ∈ x.map (clipped c M), |w.re| ≤ 1 ∧ |w.im| ≤ 1 := by
    intro w hw
    obtain ⟨z, -, rfl⟩ := List.mem_map.1 hw
    exact ⟨abs_limit1 _, abs_limit1 _⟩
  refine ⟨?_, hb⟩
  obtain ⟨z, hz, hzM⟩ := h.1
  refine ⟨_, List.mem_map.2 ⟨z, hz, rfl⟩, le_antisymm (max_le (abs_limit1 _) (abs_limit1 _)) ?_⟩
  have key : ∀ t : ℝ, |t| = M → 1 ≤ |limit1 (t / (c * M))| := by
    intro t ht
    have hcM : 0 < c * M := by positivity
    have hlt : c * M ≤ M := by nlinarith
    rcases abs_choice t with h2 | h2
    · have : 1 ≤ t / (c * M) := by rw [le_div_iff₀ hcM]; linarith
      rw [limit1, min_eq_right this]; norm_num
    · have : t / (c * M) ≤ -1 := by rw [div_le_iff₀ hcM]; linarith
      rw [limit1, min_eq_left (by linarith), max_eq_left this]; norm_num
  rcases max_choice |z.re| |z.im| with h2 | h2
  · exact le_max_of_le_left (key _ (h2 ▸ hzM))
  · exact le_max_of_le_right (key _ (h2 ▸ hzM))

/-- The peaks of all modes. -/
def PeaksAre (M : List ℝ) (sig : List (List ℂ)) : Prop := List.Forall₂ PeakIs M sig

/-- The clipped signal, each mode with its own peak. -/
noncomputable def clippedSig (c : ℝ) (M : List ℝ) (sig : List (List ℂ)) : List (List ℂ) := List.zipWith (fun m r => r.map (clipped c m)) M sig

theorem dacClip_eq (sig : List (List ℂ)) (c : ℝ) (hc : 0 < c) (hn : ¬ isclose c 1) (M : List ℝ) (hM : PeaksAre M sig) (hpos : ∀ m ∈ M, 0 < m) :
    dacClip sig c = some (clippedSig c M sig) := by
  rw [dacClip, if_neg hn]
  have hrow : ∀ m r, PeakIs m r → 0 < m → ∃ y, rescaleRow (1 / c) r = some y ∧ y.map (clipper 1) = r.map (clipped c m) := by
    intro m r hr hm
    have := clip_row c m hc hm r hr
    rwa [Option.map_eq_some_iff] at this
  have : ∃ s, sig.mapM (rescaleRow (1 / c)) = some s ∧ (s.map fun r => r.map (clipper 1)) = clippedSig c M sig := by
    unfold PeaksAre at hM
    induction hM with
    | nil => exact ⟨[], rfl, rfl⟩
    | @cons m r ms rs h1 h2 ih =>
      obtain ⟨s, hs, he⟩ := ih fun x hx => hpos x (List.mem_cons_of_mem _ hx)
      obtain ⟨y, hy, hye⟩ := hrow m r h1 (hpos m (by simp))
      refine ⟨y :: s, ?_, ?_⟩
      · rw [List.mapM_cons, hy, hs]; rfl
      · rw [List.map_cons, he, hye]; rfl
  obtain ⟨s, hs, he⟩ := this
  rw [hs, Option.map_some, he]

theorem peaks_clippedSig (sig : List (List ℂ)) (c : ℝ) (hc : 0 < c) (hc1 : c < 1) (M : List ℝ) (hM : PeaksAre M sig) (hpos : ∀ m ∈ M, 0 < m) :
    ∀ r ∈ clippedSig c M sig, PeakIs 1 r := by
  unfold PeaksAre at hM
  induction hM with
  | nil => intro r hr; simp [clippedSig] at hr
  | @cons m r ms rs h1 h2 ih =>
    intro x hx
    rw [clippedSig, List.zipWith_cons_cons, List.mem_cons] at hx
    rcases hx with rfl | hx
    · exact peak_clipped c m hc hc1 (hpos m (by simp)) r h1
    · exact ih (fun x hx => hpos x (List.mem_cons_of_mem _ hx)) x hx

/-- The error allowed by a quantiser of `n` bits for full swing one; no quantiser for `n = 0`. -/
noncomputable def quantBound (n : Nat) : ℝ := if n = 0 then 0 else 1 / 2 ^ n

/-- Clipping and quantising together. -/
theorem clip_quant (sig : List (List ℂ)) (hne : sig ≠ []) (c : ℝ) (hc : 0 < c) (hc1 : c < 1) (n : Nat) (M : List ℝ) (hM : PeaksAre M sig)
    (hpos : ∀ m ∈ M, 0 < m) :
    ∃ out, dacQuant (clippedSig c M sig) n = some out
      ∧ List.Forall₂ (List.Forall₂ fun z w => |w.re - z.re| ≤ quantBound n ∧ |w.im - z.im| ≤ quantBound n) (clippedSig c M sig) out
      ∧ ∀ r ∈ out, ∀ w ∈ r, |w.re| ≤ 1 ∧ |w.im| ≤ 1 := by
  have hpk := peaks_clippedSig sig c hc hc1 M hM hpos
  by_cases hn : n = 0
  · refine ⟨_, if_pos hn, ?_, fun r hr => (hpk r hr).2⟩
    have : quantBound n = 0 := if_pos hn
    rw [this]
    exact List.forall₂_same.2 fun r _ => List.forall₂_same.2 fun z _ => by simp
  · have hne' : clippedSig c M sig ≠ [] := by
      cases hM with
      | nil => exact absurd rfl hne
      | cons _ _ => simp [clippedSig]
    obtain ⟨out, h1, h2⟩ := C41_new_partial (clippedSig c M sig) n 1 one_pos hne' (fun r hr => (hpk r hr).1) fun r hr => (hpk r hr).2
    have hq : quantBound n = 1 / 2 ^ n := if_neg hn
    refine ⟨out, by rw [dacQuant, if_neg hn, h1], ?_, ?_⟩
    · rw [hq]
      exact h2.imp fun _ _ h => h.imp fun _ _ h => ⟨h.1, h.2.1⟩
    · have hlev : ∀ k : Nat, k < 2 ^ n → ∀ v : ℝ, v = 1 * (-1 + (2 * k + 1) / 2 ^ n) → |v| ≤ 1 := by
        intro k hk v hv
        have hp : (0 : ℝ) < 2 ^ n := by positivity
        have hk' : (k : ℝ) + 1 ≤ 2 ^ n := by exact_mod_cast hk
        have h3 : (0 : ℝ) ≤ (2 * k + 1) / 2 ^ n := by positivity
        have h4 : (2 * (k : ℝ) + 1) / 2 ^ n ≤ 2 := by rw [div_le_iff₀ hp]; linarith
        rw [hv, abs_le]
        constructor <;> linarith
      intro r hr w hw
      obtain ⟨i, hi, rfl⟩ := List.getElem_of_mem hr
      obtain ⟨j, hj, rfl⟩ := List.getElem_of_mem hw
      have h3 := (List.forall₂_iff_get.1 h2).2 i (by rw [(List.forall₂_iff_get.1 h2).1]; exact hi) hi
      have h4 := (List.forall₂_iff_get.1 h3).2 j (by rw [(List.forall₂_iff_get.1 h3).1]; exact hj) hj
      obtain ⟨-, -, ⟨k, hk, hk2⟩, k', hk', hk2'⟩ := h4
      exact ⟨hlev k hk _ hk2, hlev k' hk' _ hk2'⟩

theorem forall₂_zipWith_left {α β γ δ : Type} {R : δ → γ → Prop} (f : α → β → δ) :
    ∀ (a : List α) (b : List β) (c : List γ), a.length = b.length → List.Forall₂ R (List.zipWith f a b) c →
      c.length = b.length ∧ ∀ (i : Nat) (x : α) (y : β), a[i]? = some x → b[i]? = some y → ∃ z, c[i]? = some z ∧ R (f x y) z := by
  intro a b c hl h
  obtain ⟨h1, h2⟩ := List.forall₂_iff_get.1 h
  rw [List.length_zipWith] at h1
  refine ⟨by omega, fun i x y hx hy => ?_⟩
  obtain ⟨hi, rfl⟩ := List.getElem?_eq_some_iff.1 hx
  obtain ⟨hj, rfl⟩ := List.getElem?_eq_some_iff.1 hy
  have h3 := h2 i (by rw [List.length_zipWith]; omega) (by omega)
  refine ⟨c[i], List.getElem?_eq_getElem _, ?_⟩
  simpa using h3

theorem clippedSig_spec (sig : List (List ℂ)) (c : ℝ) (M : List ℝ) (hM : PeaksAre M sig) (out : List (List ℂ)) (q : ℝ)
    (h : List.Forall₂ (List.Forall₂ fun z w => |w.re - z.re| ≤ q ∧ |w.im - z.im| ≤ q) (clippedSig c M sig) out) :
    out.length = sig.length ∧ ∀ (i : Nat) (m : ℝ) (r : List ℂ), M[i]? = some m → sig[i]? = some r → ∃ s : List ℂ, out[i]? = some s ∧ s.length = r.length
      ∧ ∀ (k : Nat) (z : ℂ), r[k]? = some z → ∃ w : ℂ, s[k]? = some w ∧ |w.re - limit1 (z.re / (c * m))| ≤ q ∧ |w.im - limit1 (z.im / (c * m))| ≤ q := by
  obtain ⟨h1, h2⟩ := forall₂_zipWith_left _ _ _ _ hM.length_eq h
  refine ⟨h1, fun i m r hm hr => ?_⟩
  obtain ⟨s, hs, h3⟩ := h2 i m r hm hr
  obtain ⟨h4, h5⟩ := List.forall₂_iff_get.1 h3
  rw [List.length_map] at h4
  refine ⟨s, hs, h4.symm, fun k z hz => ?_⟩
  obtain ⟨hk, rfl⟩ := List.getElem?_eq_some_iff.1 hz
  have := h5 k (by rw [List.length_map]; exact hk) (by omega)
  refine ⟨s[k], List.getElem?_eq_getElem _, ?_⟩
  simpa [clipped] using this

theorem peaks_exist (sig : List (List ℂ)) (h0 : ∀ r ∈ sig, ∃ z ∈ r, z ≠ 0) : ∃ M : List ℝ, PeaksAre M sig ∧ ∀ m ∈ M, 0 < m := by
  induction sig with
  | nil => exact ⟨[], List.Forall₂.nil, by simp⟩
  | cons r rs ih =>
    obtain ⟨M, h1, h2⟩ := ih fun r hr => h0 r (List.mem_cons_of_mem _ hr)
    have h3 := h0 r (by simp)
    obtain ⟨m, -, hm⟩ := peak_exists r (by rintro rfl; simp at h3)
    refine ⟨m :: M, List.Forall₂.cons hm h1, ?_⟩
    intro x hx
    rcases List.mem_cons.1 hx with rfl | hx
    · exact peak_pos hm h3
    · exact h2 x hx

theorem isclose_zero : isclose 0 0 := by simp [isclose]; norm_num

theorem peaks_getElem {M : List ℝ} {sig : List (List ℂ)} (hM : PeaksAre M sig) (hpos : ∀ m ∈ M, 0 < m) {i : Nat} {r : List ℂ} (hr : sig[i]? = some r) :
    ∃ m : ℝ, M[i]? = some m ∧ 0 < m ∧ PeakIs m r := by
  obtain ⟨h1, h2⟩ := List.forall₂_iff_get.1 hM
  obtain ⟨hi, rfl⟩ := List.getElem?_eq_some_iff.1 hr
  have h3 : i < M.length := by omega
  exact ⟨M[i], List.getElem?_eq_getElem _, hpos _ (List.getElem_mem _), h2 i h3 hi⟩

/-- C140 without converter noise and filter: with a clipping ratio `c` below one every mode is divided by `c` times its own peak and limited to `±1` in both
quadratures, and a quantiser with `n` bits moves no quadrature by more than half of its step `2/2^n`. For every signal without zero modes. Missing: one
scale for all modes, see `C140_false`. -/
theorem C140_quant_partial (bessel : ℝ → ℝ → List ℂ → List ℂ) (sig : List (List ℂ)) (hne : sig ≠ []) (h0 : ∀ r ∈ sig, ∃ z ∈ r, z ≠ 0) (fs c : ℝ)
    (hc : 0 < c) (hc1 : c < 1) (hcl : ¬ isclose c 1) (n : Nat) (n1 n2 : List (List ℝ)) :
    ∃ out : List (List ℂ), simDac bessel sig fs 0 c n none n1 n2 = .ok (some out) ∧ out.length = sig.length
      ∧ ∀ (i : Nat) (r : List ℂ), sig[i]? = some r → ∃ (s : List ℂ) (M : ℝ), out[i]? = some s ∧ 0 < M ∧ PeakIs M r ∧ s.length = r.length
        ∧ ∀ (k : Nat) (z : ℂ), r[k]? = some z → ∃ w : ℂ, s[k]? = some w
          ∧ |w.re - limit1 (z.re / (c * M))| ≤ quantBound n ∧ |w.im - limit1 (z.im / (c * M))| ≤ quantBound n := by
  obtain ⟨M, hM, hpos⟩ := peaks_exist sig h0
  obtain ⟨out, h1, h2, -⟩ := clip_quant sig hne c hc hc1 n M hM hpos
  obtain ⟨h3, h4⟩ := clippedSig_spec sig c M hM out _ h2
  refine ⟨out, ?_, h3, fun i r hr => ?_⟩
  · have : dacCore sig 0 c n n1 n2 = some out := by
      rw [dacCore, dacClip_eq sig c hc hcl M hM hpos, Option.bind_some, h1, Option.bind_some, dacNoise, if_pos isclose_zero]
    unfold simDac
    rw [this]
  · obtain ⟨m, hm, hm0, hmr⟩ := peaks_getElem hM hpos hr
    obtain ⟨s, hs, h5, h6⟩ := h4 i m r hm hr
    exact ⟨s, m, hs, hm0, hmr, h5, h6⟩

theorem not_isclose_half : ¬ isclose (1 / 2) 1 := by
  rw [isclose, not_le]; norm_num [abs_of_neg, abs_of_pos]

example (bessel : ℝ → ℝ → List ℂ → List ℂ) : ∃ out : List (List ℂ), simDac bessel [[4, 1], [I, 2]] 1 0 (1 / 2) 3 none [] [] = .ok (some out) :=
  (C140_quant_partial bessel [[4, 1], [I, 2]] (by simp) (by simp) 1 (1 / 2) (by norm_num) (by norm_num) not_isclose_half 3 [] []).imp fun _ h => h.1

/-- C140 in full: as above with one scale for all modes, so that the converter keeps the ratios of the modes. -/
def C140_statement : Prop :=
  ∀ (bessel : ℝ → ℝ → List ℂ → List ℂ) (sig : List (List ℂ)), sig ≠ [] → (∀ r ∈ sig, ∃ z ∈ r, z ≠ 0) → ∀ (fs c : ℝ), 0 < c → c < 1 → ¬ isclose c 1 →
    ∀ (n : Nat) (n1 n2 : List (List ℝ)), ∃ (out : List (List ℂ)) (g : ℝ), simDac bessel sig fs 0 c n none n1 n2 = .ok (some out) ∧ 0 < g
      ∧ ∀ (i : Nat) (r : List ℂ), sig[i]? = some r → ∃ s : List ℂ, out[i]? = some s ∧ ∀ (k : Nat) (z : ℂ), r[k]? = some z → ∃ w : ℂ, s[k]? = some w
          ∧ |w.re - limit1 (g * z.re)| ≤ quantBound n ∧ |w.im - limit1 (g * z.im)| ≤ quantBound n

/-- C140: clipping changes the ratio of the modes, two modes of which one is four times as large leave the converter with the same amplitude. -/
theorem C140_modes (bessel : ℝ → ℝ → List ℂ → List ℂ) (n1 n2 : List (List ℝ)) :
    simDac bessel [[4, 1], [1, 1 / 4]] 1 0 (1 / 2) 0 none n1 n2 = .ok (some [[1, 1 / 2], [1, 1 / 2]]) := by
  have hM : PeaksAre [4, 1] [[4, 1], [1, 1 / 4]] := by
    refine List.Forall₂.cons ⟨⟨4, by simp, by norm_num⟩, ?_⟩ (List.Forall₂.cons ⟨⟨1, by simp, by norm_num⟩, ?_⟩ List.Forall₂.nil)
    · intro z hz
      simp only [List.mem_cons, List.not_mem_nil, or_false] at hz
      rcases hz with rfl | rfl <;> norm_num
    · intro z hz
      simp only [List.mem_cons, List.not_mem_nil, or_false] at hz
      rcases hz with rfl | rfl <;> norm_num [abs_of_pos]
  have h : dacCore [[4, 1], [1, 1 / 4]] 0 (1 / 2) 0 n1 n2 = some [[1, 1 / 2], [1, 1 / 2]] := by
    rw [dacCore, dacClip_eq _ (1 / 2) (by norm_num) not_isclose_half _ hM (by simp), Option.bind_some, dacQuant, if_pos rfl, Option.bind_some, dacNoise,
      if_pos isclose_zero]
    have hz : limit1 0 = 0 := by norm_num [limit1]
    have h1 : limit1 2 = 1 := by norm_num [limit1]
    have h2 : limit1 (2⁻¹) = 2⁻¹ := by norm_num [limit1]
    have e : ∀ x y v : ℝ, limit1 (y / (1 / 2 * x)) = v → clipped (1 / 2) x (y : ℂ) = (v : ℂ) := by
      intro x y v hv
      apply Complex.ext
      · simpa [clipped] using hv
      · simp [clipped, hz]
    have a1 : clipped (1 / 2) 4 4 = 1 := by
      have := e 4 4 1 (by norm_num [h1]); exact_mod_cast this
    have a2 : clipped (1 / 2) 4 1 = 1 / 2 := by
      have := e 4 1 (1 / 2) (by norm_num [limit1]); push_cast at this; exact this
    have a3 : clipped (1 / 2) 1 1 = 1 := by
      have := e 1 1 1 (by norm_num [h1]); exact_mod_cast this
    have a4 : clipped (1 / 2) 1 (1 / 4) = 1 / 2 := by
      have := e 1 (1 / 4) (1 / 2) (by norm_num [limit1]); push_cast at this; exact this
    simp only [clippedSig, List.zipWith_cons_cons, List.map_cons, List.map_nil, a1, a2, a3, a4, List.zipWith_nil_left]
  unfold simDac
  rw [h]

theorem C140_false : ¬ C140_statement := by
  intro h
  obtain ⟨out, g, h1, hg, h2⟩ := h (fun _ _ r => r) [[4, 1], [1, 1 / 4]] (by simp) (by simp) 1 (1 / 2) (by norm_num) (by norm_num) not_isclose_half 0 [] []
  rw [C140_modes] at h1
  simp only [Except.ok.injEq, Option.some.injEq] at h1
  subst h1
  have hq : quantBound 0 = 0 := rfl
  obtain ⟨s, hs, h3⟩ := h2 0 [4, 1] rfl
  obtain ⟨s', hs', h3'⟩ := h2 1 [1, 1 / 4] rfl
  simp only [List.getElem?_cons_zero, List.getElem?_cons_succ, Option.some.injEq] at hs hs'
  subst hs; subst hs'
  obtain ⟨w, hw, h4, -⟩ := h3 1 1 rfl
  obtain ⟨w', hw', h4', -⟩ := h3' 1 (1 / 4) rfl
  simp only [List.getElem?_cons_zero, List.getElem?_cons_succ, Option.some.injEq] at hw hw'
  subst hw; subst hw'
  rw [hq] at h4 h4'
  have e1 := sub_eq_zero.1 (abs_eq_zero.1 (le_antisymm h4 (abs_nonneg _)))
  have e2 := sub_eq_zero.1 (abs_eq_zero.1 (le_antisymm h4' (abs_nonneg _)))
  have r1 : ((1 : ℂ) / 2).re = 1 / 2 := by norm_num
  have r2 : ((1 : ℂ) / 4).re = 1 / 4 := by norm_num
  have r3 : ((1 : ℂ)).re = 1 := rfl
  rw [r1, r3, limit1] at e1
  rw [r1, r2, limit1] at e2
  rcases max_choice (-1) (min (g * 1) 1) with h5 | h5 <;> rw [h5] at e1
  · norm_num at e1
  rcases max_choice (-1) (min (g * (1 / 4)) 1) with h6 | h6 <;> rw [h6] at e2
  · norm_num at e2
  rcases min_choice (g * 1) 1 with h7 | h7 <;> rw [h7] at e1
  · rcases min_choice (g * (1 / 4)) 1 with h8 | h8 <;> rw [h8] at e2
    · linarith
    · norm_num at e2
  · norm_num at e1

theorem integral_sq_shift {Ω : Type} [MeasurableSpace Ω] (μ : Measure Ω) [IsProbabilityMeasure μ] (a : Ω → ℝ) (ha : MemLp a 2 μ) (ha0 : ∫ ω, a ω ∂μ = 0)
    (ha1 : ∫ ω, a ω ^ 2 ∂μ = 1) (d t : ℝ) : Integrable (fun ω => (d + t * a ω) ^ 2) μ ∧ ∫ ω, (d + t * a ω) ^ 2 ∂μ = d ^ 2 + t ^ 2 := by
  have hi : Integrable a μ := ha.integrable (by norm_num)
  have e : (fun ω => (d + t * a ω) ^ 2) = fun ω => (d ^ 2 + 2 * d * t * a ω) + t ^ 2 * a ω ^ 2 := by
    funext ω; ring
  have i1 : Integrable (fun ω => d ^ 2 + 2 * d * t * a ω) μ := (integrable_const _).add (hi.const_mul _)
  have i2 : Integrable (fun ω => t ^ 2 * a ω ^ 2) μ := ha.integrable_sq.const_mul _
  rw [e]
  refine ⟨i1.add i2, ?_⟩
  rw [integral_add i1 i2, integral_add (integrable_const _) (hi.const_mul _), integral_const_mul, integral_const_mul, ha0, ha1]
  simp

/-- C140 with converter noise: the expected squared error of every sample, counted from the clipped sample, is at most that of the quantiser plus the noise
`(2/2^enob)²/6` of a converter with `enob` bits for full swing, whatever the signal; for draws of mean zero and variance one. -/
theorem C140_noise_partial {Ω : Type} [MeasurableSpace Ω] (μ : Measure Ω) [IsProbabilityMeasure μ] (bessel : ℝ → ℝ → List ℂ → List ℂ) (sig : List (List ℂ))
    (h0 : ∀ r ∈ sig, ∃ z ∈ r, z ≠ 0) (fs c enob : ℝ) (hc : 0 < c) (hc1 : c < 1) (hcl : ¬ isclose c 1) (hen : ¬ isclose enob 0)
    (n : Nat) (n1 n2 : Ω → List (List ℝ)) (i k : Nat) (r : List ℂ) (z : ℂ) (hr : sig[i]? = some r) (hz : r[k]? = some z) (a b : Ω → ℝ)
    (ha : ∀ ω, ((n1 ω)[i]?.bind fun x => x[k]?) = some (a ω)) (hb : ∀ ω, ((n2 ω)[i]?.bind fun x => x[k]?) = some (b ω))
    (hai : MemLp a 2 μ) (hbi : MemLp b 2 μ) (ha0 : ∫ ω, a ω ∂μ = 0) (hb0 : ∫ ω, b ω ∂μ = 0) (ha1 : ∫ ω, a ω ^ 2 ∂μ = 1) (hb1 : ∫ ω, b ω ^ 2 ∂μ = 1) :
    ∃ (out : Ω → ℂ) (M : ℝ), 0 < M ∧ PeakIs M r
      ∧ (∀ ω, ∃ (o : List (List ℂ)) (s : List ℂ), simDac bessel sig fs enob c n none (n1 ω) (n2 ω) = .ok (some o) ∧ o[i]? = some s ∧ s[k]? = some (out ω))
      ∧ ∫ ω, ‖out ω - ⟨limit1 (z.re / (c * M)), limit1 (z.im / (c * M))⟩‖ ^ 2 ∂μ ≤ 2 * quantBound n ^ 2 + (2 / (2 : ℝ) ^ enob) ^ 2 / 6 := by
  have hne : sig ≠ [] := by rintro rfl; simp at hr
  obtain ⟨M, hM, hpos⟩ := peaks_exist sig h0
  obtain ⟨q, h1, h2, hbd⟩ := clip_quant sig hne c hc hc1 n M hM hpos
  obtain ⟨h3, h4⟩ := clippedSig_spec sig c M hM q _ h2
  obtain ⟨m, hm, hm0, hmr⟩ := peaks_getElem hM hpos hr
  obtain ⟨s, hs, h5, h6⟩ := h4 i m r hm hr
  obtain ⟨w, hw, h7, h8⟩ := h6 k z hz
  have hwf : w ∈ q.flatten := List.mem_flatten.2 ⟨s, List.mem_of_getElem? hs, List.mem_of_getElem? hw⟩
  obtain ⟨P, hP0, hP⟩ := peak_exists q.flatten (List.ne_nil_of_mem hwf)
  have hP1 : P ≤ 1 := by
    obtain ⟨v, hv, rfl⟩ := hP.1
    obtain ⟨x, hx, hvx⟩ := List.mem_flatten.1 hv
    exact max_le (hbd x hx v hvx).1 (hbd x hx v hvx).2
  have h2e : (0 : ℝ) < 2 ^ (enob - 1) := Real.rpow_pos_of_pos (by norm_num) _
  obtain ⟨pn, hpn⟩ : ∃ pn : ℝ, pn = (P / (2 : ℝ) ^ (enob - 1)) ^ 2 / 12 := ⟨_, rfl⟩
  have hpn0 : 0 ≤ pn := by rw [hpn]; positivity
  obtain ⟨t, ht⟩ : ∃ t : ℝ, t = Real.sqrt (2 * pn) / Real.sqrt 2 := ⟨_, rfl⟩
  have ht2 : t ^ 2 = pn := by
    rw [ht, div_pow, Real.sq_sqrt (by positivity), Real.sq_sqrt (by norm_num)]; ring
  have hnoise : ∀ ω, ((Real.sqrt (2 * pn) : ℝ) : ℂ) * (a ω + I * b ω) / (Real.sqrt 2 : ℝ) = ⟨t * a ω, t * b ω⟩ := by
    intro ω
    apply Complex.ext
    · rw [Complex.div_ofReal_re, Complex.re_ofReal_mul, ht]; simp only [add_re, ofReal_re, mul_re, I_re, I_im, ofReal_im]; ring
    · rw [Complex.div_ofReal_im, Complex.im_ofReal_mul, ht]; simp only [add_im, ofReal_re, mul_im, I_re, I_im, ofReal_im]; ring
  obtain ⟨i1, e1⟩ := integral_sq_shift μ a hai ha0 ha1 (w.re - limit1 (z.re / (c * m))) t
  obtain ⟨i2, e2⟩ := integral_sq_shift μ b hbi hb0 hb1 (w.im - limit1 (z.im / (c * m))) t
  refine ⟨fun ω => w + ⟨t * a ω, t * b ω⟩, m, hm0, hmr, fun ω => ?_, ?_⟩
  · have hcore : dacCore sig enob c n (n1 ω) (n2 ω)
        = some (List.zipWith (fun r (x : List ℝ × List ℝ) => addAwgn r (Real.sqrt (2 * pn)) x.1 x.2) q ((n1 ω).zip (n2 ω))) := by
      rw [dacCore, dacClip_eq sig c hc hcl M hM hpos, Option.bind_some, h1, Option.bind_some, dacNoise, if_neg hen, applyEnobModes,
        absMax_eq hP.1 hP.2, hpn]
      rfl
    obtain ⟨x, hx, hxa⟩ := Option.bind_eq_some_iff.1 (ha ω)
    obtain ⟨y, hy, hyb⟩ := Option.bind_eq_some_iff.1 (hb ω)
    refine ⟨List.zipWith (fun r (x : List ℝ × List ℝ) => addAwgn r (Real.sqrt (2 * pn)) x.1 x.2) q ((n1 ω).zip (n2 ω)), addAwgn s (Real.sqrt (2 * pn)) x y,
      ?_, ?_, ?_⟩
    · unfold simDac
      rw [hcore]
    · rw [List.getElem?_zipWith, hs, List.zip, List.getElem?_zipWith, hx, hy]
    · rw [addAwgn, List.getElem?_zipWith, hw, List.getElem?_zipWith, hxa, hyb]
      simp only [hnoise]
  · have e : ∀ ω, ‖w + ⟨t * a ω, t * b ω⟩ - (⟨limit1 (z.re / (c * m)), limit1 (z.im / (c * m))⟩ : ℂ)‖ ^ 2
        = (w.re - limit1 (z.re / (c * m)) + t * a ω) ^ 2 + (w.im - limit1 (z.im / (c * m)) + t * b ω) ^ 2 := by
      intro ω
      rw [Complex.sq_norm, Complex.normSq_apply]
      simp only [sub_re, add_re, sub_im, add_im]
      ring
    simp only [e]
    rw [integral_add i1 i2, e1, e2, ht2]
    have hq0 : 0 ≤ quantBound n := (abs_nonneg _).trans h7
    have hpb : 2 * pn ≤ (2 / (2 : ℝ) ^ enob) ^ 2 / 6 := by
      have h2p : (0 : ℝ) < 2 ^ enob := Real.rpow_pos_of_pos (by norm_num) _
      have : pn = P ^ 2 * ((2 / (2 : ℝ) ^ enob) ^ 2 / 12) := by
        rw [hpn, Real.rpow_sub (by norm_num), Real.rpow_one]
        field_simp
      have hP2 : P ^ 2 ≤ 1 := by nlinarith
      rw [this]
      have h9 : (0 : ℝ) ≤ (2 / (2 : ℝ) ^ enob) ^ 2 / 12 := by positivity
      nlinarith
    have s1 := sq_le_sq' (abs_le.1 h7).1 (abs_le.1 h7).2
    have s2 := sq_le_sq' (abs_le.1 h8).1 (abs_le.1 h8).2
    linarith

example : ∃ out : ℝ → ℂ, ∃ M : ℝ, 0 < M ∧ ∫ ω, ‖out ω - ⟨limit1 ((4 : ℂ).re / (1 / 2 * M)), limit1 ((4 : ℂ).im / (1 / 2 * M))⟩‖ ^ 2
    ∂(ProbabilityTheory.gaussianReal 0 1) ≤ 2 * quantBound 8 ^ 2 + (2 / (2 : ℝ) ^ (6 : ℝ)) ^ 2 / 6 := by
  have hv : ∫ ω, ω ^ 2 ∂(ProbabilityTheory.gaussianReal 0 1) = 1 := by
    have := ProbabilityTheory.variance_id_gaussianReal (μ := 0) (v := 1)
    rw [ProbabilityTheory.variance_of_integral_eq_zero aemeasurable_id (by simp)] at this
    simpa using this
  have h6 : ¬ isclose 6 0 := by rw [isclose, not_le]; norm_num [abs_of_pos]
  obtain ⟨out, M, hM, -, -, h⟩ := C140_noise_partial (ProbabilityTheory.gaussianReal 0 1) (fun _ _ r => r) [[4, 1], [I, 2]] (by simp) 1 (1 / 2) 6 (by norm_num)
    (by norm_num) not_isclose_half h6 8 (fun ω => [[ω]]) (fun ω => [[ω]]) 0 0 [4, 1] 4 rfl rfl id id (fun ω => rfl) (fun ω => rfl)
    (ProbabilityTheory.memLp_id_gaussianReal 2) (ProbabilityTheory.memLp_id_gaussianReal 2) (by simp) (by simp) hv hv
  exact ⟨out, M, hM, h⟩

/-- C140: with clipping, quantiser and noise switched off and without filter parameters the converter is the identity. -/
theorem C140_off (bessel : ℝ → ℝ → List ℂ → List ℂ) (sig : List (List ℂ)) (fs c enob : ℝ) (hc : isclose c 1) (he : isclose enob 0) (n1 n2 : List (List ℝ)) :
    simDac bessel sig fs enob c 0 none n1 n2 = .ok (some sig) := by
  have : dacCore sig enob c 0 n1 n2 = some sig := by
    rw [dacCore, dacClip, if_pos hc, Option.bind_some, dacQuant, if_pos rfl, Option.bind_some, dacNoise, if_pos he]
  unfold simDac
  rw [this]

/-- C140: the filter acts on the clipped, quantised and noisy signal, mode by mode; a measured response always ends in an exception. -/
theorem C140_filter (bessel : ℝ → ℝ → List ℂ → List ℂ) (sig out : List (List ℂ)) (fs c enob : ℝ) (n : Nat) (n1 n2 : List (List ℝ))
    (h : simDac bessel sig fs enob c n none n1 n2 = .ok (some out)) :
    (∀ cutoff : ℝ, simDac bessel sig fs enob c n (some (.bessel cutoff)) n1 n2 = .ok (some (out.map (bessel fs cutoff))))
      ∧ ∀ fn : String, simDac bessel sig fs enob c n (some (.file fn)) n1 n2 = .error .typ := by
  have : dacCore sig enob c n n1 n2 = some out := by
    unfold simDac at h
    rcases hd : dacCore sig enob c n n1 n2 with _ | s
    · rw [hd] at h; simp at h
    · rw [hd] at h; simpa using h
  refine ⟨fun cutoff => ?_, fun fn => ?_⟩
  · unfold simDac; rw [this]; rfl
  · unfold simDac; rw [this]; rfl

/-! ### Transmitter with pre-distortion -/

theorem arcsin_abs (x : ℝ) : |Real.arcsin x| = Real.arcsin |x| := by
  rcases abs_choice x with h | h
  · rw [h, abs_of_nonneg (Real.arcsin_nonneg.2 (by rw [← h]; exact abs_nonneg x))]
  · have : Real.arcsin x ≤ 0 := Real.arcsin_nonpos.2 (by have := abs_nonneg x; linarith)
    rw [h, Real.arcsin_neg, abs_of_nonpos this]

/-- C141: `comp_mod_sin` with any positive `vpi` followed by the transmitter without converter impairments returns exactly half the signal, if the drive
voltage is `2/π·arcsin(P)` for the peak `P` of the signal over all modes. In particular the default drive `tgt_v = 1` belongs to signals of peak one. -/
theorem C141_partial (bessel : ℝ → ℝ → List ℂ → List ℂ) (sig : List (List ℂ)) (P v fs : ℝ) (hP0 : 0 < P) (hP1 : P ≤ 1) (hP : PeakIs P sig.flatten)
    (hv : 0 < v) (n1 n2 : List (List ℝ)) :
    ∃ pre : List (List ℂ), (sig.mapM fun r => r.mapM (compModSin ⟨v, v⟩)) = some pre
      ∧ simTx bessel pre fs 0 (2 / Real.pi * Real.arcsin P) 1 0 none n1 n2 = .ok (some (sig.map fun r => r.map fun z => z / 2)) := by
  have hpi := Real.pi_pos
  obtain ⟨f, hf⟩ : ∃ f : ℂ → ℂ, f = fun z => ⟨2 * v * Real.arcsin z.re, 2 * v * Real.arcsin z.im⟩ := ⟨_, rfl⟩
  have hA : 0 < Real.arcsin P := Real.arcsin_pos.2 hP0
  have hin : ∀ r ∈ sig, ∀ z ∈ r, |z.re| ≤ P ∧ |z.im| ≤ P := fun r hr z hz => hP.2 z (List.mem_flatten.2 ⟨r, hr, hz⟩)
  refine ⟨sig.map fun r => r.map f, ?_, ?_⟩
  · rw [mapM_eq_some_iff, List.map_map]
    refine List.map_congr_left fun r hr => ?_
    simp only [Function.comp]
    rw [mapM_eq_some_iff, List.map_map]
    refine List.map_congr_left fun z hz => ?_
    rw [Function.comp, compModSin, if_pos ⟨(hin r hr z hz).1.trans hP1, (hin r hr z hz).2.trans hP1⟩, hf]
  · have habs : ∀ x : ℝ, |2 * v * Real.arcsin x| = 2 * v * Real.arcsin |x| := by
      intro x; rw [abs_mul, abs_of_pos (by positivity), arcsin_abs]
    have hpk : absMax (sig.map fun r => r.map f).flatten = some (2 * v * Real.arcsin P) := by
      rw [← List.map_flatten]
      refine absMax_eq ?_ ?_
      · obtain ⟨z, hz, hzP⟩ := hP.1
        refine ⟨_, List.mem_map.2 ⟨z, hz, rfl⟩, ?_⟩
        rw [hf]
        simp only [habs]
        rw [← hzP, Real.monotone_arcsin.map_max, mul_max_of_nonneg _ _ (by positivity)]
      · intro w hw
        obtain ⟨z, hz, rfl⟩ := List.mem_map.1 hw
        rw [hf]
        simp only [habs]
        have := hP.2 z hz
        exact ⟨mul_le_mul_of_nonneg_left (Real.monotone_arcsin this.1) (by positivity),
          mul_le_mul_of_nonneg_left (Real.monotone_arcsin this.2) (by positivity)⟩
    have hne : 2 * v * Real.arcsin P ≠ 0 := by positivity
    unfold simTx
    rw [C140_off bessel _ fs 1 0 (by norm_num [isclose]) isclose_zero n1 n2]
    simp only [bind, Except.bind, Option.bind_some, pure, Except.pure]
    rw [idealAmplifier, hpk]
    simp only [Option.bind_eq_bind, Option.bind_some]
    rw [if_neg hne]
    simp only [Option.map_some, List.map_map]
    congr 2
    refine List.map_congr_left fun r hr => ?_
    simp only [Function.comp, List.map_map]
    refine List.map_congr_left fun z hz => ?_
    have e : ∀ x : ℝ, 2 * v * Real.arcsin x / (2 * v * Real.arcsin P) * (2 / Real.pi * Real.arcsin P) = 2 * (1 / Real.pi) * Real.arcsin x := by
      intro x; field_simp
    have e2 : f z / ((2 * v * Real.arcsin P : ℝ) : ℂ) * ((2 / Real.pi * Real.arcsin P : ℝ) : ℂ)
        = ⟨2 * (1 / Real.pi) * Real.arcsin z.re, 2 * (1 / Real.pi) * Real.arcsin z.im⟩ := by
      rw [hf]
      apply Complex.ext
      · rw [Complex.re_mul_ofReal, Complex.div_ofReal_re]; exact e _
      · rw [Complex.im_mul_ofReal, Complex.div_ofReal_im]; exact e _
    obtain ⟨w, hw, h3⟩ := C42_partial z ((hin r hr z hz).1.trans hP1) ((hin r hr z hz).2.trans hP1)
    rw [compModSin, if_pos ⟨(hin r hr z hz).1.trans hP1, (hin r hr z hz).2.trans hP1⟩, Option.some.injEq] at hw
    show modulatorResponse 1 1 0 (1 / 2) 1 (f z / ((2 * v * Real.arcsin P : ℝ) : ℂ) * ((2 / Real.pi * Real.arcsin P : ℝ) : ℂ)) = z / 2
    rw [e2, ← h3, ← hw]

theorem peak_examples : PeakIs 1 [[(1 : ℂ), 1 / 2], [I / 4]].flatten ∧ PeakIs (1 / 2) [[(1 / 2 : ℂ), 1 / 4]].flatten := by
  constructor
  · refine ⟨⟨1, by simp, by norm_num⟩, fun z hz => ?_⟩
    simp only [List.flatten_cons, List.flatten_nil, List.append_nil, List.cons_append, List.nil_append, List.mem_cons, List.not_mem_nil, or_false] at hz
    rcases hz with rfl | rfl | rfl <;> norm_num [abs_of_pos]
  · refine ⟨⟨1 / 2, by simp, by norm_num [abs_of_pos]⟩, fun z hz => ?_⟩
    simp only [List.flatten_cons, List.flatten_nil, List.append_nil, List.mem_cons, List.not_mem_nil, or_false] at hz
    rcases hz with rfl | rfl <;> norm_num [abs_of_pos]

example (bessel : ℝ → ℝ → List ℂ → List ℂ) :
    ∃ pre : List (List ℂ), simTx bessel pre 1 0 (2 / Real.pi * Real.arcsin 1) 1 0 none [] [] = .ok (some [[1 / 2, 1 / 2 / 2], [I / 4 / 2]]) :=
  (C141_partial bessel [[1, 1 / 2], [I / 4]] 1 (57 / 50) 1 one_pos le_rfl peak_examples.1 (by norm_num) [] []).imp fun _ h => h.2

/-- The default drive voltage is the one of `C141_partial` for signals of peak one. -/
theorem C141_default_drive : 2 / Real.pi * Real.arcsin 1 = 1 := by
  rw [Real.arcsin_one]; field_simp

/-- C141 in full: with the default drive voltage the pre-distorted transmitter returns the signal up to one factor. -/
def C141_statement : Prop :=
  ∀ (bessel : ℝ → ℝ → List ℂ → List ℂ) (sig : List (List ℂ)) (P v fs : ℝ), 0 < P → P ≤ 1 → PeakIs P sig.flatten → 0 < v → ∀ (n1 n2 : List (List ℝ)),
    ∃ (pre : List (List ℂ)) (g : ℂ), (sig.mapM fun r => r.mapM (compModSin ⟨v, v⟩)) = some pre
      ∧ simTx bessel pre fs 0 1 1 0 none n1 n2 = .ok (some (sig.map fun r => r.map fun z => g * z))

/-- C141: for a signal of peak one half the amplifier drives the modulator too hard: `1/2` and `1/4` leave it in the ratio `16 : 11`. -/
theorem C141_false : ¬ C141_statement := by
  intro h
  have hpi := Real.pi_pos
  obtain ⟨pre, g, h1, h2⟩ := h (fun _ _ r => r) [[1 / 2, 1 / 4]] (1 / 2) 1 1 (by norm_num) (by norm_num) peak_examples.2 one_pos [] []
  have a1 : compModSin ⟨1, 1⟩ (1 / 2) = some ((Real.pi / 3 : ℝ) : ℂ) := by
    have hs : Real.arcsin (1 / 2) = Real.pi / 6 := by
      rw [← Real.sin_pi_div_six]
      exact Real.arcsin_sin (by linarith) (by linarith)
    have r1 : ((1 : ℂ) / 2).re = 1 / 2 := by norm_num
    have r2 : ((1 : ℂ) / 2).im = 0 := by norm_num
    rw [compModSin, r1, r2, if_pos (by norm_num [abs_of_pos]), hs, Real.arcsin_zero]
    congr 1
    apply Complex.ext
    · simp only [ofReal_re]; ring
    · simp
  have a2 : compModSin ⟨1, 1⟩ (1 / 4) = some ((2 * Real.arcsin (1 / 4) : ℝ) : ℂ) := by
    have r1 : ((1 : ℂ) / 4).re = 1 / 4 := by norm_num
    have r2 : ((1 : ℂ) / 4).im = 0 := by norm_num
    rw [compModSin, r1, r2, if_pos (by norm_num [abs_of_pos]), Real.arcsin_zero]
    congr 1
    apply Complex.ext
    · simp only [ofReal_re]; ring
    · simp
  simp only [List.mapM_cons, List.mapM_nil, a1, a2, Option.pure_def, Option.bind_eq_bind, Option.bind_some, Option.some.injEq] at h1
  subst h1
  have hq : Real.arcsin (1 / 4) ≤ Real.pi / 6 := by
    have : Real.pi / 6 = Real.arcsin (1 / 2) := by
      rw [← Real.sin_pi_div_six]; exact (Real.arcsin_sin (by linarith) (by linarith)).symm
    rw [this]
    exact Real.monotone_arcsin (by norm_num)
  have hq0 : 0 ≤ Real.arcsin (1 / 4) := Real.arcsin_nonneg.2 (by norm_num)
  have hpk : absMax [[((Real.pi / 3 : ℝ) : ℂ), ((2 * Real.arcsin (1 / 4) : ℝ) : ℂ)]].flatten = some (Real.pi / 3) := by
    refine absMax_eq ⟨((Real.pi / 3 : ℝ) : ℂ), by simp, ?_⟩ ?_
    · rw [ofReal_re, ofReal_im, abs_zero, abs_of_pos (by positivity)]; exact max_eq_left (by positivity)
    · intro z hz
      simp only [List.flatten_cons, List.flatten_nil, List.append_nil, List.mem_cons, List.not_mem_nil, or_false] at hz
      rcases hz with rfl | rfl
      · rw [ofReal_re, ofReal_im, abs_zero, abs_of_pos (by positivity)]; exact ⟨le_rfl, by positivity⟩
      · rw [ofReal_re, ofReal_im, abs_zero, abs_of_nonneg (by positivity)]; exact ⟨by linarith, by positivity⟩
  unfold simTx at h2
  rw [C140_off _ _ 1 1 0 (by norm_num [isclose]) isclose_zero] at h2
  simp only [bind, Except.bind, Option.bind_some, pure, Except.pure] at h2
  rw [idealAmplifier, hpk] at h2
  simp only [Option.bind_eq_bind, Option.bind_some] at h2
  rw [if_neg (by positivity)] at h2
  simp only [Option.map_some, List.map_cons, List.map_nil, Except.ok.injEq, Option.some.injEq, List.cons.injEq, and_true, modulator_default] at h2
  obtain ⟨h3, h4⟩ := h2
  have e1 : (((Real.pi / 3 : ℝ) : ℂ) / ((Real.pi / 3 : ℝ) : ℂ) * ((1 : ℝ) : ℂ)) = ((1 : ℝ) : ℂ) := by
    rw [div_self (by exact_mod_cast (by positivity : Real.pi / 3 ≠ 0)), one_mul]
  have e2 : (((2 * Real.arcsin (1 / 4) : ℝ) : ℂ) / ((Real.pi / 3 : ℝ) : ℂ) * ((1 : ℝ) : ℂ)) = ((6 / Real.pi * Real.arcsin (1 / 4) : ℝ) : ℂ) := by
    have : (6 / Real.pi * Real.arcsin (1 / 4) : ℝ) = 2 * Real.arcsin (1 / 4) / (Real.pi / 3) * 1 := by field_simp; ring
    rw [this]; push_cast; ring
  rw [e1] at h3
  rw [e2] at h4
  rw [ofReal_re, ofReal_im] at h3 h4
  have e3 : Real.pi / 2 * (6 / Real.pi * Real.arcsin (1 / 4)) = 3 * Real.arcsin (1 / 4) := by field_simp; ring
  rw [e3, Real.sin_three_mul, Real.sin_arcsin (by norm_num) (by norm_num)] at h4
  rw [mul_one, Real.sin_pi_div_two] at h3
  simp only [mul_zero, Real.sin_zero, ofReal_zero, add_zero] at h3 h4
  have h5 : g = 1 := by
    have : (2 : ℂ) ≠ 0 := two_ne_zero
    field_simp at h3
    push_cast at h3
    exact h3.symm
  rw [h5] at h4
  norm_num at h4

end Qampy
