import Verif.Model.Normalise
import Verif.Props.Metrics

/-!
Normalisation to the power of the symbols (C142).
-/

namespace Qampy

open Complex

theorem classMean_mul (rx tx : List ℂ) (c s : ℂ) : classMean (rx.map fun x => c * x) tx s = c * classMean rx tx s := by
  rw [classMean, classMean, List.zip_map_left, List.map_map, ← mul_div_assoc, ← List.sum_map_mul_left]
  congr 2
  refine List.map_congr_left fun p _ => ?_
  simp only [Function.comp, Prod.map_fst, Prod.map_snd, id_eq]
  split_ifs <;> simp

/-- Scaling the received samples scales both powers. -/
theorem estimateSnr_mul (rx tx gray : List ℂ) (hl : rx.length = tx.length) (hnd : gray.Nodup) (htx : ∀ s ∈ tx, s ∈ gray) (hall : ∀ s ∈ gray, s ∈ tx) (c : ℂ)
    (S N : ℝ) (h : estimateSnr rx tx gray = some (S / N, S, N)) :
    estimateSnr (rx.map fun x => c * x) tx gray = some ((‖c‖ ^ 2 * S) / (‖c‖ ^ 2 * N), ‖c‖ ^ 2 * S, ‖c‖ ^ 2 * N) := by
  obtain ⟨S1, N1, h1, hS1, hN1, -⟩ := C66_estimate_snr rx tx gray hl hnd htx hall
  obtain ⟨S2, N2, h2, hS2, hN2, -⟩ := C66_estimate_snr (rx.map fun x => c * x) tx gray (by simpa using hl) hnd htx hall
  rw [h] at h1
  simp only [Option.some.injEq, Prod.mk.injEq] at h1
  obtain ⟨-, rfl, rfl⟩ := h1
  have e1 : S2 = ‖c‖ ^ 2 * S := by
    rw [hS2, hS1, List.length_map, List.zip_map_left, List.map_map, ← mul_div_assoc, ← List.sum_map_mul_left]
    congr 2
    refine List.map_congr_left fun p _ => ?_
    simp only [Function.comp, Prod.map_snd, id_eq, classMean_mul, norm_mul]
    ring
  have e2 : N2 = ‖c‖ ^ 2 * N := by
    rw [hN2, hN1, List.length_map, List.zip_map_left, List.map_map, ← mul_div_assoc, ← List.sum_map_mul_left]
    congr 2
    refine List.map_congr_left fun p _ => ?_
    simp only [Function.comp, Prod.map_fst, Prod.map_snd, id_eq, classMean_mul, ← mul_sub, norm_mul]
    ring
  rw [h2, e1, e2]

theorem centred_sum_zero (x : List ℂ) (hx : x ≠ []) : (centred x).sum = 0 := by
  have hl : (x.length : ℂ) ≠ 0 := by
    exact_mod_cast (List.length_pos_iff.2 hx).ne'
  have : ∀ (m : ℂ) (l : List ℂ), (l.map fun z => z - m).sum = l.sum - l.length * m := by
    intro m l
    induction l with
    | nil => simp
    | cons a l ih => rw [List.map_cons, List.sum_cons, ih, List.sum_cons, List.length_cons]; push_cast; ring
  rw [centred, this, meanC]
  field_simp
  ring

/-- One mode of the normalisation. -/
theorem normalise_row (t r coded : List ℂ) (hl : r.length = t.length) (hnd : coded.Nodup) (htx : ∀ s ∈ t, s ∈ coded) (hall : ∀ s ∈ coded, s ∈ t)
    (hpow : ∃ s ∈ t, classMean (centred r) t s ≠ 0) :
    ∃ (o : List ℂ) (S N : ℝ), estimateSnr (centred r) t coded = some (S / N, S, N) ∧ divSqrt S (centred r) = some o ∧ o.length = r.length ∧ o.sum = 0
      ∧ (∃ g : ℝ, 0 < g ∧ o = r.map fun z => (g : ℂ) * (z - r.sum / r.length)) ∧ estimateSnr o t coded = some (S / N, 1, N / S)
      ∧ (o.map fun z => ‖z‖ ^ 2).sum / o.length = 1 + N / S := by
  obtain ⟨s0, hs0, hne⟩ := hpow
  have hlc : (centred r).length = t.length := by rw [centred, List.length_map, hl]
  have ht0 : 0 < t.length := List.length_pos_of_mem hs0
  obtain ⟨S, N, h1, hS, hN, hSN⟩ := C66_estimate_snr (centred r) t coded hlc hnd htx hall
  have hS0 : 0 < S := by
    rw [hS]
    refine div_pos (lt_of_le_of_ne (list_sum_nonneg _ _ fun _ _ => by positivity) fun h0 => ?_) (by rw [hlc]; exact_mod_cast ht0)
    obtain ⟨k, hk, hks⟩ := List.getElem_of_mem hs0
    have hmem : ((centred r)[k]'(by omega), t[k]) ∈ (centred r).zip t := by
      rw [List.mem_iff_getElem]
      exact ⟨k, by rw [List.length_zip]; omega, by simp⟩
    have hle : ‖classMean (centred r) t t[k]‖ ^ 2 ≤ (((centred r).zip t).map fun p => ‖classMean (centred r) t p.2‖ ^ 2).sum := by
      refine List.single_le_sum ?_ _ (List.mem_map.2 ⟨_, hmem, rfl⟩)
      intro v hv
      obtain ⟨p, -, rfl⟩ := List.mem_map.1 hv
      positivity
    rw [hks, ← h0] at hle
    have := norm_pos_iff.2 hne
    nlinarith [sq_nonneg ‖classMean (centred r) t s0‖, pow_pos this 2]
  have hq : 0 < Real.sqrt S := Real.sqrt_pos.2 hS0
  obtain ⟨g, hg⟩ : ∃ g : ℝ, g = 1 / Real.sqrt S := ⟨_, rfl⟩
  have hg0 : 0 < g := by rw [hg]; positivity
  have hg2 : ‖(g : ℂ)‖ ^ 2 = 1 / S := by
    rw [Complex.norm_real, Real.norm_eq_abs, sq_abs, hg, div_pow, Real.sq_sqrt hS0.le, one_pow]
  have ho : (centred r).map (fun z => z / (Real.sqrt S : ℂ)) = (centred r).map fun z => (g : ℂ) * z := by
    refine List.map_congr_left fun z _ => ?_
    rw [hg]; push_cast; ring
  have hr0 : r ≠ [] := by rintro rfl; simp at hl; omega
  have hest := estimateSnr_mul (centred r) t coded hlc hnd htx hall (g : ℂ) S N h1
  rw [hg2] at hest
  have e1 : 1 / S * S = 1 := by field_simp
  have e2 : 1 / S * N = N / S := by ring
  have e3 : 1 / (N / S) = S / N := by rw [one_div_div]
  rw [e1, e2, e3] at hest
  refine ⟨(centred r).map fun z => (g : ℂ) * z, S, N, h1, ?_, ?_, ?_, ⟨g, hg0, ?_⟩, hest, ?_⟩
  · rw [divSqrt, if_neg hS0.ne', ho]
  · rw [List.length_map, centred, List.length_map]
  · rw [List.sum_map_mul_left, List.map_id', centred_sum_zero r hr0, mul_zero]
  · rw [centred, List.map_map]; rfl
  · rw [List.map_map, List.length_map]
    have : ((centred r).map ((fun z => ‖z‖ ^ 2) ∘ fun z => (g : ℂ) * z)).sum = 1 / S * ((centred r).map fun z => ‖z‖ ^ 2).sum := by
      rw [← List.sum_map_mul_left]
      congr 1
      refine List.map_congr_left fun z _ => ?_
      rw [Function.comp, norm_mul, mul_pow, hg2]
    rw [this, mul_div_assoc, ← hSN]
    field_simp

/-- C142, synchronised signals of `SignalBase`: after the symbol based normalisation every mode has mean zero, is its centred input times one positive factor,
its estimated signal power is exactly one and its SNR is the one before, so that its total power is one plus the noise to signal ratio. -/
theorem C142_synced_partial (coded : List ℂ) (symbols sig : List (List ℂ)) (n : Nat) (hL : symbols.length = sig.length) (hs : ∀ t ∈ symbols, t.length = n)
    (hx : ∀ r ∈ sig, r.length = n) (hnd : coded.Nodup) (htx : ∀ t ∈ symbols, ∀ s ∈ t, s ∈ coded) (hall : ∀ t ∈ symbols, ∀ s ∈ coded, s ∈ t)
    (hpow : ∀ (i : Nat) (t r : List ℂ), symbols[i]? = some t → sig[i]? = some r → ∃ s ∈ t, classMean (centred r) t s ≠ 0) :
    ∃ out : List (List ℂ), normalizeSymbols .base coded true symbols sig = .ok (some out) ∧ out.length = sig.length
      ∧ ∀ (i : Nat) (t r : List ℂ), symbols[i]? = some t → sig[i]? = some r → ∃ (o : List ℂ) (snr N0 : ℝ), out[i]? = some o ∧ o.length = r.length ∧ o.sum = 0
        ∧ (∃ g : ℝ, 0 < g ∧ o = r.map fun z => (g : ℂ) * (z - r.sum / r.length)) ∧ estimateSnr o t coded = some (snr, 1, N0)
        ∧ (estimateSnr (r.map fun z => z - r.sum / r.length) t coded).map (·.1) = some snr
        ∧ (o.map fun z => ‖z‖ ^ 2).sum / o.length = 1 + N0 := by
  have hrow : ∀ i : Nat, ∃ (o : List ℂ) (S N : ℝ), ∀ (t r : List ℂ), symbols[i]? = some t → sig[i]? = some r →
      estimateSnr (centred r) t coded = some (S / N, S, N) ∧ divSqrt S (centred r) = some o ∧ o.length = r.length ∧ o.sum = 0
      ∧ (∃ g : ℝ, 0 < g ∧ o = r.map fun z => (g : ℂ) * (z - r.sum / r.length)) ∧ estimateSnr o t coded = some (S / N, 1, N / S)
      ∧ (o.map fun z => ‖z‖ ^ 2).sum / o.length = 1 + N / S := by
    intro i
    rcases ht : symbols[i]? with _ | t
    · exact ⟨[], 0, 0, by simp⟩
    rcases hr : sig[i]? with _ | r
    · exact ⟨[], 0, 0, by simp⟩
    have htm := List.mem_of_getElem? ht
    have hrm := List.mem_of_getElem? hr
    obtain ⟨o, S, N, h⟩ := normalise_row t r coded (by rw [hs t htm, hx r hrm]) hnd (htx t htm) (hall t htm) (hpow i t r ht hr)
    refine ⟨o, S, N, fun t' r' h1 h2 => ?_⟩
    cases h1; cases h2
    exact h
  choose o S N h using hrow
  have hget : ∀ i < sig.length, ∃ t r : List ℂ, symbols[i]? = some t ∧ sig[i]? = some r := by
    intro i hi
    exact ⟨symbols[i], sig[i], List.getElem?_eq_getElem _, List.getElem?_eq_getElem _⟩
  have hal : alignRows true symbols (sig.map centred) = .ok (symbols, sig.map centred) := by
    rw [alignRows, if_pos rfl]
    unfold adjustOnly
    simp only [List.length_map, hL, gt_iff_lt, lt_irrefl, if_false]
    rw [if_pos]
    refine ⟨trivial, ?_⟩
    rcases symbols with _ | ⟨t, ts⟩
    · rcases sig with _ | ⟨r, rs⟩
      · rfl
      · simp at hL
    · rcases sig with _ | ⟨r, rs⟩
      · simp at hL
      · simp only [List.headD_cons, List.map_cons]
        rw [hs t (by simp), centred, List.length_map, hx r (by simp)]
  have hest : estSnrRows coded true symbols (sig.map centred) = .ok ((List.range sig.length).map fun i => (S i / N i, S i, N i)) := by
    rw [estSnrRows, hal]
    simp only [bind, Except.bind]
    rw [List.length_map]
    apply mapM_ok
    intro i hi
    obtain ⟨t, r, ht, hr⟩ := hget i (List.mem_range.1 hi)
    rw [List.getElem?_map, hr, ht]
    simp only [Option.map_some]
    rw [(h i t r ht hr).1]
    rfl
  refine ⟨(List.range sig.length).map o, ?_, by simp, fun i t r ht hr => ?_⟩
  · unfold normalizeSymbols
    simp only [hest, Except.map]
    congr 1
    rw [mapM_eq_some_iff, List.map_map]
    refine List.map_congr_left fun i hi => ?_
    obtain ⟨t, r, ht, hr⟩ := hget i (List.mem_range.1 hi)
    rw [List.getElem?_map, List.getElem?_range (List.mem_range.1 hi), List.getElem?_map, hr]
    simp only [Option.map_some, Function.comp]
    exact (h i t r ht hr).2.1
  · have hi : i < sig.length := (List.getElem?_eq_some_iff.1 hr).1
    obtain ⟨h1, -, h3, h4, h5, h6, h7⟩ := h i t r ht hr
    refine ⟨o i, S i / N i, N i / S i, ?_, h3, h4, h5, h6, ?_, h7⟩
    · rw [List.getElem?_map, List.getElem?_range hi]; rfl
    · have : (r.map fun z => z - r.sum / r.length) = centred r := rfl
      rw [this, h1]; rfl

/-- C142 in full: also for the other signal classes. -/
def C142_statement : Prop :=
  ∀ (cls : SigClass) (coded : List ℂ) (symbols sig : List (List ℂ)) (n : Nat), symbols.length = sig.length → (∀ t ∈ symbols, t.length = n) →
    (∀ r ∈ sig, r.length = n) → coded.Nodup → (∀ t ∈ symbols, ∀ s ∈ t, s ∈ coded) → (∀ t ∈ symbols, ∀ s ∈ coded, s ∈ t) →
    (∀ (i : Nat) (t r : List ℂ), symbols[i]? = some t → sig[i]? = some r → ∃ s ∈ t, classMean (centred r) t s ≠ 0) →
    ∃ out : List (List ℂ), normalizeSymbols cls coded true symbols sig = .ok (some out)
      ∧ ∀ (i : Nat) (t o : List ℂ), symbols[i]? = some t → out[i]? = some o → ∃ snr N0 : ℝ, estimateSnr o t coded = some (snr, 1, N0)

theorem classMean_example : ∃ s ∈ [(1 : ℂ), -1], classMean (centred [2, 0]) [1, -1] s ≠ 0 := by
  refine ⟨1, by simp, ?_⟩
  have h : (-1 : ℂ) ≠ 1 := by norm_num
  simp [classMean, centred, meanC, h]
  norm_num

example : ∃ out : List (List ℂ), normalizeSymbols .base [1, -1] true [[1, -1]] [[2, 0]] = .ok (some out) ∧ out.length = 1 :=
  (C142_synced_partial [1, -1] [[1, -1]] [[2, 0]] 2 rfl (by simp) (by simp) (by norm_num) (by simp) (by simp) (by
    intro i t r ht hr
    have hi : i = 0 := by have := (List.getElem?_eq_some_iff.1 ht).1; simp at this; omega
    subst hi
    simp only [List.getElem?_cons_zero, Option.some.injEq] at ht hr
    subst ht; subst hr
    exact classMean_example)).imp fun _ h => ⟨h.1, h.2.1⟩

/-- C142: signals with pilots and symbol-only signals raise TypeError. -/
theorem C142_classes (cls : SigClass) (h : cls ≠ .base) (coded : List ℂ) (synced : Bool) (symbols sig : List (List ℂ)) :
    normalizeSymbols cls coded synced symbols sig = .error .typ := by
  cases cls with
  | base => exact absurd rfl h
  | pilots => rfl
  | symbolOnly => rfl

theorem C142_false : ¬ C142_statement := by
  intro h
  obtain ⟨out, h1, -⟩ := h .pilots [1, -1] [[1, -1]] [[2, 0]] 2 rfl (by simp) (by simp) (by norm_num) (by simp) (by simp) (by
    intro i t r ht hr
    have hi : i = 0 := by have := (List.getElem?_eq_some_iff.1 ht).1; simp at this; omega
    subst hi
    simp only [List.getElem?_cons_zero, Option.some.injEq] at ht hr
    subst ht; subst hr
    exact classMean_example)
  rw [C142_classes .pilots (by simp)] at h1
  cases h1

end Qampy
