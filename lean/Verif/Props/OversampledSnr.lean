import Verif.Lemmas.WhiteNoise
import Verif.Props.Waveform
import Verif.Props.PulseShape
import Verif.Props.Sampling

/-!
C231: the SNR set on an oversampled signal is the SNR of the symbols behind the matched filter.
-/

namespace Qampy

open MeasureTheory ProbabilityTheory

/-- Response at sample `t` to a pulse at sample `j` of a filter with the spectrum `g`. -/
noncomputable def kern (N : Nat) (g : Nat → ℝ) (t j : Nat) : ℂ := (∑ k ∈ Finset.range N, (g k : ℂ) * ew N (((t : ℤ) - j) * k)) / N

theorem filter_at (x h : List ℂ) (g : Nat → ℝ) (hl : h.length = x.length) (hg : ∀ k < x.length, at0 h k = g k) (t : Nat) (ht : t < x.length) :
    at0 (ifft (rowMul (fft x) h)) t = ∑ j ∈ Finset.range x.length, at0 x j * kern x.length g t j := by
  have hrl : (rowMul (fft x) h).length = x.length := by rw [length_rowMul, length_fft, hl, Nat.min_self]
  rw [at0_ifft _ (by rw [hrl]; exact ht), hrl]
  have e1 : ∀ k ∈ Finset.range x.length, at0 (rowMul (fft x) h) k * ew x.length ((t : ℤ) * k) =
      ∑ j ∈ Finset.range x.length, at0 x j * ((g k : ℂ) * ew x.length (((t : ℤ) - j) * k)) := by
    intro k hk
    have hk' := Finset.mem_range.1 hk
    rw [at0_rowMul _ _ (by rw [length_fft]; exact hk') (by rw [hl]; exact hk'), hg k hk', at0_fft _ hk', Finset.sum_mul, Finset.sum_mul]
    refine Finset.sum_congr rfl fun j _ => ?_
    rw [show ((t : ℤ) - j) * k = -((j : ℤ) * k) + (t : ℤ) * k by ring, ew_add]
    ring
  rw [Finset.sum_congr rfl e1, Finset.sum_comm, Finset.sum_div]
  refine Finset.sum_congr rfl fun j _ => ?_
  rw [← Finset.mul_sum, kern, mul_div_assoc]

theorem conj_kern (N : Nat) (g : Nat → ℝ) (t j : Nat) : (starRingEnd ℂ) (kern N g t j) = kern N g j t := by
  unfold kern
  rw [map_div₀, map_sum, Complex.conj_natCast]
  congr 1
  refine Finset.sum_congr rfl fun k _ => ?_
  rw [map_mul, Complex.conj_ofReal, conj_ew]
  congr 2
  ring

/-- Pulses that are whole symbols apart are orthogonal. -/
theorem kern_orth (n L : Nat) (hn : 0 < n) (g : Nat → ℝ) (hfold : ∀ a < L, ∑ b ∈ Finset.range n, g (a + L * b) ^ 2 = 1) (m m' : Nat) (hm : m < L) (hm' : m' < L) :
    ∑ j ∈ Finset.range (n * L), kern (n * L) g (m * n) j * (starRingEnd ℂ) (kern (n * L) g (m' * n) j) = if m = m' then 1 / (n : ℂ) else 0 := by
  have hL : 0 < L := by omega
  have hN : 0 < n * L := Nat.mul_pos hn hL
  obtain ⟨N, hNd⟩ : ∃ N, N = n * L := ⟨_, rfl⟩
  have hN0 : (N : ℂ) ≠ 0 := by rw [hNd]; exact_mod_cast hN.ne'
  have hn0 : (n : ℂ) ≠ 0 := by exact_mod_cast hn.ne'
  have hL0 : (L : ℂ) ≠ 0 := by exact_mod_cast hL.ne'
  rw [← hNd]
  rw [← hNd] at hN
  have e1 : ∀ j ∈ Finset.range N, kern N g (m * n) j * (starRingEnd ℂ) (kern N g (m' * n) j) =
      ∑ k ∈ Finset.range N, ∑ k' ∈ Finset.range N, ((g k : ℂ) * (g k' : ℂ) * ew N ((m * n : ℕ) * (k : ℤ) - (m' * n : ℕ) * (k' : ℤ)) / N / N) * ew N (((k' : ℤ) - k) * j) := by
    intro j _
    rw [conj_kern, kern, kern, div_mul_div_comm, Finset.sum_mul_sum, Finset.sum_div]
    refine Finset.sum_congr rfl fun k _ => ?_
    rw [Finset.sum_div]
    refine Finset.sum_congr rfl fun k' _ => ?_
    have : ew N (((m * n : ℕ) : ℤ) * k - ((m' * n : ℕ) : ℤ) * k') * ew N (((k' : ℤ) - k) * j) = ew N ((((m * n : ℕ) : ℤ) - j) * k) * ew N (((j : ℤ) - ((m' * n : ℕ) : ℤ)) * k') := by
      rw [← ew_add, ← ew_add]
      congr 1
      ring
    field_simp
    linear_combination ((g k : ℂ) * (g k' : ℂ)) * (-this)
  rw [Finset.sum_congr rfl e1, Finset.sum_comm]
  have e2 : ∀ k ∈ Finset.range N, ∑ j ∈ Finset.range N, ∑ k' ∈ Finset.range N, ((g k : ℂ) * (g k' : ℂ) * ew N ((m * n : ℕ) * (k : ℤ) - (m' * n : ℕ) * (k' : ℤ)) / N / N) * ew N (((k' : ℤ) - k) * j) =
      ((g k ^ 2 : ℝ) : ℂ) * ew L (((m : ℤ) - m') * k) / N := by
    intro k hk
    rw [Finset.sum_comm]
    simp_rw [← Finset.mul_sum, ew_orth hN]
    rw [Finset.sum_eq_single k]
    · rw [sub_self, if_pos (dvd_zero _), show ((m * n : ℕ) : ℤ) * (k : ℤ) - ((m' * n : ℕ) : ℤ) * (k : ℤ) = n * (((m : ℤ) - m') * k) by push_cast; ring]
      conv_lhs => rw [hNd]
      rw [ew_scale n L hn, ← hNd]
      push_cast
      field_simp
    · intro k' hk' hne
      rw [if_neg, mul_zero]
      rw [dvd_sub_iff (Finset.mem_range.1 hk') (Finset.mem_range.1 hk)]
      exact hne
    · intro h; exact absurd hk h
  rw [Finset.sum_congr rfl e2, ← Finset.sum_div, hNd, sum_range_mul_split]
  have e3 : ∀ a ∈ Finset.range L, ∑ b ∈ Finset.range n, ((g (a + L * b) ^ 2 : ℝ) : ℂ) * ew L (((m : ℤ) - m') * ((a + L * b : ℕ) : ℤ)) = ew L (((m : ℤ) - m') * a) := by
    intro a ha
    have : ∀ b ∈ Finset.range n, ((g (a + L * b) ^ 2 : ℝ) : ℂ) * ew L (((m : ℤ) - m') * ((a + L * b : ℕ) : ℤ)) = ((g (a + L * b) ^ 2 : ℝ) : ℂ) * ew L (((m : ℤ) - m') * a) := by
      intro b _
      congr 1
      rw [show ((m : ℤ) - m') * ((a + L * b : ℕ) : ℤ) = ((m : ℤ) - m') * a + L * (((m : ℤ) - m') * b) by push_cast; ring, ew_add, ew_mul_self L hL, mul_one]
    rw [Finset.sum_congr rfl this, ← Finset.sum_mul, ← Complex.ofReal_sum, hfold a (Finset.mem_range.1 ha), Complex.ofReal_one, one_mul]
  rw [Finset.sum_congr rfl e3, ew_orth hL]
  by_cases h : m = m'
  · subst h
    rw [if_pos rfl, sub_self, if_pos (dvd_zero _)]
    push_cast
    field_simp
  · rw [if_neg h, if_neg, zero_div]
    rw [dvd_sub_iff hm hm']
    exact h

/-- A simulated link with pulse shaping: symbols are upsampled with the root raised cosine filter (`rrcos_resample`), noise is added with `change_snr`, the signal is filtered
with the same filter again (`rrcos_pulseshaping`) and sampled once per symbol. `w` are the draws of the noise.
Composition of `rrcos_resample` (qampy/core/resample.py:73-127, `taps=None`), `change_snr` (qampy/core/impairments.py:210-232) and the frequency-domain filter of
qampy/core/filter.py:149-175 in the order of a simulation. -/
noncomputable def shapedLink {L : Nat} (s : Fin L → ℂ) (n : Nat) (fb beta snr : ℝ) (w : Fin (n * L) → ℝ × ℝ) : Except PyErr (List ℂ) := do
  let tx ← rrcosResample 0 (rrcosPulseFreq (n * fb) (1 / fb) beta) n 1 (List.ofFn s)
  let r := (changeSnr [tx] snr fb (n * fb) [List.ofFn fun k => (w k).1] [List.ofFn fun k => (w k).2]).getD 0 []
  let rx ← rrcosPulseFreq (n * fb) (1 / fb) beta r
  return Np.strided rx n

/-- Energy of the shaped signal. -/
theorem energy_shaped (n : Nat) (hn : 1 ≤ n) (s : List ℂ) (g : Nat → ℝ) (hfold : ∀ a < s.length, ∑ b ∈ Finset.range n, g (a + s.length * b) ^ 2 = 1)
    (h : List ℂ) (hl : h.length = n * s.length) (hg : ∀ k < n * s.length, at0 h k = g k) :
    energy (ifft (rowMul (fft (insertZeros 0 n s)) h)) = energy s / n := by
  have hlen : (insertZeros 0 n s).length = n * s.length := length_insertZeros _ _ hn _
  have hl2 : (ifft (rowMul (fft (insertZeros 0 n s)) h)).length = n * s.length := by rw [length_ifft, length_rowMul, length_fft, hlen, hl, Nat.min_self]
  have hn0 : (n : ℂ) ≠ 0 := by exact_mod_cast (by omega : n ≠ 0)
  obtain ⟨N, hN⟩ : ∃ N, N = n * s.length := ⟨_, rfl⟩
  rw [energy_eq, energy_eq, hl2, ← hN]
  have hat : ∀ t < N, at0 (ifft (rowMul (fft (insertZeros 0 n s)) h)) t = ∑ i ∈ Finset.range s.length, at0 s i * kern N g t (i * n) := by
    intro t ht
    rw [filter_at _ h g (by rw [hlen, hl]) (by rw [hlen]; exact hg) t (by rw [hlen, ← hN]; exact ht), hlen, mul_comm n s.length, sum_range_mul_split,
      ← Nat.sub_add_cancel hn, Finset.sum_range_succ', Nat.sub_add_cancel hn, Finset.sum_eq_zero, zero_add]
    · refine Finset.sum_congr rfl fun b hb => ?_
      have hb' := Finset.mem_range.1 hb
      rw [zero_add, at0_insertZeros n hn s _ (Nat.mul_lt_mul_of_pos_left hb' hn), if_pos (Nat.mul_mod_right _ _), Nat.mul_div_cancel_left _ hn, mul_comm s.length n,
        mul_comm n b, hN]
    · intro a ha
      have ha' := Finset.mem_range.1 ha
      refine Finset.sum_eq_zero fun b hb => ?_
      have hb' := Finset.mem_range.1 hb
      have hlt : a + 1 + n * b < n * s.length := by
        have : n * (b + 1) ≤ n * s.length := Nat.mul_le_mul_left _ hb'
        rw [Nat.mul_add] at this
        omega
      rw [at0_insertZeros n hn s _ hlt, if_neg, zero_mul]
      rw [Nat.add_mul_mod_self_left, Nat.mod_eq_of_lt (by omega)]
      omega
  have hc : ((∑ t ∈ Finset.range N, ‖at0 (ifft (rowMul (fft (insertZeros 0 n s)) h)) t‖ ^ 2 : ℝ) : ℂ) = (((∑ i ∈ Finset.range s.length, ‖at0 s i‖ ^ 2) / n : ℝ) : ℂ) := by
    push_cast
    have h3 : ∀ t ∈ Finset.range N, ((‖at0 (ifft (rowMul (fft (insertZeros 0 n s)) h)) t‖ : ℝ) : ℂ) ^ 2 =
        ∑ i ∈ Finset.range s.length, ∑ i' ∈ Finset.range s.length, at0 s i * (starRingEnd ℂ) (at0 s i') * (kern N g (i' * n) t * (starRingEnd ℂ) (kern N g (i * n) t)) := by
      intro t ht
      rw [← Complex.mul_conj', hat t (Finset.mem_range.1 ht), map_sum, Finset.sum_mul_sum]
      refine Finset.sum_congr rfl fun i _ => Finset.sum_congr rfl fun i' _ => ?_
      rw [map_mul, conj_kern, conj_kern]
      ring
    rw [Finset.sum_congr rfl h3, Finset.sum_comm, Finset.sum_div]
    refine Finset.sum_congr rfl fun i hi => ?_
    rw [Finset.sum_comm]
    have h4 : ∀ i' ∈ Finset.range s.length, ∑ t ∈ Finset.range N, at0 s i * (starRingEnd ℂ) (at0 s i') * (kern N g (i' * n) t * (starRingEnd ℂ) (kern N g (i * n) t)) =
        if i' = i then at0 s i * (starRingEnd ℂ) (at0 s i) / n else 0 := by
      intro i' hi'
      rw [← Finset.mul_sum, hN, kern_orth n s.length (by omega) g hfold i' i (Finset.mem_range.1 hi') (Finset.mem_range.1 hi)]
      by_cases e : i' = i
      · subst e; rw [if_pos rfl, if_pos rfl]; ring
      · rw [if_neg e, if_neg e, mul_zero]
    rw [Finset.sum_congr rfl h4, Finset.sum_ite_eq', if_pos hi, Complex.mul_conj']
  exact_mod_cast hc

/-- What the link delivers: the symbols, and an orthonormal combination of the noise values. -/
theorem shapedLink_eq {L : Nat} (hL : 0 < L) (s : Fin L → ℂ) (n : Nat) (hn : 2 ≤ n) (fb beta snr : ℝ) (hfb : 0 < fb) (hb : 0 < beta) (hb1 : beta ≤ 1) :
    ∃ A : Fin L → Fin (n * L) → ℂ, (∀ m m', ∑ j, A m j * (starRingEnd ℂ) (A m' j) = if m = m' then 1 else 0) ∧
      ∀ w, shapedLink s n fb beta snr w = .ok (List.ofFn fun m =>
        (s m + ((Real.sqrt (meanR ((List.ofFn s).map fun z => ‖z‖ ^ 2)) * (10 : ℝ) ^ (-snr / 20) / Real.sqrt 2 : ℝ) : ℂ) * ∑ j, A m j * toC (w j)) / n) := by
  obtain ⟨S, hS⟩ : ∃ S, S = List.ofFn s := ⟨_, rfl⟩
  have hSl : S.length = L := by rw [hS, List.length_ofFn]
  have hSne : S ≠ [] := by rintro rfl; simp at hSl; omega
  have hT : (0 : ℝ) < 1 / fb := by positivity
  have hNpos : 0 < n * L := Nat.mul_pos (by omega) hL
  have hn0 : (n : ℂ) ≠ 0 := by exact_mod_cast (by omega : n ≠ 0)
  have hnr : (0 : ℝ) < n := by exact_mod_cast (by omega : 0 < n)
  have hLr : (0 : ℝ) < L := by exact_mod_cast hL
  have hlen : (insertZeros 0 n S).length = n * L := by rw [length_insertZeros _ _ (by omega), hSl]
  obtain ⟨g, hg⟩ : ∃ g : Nat → ℝ, g = fun m => rrcosFreq beta (1 / fb) (fftfreq (n * L) 1 m * (n * fb)) / Real.sqrt (1 / fb) := ⟨_, rfl⟩
  obtain ⟨H, hH⟩ : ∃ H : List ℂ, H = ((List.range (n * L)).map g).map fun (v : ℝ) => (v : ℂ) := ⟨_, rfl⟩
  have hHl : H.length = n * L := by rw [hH]; simp
  have hHat : ∀ k < n * L, at0 H k = g k := by
    intro k hk
    apply at0_of_some
    rw [hH, List.getElem?_map, List.getElem?_map, List.getElem?_range hk]
    rfl
  have hpulse : ∀ x : List ℂ, x.length = n * L → rrcosPulseFreq (n * fb) (1 / fb) beta x = .ok (ifft (rowMul (fft x) H)) := by
    intro x hx
    unfold rrcosPulseFreq
    rw [hx, rrcosFilter_eq _ hNpos _ _ _ hT hb1, hH, hg]
    rfl
  have hfold : ∀ a < L, ∑ b ∈ Finset.range n, g (a + L * b) ^ 2 = 1 := by
    intro a ha
    have : ∀ b ∈ Finset.range n, g (a + L * b) ^ 2 = rcosFreq beta (1 / fb) (fftfreq (n * L) 1 (a + L * b) * (n * fb)) / (1 / fb) := by
      intro b _
      rw [hg]
      dsimp only
      rw [div_pow, Real.sq_sqrt hT.le, (C49_spectrum beta _ _ hT).2.2.2.2.2.2]
    rw [Finset.sum_congr rfl this, ← Finset.sum_div, folded_one n L a hn ha fb beta hfb hb hb1, div_self hT.ne']
  obtain ⟨TX, hTX⟩ : ∃ TX, TX = ifft (rowMul (fft (insertZeros 0 n S)) H) := ⟨_, rfl⟩
  have hTXl : TX.length = n * L := by rw [hTX, length_ifft, length_rowMul, length_fft, hlen, hHl, Nat.min_self]
  have htx : rrcosResample 0 (rrcosPulseFreq (n * fb) (1 / fb) beta) n 1 S = .ok TX := by
    unfold rrcosResample
    rw [if_neg (by omega), Int.toNat_natCast, hpulse _ hlen]
    show Except.ok (Np.strided _ 1) = _
    rw [strided_one, hTX]
  have hen : energy TX = energy S / n := by
    rw [hTX]
    exact energy_shaped n (by omega) S g (by rw [hSl]; exact hfold) H (by rw [hSl]; exact hHl) (by rw [hSl]; exact hHat)
  have hbind : ∀ (x : List ℂ) (f : List ℂ → Except PyErr (List ℂ)), ((Except.ok x : Except PyErr (List ℂ)) >>= f) = f x := fun _ _ => rfl
  have hmf := C107_matched_filter S hSne n hn fb beta hfb hb hb1
  rw [htx, hbind, hpulse TX hTXl, hbind] at hmf
  have hmf' : Np.strided (ifft (rowMul (fft TX) H)) n = S.map fun z => z / (n : ℂ) := Except.ok.inj hmf
  have hrl : ∀ x : List ℂ, x.length = n * L → (ifft (rowMul (fft x) H)).length = n * L := by
    intro x hx
    rw [length_ifft, length_rowMul, length_fft, hx, hHl, Nat.min_self]
  have hmn : ∀ m : Fin L, (m : Nat) * n < n * L := fun m => by rw [mul_comm]; exact Nat.mul_lt_mul_of_pos_left m.2 (by omega)
  have hmf2 : ∀ m : Fin L, ∑ j ∈ Finset.range (n * L), at0 TX j * kern (n * L) g (m * n) j = s m / n := by
    intro m
    have h1 := filter_at TX H g (by rw [hHl, hTXl]) (by rw [hTXl]; exact hHat) (m * n) (by rw [hTXl]; exact hmn m)
    rw [hTXl] at h1
    rw [← h1]
    apply at0_of_some
    rw [← getElem?_strided' _ _ (by omega), hmf', List.getElem?_map, hS]
    simp
  refine ⟨fun m j => (Real.sqrt n : ℂ) * kern (n * L) g (m * n) j, ?_, ?_⟩
  · intro m m'
    have h1 := kern_orth n L (by omega) g hfold m m' m.2 m'.2
    rw [← Fin.sum_univ_eq_sum_range (fun j => kern (n * L) g (m * n) j * (starRingEnd ℂ) (kern (n * L) g (m' * n) j))] at h1
    have h2 : ∀ j : Fin (n * L), (Real.sqrt n : ℂ) * kern (n * L) g (m * n) j * (starRingEnd ℂ) ((Real.sqrt n : ℂ) * kern (n * L) g (m' * n) j) =
        n * (kern (n * L) g (m * n) j * (starRingEnd ℂ) (kern (n * L) g (m' * n) j)) := by
      intro j
      have h3 : (Real.sqrt n : ℂ) * (Real.sqrt n : ℂ) = n := by
        rw [← Complex.ofReal_mul, Real.mul_self_sqrt hnr.le, Complex.ofReal_natCast]
      rw [map_mul, Complex.conj_ofReal]
      linear_combination (kern (n * L) g (m * n) j * (starRingEnd ℂ) (kern (n * L) g (m' * n) j)) * h3
    rw [Finset.sum_congr rfl fun j _ => h2 j, ← Finset.mul_sum, h1]
    by_cases e : m = m'
    · rw [if_pos e, if_pos (by rw [e])]; field_simp
    · rw [if_neg e, if_neg (fun h => e (Fin.ext h)), mul_zero]
  · intro w
    unfold shapedLink
    rw [← hS, htx, hbind]
    have hTXf : TX = List.ofFn fun k : Fin (n * L) => at0 TX k := by
      apply ext_at0 (by simp [hTXl])
      intro k hk
      rw [hTXl] at hk
      exact (at0_of_some (by rw [List.getElem?_ofFn, dif_pos hk])).symm
    obtain ⟨sg, hsg⟩ : ∃ sg : ℝ, sg = Real.sqrt (meanR ([TX].flatten.map fun z => ‖z‖ ^ 2)) * ((10 : ℝ) ^ (-snr / 20) * Real.sqrt (n * fb / fb)) := ⟨_, rfl⟩
    obtain ⟨r, hr⟩ : ∃ r, r = (changeSnr [TX] snr fb (n * fb) [List.ofFn fun k => (w k).1] [List.ofFn fun k => (w k).2]).getD 0 [] := ⟨_, rfl⟩
    have hr2 : r = List.ofFn fun k : Fin (n * L) => at0 TX k + ⟨sg / Real.sqrt 2 * (w k).1, sg / Real.sqrt 2 * (w k).2⟩ := by
      rw [← addAwgn_ofFn, ← hTXf, hr, hsg]
      rfl
    have hrlen : r.length = n * L := by rw [hr2, List.length_ofFn]
    have hrat : ∀ k : Fin (n * L), at0 r k = at0 TX k + ((sg / Real.sqrt 2 : ℝ) : ℂ) * toC (w k) := by
      intro k
      apply at0_of_some
      rw [hr2, List.getElem?_ofFn, dif_pos k.2]
      congr 2
      apply Complex.ext <;> simp [toC]
    dsimp only
    rw [← hr, hpulse r hrlen, hbind]
    refine congrArg Except.ok ?_
    have hsgv : sg / Real.sqrt 2 = Real.sqrt (meanR (S.map fun z => ‖z‖ ^ 2)) * (10 : ℝ) ^ (-snr / 20) / Real.sqrt 2 / Real.sqrt n := by
      have hp : meanR ([TX].flatten.map fun z => ‖z‖ ^ 2) = meanR (S.map fun z => ‖z‖ ^ 2) / n ^ 2 := by
        have h1 : ∀ l : List ℂ, meanR (l.map fun z => ‖z‖ ^ 2) = energy l / l.length := by
          intro l
          unfold meanR energy
          rw [List.length_map]
        rw [List.flatten_singleton, h1, h1, hen, hTXl, hSl]
        push_cast
        field_simp
      rw [hsg, hp, Real.sqrt_div' _ (by positivity), Real.sqrt_sq hnr.le, mul_div_assoc (n : ℝ), div_self hfb.ne', mul_one]
      have h2 : Real.sqrt n * Real.sqrt n = n := Real.mul_self_sqrt hnr.le
      have h3 : 0 < Real.sqrt n := Real.sqrt_pos.2 hnr
      field_simp
      linear_combination (Real.sqrt (meanR (S.map fun z => ‖z‖ ^ 2))) * h2
    apply List.ext_getElem?
    intro m
    rw [getElem?_strided' _ _ (by omega)]
    rcases Nat.lt_or_ge m L with hm | hm
    swap
    · rw [List.getElem?_eq_none (by rw [hrl r hrlen, mul_comm]; exact Nat.mul_le_mul_right _ hm), List.getElem?_eq_none (by rw [List.length_ofFn]; exact hm)]
    rw [at0_getElem? (by rw [hrl r hrlen]; exact hmn ⟨m, hm⟩), List.getElem?_ofFn, dif_pos hm]
    congr 1
    have h1 := filter_at r H g (by rw [hHl, hrlen]) (by rw [hrlen]; exact hHat) (m * n) (by rw [hrlen]; exact hmn ⟨m, hm⟩)
    rw [hrlen] at h1
    rw [h1, ← Fin.sum_univ_eq_sum_range (fun j => at0 r j * kern (n * L) g (m * n) j)]
    have h2 : ∀ j : Fin (n * L), at0 r j * kern (n * L) g (m * n) j = at0 TX j * kern (n * L) g (m * n) j + ((sg / Real.sqrt 2 : ℝ) : ℂ) * (kern (n * L) g (m * n) j * toC (w j)) := by
      intro j
      rw [hrat]
      ring
    rw [Finset.sum_congr rfl fun j _ => h2 j, Finset.sum_add_distrib, Fin.sum_univ_eq_sum_range (fun j => at0 TX j * kern (n * L) g (m * n) j), hmf2 ⟨m, hm⟩,
      ← Finset.mul_sum, hsgv]
    have h4 : ∑ j : Fin (n * L), (Real.sqrt n : ℂ) * kern (n * L) g (m * n) j * toC (w j) = (Real.sqrt n : ℂ) * ∑ j : Fin (n * L), kern (n * L) g (m * n) j * toC (w j) := by
      rw [Finset.mul_sum]
      exact Finset.sum_congr rfl fun j _ => mul_assoc _ _ _
    dsimp only
    rw [h4]
    have h5 : (Real.sqrt n : ℂ) * (Real.sqrt n : ℂ) = n := by
      rw [← Complex.ofReal_mul, Real.mul_self_sqrt hnr.le, Complex.ofReal_natCast]
    have h6 : (Real.sqrt n : ℂ) ≠ 0 := by
      intro h; rw [h, mul_zero] at h5; exact hn0 h5.symm
    generalize Real.sqrt (meanR (S.map fun z => ‖z‖ ^ 2)) * (10 : ℝ) ^ (-snr / 20) / Real.sqrt 2 = q
    generalize ∑ j : Fin (n * L), kern (n * L) g (m * n) j * toC (w j) = K
    rw [Complex.ofReal_div]
    have h7 : (q : ℂ) / (Real.sqrt n : ℂ) = q * (Real.sqrt n : ℂ) / n := by
      rw [← h5]
      field_simp
    rw [h7]
    ring

/-- The received symbols without the gain `1/n` of the two filters (C107), as a function of the position. -/
noncomputable def shapedRx {L : Nat} (s : Fin L → ℂ) (n : Nat) (fb beta snr : ℝ) (w : Fin (n * L) → ℝ × ℝ) (m : Fin L) : ℂ :=
  match shapedLink s n fb beta snr w with
  | .ok r => n * r.getD m 0
  | .error _ => 0

/-- **C231** Symbols shaped with a root raised cosine filter at `n ≥ 2` samples per symbol, noise added by `change_snr` at that sampling rate, the matched filter, one sample per
symbol: the received symbols have, jointly, exactly the distribution of symbols that are sent at one sample per symbol through `change_snr` with the same SNR. -/
theorem C231_law {L : Nat} (hL : 0 < L) (s : Fin L → ℂ) (n : Nat) (hn : 2 ≤ n) (fb beta snr : ℝ) (hfb : 0 < fb) (hb : 0 < beta) (hb1 : beta ≤ 1) :
    (∀ w, ∃ r, shapedLink s n fb beta snr w = .ok r ∧ r.length = L) ∧
    (noiseLaw (n * L)).map (shapedRx s n fb beta snr) =
      (noiseLaw L).map fun w (m : Fin L) => ((changeSnr [List.ofFn s] snr fb fb [List.ofFn fun k => (w k).1] [List.ofFn fun k => (w k).2]).getD 0 []).getD m 0 := by
  obtain ⟨A, hA, hw⟩ := shapedLink_eq hL s n hn fb beta snr hfb hb hb1
  refine ⟨fun w => ⟨_, hw w, List.length_ofFn⟩, ?_⟩
  have hn0 : (n : ℂ) ≠ 0 := by exact_mod_cast (by omega : n ≠ 0)
  generalize hc : Real.sqrt (meanR ((List.ofFn s).map fun z => ‖z‖ ^ 2)) * (10 : ℝ) ^ (-snr / 20) / Real.sqrt 2 = c at hw
  have e1 : shapedRx s n fb beta snr = (fun (v : Fin L → ℂ) m => s m + (c : ℂ) * v m) ∘ fun w m => ∑ j, A m j * toC (w j) := by
    funext w m
    unfold shapedRx
    rw [hw]
    simp only [Function.comp_apply, List.getD_eq_getElem?_getD, List.getElem?_ofFn, m.2, dif_pos, Option.getD_some]
    rw [mul_div_cancel₀ _ hn0]
  have e2 : (fun (w : Fin L → ℝ × ℝ) (m : Fin L) => ((changeSnr [List.ofFn s] snr fb fb [List.ofFn fun k => (w k).1] [List.ofFn fun k => (w k).2]).getD 0 []).getD m 0) =
      (fun (v : Fin L → ℂ) m => s m + (c : ℂ) * v m) ∘ fun w m => toC (w m) := by
    funext w m
    have hch : (changeSnr [List.ofFn s] snr fb fb [List.ofFn fun k => (w k).1] [List.ofFn fun k => (w k).2]).getD 0 [] =
        addAwgn (List.ofFn s) (Real.sqrt (meanR ([List.ofFn s].flatten.map fun z => ‖z‖ ^ 2)) * ((10 : ℝ) ^ (-snr / 20) * Real.sqrt (fb / fb)))
          (List.ofFn fun k => (w k).1) (List.ofFn fun k => (w k).2) := rfl
    rw [hch, addAwgn_ofFn, List.flatten_singleton, div_self hfb.ne', Real.sqrt_one, mul_one, hc]
    simp only [Function.comp_apply, List.getD_eq_getElem?_getD, List.getElem?_ofFn, m.2, dif_pos, Option.getD_some]
    congr 1
    apply Complex.ext <;> simp [toC]
  have hm1 : Measurable fun (v : Fin L → ℂ) (m : Fin L) => s m + (c : ℂ) * v m := by fun_prop
  have hm2 : Measurable fun (w : Fin (n * L) → ℝ × ℝ) (m : Fin L) => ∑ j, A m j * toC (w j) := (combine A).continuous.measurable
  have hm3 : Measurable fun (w : Fin L → ℝ × ℝ) (m : Fin L) => toC (w m) := by
    have : (fun (w : Fin L → ℝ × ℝ) (m : Fin L) => toC (w m)) = combine (fun m j : Fin L => if m = j then (1 : ℂ) else 0) := by
      funext w m
      rw [combine_apply]
      simp
    rw [this]
    exact (combine _).continuous.measurable
  rw [e1, e2, ← Measure.map_map hm1 hm2, ← Measure.map_map hm1 hm3, combine_law A hA]

theorem measurable_shapedRx {L : Nat} (hL : 0 < L) (s : Fin L → ℂ) (n : Nat) (hn : 2 ≤ n) (fb beta snr : ℝ) (hfb : 0 < fb) (hb : 0 < beta) (hb1 : beta ≤ 1) :
    Measurable (shapedRx s n fb beta snr) := by
  obtain ⟨A, hA, hw⟩ := shapedLink_eq hL s n hn fb beta snr hfb hb hb1
  have hn0 : (n : ℂ) ≠ 0 := by exact_mod_cast (by omega : n ≠ 0)
  generalize Real.sqrt (meanR ((List.ofFn s).map fun z => ‖z‖ ^ 2)) * (10 : ℝ) ^ (-snr / 20) / Real.sqrt 2 = c at hw
  have e1 : shapedRx s n fb beta snr = (fun (v : Fin L → ℂ) m => s m + (c : ℂ) * v m) ∘ combine A := by
    funext w m
    unfold shapedRx
    rw [hw]
    simp only [Function.comp_apply, List.getD_eq_getElem?_getD, List.getElem?_ofFn, m.2, dif_pos, Option.getD_some]
    rw [mul_div_cancel₀ _ hn0, combine_apply]
  rw [e1]
  exact (by fun_prop : Measurable fun (v : Fin L → ℂ) (m : Fin L) => s m + (c : ℂ) * v m).comp (combine A).continuous.measurable

/-- The samples of `change_snr` at one sample per symbol. -/
theorem directRx_eq {L : Nat} (s : Fin L → ℂ) (snr fb : ℝ) : ∃ sg : ℝ, ∀ w : Fin L → ℝ × ℝ,
    (changeSnr [List.ofFn s] snr fb fb [List.ofFn fun k => (w k).1] [List.ofFn fun k => (w k).2]).getD 0 [] =
      List.ofFn (fun m : Fin L => ((changeSnr [List.ofFn s] snr fb fb [List.ofFn fun k => (w k).1] [List.ofFn fun k => (w k).2]).getD 0 []).getD m 0) ∧
    ∀ m : Fin L, ((changeSnr [List.ofFn s] snr fb fb [List.ofFn fun k => (w k).1] [List.ofFn fun k => (w k).2]).getD 0 []).getD m 0 = s m + ⟨sg / Real.sqrt 2 * (w m).1, sg / Real.sqrt 2 * (w m).2⟩ := by
  obtain ⟨sg, hsg⟩ := changeSnr_ofFn s snr fb fb
  have h : ∀ w : Fin L → ℝ × ℝ, ∀ m : Fin L, ((changeSnr [List.ofFn s] snr fb fb [List.ofFn fun k => (w k).1] [List.ofFn fun k => (w k).2]).getD 0 []).getD m 0 = s m + ⟨sg / Real.sqrt 2 * (w m).1, sg / Real.sqrt 2 * (w m).2⟩ := by
    intro w m
    rw [hsg, List.getD_eq_getElem?_getD, List.getElem?_ofFn, dif_pos m.2, Option.getD_some]
  refine ⟨sg, fun w => ⟨?_, h w⟩⟩
  simp_rw [h]
  exact hsg w

theorem measurable_directRx {L : Nat} (s : Fin L → ℂ) (snr fb : ℝ) : Measurable fun (w : Fin L → ℝ × ℝ) (m : Fin L) =>
    ((changeSnr [List.ofFn s] snr fb fb [List.ofFn fun k => (w k).1] [List.ofFn fun k => (w k).2]).getD 0 []).getD m 0 := by
  obtain ⟨sg, h⟩ := directRx_eq s snr fb
  rw [measurable_pi_iff]
  intro m
  simp_rw [(h _).2]
  exact (measurable_rcv (s m) _).comp (measurable_pi_apply m)

/-- Any measurable quantity of the received symbols has the same average on both links. -/
theorem shaped_integral {L : Nat} (hL : 0 < L) (s : Fin L → ℂ) (n : Nat) (hn : 2 ≤ n) (fb beta snr : ℝ) (hfb : 0 < fb) (hb : 0 < beta) (hb1 : beta ≤ 1)
    (f : (Fin L → ℂ) → ℝ) (hf : Measurable f) :
    ∫ w, f (shapedRx s n fb beta snr w) ∂noiseLaw (n * L) =
      ∫ w, f (fun m : Fin L => ((changeSnr [List.ofFn s] snr fb fb [List.ofFn fun k => (w k).1] [List.ofFn fun k => (w k).2]).getD 0 []).getD m 0) ∂noiseLaw L := by
  rw [← integral_map (measurable_shapedRx hL s n hn fb beta snr hfb hb hb1).aemeasurable hf.aestronglyMeasurable, (C231_law hL s n hn fb beta snr hfb hb hb1).2,
    integral_map (measurable_directRx s snr fb).aemeasurable hf.aestronglyMeasurable]

theorem measurable_ser {L : Nat} (coded : List ℂ) (hne : coded ≠ []) (s : Fin L → ℂ) : Measurable fun v : Fin L → ℂ => (((calSer coded (List.ofFn v) (List.ofFn s)).getD 0 : ℚ) : ℝ) := by
  have e : (fun v : Fin L → ℂ => (((calSer coded (List.ofFn v) (List.ofFn s)).getD 0 : ℚ) : ℝ)) =
      fun v => (∑ k, if coded.getD (decIdx coded (v k)) 0 - s k ≠ 0 then (1 : ℝ) else 0) / L := by
    funext v
    rw [calSer_ofFn_any hne, Option.getD_some]
    push_cast
    congr 1
    refine Finset.sum_congr rfl fun k _ => ?_
    split_ifs <;> simp
  rw [e]
  refine Measurable.div_const (Finset.measurable_sum _ fun k _ => ?_) _
  exact (measurable_from_top (f := fun j : Nat => if coded.getD j 0 - s k ≠ 0 then (1 : ℝ) else 0)).comp ((measurable_decIdx hne).comp (measurable_pi_apply k))

/-- **C231** The error of every received symbol has the power of the symbols divided by the requested SNR. -/
theorem C231_snr {L : Nat} (hL : 0 < L) (s : Fin L → ℂ) (n : Nat) (hn : 2 ≤ n) (fb beta snr : ℝ) (hfb : 0 < fb) (hb : 0 < beta) (hb1 : beta ≤ 1) (m : Fin L) :
    ∫ w, ‖shapedRx s n fb beta snr w m - s m‖ ^ 2 ∂noiseLaw (n * L) = ((∑ k, ‖s k‖ ^ 2) / L) / (10 : ℝ) ^ (snr / 10) := by
  rw [shaped_integral hL s n hn fb beta snr hfb hb hb1 (fun v => ‖v m - s m‖ ^ 2) (by fun_prop)]
  obtain ⟨c, hc, hch⟩ := changeSnr_sample [List.ofFn s] snr fb fb (by rw [div_self hfb.ne']; exact zero_le_one)
  have hv : ∀ w : Fin L → ℝ × ℝ, ((changeSnr [List.ofFn s] snr fb fb [List.ofFn fun k => (w k).1] [List.ofFn fun k => (w k).2]).getD 0 []).getD m 0 = s m + c * ((w m).1 + Complex.I * (w m).2) := by
    intro w
    obtain ⟨o, ho, hok⟩ := hch [List.ofFn fun k => (w k).1] [List.ofFn fun k => (w k).2] 0 m (List.ofFn s) (List.ofFn fun k => (w k).1) (List.ofFn fun k => (w k).2) (s m) (w m).1 (w m).2
      rfl rfl rfl (by simp) (by simp) (by simp)
    rw [List.getD_eq_getElem?_getD, List.getD_eq_getElem?_getD (l := changeSnr _ _ _ _ _ _), ho, Option.getD_some, hok, Option.getD_some]
  have hn2 : ∀ w : Fin L → ℝ × ℝ, ‖((changeSnr [List.ofFn s] snr fb fb [List.ofFn fun k => (w k).1] [List.ofFn fun k => (w k).2]).getD 0 []).getD m 0 - s m‖ ^ 2 = c ^ 2 * ((w m).1 ^ 2 + (w m).2 ^ 2) := by
    intro w
    rw [hv, add_sub_cancel_left, ← Complex.normSq_eq_norm_sq, Complex.normSq_apply]
    simp
    ring
  simp_rw [hn2]
  have hsq : Integrable (fun x : ℝ => x ^ 2) stdN := (memLp_id_gaussianReal (μ := 0) (v := 1) 2).integrable_sq
  have hv1 : ∫ x, x ^ 2 ∂stdN = 1 := by
    have := variance_id_gaussianReal (μ := 0) (v := 1)
    rw [variance_eq_integral aemeasurable_id] at this
    simpa using this
  have hint : ∫ w, c ^ 2 * ((w m).1 ^ 2 + (w m).2 ^ 2) ∂noiseLaw L = c ^ 2 * 2 := by
    have h1 : ∫ w : Fin L → ℝ × ℝ, c ^ 2 * ((w m).1 ^ 2 + (w m).2 ^ 2) ∂noiseLaw L = ∫ p : ℝ × ℝ, c ^ 2 * (p.1 ^ 2 + p.2 ^ 2) ∂stdN2 :=
      integral_comp_eval (μ := fun _ : Fin L => stdN2) (i := m) (f := fun p : ℝ × ℝ => c ^ 2 * (p.1 ^ 2 + p.2 ^ 2)) (by fun_prop)
    rw [h1, integral_const_mul, integral_add (hsq.comp_fst stdN) (hsq.comp_snd stdN)]
    congr 1
    have h2 : ∫ p : ℝ × ℝ, p.1 ^ 2 ∂stdN2 = 1 := by rw [integral_fun_fst (fun x : ℝ => x ^ 2), hv1]; simp
    have h3 : ∫ p : ℝ × ℝ, p.2 ^ 2 ∂stdN2 = 1 := by rw [integral_fun_snd (fun x : ℝ => x ^ 2), hv1]; simp
    rw [h2, h3]
    norm_num
  rw [hint, mul_comm, hc, div_self hfb.ne', mul_one, List.flatten_singleton]
  have hme : meanR ((List.ofFn s).map fun z => ‖z‖ ^ 2) = (∑ k, ‖s k‖ ^ 2) / L := by
    unfold meanR
    rw [List.map_ofFn, List.sum_ofFn, List.length_ofFn]
    rfl
  rw [hme]
  rfl

/-- **C231** Square QAM of any order with equally frequent symbols: the symbol error rate measured behind the matched filter is on average the value of the formula
for the SNR given to `change_snr`, and a single measurement is `ε` or more away from it with probability at most `2 exp (-2 L ε²)`. -/
theorem C231_ser {N L : Nat} (hN : 1 ≤ N) (hL : 0 < L) (s : Fin L → ℂ) (hbal : EquallyOften (qamCodedSymbols (2 * N) (Real.sqrt (scalingFactor (2 * N) : ℝ))) s) (n : Nat) (hn : 2 ≤ n)
    (fb beta snr ε : ℝ) (hfb : 0 < fb) (hb : 0 < beta) (hb1 : beta ≤ 1) (hε : 0 < ε) :
    let coded := qamCodedSymbols (2 * N) (Real.sqrt (scalingFactor (2 * N) : ℝ))
    let ser : (Fin (n * L) → ℝ × ℝ) → ℝ := fun w => (((calSer coded (List.ofFn (shapedRx s n fb beta snr w)) (List.ofFn s)).getD 0 : ℚ) : ℝ)
    ∫ w, ser w ∂noiseLaw (n * L) = serQam (dB2lin snr) (4 ^ N) ∧
    (noiseLaw (n * L)).real {w | ε ≤ |ser w - serQam (dB2lin snr) (4 ^ N)|} ≤ 2 * Real.exp (-(2 * L * ε ^ 2)) := by
  intro coded ser
  have hne : coded ≠ [] := by
    intro h
    have := length_qamCoded (2 * N) (Real.sqrt (scalingFactor (2 * N) : ℝ))
    rw [show qamCodedSymbols (2 * N) (Real.sqrt (scalingFactor (2 * N) : ℝ)) = [] from h, List.length_nil] at this
    exact absurd this.symm (by positivity)
  obtain ⟨sg, hd⟩ := directRx_eq s snr fb
  constructor
  · rw [shaped_integral hL s n hn fb beta snr hfb hb hb1 (fun v => (((calSer coded (List.ofFn v) (List.ofFn s)).getD 0 : ℚ) : ℝ)) (measurable_ser coded hne s)]
    simp_rw [← (hd _).1]
    exact (C115_ser hN hL s hbal snr fb hfb).2
  · have hms : MeasurableSet {v : Fin L → ℂ | ε ≤ |(((calSer coded (List.ofFn v) (List.ofFn s)).getD 0 : ℚ) : ℝ) - serQam (dB2lin snr) (4 ^ N)|} :=
      measurableSet_le measurable_const (((measurable_ser coded hne s).sub_const _).abs)
    have h1 : (noiseLaw (n * L)).real {w | ε ≤ |ser w - serQam (dB2lin snr) (4 ^ N)|} =
        ((noiseLaw (n * L)).map (shapedRx s n fb beta snr)).real {v : Fin L → ℂ | ε ≤ |(((calSer coded (List.ofFn v) (List.ofFn s)).getD 0 : ℚ) : ℝ) - serQam (dB2lin snr) (4 ^ N)|} := by
      rw [map_measureReal_apply (measurable_shapedRx hL s n hn fb beta snr hfb hb hb1) hms]
      rfl
    rw [h1, (C231_law hL s n hn fb beta snr hfb hb hb1).2, map_measureReal_apply (measurable_directRx s snr fb) hms]
    refine le_trans (le_of_eq ?_) (C211_qam hN hL s hbal snr fb ε hfb hε).1
    congr 1
    ext w
    simp only [Set.mem_preimage, Set.mem_ofPred_eq]
    rw [← (hd w).1]

/-- Three QPSK symbols at two samples per symbol, roll-off 0.2, 12 dB, symbol rate 20 GBd: the error power behind the matched filter is `10 ^ (-1.2)`. -/
example (m : Fin 3) : ∫ w, ‖shapedRx ![1, Complex.I, -1] 2 (20 * 10 ^ 9) (1 / 5) 12 w m - (![1, Complex.I, -1] : Fin 3 → ℂ) m‖ ^ 2 ∂noiseLaw (2 * 3) = 1 / (10 : ℝ) ^ ((12 : ℝ) / 10) := by
  rw [C231_snr (by norm_num) _ 2 (by norm_num) (20 * 10 ^ 9) (1 / 5) 12 (by norm_num) (by norm_num) (by norm_num) m]
  congr 1
  simp [Fin.sum_univ_three]
  norm_num

/-- 160000 equally frequent 16-QAM symbols at four samples per symbol: a measured symbol error rate 0.01 away from the formula has probability at most `2 exp (-32)`. -/
example (s : Fin 160000 → ℂ) (hbal : EquallyOften (qamCodedSymbols (2 * 2) (Real.sqrt (scalingFactor (2 * 2) : ℝ))) s) (snr : ℝ) :
    (noiseLaw (4 * 160000)).real {w | (0.01 : ℝ) ≤ |(((calSer (qamCodedSymbols (2 * 2) (Real.sqrt (scalingFactor (2 * 2) : ℝ)))
      (List.ofFn (shapedRx s 4 1 (1 / 10) snr w)) (List.ofFn s)).getD 0 : ℚ) : ℝ) - serQam (dB2lin snr) (4 ^ 2)|} ≤ 2 * Real.exp (-32) := by
  have := (C231_ser (N := 2) (by norm_num) (by norm_num) s hbal 4 (by norm_num) 1 (1 / 10) snr 0.01 one_pos (by norm_num) (by norm_num) (by norm_num)).2
  refine this.trans (le_of_eq ?_)
  congr 2
  norm_num

end Qampy
