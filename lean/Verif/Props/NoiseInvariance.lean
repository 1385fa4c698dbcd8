import Verif.Lemmas.Unitary
import Verif.Props.OversampledSnr
import Verif.Props.Filters
import Verif.Props.Impairments

/-!
C233: undoing dispersion and PMD leaves the noise as it was.
-/

namespace Qampy

open MeasureTheory ProbabilityTheory

theorem ofFn_at0 (x : List ℂ) {N : Nat} (hx : x.length = N) : x = List.ofFn fun k : Fin N => at0 x k := by
  apply ext_at0 (by rw [List.length_ofFn, hx])
  intro n hn
  symm
  apply at0_of_some
  rw [List.getElem?_ofFn, dif_pos (by omega)]

theorem at0_ofFn' {N : Nat} (z : Fin N → ℂ) (k : Fin N) : at0 (List.ofFn z) k = z k := by
  apply at0_of_some
  rw [List.getElem?_ofFn, dif_pos k.2]

theorem getD_eq_at0 (x : List ℂ) (m : Nat) : x.getD m 0 = at0 x m := rfl

theorem sum_norm_energy {N : Nat} (z : Fin N → ℂ) : ∑ k, ‖z k‖ ^ 2 = energy (List.ofFn z) := by
  rw [energy, List.map_ofFn, List.sum_ofFn]
  rfl

/-- A linear map that keeps the energy, applied to a signal in white noise. -/
theorem isMat_law {N : Nat} {f : List ℂ → List ℂ} (hf : IsMat N f) (he : ∀ x : List ℂ, x.length = N → energy (f x) = energy x) (x s : Fin N → ℂ) (hx : f (List.ofFn x) = List.ofFn s) (c : ℝ) :
    (∀ w : Fin N → ℝ × ℝ, (f (List.ofFn fun k => x k + c * toC (w k))).length = N) ∧
    Measurable (fun (w : Fin N → ℝ × ℝ) (m : Fin N) => (f (List.ofFn fun k => x k + c * toC (w k))).getD m 0) ∧
    (noiseLaw N).map (fun w (m : Fin N) => (f (List.ofFn fun k => x k + c * toC (w k))).getD m 0) = (noiseLaw N).map (fun w m => s m + c * toC (w m)) := by
  obtain ⟨A, hA⟩ := hf
  refine ⟨fun w => (hA _ List.length_ofFn).1, ?_⟩
  have hAt : ∀ (z : Fin N → ℂ) (m : Fin N), at0 (f (List.ofFn z)) m = ∑ j : Fin N, A m j * z j := by
    intro z m
    rw [(hA _ List.length_ofFn).2 m m.2, ← Fin.sum_univ_eq_sum_range (fun j => A m j * at0 (List.ofFn z) j)]
    exact Finset.sum_congr rfl fun j _ => by rw [at0_ofFn']
  have hen : ∀ v : Fin N → ℂ, ∑ m : Fin N, ‖∑ j : Fin N, A m j * v j‖ ^ 2 = ∑ m, ‖v m‖ ^ 2 := by
    intro v
    rw [sum_norm_energy v, ← he _ List.length_ofFn, ofFn_at0 _ (hA _ (List.length_ofFn (f := v))).1, ← sum_norm_energy]
    exact Finset.sum_congr rfl fun m _ => by rw [hAt]
  have hlaw := unitary_law (fun m j : Fin N => A m j) hen
  have hs : ∀ m : Fin N, s m = ∑ j : Fin N, A m j * x j := by
    intro m
    rw [← hAt, hx, at0_ofFn']
  have e1 : (fun (w : Fin N → ℝ × ℝ) (m : Fin N) => (f (List.ofFn fun k => x k + c * toC (w k))).getD m 0) =
      (fun (v : Fin N → ℂ) m => s m + (c : ℂ) * v m) ∘ combine (fun m j : Fin N => A m j) := by
    funext w m
    rw [getD_eq_at0, hAt, Function.comp_apply, combine_apply, hs, Finset.mul_sum, ← Finset.sum_add_distrib]
    refine Finset.sum_congr rfl fun j _ => ?_
    ring
  have e2 : (fun (w : Fin N → ℝ × ℝ) (m : Fin N) => s m + (c : ℂ) * toC (w m)) = (fun (v : Fin N → ℂ) m => s m + (c : ℂ) * v m) ∘ fun w m => toC (w m) := rfl
  have mg : Measurable fun (v : Fin N → ℂ) (m : Fin N) => s m + (c : ℂ) * v m := by fun_prop
  have mt : Measurable fun (w : Fin N → ℝ × ℝ) (m : Fin N) => toC (w m) := by
    rw [measurable_pi_iff]
    intro m
    have : Measurable toC := by
      have : toC = fun p : ℝ × ℝ => (p.1 : ℂ) + Complex.I * p.2 := funext toC_eq
      rw [this]
      fun_prop
    exact this.comp (measurable_pi_apply m)
  refine ⟨by rw [e1]; exact mg.comp (combine _).continuous.measurable, ?_⟩
  rw [e1, e2, ← Measure.map_map mg (combine _).continuous.measurable, ← Measure.map_map mg mt, ← hlaw]
  rfl

theorem isMat_disperse (N : Nat) (fs D L wl : ℝ) : IsMat N (disperseRow fs D L wl) := by
  refine ((isMat_fftshift N).comp ((isMat_ifft N).comp ((isMat_mul (dispH ((List.range N).map fun (m : Nat) => fftfreq N fs m * Real.pi * 2) D L wl)
    (by rw [length_dispH, List.length_map, List.length_range])).comp ((isMat_fft N).comp (isMat_ifftshift N))))).congr ?_
  intro x hx
  unfold disperseRow
  rw [hx]

/-- `change_snr` of one row in terms of the complex draws. -/
theorem changeSnr_toC {N : Nat} (x : List ℂ) (hx : x.length = N) (snr fb fs : ℝ) (w : Fin N → ℝ × ℝ) :
    (changeSnr [x] snr fb fs [List.ofFn fun k => (w k).1] [List.ofFn fun k => (w k).2]).getD 0 [] =
      List.ofFn fun k : Fin N => at0 x k + ((Real.sqrt (energy x / N) * ((10 : ℝ) ^ (-snr / 20) * Real.sqrt (fs / fb)) / Real.sqrt 2 : ℝ) : ℂ) * toC (w k) := by
  have hp : meanR ([x].flatten.map fun z => ‖z‖ ^ 2) = energy x / N := by
    unfold meanR energy
    rw [List.flatten_singleton, List.length_map, hx]
  change addAwgn x (Real.sqrt (meanR ([x].flatten.map fun z => ‖z‖ ^ 2)) * ((10 : ℝ) ^ (-snr / 20) * Real.sqrt (fs / fb))) _ _ = _
  rw [hp]
  conv_lhs => rw [ofFn_at0 x hx]
  rw [addAwgn_ofFn, ← ofFn_at0 x hx]
  congr 1
  funext k
  congr 1
  apply Complex.ext <;> simp [toC]

/-- A link with dispersion: the signal is dispersed (`add_dispersion`), noise is added (`change_snr`), and the dispersion is taken out again.
qampy/core/impairments.py:673-702 and 210-232. -/
noncomputable def dispLink (x : List ℂ) (fs fb D L wl snr : ℝ) (n1 n2 : List ℝ) : List ℂ :=
  (addDispersion (changeSnr (addDispersion [x] fs D L wl) snr fb fs [n1] [n2]) fs D (-L) wl).getD 0 []

theorem dispLink_eq {N : Nat} (x : Fin N → ℂ) (fs fb D L wl snr : ℝ) (w : Fin N → ℝ × ℝ) :
    dispLink (List.ofFn x) fs fb D L wl snr (List.ofFn fun k => (w k).1) (List.ofFn fun k => (w k).2) =
      disperseRow fs D (-L) wl (List.ofFn fun k : Fin N => at0 (disperseRow fs D L wl (List.ofFn x)) k +
        ((Real.sqrt (energy (List.ofFn x) / N) * ((10 : ℝ) ^ (-snr / 20) * Real.sqrt (fs / fb)) / Real.sqrt 2 : ℝ) : ℂ) * toC (w k)) := by
  have hl : (disperseRow fs D L wl (List.ofFn x)).length = N := by rw [length_disperseRow, List.length_ofFn]
  have h := changeSnr_toC (disperseRow fs D L wl (List.ofFn x)) hl snr fb fs w
  rw [energy_disperseRow] at h
  unfold dispLink
  rw [addDispersion_single, show changeSnr [disperseRow fs D L wl (List.ofFn x)] snr fb fs [List.ofFn fun k => (w k).1] [List.ofFn fun k => (w k).2] =
    [(changeSnr [disperseRow fs D L wl (List.ofFn x)] snr fb fs [List.ofFn fun k => (w k).1] [List.ofFn fun k => (w k).2]).getD 0 []] from rfl, h, addDispersion_single]
  rfl

/-- **C233** Dispersion that is taken out again behind the noise: the received samples have, jointly, exactly the distribution of the samples of a link without dispersion. -/
theorem C233_dispersion {N : Nat} (x : Fin N → ℂ) (fs fb D L wl snr : ℝ) :
    (∀ n1 n2 : Fin N → ℝ, (dispLink (List.ofFn x) fs fb D L wl snr (List.ofFn n1) (List.ofFn n2)).length = N) ∧
    Measurable (fun (w : Fin N → ℝ × ℝ) (m : Fin N) => (dispLink (List.ofFn x) fs fb D L wl snr (List.ofFn fun k => (w k).1) (List.ofFn fun k => (w k).2)).getD m 0) ∧
    (noiseLaw N).map (fun w (m : Fin N) => (dispLink (List.ofFn x) fs fb D L wl snr (List.ofFn fun k => (w k).1) (List.ofFn fun k => (w k).2)).getD m 0) =
      (noiseLaw N).map (fun w (m : Fin N) => ((changeSnr [List.ofFn x] snr fb fs [List.ofFn fun k => (w k).1] [List.ofFn fun k => (w k).2]).getD 0 []).getD m 0) := by
  have hl : (disperseRow fs D L wl (List.ofFn x)).length = N := by rw [length_disperseRow, List.length_ofFn]
  have h := isMat_law (isMat_disperse N fs D (-L) wl) (fun y _ => energy_disperseRow fs D (-L) wl y) (fun k => at0 (disperseRow fs D L wl (List.ofFn x)) k) x
    (by rw [← ofFn_at0 _ hl, disperseRow_add, add_neg_cancel, disperseRow_zero])
    (Real.sqrt (energy (List.ofFn x) / N) * ((10 : ℝ) ^ (-snr / 20) * Real.sqrt (fs / fb)) / Real.sqrt 2)
  refine ⟨fun n1 n2 => ?_, ?_, ?_⟩
  · have e := dispLink_eq x fs fb D L wl snr fun k => (n1 k, n2 k)
    dsimp only at e
    rw [e]
    exact h.1 fun k => (n1 k, n2 k)
  · simp_rw [dispLink_eq]
    exact h.2.1
  · simp_rw [dispLink_eq]
    rw [h.2.2]
    congr 1
    funext w m
    rw [changeSnr_toC _ List.length_ofFn, getD_eq_at0, at0_ofFn', at0_ofFn']

/-- A simulated link over dispersive fibre with pulse shaping: symbols are upsampled with the root raised cosine filter (`rrcos_resample`), dispersed, noise is added at the sampling
rate, the dispersion is taken out, the signal is filtered with the same filter again and sampled once per symbol. qampy/core/resample.py:73-127 (`taps=None`),
qampy/core/impairments.py:673-702 and 210-232, qampy/core/filter.py:149-175. -/
noncomputable def fibreLink {K : Nat} (s : Fin K → ℂ) (n : Nat) (fb beta D L wl snr : ℝ) (w : Fin (n * K) → ℝ × ℝ) : Except PyErr (List ℂ) := do
  let tx ← rrcosResample 0 (rrcosPulseFreq (n * fb) (1 / fb) beta) n 1 (List.ofFn s)
  let r := dispLink tx (n * fb) fb D L wl snr (List.ofFn fun k => (w k).1) (List.ofFn fun k => (w k).2)
  let rx ← rrcosPulseFreq (n * fb) (1 / fb) beta r
  return Np.strided rx n

/-- The received symbols without the gain `1/n` of the two filters. -/
noncomputable def fibreRx {K : Nat} (s : Fin K → ℂ) (n : Nat) (fb beta D L wl snr : ℝ) (w : Fin (n * K) → ℝ × ℝ) (m : Fin K) : ℂ :=
  match fibreLink s n fb beta D L wl snr w with
  | .ok r => n * r.getD m 0
  | .error _ => 0

/-- Both links are the same linear map of the received samples. -/
theorem links_common {K : Nat} (hK : 0 < K) (s : Fin K → ℂ) (n : Nat) (hn : 2 ≤ n) (fb beta snr : ℝ) (hfb : 0 < fb) (hb1 : beta ≤ 1) :
    ∃ (tx : Fin (n * K) → ℂ) (G : (Fin (n * K) → ℂ) → Fin K → ℂ), Measurable G ∧
      (∀ w, shapedRx s n fb beta snr w = G fun m => ((changeSnr [List.ofFn tx] snr fb (n * fb) [List.ofFn fun k => (w k).1] [List.ofFn fun k => (w k).2]).getD 0 []).getD m 0) ∧
      ∀ (D L wl : ℝ) (w : Fin (n * K) → ℝ × ℝ), (∃ r, fibreLink s n fb beta D L wl snr w = .ok r ∧ r.length = K) ∧
        fibreRx s n fb beta D L wl snr w = G fun m => (dispLink (List.ofFn tx) (n * fb) fb D L wl snr (List.ofFn fun k => (w k).1) (List.ofFn fun k => (w k).2)).getD m 0 := by
  have hT : (0 : ℝ) < 1 / fb := by positivity
  have hNpos : 0 < n * K := Nat.mul_pos (by omega) hK
  have hlen : (insertZeros 0 n (List.ofFn s)).length = n * K := by rw [length_insertZeros _ _ (by omega), List.length_ofFn]
  obtain ⟨H, hHl, hpulse⟩ : ∃ H : List ℂ, H.length = n * K ∧ ∀ x : List ℂ, x.length = n * K → rrcosPulseFreq (n * fb) (1 / fb) beta x = .ok (ifft (rowMul (fft x) H)) := by
    refine ⟨((List.range (n * K)).map fun m => rrcosFreq beta (1 / fb) (fftfreq (n * K) 1 m * (n * fb)) / Real.sqrt (1 / fb)).map fun (v : ℝ) => (v : ℂ), by simp, ?_⟩
    intro x hx
    unfold rrcosPulseFreq
    rw [hx, rrcosFilter_eq _ hNpos _ _ _ hT hb1]
    rfl
  have hbind : ∀ (x : List ℂ) (f : List ℂ → Except PyErr (List ℂ)), ((Except.ok x : Except PyErr (List ℂ)) >>= f) = f x := fun _ _ => rfl
  obtain ⟨TX, hTX⟩ : ∃ TX, TX = ifft (rowMul (fft (insertZeros 0 n (List.ofFn s))) H) := ⟨_, rfl⟩
  have hTXl : TX.length = n * K := by rw [hTX, length_ifft, length_rowMul, length_fft, hlen, hHl, Nat.min_self]
  have htx : rrcosResample 0 (rrcosPulseFreq (n * fb) (1 / fb) beta) n 1 (List.ofFn s) = .ok TX := by
    unfold rrcosResample
    rw [if_neg (by omega), Int.toNat_natCast, hpulse _ hlen]
    change Except.ok (Np.strided _ 1) = _
    rw [strided_one, hTX]
  obtain ⟨A, hA⟩ := (isMat_ifft (n * K)).comp ((isMat_mul H hHl).comp (isMat_fft (n * K)))
  have hmn : ∀ m : Fin K, (m : Nat) * n < n * K := fun m => by rw [mul_comm]; exact Nat.mul_lt_mul_of_pos_left m.2 (by omega)
  have hout : ∀ (r : List ℂ), r.length = n * K → ∀ m : Fin K, (Np.strided (ifft (rowMul (fft r) H)) n).getD m 0 = ∑ j : Fin (n * K), A (m * n) j * r.getD j 0 := by
    intro r hr m
    rw [List.getD_eq_getElem?_getD, getElem?_strided' _ _ (by omega), at0_getElem? (by rw [(hA r hr).1]; exact hmn m), Option.getD_some, (hA r hr).2 _ (hmn m),
      ← Fin.sum_univ_eq_sum_range (fun j => A (m * n) j * at0 r j)]
    rfl
  have hstr : ∀ r : List ℂ, r.length = n * K → (Np.strided (ifft (rowMul (fft r) H)) n).length = K := by
    intro r hr
    have h1 := (hA r hr).1
    have h2 : ∀ m : Nat, (Np.strided (ifft (rowMul (fft r) H)) n)[m]? = (ifft (rowMul (fft r) H))[m * n]? := fun m => getElem?_strided' _ _ (by omega) m
    apply le_antisymm
    · rw [← List.getElem?_eq_none_iff, h2, List.getElem?_eq_none_iff, h1, mul_comm]
    · by_contra hc
      push Not at hc
      have h3 := List.getElem?_eq_none_iff.2 (le_refl (Np.strided (ifft (rowMul (fft r) H)) n).length)
      rw [h2, List.getElem?_eq_none_iff, h1] at h3
      exact absurd (hmn ⟨_, hc⟩) (not_lt.2 h3)
  have hTXf : TX = List.ofFn fun k : Fin (n * K) => at0 TX k := ofFn_at0 TX hTXl
  refine ⟨fun k => at0 TX k, fun v m => n * ∑ j : Fin (n * K), A (m * n) j * v j, by fun_prop, ?_, ?_⟩
  · intro w
    rw [← hTXf]
    have hr : ((changeSnr [TX] snr fb (n * fb) [List.ofFn fun k => (w k).1] [List.ofFn fun k => (w k).2]).getD 0 []).length = n * K := by
      rw [changeSnr_toC _ hTXl, List.length_ofFn]
    have hl : shapedLink s n fb beta snr w =
        .ok (Np.strided (ifft (rowMul (fft ((changeSnr [TX] snr fb (n * fb) [List.ofFn fun k => (w k).1] [List.ofFn fun k => (w k).2]).getD 0 [])) H)) n) := by
      unfold shapedLink
      rw [htx, hbind]
      dsimp only
      rw [hpulse _ hr, hbind]
      rfl
    funext m
    unfold shapedRx
    rw [hl]
    dsimp only
    rw [hout _ hr]
  · intro D L wl w
    rw [← hTXf]
    have hr : (dispLink TX (n * fb) fb D L wl snr (List.ofFn fun k => (w k).1) (List.ofFn fun k => (w k).2)).length = n * K := by
      rw [hTXf]
      exact (C233_dispersion _ _ _ _ _ _ _).1 _ _
    have hl : fibreLink s n fb beta D L wl snr w =
        .ok (Np.strided (ifft (rowMul (fft (dispLink TX (n * fb) fb D L wl snr (List.ofFn fun k => (w k).1) (List.ofFn fun k => (w k).2))) H)) n) := by
      unfold fibreLink
      rw [htx, hbind]
      dsimp only
      rw [hpulse _ hr, hbind]
      rfl
    refine ⟨⟨_, hl, hstr _ hr⟩, ?_⟩
    funext m
    unfold fibreRx
    rw [hl]
    dsimp only
    rw [hout _ hr]

theorem measurable_directRx' {N : Nat} (x : Fin N → ℂ) (snr fb fs : ℝ) : Measurable fun (w : Fin N → ℝ × ℝ) (m : Fin N) =>
    ((changeSnr [List.ofFn x] snr fb fs [List.ofFn fun k => (w k).1] [List.ofFn fun k => (w k).2]).getD 0 []).getD m 0 := by
  obtain ⟨sg, hsg⟩ := changeSnr_ofFn x snr fb fs
  rw [measurable_pi_iff]
  intro m
  have h : ∀ w : Fin N → ℝ × ℝ, ((changeSnr [List.ofFn x] snr fb fs [List.ofFn fun k => (w k).1] [List.ofFn fun k => (w k).2]).getD 0 []).getD m 0 =
      x m + ⟨sg / Real.sqrt 2 * (w m).1, sg / Real.sqrt 2 * (w m).2⟩ := by
    intro w
    rw [hsg, List.getD_eq_getElem?_getD, List.getElem?_ofFn, dif_pos m.2, Option.getD_some]
  simp_rw [h]
  exact (measurable_rcv (x m) _).comp (measurable_pi_apply m)

/-- **C233** Root raised cosine shaping, dispersion of any amount, noise at the sampling rate, compensation, matched filter, one sample per symbol: the received symbols have,
jointly, exactly the distribution of symbols sent at one sample per symbol through `change_snr` with the same SNR. -/
theorem C233_symbols {K : Nat} (hK : 0 < K) (s : Fin K → ℂ) (n : Nat) (hn : 2 ≤ n) (fb beta D L wl snr : ℝ) (hfb : 0 < fb) (hb : 0 < beta) (hb1 : beta ≤ 1) :
    (∀ w, ∃ r, fibreLink s n fb beta D L wl snr w = .ok r ∧ r.length = K) ∧ Measurable (fibreRx s n fb beta D L wl snr) ∧
    (noiseLaw (n * K)).map (fibreRx s n fb beta D L wl snr) =
      (noiseLaw K).map fun w (m : Fin K) => ((changeSnr [List.ofFn s] snr fb fb [List.ofFn fun k => (w k).1] [List.ofFn fun k => (w k).2]).getD 0 []).getD m 0 := by
  obtain ⟨tx, G, hG, h1, h2⟩ := links_common hK s n hn fb beta snr hfb hb1
  obtain ⟨-, m1, l1⟩ := C233_dispersion tx (n * fb) fb D L wl snr
  have e1 : fibreRx s n fb beta D L wl snr = G ∘ fun w m => (dispLink (List.ofFn tx) (n * fb) fb D L wl snr (List.ofFn fun k => (w k).1) (List.ofFn fun k => (w k).2)).getD m 0 :=
    funext fun w => (h2 D L wl w).2
  have e2 : shapedRx s n fb beta snr = G ∘ fun w m => ((changeSnr [List.ofFn tx] snr fb (n * fb) [List.ofFn fun k => (w k).1] [List.ofFn fun k => (w k).2]).getD 0 []).getD m 0 :=
    funext h1
  refine ⟨fun w => (h2 D L wl w).1, by rw [e1]; exact hG.comp m1, ?_⟩
  rw [← (C231_law hK s n hn fb beta snr hfb hb hb1).2, e1, e2, ← Measure.map_map hG m1, l1, Measure.map_map hG (measurable_directRx' tx snr fb (n * fb))]

/-- **C233** The symbol error rate of square QAM of any order over the dispersive link is on average the value of the formula for the SNR given to `change_snr`, whatever the
dispersion, and a single measurement is `ε` or more away from it with probability at most `2 exp (-2 K ε²)`. -/
theorem C233_ser {N K : Nat} (hN : 1 ≤ N) (hK : 0 < K) (s : Fin K → ℂ) (hbal : EquallyOften (qamCodedSymbols (2 * N) (Real.sqrt (scalingFactor (2 * N) : ℝ))) s) (n : Nat) (hn : 2 ≤ n)
    (fb beta D L wl snr ε : ℝ) (hfb : 0 < fb) (hb : 0 < beta) (hb1 : beta ≤ 1) (hε : 0 < ε) :
    let coded := qamCodedSymbols (2 * N) (Real.sqrt (scalingFactor (2 * N) : ℝ))
    let ser : (Fin (n * K) → ℝ × ℝ) → ℝ := fun w => (((calSer coded (List.ofFn (fibreRx s n fb beta D L wl snr w)) (List.ofFn s)).getD 0 : ℚ) : ℝ)
    ∫ w, ser w ∂noiseLaw (n * K) = serQam (dB2lin snr) (4 ^ N) ∧
    (noiseLaw (n * K)).real {w | ε ≤ |ser w - serQam (dB2lin snr) (4 ^ N)|} ≤ 2 * Real.exp (-(2 * K * ε ^ 2)) := by
  intro coded ser
  have hne : coded ≠ [] := by
    intro h
    have := length_qamCoded (2 * N) (Real.sqrt (scalingFactor (2 * N) : ℝ))
    rw [show qamCodedSymbols (2 * N) (Real.sqrt (scalingFactor (2 * N) : ℝ)) = [] from h, List.length_nil] at this
    exact absurd this.symm (by positivity)
  obtain ⟨-, hm, hlaw⟩ := C233_symbols hK s n hn fb beta D L wl snr hfb hb hb1
  obtain ⟨h1, h2⟩ := C231_ser hN hK s hbal n hn fb beta snr ε hfb hb hb1 hε
  have hms := measurable_ser coded hne s
  have hmm := measurable_shapedRx hK s n hn fb beta snr hfb hb hb1
  have heq : (noiseLaw (n * K)).map (fibreRx s n fb beta D L wl snr) = (noiseLaw (n * K)).map (shapedRx s n fb beta snr) := by
    rw [hlaw, (C231_law hK s n hn fb beta snr hfb hb hb1).2]
  constructor
  · refine Eq.trans ?_ h1
    change ∫ w, (fun v : Fin K → ℂ => (((calSer coded (List.ofFn v) (List.ofFn s)).getD 0 : ℚ) : ℝ)) (fibreRx s n fb beta D L wl snr w) ∂noiseLaw (n * K) =
      ∫ w, (fun v : Fin K → ℂ => (((calSer coded (List.ofFn v) (List.ofFn s)).getD 0 : ℚ) : ℝ)) (shapedRx s n fb beta snr w) ∂noiseLaw (n * K)
    rw [← integral_map hm.aemeasurable hms.aestronglyMeasurable, ← integral_map hmm.aemeasurable hms.aestronglyMeasurable, heq]
  · refine le_trans (le_of_eq ?_) h2
    have hset : MeasurableSet {v : Fin K → ℂ | ε ≤ |(((calSer coded (List.ofFn v) (List.ofFn s)).getD 0 : ℚ) : ℝ) - serQam (dB2lin snr) (4 ^ N)|} :=
      measurableSet_le measurable_const ((hms.sub_const _).abs)
    have q1 := map_measureReal_apply (μ := noiseLaw (n * K)) hm hset
    have q2 := map_measureReal_apply (μ := noiseLaw (n * K)) hmm hset
    rw [heq] at q1
    exact (q1.symm.trans q2)

/-- 160000 equally frequent 16-QAM symbols, four samples per symbol, 1000 km of fibre with 17 ps/(nm km) at 1550 nm: a measured symbol error rate 0.01 away from the formula
has probability at most `2 exp (-32)`. -/
example (s : Fin 160000 → ℂ) (hbal : EquallyOften (qamCodedSymbols (2 * 2) (Real.sqrt (scalingFactor (2 * 2) : ℝ))) s) (snr : ℝ) :
    (noiseLaw (4 * 160000)).real {w | (0.01 : ℝ) ≤ |(((calSer (qamCodedSymbols (2 * 2) (Real.sqrt (scalingFactor (2 * 2) : ℝ)))
      (List.ofFn (fibreRx s 4 (20 * 10 ^ 9) (1 / 10) (17 / 10 ^ 6) (10 ^ 6) (1550 / 10 ^ 9) snr w)) (List.ofFn s)).getD 0 : ℚ) : ℝ) - serQam (dB2lin snr) (4 ^ 2)|} ≤ 2 * Real.exp (-32) := by
  have := (C233_ser (N := 2) (by norm_num) (by norm_num) s hbal 4 (by norm_num) (20 * 10 ^ 9) (1 / 10) (17 / 10 ^ 6) (10 ^ 6) (1550 / 10 ^ 9) snr 0.01 (by norm_num) (by norm_num)
    (by norm_num) (by norm_num)).2
  refine this.trans (le_of_eq ?_)
  congr 2
  norm_num

theorem measurable_toC : Measurable toC := by
  have : toC = fun p : ℝ × ℝ => (p.1 : ℂ) + Complex.I * p.2 := funext toC_eq
  rw [this]
  fun_prop

/-- A linear map of two rows that keeps their total energy, applied to two rows in white noise. -/
theorem isMat2_law {N : Nat} {f g : List ℂ → List ℂ → List ℂ} (hf : IsMat2 N f) (hg : IsMat2 N g)
    (he : ∀ x y : List ℂ, x.length = N → y.length = N → energy (f x y) + energy (g x y) = energy x + energy y) (x y s t : Fin N → ℂ)
    (hs : f (List.ofFn x) (List.ofFn y) = List.ofFn s) (ht : g (List.ofFn x) (List.ofFn y) = List.ofFn t) (c : ℝ) :
    Measurable (fun w : Fin (N + N) → ℝ × ℝ => ((fun m : Fin N =>
        (f (List.ofFn fun k : Fin N => x k + c * toC (w (Fin.castAdd N k))) (List.ofFn fun k : Fin N => y k + c * toC (w (Fin.natAdd N k)))).getD m 0),
        (fun m : Fin N => (g (List.ofFn fun k : Fin N => x k + c * toC (w (Fin.castAdd N k))) (List.ofFn fun k : Fin N => y k + c * toC (w (Fin.natAdd N k)))).getD m 0))) ∧
    (noiseLaw (N + N)).map (fun w => ((fun m : Fin N =>
        (f (List.ofFn fun k : Fin N => x k + c * toC (w (Fin.castAdd N k))) (List.ofFn fun k : Fin N => y k + c * toC (w (Fin.natAdd N k)))).getD m 0),
        (fun m : Fin N => (g (List.ofFn fun k : Fin N => x k + c * toC (w (Fin.castAdd N k))) (List.ofFn fun k : Fin N => y k + c * toC (w (Fin.natAdd N k)))).getD m 0))) =
      (noiseLaw (N + N)).map (fun w => ((fun m : Fin N => s m + c * toC (w (Fin.castAdd N m))), (fun m : Fin N => t m + c * toC (w (Fin.natAdd N m))))) := by
  obtain ⟨A, B, hA⟩ := hf
  obtain ⟨C, D, hC⟩ := hg
  have key : ∀ (h : List ℂ → List ℂ → List ℂ) (P Q : Nat → Nat → ℂ), (∀ x y : List ℂ, x.length = N → y.length = N →
      (h x y).length = N ∧ ∀ t < N, at0 (h x y) t = ∑ j ∈ Finset.range N, P t j * at0 x j + ∑ j ∈ Finset.range N, Q t j * at0 y j) →
      ∀ (u v : Fin N → ℂ) (m : Fin N), at0 (h (List.ofFn u) (List.ofFn v)) m = ∑ j : Fin N, P m j * u j + ∑ j : Fin N, Q m j * v j := by
    intro h P Q hh u v m
    rw [(hh _ _ List.length_ofFn List.length_ofFn).2 m m.2, ← Fin.sum_univ_eq_sum_range (fun j => P m j * at0 (List.ofFn u) j), ← Fin.sum_univ_eq_sum_range (fun j => Q m j * at0 (List.ofFn v) j)]
    congr 1
    · exact Finset.sum_congr rfl fun j _ => by rw [at0_ofFn']
    · exact Finset.sum_congr rfl fun j _ => by rw [at0_ofFn']
  have hfAt := key f A B hA
  have hgAt := key g C D hC
  let M : Fin (N + N) → Fin (N + N) → ℂ := fun p q =>
    Fin.addCases (fun m : Fin N => Fin.addCases (motive := fun _ => ℂ) (fun j : Fin N => A m j) (fun j : Fin N => B m j) q)
      (fun m : Fin N => Fin.addCases (motive := fun _ => ℂ) (fun j : Fin N => C m j) (fun j : Fin N => D m j) q) p
  have hM1 : ∀ (v : Fin (N + N) → ℂ) (m : Fin N), ∑ q, M (Fin.castAdd N m) q * v q = ∑ j : Fin N, A m j * v (Fin.castAdd N j) + ∑ j : Fin N, B m j * v (Fin.natAdd N j) := by
    intro v m
    rw [Fin.sum_univ_add]
    simp only [M, Fin.addCases_left, Fin.addCases_right]
  have hM2 : ∀ (v : Fin (N + N) → ℂ) (m : Fin N), ∑ q, M (Fin.natAdd N m) q * v q = ∑ j : Fin N, C m j * v (Fin.castAdd N j) + ∑ j : Fin N, D m j * v (Fin.natAdd N j) := by
    intro v m
    rw [Fin.sum_univ_add]
    simp only [M, Fin.addCases_left, Fin.addCases_right]
  have hen : ∀ v : Fin (N + N) → ℂ, ∑ p, ‖∑ q, M p q * v q‖ ^ 2 = ∑ p, ‖v p‖ ^ 2 := by
    intro v
    rw [Fin.sum_univ_add, Fin.sum_univ_add (fun p => ‖v p‖ ^ 2)]
    have h1 := he (List.ofFn fun k : Fin N => v (Fin.castAdd N k)) (List.ofFn fun k : Fin N => v (Fin.natAdd N k)) List.length_ofFn List.length_ofFn
    rw [ofFn_at0 _ (hA _ _ (List.length_ofFn (f := fun k : Fin N => v (Fin.castAdd N k))) (List.length_ofFn (f := fun k : Fin N => v (Fin.natAdd N k)))).1,
      ofFn_at0 _ (hC _ _ (List.length_ofFn (f := fun k : Fin N => v (Fin.castAdd N k))) (List.length_ofFn (f := fun k : Fin N => v (Fin.natAdd N k)))).1] at h1
    simp only [← sum_norm_energy] at h1
    rw [← h1]
    congr 1
    · exact Finset.sum_congr rfl fun m _ => by rw [hM1, hfAt]
    · exact Finset.sum_congr rfl fun m _ => by rw [hM2, hgAt]
  have hlaw := unitary_law M hen
  let T : (Fin (N + N) → ℂ) → (Fin N → ℂ) × (Fin N → ℂ) := fun v => ((fun m : Fin N => s m + (c : ℂ) * v (Fin.castAdd N m)), (fun m : Fin N => t m + (c : ℂ) * v (Fin.natAdd N m)))
  have mT : Measurable T := by
    refine Measurable.prodMk ?_ ?_
    · rw [measurable_pi_iff]; intro m; fun_prop
    · rw [measurable_pi_iff]; intro m; fun_prop
  have mt : Measurable fun (w : Fin (N + N) → ℝ × ℝ) (m : Fin (N + N)) => toC (w m) := by
    rw [measurable_pi_iff]
    exact fun m => measurable_toC.comp (measurable_pi_apply m)
  have hs' : ∀ m : Fin N, s m = ∑ j : Fin N, A m j * x j + ∑ j : Fin N, B m j * y j := fun m => by rw [← hfAt, hs, at0_ofFn']
  have ht' : ∀ m : Fin N, t m = ∑ j : Fin N, C m j * x j + ∑ j : Fin N, D m j * y j := fun m => by rw [← hgAt, ht, at0_ofFn']
  have e2 : (fun w : Fin (N + N) → ℝ × ℝ => ((fun m : Fin N => s m + c * toC (w (Fin.castAdd N m))), (fun m : Fin N => t m + c * toC (w (Fin.natAdd N m))))) =
      T ∘ fun w m => toC (w m) := rfl
  have e1 : (fun w : Fin (N + N) → ℝ × ℝ => ((fun m : Fin N =>
        (f (List.ofFn fun k : Fin N => x k + c * toC (w (Fin.castAdd N k))) (List.ofFn fun k : Fin N => y k + c * toC (w (Fin.natAdd N k)))).getD m 0),
        (fun m : Fin N => (g (List.ofFn fun k : Fin N => x k + c * toC (w (Fin.castAdd N k))) (List.ofFn fun k : Fin N => y k + c * toC (w (Fin.natAdd N k)))).getD m 0))) =
      T ∘ combine M := by
    funext w
    have q : ∀ (P Q : Nat → Nat → ℂ) (m : Fin N), ∑ j : Fin N, P m j * (x j + c * toC (w (Fin.castAdd N j))) + ∑ j : Fin N, Q m j * (y j + c * toC (w (Fin.natAdd N j))) =
        (∑ j : Fin N, P m j * x j + ∑ j : Fin N, Q m j * y j) + c * (∑ j : Fin N, P m j * toC (w (Fin.castAdd N j)) + ∑ j : Fin N, Q m j * toC (w (Fin.natAdd N j))) := by
      intro P Q m
      simp only [mul_add, Finset.sum_add_distrib, Finset.mul_sum]
      have z : ∀ (a b : ℂ), a * (c * b) = c * (a * b) := fun a b => by ring
      simp only [z]
      ring
    refine Prod.ext ?_ ?_
    · funext m
      change at0 _ _ = s m + (c : ℂ) * combine M w (Fin.castAdd N m)
      rw [hfAt, combine_apply, hM1 (fun q => toC (w q)), hs', q]
    · funext m
      change at0 _ _ = t m + (c : ℂ) * combine M w (Fin.natAdd N m)
      rw [hgAt, combine_apply, hM2 (fun q => toC (w q)), ht', q]
  refine ⟨by rw [e1]; exact mT.comp (combine _).continuous.measurable, ?_⟩
  rw [e1, e2, ← Measure.map_map mT (combine _).continuous.measurable, ← Measure.map_map mT mt, ← hlaw]
  rfl

theorem isMat_spectrum (N : Nat) : IsMat N spectrum := (isMat_fftshift N).comp ((isMat_fft N).comp (isMat_ifftshift N))

theorem isMat_unspectrum (N : Nat) : IsMat N unspectrum := (isMat_fftshift N).comp ((isMat_ifft N).comp (isMat_ifftshift N))

theorem isMat2_rotate1 {N : Nat} (theta : ℝ) {f g : List ℂ → List ℂ → List ℂ} (hf : IsMat2 N f) (hg : IsMat2 N g) : IsMat2 N (fun x y => (rotateRows theta (f x y) (g x y)).1) := by
  refine hf.comb hg (Real.cos theta) (-Real.sin theta) fun x y _ _ h1 h2 => ⟨?_, fun t ht => ?_⟩
  · rw [(rotateRows_length theta (h1.trans h2.symm)).1, h1]
  · rw [(at0_rotateRows theta (h1.trans h2.symm) (by omega)).1]
    ring

theorem isMat2_rotate2 {N : Nat} (theta : ℝ) {f g : List ℂ → List ℂ → List ℂ} (hf : IsMat2 N f) (hg : IsMat2 N g) : IsMat2 N (fun x y => (rotateRows theta (f x y) (g x y)).2) := by
  refine hf.comb hg (Real.sin theta) (Real.cos theta) fun x y _ _ h1 h2 => ⟨?_, fun t ht => ?_⟩
  · rw [(rotateRows_length theta (h1.trans h2.symm)).2, h2]
  · rw [(at0_rotateRows theta (h1.trans h2.symm) (by omega)).2]

/-- PMD is a pair of linear maps of the two rows. -/
theorem isMat2_pmd {N : Nat} (hN : 0 < N) (theta t fs : ℝ) : ∃ f g : List ℂ → List ℂ → List ℂ, IsMat2 N f ∧ IsMat2 N g ∧
    ∀ x y : List ℂ, x.length = N → y.length = N → applyPMD [x, y] theta t fs = .ok [f x y, g x y] := by
  have hsx := (isMat_spectrum N).fst
  have hsy := (isMat_spectrum N).snd
  have hp1 := (isMat_mul (pmdH N fs t) (length_pmdH _ _ _)).comp2 (isMat2_rotate1 theta hsx hsy)
  have hp2 := (isMat_mul (pmdH N fs (-t)) (length_pmdH _ _ _)).comp2 (isMat2_rotate2 theta hsx hsy)
  refine ⟨_, _, (isMat_unspectrum N).comp2 (isMat2_rotate1 (-theta) hp1 hp2), (isMat_unspectrum N).comp2 (isMat2_rotate2 (-theta) hp1 hp2), ?_⟩
  intro x y hx hy
  rw [applyPMD_eq (hx.trans hy.symm) (by rintro rfl; simp at hx; omega), hx]

/-- `change_snr` of two rows in terms of the complex draws. -/
theorem changeSnr_toC2 {N : Nat} (x y : List ℂ) (hx : x.length = N) (hy : y.length = N) (snr fb fs : ℝ) (w : Fin (N + N) → ℝ × ℝ) :
    changeSnr [x, y] snr fb fs [List.ofFn fun k : Fin N => (w (Fin.castAdd N k)).1, List.ofFn fun k : Fin N => (w (Fin.natAdd N k)).1]
        [List.ofFn fun k : Fin N => (w (Fin.castAdd N k)).2, List.ofFn fun k : Fin N => (w (Fin.natAdd N k)).2] =
      [List.ofFn fun k : Fin N => at0 x k + ((Real.sqrt ((energy x + energy y) / (N + N : Nat)) * ((10 : ℝ) ^ (-snr / 20) * Real.sqrt (fs / fb)) / Real.sqrt 2 : ℝ) : ℂ) * toC (w (Fin.castAdd N k)),
        List.ofFn fun k : Fin N => at0 y k + ((Real.sqrt ((energy x + energy y) / (N + N : Nat)) * ((10 : ℝ) ^ (-snr / 20) * Real.sqrt (fs / fb)) / Real.sqrt 2 : ℝ) : ℂ) * toC (w (Fin.natAdd N k))] := by
  have hp : meanR ([x, y].flatten.map fun z => ‖z‖ ^ 2) = (energy x + energy y) / (N + N : Nat) := by
    unfold meanR energy
    rw [List.length_map, List.flatten_cons, List.flatten_singleton, List.length_append, hx, hy, List.map_append, List.sum_append]
  change [addAwgn x (Real.sqrt (meanR ([x, y].flatten.map fun z => ‖z‖ ^ 2)) * ((10 : ℝ) ^ (-snr / 20) * Real.sqrt (fs / fb))) _ _,
    addAwgn y (Real.sqrt (meanR ([x, y].flatten.map fun z => ‖z‖ ^ 2)) * ((10 : ℝ) ^ (-snr / 20) * Real.sqrt (fs / fb))) _ _] = _
  rw [hp]
  have key : ∀ (z : List ℂ) (c : ℝ) (v : Fin N → ℝ × ℝ), z.length = N → addAwgn z c (List.ofFn fun k => (v k).1) (List.ofFn fun k => (v k).2) =
      List.ofFn fun k : Fin N => at0 z k + ((c / Real.sqrt 2 : ℝ) : ℂ) * toC (v k) := by
    intro z c v hz
    conv_lhs => rw [ofFn_at0 z hz]
    rw [addAwgn_ofFn]
    congr 1
    funext k
    congr 1
    apply Complex.ext <;> simp [toC]
  rw [key x _ (fun k => w (Fin.castAdd N k)) hx, key y _ (fun k => w (Fin.natAdd N k)) hy]

/-- A link with polarisation mode dispersion: the two modes go through `apply_PMD_to_field`, noise is added (`change_snr`; the draws of the first mode come first), and the receiver
undoes the PMD. qampy/core/impairments.py:94-131 and 210-232. -/
noncomputable def pmdLink {N : Nat} (x y : Fin N → ℂ) (fs fb theta t snr : ℝ) (w : Fin (N + N) → ℝ × ℝ) : Except PyErr (List (List ℂ)) := do
  let tx ← applyPMD [List.ofFn x, List.ofFn y] theta t fs
  applyPMD (changeSnr tx snr fb fs [List.ofFn fun k : Fin N => (w (Fin.castAdd N k)).1, List.ofFn fun k : Fin N => (w (Fin.natAdd N k)).1]
    [List.ofFn fun k : Fin N => (w (Fin.castAdd N k)).2, List.ofFn fun k : Fin N => (w (Fin.natAdd N k)).2]) theta (-t) fs

/-- The samples of the two modes of a field, as functions of the sample number. -/
noncomputable def modePair (N : Nat) (r : List (List ℂ)) : (Fin N → ℂ) × (Fin N → ℂ) := (fun m => (r.getD 0 []).getD m 0, fun m => (r.getD 1 []).getD m 0)

/-- **C233** Polarisation mode dispersion that is undone behind the noise: the samples of both modes have, jointly, exactly the distribution of the samples of a link without it. In
particular the noise of the two modes stays independent although PMD mixes them. -/
theorem C233_pmd {N : Nat} (hN : 0 < N) (x y : Fin N → ℂ) (fs fb theta t snr : ℝ) :
    ∃ R : (Fin (N + N) → ℝ × ℝ) → List (List ℂ),
      (∀ w, pmdLink x y fs fb theta t snr w = .ok (R w) ∧ (R w).length = 2 ∧ ∀ r ∈ R w, r.length = N) ∧
      Measurable (fun w => modePair N (R w)) ∧
      (noiseLaw (N + N)).map (fun w => modePair N (R w)) =
        (noiseLaw (N + N)).map (fun w => modePair N (changeSnr [List.ofFn x, List.ofFn y] snr fb fs
          [List.ofFn fun k : Fin N => (w (Fin.castAdd N k)).1, List.ofFn fun k : Fin N => (w (Fin.natAdd N k)).1]
          [List.ofFn fun k : Fin N => (w (Fin.castAdd N k)).2, List.ofFn fun k : Fin N => (w (Fin.natAdd N k)).2])) := by
  obtain ⟨f, g, hf, hg, hfg⟩ := isMat2_pmd hN theta (-t) fs
  have hne : ∀ z : List ℂ, z.length = N → z ≠ [] := by
    rintro z hz rfl
    simp at hz
    omega
  have lx : (List.ofFn x).length = N := List.length_ofFn
  have ly : (List.ofFn y).length = N := List.length_ofFn
  obtain ⟨X, Y, hXY, hX, hY, hE⟩ := C39_energy (lx.trans ly.symm) (hne _ lx) theta t fs
  rw [lx] at hX hY
  have hinv := C39_inverse (lx.trans ly.symm) (hne _ lx) theta t fs
  rw [hXY] at hinv
  have hinv' : [f X Y, g X Y] = [List.ofFn x, List.ofFn y] := by
    have : applyPMD [X, Y] theta (-t) fs = .ok [List.ofFn x, List.ofFn y] := hinv
    rw [hfg X Y hX hY] at this
    exact Except.ok.inj this
  simp only [List.cons.injEq, and_true] at hinv'
  have hen : ∀ a b : List ℂ, a.length = N → b.length = N → energy (f a b) + energy (g a b) = energy a + energy b := by
    intro a b ha hb
    obtain ⟨a', b', h1, -, -, h2⟩ := C39_energy (ha.trans hb.symm) (hne _ ha) theta (-t) fs
    rw [hfg a b ha hb] at h1
    have h3 := Except.ok.inj h1
    simp only [List.cons.injEq, and_true] at h3
    rw [h3.1, h3.2, h2]
  obtain ⟨c, hc⟩ : ∃ c, c = Real.sqrt ((energy (List.ofFn x) + energy (List.ofFn y)) / (N + N : Nat)) * ((10 : ℝ) ^ (-snr / 20) * Real.sqrt (fs / fb)) / Real.sqrt 2 := ⟨_, rfl⟩
  have hlaw := isMat2_law hf hg hen (fun k => at0 X k) (fun k => at0 Y k) x y (by rw [← ofFn_at0 X hX, ← ofFn_at0 Y hY]; exact hinv'.1)
    (by rw [← ofFn_at0 X hX, ← ofFn_at0 Y hY]; exact hinv'.2) c
  have hlink : ∀ w, pmdLink x y fs fb theta t snr w = .ok [f (List.ofFn fun k : Fin N => at0 X k + c * toC (w (Fin.castAdd N k))) (List.ofFn fun k : Fin N => at0 Y k + c * toC (w (Fin.natAdd N k))),
      g (List.ofFn fun k : Fin N => at0 X k + c * toC (w (Fin.castAdd N k))) (List.ofFn fun k : Fin N => at0 Y k + c * toC (w (Fin.natAdd N k)))] := by
    intro w
    unfold pmdLink
    rw [hXY]
    change applyPMD (changeSnr [X, Y] _ _ _ _ _) _ _ _ = _
    rw [changeSnr_toC2 X Y hX hY, hE, ← hc, hfg _ _ List.length_ofFn List.length_ofFn]
  refine ⟨fun w => [f (List.ofFn fun k : Fin N => at0 X k + c * toC (w (Fin.castAdd N k))) (List.ofFn fun k : Fin N => at0 Y k + c * toC (w (Fin.natAdd N k))),
      g (List.ofFn fun k : Fin N => at0 X k + c * toC (w (Fin.castAdd N k))) (List.ofFn fun k : Fin N => at0 Y k + c * toC (w (Fin.natAdd N k)))],
    fun w => ⟨hlink w, rfl, ?_⟩, hlaw.1, ?_⟩
  · obtain ⟨A, B, hA⟩ := hf
    obtain ⟨C, D, hC⟩ := hg
    intro r hr
    simp only [List.mem_cons, List.not_mem_nil, or_false] at hr
    rcases hr with rfl | rfl
    · exact (hA _ _ List.length_ofFn List.length_ofFn).1
    · exact (hC _ _ List.length_ofFn List.length_ofFn).1
  · refine hlaw.2.trans ?_
    congr 1
    funext w
    rw [changeSnr_toC2 _ _ lx ly, ← hc]
    refine Prod.ext ?_ ?_
    · funext m
      change _ = at0 (List.ofFn fun k : Fin N => at0 (List.ofFn x) k + (c : ℂ) * toC (w (Fin.castAdd N k))) _
      rw [at0_ofFn', at0_ofFn']
    · funext m
      change _ = at0 (List.ofFn fun k : Fin N => at0 (List.ofFn y) k + (c : ℂ) * toC (w (Fin.natAdd N k))) _
      rw [at0_ofFn', at0_ofFn']

/-- Two modes of 8 samples with a differential group delay of 25 ps under 45 degrees. -/
example : ∃ R : (Fin (8 + 8) → ℝ × ℝ) → List (List ℂ),
    ∀ w, pmdLink (N := 8) (fun _ => 1) (fun k => if k.val = 3 then Complex.I else -1) 40e9 20e9 (Real.pi / 4) 25e-12 15 w = .ok (R w) ∧ (R w).length = 2 ∧ ∀ r ∈ R w, r.length = 8 :=
  (C233_pmd (by norm_num) _ _ _ _ _ _ _).imp fun _ h => h.1

end Qampy
