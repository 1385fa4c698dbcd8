import Verif.Model.DecideMethod
import Verif.Lemmas.Constellation
import Verif.Tactics

/-!
C210: the decision routine chosen by name, and the symbol error rate of plain arrays.
-/

namespace Qampy

/-- `s` is the first of the symbols closest to `x`, `j` its position and `d` its distance. -/
def FirstClosest (symbols : List ℂ) (x s : ℂ) (d : ℝ) (j : Nat) : Prop :=
  symbols[j]? = some s ∧ d = ‖x - s‖ ∧ (∀ c ∈ symbols, ‖x - s‖ ≤ ‖x - c‖) ∧ ∀ i, i < j → ∀ c, symbols[i]? = some c → ‖x - s‖ < ‖x - c‖

theorem FirstClosest.unique {symbols : List ℂ} {x s s' : ℂ} {d d' : ℝ} {j j' : Nat} (h : FirstClosest symbols x s d j)
    (h' : FirstClosest symbols x s' d' j') : s' = s := by
  obtain ⟨h1, -, h3, h4⟩ := h
  obtain ⟨g1, -, g3, g4⟩ := h'
  rcases lt_trichotomy j j' with hl | hl | hl
  · exact absurd (g4 j hl s h1) (not_lt.2 (h3 s' (List.mem_of_getElem? g1)))
  · subst hl
    rw [h1] at g1
    exact (Option.some.inj g1).symm
  · exact absurd (h4 j' hl s' g1) (not_lt.2 (g3 s (List.mem_of_getElem? h1)))

theorem decide_block (D : ℂ → ℂ) (symbols : List ℂ) (hs : symbols ≠ [])
    (hD : ∀ x, ∃ d j, FirstClosest symbols x (D x) d j) (sig : List ℂ) : afDecideBlock sig symbols = .ok (sig.map D) := by
  have harg : ∀ x, ∃ j, Np.argmin (symbols.map fun s => ‖x - s‖) = some j := fun x => Np.argmin_isSome (by simpa using hs)
  choose J hJ using harg
  have hm : sig.mapM (fun x => Np.argmin (symbols.map fun s => ‖x - s‖)) = some (sig.map J) := by
    induction sig with
    | nil => rfl
    | cons x l ih => rw [List.mapM_cons, ih, hJ]; rfl
  unfold afDecideBlock
  rw [hm]
  dsimp only
  rw [List.map_map]
  congr 1
  refine List.map_congr_left fun x _ => ?_
  obtain ⟨m, h1, h2, h3⟩ := Np.argmin_spec (hJ x)
  rw [List.getElem?_map] at h1
  obtain ⟨s, hs1, hs2⟩ := Option.map_eq_some_iff.1 h1
  obtain ⟨d, j, hd⟩ := hD x
  have hf : FirstClosest symbols x s ‖x - s‖ (J x) := by
    refine ⟨hs1, rfl, fun c hc => ?_, fun i hi c hc => ?_⟩
    · rw [hs2]
      exact h2 _ (List.mem_map_of_mem hc)
    · rw [hs2]
      exact h3 i hi _ (by rw [List.getElem?_map, hc]; rfl)
  have := FirstClosest.unique hf hd
  simp [List.getD_eq_getElem?_getD, hs1, this]

theorem decide_setSlice (D : ℂ → ℂ) (sig : List ℂ) (c d : Nat) (hcd : c ≤ d) (hd : d ≤ sig.length) :
    setSlice ((sig.take c).map D ++ List.replicate (sig.length - c) 0) c d (((sig.take d).drop c).map D) =
      .ok ((sig.take d).map D ++ List.replicate (sig.length - d) 0) := by
  have hl : ((sig.take c).map D ++ List.replicate (sig.length - c) (0 : ℂ)).length = sig.length := by simp; omega
  unfold setSlice
  dsimp only
  rw [hl, min_eq_left (by omega : c ≤ sig.length), min_eq_left hd, if_pos (by simp; omega)]
  congr 1
  obtain ⟨A, hA⟩ : ∃ A, A = (sig.take c).map D := ⟨_, rfl⟩
  have h1 : A.length = c := by rw [hA]; simp; omega
  have h2 : (sig.take d).map D = A ++ ((sig.take d).drop c).map D := by
    have : sig.take c = (sig.take d).take c := by rw [List.take_take, min_eq_left hcd]
    rw [hA, this, ← List.map_append, List.take_append_drop]
  rw [← hA, h2, List.take_left' h1, List.drop_append, h1, List.drop_of_length_le (show A.length ≤ d by omega), List.nil_append, List.drop_replicate]
  congr 2
  omega

theorem decide_blocks (D : ℂ → ℂ) (symbols : List ℂ) (hs : symbols ≠ [])
    (hD : ∀ x, ∃ d j, FirstClosest symbols x (D x) d j) (sig : List ℂ) (Q : Nat) (K : Nat) (hK : K * Q ≤ sig.length) :
    (List.range K).foldlM (afDecideStep sig symbols Q) (List.replicate sig.length 0) =
      .ok ((sig.take (K * Q)).map D ++ List.replicate (sig.length - K * Q) 0) := by
  induction K with
  | zero => simp [pure, Except.pure]
  | succ K ih =>
    have hK' : K * Q ≤ (K + 1) * Q := Nat.mul_le_mul_right _ (Nat.le_succ K)
    rw [List.range_succ, List.foldlM_append, ih (by omega)]
    simp only [List.foldlM_cons, List.foldlM_nil, bind, Except.bind]
    have hsl : Np.slice sig ((K * Q : Nat) : Int) (((K + 1) * Q : Nat) : Int) = (sig.take ((K + 1) * Q)).drop (K * Q) := by
      unfold Np.slice
      unfold Np.clamp
      rw [if_neg (by omega), if_neg (by omega), Int.toNat_natCast, Int.toNat_natCast, min_eq_left hK, min_eq_left (by omega)]
    unfold afDecideStep
    rw [hsl, decide_block D symbols hs hD]
    simp only [Except.bind]
    rw [decide_setSlice D sig _ _ hK' hK]
    rfl

theorem closest_exists (symbols : List ℂ) (hs : symbols ≠ []) (x : ℂ) : ∃ s d j, detSymbolArgmin x symbols = some (s, d, j) ∧ FirstClosest symbols x s d j := by
  obtain ⟨⟨s, d, j⟩, hr⟩ := detSymbolArgmin_isSome x hs
  exact ⟨s, d, j, hr, detSymbolArgmin_spec hr⟩

/-- **C210** The default routine returns symbols, distances and positions of the first closest symbols. -/
theorem C210_compiled (afLoaded : Bool) (NMAX : Option Nat) (signal symbols : List ℂ) (hs : symbols ≠ []) :
    ∃ (out : List ℂ) (dist : List ℝ) (idx : List Nat),
      coreMakeDecision afLoaded NMAX signal (.arr symbols) "pyt" none = .ok (.tuple out dist idx) ∧
      out.length = signal.length ∧ dist.length = signal.length ∧ idx.length = signal.length ∧
      ∀ (n : Nat) (x : ℂ), signal[n]? = some x → ∃ s d j, out[n]? = some s ∧ dist[n]? = some d ∧ idx[n]? = some j ∧ FirstClosest symbols x s d j := by
  choose S D J h using fun x => closest_exists symbols hs x
  have hm : makeDecision signal symbols = some (signal.map fun x => (S x, D x, J x)) := by
    unfold makeDecision
    induction signal with
    | nil => rfl
    | cons x l ih => rw [List.mapM_cons, ih, (h x).1]; rfl
  refine ⟨signal.map S, signal.map D, signal.map J, ?_, by simp, by simp, by simp, fun n x hx => ⟨S x, D x, J x, by simp [hx], by simp [hx], by simp [hx], (h x).2⟩⟩
  unfold coreMakeDecision
  rw [if_pos rfl]
  dsimp only
  rw [hm]
  simp [Function.comp_def]

/-- **C210** If the module had a limit `NMAX` with room for one sample and all symbols, the device routine would return the same symbols (without
distances and positions), whatever the number and size of the blocks. -/
theorem C210_blocks (nm : Nat) (signal symbols : List ℂ) (precision : Option Int) (hs : symbols ≠ []) (hp : precision = none ∨ precision = some 16 ∨ precision = some 8)
    (hm : 16 * symbols.length ≤ nm) :
    ∃ out : List ℂ, coreMakeDecision true (some nm) signal (.arr symbols) "af" precision = .ok (.array out) ∧ out.length = signal.length ∧
      ∀ (n : Nat) (x : ℂ), signal[n]? = some x → ∃ s d j, out[n]? = some s ∧ FirstClosest symbols x s d j := by
  choose S D J h using fun x => closest_exists symbols hs x
  have hD : ∀ x, ∃ d j, FirstClosest symbols x (S x) d j := fun x => ⟨D x, J x, (h x).2⟩
  refine ⟨signal.map S, ?_, by simp, fun n x hx => ⟨S x, D x, J x, by simp [hx], (h x).2⟩⟩
  have hlen : 0 < symbols.length := List.length_pos_iff.2 hs
  have hq : 1 ≤ nm / symbols.length / 16 := by
    rw [Nat.div_div_eq_div_mul]
    exact (Nat.one_le_div_iff (by omega)).2 (by omega)
  have hpr : ¬ (precision.getD 16 ≠ 16 ∧ precision.getD 16 ≠ 8) := by
    rcases hp with rfl | rfl | rfl <;> simp
  have : decisionAf (some nm) signal (.arr symbols) (precision.getD 16) = .ok (signal.map S) := by
    unfold decisionAf
    rw [if_neg hpr]
    dsimp only
    rw [if_neg (by omega)]
    obtain ⟨Q, hQ⟩ : ∃ Q, Q = nm / symbols.length / 16 := ⟨_, rfl⟩
    rw [← hQ] at hq ⊢
    split_ifs with h1 h2
    · exact decide_block S symbols hs hD signal
    · omega
    · have hK := Nat.div_mul_le_self signal.length Q
      rw [decide_blocks S symbols hs hD signal Q _ hK]
      simp only [bind, Except.bind]
      rw [decide_block S symbols hs hD]
      have := decide_setSlice S signal _ signal.length hK le_rfl
      rw [List.take_length, Nat.sub_self, List.replicate_zero, List.append_nil] at this
      exact this
  unfold coreMakeDecision
  rw [if_neg (by decide), if_pos rfl, if_neg (by decide), this]

/-- **C210** As the module is, the device routine never returns: without ArrayFire RuntimeError, with it NameError, or ValueError for another
precision. -/
theorem C210_device (afLoaded : Bool) (signal : List ℂ) (symbols : SymbolArg) (precision : Option Int) :
    coreMakeDecision afLoaded signalQualityNMAX signal symbols "af" precision =
      .error (if afLoaded = false then .runtime else if precision.getD 16 = 16 ∨ precision.getD 16 = 8 then .py .name else .py .value) := by
  unfold coreMakeDecision decisionAf signalQualityNMAX
  rw [if_neg (by decide), if_pos rfl]
  cases afLoaded
  · simp
  · by_cases h1 : precision.getD 16 = 16 <;> by_cases h2 : precision.getD 16 = 8 <;> simp [h1, h2]

/-- **C210** Every other name, also the "pyx" of the documentation, raises ValueError. -/
theorem C210_unknown (afLoaded : Bool) (NMAX : Option Nat) (signal : List ℂ) (symbols : SymbolArg) (method : String) (precision : Option Int)
    (h1 : method ≠ "pyt") (h2 : method ≠ "af") : coreMakeDecision afLoaded NMAX signal symbols method precision = .error (.py .value) := by
  unfold coreMakeDecision
  rw [if_neg h1, if_neg h2]

/-- **C210** `cal_ser_qam` never returns a value, whatever the data, the order, the method, and even with ArrayFire and a memory limit; the default
method raises ValueError. -/
theorem C210_ser (afLoaded : Bool) (NMAX : Option Nat) (rx tx : List ℂ) (M : Nat) (method : String) :
    (∃ e, calSerQam afLoaded NMAX rx tx M method = .error e) ∧ calSerQam afLoaded NMAX rx tx M "pyx" = .error (.py .value) := by
  constructor
  · unfold calSerQam coreMakeDecision
    split_ifs with h1 h2 h3
    · exact ⟨_, rfl⟩
    · exact ⟨_, rfl⟩
    · unfold decisionAf
      cases NMAX <;> exact ⟨_, rfl⟩
    · exact ⟨_, rfl⟩
  · unfold calSerQam
    rw [C210_unknown _ _ _ _ _ _ (by decide) (by decide)]
    rfl

/-- **C210** The count of `cal_ser_qam` would be wrong even if the alphabet were passed: error free symbols, none of them zero, are decided correctly by
the default routine, and still the share of errors would be at least one, as the distances (all zero) are compared with the symbols as well. -/
theorem C210_count (afLoaded : Bool) (NMAX : Option Nat) (tx symbols : List ℂ) (hs : symbols ≠ []) (hne : tx ≠ []) (ht : ∀ x ∈ tx, x ∈ symbols ∧ x ≠ 0) :
    ∃ (dist : List ℝ) (idx : List Nat) (v : ℚ), coreMakeDecision afLoaded NMAX tx (.arr symbols) "pyt" none = .ok (.tuple tx dist idx) ∧
      serCount (.tuple tx dist idx) tx tx.length = .ok v ∧ 1 ≤ v := by
  obtain ⟨out, dist, idx, h1, h2, h3, h4, h5⟩ := C210_compiled afLoaded NMAX tx symbols hs
  have hz : ∀ (n : Nat) (x : ℂ), tx[n]? = some x → out[n]? = some x ∧ dist[n]? = some 0 := by
    intro n x hx
    obtain ⟨s, d, j, g1, g2, -, -, g4, g5, -⟩ := h5 n x hx
    have := g5 x (ht x (List.mem_of_getElem? hx)).1
    rw [sub_self, norm_zero] at this
    have h0 : ‖x - s‖ = 0 := le_antisymm this (norm_nonneg _)
    rw [g1, g2, g4, h0]
    exact ⟨by rw [sub_eq_zero.1 (norm_eq_zero.1 h0)], rfl⟩
  have ho : out = tx := by
    refine List.ext_getElem? fun n => ?_
    cases hx : tx[n]? with
    | none => rw [List.getElem?_eq_none_iff] at hx ⊢; omega
    | some x => exact (hz n x hx).1
  have hd : dist = List.replicate tx.length 0 := by
    refine List.ext_getElem? fun n => ?_
    cases hx : tx[n]? with
    | none => rw [List.getElem?_eq_none_iff] at hx; rw [List.getElem?_eq_none (by omega), List.getElem?_eq_none (by simpa using hx)]
    | some x =>
      obtain ⟨hn, -⟩ := List.getElem?_eq_some_iff.1 hx
      rw [(hz n x hx).2, List.getElem?_replicate, if_pos hn]
  subst ho
  have hlen : 0 < out.length := List.length_pos_iff.2 hne
  have hc : ∀ l : List ℂ, (∀ x ∈ l, x ≠ 0) → (((List.replicate l.length (0 : ℝ)).map fun x : ℝ => (x : ℂ)).zip l).countP (fun p => decide (p.1 - p.2 ≠ 0)) = l.length := by
    intro l hl
    induction l with
    | nil => rfl
    | cons x l ih =>
      have hx := hl x (by simp)
      rw [List.length_cons, List.replicate_succ, List.map_cons, List.zip_cons_cons, List.countP_cons, ih fun y hy => hl y (by simp [hy])]
      simp [hx]
  suffices hv : ∃ v : ℚ, serCount (.tuple out dist idx) out out.length = .ok v ∧ 1 ≤ v by
    obtain ⟨v, h6, h7⟩ := hv
    exact ⟨dist, idx, v, h1, h6, h7⟩
  unfold serCount
  dsimp only
  rw [if_neg (by simp [h3, h4]), if_neg (by omega)]
  refine ⟨_, rfl, ?_⟩
  · rw [le_div_iff₀ (by exact_mod_cast hlen), one_mul]
    have := hc out fun x hx => (ht x hx).2
    rw [hd]
    simp only [List.map_cons, List.sum_cons, this]
    have h6 : (0 : ℚ) ≤ ((out.zip out).countP fun p => decide (p.1 - p.2 ≠ 0) : ℕ) := Nat.cast_nonneg _
    have h7 : (0 : ℚ) ≤ (((([idx.map fun i : Nat => (i : ℂ)] : List (List ℂ)).map fun r => (r.zip out).countP fun p => decide (p.1 - p.2 ≠ 0)).sum : ℕ) : ℚ) := Nat.cast_nonneg _
    simp only [List.map_cons, List.sum_cons, List.map_nil, List.sum_nil] at h7
    push_cast at h7
    simp only [List.map_nil, List.sum_nil]
    linarith

example : ∃ (dist : List ℝ) (idx : List Nat) (v : ℚ), coreMakeDecision false none [1, -1] (.arr [1, -1]) "pyt" none = .ok (.tuple [1, -1] dist idx) ∧
    serCount (.tuple [1, -1] dist idx) [1, -1] 2 = .ok v ∧ 1 ≤ v :=
  C210_count false none [1, -1] [1, -1] (by simp) (by simp) (by simp)

/-- **C210** The full claim: the known methods return the closest symbols, and the error rate of plain arrays is the share of samples whose closest
symbol is not the transmitted one. -/
def C210_statement : Prop :=
  (∀ (signal symbols : List ℂ) (method : String), symbols ≠ [] → method = "pyt" ∨ method = "af" →
    ∃ out, coreMakeDecision true signalQualityNMAX signal (.arr symbols) method none = .ok out) ∧
  ∀ (k : Nat) (rx tx : List ℂ), 1 ≤ k → rx ≠ [] → rx.length = tx.length → ∃ ser, calSerQam true signalQualityNMAX rx tx (2 ^ k) "pyx" = .ok ser

theorem C210_false : ¬ C210_statement := by
  rintro ⟨-, h⟩
  obtain ⟨ser, h⟩ := h 2 [0] [0] (by norm_num) (by simp) rfl
  rw [(C210_ser true signalQualityNMAX [0] [0] (2 ^ 2) "pyx").2] at h
  cases h

/-- Two symbols, three samples, blocks of one sample: the middle sample has two closest symbols and goes to the first one. -/
example : ∃ out : List ℂ, coreMakeDecision true (some 32) [2, 0, -3] (.arr [1, -1]) "af" (some 8) = .ok (.array out) ∧ out.length = 3 ∧
    out[1]? = some 1 := by
  obtain ⟨out, h1, h2, h3⟩ := C210_blocks 32 [2, 0, -3] [1, -1] (some 8) (by simp) (by simp) (by simp)
  refine ⟨out, h1, h2, ?_⟩
  obtain ⟨s, d, j, g1, g2⟩ := h3 1 0 rfl
  have hf : FirstClosest [1, -1] (0 : ℂ) 1 1 0 := by
    refine ⟨rfl, by simp, fun c hc => ?_, fun i hi => by omega⟩
    simp only [List.mem_cons, List.not_mem_nil, or_false] at hc
    rcases hc with rfl | rfl <;> simp
  rw [g1, FirstClosest.unique hf g2]

end Qampy
