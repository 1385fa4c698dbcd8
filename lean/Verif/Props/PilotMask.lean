import Verif.Model.PilotMask
import Verif.Props.Pilots

/-!
C203: the masks `idx_payload` and `idx_pilots` of a signal with pilots.
-/

namespace Qampy

variable {α : Type _}

theorem maskLen (mask : List Bool) (L os fl : Nat) (hl : mask.length = fl) (hos : 1 ≤ os) :
    ((Np.tile mask (L / (os * fl))).take L).length = L / (os * fl) * fl := by
  rw [List.length_take, Np.length_tile, hl, min_eq_right]
  calc L / (os * fl) * fl ≤ L / (os * fl) * (os * fl) := Nat.mul_le_mul_left _ (Nat.le_mul_of_pos_left _ hos)
    _ ≤ L := Nat.div_mul_le_self _ _

/-- C203: the two masks exist, have no common position and together mark every symbol of the frames. -/
theorem C203_partition (s : PilotSignal α) (L os : Nat) (hfl : 1 ≤ s.frameLen) (hos : 1 ≤ os) (hlay : calPilotIdx s.frameLen s.seqLen s.insRat = .ok (s.idxDat, s.idxPil)) :
    ∃ a b, idxPayload s L os = .ok a ∧ idxPilots s L os = .ok b ∧ a.length = L / (os * s.frameLen) * s.frameLen ∧ b = a.map not ∧
      ∀ i < a.length, a[i]? = some (isData s.seqLen s.insRat (i % s.frameLen)) := by
  obtain ⟨h1, h2⟩ := calPilotIdx_ok hlay
  have hl : s.idxDat.length = s.frameLen := by rw [h1]; simp
  have hpos : os * s.frameLen ≠ 0 := Nat.mul_ne_zero (by omega) (by omega)
  have hlen := maskLen s.idxDat L os s.frameLen hl hos
  refine ⟨_, _, by rw [idxPayload, nFrames, if_neg hpos]; rfl, by rw [idxPilots, nFrames, if_neg hpos]; rfl, hlen, by dsimp only; rw [tile_map, List.map_take], ?_⟩
  intro i hi
  have hi' : i < L ∧ i < L / (os * s.frameLen) * s.idxDat.length := by
    rw [List.length_take, Np.length_tile] at hi
    omega
  rw [List.getElem?_take, if_pos hi'.1, Np.getElem?_tile _ _ _ hi'.2, hl, h1, List.getElem?_map, List.getElem?_range (Nat.mod_lt _ (by omega)), Option.map_some]

/-- The statement of C203: indexing a signal with `idx_payload` gives the payload symbols of all its complete frames. -/
def C203_statement : Prop :=
  ∀ (s : PilotSignal ℕ) (L : Nat), 1 ≤ s.frameLen → calPilotIdx s.frameLen s.seqLen s.insRat = .ok (s.idxDat, s.idxPil) → (∀ r ∈ s.rows, r.length = L) →
    selectMask (idxPayload s L 1) s = .ok (s.rows.map fun r => samplesAt (r.take (L / s.frameLen * s.frameLen)) fun p => isData s.seqLen s.insRat (p % s.frameLen))

/-- C203 holds for signals of whole frames at one sample per symbol: the payload mask selects what `get_data()` returns. Missing: an incomplete last frame. -/
theorem C203_payload_partial (s : PilotSignal α) (n : Nat) (hfl : 1 ≤ s.frameLen) (hv : ValidFrames s n) :
    selectMask (idxPayload s (n * s.frameLen) 1) s = .ok (s.rows.map fun r => samplesAt r fun p => isData s.seqLen s.insRat (p % s.frameLen)) := by
  obtain ⟨a, b, ha, -, hlen, -, hval⟩ := C203_partition s (n * s.frameLen) 1 hfl le_rfl hv.layout
  rw [Nat.one_mul, Nat.mul_div_cancel _ (by omega)] at hlen
  unfold selectMask
  rw [ha]
  simp only [bind, Except.bind]
  rw [mapM_boolIndex _ _ (fun r hr => by rw [hlen]; exact hv.rows r hr)]
  congr 1
  apply List.map_congr_left
  intro r hr
  rw [select_eq_samplesAt _ _ (by rw [hlen]; exact hv.rows r hr)]
  apply samplesAt_congr
  intro i hi
  rw [hval i (by rw [hlen, ← hv.rows r hr]; exact hi)]
  cases isData s.seqLen s.insRat (i % s.frameLen) <;> rfl

/-- C203: and the pilot mask selects the pilots of all frames. -/
theorem C203_pilots_partial (s : PilotSignal α) (n : Nat) (hfl : 1 ≤ s.frameLen) (hv : ValidFrames s n) :
    selectMask (idxPilots s (n * s.frameLen) 1) s = .ok (s.rows.map fun r => samplesAt r fun p => !isData s.seqLen s.insRat (p % s.frameLen)) := by
  obtain ⟨a, b, -, hb, hlen, rfl, hval⟩ := C203_partition s (n * s.frameLen) 1 hfl le_rfl hv.layout
  rw [Nat.one_mul, Nat.mul_div_cancel _ (by omega)] at hlen
  unfold selectMask
  rw [hb]
  simp only [bind, Except.bind]
  rw [mapM_boolIndex _ _ (fun r hr => by rw [List.length_map, hlen]; exact hv.rows r hr)]
  congr 1
  apply List.map_congr_left
  intro r hr
  rw [select_eq_samplesAt _ _ (by rw [List.length_map, hlen]; exact hv.rows r hr)]
  apply samplesAt_congr
  intro i hi
  rw [List.getElem?_map, hval i (by rw [hlen, ← hv.rows r hr]; exact hi)]
  cases isData s.seqLen s.insRat (i % s.frameLen) <;> rfl

/-- C203: for a signal with at least one mode and one sample, the payload mask fits exactly if there is one sample per symbol and the signal consists of whole frames; otherwise indexing raises IndexError. -/
theorem C203_fits (s : PilotSignal α) (L os : Nat) (hfl : 1 ≤ s.frameLen) (hos : 1 ≤ os) (hL : 1 ≤ L) (hlay : calPilotIdx s.frameLen s.seqLen s.insRat = .ok (s.idxDat, s.idxPil))
    (hrow : s.rows ≠ []) (hrows : ∀ r ∈ s.rows, r.length = L) :
    ((∃ x, selectMask (idxPayload s L os) s = .ok x) ↔ os = 1 ∧ s.frameLen ∣ L) ∧
      (¬ (os = 1 ∧ s.frameLen ∣ L) → selectMask (idxPayload s L os) s = .error .index ∧ selectMask (idxPilots s L os) s = .error .index) := by
  obtain ⟨a, b, ha, hb, hlen, rfl, -⟩ := C203_partition s L os hfl hos hlay
  have hbad : ¬ (os = 1 ∧ s.frameLen ∣ L) → a.length ≠ L := by
    intro h he
    rw [hlen] at he
    apply h
    have hq : L / (os * s.frameLen) ≠ 0 := by
      intro h0
      rw [h0] at he
      omega
    have hle := Nat.div_mul_le_self L (os * s.frameLen)
    obtain ⟨q, hqe⟩ : ∃ q, q = L / (os * s.frameLen) := ⟨_, rfl⟩
    rw [← hqe] at he hle hq
    constructor
    · by_contra hne
      have h2 : 2 ≤ os := by omega
      have : q * (2 * s.frameLen) ≤ q * (os * s.frameLen) := Nat.mul_le_mul_left _ (Nat.mul_le_mul_right _ h2)
      have h3 : 1 ≤ q * s.frameLen := Nat.mul_pos (by omega) (by omega)
      have h4 : q * (2 * s.frameLen) = q * s.frameLen + q * s.frameLen := by ring
      omega
    · exact ⟨q, by rw [← he, Nat.mul_comm]⟩
  have herr : ¬ (os = 1 ∧ s.frameLen ∣ L) → selectMask (idxPayload s L os) s = .error .index ∧ selectMask (idxPilots s L os) s = .error .index := by
    intro h
    have hne := hbad h
    obtain ⟨r, rs, hrs⟩ := List.exists_cons_of_ne_nil hrow
    have hr : r.length = L := hrows r (by rw [hrs]; simp)
    unfold selectMask
    rw [ha, hb, hrs]
    simp only [bind, Except.bind, List.mapM_cons, boolIndex, List.length_map, hr]
    rw [if_neg (fun h => hne h.symm), if_neg (fun h => hne h.symm)]
    exact ⟨rfl, rfl⟩
  refine ⟨⟨?_, ?_⟩, herr⟩
  · rintro ⟨x, hx⟩
    by_contra h
    rw [(herr h).1] at hx
    cases hx
  · rintro ⟨rfl, n, rfl⟩
    exact ⟨_, by rw [Nat.mul_comm]; exact C203_payload_partial s n hfl ⟨hlay, fun r hr => by rw [hrows r hr, Nat.mul_comm]⟩⟩

example : selectMask (idxPayload ({ rows := [[10, 11, 1, 10, 11, 2]], frameLen := 3, seqLen := 1, insRat := 2, symbols := [[1, 2]], pilots := [[10, 11, 10, 11]], idxDat := [false, false, true], idxPil := [true, true, false] } : PilotSignal ℕ) 6 1)
    { rows := [[10, 11, 1, 10, 11, 2]], frameLen := 3, seqLen := 1, insRat := 2, symbols := [[1, 2]], pilots := [[10, 11, 10, 11]], idxDat := [false, false, true], idxPil := [true, true, false] } = .ok [[1, 2]] := by
  have h := C203_payload_partial ({ rows := [[10, 11, 1, 10, 11, 2]], frameLen := 3, seqLen := 1, insRat := 2, symbols := [[1, 2]], pilots := [[10, 11, 10, 11]], idxDat := [false, false, true], idxPil := [true, true, false] } : PilotSignal ℕ) 2 (by norm_num)
    ⟨(by rfl : calPilotIdx 3 1 2 = .ok ([false, false, true], [true, true, false])), by simp⟩
  exact h

/-- A complete frame followed by one sample of the next one. -/
theorem C203_false : ¬ C203_statement := by
  intro h
  have h1 := h { rows := [[10, 11, 1, 10]], frameLen := 3, seqLen := 1, insRat := 2, symbols := [[1]], pilots := [[10, 11]], idxDat := [false, false, true], idxPil := [true, true, false] } 4 (by norm_num) rfl (by simp)
  have h2 := (C203_fits ({ rows := [[10, 11, 1, 10]], frameLen := 3, seqLen := 1, insRat := 2, symbols := [[1]], pilots := [[10, 11]], idxDat := [false, false, true], idxPil := [true, true, false] } : PilotSignal ℕ) 4 1 (by norm_num) le_rfl
    (by norm_num) rfl (by simp) (by simp)).2 (by norm_num)
  rw [h2.1] at h1
  cases h1

end Qampy
