import Verif.Model.CpeOld
import Verif.Lemmas.Phase
import Verif.Lemmas.Carrier
import Verif.Lemmas.Pilots
import Verif.Props.Foe
import Verif.Props.Resample
import Verif.Tactics

/-!
C130: the older pilot based carrier phase recovery.
-/

namespace Qampy

open Complex (I)

/-! ### Interpolation on an even grid -/

theorem interp_grid (P : Nat) (v : ℕ → ℝ) (s D : ℝ) (hD : 0 < D) (j : Nat) (hj : j + 1 < P) (x : ℝ) (h1 : s + D * j ≤ x) (h2 : x < s + D * (j + 1)) :
    interp x ((List.range P).map fun i : ℕ => (s + D * (i : ℝ), v i)) = some (v j + (v (j + 1) - v j) / D * (x - (s + D * j))) := by
  induction P generalizing v s j with
  | zero => omega
  | succ P ih =>
    cases P with
    | zero => omega
    | succ P =>
      have hl : (List.range (P + 1)).map ((fun i : ℕ => (s + D * (i : ℝ), v i)) ∘ Nat.succ) = (List.range (P + 1)).map fun i : ℕ => ((s + D) + D * (i : ℝ), v (i + 1)) := by
        apply List.map_congr_left
        intro i _
        simp only [Function.comp_apply, Nat.succ_eq_add_one, Prod.mk.injEq, and_true]
        push_cast
        ring
      rw [List.range_succ_eq_map, List.map_cons, List.map_map, hl]
      have ih' := fun j => ih (fun i => v (i + 1)) (s + D) j
      obtain ⟨T, hT⟩ : ∃ T, T = (List.range (P + 1)).map fun i : ℕ => ((s + D) + D * (i : ℝ), v (i + 1)) := ⟨_, rfl⟩
      rw [← hT] at ih' ⊢
      obtain ⟨T', hT'⟩ : ∃ T', T = ((s + D), v 1) :: T' := by
        rw [hT, List.range_succ_eq_map, List.map_cons]
        exact ⟨_, by simp; rfl⟩
      rw [hT', interp]
      dsimp only
      cases j with
      | zero =>
        simp only [Nat.cast_zero, mul_zero, add_zero, zero_add, mul_one] at h1 h2 ⊢
        by_cases c : x ≤ s
        · rw [if_pos c, le_antisymm c h1]; simp
        · rw [if_neg c, if_pos h2]
          congr 1
          rw [show s + D - s = D by ring]; ring
      | succ j =>
        push_cast at h1 h2
        have hjD : 0 ≤ D * j := by positivity
        rw [if_neg (by push_cast; nlinarith), if_neg (by nlinarith), ← hT', ih' j (by omega) (by linarith) (by linarith)]
        push_cast
        congr 2
        ring

theorem interp_grid_end (P : Nat) (v : ℕ → ℝ) (s D : ℝ) (hD : 0 < D) (x : ℝ) (h1 : s + D * P ≤ x) :
    interp x ((List.range (P + 1)).map fun i : ℕ => (s + D * (i : ℝ), v i)) = some (v P) := by
  induction P generalizing v s with
  | zero => simp [interp]
  | succ P ih =>
      have hl : (List.range (P + 1)).map ((fun i : ℕ => (s + D * (i : ℝ), v i)) ∘ Nat.succ) = (List.range (P + 1)).map fun i : ℕ => ((s + D) + D * (i : ℝ), v (i + 1)) := by
        apply List.map_congr_left
        intro i _
        simp only [Function.comp_apply, Nat.succ_eq_add_one, Prod.mk.injEq, and_true]
        push_cast
        ring
      rw [List.range_succ_eq_map, List.map_cons, List.map_map, hl]
      have ih' := ih (fun i => v (i + 1)) (s + D)
      obtain ⟨T, hT⟩ : ∃ T, T = (List.range (P + 1)).map fun i : ℕ => ((s + D) + D * (i : ℝ), v (i + 1)) := ⟨_, rfl⟩
      rw [← hT] at ih' ⊢
      obtain ⟨T', hT'⟩ : ∃ T', T = ((s + D), v 1) :: T' := by
        rw [hT, List.range_succ_eq_map, List.map_cons]
        exact ⟨_, by simp; rfl⟩
      push_cast at h1
      have hjD : 0 ≤ D * P := by positivity
      rw [hT', interp]
      dsimp only
      rw [if_neg (by push_cast; nlinarith), if_neg (by nlinarith), ← hT', ih' (by linarith)]

/-- An affine function held constant from a grid point on is reproduced by the interpolation. -/
theorem interp_held (P m : Nat) (hm : m < P) (a b D : ℝ) (hD : 0 < D) (x : ℝ) (hx : 0 ≤ x) :
    interp x ((List.range P).map fun i : ℕ => (D * (i : ℝ), a + b * (D * (min i m : ℕ)))) = some (a + b * min x (D * m)) := by
  obtain ⟨P, rfl⟩ : ∃ Q, P = Q + 1 := ⟨P - 1, by omega⟩
  have e : ((List.range (P + 1)).map fun i : ℕ => (D * (i : ℝ), a + b * (D * (min i m : ℕ)))) = (List.range (P + 1)).map fun i : ℕ => (0 + D * (i : ℝ), (fun i : ℕ => a + b * (D * (min i m : ℕ))) i) := by
    simp
  rw [e]
  by_cases hP : D * P ≤ x
  · rw [interp_grid_end P _ 0 D hD x (by linarith)]
    have h1 : (m : ℝ) ≤ P := by exact_mod_cast Nat.lt_succ_iff.1 hm
    rw [min_eq_right (Nat.lt_succ_iff.1 hm), min_eq_right (by nlinarith)]
  · have hj0 : 0 ≤ x / D := by positivity
    obtain ⟨j, hj⟩ : ∃ j, j = ⌊x / D⌋₊ := ⟨_, rfl⟩
    have h1 : (j : ℝ) ≤ x / D := by rw [hj]; exact Nat.floor_le hj0
    have h2 : x / D < j + 1 := by rw [hj]; exact Nat.lt_floor_add_one _
    rw [le_div_iff₀ hD] at h1
    rw [div_lt_iff₀ hD] at h2
    have hjP : j < P := by
      have : (j : ℝ) < P := by
        by_contra hc
        exact hP (by nlinarith)
      exact_mod_cast this
    rw [interp_grid (P + 1) _ 0 D hD j (by omega) x (by linarith) (by linarith)]
    congr 1
    by_cases hc : j < m
    · have h3 : (j : ℝ) ≤ m := by exact_mod_cast hc.le
      have h4 : ((j + 1 : ℕ) : ℝ) ≤ m := by exact_mod_cast hc
      rw [min_eq_left hc.le, min_eq_left (Nat.succ_le_of_lt hc), min_eq_left (by push_cast at h4; nlinarith)]
      push_cast
      field_simp
      ring
    · have h3 : (m : ℝ) ≤ j := by exact_mod_cast not_lt.1 hc
      have h4 : (m : ℝ) ≤ ((j + 1 : ℕ) : ℝ) := by push_cast; linarith
      rw [min_eq_right (not_lt.1 hc), min_eq_right (by omega), min_eq_right (by nlinarith)]
      simp

/-! ### One mode -/

theorem cpeOldBase_ramp (L NP nb ins use P : Nat) (hins : 1 ≤ ins) (huse : 1 ≤ use) (hnb : nb = P * use) (hL : nb * ins ≤ L) (hNP : nb ≤ NP) (x p : ℕ → ℂ) (g : ℕ → ℝ) (hg : ∀ k < L, 0 < g k) (a b : ℝ)
    (hp : ∀ j < nb, p j ≠ 0 ∧ x (j * ins) = p j) (hb : |b| * (ins * use) < Real.pi) :
    ∃ K : ℤ, cpeOldBase ((List.range L).map fun k : ℕ => (g k : ℂ) * (x k * Complex.exp (I * ((a + b * k : ℝ) : ℂ)))) ((List.range NP).map p) nb ins use =
      (List.range P).map fun i : ℕ => a + b * (((ins * use : ℕ) : ℝ) * i) + 2 * Real.pi * K := by
  have hlt : ∀ j, j < P → j * use * ins < L := by
    intro j hj
    calc j * use * ins < P * use * ins := by
          apply Nat.mul_lt_mul_of_pos_right _ hins
          exact Nat.mul_lt_mul_of_pos_right hj huse
      _ ≤ L := by rw [← hnb]; exact hL
  have hj' : ∀ j, j < P → j * use < nb := fun j hj => by rw [hnb]; exact Nat.mul_lt_mul_of_pos_right hj huse
  have hj'' : ∀ j, ¬ j < P → ¬ j * use < nb := fun j hj => by rw [hnb, not_lt]; exact Nat.mul_le_mul_right _ (not_lt.1 hj)
  have e1 : Np.strided (((List.range NP).map p).take nb) use = (List.range P).map fun i => p (i * use) := by
    apply List.ext_getElem?
    intro j
    rw [getElem?_strided' _ _ huse, List.getElem?_take, List.getElem?_map, List.getElem?_map]
    by_cases hj : j < P
    · rw [if_pos (hj' j hj), List.getElem?_range hj, List.getElem?_range (lt_of_lt_of_le (hj' j hj) hNP)]; rfl
    · rw [if_neg (hj'' j hj), List.getElem?_eq_none (by simpa using hj)]; rfl
  have e2 : cpeOldRec ((List.range L).map fun k : ℕ => (g k : ℂ) * (x k * Complex.exp (I * ((a + b * k : ℝ) : ℂ)))) nb ins use =
      (List.range P).map fun i : ℕ => (g (i * use * ins) : ℂ) * (p (i * use) * Complex.exp (I * ((a + b * (((ins * use : ℕ) : ℝ) * i) : ℝ) : ℂ))) := by
    unfold cpeOldRec
    apply List.ext_getElem?
    intro j
    rw [getElem?_strided' _ _ huse, List.getElem?_take, getElem?_strided' _ _ hins, List.getElem?_map, List.getElem?_map]
    by_cases hj : j < P
    · rw [if_pos (hj' j hj), List.getElem?_range hj, List.getElem?_range (hlt j hj)]
      simp only [Option.map_some, Option.some.injEq]
      rw [(hp _ (hj' j hj)).2]
      congr 5
      push_cast
      ring
    · rw [if_neg (hj'' j hj), List.getElem?_eq_none (by simpa using hj)]; rfl
  unfold cpeOldBase
  rw [e1, e2]
  refine pilotPhase_ramp P (fun i => p (i * use)) (fun k hk => (hp _ (hj' k hk)).1) (fun i => g (i * use * ins)) (fun k hk => hg _ (hlt k hk)) _ ?_
  intro k _
  have : a + b * (((ins * use : ℕ) : ℝ) * (k + 1 : ℕ)) - (a + b * (((ins * use : ℕ) : ℝ) * k)) = b * (ins * use) := by push_cast; ring
  rw [this, abs_mul, abs_of_nonneg (by positivity : (0 : ℝ) ≤ ins * use)]
  exact hb

theorem sum_range_line (N i : Nat) (a b : ℝ) (hN : N % 2 = 1) : (∑ j ∈ Finset.range N, (a + b * ((i + j : ℕ) : ℝ))) / N = a + b * ((i + (N - 1) / 2 : ℕ) : ℝ) := by
  obtain ⟨m, rfl⟩ : ∃ m, N = 2 * m + 1 := ⟨N / 2, by omega⟩
  have h0 : ((2 * m + 1 : ℕ) : ℝ) ≠ 0 := by positivity
  have h1 : (2 * m + 1 - 1) / 2 = m := by omega
  have h := sum_range_cast (2 * m + 1)
  have hs : ∑ j ∈ Finset.range (2 * m + 1), (a + b * ((i + j : ℕ) : ℝ)) = (2 * m + 1 : ℕ) * (a + b * i) + b * ∑ j ∈ Finset.range (2 * m + 1), (j : ℝ) := by
    rw [Finset.sum_congr rfl fun j _ => show a + b * ((i + j : ℕ) : ℝ) = (a + b * i) + b * (j : ℝ) by push_cast; ring, Finset.sum_add_distrib, ← Finset.mul_sum, Finset.sum_const, Finset.card_range, nsmul_eq_mul]
  rw [hs, h, h1, div_eq_iff h0]
  push_cast
  ring

theorem cpeOldPhase_length (base : List ℝ) (N : Nat) (hN : N % 2 = 1) (hP : N ≤ base.length) : ∃ ph, cpeOldPhase base N = .ok ph ∧ ph.length = base.length := by
  obtain ⟨avg, h1, h2, -⟩ := movingAverage_spec base N (by omega)
  unfold cpeOldPhase
  rw [h1]
  have hne : avg ≠ [] := by
    intro h
    rw [h] at h2
    simp at h2
    omega
  simp only [List.getLast?_eq_getLast_of_ne_nil hne]
  refine ⟨_, rfl, ?_⟩
  simp [h2]
  omega

theorem cpeOldPhase_line (P N : Nat) (hN : N % 2 = 1) (hP : N ≤ P) (a b : ℝ) :
    cpeOldPhase ((List.range P).map fun i : ℕ => a + b * (i : ℝ)) N = .ok ((List.range P).map fun i : ℕ => a + b * ((min i (P - 1 - (N - 1) / 2) : ℕ) : ℝ)) := by
  obtain ⟨base, hbase⟩ : ∃ base, base = (List.range P).map fun i : ℕ => a + b * (i : ℝ) := ⟨_, rfl⟩
  have hbl : base.length = P := by rw [hbase]; simp
  obtain ⟨avg, h1, h2, h3⟩ := movingAverage_spec base N (by omega)
  rw [hbl] at h2 h3
  have h4 : ∀ i, i + N ≤ P → avg[i]? = some (a + b * ((i + (N - 1) / 2 : ℕ) : ℝ)) := by
    intro i hi
    rw [h3 i hi, ← sum_range_line N i a b hN]
    congr 2
    apply Finset.sum_congr rfl
    intro j hj
    rw [Finset.mem_range] at hj
    rw [hbase, List.getD_eq_getElem?_getD, List.getElem?_map, List.getElem?_range (by omega)]
    rfl
  have h5 : avg.getLast? = some (a + b * ((P - 1 - (N - 1) / 2 : ℕ) : ℝ)) := by
    rw [List.getLast?_eq_getElem?, h2, h4 _ (by omega)]
    congr 4
    omega
  rw [← hbase]
  unfold cpeOldPhase
  rw [h1]
  simp only [h5]
  congr 1
  apply List.ext_getElem?
  intro i
  have hadj : (base.take ((N - 1) / 2)).length = (N - 1) / 2 := by rw [List.length_take, hbl]; omega
  by_cases c0 : i < P
  · rw [List.getElem?_map, List.getElem?_range c0]
    by_cases c1 : i < (N - 1) / 2
    · rw [List.append_assoc, List.getElem?_append_left (by omega), List.getElem?_take, if_pos c1, hbase, List.getElem?_map, List.getElem?_range c0, Option.map_some, Option.map_some, min_eq_left (by omega)]
    · by_cases c2 : i < (N - 1) / 2 + (P + 1 - N)
      · rw [List.getElem?_append_left (by rw [List.length_append]; omega), List.getElem?_append_right (by omega), hadj, h4 _ (by omega), Option.map_some, min_eq_left (by omega), Nat.sub_add_cancel (not_lt.1 c1)]
      · rw [List.getElem?_append_right (by rw [List.length_append]; omega), List.getElem?_map, List.getElem?_eq_getElem (by rw [List.length_append]; omega), Option.map_some, Option.map_some, min_eq_right (by omega)]
  · rw [List.getElem?_eq_none (by rw [List.length_append, List.length_append, List.length_map, hadj]; omega), List.getElem?_eq_none (by simpa using c0)]

theorem cpeOldTrace_held (P m ins use : Nat) (hins : 1 ≤ ins) (huse : 1 ≤ use) (hm : m < P) (a b : ℝ) :
    cpeOldTrace ((List.range P).map fun i : ℕ => a + b * (((ins * use : ℕ) : ℝ) * (min i m : ℕ))) ins use (P * use * ins) = .ok ((List.range (P * use * ins)).map fun k : ℕ => a + b * ((min k (m * (ins * use)) : ℕ) : ℝ)) := by
  unfold cpeOldTrace
  rw [if_neg (by simp; ring)]
  apply mapM_ok
  intro k _
  have hD : (0 : ℝ) < ((ins * use : ℕ) : ℝ) := by
    have : 0 < ins * use := Nat.mul_pos hins huse
    exact_mod_cast this
  have e : (((List.range P).map fun i : ℕ => a + b * (((ins * use : ℕ) : ℝ) * (min i m : ℕ))).mapIdx fun j v => (((j * (ins * use) : ℕ) : ℝ), v)) =
      (List.range P).map fun i : ℕ => (((ins * use : ℕ) : ℝ) * (i : ℝ), a + b * (((ins * use : ℕ) : ℝ) * (min i m : ℕ))) := by
    apply List.ext_getElem?
    intro i
    rw [List.getElem?_mapIdx, List.getElem?_map, List.getElem?_map]
    by_cases hi : i < P
    · rw [List.getElem?_range hi]
      simp only [Option.map_some, Option.some.injEq, Prod.mk.injEq, and_true]
      push_cast
      ring
    · rw [List.getElem?_eq_none (by simpa using hi)]; rfl
  rw [e, interp_held P m hm a b _ hD k (by positivity)]
  show Except.ok _ = _
  congr 3
  push_cast
  rw [mul_comm (m : ℝ)]

theorem filterMap_range_map {β : Type _} (n : Nat) (f : ℕ → β) (q : ℕ → Bool) : ((List.range n).filter q).filterMap (fun i => ((List.range n).map f)[i]?) = ((List.range n).filter q).map f := by
  rw [show ((List.range n).filter q).map f = ((List.range n).filter q).filterMap (fun i => some (f i)) from (List.filterMap_eq_map (f := f) ▸ rfl)]
  apply List.filterMap_congr
  intro i hi
  have hi' : i < n := by simpa using (List.mem_filter.1 hi).1
  rw [List.getElem?_map, List.getElem?_range hi']
  rfl

/-! ### C130 -/

/-- C130, two modes: a linear phase drift of mode `l` is removed, up to the last complete averaging window; after its centre the phase is held. The received pilots may have any positive gains. In particular a constant phase is removed everywhere, without averaging so is a drift up to the last used pilot. -/
theorem C130_drift_partial (Len NP nb ins use P numAverage : Nat) (maxBlocks : Option Nat) (remove : Bool) (hins : 1 ≤ ins) (huse : 1 ≤ use) (hnb : nb = P * use) (hP : 2 ≤ P)
    (hblocks : nb = min (match maxBlocks with | none => Len / ins / use * use | some m => min (Len / ins) m / use * use) NP)
    (hav : 1 ≤ numAverage) (havP : numAverage < P) (x p : ℕ → ℕ → ℂ) (g : ℕ → ℕ → ℝ) (hg : ∀ l < 2, ∀ k < Len, 0 < g l k) (a b : ℕ → ℝ)
    (hp : ∀ l < 2, ∀ j < nb, p l j ≠ 0 ∧ x l (j * ins) = p l j) (hb : ∀ l < 2, |b l| * (ins * use) < Real.pi) :
    ∃ (K : ℕ → ℤ) (c : ℕ), c = (P - 1 - numAverage / 2) * (use * ins) ∧
      pilotBasedCpeOld ((List.range 2).map fun l => (List.range Len).map fun k : ℕ => (g l k : ℂ) * (x l k * Complex.exp (I * ((a l + b l * k : ℝ) : ℂ)))) ((List.range 2).map fun l => (List.range NP).map (p l)) ins numAverage use maxBlocks remove =
        .ok ((List.range 2).map fun l => (((List.range (nb * ins)).filter fun k => !(remove && decide (k % ins = 0))).map (fun k : ℕ => (g l k : ℂ) * x l k * Complex.exp (I * ((b l * (k - min k c : ℕ) : ℝ) : ℂ))),
          (List.range (nb * ins)).map fun k : ℕ => a l + b l * (min k c : ℕ) + 2 * Real.pi * K l)) := by
  have hLen : nb * ins ≤ Len := by
    have h1 : nb ≤ Len / ins := by
      rw [hblocks]
      refine le_trans (min_le_left _ _) ?_
      cases maxBlocks with
      | none => exact Nat.div_mul_le_self _ _
      | some m => exact le_trans (Nat.div_mul_le_self _ _) (min_le_left _ _)
    exact le_trans (Nat.mul_le_mul_right _ h1) (Nat.div_mul_le_self _ _)
  have hNP : nb ≤ NP := by rw [hblocks]; exact min_le_right _ _
  have hB : cpeOldBlocks Len NP ins use maxBlocks = nb := by
    have hmod : ∀ n, n - n % use = n / use * use := fun n => by
      have := Nat.div_add_mod' n use
      omega
    have hmin : ∀ n m : ℕ, (if n > m then m else n) = min n m := fun n m => by
      split <;> omega
    unfold cpeOldBlocks
    cases maxBlocks with
    | none => simp only [hmod, hmin]; exact hblocks.symm
    | some m => simp only [hmod, hmin]; exact hblocks.symm
  obtain ⟨N, hN⟩ : ∃ N, N = if numAverage % 2 = 0 then numAverage + 1 else numAverage := ⟨_, rfl⟩
  have hN1 : N % 2 = 1 := by rw [hN]; split <;> omega
  have hN2 : N ≤ P := by rw [hN]; split <;> omega
  have hN3 : (N - 1) / 2 = numAverage / 2 := by rw [hN]; split <;> omega
  have hex : ∀ l, ∃ K : ℤ, l < 2 → cpeOldBase ((List.range Len).map fun k : ℕ => (g l k : ℂ) * (x l k * Complex.exp (I * ((a l + b l * k : ℝ) : ℂ)))) ((List.range NP).map (p l)) nb ins use =
      (List.range P).map fun i : ℕ => a l + b l * (((ins * use : ℕ) : ℝ) * i) + 2 * Real.pi * K := by
    intro l
    by_cases hl : l < 2
    · obtain ⟨K, hK⟩ := cpeOldBase_ramp Len NP nb ins use P hins huse hnb hLen hNP (x l) (p l) (g l) (hg l hl) (a l) (b l) (hp l hl) (hb l hl)
      exact ⟨K, fun _ => hK⟩
    · exact ⟨0, fun h => absurd h hl⟩
  choose K hK using hex
  refine ⟨K, _, rfl, ?_⟩
  have hPu : (nb + use - 1) / use = P := by
    rw [hnb, Nat.add_sub_assoc huse, Nat.add_comm, Nat.add_mul_div_right _ _ huse, Nat.div_eq_of_lt (by omega)]; omega
  unfold pilotBasedCpeOld
  have hlr : ∀ f : ℕ → List ℂ, ((List.range 2).map f).headD [] = f 0 := fun f => rfl
  rw [hlr, hlr, List.length_map, List.length_range, List.length_map, List.length_range, hB]
  dsimp only
  rw [hPu, if_neg (by omega), if_neg (by rw [hnb]; nlinarith), if_neg (by omega), if_neg (by simp), if_neg (by simp), ← hN]
  have hz : List.zip ((List.range 2).map fun l => (List.range Len).map fun k : ℕ => (g l k : ℂ) * (x l k * Complex.exp (I * ((a l + b l * k : ℝ) : ℂ)))) ((List.range 2).map fun l => (List.range NP).map (p l)) =
    (List.range 2).map fun l => ((List.range Len).map fun k : ℕ => (g l k : ℂ) * (x l k * Complex.exp (I * ((a l + b l * k : ℝ) : ℂ))), (List.range NP).map (p l)) := by
    rw [List.zip_map', ]
  rw [hz]
  rw [List.mapM_map]
  apply mapM_ok
  intro l hl
  have hl2 : l < 2 := by simpa using hl
  have hbase : cpeOldBase ((List.range Len).map fun k : ℕ => (g l k : ℂ) * (x l k * Complex.exp (I * ((a l + b l * k : ℝ) : ℂ)))) ((List.range NP).map (p l)) nb ins use =
      (List.range P).map fun i : ℕ => (a l + 2 * Real.pi * K l) + (b l * ((ins * use : ℕ) : ℝ)) * (i : ℝ) := by
    rw [hK l hl2]
    apply List.map_congr_left
    intro i _
    ring
  have hph : ((List.range P).map fun i : ℕ => (a l + 2 * Real.pi * K l) + (b l * ((ins * use : ℕ) : ℝ)) * ((min i (P - 1 - (N - 1) / 2) : ℕ) : ℝ)) =
      (List.range P).map fun i : ℕ => (a l + 2 * Real.pi * K l) + b l * (((ins * use : ℕ) : ℝ) * (min i (P - 1 - (N - 1) / 2) : ℕ)) := by
    apply List.map_congr_left
    intro i _
    ring
  rw [Function.comp_apply]
  unfold cpeOldMode
  dsimp only
  rw [hbase, cpeOldPhase_line P N hN1 hN2, hph]
  show (do let trace ← cpeOldTrace _ _ _ _; _) = _
  rw [hnb, cpeOldTrace_held P _ ins use hins huse (by omega)]
  have hc : (P - 1 - (N - 1) / 2) * (ins * use) = (P - 1 - numAverage / 2) * (use * ins) := by rw [hN3, Nat.mul_comm ins]
  rw [hc]
  obtain ⟨c, hc⟩ : ∃ c, c = (P - 1 - numAverage / 2) * (use * ins) := ⟨_, rfl⟩
  rw [← hc, ← hnb]
  have hrot : rotateBy (((List.range Len).map fun k : ℕ => (g l k : ℂ) * (x l k * Complex.exp (I * ((a l + b l * k : ℝ) : ℂ)))).take (nb * ins)) (((List.range (nb * ins)).map fun k : ℕ => a l + 2 * Real.pi * K l + b l * ((min k c : ℕ) : ℝ)).map (- ·)) =
      (List.range (nb * ins)).map fun k : ℕ => (g l k : ℂ) * x l k * Complex.exp (I * ((b l * (k - min k c : ℕ) : ℝ) : ℂ)) := by
    unfold rotateBy
    rw [← List.map_take, List.take_range, min_eq_left hLen, List.map_map, List.zipWith_map, List.zipWith_self]
    apply List.map_congr_left
    intro k _
    simp only [Function.comp_apply]
    have hk : ((k - min k c : ℕ) : ℝ) = k - (min k c : ℕ) := by rw [Nat.cast_sub (min_le_left _ _)]
    rw [hk, show (I * ((b l * (k - (min k c : ℕ)) : ℝ) : ℂ)) = I * ((a l + b l * k : ℝ) : ℂ) + I * ((-(a l + 2 * Real.pi * K l + b l * ((min k c : ℕ) : ℝ)) : ℝ) : ℂ) + (K l : ℂ) * (2 * Real.pi * I) by push_cast; ring, Complex.exp_add, Complex.exp_add, Complex.exp_int_mul_two_pi_mul_I]
    ring
  show Except.ok (_, _) = Except.ok (_, _)
  rw [hrot]
  congr 2
  · cases remove with
    | false => simp
    | true =>
      simp only [if_true, List.length_map, List.length_range, Bool.true_and]
      rw [filterMap_range_map]
      simp
  · apply List.map_congr_left
    intro k _
    ring

/-- The hypotheses are met: two modes with 17 samples in blocks of 4, 4 pilots, every pilot used, averaging over 2 (hence 3); the phase drifts by 1/10 and -1/5 per symbol. The samples up to the third pilot (sample 8) come out without any phase, the last data symbols keep the drift since then. -/
example : ∃ (K : ℕ → ℤ) (c : ℕ), c = 8 ∧
    pilotBasedCpeOld ((List.range 2).map fun l : ℕ => (List.range 17).map fun k : ℕ => ((1 + k : ℝ) : ℂ) * ((if k % 4 = 0 then 1 + I else (k : ℂ)) * Complex.exp (I * (((l : ℝ) + (if l = 0 then 1 / 10 else -1 / 5) * k : ℝ) : ℂ)))) ((List.range 2).map fun _ => (List.range 4).map fun _ => 1 + I) 4 2 1 none true =
      .ok ((List.range 2).map fun l : ℕ => (((List.range 16).filter fun k => !(true && decide (k % 4 = 0))).map (fun k : ℕ => ((1 + k : ℝ) : ℂ) * (if k % 4 = 0 then 1 + I else (k : ℂ)) * Complex.exp (I * (((if l = 0 then 1 / 10 else -1 / 5) * (k - min k c : ℕ) : ℝ) : ℂ))),
        (List.range 16).map fun k : ℕ => (l : ℝ) + (if l = 0 then 1 / 10 else -1 / 5) * (min k c : ℕ) + 2 * Real.pi * K l)) := by
  obtain ⟨K, c, hc, h⟩ := C130_drift_partial 17 4 4 4 1 4 2 none true (by norm_num) le_rfl rfl (by norm_num) rfl (by norm_num) (by norm_num) (fun _ k => if k % 4 = 0 then 1 + I else (k : ℂ)) (fun _ _ => 1 + I) (fun _ k => 1 + k) (fun _ _ k _ => by positivity) (fun l : ℕ => (l : ℝ)) (fun l : ℕ => if l = 0 then 1 / 10 else -1 / 5)
    (fun l _ j _ => ⟨fun h => by simpa using congrArg Complex.re h, by simp⟩) (fun l _ => by
      have := Real.two_le_pi
      rcases eq_or_ne l 0 with h | h
      · simp only [h, if_true]; norm_num; linarith
      · simp only [h, if_false]; norm_num [abs_of_neg]; linarith)
  exact ⟨K, c, by rw [hc], h⟩

/-- C130: everything but two modes is an error. -/
theorem C130_modes (rec ref : List (List ℂ)) (ins numAverage use : Nat) (maxBlocks : Option Nat) (remove : Bool) (h : rec.length ≠ 2) : ∃ e, pilotBasedCpeOld rec ref ins numAverage use maxBlocks remove = .error e := by
  unfold pilotBasedCpeOld
  dsimp only
  split_ifs <;> exact ⟨_, rfl⟩

/-- C130: if the reference has fewer pilots than the signal has blocks, and their number is no multiple of `use_pilot_ratio`, the function raises. -/
theorem C130_uneven (rec ref : List (List ℂ)) (Len NP ins numAverage use : Nat) (maxBlocks : Option Nat) (remove : Bool) (hrec : ∀ r ∈ rec, r.length = Len) (href : ∀ p ∈ ref, p.length = NP)
    (hu : cpeOldBlocks Len NP ins use maxBlocks % use ≠ 0) : ∃ e, pilotBasedCpeOld rec ref ins numAverage use maxBlocks remove = .error e := by
  by_cases h2 : rec.length ≠ 2
  · exact C130_modes rec ref ins numAverage use maxBlocks remove h2
  obtain ⟨r0, r1, rfl⟩ := List.length_eq_two.1 (not_not.1 h2)
  obtain ⟨N, hN⟩ : ∃ N, N = if numAverage % 2 = 0 then numAverage + 1 else numAverage := ⟨_, rfl⟩
  unfold pilotBasedCpeOld
  rw [← hN]
  dsimp only
  split_ifs with c1 c2 c3 c4
  · exact ⟨_, rfl⟩
  · exact ⟨_, rfl⟩
  · exact ⟨_, rfl⟩
  · exact ⟨_, rfl⟩
  obtain ⟨p0, p1, rfl⟩ := List.length_eq_two.1 (not_not.1 c4).symm
  have e1 : r0.length = Len := hrec r0 (by simp)
  have e2 : p0.length = NP := href p0 (by simp)
  simp only [List.headD_cons, e1, e2] at c2 c3 ⊢
  obtain ⟨nb, hnb⟩ : ∃ nb, nb = cpeOldBlocks Len NP ins use maxBlocks := ⟨_, rfl⟩
  rw [← hnb] at c2 c3 hu ⊢
  have hins : 1 ≤ ins := by omega
  have huse : 1 ≤ use := by omega
  have hNP : nb ≤ NP := by
    rw [hnb]; unfold cpeOldBlocks
    dsimp only
    split <;> split_ifs <;> omega
  have hLen : nb ≤ Len / ins := by
    rw [hnb]; unfold cpeOldBlocks
    dsimp only
    generalize Len / ins = q
    split <;> split_ifs <;> omega
  have hbl : (cpeOldBase r0 p0 nb ins use).length = (nb + use - 1) / use := by
    have h1 : Len / ins ≤ (Len + ins - 1) / ins := Nat.div_le_div_right (by omega)
    unfold cpeOldBase pilotPhase cpeOldRec
    rw [length_unwrap, List.length_zipWith, length_strided _ _ huse, length_strided _ _ huse, List.length_take, List.length_take, length_strided _ _ hins, e1, e2, min_eq_left hNP, min_eq_left (le_trans hLen h1), min_self]
  have hN1 : N % 2 = 1 := by rw [hN]; split <;> omega
  have hN2 : N ≤ (nb + use - 1) / use := by rw [hN]; split <;> omega
  obtain ⟨ph, h3, h4⟩ := cpeOldPhase_length _ N hN1 (by rw [hbl]; exact hN2)
  rw [hbl] at h4
  have h5 : cpeOldTrace ph ins use (nb * ins) = .error .value := by
    unfold cpeOldTrace
    rw [if_pos]
    rw [h4]
    intro h
    have h6 : (nb + use - 1) / use * use = nb := by
      apply Nat.eq_of_mul_eq_mul_right hins
      rw [← h]; ring
    exact hu (by rw [← h6]; exact Nat.mul_mod_left _ _)
  refine ⟨.value, ?_⟩
  show List.mapM _ ((r0, p0) :: _) = _
  rw [List.mapM_cons]
  unfold cpeOldMode
  show (do let _ ← (do let phase ← cpeOldPhase (cpeOldBase r0 p0 nb ins use) N; _); _) = _
  rw [h3]
  show (do let _ ← (do let phase ← cpeOldTrace ph ins use (nb * ins); _); _) = _
  rw [h5]
  rfl

/-- Three reference pilots, more blocks, every second pilot used. -/
example : ∃ e, pilotBasedCpeOld (List.replicate 2 (List.replicate 16 1)) (List.replicate 2 (List.replicate 3 1)) 2 1 2 none true = .error e :=
  C130_uneven _ _ 16 3 2 1 2 none true (fun r hr => by rw [List.eq_of_mem_replicate hr]; simp) (fun r hr => by rw [List.eq_of_mem_replicate hr]; simp) (by decide)

/-- The full statement: a constant carrier phase is removed from any number of modes. -/
def C130_statement : Prop :=
  ∀ (L Len NP ins use numAverage : Nat), 1 ≤ L → 1 ≤ ins → 1 ≤ use → 1 ≤ numAverage → numAverage * use + use ≤ NP → NP * ins ≤ Len → ∀ (x p : ℕ → ℕ → ℂ) (a : ℕ → ℝ),
    (∀ l < L, ∀ j < NP, p l j ≠ 0 ∧ x l (j * ins) = p l j) →
    ∃ out, pilotBasedCpeOld ((List.range L).map fun l => (List.range Len).map fun k : ℕ => x l k * Complex.exp (I * (a l : ℂ))) ((List.range L).map fun l => (List.range NP).map (p l)) ins numAverage use none true = .ok out ∧ out.length = L

theorem C130_false : ¬ C130_statement := by
  intro h
  obtain ⟨out, h1, -⟩ := h 1 4 2 2 1 1 le_rfl (by norm_num) le_rfl le_rfl (by norm_num) (by norm_num) (fun _ _ => 1) (fun _ _ => 1) (fun _ => 0) (fun l _ j _ => ⟨one_ne_zero, rfl⟩)
  obtain ⟨e, he⟩ := C130_modes ((List.range 1).map fun l => (List.range 4).map fun k : ℕ => (1 : ℂ) * Complex.exp (I * ((0 : ℝ) : ℂ))) ((List.range 1).map fun l => (List.range 2).map fun _ => (1 : ℂ)) 2 1 1 none true (by simp)
  rw [he] at h1
  cases h1

end Qampy
