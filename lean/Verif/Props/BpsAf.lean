import Verif.Model.BpsAf
import Verif.Props.Phase

/-!
# Blind phase search in blocks on a device with limited memory (C189)
-/

namespace Qampy

open Complex (I)

/-- The moving sums over `2N` rows of a table of distances. -/
theorem movavgAf_table (D : Nat → Nat → ℝ) (n M N : Nat) (hN : 1 ≤ N) :
    movavgAf ((List.range n).map fun i => (List.range M).map fun k => D i k) M (2 * N) =
      .ok ((List.range (n - 2 * N)).map fun t => (List.range M).map fun k => windowCost D N (t + N) k) := by
  obtain ⟨dist, hdist⟩ : ∃ d, d = (List.range n).map fun i => (List.range M).map fun k => D i k := ⟨_, rfl⟩
  rw [← hdist]
  have hdl : dist.length = n := by simp [hdist]
  have hdM : ∀ r ∈ dist, r.length = M := by
    intro r hr
    rw [hdist] at hr
    obtain ⟨i, _, rfl⟩ := List.mem_map.1 hr
    simp
  have hval : ∀ j k, j < n → k < M → mval dist j k = D j k := by
    intro j k hj hk
    simp [mval, hdist, List.getD, List.getElem?_range hj, List.getElem?_range hk]
  obtain ⟨c1, c2⟩ := cumsumRows_spec M dist hdM (fun _ => 0)
  have hz : List.replicate M (0 : ℝ) = (List.range M).map fun _ => 0 := by simp [List.map_const']
  unfold movavgAf
  rw [if_neg (by omega)]
  simp only [Except.ok.injEq]
  rw [hz]
  apply List.ext_getElem?
  intro t
  by_cases ht : t < n - 2 * N
  · rw [List.getElem?_zipWith, List.getElem?_drop, List.getElem?_take_of_lt (by rw [c1, hdl]; exact ht),
      c2 _ (by omega), c2 _ (by omega)]
    simp only [List.getElem?_map, List.getElem?_range ht, Option.map_some, Option.some.injEq]
    rw [zipWith_map_range]
    refine List.map_congr_left fun k hk => ?_
    have hk := List.mem_range.1 hk
    unfold windowCost
    rw [show t + N - N = t by omega, show t + N + N = 2 * N + t by omega, zero_add, zero_add]
    rw [← Finset.sum_sdiff_eq_sub (by intro x; simp; omega)]
    refine Finset.sum_congr ?_ ?_
    · ext x; simp; omega
    · intro j hj
      rw [Finset.mem_Ioc] at hj
      exact hval j k (by omega) hk
  · rw [List.getElem?_eq_none, List.getElem?_eq_none]
    · simp only [List.length_map, List.length_range]; omega
    · simp only [List.length_zipWith, List.length_drop, List.length_take, c1, hdl]; omega

/-- One block gives the best angles of the rows which have a complete window inside of the block. -/
theorem afBlock_spec (rows : List (List ℂ)) (symbols : List ℂ) (D : Nat → Nat → ℝ) (M N a n : Nat) (hN : 1 ≤ N) (G : Nat → Nat)
    (hG : ∀ t, Np.argmin ((List.range M).map fun k => windowCost D N t k) = some (G t))
    (hlen : rows.length = n) (hrow : ∀ (i : Nat) (hi : i < rows.length), (rows[i]).length = M)
    (hD : ∀ (i k : Nat) (hi : i < rows.length) (hk : k < (rows[i]).length), IsNearestSq symbols ((rows[i])[k]) (D (a + i) k)) :
    afBlock rows symbols M N = .ok ((List.range (n - 2 * N)).map fun t => G (a + t + N)) := by
  have hd : rows.mapM (fun r => r.mapM fun x => listMin (symbols.map fun s => ‖x - s‖ ^ 2)) =
      some ((List.range n).map fun i => (List.range M).map fun k => D (a + i) k) := by
    rw [mapM_eq_some_iff]
    apply List.ext_getElem
    · simp [hlen]
    intro i h1 h2
    simp only [List.length_map, List.length_range] at h1 h2
    simp only [List.getElem_map, List.getElem_range]
    rw [mapM_eq_some_iff]
    apply List.ext_getElem
    · simp [hrow i h1]
    intro k h3 h4
    simp only [List.length_map, List.length_range] at h3 h4
    simp only [List.getElem_map, List.getElem_range]
    obtain ⟨g1, s, hs, g2⟩ := hD i k h1 h3
    refine listMin_eq _ _ ?_ ?_
    · intro x hx
      obtain ⟨s, hs, rfl⟩ := List.mem_map.1 hx
      exact g1 s hs
    · exact List.mem_map.2 ⟨s, hs, g2.symm⟩
  unfold afBlock
  rw [hd]
  dsimp only
  rw [movavgAf_table (fun i k => D (a + i) k) n M N hN]
  have hargs : ((List.range (n - 2 * N)).map fun t => (List.range M).map fun k => windowCost (fun i k => D (a + i) k) N (t + N) k).mapM Np.argmin =
      some ((List.range (n - 2 * N)).map fun t => G (a + t + N)) := by
    rw [mapM_eq_some_iff]
    apply List.ext_getElem
    · simp
    intro t h1 h2
    simp only [List.getElem_map, List.getElem_range]
    rw [← hG]
    congr 1
    refine List.map_congr_left fun k _ => ?_
    unfold windowCost
    rw [show t + N - N = t by omega, show a + t + N - N = t + a by omega, show a + t + N + N = (t + N + N) + a by omega,
      ← Finset.map_add_right_Ioc, Finset.sum_map]
    refine Finset.sum_congr rfl fun j _ => ?_
    simp [add_comm]
  simp only [Except.bind, hargs, Option.elim]

/-- The entries before `c` are filled in. -/
def afFilled (G : Nat → Nat) (L N c : Nat) : List Nat := (List.range L).map fun t => if N ≤ t ∧ t < c then G t else 0

theorem setSlice_filled (G : Nat → Nat) (L N c d n : Nat) (hNc : N ≤ c) (hcd : c ≤ d) (hd : d ≤ L) (hn : n = d - c) :
    setSlice (afFilled G L N c) c d ((List.range n).map fun t => G (c + t)) = .ok (afFilled G L N d) := by
  subst hn
  have hl : (afFilled G L N c).length = L := by simp [afFilled]
  unfold setSlice
  dsimp only
  rw [hl, min_eq_left (by omega : c ≤ L), min_eq_left hd, if_pos (by simp)]
  congr 1
  apply List.ext_getElem?
  intro t
  rw [List.getElem?_append, List.getElem?_append]
  simp only [List.length_append, List.length_take, List.length_map, List.length_range, hl]
  rw [min_eq_left (by omega : c ≤ L)]
  split_ifs with h1 h2
  · rw [List.getElem?_take_of_lt h2]
    simp only [afFilled, List.getElem?_map, List.getElem?_range (show t < L by omega), Option.map_some]
    congr 1
    simp only [show t < c by omega, show t < d by omega]
  · simp only [afFilled, List.getElem?_map, List.getElem?_range (show t < L by omega), List.getElem?_range (show t - c < d - c by omega), Option.map_some]
    rw [if_pos (by omega), show c + (t - c) = t by omega]
  · rw [List.getElem?_drop, show d + (t - (c + (d - c))) = t by omega]
    by_cases ht : t < L
    · simp only [afFilled, List.getElem?_map, List.getElem?_range ht, Option.map_some]
      congr 1
      rw [if_neg (by omega), if_neg (by omega)]
    · rw [List.getElem?_eq_none (by simp [afFilled]; omega), List.getElem?_eq_none (by simp [afFilled]; omega)]

theorem afFilled_start (G : Nat → Nat) (L N : Nat) : List.replicate L 0 = afFilled G L N N := by
  unfold afFilled
  rw [show (fun t => if N ≤ t ∧ t < N then G t else 0) = fun _ => 0 by funext t; rw [if_neg (by omega)]]
  simp [List.map_const']

/-- **C189** The search in blocks returns, for every memory limit that leaves room for half a window per block (or for the whole signal), at every position with a complete window the first test angle with the
smallest sum of squared distances to the constellation over the window, and zero elsewhere, without any bound on the distances. -/
theorem C189_blocked (E : List ℂ) (angles : List (List ℝ)) (symbols : List ℂ) (N M NMAX : Nat) (hN : 1 ≤ N) (hM : 1 ≤ M) (hs : symbols ≠ [])
    (hrows : ∀ r ∈ angles, r.length = M) (ha : angles ≠ []) (hlen : angles.length = 1 ∨ angles.length = E.length)
    (D : Nat → Nat → ℝ)
    (hD : ∀ (i k : Nat), i < E.length → k < M → IsNearestSq symbols (E.getD i 0 * Complex.exp (I * (angleAt angles i k : ℝ))) (D i k))
    (hmem : N ≤ NMAX / M / symbols.length / 16 ∨ E.length ≤ NMAX / M / symbols.length / 16 + N) :
    ∃ idx, bpsIdxAf E angles symbols N NMAX = .ok idx ∧ BpsSpec D E.length M N idx := by
  have hsl : 0 < symbols.length := List.length_pos_iff.2 hs
  have hcols : (angles.headD []).length = M := by
    cases angles with
    | nil => exact absurd rfl ha
    | cons r l => exact hrows r (by simp)
  have harg : ∀ t, ∃ j, Np.argmin ((List.range M).map fun k => windowCost D N t k) = some j :=
    fun t => Np.argmin_isSome (by simp; omega)
  choose G hG using harg
  obtain ⟨EE, hEE⟩ : ∃ x, x = afRotated E angles := ⟨_, rfl⟩
  have hEl : EE.length = E.length := by simp [hEE, afRotated]
  have hrowE : ∀ (i : Nat) (hi : i < EE.length), (EE[i]).length = M := by
    intro i hi
    have hi' : i < E.length := by omega
    have hlt : (if angles.length = 1 then 0 else i) < angles.length := by
      have := List.length_pos_iff.2 ha
      split_ifs <;> omega
    simp only [hEE, afRotated, List.getElem_mapIdx, List.length_map]
    rw [List.getD_eq_getElem _ _ hlt]
    exact hrows _ (List.getElem_mem hlt)
  have hDE : ∀ (i k : Nat) (hi : i < EE.length) (hk : k < (EE[i]).length), IsNearestSq symbols ((EE[i])[k]) (D i k) := by
    intro i k hi hk
    have hi' : i < E.length := by omega
    have hkM : k < M := by rw [← hrowE i hi]; exact hk
    have h := hD i k hi' hkM
    have hk2 : k < (angles.getD (if angles.length = 1 then 0 else i) []).length := by
      simpa [hEE, afRotated] using hk
    have he : (EE[i])[k] = E.getD i 0 * Complex.exp (I * (angleAt angles i k : ℝ)) := by
      simp only [hEE, afRotated, List.getElem_mapIdx, List.getElem_map, angleAt]
      rw [List.getD_eq_getElem _ _ hi', List.getD_eq_getElem _ (0 : ℝ) hk2]
    rw [he]
    exact h
  -- a block of rows from `a` to `b`
  have hblock : ∀ (a b : Nat), a ≤ b → b ≤ E.length → afBlock ((EE.take b).drop a) symbols M N = .ok ((List.range (b - a - 2 * N)).map fun t => G (a + t + N)) := by
    intro a b hab hb
    refine afBlock_spec _ symbols D M N a (b - a) hN G hG (by simp [hEl]; omega) ?_ ?_
    · intro i hi
      simp only [List.getElem_drop, List.getElem_take]
      exact hrowE _ _
    · intro i k hi hk
      simp only [List.getElem_drop, List.getElem_take]
      exact hDE _ _ _ _
  -- the final list meets the specification
  have hfin : BpsSpec D E.length M N (afFilled G E.length N (E.length - N)) := by
    refine ⟨by simp [afFilled], fun t ht => ⟨if N ≤ t ∧ t < E.length - N then G t else 0, by simp [afFilled, List.getElem?_range ht], ?_, ?_⟩⟩
    · rintro ⟨h1, h2⟩
      rw [if_pos (by omega)]
      exact (argmin_map_range _ _ _).1 (hG t)
    · intro h
      rw [if_neg (by omega)]
  have hfin2 : afFilled G E.length N (max N (E.length - N)) = afFilled G E.length N (E.length - N) := by
    unfold afFilled
    refine List.map_congr_left fun t _ => ?_
    congr 1
    simp only [eq_iff_iff]
    omega
  refine ⟨_, ?_, hfin⟩
  unfold bpsIdxAf
  dsimp only
  rw [hcols, if_neg (by omega), if_neg (by omega), ← hEE]
  obtain ⟨Q, hQ⟩ : ∃ x, x = NMAX / M / symbols.length / 16 := ⟨_, rfl⟩
  rw [← hQ] at hmem ⊢
  split_ifs with h1 h2
  · have hb := hblock 0 E.length (by omega) le_rfl
    rw [List.drop_zero, List.take_of_length_le (by omega)] at hb
    rw [hb]
    simp only [Except.bind]
    by_cases hL : 2 * N ≤ E.length
    · rw [← hfin2, max_eq_right (by omega), afFilled_start G E.length N]
      have := setSlice_filled G E.length N N (E.length - N) (E.length - 0 - 2 * N) le_rfl (by omega) (by omega) (by omega)
      rw [← this]
      congr 1
      refine List.map_congr_left fun t _ => ?_
      congr 1
      omega
    · rw [← hfin2, max_eq_left (by omega), show E.length - 0 - 2 * N = 0 by omega, ← afFilled_start]
      unfold setSlice
      simp
  · omega
  · have hNQ : N ≤ Q := by omega
    obtain ⟨K, R, hKR⟩ : ∃ K R, afSplit E.length N Q = (K, R) := ⟨_, _, rfl⟩
    rw [hKR]
    dsimp only
    have hdm := Nat.div_add_mod E.length Q
    have hmod := Nat.mod_lt E.length (show 0 < Q by omega)
    have hK : 1 ≤ K ∧ K * Q + R = E.length ∧ N ≤ R := by
      unfold afSplit at hKR
      have hdpos : 1 ≤ E.length / Q := (Nat.one_le_div_iff (by omega)).2 (by omega)
      split_ifs at hKR with hr
      · injection hKR with hk1 hk2
        have h2d : 2 ≤ E.length / Q := by
          by_contra hc
          have : E.length / Q = 1 := by omega
          rw [this] at hdm
          omega
        refine ⟨by omega, ?_, by omega⟩
        rw [← hk1, ← hk2, Nat.sub_mul, mul_comm (E.length / Q) Q]
        have : 1 * Q ≤ Q * (E.length / Q) := by nlinarith
        omega
      · injection hKR with hk1 hk2
        refine ⟨by omega, ?_, by omega⟩
        rw [← hk1, ← hk2, mul_comm]
        exact hdm
    obtain ⟨hK1, hKL, hNR⟩ := hK
    have hf := hblock 0 (Q + N) (by omega) (by omega)
    rw [List.drop_zero] at hf
    rw [hf]
    have hs1 : setSlice (List.replicate E.length 0) N (max N Q) ((List.range (Q + N - 0 - 2 * N)).map fun t => G (0 + t + N)) = .ok (afFilled G E.length N Q) := by
      rw [max_eq_right hNQ, afFilled_start G E.length N,
        ← setSlice_filled G E.length N N Q (Q + N - 0 - 2 * N) le_rfl hNQ (by omega) (by omega)]
      congr 1
      refine List.map_congr_left fun t _ => ?_
      congr 1
      omega
    have hmid : ∀ (i : Nat), 1 ≤ i → i < K → afMiddle EE symbols M N Q (afFilled G E.length N (i * Q)) i = .ok (afFilled G E.length N ((i + 1) * Q)) := by
      intro i hi hiK
      have hiQ : Q ≤ i * Q := by nlinarith
      have hi1 : (i + 1) * Q ≤ K * Q := Nat.mul_le_mul_right _ (by omega)
      have hstep : (i + 1) * Q = i * Q + Q := by ring
      unfold afMiddle
      rw [show ((i * Q : Nat) : Int) - (N : Int) = ((i * Q - N : Nat) : Int) by omega]
      have hsl : Np.slice EE ((i * Q - N : Nat) : Int) (((i + 1) * Q + N : Nat) : Int) = (EE.take ((i + 1) * Q + N)).drop (i * Q - N) := by
        unfold Np.slice Np.clamp
        rw [if_neg (by omega), if_neg (by omega)]
        simp only [Int.toNat_natCast]
        rw [min_eq_left (by omega), min_eq_left (by omega)]
      rw [hsl, hblock _ _ (by omega) (by omega)]
      simp only [Except.bind]
      rw [← setSlice_filled G E.length N (i * Q) ((i + 1) * Q) ((i + 1) * Q + N - (i * Q - N) - 2 * N) (by omega) (by omega) (by omega) (by omega)]
      congr 1
      refine List.map_congr_left fun t _ => ?_
      congr 1
      omega
    have hloop : ∀ (n s : Nat), 1 ≤ s → s + n ≤ K →
        (List.range' s n).foldlM (afMiddle EE symbols M N Q) (afFilled G E.length N (s * Q)) = .ok (afFilled G E.length N ((s + n) * Q)) := by
      intro n
      induction n with
      | zero => intro s _ _; rfl
      | succ n ih =>
        intro s hs1 hs2
        rw [List.range'_succ, List.foldlM_cons, hmid s hs1 (by omega)]
        have := ih (s + 1) (by omega) (by omega)
        rw [show s + (n + 1) = s + 1 + n by omega]
        exact this
    have hl := hloop (K - 1) 1 le_rfl (by omega)
    rw [one_mul, show 1 + (K - 1) = K by omega] at hl
    have hKQ : Q ≤ K * Q := by nlinarith
    have hsl : Np.slice EE (((K * Q : Nat) : Int) - (N : Int)) ((K * Q + R : Nat) : Int) = (EE.take (K * Q + R)).drop (K * Q - N) := by
      rw [show ((K * Q : Nat) : Int) - (N : Int) = ((K * Q - N : Nat) : Int) by omega]
      unfold Np.slice Np.clamp
      rw [if_neg (by omega), if_neg (by omega)]
      simp only [Int.toNat_natCast]
      rw [min_eq_left (by omega), min_eq_left (by omega)]
    have hlast := hblock (K * Q - N) (K * Q + R) (by omega) (by omega)
    have hs2 : setSlice (afFilled G E.length N (K * Q)) (K * Q) (E.length - N) ((List.range (K * Q + R - (K * Q - N) - 2 * N)).map fun t => G (K * Q - N + t + N)) =
        .ok (afFilled G E.length N (E.length - N)) := by
      rw [← setSlice_filled G E.length N (K * Q) (E.length - N) (K * Q + R - (K * Q - N) - 2 * N) (by omega) (by omega) (by omega) (by omega)]
      congr 1
      refine List.map_congr_left fun t _ => ?_
      congr 1
      omega
    rw [hsl, hlast]
    simp only [bind, Except.bind, hs1]
    rw [hl]
    exact hs2

/-- The result does not depend on the memory of the device, and for one row of angles it is that of the reference implementation. -/
theorem C189_reference (E : List ℂ) (angles : List ℝ) (symbols : List ℂ) (N NMAX : Nat) (hN : 1 ≤ N) (ha : angles ≠ []) (hs : symbols ≠ [])
    (hmem : N ≤ NMAX / angles.length / symbols.length / 16 ∨ E.length ≤ NMAX / angles.length / symbols.length / 16 + N) :
    bpsIdxAf E [angles] symbols N NMAX = bpsIdxPy E angles symbols N := by
  have hnear : ∀ z : ℂ, ∃ d, IsNearestSq symbols z d := by
    intro z
    classical
    obtain ⟨s, hs1, hs2⟩ := Finset.exists_min_image symbols.toFinset (fun s => ‖z - s‖ ^ 2) (by simpa [List.toFinset_nonempty_iff] using hs)
    exact ⟨_, fun c hc => hs2 c (by simpa using hc), s, by simpa using hs1, rfl⟩
  choose d hd using hnear
  obtain ⟨i1, h1, g1⟩ := C189_blocked E [angles] symbols N angles.length NMAX hN (List.length_pos_iff.2 ha) hs (by simp) (by simp) (Or.inl rfl)
    (fun i k => d (E.getD i 0 * Complex.exp (I * (angleAt [angles] i k : ℝ)))) (fun _ _ _ _ => hd _) hmem
  obtain ⟨i2, h2, g2⟩ := C33_reference E angles symbols N hN ha
    (fun i k => d (E.getD i 0 * Complex.exp (I * (angleAt [angles] i k : ℝ)))) (fun _ _ _ _ => hd _)
  rw [h1, h2, g1.unique g2]

/-- When the distances stay below the start values 100 and 1000 of the compiled search, the two searches agree, for one row of angles and for one per sample. -/
theorem C189_compiled (E : List ℂ) (angles : List (List ℝ)) (symbols : List ℂ) (N M NMAX : Nat) (hN : 1 ≤ N) (hM : 1 ≤ M) (hs : symbols ≠ [])
    (hrows : ∀ r ∈ angles, r.length = M) (ha : angles ≠ []) (hlen : angles.length = 1 ∨ angles.length = E.length)
    (D : Nat → Nat → ℝ)
    (hD : ∀ (i k : Nat), i < E.length → k < M → IsNearestSq symbols (E.getD i 0 * Complex.exp (I * (angleAt angles i k : ℝ))) (D i k))
    (h100 : ∀ (i k : Nat), i < E.length → k < M → D i k ≤ 100)
    (h1000 : ∀ (t : Nat), N ≤ t → t + N < E.length → ∃ k, k < M ∧ windowCost D N t k < 1000)
    (hmem : N ≤ NMAX / M / symbols.length / 16 ∨ E.length ≤ NMAX / M / symbols.length / 16 + N) :
    ∃ idx, bpsIdxAf E angles symbols N NMAX = .ok idx ∧ bpsIdx E angles symbols N = some idx := by
  obtain ⟨i1, h1, g1⟩ := C189_blocked E angles symbols N M NMAX hN hM hs hrows ha hlen D hD hmem
  obtain ⟨i2, h2, g2⟩ := C33_compiled E angles symbols N M hN hrows hlen D hD h100 h1000
  exact ⟨i1, h1, by rw [h2, g1.unique g2]⟩

/-- Five blocks of one row each, for two angles and two symbols: the same as the reference implementation. -/
example : bpsIdxAf [1, I, -1, -I, 1, I] [[0, 1]] [1, -1] 1 64 = bpsIdxPy [1, I, -1, -I, 1, I] [0, 1] [1, -1] 1 :=
  C189_reference _ _ _ _ _ le_rfl (by simp) (by simp) (by simp)

/-- A row of angles per sample. -/
example : ∃ idx, bpsIdxAf [1, -1, 1, 1] [[0], [0], [0], [0]] [1, -1] 1 32 = .ok idx ∧ bpsIdx [1, -1, 1, 1] [[0], [0], [0], [0]] [1, -1] 1 = some idx := by
  have hcase : ∀ (i k : Nat), i < 4 → k < 1 → angleAt [[0], [0], [0], [0]] i k = 0 := by
    intro i k hi hk
    interval_cases i <;> interval_cases k <;> simp [angleAt]
  refine C189_compiled _ _ _ 1 1 32 le_rfl le_rfl (by simp) (by simp) (by simp) (by simp) (fun _ _ => 0) ?_ (by simp) ?_ (by simp)
  · intro i k hi hk
    rw [hcase i k hi hk]
    have : ([1, -1, 1, 1] : List ℂ).getD i 0 = 1 ∨ ([1, -1, 1, 1] : List ℂ).getD i 0 = -1 := by
      have hi' : i < 4 := hi
      interval_cases i <;> simp
    refine ⟨fun s _ => by positivity, ?_⟩
    rcases this with h | h
    · exact ⟨1, by simp, by rw [h]; simp⟩
    · exact ⟨-1, by simp, by rw [h]; simp⟩
  · intro t _ _
    exact ⟨0, by omega, by simp [windowCost]⟩

/-- The room for half a window is needed: with blocks of a single row and windows of four rows the search raises an exception. -/
theorem C189_needs_room : bpsIdxAf [1, 1, 1, 1] [[0]] [1] 2 16 = .error .value := by
  have hb : ∀ rows : List (List ℂ), rows.length ≤ 4 → (∀ r ∈ rows, r.length = 1) → afBlock rows [1] 1 2 = .ok [] := by
    intro rows hl hr
    have hG : ∀ t, Np.argmin ((List.range 1).map fun k => windowCost (fun i k => ‖(rows.getD i []).getD k 0 - 1‖ ^ 2) 2 t k) = some 0 := by
      intro t; rfl
    have := afBlock_spec rows [1] (fun i k => ‖(rows.getD i []).getD k 0 - 1‖ ^ 2) 1 2 0 rows.length (by omega) (fun _ => 0) hG rfl
      (fun i hi => hr _ (List.getElem_mem hi)) (by
        intro i k hi hk
        refine ⟨?_, 1, by simp, ?_⟩
        · intro s hs
          rw [List.mem_singleton.1 hs, zero_add, List.getD_eq_getElem _ _ hi, List.getD_eq_getElem _ _ hk]
        · rw [zero_add, List.getD_eq_getElem _ _ hi, List.getD_eq_getElem _ _ hk])
    rw [this, show rows.length - 2 * 2 = 0 by omega]
    rfl
  have hE : (afRotated [1, 1, 1, 1] [[0]]) = [[1], [1], [1], [1]] := by
    simp [afRotated]
  unfold bpsIdxAf
  rw [hE]
  simp only [List.headD_cons, List.length_cons, List.length_nil]
  norm_num [afSplit, bind, Except.bind]
  rw [hb _ (by simp) (by simp)]
  simp only [setSlice, List.length_nil]
  simp [List.range', afMiddle, Np.slice, Np.clamp, hb, Except.bind, setSlice, bind]

end Qampy
