import Verif.Model.ObjPhase
import Verif.Props.SearchAccuracy
import Verif.Props.Theory
import Mathlib.Analysis.Real.Pi.Bounds

/-!
# C239: blind phase recovery of signals with several modes and with pilots
-/

namespace Qampy

open Complex

/-! ### Modes -/

theorem mapM_unzip {α β γ : Type} {f : α → Option (β × γ)} {l : List α} {b : List β} {c : List γ} (h : (l.mapM f).map List.unzip = some (b, c)) :
    b.length = l.length ∧ c.length = l.length ∧ ∀ (i : Nat) (a : α), l[i]? = some a → ∃ x y, f a = some (x, y) ∧ b[i]? = some x ∧ c[i]? = some y := by
  obtain ⟨o, ho, hu⟩ := Option.map_eq_some_iff.1 h
  have hm := (mapM_eq_some_iff f l o).1 ho
  have hl : o.length = l.length := by
    have := congrArg List.length hm
    simpa using this.symm
  have e1 : b = o.map Prod.fst := by rw [List.unzip_eq_map] at hu; exact (congrArg Prod.fst hu).symm
  have e2 : c = o.map Prod.snd := by rw [List.unzip_eq_map] at hu; exact (congrArg Prod.snd hu).symm
  refine ⟨by rw [e1]; simpa using hl, by rw [e2]; simpa using hl, fun i a ha => ?_⟩
  have hi := congrArg (·[i]?) hm
  simp only [List.getElem?_map, ha, Option.map_some] at hi
  rcases hz : o[i]? with _ | ⟨x, y⟩
  · rw [hz] at hi
    cases hi
  · rw [hz, Option.map_some, Option.some.injEq] at hi
    exact ⟨x, y, hi, by rw [e1, List.getElem?_map, hz]; rfl, by rw [e2, List.getElem?_map, hz]; rfl⟩

/-- **C239** The blind phase search of a signal with several modes treats every mode as if it were alone: field and phase of a mode are those of the search of that mode. -/
theorem C239_modes (E : List (List ℂ)) (M : Nat) (symbols : List ℂ) (N : Nat) (hN : 1 ≤ N) (hM : 1 ≤ M) :
    ∃ out ph, bpsModes E M symbols N = some (out, ph) ∧ out.length = E.length ∧ ph.length = E.length ∧
      ∀ (i : Nat) (row : List ℂ), E[i]? = some row → ∃ o p, bps row M symbols N = some (o, p) ∧ out[i]? = some o ∧ ph[i]? = some p := by
  have : ∃ o, (E.mapM fun r => bps r M symbols N) = some o := by
    induction E with
    | nil => exact ⟨[], rfl⟩
    | cons r E ih =>
      obtain ⟨o, ho⟩ := ih
      obtain ⟨a, b, h, -⟩ := C35_bps r symbols M N hN hM
      exact ⟨(a, b) :: o, by rw [List.mapM_cons, h, ho]; rfl⟩
  obtain ⟨o, ho⟩ := this
  have h : bpsModes E M symbols N = some (o.unzip.1, o.unzip.2) := by unfold bpsModes; rw [ho]; rfl
  obtain ⟨h1, h2, h3⟩ := mapM_unzip h
  exact ⟨_, _, h, h1, h2, h3⟩

/-- **C239** The two stage search as well. -/
theorem C239_twostage (E : List (List ℂ)) (M : Nat) (symbols : List ℂ) (N B : Nat) (out : List (List ℂ)) (ph : List (List ℝ)) (h : bpsTwostageModes E M symbols N B = some (out, ph)) :
    out.length = E.length ∧ ph.length = E.length ∧
      ∀ (i : Nat) (row : List ℂ), E[i]? = some row → ∃ o p, bpsTwostage row M symbols N B = some (o, p) ∧ out[i]? = some o ∧ ph[i]? = some p := mapM_unzip h

theorem mapM_except_get {α β : Type} {f : α → Except PyErr β} : ∀ {l : List α} {o : List β}, l.mapM f = .ok o → o.length = l.length ∧ ∀ (i : Nat) (a : α), l[i]? = some a → ∃ b, f a = .ok b ∧ o[i]? = some b
  | [], o, h => by
    rw [List.mapM_nil] at h
    cases h
    exact ⟨rfl, by simp⟩
  | a :: l, o, h => by
    rw [List.mapM_cons] at h
    rcases hf : f a with e | b
    · rw [hf] at h; cases h
    · rcases hr : l.mapM f with e | o'
      · rw [hf, hr] at h; cases h
      · rw [hf, hr] at h
        cases h
        obtain ⟨h1, h2⟩ := mapM_except_get hr
        refine ⟨by rw [List.length_cons, List.length_cons, h1], fun i x hx => ?_⟩
        rcases i with _ | i
        · rw [List.getElem?_cons_zero, Option.some.injEq] at hx
          subst hx
          exact ⟨b, hf, rfl⟩
        · exact h2 i x hx

/-- **C239** The field that `viterbiviterbi` returns for several modes is that of every mode alone, but the phase is that of the last mode only. -/
theorem C239_viterbi (E : List (List ℂ)) (N M : Nat) (out : List (List ℂ)) (ph : List ℝ) (h : viterbiModes E N M = .ok (out, ph)) :
    out.length = E.length ∧ (∀ (i : Nat) (row : List ℂ), E[i]? = some row → ∃ o p, viterbiviterbi row N M = .ok (o, p) ∧ out[i]? = some o) ∧
      ∃ last o, E.getLast? = some last ∧ viterbiviterbi last N M = .ok (o, ph) := by
  unfold viterbiModes at h
  rcases hm : (E.mapM fun r => viterbiviterbi r N M) with e | os
  · rw [hm] at h; cases h
  · rw [hm] at h
    obtain ⟨hl, hg⟩ := mapM_except_get hm
    dsimp only [bind, Except.bind] at h
    rcases hlast : os.getLast? with _ | l
    · rw [hlast] at h; cases h
    · rw [hlast] at h
      cases h
      refine ⟨by rw [List.length_map, hl], fun i row hi => ?_, ?_⟩
      · obtain ⟨⟨o, p⟩, h1, h2⟩ := hg i row hi
        exact ⟨o, p, h1, by rw [List.getElem?_map, h2]; rfl⟩
      · rw [List.getLast?_eq_getElem?, hl] at hlast
        rcases hE : E[E.length - 1]? with _ | last
        · have : E.length ≤ E.length - 1 := List.getElem?_eq_none_iff.1 hE
          rw [List.getElem?_eq_none (by rw [hl]; exact this)] at hlast
          cases hlast
        · obtain ⟨⟨o, p⟩, h1, h2⟩ := hg _ last hE
          rw [hlast, Option.some.injEq] at h2
          subst h2
          exact ⟨last, o, by rw [List.getLast?_eq_getElem?, hE], h1⟩

/-- The claim about the phase of `viterbiviterbi`: one row for every mode, as `bps` has it, or one phase common to all. Here the latter. -/
def C239_viterbi_statement : Prop :=
  ∀ (E : List (List ℂ)) (N M : Nat) (out : List (List ℂ)) (ph : List ℝ), viterbiModes E N M = .ok (out, ph) →
    ∀ (i : Nat) (row : List ℂ), E[i]? = some row → ∃ o, viterbiviterbi row N M = .ok (o, ph)

theorem viterbi_one (e : ℂ) : ∃ o, viterbiviterbi [e] 1 2 = .ok (o, [(Complex.arg (Complex.exp (I * ((Complex.arg e : ℝ) : ℂ)) ^ 2) - Real.pi) / 2]) := by
  obtain ⟨o, ph, h1, -, -, h2, -⟩ := viterbiviterbi_spec [e] 1 2 le_rfl (by simp)
  refine ⟨o, ?_⟩
  rw [h1, h2]
  simp [unwrap, unwrapGo]

/-- Two modes of one sample, one of them turned by a quarter turn. -/
theorem C239_viterbi_false : ¬ C239_viterbi_statement := by
  intro h
  obtain ⟨o1, h1⟩ := viterbi_one 1
  obtain ⟨o2, h2⟩ := viterbi_one I
  have e1 : Complex.exp (I * ((Complex.arg 1 : ℝ) : ℂ)) ^ 2 = 1 := by simp
  have e2 : Complex.exp (I * ((Complex.arg I : ℝ) : ℂ)) ^ 2 = -1 := by
    rw [Complex.arg_I, mul_comm]
    push_cast
    rw [Complex.exp_pi_div_two_mul_I, Complex.I_sq]
  rw [e1, Complex.arg_one] at h1
  rw [e2, Complex.arg_neg_one] at h2
  have hm : viterbiModes [[1], [I]] 1 2 = .ok ([o1, o2], [(Real.pi - Real.pi) / 2]) := by
    unfold viterbiModes
    rw [List.mapM_cons, List.mapM_cons, List.mapM_nil, h1, h2]
    rfl
  obtain ⟨o, ho⟩ := h _ 1 2 _ _ hm 0 [1] rfl
  rw [h1] at ho
  injection ho with ho
  rw [Prod.mk.injEq, List.cons.injEq] at ho
  have := ho.2.1
  linarith [Real.pi_pos]

/-! ### One window -/

/-- The angle chosen at a position with a complete window costs no more than any other, whatever the samples outside of the window are. -/
theorem bps_local (E symbols : List ℂ) (M N : Nat) (hN : 1 ≤ N) (hM : 1 ≤ M) :
    ∃ out ph, bps E M symbols N = some (out, ph) ∧ out.length = E.length ∧
      ∀ t, N ≤ t → t + N < E.length → ∀ m < M,
        ∑ j ∈ Finset.Ioc (t - N) (t + N), min 100 (detDist (E.getD j 0 * Complex.exp (I * ((testAngles M).getD m 0 : ℝ))) symbols) < 1000 →
        ∃ (φ : ℝ) (q : ℤ), ph[t]? = some (φ + Real.pi / 2 * q) ∧ out[t]? = some (I ^ q * (E.getD t 0 * Complex.exp (I * (φ : ℂ)))) ∧
          ∑ j ∈ Finset.Ioc (t - N) (t + N), min 100 (detDist (E.getD j 0 * Complex.exp (I * (φ : ℂ))) symbols) ≤
            ∑ j ∈ Finset.Ioc (t - N) (t + N), min 100 (detDist (E.getD j 0 * Complex.exp (I * ((testAngles M).getD m 0 : ℝ))) symbols) := by
  obtain ⟨idx, h1, h2, h3, -, -⟩ := bpsIdx_noiseless E [testAngles M] symbols N M hN hM (by simp) (Or.inl rfl)
  obtain ⟨d, e1, e2, e3, e4⟩ := bpsDists_spec E [testAngles M] symbols M (by simp) (Or.inl rfl)
  obtain ⟨idx', g1, g2, g3⟩ := selectAngleIndex_spec d M (2 * N) e3
  have hidx : idx' = idx := by
    unfold bpsIdx at h1
    rw [e1] at h1
    have : selectAngleIndex d (2 * N) = some idx := h1
    rw [g1] at this
    exact Option.some.inj this
  subst hidx
  rw [e2] at g3
  rw [show 2 * N / 2 = N by omega] at g3
  have hsel := selectAngles_one (testAngles M) idx' (by simpa using h3)
  have hb : bps E M symbols N = some (rotateBy E (unwrapInner (idx'.map fun k => (testAngles M).getD k 0) N),
      unwrapInner (idx'.map fun k => (testAngles M).getD k 0) N) := by
    unfold bps; simp only [h1, hsel, Option.bind_eq_bind, Option.bind_some]
  refine ⟨_, _, hb, by simp [rotateBy, h2], ?_⟩
  intro t hNt htN m hm hlt
  have hcost : ∀ k < M, winCost d (2 * N) (t + N) k = ∑ j ∈ Finset.Ioc (t - N) (t + N), min 100 (detDist (E.getD j 0 * Complex.exp (I * ((testAngles M).getD k 0 : ℝ))) symbols) := by
    intro k hk
    unfold winCost
    rw [show t + N - 2 * N = t - N by omega]
    refine Finset.sum_congr rfl fun j hj => ?_
    have hj' := Finset.mem_Ioc.1 hj
    rw [e4 j k (by omega) hk, angleAt_one]
  have hi := g3 t (by omega)
  rw [if_pos (by omega)] at hi
  obtain ⟨j, hj, hs⟩ := scanBest_eq_argmin ((List.range M).map (winCost d (2 * N) (t + N))) 1000 0 0
    ⟨_, List.mem_map.2 ⟨m, List.mem_range.2 hm, rfl⟩, by rw [hcost m hm]; exact hlt⟩
  rw [zero_add] at hs
  obtain ⟨q1, q2, -⟩ := (argmin_map_range _ _ _).1 hj
  have hp : (idx'.map fun k => (testAngles M).getD k 0)[t]? = some ((testAngles M).getD j 0) := by
    rw [List.getElem?_map, hi, hs]; rfl
  obtain ⟨q, hq⟩ := unwrapInner_mul _ N t _ hp
  refine ⟨_, q, hq, ?_, ?_⟩
  · have hE : E[t]? = some (E.getD t 0) := by
      have : t < E.length := by omega
      simp [List.getD, List.getElem?_eq_getElem this]
    rw [getElem?_rotateBy hE hq, exp_quarter]
    congr 1
    ring
  · have := q2 m hm
    rwa [hcost m hm, hcost j q1] at this

/-! ### Pilots that are no symbols of the payload -/

/-- The points of QPSK are more than a third away from those of 16-QAM. -/
theorem qpsk_qam16_apart (p s : ℂ) (hp : p ∈ qamCodedSymbols (2 * 1) (Real.sqrt 2)) (hs : s ∈ qamCodedSymbols (2 * 2) (Real.sqrt 10)) : 1 / 3 ≤ ‖p - s‖ := by
  obtain ⟨a, ha, b, hb, rfl⟩ := (mem_coded_iff 1 _ p).1 hp
  obtain ⟨i, hi, j, hj, rfl⟩ := (mem_coded_iff 2 _ s).1 hs
  obtain ⟨u, hu⟩ : ∃ u, u = 1 / Real.sqrt 2 := ⟨_, rfl⟩
  obtain ⟨v, hv⟩ : ∃ v, v = 1 / Real.sqrt 10 := ⟨_, rfl⟩
  have hu2 : u * u = 1 / 2 := by rw [hu, div_mul_div_comm, Real.mul_self_sqrt (by norm_num)]; norm_num
  have hv2 : v * v = 1 / 10 := by rw [hv, div_mul_div_comm, Real.mul_self_sqrt (by norm_num)]; norm_num
  have hu0 : 0 < u := by rw [hu]; positivity
  have hv0 : 0 < v := by rw [hv]; positivity
  have huv : u * v ≤ 224 / 1000 := by
    have h1 : (u * v) ^ 2 = 1 / 20 := by nlinarith
    have h2 : 0 < u * v := mul_pos hu0 hv0
    by_contra h
    push Not at h
    nlinarith
  have huv0 : 0 < u * v := mul_pos hu0 hv0
  have key : ∀ (a i : Nat), a < 2 ^ 1 → i < 2 ^ 2 → 1 / 18 ≤ ((2 * (a : ℝ) - (2 ^ 1 - 1)) / Real.sqrt 2 - (2 * (i : ℝ) - (2 ^ 2 - 1)) / Real.sqrt 10) ^ 2 := by
    intro a i ha hi
    rw [div_eq_mul_one_div _ (Real.sqrt 2), div_eq_mul_one_div _ (Real.sqrt 10), ← hu, ← hv]
    interval_cases a <;> interval_cases i <;> norm_num <;> nlinarith
  have h : 1 / 9 ≤ ‖gridPt 1 (Real.sqrt 2) a b - gridPt 2 (Real.sqrt 10) i j‖ ^ 2 := by
    rw [← Complex.normSq_eq_norm_sq, Complex.normSq_apply]
    unfold gridPt
    simp only [Complex.sub_re, Complex.sub_im]
    have h1 := key a i ha hi
    have h2 := key b j hb hj
    rw [sq] at h1 h2
    linarith
  by_contra hc
  push Not at hc
  nlinarith [norm_nonneg (gridPt 1 (Real.sqrt 2) a b - gridPt 2 (Real.sqrt 10) i j)]

/-- Turned by a quarter turn QPSK points are QPSK points, and all are quarter turns of one; the same for one ring of 16-QAM. -/
theorem qpsk_form (p : ℂ) (hp : p ∈ qamCodedSymbols (2 * 1) (Real.sqrt 2)) : ∃ q : ℤ, p = I ^ q * gridPt 1 (Real.sqrt 2) 1 1 := by
  obtain ⟨a, ha, b, hb, rfl⟩ := (mem_coded_iff 1 _ p).1 hp
  have h2 : (I : ℂ) ^ (2 : ℤ) = -1 := by rw [show (2 : ℤ) = ((2 : ℕ) : ℤ) by rfl, zpow_natCast]; exact Complex.I_sq
  have h3 : (I : ℂ) ^ (3 : ℤ) = -I := by rw [show (3 : ℤ) = ((3 : ℕ) : ℤ) by rfl, zpow_natCast]; exact Complex.I_pow_three
  interval_cases a <;> interval_cases b
  · exact ⟨2, by rw [h2]; apply Complex.ext <;> (simp [gridPt]; try norm_num; try ring)⟩
  · exact ⟨1, by rw [zpow_one]; apply Complex.ext <;> (simp [gridPt]; try norm_num; try ring)⟩
  · exact ⟨3, by rw [h3]; apply Complex.ext <;> (simp [gridPt]; try norm_num; try ring)⟩
  · exact ⟨0, by rw [zpow_zero, one_mul]⟩

theorem norm_qpsk (p : ℂ) (hp : p ∈ qamCodedSymbols (2 * 1) (Real.sqrt 2)) : ‖p‖ = 1 := by
  obtain ⟨q, rfl⟩ := qpsk_form p hp
  rw [norm_mul, norm_I_zpow, one_mul]
  have h : ‖gridPt 1 (Real.sqrt 2) 1 1‖ ^ 2 = 1 := by
    rw [← Complex.normSq_eq_norm_sq, Complex.normSq_apply]
    unfold gridPt
    simp only
    rw [div_mul_div_comm, Real.mul_self_sqrt (by norm_num)]
    norm_num
  nlinarith [norm_nonneg (gridPt 1 (Real.sqrt 2) 1 1)]

/-- A point of 16-QAM of modulus one, and its quarter turns. -/
theorem ring_point (q : ℤ) : I ^ q * gridPt 2 (Real.sqrt 10) 3 2 ∈ qamCodedSymbols (2 * 2) (Real.sqrt 10) ∧ ‖gridPt 2 (Real.sqrt 10) 3 2‖ = 1 := by
  constructor
  · refine closed_zpow (fun s hs => ?_) q _ ((mem_coded_iff 2 _ _).2 ⟨3, by norm_num, 2, by norm_num, rfl⟩)
    obtain ⟨i, hi, j, hj, rfl⟩ := (mem_coded_iff 2 _ s).1 hs
    refine (mem_coded_iff 2 _ _).2 ⟨3 - j, by omega, i, hi, ?_⟩
    have : ((3 - j : ℕ) : ℝ) = 3 - j := by
      rw [Nat.cast_sub (by norm_num at hj; omega)]
      norm_num
    apply Complex.ext
    · simp [gridPt, this]
      ring
    · simp [gridPt]
  · have h : ‖gridPt 2 (Real.sqrt 10) 3 2‖ ^ 2 = 1 := by
      rw [← Complex.normSq_eq_norm_sq, Complex.normSq_apply]
      unfold gridPt
      simp only
      rw [div_mul_div_comm, div_mul_div_comm, Real.mul_self_sqrt (by norm_num)]
      norm_num
    nlinarith [norm_nonneg (gridPt 2 (Real.sqrt 10) 3 2)]

/-- **C239** Where the averaging window only contains QPSK pilots, the blind phase search with the alphabet of a 16-QAM payload turns undistorted samples away from what has been sent: the result
is farther than 1/6 from every quarter turn of the transmitted pilot, for any number of at least five test angles, any pilots and any samples outside of the window. -/
theorem C239_turned (E : List ℂ) (M N t : Nat) (hM : 5 ≤ M) (hN : 1 ≤ N) (hN2 : N ≤ 20000) (ht : N ≤ t) (htN : t + N < E.length)
    (hpil : ∀ j, t - N < j → j ≤ t + N → E.getD j 0 ∈ qamCodedSymbols (2 * 1) (Real.sqrt 2)) :
    ∃ out ph z, bps E M (qamCodedSymbols (2 * 2) (Real.sqrt 10)) N = some (out, ph) ∧ out[t]? = some z ∧ ∀ r : ℤ, 1 / 6 < ‖z - I ^ r * E.getD t 0‖ := by
  obtain ⟨sy, hsy⟩ : ∃ sy, sy = qamCodedSymbols (2 * 2) (Real.sqrt 10) := ⟨_, rfl⟩
  obtain ⟨p, hp⟩ : ∃ p, p = gridPt 1 (Real.sqrt 2) 1 1 := ⟨_, rfl⟩
  obtain ⟨c, hc⟩ : ∃ c, c = gridPt 2 (Real.sqrt 10) 3 2 := ⟨_, rfl⟩
  have hp1 : ‖p‖ = 1 := norm_qpsk p ((mem_coded_iff 1 _ p).2 ⟨1, by norm_num, 1, by norm_num, hp⟩)
  have hc1 : ‖c‖ = 1 := by rw [hc]; exact (ring_point 0).2
  have hc0 : c ≠ 0 := by rintro rfl; simp at hc1
  -- the angle between the two
  obtain ⟨θ, hθ⟩ : ∃ θ : ℝ, p = c * Complex.exp (I * (θ : ℂ)) := by
    refine ⟨Complex.arg (p / c), ?_⟩
    have h := Complex.norm_mul_exp_arg_mul_I (p / c)
    rw [norm_div, hp1, hc1, div_one, Complex.ofReal_one, one_mul] at h
    rw [mul_comm I, h, mul_div_cancel₀ _ hc0]
  obtain ⟨m, q, hm, hq⟩ := testAngles_cover θ M (by omega)
  obtain ⟨α, hα⟩ : ∃ α, α = (testAngles M).getD m 0 := ⟨_, rfl⟩
  have hM5 : (5 : ℝ) ≤ M := by exact_mod_cast hM
  have hpi4 := Real.pi_lt_d2
  have hpi0 := Real.pi_pos
  have hstep : Real.pi / (4 * M) ≤ 315 / 2000 := by
    rw [div_le_iff₀ (by positivity)]
    nlinarith
  have hclose : ∀ j, t - N < j → j ≤ t + N → detDist (E.getD j 0 * Complex.exp (I * (α : ℝ))) sy ≤ (315 / 2000) ^ 2 := by
    intro j h1 h2
    obtain ⟨r, hr⟩ := qpsk_form _ (hpil j h1 h2)
    rw [← hp] at hr
    obtain ⟨-, hd, -⟩ := detDist_go (E.getD j 0 * Complex.exp (I * (α : ℝ))) sy 1000
    have hmem : I ^ q * (I ^ r * c) ∈ sy := by
      rw [← mul_assoc, ← zpow_add₀ Complex.I_ne_zero, hsy, hc]
      exact (ring_point _).1
    have h3 := hd _ hmem
    unfold detDist
    refine h3.trans ?_
    have hrw : E.getD j 0 * Complex.exp (I * (α : ℝ)) - I ^ q * (I ^ r * c) = I ^ r * c * (Complex.exp (I * ((θ + α : ℝ) : ℂ)) - I ^ q) := by
      rw [hr, hθ]
      have : Complex.exp (I * ((θ + α : ℝ) : ℂ)) = Complex.exp (I * (θ : ℂ)) * Complex.exp (I * (α : ℂ)) := by
        rw [← Complex.exp_add]; congr 1; push_cast; ring
      rw [this]
      ring
    rw [hrw, norm_mul, norm_mul, norm_I_zpow, hc1, one_mul, one_mul]
    refine pow_le_pow_left₀ (norm_nonneg _) ?_ 2
    rw [← exp_quarter_zero]
    refine (norm_exp_sub_exp_le _ _).trans ?_
    rw [hα, testAngles_getD M m hm]
    exact hq.trans hstep
  have hcard : (Finset.Ioc (t - N) (t + N)).card = 2 * N := by rw [Nat.card_Ioc]; omega
  have hN' : (N : ℝ) ≤ 20000 := by exact_mod_cast hN2
  have hN1 : (1 : ℝ) ≤ N := by exact_mod_cast hN
  have hup : ∑ j ∈ Finset.Ioc (t - N) (t + N), min 100 (detDist (E.getD j 0 * Complex.exp (I * (α : ℝ))) sy) ≤ 2 * N * (315 / 2000) ^ 2 := by
    refine (Finset.sum_le_card_nsmul _ _ ((315 / 2000 : ℝ) ^ 2) fun j hj => ?_).trans ?_
    · have hj' := Finset.mem_Ioc.1 hj
      exact (min_le_right _ _).trans (hclose j hj'.1 hj'.2)
    · rw [hcard, nsmul_eq_mul]
      push_cast
      exact le_rfl
  obtain ⟨out, ph, hb, hl, hloc⟩ := bps_local E sy M N hN (by omega)
  obtain ⟨φ, q', g1, g2, g3⟩ := hloc t ht htN m hm (by
    rw [← hα]
    refine lt_of_le_of_lt hup ?_
    nlinarith)
  rw [← hα] at g3
  refine ⟨out, ph, _, hsy ▸ hb, g2, fun r => ?_⟩
  by_contra hcon
  push Not at hcon
  -- the chosen angle would be close to a quarter turn
  have hEt : ‖E.getD t 0‖ = 1 := norm_qpsk _ (hpil t (by omega) (by omega))
  have hφ : ‖Complex.exp (I * (φ : ℂ)) - I ^ (r - q')‖ ≤ 1 / 6 := by
    have : I ^ q' * (E.getD t 0 * Complex.exp (I * (φ : ℂ))) - I ^ r * E.getD t 0 = I ^ q' * E.getD t 0 * (Complex.exp (I * (φ : ℂ)) - I ^ (r - q')) := by
      rw [zpow_sub₀ Complex.I_ne_zero]
      have : (I : ℂ) ^ q' ≠ 0 := zpow_ne_zero _ Complex.I_ne_zero
      field_simp
    rw [this, norm_mul, norm_mul, norm_I_zpow, hEt, one_mul, one_mul] at hcon
    exact hcon
  have hlow : ∀ j ∈ Finset.Ioc (t - N) (t + N), (1 / 6 : ℝ) ^ 2 ≤ min 100 (detDist (E.getD j 0 * Complex.exp (I * (φ : ℂ))) sy) := by
    intro j hj
    have hj' := Finset.mem_Ioc.1 hj
    refine le_min (by norm_num) ?_
    obtain ⟨-, -, hd⟩ := detDist_go (E.getD j 0 * Complex.exp (I * (φ : ℂ))) sy 1000
    unfold detDist
    rcases hd with hd | ⟨s, hs, hd⟩
    · rw [hd]; norm_num
    · rw [hd]
      refine pow_le_pow_left₀ (by norm_num) ?_ 2
      have hpj := hpil j hj'.1 hj'.2
      have hEj : ‖E.getD j 0‖ = 1 := norm_qpsk _ hpj
      have hturn : I ^ (r - q') * E.getD j 0 ∈ qamCodedSymbols (2 * 1) (Real.sqrt 2) := by
        refine closed_zpow (fun s hs => ?_) _ _ hpj
        obtain ⟨i, hi, j, hj, rfl⟩ := (mem_coded_iff 1 _ s).1 hs
        refine (mem_coded_iff 1 _ _).2 ⟨1 - j, by omega, i, hi, ?_⟩
        have : ((1 - j : ℕ) : ℝ) = 1 - j := by
          rw [Nat.cast_sub (by norm_num at hj; omega)]
          norm_num
        apply Complex.ext
        · simp [gridPt, this]
          ring
        · simp [gridPt]
      have h1 := qpsk_qam16_apart _ s hturn (hsy ▸ hs)
      have h2 := norm_sub_le_norm_sub_add_norm_sub (I ^ (r - q') * E.getD j 0) (E.getD j 0 * Complex.exp (I * (φ : ℂ))) s
      have h3 : ‖I ^ (r - q') * E.getD j 0 - E.getD j 0 * Complex.exp (I * (φ : ℂ))‖ ≤ 1 / 6 := by
        rw [mul_comm (I ^ (r - q')), ← mul_sub, norm_mul, hEj, one_mul, norm_sub_rev]
        exact hφ
      linarith
  have hsum := Finset.card_nsmul_le_sum _ _ _ hlow
  rw [hcard, nsmul_eq_mul] at hsum
  push_cast at hsum
  nlinarith

/-- The claim for signals with pilots: an undistorted 16-QAM signal with the QPSK pilots that are the default (qampy/signals.py:1494) is left as it is up to quarter turns and the step of the
test angles where the averaging window is complete. -/
def C239_statement : Prop :=
  ∀ (payload pilots : List (List ℂ)) (Nd frameLen seqLen rat M N : Nat) (s : PilotSignal ℂ) (out : List (List ℂ)) (ph : List (List ℝ)),
    (∀ r ∈ payload, ∀ z ∈ r, z ∈ qamCodedSymbols (2 * 2) (Real.sqrt 10)) → (∀ r ∈ pilots, ∀ z ∈ r, z ∈ qamCodedSymbols (2 * 1) (Real.sqrt 2)) →
    pilotFromSymbolArray 0 payload Nd frameLen seqLen rat pilots 1 = .ok s → 5 ≤ M → 1 ≤ N → pilotBps (qamCodedSymbols (2 * 2) (Real.sqrt 10)) s M N = some (out, ph) →
    ∀ (i t : Nat) (row o : List ℂ) (z : ℂ), s.rows[i]? = some row → out[i]? = some o → o[t]? = some z → N ≤ t → t + N < row.length → ∃ r : ℤ, ‖z - I ^ r * row.getD t 0‖ ≤ 1 / 6

theorem pilot_four (a b : ℂ) : pilotFromSymbolArray (0 : ℂ) [[a]] 1 4 3 0 [[b, b, b]] 1 =
    .ok { rows := [[b, b, b, a]], frameLen := 4, seqLen := 3, insRat := 0, symbols := [[a]], pilots := [[b, b, b]], idxDat := [false, false, false, true], idxPil := [true, true, true, false] } := rfl

theorem C239_false : ¬ C239_statement := by
  intro h
  obtain ⟨a, ha⟩ : ∃ a, a = gridPt 2 (Real.sqrt 10) 0 0 := ⟨_, rfl⟩
  obtain ⟨b, hb⟩ : ∃ b, b = gridPt 1 (Real.sqrt 2) 1 1 := ⟨_, rfl⟩
  have ha' : a ∈ qamCodedSymbols (2 * 2) (Real.sqrt 10) := (mem_coded_iff 2 _ _).2 ⟨0, by norm_num, 0, by norm_num, ha⟩
  have hb' : b ∈ qamCodedSymbols (2 * 1) (Real.sqrt 2) := (mem_coded_iff 1 _ _).2 ⟨1, by norm_num, 1, by norm_num, hb⟩
  obtain ⟨out, ph, h1, -, -, h2⟩ := C239_modes [[b, b, b, a]] 5 (qamCodedSymbols (2 * 2) (Real.sqrt 10)) 1 le_rfl (by norm_num)
  obtain ⟨o, p, h3, h4, -⟩ := h2 0 [b, b, b, a] rfl
  obtain ⟨o', p', z, g1, g2, g3⟩ := C239_turned [b, b, b, a] 5 1 1 le_rfl le_rfl (by norm_num) le_rfl (by simp) (fun j hj1 hj2 => by
    interval_cases j
    · exact hb'
    · exact hb')
  rw [h3, Option.some.injEq, Prod.mk.injEq] at g1
  rw [← g1.1] at g2
  obtain ⟨r, hr⟩ := h [[a]] [[b, b, b]] 1 4 3 0 5 1 _ out ph (by simpa using ha') (by simpa using hb') (pilot_four a b) le_rfl le_rfl h1 0 1 [b, b, b, a] o z rfl h4 g2 le_rfl (by simp)
  exact absurd (g3 r) (not_lt.2 hr)

/-- **C239** If pilots and payload are symbols of an alphabet that a quarter turn maps onto itself, and every mode is turned by a test angle of its own, all samples with a complete window are
symbols again. -/
theorem C239_alphabet (coded : List ℂ) (hI : ∀ z ∈ coded, I * z ∈ coded) (s : PilotSignal ℂ) (M N : Nat) (hN : 1 ≤ N) (hM : 1 ≤ M) (m : Nat → Nat) (hm : ∀ i, m i < M)
    (h : ∀ (i : Nat) (row : List ℂ), s.rows[i]? = some row → ∀ e ∈ row, e * Complex.exp (I * ((-Real.pi / 4 + m i * (Real.pi / 2 / M) : ℝ) : ℂ)) ∈ coded) :
    ∃ out ph, pilotBps coded s M N = some (out, ph) ∧ out.length = s.rows.length ∧ ph.length = s.rows.length ∧
      ∀ (i : Nat) (row o : List ℂ), s.rows[i]? = some row → out[i]? = some o → ∀ t, N ≤ t → t + N < row.length → ∃ z ∈ coded, o[t]? = some z := by
  obtain ⟨out, ph, h1, h2, h3, h4⟩ := C239_modes s.rows M coded N hN hM
  refine ⟨out, ph, h1, h2, h3, fun i row o hi ho t ht htN => ?_⟩
  obtain ⟨o', p', g1, g2, -⟩ := h4 i row hi
  rw [ho, Option.some.injEq] at g2
  obtain ⟨o2, p2, k1, k2⟩ := C34_noiseless_closed row coded M N (m i) hN (hm i) (h i row hi) hI
  rw [g1, Option.some.injEq, Prod.mk.injEq] at k1
  rw [g2, k1.1]
  exact k2 t ht htN

/-- Two modes of QPSK symbols turned by two different test angles, with a pilot of the same alphabet in front. -/
example : ∃ out ph, pilotBps [1, I, -1, -I] { rows := [[I, 1, -1].map (· * Complex.exp (I * ((Real.pi / 4 : ℝ) : ℂ))), [1, -I, I].map (· * Complex.exp (I * ((Real.pi / 8 : ℝ) : ℂ)))], frameLen := 3, seqLen := 1, insRat := 0, symbols := [[1, -1], [-I, I]], pilots := [[I], [1]], idxDat := [false, true, true], idxPil := [true, false, false] } 4 1 = some (out, ph) ∧ out.length = 2 := by
  obtain ⟨out, ph, h1, h2, -⟩ := C239_alphabet [1, I, -1, -I] (by intro z hz; simp at hz ⊢; rcases hz with rfl | rfl | rfl | rfl <;> simp) { rows := [[I, 1, -1].map (· * Complex.exp (I * ((Real.pi / 4 : ℝ) : ℂ))), [1, -I, I].map (· * Complex.exp (I * ((Real.pi / 8 : ℝ) : ℂ)))], frameLen := 3, seqLen := 1, insRat := 0, symbols := [[1, -1], [-I, I]], pilots := [[I], [1]], idxDat := [false, true, true], idxPil := [true, false, false] } 4 1 le_rfl (by norm_num) (fun i => if i = 0 then 0 else 1) (fun i => by split_ifs <;> norm_num) (by
    have key : ∀ (x y : ℝ) (w : ℂ), x + y = 0 → w * Complex.exp (I * (x : ℂ)) * Complex.exp (I * (y : ℂ)) = w := by
      intro x y w hxy
      rw [mul_assoc, ← Complex.exp_add, ← mul_add, ← Complex.ofReal_add, hxy]
      simp
    intro i row hi e he
    rcases i with _ | _ | i
    · simp only [List.getElem?_cons_zero, Option.some.injEq] at hi
      subst hi
      obtain ⟨w, hw, rfl⟩ := List.mem_map.1 he
      rw [key _ _ _ (by norm_num; ring)]
      simp at hw ⊢
      rcases hw with rfl | rfl | rfl <;> simp
    · simp only [zero_add, List.getElem?_cons_succ, List.getElem?_cons_zero, Option.some.injEq] at hi
      subst hi
      obtain ⟨w, hw, rfl⟩ := List.mem_map.1 he
      rw [key _ _ _ (by norm_num; ring)]
      simp at hw ⊢
      rcases hw with rfl | rfl | rfl <;> simp
    · simp at hi)
  exact ⟨out, ph, h1, h2⟩

end Qampy
