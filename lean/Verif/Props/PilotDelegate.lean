import Verif.Model.PilotDelegate
import Verif.Props.PilotMetrics
import Verif.Props.Decided
import Verif.Props.Theory

/-!
# C238: methods of signals with pilots that are written for signals without
-/

namespace Qampy

/-! ### The mutual information with a given signal to noise ratio -/

theorem mi_term_lower {coded : List ℂ} {N0 : ℝ} {r t : ℂ} (hr : r ∈ coded) :
    ‖r - t‖ ^ 2 / (N0 * Real.log 2) ≤ Real.logb 2 (coded.map fun sj => Real.exp (-(‖r - sj‖ ^ 2 - ‖r - t‖ ^ 2) / N0)).sum := by
  have h1 : Real.exp (‖r - t‖ ^ 2 / N0) ≤ (coded.map fun sj => Real.exp (-(‖r - sj‖ ^ 2 - ‖r - t‖ ^ 2) / N0)).sum := by
    have := List.single_le_sum (l := coded.map fun sj => Real.exp (-(‖r - sj‖ ^ 2 - ‖r - t‖ ^ 2) / N0)) (fun x hx => by
      obtain ⟨w, -, rfl⟩ := List.mem_map.1 hx
      positivity) _ (List.mem_map.2 ⟨r, hr, rfl⟩)
    simpa using this
  have h2 : ‖r - t‖ ^ 2 / (N0 * Real.log 2) = Real.logb 2 (Real.exp (‖r - t‖ ^ 2 / N0)) := by
    unfold Real.logb
    rw [Real.log_exp, div_div]
  rw [h2]
  exact Real.logb_le_logb_of_le (by norm_num) (Real.exp_pos _) h1

theorem mi_upper {coded rx tx : List ℂ} (N0 : ℝ) (hr : ∀ z ∈ rx, z ∈ coded) :
    calMi rx tx coded N0 true ≤ Real.logb 2 coded.length - ((rx.zip tx).map fun p => ‖p.1 - p.2‖ ^ 2).sum / (rx.length * N0 * Real.log 2) := by
  have h1 : ((rx.zip tx).map fun p => ‖p.1 - p.2‖ ^ 2 / (N0 * Real.log 2)).sum ≤
      ((rx.zip tx).map fun p => Real.logb 2 (coded.map fun sj => Real.exp (-(‖p.1 - sj‖ ^ 2 - ‖p.1 - p.2‖ ^ 2) / N0)).sum).sum :=
    List.sum_le_sum fun p hp => mi_term_lower (hr _ (List.of_mem_zip hp).1)
  have h2 : ((rx.zip tx).map fun p => ‖p.1 - p.2‖ ^ 2 / (N0 * Real.log 2)).sum = ((rx.zip tx).map fun p => ‖p.1 - p.2‖ ^ 2).sum / (N0 * Real.log 2) := by
    simp only [div_eq_mul_inv]
    rw [List.sum_map_mul_right]
  unfold calMi
  rw [if_pos rfl]
  unfold calMiMcFast
  rw [h2] at h1
  have h3 := div_le_div_of_nonneg_right h1 (Nat.cast_nonneg (α := ℝ) rx.length)
  rw [div_div, show N0 * Real.log 2 * rx.length = rx.length * N0 * Real.log 2 by ring] at h3
  linarith

theorem zip_same {α : Type _} : ∀ (l : List α), ∀ p ∈ l.zip l, p.1 = p.2
  | [], p, h => by simp at h
  | a :: l, p, h => by
    rw [List.zip_cons_cons, List.mem_cons] at h
    rcases h with rfl | h
    · rfl
    · exact zip_same l p h

theorem logb_count (n : Nat) : 0 ≤ Real.logb 2 (n : ℝ) := by
  rcases Nat.eq_zero_or_pos n with h | h
  · rw [h]; simp
  · exact Real.logb_nonneg (by norm_num) (by exact_mod_cast h)

theorem mi_clean {coded tx : List ℂ} {N0 : ℝ} (hN : 0 ≤ N0) (ht : ∀ z ∈ tx, z ∈ coded) : 0 ≤ calMi tx tx coded N0 true := by
  have hle : ∀ x ∈ (tx.zip tx).map fun p => Real.logb 2 (coded.map fun sj => Real.exp (-(‖p.1 - sj‖ ^ 2 - ‖p.1 - p.2‖ ^ 2) / N0)).sum, x ≤ Real.logb 2 coded.length := by
    intro x hx
    obtain ⟨p, hp, rfl⟩ := List.mem_map.1 hx
    have hpe : p.1 = p.2 := zip_same tx p hp
    have hmem := ht _ (List.of_mem_zip hp).1
    have h1 := mi_term_lower (N0 := N0) (t := p.2) hmem
    apply Real.logb_le_logb_of_le (by norm_num)
    · have := List.single_le_sum (l := coded.map fun sj => Real.exp (-(‖p.1 - sj‖ ^ 2 - ‖p.1 - p.2‖ ^ 2) / N0)) (fun x hx => by
        obtain ⟨w, -, rfl⟩ := List.mem_map.1 hx
        positivity) _ (List.mem_map.2 ⟨p.1, hmem, rfl⟩)
      exact lt_of_lt_of_le (Real.exp_pos _) this
    · have := List.sum_le_card_nsmul (coded.map fun sj => Real.exp (-(‖p.1 - sj‖ ^ 2 - ‖p.1 - p.2‖ ^ 2) / N0)) 1 (by
        intro x hx
        obtain ⟨w, -, rfl⟩ := List.mem_map.1 hx
        rw [Real.exp_le_one_iff, hpe, sub_self, norm_zero]
        have : 0 ≤ ‖p.2 - w‖ ^ 2 / N0 := by positivity
        rw [zero_pow (by norm_num), sub_zero, neg_div]
        linarith)
      simpa using this
  have hs := List.sum_le_card_nsmul _ _ hle
  unfold calMi
  rw [if_pos rfl]
  unfold calMiMcFast
  rw [List.length_map, List.length_zip, min_self, nsmul_eq_mul] at hs
  rcases Nat.eq_zero_or_pos tx.length with h0 | h0
  · have : tx = [] := List.length_eq_zero_iff.1 h0
    subst this
    simp only [List.zip_nil_left, List.map_nil, List.sum_nil, zero_div, sub_zero]
    exact logb_count _
  · have hpos : (0 : ℝ) < tx.length := by exact_mod_cast h0
    have := div_le_of_le_mul₀ hpos.le (logb_count _) (hs.trans (le_of_eq (mul_comm _ _)))
    linarith

theorem snrArg_one (coded : List ℂ) (x : ℝ) (t r : List (List ℂ)) (n : Nat) : snrArg coded (some [x]) t r n = .ok (List.replicate n ((10 : ℝ) ^ (x / 10))) := by
  unfold snrArg
  dsimp only
  split_ifs with h
  · rfl
  · have : n = 1 := by simpa using (not_not.1 h).symm
    subst this
    rfl

/-- **C238** With a given signal to noise ratio (`cal_mi(synced=True, snr=x)`) a signal with pilots is compared, sample by sample and pilots included, with its payload repeated. Even if it is
received without any error, the result for a mode is at most `log₂ M - Σ|r_k - t_(k mod n)|² / (L N₀ ln 2)`, which tends to minus infinity as the signal to noise ratio grows. -/
theorem C238_bound (coded : List ℂ) (s : PilotSignal ℂ) (L Nd os : Nat) (x : ℝ) (hNd : 0 < Nd) (hsym : ∀ r ∈ s.symbols, r.length = Nd) (hrow : ∀ r ∈ s.rows, r.length = L)
    (hmodes : s.symbols.length = s.rows.length) (hmem : ∀ r ∈ s.rows, ∀ z ∈ r, z ∈ coded) :
    ∃ vs : List ℝ, pilotCalMi coded s L os true (some [x]) true = .ok vs ∧ vs.length = s.rows.length ∧
      ∀ (i : Nat) (v : ℝ) (row sym : List ℂ), vs[i]? = some v → s.rows[i]? = some row → s.symbols[i]? = some sym →
        v ≤ Real.logb 2 coded.length - ((List.range L).map fun k => ‖row.getD k 0 - sym.getD (k % Nd) 0‖ ^ 2).sum / (L * (10 : ℝ) ^ (-x / 10) * Real.log 2) := by
  have hadj := adjustOnly_rows s.symbols s.rows Nd L hNd hsym hrow hmodes
  have hN0 : 1 / (10 : ℝ) ^ (x / 10) = (10 : ℝ) ^ (-x / 10) := by
    rw [neg_div, Real.rpow_neg (by norm_num), one_div]
  refine ⟨(List.range s.rows.length).map fun i => calMi (s.rows.getD i []) ((List.range L).map fun n => (s.symbols.getD i []).getD (n % Nd) 0) coded (1 / (10 : ℝ) ^ (x / 10)) true, ?_, by simp, ?_⟩
  · unfold pilotCalMi alignRows
    rw [if_pos rfl, hadj]
    dsimp only [bind, Except.bind]
    rw [snrArg_one]
    dsimp only
    apply mapM_ok
    intro i hi
    have hi := List.mem_range.1 hi
    rw [List.getElem?_map, List.getElem?_eq_getElem (by omega : i < s.symbols.length), List.getElem?_eq_getElem hi, List.getElem?_replicate, if_pos hi, List.getD_eq_getElem?_getD,
      List.getElem?_eq_getElem hi, List.getD_eq_getElem?_getD, List.getElem?_eq_getElem (by omega : i < s.symbols.length)]
    rfl
  · intro i v row sym hv hr hs
    obtain ⟨hi, e⟩ := List.getElem?_eq_some_iff.1 hr
    rw [List.getElem?_map, List.getElem?_range hi, Option.map_some, Option.some.injEq, List.getD_eq_getElem?_getD, hr, List.getD_eq_getElem?_getD, hs, Option.getD_some, Option.getD_some] at hv
    have hm : row ∈ s.rows := List.mem_of_getElem? hr
    have h := mi_upper (tx := (List.range L).map fun n => sym.getD (n % Nd) 0) ((10 : ℝ) ^ (-x / 10)) (hmem row hm)
    rw [hN0] at hv
    rw [hv, hrow row hm] at h
    refine h.trans (le_of_eq ?_)
    congr 3
    conv_lhs => rw [row_as_range row L (hrow row hm)]
    rw [List.zip_map', List.map_map]
    rfl

/-- **C238** The payload alone, received without errors, gives values between zero and `log₂ M` at every signal to noise ratio. -/
theorem C238_payload (coded : List ℂ) (sym : List (List ℂ)) (Nd : Nat) (x : ℝ) (hNd : 0 < Nd) (hsym : ∀ r ∈ sym, r.length = Nd) (hmem : ∀ r ∈ sym, ∀ z ∈ r, z ∈ coded) :
    ∃ vs : List ℝ, calMiRows coded true (some [x]) true sym sym = .ok vs ∧ vs.length = sym.length ∧ ∀ v ∈ vs, 0 ≤ v ∧ v ≤ Real.logb 2 coded.length := by
  have hadj := adjustOnly_rows sym sym Nd Nd hNd hsym hsym rfl
  have hN0 : 0 ≤ 1 / (10 : ℝ) ^ (x / 10) := by positivity
  have hid : (sym.map fun r => (List.range Nd).map fun n => r.getD (n % Nd) 0) = sym := by
    conv_rhs => rw [← List.map_id sym]
    refine List.map_congr_left fun r hr => ?_
    have e := row_as_range r Nd (hsym r hr)
    rw [id]
    conv_rhs => rw [e]
    refine List.map_congr_left fun n hn => ?_
    rw [Nat.mod_eq_of_lt (List.mem_range.1 hn)]
  rw [hid] at hadj
  refine ⟨(List.range sym.length).map fun i => calMi (sym.getD i []) (sym.getD i []) coded (1 / (10 : ℝ) ^ (x / 10)) true, ?_, by simp, ?_⟩
  · unfold calMiRows alignRows
    rw [if_pos rfl, hadj]
    dsimp only [bind, Except.bind]
    rw [snrArg_one]
    dsimp only
    apply mapM_ok
    intro i hi
    have hi := List.mem_range.1 hi
    rw [List.getElem?_eq_getElem hi, List.getElem?_replicate, if_pos hi, List.getD_eq_getElem?_getD, List.getElem?_eq_getElem hi]
    rfl
  · intro v hv
    obtain ⟨i, hi, rfl⟩ := List.mem_map.1 hv
    have hi := List.mem_range.1 hi
    rw [List.getD_eq_getElem?_getD, List.getElem?_eq_getElem hi, Option.getD_some]
    have hm := hmem _ (List.getElem_mem hi)
    refine ⟨mi_clean hN0 hm, ?_⟩
    refine (mi_upper _ hm).trans ?_
    have h1 : 0 ≤ ((sym[i].zip sym[i]).map fun p => ‖p.1 - p.2‖ ^ 2).sum := List.sum_nonneg fun x hx => by
      obtain ⟨w, -, rfl⟩ := List.mem_map.1 hx
      positivity
    have h2 : 0 ≤ (sym[i].length : ℝ) * (1 / (10 : ℝ) ^ (x / 10)) * Real.log 2 := by
      have := Real.log_nonneg (by norm_num : (1 : ℝ) ≤ 2)
      positivity
    linarith [div_nonneg h1 h2]

/-- The claim for `cal_mi`: the mutual information of a signal with pilots is that of its payload, as for all other metrics (C133, C134). -/
def C238_statement : Prop :=
  ∀ (coded : List ℂ) (payload pilots : List (List ℂ)) (Nd frameLen seqLen rat : Nat) (s : PilotSignal ℂ) (x : ℝ),
    (∀ r ∈ payload, ∀ z ∈ r, z ∈ coded) → (∀ r ∈ pilots, ∀ z ∈ r, z ∈ coded) → (∀ r ∈ payload, r.length = Nd) → pilotFromSymbolArray 0 payload Nd frameLen seqLen rat pilots 1 = .ok s →
    pilotCalMi coded s frameLen 1 true (some [x]) true = (getData s frameLen 1 none).bind fun d => calMiRows coded true (some [x]) true s.symbols d

/-- One frame of one pilot `b` and one payload symbol `a`. -/
def pairSig (a b : ℂ) : PilotSignal ℂ :=
  { rows := [[b, a]], frameLen := 2, seqLen := 1, insRat := 0, symbols := [[a]], pilots := [[b]], idxDat := [false, true], idxPil := [true, false] }

theorem pilot_pair (a b : ℂ) : pilotFromSymbolArray (0 : ℂ) [[a]] 1 2 1 0 [[b]] 1 =
    .ok (pairSig a b) := rfl

theorem C238_false : ¬ C238_statement := by
  intro h
  obtain ⟨c, hc⟩ : ∃ c, c = Real.sqrt 2 := ⟨_, rfl⟩
  have hc2 : c * c = 2 := by rw [hc]; exact Real.mul_self_sqrt (by norm_num)
  have hc0 : c ≠ 0 := by rintro rfl; norm_num at hc2
  have ha : gridPt 1 c 0 0 ∈ qamCodedSymbols (2 * 1) c := (mem_coded_iff 1 c _).2 ⟨0, by norm_num, 0, by norm_num, rfl⟩
  have hb : gridPt 1 c 1 1 ∈ qamCodedSymbols (2 * 1) c := (mem_coded_iff 1 c _).2 ⟨1, by norm_num, 1, by norm_num, rfl⟩
  have hd : ‖gridPt 1 c 1 1 - gridPt 1 c 0 0‖ ^ 2 = 4 := by
    rw [← Complex.normSq_eq_norm_sq, Complex.normSq_apply]
    unfold gridPt
    simp only [Complex.sub_re, Complex.sub_im]
    push_cast
    field_simp
    nlinarith
  obtain ⟨a, haD⟩ : ∃ a, a = gridPt 1 c 0 0 := ⟨_, rfl⟩
  obtain ⟨b, hbD⟩ : ∃ b, b = gridPt 1 c 1 1 := ⟨_, rfl⟩
  rw [← haD, ← hbD] at hd
  rw [← haD] at ha
  rw [← hbD] at hb
  have h1 := h (qamCodedSymbols (2 * 1) c) [[a]] [[b]] 1 2 1 0 _ 10 (by simpa using ha) (by simpa using hb) (by simp) (pilot_pair a b)
  obtain ⟨vs, e1, l1, b1⟩ := C238_bound (qamCodedSymbols (2 * 1) c) (pairSig a b) 2 1 1 10 one_pos (by simp [pairSig]) (by simp [pairSig]) rfl (by simpa [pairSig] using ⟨hb, ha⟩)
  obtain ⟨ws, e2, l2, b2⟩ := C238_payload (qamCodedSymbols (2 * 1) c) [[a]] 1 10 one_pos (by simp) (by simpa using ha)
  have hget : getData (pairSig a b) 2 1 none = .ok [[a]] := by
    unfold getData pairSig
    rw [show framesArg 2 1 2 none = .ok (List.range 1, 1) from rfl]
    rfl
  rw [hget] at h1
  have h2 : Except.ok vs = (Except.ok ws : Except PyErr (List ℝ)) := e1.symm.trans (h1.trans e2)
  injection h2 with h2
  subst h2
  obtain ⟨v, hv⟩ : ∃ v, vs = [v] := List.length_eq_one_iff.1 l1
  subst hv
  have h3 := b1 0 v [b, a] [a] rfl rfl rfl
  have h4 := (b2 v (by simp)).1
  rw [length_qamCoded] at h3
  have h5 : Real.logb 2 ((2 ^ (2 * 1) : Nat) : ℝ) = 2 := by
    rw [Nat.cast_pow, Nat.cast_ofNat, Real.logb_pow, Real.logb_self_eq_one (by norm_num)]
    norm_num
  have hlog : Real.log 2 < 1 := by
    have := Real.log_lt_sub_one_of_pos (x := 2) (by norm_num) (by norm_num)
    linarith
  have hlog0 : 0 < Real.log 2 := Real.log_pos (by norm_num)
  rw [h5, show List.range 2 = [0, 1] from rfl] at h3
  simp only [List.map_cons, List.map_nil, List.sum_cons, List.sum_nil, List.getD_cons_zero, List.getD_cons_succ, Nat.mod_one, sub_self, norm_zero] at h3
  rw [hd, show (-10 / 10 : ℝ) = -1 by norm_num, Real.rpow_neg (by norm_num), Real.rpow_one] at h3
  have h6 : (4 + (0 ^ 2 + 0)) / (((2 : Nat) : ℝ) * (10 : ℝ)⁻¹ * Real.log 2) = 20 / Real.log 2 := by
    push_cast
    field_simp
    norm_num
  rw [h6] at h3
  have : 20 < 20 / Real.log 2 := by
    rw [lt_div_iff₀ hlog0]
    linarith
  linarith

/-! ### The mutual information with the estimated signal to noise ratio -/

theorem mapM_head_error {α β : Type} {e : PyErr} {f : α → Except PyErr β} : ∀ {l : List α}, l ≠ [] → (∀ a ∈ l, f a = .error e) → l.mapM f = .error e
  | [], h, _ => absurd rfl h
  | a :: l, _, h => by
    rw [List.mapM_cons, h a (by simp)]
    rfl

/-- **C238** `cal_mi()` without a signal to noise ratio raises an exception for every signal with pilots that is longer than a frame, whatever the samples are. -/
theorem C238_raises (coded : List ℂ) (s : PilotSignal ℂ) (L os : Nat) (synced fast : Bool) (hidx : s.idxDat.length = s.frameLen) (hL : s.frameLen < L) (hne : s.rows ≠ [])
    (hrow : ∀ r ∈ s.rows, r.length = L) : ∃ e, pilotCalMi coded s L os synced none fast = .error e := by
  unfold pilotCalMi
  rcases h : alignRows synced s.symbols s.rows with e | ⟨t, r⟩
  · exact ⟨e, rfl⟩
  · dsimp only [bind, Except.bind]
    have : ∃ e, pilotMiSnr coded s L os t r = .error e := by
      unfold pilotMiSnr
      rcases r.flatten with _ | ⟨z, l⟩
      · exact ⟨_, rfl⟩
      · dsimp only
        rcases nFrames L os s.frameLen with e | n
        · exact ⟨e, rfl⟩
        · dsimp only
          split_ifs
          · rw [mapM_head_error (e := .index) hne fun r hr => ?_]
            · exact ⟨_, rfl⟩
            · unfold boolIndex
              rw [if_neg]
              rw [hrow r hr, List.length_take]
              omega
          · exact ⟨_, rfl⟩
          · exact ⟨_, rfl⟩
    obtain ⟨e, he⟩ := this
    exact ⟨e, by rw [he]⟩

open Classical in
theorem lexMax_re : ∀ (l : List ℂ) (z : ℂ), z.re ≤ (lexMax z l).re ∧ ∀ w ∈ l, w.re ≤ (lexMax z l).re
  | [], z => ⟨le_refl _, by simp⟩
  | a :: l, z => by
    have e : lexMax z (a :: l) = lexMax (if lexLe z a then a else z) l := rfl
    rw [e]
    obtain ⟨h1, h2⟩ := lexMax_re l (if lexLe z a then a else z)
    have hz : z.re ≤ (if lexLe z a then a else z).re ∧ a.re ≤ (if lexLe z a then a else z).re := by
      split_ifs with h
      · refine ⟨?_, le_refl _⟩
        rcases h with h | h
        · exact h.le
        · exact h.1.le
      · refine ⟨le_refl _, ?_⟩
        by_contra hlt
        exact h (Or.inl (not_le.1 hlt))
    refine ⟨hz.1.trans h1, fun w hw => ?_⟩
    rcases List.mem_cons.1 hw with rfl | hw
    · exact hz.2.trans h1
    · exact h2 w hw

/-- **C238** Of one frame, `cal_mi()` raises AssertionError as soon as a single sample has a real part larger than one, as the samples are taken for numbers of frames. -/
theorem C238_large (coded : List ℂ) (s : PilotSignal ℂ) (L os Nd : Nat) (fast : Bool) (hNd : 0 < Nd) (hsym : ∀ r ∈ s.symbols, r.length = Nd) (hrow : ∀ r ∈ s.rows, r.length = L)
    (hmodes : s.symbols.length = s.rows.length) (hpos : 0 < os * s.frameLen) (row : List ℂ) (hr : row ∈ s.rows) (w : ℂ) (hw : w ∈ row) (hre : ((L / (os * s.frameLen) : Nat) : ℝ) < w.re) :
    pilotCalMi coded s L os true none fast = .error .assertion := by
  unfold pilotCalMi alignRows
  rw [if_pos rfl, adjustOnly_rows s.symbols s.rows Nd L hNd hsym hrow hmodes]
  dsimp only [bind, Except.bind]
  have hm : w ∈ s.rows.flatten := List.mem_flatten.2 ⟨row, hr, hw⟩
  unfold pilotMiSnr
  rcases hf : s.rows.flatten with _ | ⟨z, l⟩
  · rw [hf] at hm
    simp at hm
  · rw [hf] at hm
    dsimp only
    rw [nFrames, if_neg (by omega)]
    dsimp only
    rw [if_pos]
    obtain ⟨h1, h2⟩ := lexMax_re l z
    have h3 : w.re ≤ (lexMax z l).re := by
      rcases List.mem_cons.1 hm with rfl | h
      · exact h1
      · exact h2 w h
    rintro (h | h)
    · rw [Complex.natCast_re] at h
      linarith
    · rw [Complex.natCast_re] at h
      linarith [h.1]

/-- Both happen: two frames of a pilot and a payload symbol, and one frame with a pilot of real part 7/√42 (a corner of 64-QAM). -/
example : (∃ e, pilotCalMi [1] { pairSig 1 1 with rows := [[1, 1, 1, 1]] } 4 1 true none true = .error e) ∧ pilotCalMi [1] (pairSig 1 (7 / Real.sqrt 42 : ℝ)) 2 1 true none true = .error .assertion := by
  refine ⟨C238_raises _ _ 4 1 true true rfl (by decide) (by simp) (by simp), ?_⟩
  refine C238_large _ _ 2 1 1 true one_pos (by simp [pairSig]) (by simp [pairSig]) rfl (by decide) _ (by simp only [pairSig]; exact List.mem_singleton_self _) _ List.mem_cons_self ?_
  rw [Complex.ofReal_re, show (2 / (1 * (pairSig 1 ((7 / Real.sqrt 42 : ℝ) : ℂ)).frameLen) : Nat) = 1 from rfl, Nat.cast_one, lt_div_iff₀ (Real.sqrt_pos.2 (by norm_num)), one_mul,
    Real.sqrt_lt' (by norm_num)]
  norm_num

/-! ### Decisions and normalisation -/

theorem decision_self {coded : List ℂ} {y : ℂ} (hy : y ∈ coded) : coded.getD (decIdx coded y) 0 = y := by
  have hne := List.ne_nil_of_mem hy
  obtain ⟨c, h1, h2, -⟩ := (decIdx_eq_iff hne y _).1 rfl
  obtain ⟨j, hj, e⟩ := List.mem_iff_getElem.1 hy
  have h := h2 y (List.mem_iff_getElem?.2 ⟨j, by rw [List.getElem?_eq_getElem hj, e]⟩)
  rw [sub_self, norm_zero, norm_le_zero_iff, sub_eq_zero] at h
  rw [List.getD_eq_getElem?_getD, h1, Option.getD_some, h]

/-- **C238** `make_decision()` of a signal with pilots does not look at the received samples: it returns the transmitted payload, whatever has been received. With the payload extracted by
`get_data` as argument it decides every sample for the nearest symbol. -/
theorem C238_decision (coded : List ℂ) (hne : coded ≠ []) (s : PilotSignal ℂ) (hmem : ∀ r ∈ s.symbols, ∀ z ∈ r, z ∈ coded) :
    (∀ rows : List (List ℂ), pilotMakeDecision coded { s with rows := rows } none = some s.symbols) ∧
    ∀ sig : List (List ℂ), pilotMakeDecision coded s (some sig) = some (sig.map fun row => row.map fun y => coded.getD (decIdx coded y) 0) := by
  have key : ∀ sig : List (List ℂ), (decideObj coded sig).map (fun rows => rows.map (·.1)) = some (sig.map fun row => row.map fun y => coded.getD (decIdx coded y) 0) := by
    intro sig
    unfold decideObj
    induction sig with
    | nil => rfl
    | cons row sig ih =>
      obtain ⟨rows, h1⟩ : ∃ rows, sig.mapM (decideRow coded) = some rows := by
        rcases h : sig.mapM (decideRow coded) with _ | rows
        · rw [h] at ih
          cases ih
        · exact ⟨rows, rfl⟩
      rw [h1, Option.map_some, Option.some.injEq] at ih
      obtain ⟨dist, h3⟩ := decideRow_eq hne row
      rw [List.mapM_cons, h3, h1]
      change some (_ :: rows.map (·.1)) = _
      rw [ih, List.map_cons]
  refine ⟨fun rows => ?_, fun sig => key sig⟩
  unfold pilotMakeDecision
  rw [Option.getD_none, key, Option.some.injEq]
  conv_rhs => rw [← List.map_id s.symbols]
  refine List.map_congr_left fun r hr => ?_
  rw [id]
  conv_rhs => rw [← List.map_id r]
  exact List.map_congr_left fun y hy => decision_self (hmem r hr y hy)

/-- **C238** `normalize_and_center(symbol_based=True)` of a signal with pilots always raises TypeError; the signal has lost its mean by then, and its power has not been changed otherwise: all
differences between samples of a mode are as before. -/
theorem C238_normalise (s : PilotSignal ℂ) (hne : ∀ r ∈ s.rows, r ≠ []) :
    (pilotNormalize s true).2 = some .typ ∧ ∃ rows, (pilotNormalize s true).1 = some rows ∧ rows.length = s.rows.length ∧
      ∀ (i : Nat) (r r' : List ℂ), s.rows[i]? = some r → rows[i]? = some r' → r'.sum = 0 ∧ ∀ (j k : Nat) (a b a' b' : ℂ),
        r[j]? = some a → r[k]? = some b → r'[j]? = some a' → r'[k]? = some b' → a' - b' = a - b := by
  refine ⟨rfl, _, rfl, by simp, fun i r r' hr hr' => ?_⟩
  rw [List.getElem?_map, hr, Option.map_some, Option.some.injEq] at hr'
  subst hr'
  have hl : (r.length : ℂ) ≠ 0 := by
    have := List.length_pos_iff.2 (hne r (List.mem_of_getElem? hr))
    exact_mod_cast this.ne'
  refine ⟨?_, fun j k a b a' b' ha hb ha' hb' => ?_⟩
  · have h : ∀ (m : ℂ) (l : List ℂ), (l.map fun z => z - m).sum = l.sum - l.length * m := by
      intro m l
      induction l with
      | nil => simp
      | cons x l ih =>
        rw [List.map_cons, List.sum_cons, ih, List.sum_cons, List.length_cons]
        push_cast
        ring
    rw [h, meanC]
    field_simp
    ring
  · rw [List.getElem?_map, ha, Option.map_some, Option.some.injEq] at ha'
    rw [List.getElem?_map, hb, Option.map_some, Option.some.injEq] at hb'
    rw [← ha', ← hb']
    ring

/-- A received frame far from its payload, still decided as the payload; and its normalisation. -/
example : pilotMakeDecision [1, -1] { pairSig 1 1 with rows := [[-7, -5]] } none = some [[1]] ∧ (pilotNormalize { pairSig 1 1 with rows := [[-7, -5]] } true).2 = some .typ :=
  ⟨(C238_decision [1, -1] (by simp) (pairSig 1 1) (by simp [pairSig])).1 _, (C238_normalise _ (by simp)).1⟩

end Qampy
