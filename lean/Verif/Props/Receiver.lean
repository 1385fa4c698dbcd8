import Verif.Model.Receiver
import Verif.Props.Equaliser
import Verif.Props.Pilots

/-! The pilot based receiver: C63 (frames are equalised independently), C59 (shifts), C68, C105 (training windows), C70 (pilot mask). -/

namespace Qampy

/-! ### C63 -/

/-- Taps of the right shape for a signal of `p` modes: `p` outputs of `p` by `ntaps` complex taps, or twice that for real taps. -/
def TapsOk (p ntaps : Nat) : Taps → Prop
  | .cplx w => w.length = p ∧ ∀ x ∈ w, Rect x p ntaps
  | .real w => w.length = 2 * p ∧ ∀ x ∈ w, Rect x (2 * p) ntaps

/-- The equaliser output of mode `m` computed from the samples starting with sample `a`: butterfly FIR filter; with real taps the inputs
are the real and imaginary parts and outputs `m` and `p+m` are the two parts of the result. -/
noncomputable def pilotOut (E : List (List ℂ)) (p ntaps : Nat) (wx : Taps) (m a : Nat) : ℂ :=
  match wx with
  | .cplx w => ∑ k ∈ Finset.range p, ∑ t ∈ Finset.range ntaps, val2 (w.getD m []) k t * val2 E k (a + t)
  | .real w =>
    let part (j : Nat) : ℝ := ∑ k ∈ Finset.range p, ∑ t ∈ Finset.range ntaps,
      (val2 (w.getD j []) k t * (val2 E k (a + t)).re + val2 (w.getD j []) (p + k) t * (val2 E k (a + t)).im)
    ⟨part m, part (p + m)⟩

theorem slice_eq_window {α : Type _} (r : List α) (a n : Nat) (h : a + n ≤ r.length) (b : Int) (hb : b = (a : Int) + n) :
    Np.slice r a b = (r.drop a).take n := by
  have h1 : Np.clamp r.length (a : Int) = a := by rw [Np.clamp, if_neg (by omega)]; omega
  have h2 : Np.clamp r.length b = a + n := by rw [Np.clamp, if_neg (by omega)]; omega
  rw [Np.slice, h1, h2, List.take_add, List.drop_append_of_le_length (by simp; omega), List.drop_eq_nil_of_le (by simp), List.nil_append]

theorem rect_convertSigToReal {E : List (List ℂ)} {p L : Nat} (hE : Rect E p L) : Rect (convertSigToReal E) (2 * p) L := by
  refine ⟨by rw [convertSigToReal, List.length_append, List.length_map, List.length_map, hE.1]; omega, ?_⟩
  intro r hr
  rw [convertSigToReal, List.mem_append, List.mem_map, List.mem_map] at hr
  rcases hr with ⟨x, hx, rfl⟩ | ⟨x, hx, rfl⟩ <;> rw [List.length_map, hE.2 x hx]

theorem val2_convertSigToReal {E : List (List ℂ)} {p L k i : Nat} (hE : Rect E p L) (hk : k < p) (hi : i < L) :
    val2 (convertSigToReal E) k i = (val2 E k i).re ∧ val2 (convertSigToReal E) (p + k) i = (val2 E k i).im := by
  obtain ⟨h1, h2⟩ := hE
  have hk' : k < E.length := by omega
  have hr := h2 _ (List.getElem_mem hk')
  have e0 : val2 E k i = E[k][i] := by
    rw [val2, at2, List.getElem?_eq_getElem hk', Option.bind_some, List.getElem?_eq_getElem (by omega)]; rfl
  constructor
  · rw [val2, at2, convertSigToReal, List.getElem?_append_left (by simp; omega), List.getElem?_map, List.getElem?_eq_getElem hk',
      Option.map_some, Option.bind_some, List.getElem?_map, List.getElem?_eq_getElem (by omega), e0]; rfl
  · rw [val2, at2, convertSigToReal, List.getElem?_append_right (by simp; omega), List.getElem?_map, List.length_map, h1,
      Nat.add_sub_cancel_left, List.getElem?_eq_getElem hk',
      Option.map_some, Option.bind_some, List.getElem?_map, List.getElem?_eq_getElem (by omega), e0]; rfl

theorem val2_window {K : Type} [RCLike K] (E : List (List K)) (a n k i : Nat) (hi : i < n) : val2 (window E a n) k i = val2 E k (a + i) := by
  rw [val2, at2_window _ _ _ _ _ hi, ← val2]

theorem firOutput_window {K : Type} [RCLike K] (E w : List (List K)) (p ntaps os i a n : Nat) (h : i * os + ntaps ≤ n) :
    firOutput (window E a n) w p ntaps os i = ∑ k ∈ Finset.range p, ∑ t ∈ Finset.range ntaps, val2 w k t * val2 E k (a + i * os + t) := by
  rw [firOutput]
  apply Finset.sum_congr rfl
  intro k _
  apply Finset.sum_congr rfl
  intro t ht
  have := Finset.mem_range.1 ht
  rw [val2_window _ _ _ _ _ (by omega), Nat.add_assoc]

theorem convertSigToReal_window (E : List (List ℂ)) (a n : Nat) : convertSigToReal (window E a n) = window (convertSigToReal E) a n := by
  simp only [convertSigToReal, window, List.map_append, List.map_map, Function.comp_def, List.map_take, List.map_drop]

/-- The rows of `filterFrames` that belong to output mode `m`: one for complex taps, two for real taps. -/
def modesOf (wx : Taps) (p m : Nat) : List Nat := (List.range (wx.rows / p)).map fun g => g * p + m

section
variable {E : List (List ℂ)} {p L os fl ntaps : Nat} {wx : Taps}

theorem filterFrames_rows (hE : Rect E p L) (hn : 1 ≤ ntaps) (a n : Nat) (hL : a + n * fl * os + ntaps - 1 ≤ L) (modes : List Nat) :
    filterFrames E L os fl wx ntaps modes a n =
      coreApplyFilter (window E a (n * fl * os + ntaps - 1)) (n * fl * os + ntaps - 1) os wx ntaps modes := by
  unfold filterFrames
  simp only
  have e1 : ((a : Int) + n * fl * os + ntaps - 1) = (a : Int) + ((n * fl * os + ntaps - 1 : Nat) : Int) := by
    rw [Nat.cast_sub (by omega)]; push_cast; ring
  rw [e1]
  have c1 : Np.clamp L (a : Int) = a := by rw [Np.clamp, if_neg (by omega)]; omega
  have c2 : Np.clamp L ((a : Int) + ((n * fl * os + ntaps - 1 : Nat) : Int)) = a + (n * fl * os + ntaps - 1) := by
    rw [Np.clamp, if_neg (by omega)]; omega
  rw [c1, c2, Nat.add_sub_cancel_left]
  congr 1
  rw [window]
  apply List.map_congr_left
  intro r hr
  exact slice_eq_window r a _ (by rw [hE.2 r hr]; omega) _ rfl

theorem filterFrames_cplx (hE : Rect E p L) (hos : 0 < os) (hn : 1 ≤ ntaps) (a n : Nat) (hL : a + n * fl * os + ntaps - 1 ≤ L)
    {w : List (List (List ℂ))} (hw : TapsOk p ntaps (.cplx w)) (modes : List Nat) (hm : ∀ m ∈ modes, m < p) :
    filterFrames E L os fl (.cplx w) ntaps modes a n =
      some (modes.map fun m => (List.range (n * fl)).map fun q => pilotOut E p ntaps (.cplx w) m (a + q * os)) := by
  obtain ⟨w1, w2⟩ := hw
  rw [filterFrames_rows hE hn a n hL, coreApplyFilter]
  have hW : Rect (window E a (n * fl * os + ntaps - 1)) p (n * fl * os + ntaps - 1) := rect_window hE (by omega)
  have hN : (n * fl * os + ntaps - 1 + 1 - ntaps) / os = n * fl := by
    rw [show n * fl * os + ntaps - 1 + 1 - ntaps = n * fl * os by omega, Nat.mul_div_cancel _ hos]
  rw [applyFilterToSignal_eq hW hos (by omega) (by
    intro m hmm
    have : m < w.length := by rw [w1]; exact hm m hmm
    exact ⟨w[m], List.getElem?_eq_getElem this, w2 _ (List.getElem_mem this)⟩), hN]
  congr 1
  apply List.map_congr_left
  intro m _
  apply List.map_congr_left
  intro q hq
  have hq' : (q + 1) * os ≤ n * fl * os := Nat.mul_le_mul_right _ (List.mem_range.1 hq)
  rw [Nat.add_mul, one_mul] at hq'
  rw [firOutput_window _ _ _ _ _ _ _ _ (by omega)]
  rfl

theorem filterFrames_real (hE : Rect E p L) (hos : 0 < os) (hn : 1 ≤ ntaps) (a n : Nat) (hL : a + n * fl * os + ntaps - 1 ≤ L)
    {w : List (List (List ℝ))} (hw : TapsOk p ntaps (.real w)) (ms : List Nat) (hm : ∀ m ∈ ms, m < p) :
    filterFrames E L os fl (.real w) ntaps (ms ++ ms.map (p + ·)) a n =
      some (ms.map fun m => (List.range (n * fl)).map fun q => pilotOut E p ntaps (.real w) m (a + q * os)) := by
  obtain ⟨w1, w2⟩ := hw
  rw [filterFrames_rows hE hn a n hL, coreApplyFilter]
  have hW : Rect (window (convertSigToReal E) a (n * fl * os + ntaps - 1)) (2 * p) (n * fl * os + ntaps - 1) :=
    rect_window (rect_convertSigToReal hE) (by omega)
  have hN : (n * fl * os + ntaps - 1 + 1 - ntaps) / os = n * fl := by
    rw [show n * fl * os + ntaps - 1 + 1 - ntaps = n * fl * os by omega, Nat.mul_div_cancel _ hos]
  rw [convertSigToReal_window]
  rw [applyFilterToSignal_eq hW hos (by omega) (by
    intro m hmm
    have : m < w.length := by
      rw [w1]
      rcases List.mem_append.1 hmm with h | h
      · have := hm m h; omega
      · obtain ⟨j, hj, rfl⟩ := List.mem_map.1 h
        have := hm j hj; omega
    exact ⟨w[m], List.getElem?_eq_getElem this, w2 _ (List.getElem_mem this)⟩), hN]
  rw [Option.bind_some, convertSigToCmplx]
  have hl : (ms ++ ms.map (p + ·)).length / 2 = ms.length := by simp; omega
  rw [hl, List.map_append, List.take_left' (by simp), List.drop_left' (by simp)]
  rw [if_pos (by simp), List.map_map, List.zipWith_map, List.zipWith_self]
  congr 1
  apply List.map_congr_left
  intro m hmm
  rw [Function.comp_apply, List.zipWith_map, List.zipWith_self]
  apply List.map_congr_left
  intro q hq
  have hq' : (q + 1) * os ≤ n * fl * os := Nat.mul_le_mul_right _ (List.mem_range.1 hq)
  rw [Nat.add_mul, one_mul] at hq'
  have key : ∀ v : List (List ℝ), firOutput (window (convertSigToReal E) a (n * fl * os + ntaps - 1)) v (2 * p) ntaps os q =
      ∑ k ∈ Finset.range p, ∑ t ∈ Finset.range ntaps,
        (val2 v k t * (val2 E k (a + q * os + t)).re + val2 v (p + k) t * (val2 E k (a + q * os + t)).im) := by
    intro v
    rw [firOutput_window _ _ _ _ _ _ _ _ (by omega), two_mul, Finset.sum_range_add, ← Finset.sum_add_distrib]
    apply Finset.sum_congr rfl
    intro k hk
    rw [← Finset.sum_add_distrib]
    apply Finset.sum_congr rfl
    intro t ht
    have ht' := Finset.mem_range.1 ht
    obtain ⟨c1, c2⟩ := val2_convertSigToReal hE (Finset.mem_range.1 hk) (i := a + q * os + t) (by omega)
    rw [c1, c2]
  rw [key, key]
  rfl

theorem tapsOk_rows (hw : TapsOk p ntaps wx) : wx.rows = p ∨ wx.rows = 2 * p := by
  cases wx with
  | cplx w => exact Or.inl hw.1
  | real w => exact Or.inr hw.1

/-- One call with the filters of one mode. -/
theorem filterFrames_mode (hE : Rect E p L) (hos : 0 < os) (hn : 1 ≤ ntaps) (a n : Nat) (hL : a + n * fl * os + ntaps - 1 ≤ L)
    (hw : TapsOk p ntaps wx) (m : Nat) (hm : m < p) :
    filterFrames E L os fl wx ntaps (modesOf wx p m) a n =
      some [(List.range (n * fl)).map fun q => pilotOut E p ntaps wx m (a + q * os)] := by
  cases wx with
  | cplx w =>
    have : modesOf (.cplx w) p m = [m] := by
      rw [modesOf, Taps.rows, hw.1, Nat.div_self (by omega)]; simp
    rw [this, filterFrames_cplx hE hos hn a n hL hw [m] (by simpa using hm)]
    rfl
  | real w =>
    have : modesOf (.real w) p m = [m] ++ [m].map (p + ·) := by
      rw [modesOf, Taps.rows, hw.1, Nat.mul_div_cancel _ (by omega)]; simp [List.range_succ]
    rw [this, filterFrames_real hE hos hn a n hL hw [m] (by simpa using hm)]
    rfl

/-- One call with the filters of all modes. -/
theorem filterFrames_all (hE : Rect E p L) (hos : 0 < os) (hn : 1 ≤ ntaps) (a n : Nat) (hL : a + n * fl * os + ntaps - 1 ≤ L)
    (hw : TapsOk p ntaps wx) :
    filterFrames E L os fl wx ntaps (List.range wx.rows) a n =
      some ((List.range p).map fun m => (List.range (n * fl)).map fun q => pilotOut E p ntaps wx m (a + q * os)) := by
  cases wx with
  | cplx w =>
    have : (Taps.cplx w).rows = p := hw.1
    rw [this, filterFrames_cplx hE hos hn a n hL hw _ (by simp)]
  | real w =>
    have : (Taps.real w).rows = p + p := by rw [Taps.rows, hw.1]; omega
    rw [this, List.range_add, filterFrames_real hE hos hn a n hL hw _ (by simp)]

theorem range_mul_flatMap {β : Type _} (n fl : Nat) (g : Nat → β) :
    (List.range (n * fl)).map g = (List.range n).flatMap fun f => (List.range fl).map fun q => g (f * fl + q) := by
  induction n with
  | zero => simp
  | succ n ih =>
    rw [Nat.add_mul, one_mul, List.range_add, List.map_append, ih, List.range_succ, List.flatMap_append, List.map_map]
    simp [Function.comp_def]

theorem hstack_map {β γ : Type _} (runs : List γ) (h : runs ≠ []) (p : Nat) (g : γ → Nat → List β) :
    hstack (runs.map fun r => (List.range p).map (g r)) = (List.range p).map fun m => runs.flatMap fun r => g r m := by
  induction runs with
  | nil => exact absurd rfl h
  | cons a l ih =>
    cases l with
    | nil => simp [hstack]
    | cons b l =>
      have e := ih (by simp)
      rw [List.map_cons] at e
      rw [List.map_cons, List.map_cons, hstack, e, List.zipWith_map, List.zipWith_self]
      · rfl
      · simp

theorem consecutive_eq : ∀ (frames : List Nat), frames ≠ [] → consecutive frames = true →
    frames.headD 0 ≤ frames.getLastD 0 ∧
    frames = (List.range (frames.getLastD 0 - frames.headD 0 + 1)).map (frames.headD 0 + ·)
  | [], h, _ => absurd rfl h
  | [a], _, _ => by simp
  | a :: b :: l, _, h => by
    simp only [consecutive, Bool.and_eq_true, decide_eq_true_eq] at h
    obtain ⟨rfl, h2⟩ := h
    obtain ⟨i1, i2⟩ := consecutive_eq ((a + 1) :: l) (by simp) h2
    have e : ((a :: (a + 1) :: l).getLastD 0) = (((a + 1) :: l).getLastD 0) := by simp [List.getLastD]
    rw [e]
    generalize ((a + 1) :: l).getLastD 0 = z at i1 i2 ⊢
    simp only [List.headD_cons] at i1 i2 ⊢
    refine ⟨by omega, ?_⟩
    rw [show z - a + 1 = (z - (a + 1) + 1) + 1 by omega, List.range_succ_eq_map, List.map_cons, List.map_map]
    conv_lhs => rw [i2]
    simp only [Function.comp_def, add_zero, List.cons.injEq, true_and]
    apply List.map_congr_left
    intro x _
    omega

theorem min?_le {l : List Int} {m : Int} (h : l.min? = some m) : ∀ x ∈ l, m ≤ x := (List.min?_eq_some_iff.1 h).2

theorem pilotShifts_ok {shifts : List Int} {synctaps : Nat} {period : Nat} {s : List Int}
    (hneg : ∀ x ∈ shifts, ((ntaps : Int) - synctaps) / 2 ≤ x + period)
    (h : pilotShifts shifts ntaps synctaps period = .ok s) :
    ∃ c : Nat, (c = 0 ∨ c = period) ∧ s = shifts.map (fun x => x - ((ntaps : Int) - synctaps) / 2 + c) ∧ ∀ x ∈ s, 0 ≤ x := by
  unfold pilotShifts at h
  have hs : (if ntaps ≠ synctaps then shifts.map (· - ((ntaps : Int) - synctaps) / 2) else shifts) =
      shifts.map (· - ((ntaps : Int) - synctaps) / 2) := by
    by_cases e : ntaps = synctaps
    · subst e; simp
    · rw [if_pos e]
  simp only [hs] at h
  cases hm : (shifts.map (· - ((ntaps : Int) - synctaps) / 2)).min? with
  | none => rw [hm] at h; cases h
  | some m =>
    rw [hm] at h
    simp only [Except.ok.injEq] at h
    by_cases h0 : m < 0
    · rw [if_pos h0, List.map_map] at h
      refine ⟨period, Or.inr rfl, h.symm, ?_⟩
      rw [← h]
      intro x hx
      obtain ⟨y, hy, rfl⟩ := List.mem_map.1 hx
      have := hneg y hy
      simp only [Function.comp_apply]
      omega
    · rw [if_neg h0] at h
      refine ⟨0, Or.inl rfl, by simp [h], ?_⟩
      rw [← h]
      intro x hx
      have := min?_le hm x hx
      omega

theorem mapM_some {α β : Type _} (l : List α) (f : α → Option β) (g : α → β) (h : ∀ a ∈ l, f a = some (g a)) : l.mapM f = some (l.map g) := by
  rw [mapM_eq_some_iff, List.map_map]
  exact List.map_congr_left h

/-- C63: when the length check passes, every output sample of every requested frame is the filter output at the position of that symbol: symbol
`q` of frame `f` of mode `m` is computed from the samples starting at `s_m + (f*frame_len + q)*os`, where `s_m` is the shift factor of the mode
corrected for the difference in tap number, plus one frame for all modes if one of them would start before the signal. All samples read
lie inside the signal. For any list of frames, consecutive or not, in any order. -/
theorem C63_frames {shifts : List Int} {synctaps : Nat} {frames : List Nat} {r : Option (List (List ℂ))} {s' : List Int}
    (hE : Rect E p L) (hp : 1 ≤ p) (hos : 0 < os) (hn : 1 ≤ ntaps) (hw : TapsOk p ntaps wx) (hs : shifts.length = p)
    (hneg : ∀ x ∈ shifts, ((ntaps : Int) - synctaps) / 2 ≤ x + (os * fl : Nat))
    (h : applyToPilotSignal E L os fl shifts synctaps wx ntaps frames = .ok (r, s')) :
    (∃ c : Nat, (c = 0 ∨ c = os * fl) ∧ s' = shifts.map fun x => x - ((ntaps : Int) - synctaps) / 2 + c) ∧ (∀ x ∈ s', 0 ≤ x) ∧
    ∃ out, r = some out ∧ out.length = p ∧ ∀ (m : Nat) (s : Int), s'[m]? = some s →
      (∀ f ∈ frames, ∀ q < fl, s.toNat + (f * fl + q) * os + ntaps ≤ L) ∧
      out[m]? = some (frames.flatMap fun f => (List.range fl).map fun q => pilotOut E p ntaps wx m (s.toNat + (f * fl + q) * os)) := by
  unfold applyToPilotSignal at h
  simp only [bind, Except.bind, pure, Except.pure, throw, throwThe, MonadExceptOf.throw] at h
  rw [show ((os : Int) * fl) = ((os * fl : Nat) : Int) by push_cast; rfl] at h
  cases hps : pilotShifts shifts ntaps synctaps ((os * fl : Nat) : Int) with
  | error e => rw [hps] at h; cases h
  | ok s =>
    rw [hps] at h
    simp only at h
    obtain ⟨c, hc, hsc, hpos⟩ := pilotShifts_ok hneg hps
    have hsl : s.length = p := by rw [hsc, List.length_map, hs]
    cases hfm : frames.max? with
    | none => rw [hfm] at h; cases h
    | some fmax =>
      rw [hfm] at h
      simp only at h
      cases hsm : s.max? with
      | none => rw [hsm] at h; cases h
      | some smax =>
        rw [hsm] at h
        simp only at h
        by_cases hlen : smax + ((os * fl : Nat) : Int) * (fmax + 1) < L - ((ntaps : Int) - 1)
        swap
        · rw [if_pos hlen] at h; cases h
        rw [if_neg (not_not.2 hlen)] at h
        have hfne : frames ≠ [] := by rintro rfl; simp at hfm
        -- reads
        have hfmax : ∀ f ∈ frames, f ≤ fmax := (List.max?_eq_some_iff.1 hfm).2
        have hsmax : ∀ x ∈ s, x ≤ smax := (List.max?_eq_some_iff.1 hsm).2
        have hread : ∀ x ∈ s, ∀ f n : Nat, f + n ≤ fmax + 1 → x.toNat + f * os * fl + n * fl * os + ntaps - 1 ≤ L := by
          intro x hx f n hfn
          have h1 := hsmax x hx
          have h2 := hpos x hx
          have h3 : (f + n) * (os * fl) ≤ (fmax + 1) * (os * fl) := Nat.mul_le_mul_right _ hfn
          have h4 : f * os * fl + n * fl * os = (f + n) * (os * fl) := by ring
          have h5 : (((fmax + 1) * (os * fl) : Nat) : Int) = ((os * fl : Nat) : Int) * (fmax + 1) := by push_cast; ring
          omega
        -- the runs
        obtain ⟨runs, hruns⟩ : ∃ runs : List (Nat × Nat), runs = if consecutive frames = true then [(frames.headD 0, frames.getLastD 0 - frames.headD 0 + 1)] else frames.map fun f => (f, 1) := ⟨_, rfl⟩
        rw [← hruns] at h
        have hrne : runs ≠ [] := by rw [hruns]; split <;> simp [hfne]
        have hrmax : ∀ q ∈ runs, q.1 + q.2 ≤ fmax + 1 := by
          intro q hq
          rw [hruns] at hq
          split at hq
          · rename_i hcons
            obtain ⟨i1, i2⟩ := consecutive_eq frames hfne hcons
            have hlast : frames.getLastD 0 ∈ frames := by
              rw [List.getLastD_eq_getLast?, List.getLast?_eq_some_getLast hfne]
              exact List.getLast_mem hfne
            have := hfmax _ hlast
            simp only [List.mem_singleton] at hq
            subst hq
            simp only
            omega
          · obtain ⟨f, hf, rfl⟩ := List.mem_map.1 hq
            have := hfmax f hf
            simp only
            omega
        have hflat : ∀ g : Nat → ℂ, (runs.flatMap fun r => (List.range (r.2 * fl)).map fun q => g (r.1 * fl + q)) =
            frames.flatMap fun f => (List.range fl).map fun q => g (f * fl + q) := by
          intro g
          rw [hruns]
          split
          · rename_i hcons
            obtain ⟨i1, i2⟩ := consecutive_eq frames hfne hcons
            conv_rhs => rw [i2]
            rw [List.flatMap_map, List.flatMap_singleton, range_mul_flatMap]
            congr 1
            funext f
            apply List.map_congr_left
            intro q _
            congr 1
            ring
          · rw [List.flatMap_map]
            simp
        have hout : ∀ (m : Nat) (x : Int), s[m]? = some x → 
            (∀ f ∈ frames, ∀ q < fl, x.toNat + (f * fl + q) * os + ntaps ≤ L) := by
          intro m x hx f hf q hq
          have h1 := hread x (List.mem_of_getElem? hx) f 1 (by have := hfmax f hf; omega)
          have h2 : (f * fl + q + 1) * os ≤ (f * fl + fl) * os := Nat.mul_le_mul_right _ (by omega)
          have h3 : (f * fl + q + 1) * os = (f * fl + q) * os + os := by ring
          have h4 : (f * fl + fl) * os = f * os * fl + 1 * fl * os := by ring
          omega
        have hrow : ∀ (m : Nat) (x : Int), (runs.flatMap fun r => (List.range (r.2 * fl)).map fun q =>
              pilotOut E p ntaps wx m (x.toNat + r.1 * os * fl + q * os)) =
            frames.flatMap fun f => (List.range fl).map fun q => pilotOut E p ntaps wx m (x.toNat + (f * fl + q) * os) := by
          intro m x
          rw [← hflat fun y => pilotOut E p ntaps wx m (x.toNat + y * os)]
          congr 1
          funext r
          apply List.map_congr_left
          intro q _
          congr 1
          ring
        have hcast : ∀ x ∈ s, ∀ f : Nat, x + (f : Int) * os * fl = ((x.toNat + f * os * fl : Nat) : Int) := by
          intro x hx f
          have := hpos x hx
          push_cast
          rw [Int.toNat_of_nonneg this]
        by_cases hsev : severalValues s = true
        · rw [if_pos hsev] at h
          have hrows : ¬ (E.length = 0 ∨ wx.rows % E.length ≠ 0) := by
            rw [hE.1]
            rcases tapsOk_rows hw with e | e <;> rw [e] <;> simp <;> omega
          rw [if_neg hrows, if_neg (by rw [hsl, hE.1]; omega)] at h
          simp only [Except.ok.injEq, Prod.mk.injEq] at h
          obtain ⟨h1, h2⟩ := h
          subst h2
          refine ⟨⟨c, hc, hsc⟩, hpos, ?_⟩
          have hmode : ∀ q ∈ runs, (List.map (fun m => List.map (fun g => g * E.length + m) (List.range (wx.rows / E.length))) (List.range E.length)).mapM
              (fun mode => filterFrames E L os fl wx ntaps mode (s.getD (mode.headD 0) 0 + q.1 * os * fl) q.2) =
              some ((List.range p).map fun m => [(List.range (q.2 * fl)).map fun k => pilotOut E p ntaps wx m ((s.getD m 0).toNat + q.1 * os * fl + k * os)]) := by
            intro q hq
            rw [mapM_eq_some_iff, List.map_map, List.map_map, hE.1]
            apply List.map_congr_left
            intro m hm
            have hm' := List.mem_range.1 hm
            have hhead : (modesOf wx p m).headD 0 = m := by
              rw [modesOf]
              rcases tapsOk_rows hw with e | e <;> rw [e]
              · rw [Nat.div_self hp]; simp
              · rw [Nat.mul_div_cancel _ hp]; simp [List.range_succ]
            have hmem : s.getD m 0 ∈ s := by
              rw [List.getD_eq_getElem?_getD, List.getElem?_eq_getElem (by omega)]
              exact List.getElem_mem _
            simp only [Function.comp_apply]
            change filterFrames E L os fl wx ntaps (modesOf wx p m) (s.getD ((modesOf wx p m).headD 0) 0 + q.1 * os * fl) q.2 = _
            rw [hhead, hcast _ hmem, filterFrames_mode hE hos hn _ _ (hread _ hmem _ _ (hrmax q hq)) hw m hm']
          rw [mapM_some runs _ (fun q => (List.range p).map fun m => (List.range (q.2 * fl)).map fun k => pilotOut E p ntaps wx m ((s.getD m 0).toNat + q.1 * os * fl + k * os))] at h1
          · rw [Option.map_some, hstack_map runs hrne] at h1
            refine ⟨_, h1.symm, by simp, ?_⟩
            intro m x hx
            have hm : m < p := by rw [← hsl]; exact (List.getElem?_eq_some_iff.1 hx).1
            refine ⟨hout m x hx, ?_⟩
            have hx' : s.getD m 0 = x := by rw [List.getD_eq_getElem?_getD, hx]; rfl
            rw [List.getElem?_map, List.getElem?_range hm, Option.map_some, hx', hrow]
          · intro q hq
            simp only [hmode q hq, Option.bind_some, Option.some.injEq]
            rw [← List.flatMap_def]
            exact List.flatMap_pure_eq_map _ _
        · rw [if_neg hsev] at h
          simp only [Except.ok.injEq, Prod.mk.injEq] at h
          obtain ⟨h1, h2⟩ := h
          subst h2
          refine ⟨⟨c, hc, hsc⟩, hpos, ?_⟩
          have hall : ∀ x ∈ s, x = s.headD 0 := by
            intro x hx
            by_contra hne
            exact hsev (List.any_eq_true.2 ⟨x, hx, by simpa using hne⟩)
          have hmem : s.headD 0 ∈ s := by
            cases s with
            | nil => simp at hsl; omega
            | cons a s => simp
          rw [mapM_some runs _ (fun q => (List.range p).map fun m => (List.range (q.2 * fl)).map fun k => pilotOut E p ntaps wx m ((s.headD 0).toNat + q.1 * os * fl + k * os))] at h1
          · rw [Option.map_some, hstack_map runs hrne] at h1
            refine ⟨_, h1.symm, by simp, ?_⟩
            intro m x hx
            have hm : m < p := by rw [← hsl]; exact (List.getElem?_eq_some_iff.1 hx).1
            refine ⟨hout m x hx, ?_⟩
            rw [List.getElem?_map, List.getElem?_range hm, Option.map_some, ← hall x (List.mem_of_getElem? hx), hrow]
          · intro q hq
            rw [hcast _ hmem, filterFrames_all hE hos hn _ _ (hread _ hmem _ _ (hrmax q hq)) hw]

/-- When the call succeeds. -/
theorem applyToPilotSignal_ok {shifts : List Int} {synctaps : Nat} {frames : List Nat} {s' : List Int}
    (hE : Rect E p L) (hp : 1 ≤ p) (hw : TapsOk p ntaps wx) (hs : shifts.length = p) :
    (∃ r, applyToPilotSignal E L os fl shifts synctaps wx ntaps frames = .ok (r, s')) ↔
      pilotShifts shifts ntaps synctaps (os * fl) = .ok s' ∧ ∃ fmax smax, frames.max? = some fmax ∧ s'.max? = some smax ∧
        smax + os * fl * (fmax + 1) < L - ((ntaps : Int) - 1) := by
  have hrows : ¬ (E.length = 0 ∨ wx.rows % E.length ≠ 0) := by
    rw [hE.1]
    rcases tapsOk_rows hw with e | e <;> rw [e] <;> simp <;> omega
  have hlen : ∀ s, pilotShifts shifts ntaps synctaps (os * fl) = .ok s → s.length = p := by
    intro s h
    unfold pilotShifts at h
    simp only at h
    split at h
    · cases h
    · simp only [Except.ok.injEq] at h
      rw [← h]
      split <;> split <;> simp [hs]
  unfold applyToPilotSignal
  simp only [bind, Except.bind, pure, Except.pure, throw, throwThe, MonadExceptOf.throw]
  cases hps : pilotShifts shifts ntaps synctaps (os * fl) with
  | error e => simp
  | ok s =>
    have hl := hlen s hps
    simp only [Except.ok.injEq]
    cases hfm : frames.max? with
    | none => simp
    | some fmax =>
      cases hsm : s.max? with
      | none =>
        simp only [reduceCtorEq, exists_false, false_iff, not_and, not_exists]
        rintro rfl f m _ h2
        rw [hsm] at h2
        cases h2
      | some smax =>
        simp only
        by_cases hc : smax + os * fl * (fmax + 1) < L - ((ntaps : Int) - 1)
        · rw [if_neg (not_not.2 hc)]
          constructor
          · intro h
            have : s = s' := by
              obtain ⟨r, hr⟩ := h
              split at hr
              · rw [if_neg (by rw [hl, hE.1]; omega)] at hr
                simp only [Except.ok.injEq, Prod.mk.injEq] at hr
                exact hr.2
              · simp only [Except.ok.injEq, Prod.mk.injEq] at hr
                exact hr.2
            exact ⟨this, fmax, smax, rfl, this ▸ hsm, hc⟩
          · rintro ⟨rfl, -⟩
            split
            · rw [if_neg (by rw [hl, hE.1]; omega)]
              exact ⟨_, rfl⟩
            · exact ⟨_, rfl⟩
        · rw [if_pos hc]
          simp only [reduceCtorEq, exists_false, false_iff, not_and, not_exists]
          rintro rfl f m h1 h2
          rw [hsm] at h2
          simp only [Option.some.injEq] at h1 h2
          subst h1 h2
          exact hc

/-- C63: equalising a list of frames in one go is the same as equalising them one by one and joining the results; each single call
succeeds too and uses the same shift factors. -/
theorem C63_concat {shifts : List Int} {synctaps : Nat} {frames : List Nat} {r : Option (List (List ℂ))} {s' : List Int}
    (hE : Rect E p L) (hp : 1 ≤ p) (hos : 0 < os) (hn : 1 ≤ ntaps) (hw : TapsOk p ntaps wx) (hs : shifts.length = p)
    (hneg : ∀ x ∈ shifts, ((ntaps : Int) - synctaps) / 2 ≤ x + (os * fl : Nat))
    (h : applyToPilotSignal E L os fl shifts synctaps wx ntaps frames = .ok (r, s')) :
    ∃ (out : List (List ℂ)) (single : Nat → List (List ℂ)), r = some out ∧
      (∀ f ∈ frames, applyToPilotSignal E L os fl shifts synctaps wx ntaps [f] = .ok (some (single f), s')) ∧
      ∀ m < p, out[m]? = some (frames.flatMap fun f => (single f).getD m []) := by
  obtain ⟨h1, fmax, smax, h2, h3, h4⟩ := (applyToPilotSignal_ok hE hp hw hs).1 ⟨r, h⟩
  have hone : ∀ f ∈ frames, ∃ o, applyToPilotSignal E L os fl shifts synctaps wx ntaps [f] = .ok (some o, s') := by
    intro f hf
    have hle : f ≤ fmax := (List.max?_eq_some_iff.1 h2).2 f hf
    obtain ⟨r', hr'⟩ := (applyToPilotSignal_ok (frames := [f]) hE hp hw hs).2 ⟨h1, f, smax, rfl, h3, by
      have : (os : Int) * fl * (f + 1) ≤ os * fl * (fmax + 1) := by
        apply mul_le_mul_of_nonneg_left (by omega)
        positivity
      omega⟩
    obtain ⟨-, -, o, rfl, -⟩ := C63_frames hE hp hos hn hw hs hneg hr'
    exact ⟨o, hr'⟩
  choose! single hsingle using hone
  obtain ⟨hsc, -, out, rfl, hl, hout⟩ := C63_frames hE hp hos hn hw hs hneg h
  refine ⟨out, single, rfl, hsingle, ?_⟩
  intro m hm
  have hsl : s'.length = p := by obtain ⟨c, -, rfl⟩ := hsc; rw [List.length_map, hs]
  obtain ⟨-, ho⟩ := hout m s'[m] (List.getElem?_eq_getElem (by omega))
  rw [ho]
  congr 1
  rw [List.flatMap_def, List.flatMap_def]
  congr 1
  apply List.map_congr_left
  intro f hf
  obtain ⟨-, -, o, h5, h6, h7⟩ := C63_frames hE hp hos hn hw hs hneg (hsingle f hf)
  obtain rfl := Option.some.inj h5
  obtain ⟨-, h8⟩ := h7 m s'[m] (List.getElem?_eq_getElem (by omega))
  rw [List.getD_eq_getElem?_getD, h8]
  simp

end

/-- Two modes, frames of two symbols, two taps, different shift factors: the call for the frames 1, 0 (not consecutive) and for 0, 1 succeeds. -/
example : ∃ r, applyToPilotSignal [[1, 2, 3, 4, 5, 6, 7, 8], [0, 1, 0, 1, 0, 1, 0, 1]] 8 1 2 [0, 1] 2
    (.cplx [[[1, 0], [0, 0]], [[0, 0], [0, 1]]]) 2 [1, 0] = .ok (r, [0, 1]) :=
  (applyToPilotSignal_ok (p := 2) ⟨rfl, by simp⟩ (by omega) (show TapsOk 2 2 (.cplx _) from ⟨rfl, by simp [Rect]⟩) rfl).2 ⟨by decide, 1, 1, rfl, rfl, by decide⟩

/-! ### C59 -/

/-- The full property: `shift_signal` moves the sample with index `shift` of each mode to the front, the others follow cyclically, for any number
of modes; `correct_shifts` returns factors between zero and the frame length. -/
def C59_statement : Prop :=
  (∀ (sig : List (List ℕ)) (shifts : List Int), shifts.length = sig.length → ∃ out, shiftSignal sig shifts = .ok out ∧ out.length = sig.length ∧
    ∀ (i j : Nat) (r : List ℕ) (s : Int), sig[i]? = some r → shifts[i]? = some s → j < r.length →
      at2 out i j = r[((j + s) % (r.length : Int)).toNat]?) ∧
  ∀ (shifts : List Int) (n0 n1 os fl : Nat) (out : List Int), (∀ s ∈ shifts, 0 ≤ s ∧ s < os * fl) →
    correctShifts shifts n0 n1 os = .ok out → ∀ s ∈ out, 0 ≤ s ∧ s < os * fl

/-- With a single mode the roll goes into the other direction. -/
theorem C59_false : ¬ C59_statement := by
  rintro ⟨h, -⟩
  obtain ⟨out, h1, -, h2⟩ := h [[0, 1, 2]] [1] rfl
  simp only [shiftSignal, Except.ok.injEq] at h1
  have := h2 0 0 [0, 1, 2] 1 rfl rfl (by simp)
  rw [← h1] at this
  revert this
  decide

/-- The corrected factors are not reduced to the frame. -/
theorem C59_correct_false : ∃ (shifts : List Int) (n0 n1 os fl : Nat) (out : List Int), (∀ s ∈ shifts, 0 ≤ s ∧ s < os * fl) ∧
    correctShifts shifts n0 n1 os = .ok out ∧ ∃ s ∈ out, s < 0 :=
  ⟨[1], 17, 21, 2, 100, [-1], by decide, by decide, -1, by simp, by omega⟩

/-- C59 for several modes: each mode is shifted cyclically by its own factor, the sample with index `shift` moves to the front. -/
theorem C59_shift_partial {α : Type} (sig : List (List α)) (shifts : List Int) (hk : 2 ≤ shifts.length) (hl : shifts.length = sig.length) :
    ∃ out, shiftSignal sig shifts = .ok out ∧ out.length = sig.length ∧
      ∀ (i j : Nat) (r : List α) (s : Int), sig[i]? = some r → shifts[i]? = some s → j < r.length →
        at2 out i j = r[((j + s) % (r.length : Int)).toNat]? := by
  match shifts, hk with
  | a :: b :: t, _ =>
    rw [shiftSignal, if_neg (by omega)]
    · refine ⟨_, rfl, ?_, ?_⟩
      · rw [List.length_append, List.length_zipWith, List.length_drop]; omega
      · intro i j r s hr hs hj
        have hi : i < sig.length := (List.getElem?_eq_some_iff.1 hr).1
        rw [at2, List.getElem?_append_left (by rw [List.length_zipWith]; omega), List.getElem?_zipWith, hr, hs]
        simp only [Option.bind_some]
        rw [Np.getElem?_roll r (-s) j hj, sub_neg_eq_add]
    · intro h; simp at h
    · intro s h; simp at h

/-- C59: `correct_shifts` takes half of the difference of the tap numbers off every factor when that difference is even and a multiple of
the oversampling, and fails when it is no multiple. -/
theorem C59_correct_partial (shifts : List Int) (n0 n1 os d : Int) (hos : os ≠ 0) :
    (n1 - n0 = 2 * d → os ∣ 2 * d → correctShifts shifts n0 n1 os = .ok (shifts.map (· - d))) ∧
    (¬ os ∣ n1 - n0 → correctShifts shifts n0 n1 os = .error .value) := by
  constructor
  · intro h1 h2
    rw [correctShifts, if_neg hos, h1, if_neg (by rw [not_not, Int.fmod_eq_zero_of_dvd h2]), Int.mul_tdiv_cancel_left _ (by omega)]
  · intro h
    rw [correctShifts, if_neg hos, if_pos (fun h2 => h (Int.dvd_of_fmod_eq_zero h2))]

example : ∃ out, shiftSignal [[0, 1, 2], [3, 4, 5]] [1, -1] = .ok out ∧ out = [[1, 2, 0], [5, 3, 4]] := ⟨_, rfl, rfl⟩
example : (21 : Int) - 17 = 2 * 2 ∧ (2 : Int) ∣ 2 * 2 ∧ ¬ (2 : Int) ∣ 20 - 17 := by decide

/-! ### C68, C105: training windows -/

/-- C68, the full property: training for frame `k` uses samples `k*os*frame_len` later than training for frame 0. -/
def C68_statement : Prop := ∀ (shifts : List Int) (L os fl ntaps synctaps k : Nat) (s0 sk : List Int),
  eqShifts shifts L os fl ntaps synctaps 0 = .ok s0 → eqShifts shifts L os fl ntaps synctaps k = .ok sk →
    sk = s0.map fun (x : Int) => x + os * fl * k

/-- With the tap number of the synchronisation every frame is trained on the first frame. -/
theorem C68_false : ¬ C68_statement := by
  intro h
  have := h [3] 1000 2 10 17 17 1 [3] [3] (by decide) (by decide)
  revert this
  decide

/-- C68 when the tap number differs from the one of the synchronisation. -/
theorem C68_train_frame_partial {shifts : List Int} {L os fl ntaps synctaps k : Nat} {s0 sk : List Int} (hne : ntaps ≠ synctaps)
    (h0 : eqShifts shifts L os fl ntaps synctaps 0 = .ok s0) (hk : eqShifts shifts L os fl ntaps synctaps k = .ok sk) :
    sk = s0.map fun (x : Int) => x + os * fl * k := by
  have key : ∀ (j : Nat) (s : List Int), eqShifts shifts L os fl ntaps synctaps j = .ok s →
      s = shifts.map fun s => s - ((ntaps : Int) - synctaps) / 2 + os * fl * j := by
    intro j s h
    unfold eqShifts at h
    simp only [bind, Except.bind, pure, Except.pure, throw, throwThe, MonadExceptOf.throw, if_pos hne] at h
    repeat' split at h
    all_goals first
      | cases h; done
      | exact (Except.ok.inj h).symm
  rw [key k sk hk, key 0 s0 h0, List.map_map]
  apply List.map_congr_left
  intro x _
  simp

example : ∃ s0 sk, eqShifts [3, 4] 1000 2 10 21 17 0 = .ok s0 ∧ eqShifts [3, 4] 1000 2 10 21 17 5 = .ok sk ∧ s0 = [1, 2] ∧ sk = [101, 102] :=
  ⟨_, _, rfl, rfl, by decide, by decide⟩

/-- C105, the full property: the taps for frame `k` are trained on the samples that are later filtered to give the pilot sequence of frame `k`. -/
def C105_statement : Prop := ∀ (shifts : List Int) (L os fl ntaps synctaps k : Nat) (st sa : List Int) (row : List Nat) (seqLen : Nat),
  (∀ s ∈ shifts, 0 ≤ s ∧ s < os * fl) → seqLen ≤ fl → row.length = L →
  eqShifts shifts L os fl ntaps synctaps k = .ok st → pilotShifts shifts ntaps synctaps (os * fl) = .ok sa →
    ∀ (m : Nat) (t a : Int), st[m]? = some t → sa[m]? = some a →
      trainSlice row t seqLen os ntaps = trainSlice row (a + k * os * fl) seqLen os ntaps

/-- The training stretch is empty when the frame starts within the first samples and more taps are used than in the synchronisation: the index
becomes negative, and only the application of the taps moves it by one frame. -/
theorem C105_false : ¬ C105_statement := by
  intro h
  have := h [1] 100 2 10 21 17 0 [-1] [19] (List.range 100) 4 (by decide) (by omega) (by simp) (by decide) (by decide) 0 (-1) 19 rfl rfl
  revert this
  decide

/-- The same happens for later frames when the tap numbers agree (see C68). -/
theorem C105_false_equal_taps : ∃ (shifts : List Int) (L os fl ntaps k : Nat) (st sa : List Int) (row : List Nat) (seqLen : Nat),
    (∀ s ∈ shifts, 0 ≤ s ∧ s < os * fl) ∧ seqLen ≤ fl ∧ row.length = L ∧ eqShifts shifts L os fl ntaps ntaps k = .ok st ∧
    pilotShifts shifts ntaps ntaps (os * fl) = .ok sa ∧ trainSlice row (st.headD 0) seqLen os ntaps ≠
      trainSlice row (sa.headD 0 + k * os * fl) seqLen os ntaps :=
  ⟨[1], 100, 2, 10, 17, 1, [1], [1], List.range 100, 4, by decide, by omega, by simp, by decide, by decide, by decide⟩

/-- C105 whenever no shift factor becomes negative and the tap numbers differ or the first frame is trained: training and
application start at the same sample, and the training stretch has exactly the samples needed for the pilot sequence. -/
theorem C105_train_apply_partial {α : Type} {shifts : List Int} {L os fl ntaps synctaps k seqLen : Nat} {st sa : List Int}
    (hne : ntaps ≠ synctaps ∨ k = 0) (hpos : ∀ s ∈ shifts, ((ntaps : Int) - synctaps) / 2 ≤ s) (hn : 1 ≤ ntaps)
    (ht : eqShifts shifts L os fl ntaps synctaps k = .ok st) (ha : pilotShifts shifts ntaps synctaps (os * fl) = .ok sa) :
    st = (sa.map fun (x : Int) => x + k * os * fl) ∧ ∀ (row : List α) (m : Nat) (t : Int), st[m]? = some t → t + seqLen * os + ntaps - 1 ≤ row.length →
      trainSlice row t seqLen os ntaps = (row.drop t.toNat).take (seqLen * os + ntaps - 1) := by
  have h1 : st = shifts.map fun s => s - ((ntaps : Int) - synctaps) / 2 + os * fl * k := by
    unfold eqShifts at ht
    simp only [bind, Except.bind, pure, Except.pure, throw, throwThe, MonadExceptOf.throw] at ht
    have hs : (if ntaps ≠ synctaps then shifts.map fun s => s - ((ntaps : Int) - synctaps) / 2 + os * fl * k else shifts) =
        shifts.map fun s => s - ((ntaps : Int) - synctaps) / 2 + os * fl * k := by
      by_cases e : ntaps = synctaps
      · rcases hne with h | h
        · exact absurd e h
        · subst e h; simp
      · rw [if_pos e]
    rw [hs] at ht
    repeat' split at ht
    all_goals first
      | cases ht; done
      | exact (Except.ok.inj ht).symm
  have h2 : sa = shifts.map fun s => s - ((ntaps : Int) - synctaps) / 2 := by
    unfold pilotShifts at ha
    have hs : (if ntaps ≠ synctaps then shifts.map (· - ((ntaps : Int) - synctaps) / 2) else shifts) =
        shifts.map (· - ((ntaps : Int) - synctaps) / 2) := by
      by_cases e : ntaps = synctaps
      · subst e; simp
      · rw [if_pos e]
    simp only [hs] at ha
    split at ha
    · cases ha
    · rename_i m hm
      simp only [Except.ok.injEq] at ha
      have : m ∈ shifts.map (· - ((ntaps : Int) - synctaps) / 2) := (List.min?_eq_some_iff.1 hm).1
      obtain ⟨x, hx, rfl⟩ := List.mem_map.1 this
      have := hpos x hx
      rw [if_neg (by omega)] at ha
      exact ha.symm
  constructor
  · rw [h1, h2, List.map_map]
    apply List.map_congr_left
    intro x _
    simp only [Function.comp_apply]
    ring
  · intro row m t hm hL
    have ht0 : 0 ≤ t := by
      have := List.mem_of_getElem? hm
      rw [h1] at this
      obtain ⟨x, hx, rfl⟩ := List.mem_map.1 this
      have := hpos x hx
      have h3 : (0 : Int) ≤ os * fl * k := by positivity
      omega
    obtain ⟨a, rfl⟩ := Int.eq_ofNat_of_zero_le ht0
    rw [trainSlice, Int.toNat_natCast]
    apply slice_eq_window
    · push_cast at hL; omega
    · rw [Nat.cast_sub (by omega)]; push_cast; ring

example : ∃ st sa, eqShifts [3, 4] 1000 2 10 21 17 5 = .ok st ∧ pilotShifts [3, 4] 21 17 (2 * 10) = .ok sa ∧ st = [101, 102] ∧ sa = [1, 2] :=
  ⟨_, _, rfl, rfl, by decide, by decide⟩

/-! ### C70 -/

/-- C70, the full property: sample `j` of an oversampled signal of `nframe` frames is marked iff its symbol is a pilot. -/
def C70_statement : Prop := ∀ (nframe fl os seqLen rat : Nat), 1 ≤ os → 1 ≤ rat → seqLen ≤ fl →
  findPilotIdx nframe fl os seqLen rat = (List.range (fl * nframe * os)).map fun j => !isData seqLen rat (j / os % fl)

/-- Without oversampling the symbol after each phase pilot is marked as well. -/
theorem C70_false : ¬ C70_statement := by
  intro h
  have := h 1 6 1 2 4 (by omega) (by omega) (by omega)
  revert this
  decide

/-- With an oversampling of four only half of the samples of the phase pilots are marked. -/
theorem C70_false_four : findPilotIdx 1 4 4 1 3 ≠ (List.range (4 * 1 * 4)).map fun j => !isData 1 3 (j / 4 % 4) := by decide

/-- C70 for two samples per symbol. -/
theorem C70_two_partial (nframe fl seqLen rat : Nat) (hr : 1 ≤ rat) (hs : seqLen ≤ fl) :
    findPilotIdx nframe fl 2 seqLen rat = (List.range (fl * nframe * 2)).map fun j => !isData seqLen rat (j / 2 % fl) := by
  unfold findPilotIdx
  apply List.map_congr_left
  intro j hj
  have hj' := List.mem_range.1 hj
  have hfl : 0 < fl := by
    rcases Nat.eq_zero_or_pos fl with h | h
    · subst h; simp at hj'
    · exact h
  obtain ⟨i, q, b, hq, hb, hjq⟩ : ∃ i q b, q < fl ∧ b < 2 ∧ j = (i * fl + q) * 2 + b :=
    ⟨j / 2 / fl, j / 2 % fl, j % 2, Nat.mod_lt _ hfl, Nat.mod_lt _ (by omega), by
      have h1 := Nat.div_add_mod j 2
      have h2 := Nat.div_add_mod (j / 2) fl
      rw [mul_comm fl] at h2
      omega⟩
  have hi : i < nframe := by
    by_contra hcon
    have : nframe * fl ≤ i * fl := Nat.mul_le_mul_right _ (by omega)
    rw [mul_comm fl] at hj'
    omega
  have hdiv : j / 2 % fl = q := by
    rw [hjq, show ((i * fl + q) * 2 + b) / 2 = q + fl * i by rw [mul_comm fl]; omega, Nat.add_mul_mod_self_left, Nat.mod_eq_of_lt hq]
  rw [hdiv]
  have key : ∀ k : Nat, k < nframe →
      ((let t : Int := fl * (2 : Nat) * k
        let d : Int := j - seqLen * (2 : Nat) - t
        (decide (t ≤ j) && decide ((j : Int) < t + seqLen * (2 : Nat))) ||
          ((decide (npIMod d (rat * (2 : Nat)) = 0) || decide (npIMod d (rat * (2 : Nat)) = 1)) && decide (0 ≤ d) &&
            decide ((j : Int) < t + fl * (2 : Nat)))) = true ↔
        k = i ∧ isData seqLen rat q = false) := by
    intro k _
    simp only [Bool.or_eq_true, Bool.and_eq_true, decide_eq_true_eq, isData, decide_eq_false_iff_not]
    have hki : ∀ h1 : (fl : Int) * (2 : Nat) * k ≤ j, ∀ h2 : (j : Int) < fl * (2 : Nat) * k + fl * (2 : Nat), k = i := by
      intro h1 h2
      rcases lt_trichotomy k i with h | h | h
      · exfalso
        have : (k + 1) * fl ≤ i * fl := Nat.mul_le_mul_right _ h
        have e : (fl : Int) * (2 : Nat) * k + fl * (2 : Nat) = (((k + 1) * fl * 2 : Nat) : Int) := by push_cast; ring
        rw [e] at h2
        have h2' : j < (k + 1) * fl * 2 := by exact_mod_cast h2
        omega
      · exact h
      · exfalso
        have : (i + 1) * fl ≤ k * fl := Nat.mul_le_mul_right _ h
        rw [Nat.add_mul, one_mul] at this
        have e : (fl : Int) * (2 : Nat) * k = ((k * fl * 2 : Nat) : Int) := by push_cast; ring
        rw [e] at h1
        have h1' : k * fl * 2 ≤ j := by exact_mod_cast h1
        omega
    have hs2 : (seqLen : Int) * (2 : Nat) ≤ fl * (2 : Nat) := by push_cast; omega
    have hmod : ∀ x : Nat, (npIMod (x : Int) (rat * (2 : Nat)) = 0 ∨ npIMod (x : Int) (rat * (2 : Nat)) = 1) ↔ rat ∣ x / 2 := by
      intro x
      rw [npIMod, if_neg (by push_cast; omega), Int.fmod_eq_emod_of_nonneg _ (by positivity),
        show ((rat : Int) * (2 : Nat)) = ((rat * 2 : Nat) : Int) by push_cast; rfl, ← Int.natCast_emod]
      have h0 : x % (rat * 2) = 0 ∨ x % (rat * 2) = 1 ↔ x / 2 % rat = 0 := by
        rw [mul_comm rat 2, Nat.mod_mul]
        have := Nat.mod_lt x (show 0 < 2 by omega)
        omega
      rw [Nat.dvd_iff_mod_eq_zero, ← h0]
      norm_cast
    have hje : (j : Int) - seqLen * (2 : Nat) - fl * (2 : Nat) * i = ((2 * q + b : Nat) : Int) - ((2 * seqLen : Nat) : Int) := by
      rw [hjq]; push_cast; ring
    have hti : (fl : Int) * (2 : Nat) * i ≤ j := by rw [hjq]; push_cast; nlinarith
    constructor
    · rintro (⟨h1, h2⟩ | ⟨⟨h1, h2⟩, h3⟩)
      · have hk := hki h1 (by omega)
        subst hk
        refine ⟨rfl, ?_⟩
        rintro ⟨h4, -⟩
        omega
      · have hk := hki (by omega) h3
        subst hk
        refine ⟨rfl, ?_⟩
        rintro ⟨h4, h5⟩
        rw [hje] at h1
        have e : ((2 * q + b : Nat) : Int) - ((2 * seqLen : Nat) : Int) = ((2 * (q - seqLen) + b : Nat) : Int) := by omega
        rw [e, hmod] at h1
        rw [show (2 * (q - seqLen) + b) / 2 = q - seqLen by omega] at h1
        rcases h5 with h5 | h5
        · omega
        · exact h5 h1
    · rintro ⟨rfl, h⟩
      by_cases hq2 : seqLen ≤ q
      · right
        rw [hje]
        have e : ((2 * q + b : Nat) : Int) - ((2 * seqLen : Nat) : Int) = ((2 * (q - seqLen) + b : Nat) : Int) := by omega
        refine ⟨⟨?_, by omega⟩, by omega⟩
        rw [e, hmod, show (2 * (q - seqLen) + b) / 2 = q - seqLen by omega]
        by_contra hd
        exact h ⟨hq2, Or.inr hd⟩
      · left
        refine ⟨hti, ?_⟩
        omega
  by_cases hd : isData seqLen rat q = false
  · rw [hd]
    simp only [Bool.not_false]
    rw [List.any_eq_true]
    exact ⟨i, List.mem_range.2 hi, (key i hi).2 ⟨rfl, hd⟩⟩
  · rw [Bool.not_eq_false] at hd
    rw [hd]
    simp only [Bool.not_true]
    rw [List.any_eq_false]
    intro k hk hcon
    have := (key k (List.mem_range.1 hk)).1 hcon
    rw [hd] at this
    exact absurd this.2 (by simp)

example : findPilotIdx 2 5 2 1 2 = [true, true, true, true, false, false, true, true, false, false,
    true, true, true, true, false, false, true, true, false, false] := by decide

end Qampy
