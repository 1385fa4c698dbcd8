import Verif.Model.DspCython
import Verif.Tactics

/-!
C229: `unwrap_discont`.
-/

namespace Qampy

/-- The full claim: a sequence with steps of at most `max_diff`, reduced to an interval of one period, is recovered up to its first value's multiple of the period. -/
def C229_statement : Prop :=
  ∀ (maxDiff period a : ℝ) (n : Nat) (p : Fin (n + 1) → ℝ) (w : Fin (n + 1) → Int), 0 < maxDiff → 2 * maxDiff < period →
    (∀ i : Fin n, |p i.succ - p i.castSucc| ≤ maxDiff) → (∀ i, a ≤ p i - period * w i ∧ p i - period * w i < a + period) →
    unwrapDiscont maxDiff period (List.ofFn fun i => p i - period * w i) = some (List.ofFn fun i => p i - period * w 0)

/-- C229, without jumps: a sequence with steps of at most `max_diff` is not changed. -/
theorem C229_smooth {maxDiff period : ℝ} (hp : maxDiff ≤ period) (x : ℝ) (l : List ℝ) (h : List.IsChain (fun a b => |b - a| ≤ maxDiff) (x :: l)) :
    unwrapDiscont maxDiff period (x :: l) = some (x :: l) := by
  have key : ∀ (l : List ℝ) (x : ℝ), List.IsChain (fun a b => |b - a| ≤ maxDiff) (x :: l) → unwrapDiscontGo maxDiff period x 0 l = l := by
    intro l
    induction l with
    | nil => intro x _; rfl
    | cons y l ih =>
      intro x h
      rw [List.isChain_cons_cons] at h
      obtain ⟨h1, h2⟩ := abs_le.1 h.1
      rw [unwrapDiscontGo]
      rw [if_neg (by linarith), if_neg (by linarith), if_neg (by linarith), if_neg (by linarith)]
      simp only [Int.cast_zero, mul_zero, add_zero]
      rw [ih y h.2]
  change some (x :: unwrapDiscontGo maxDiff period x 0 l) = _
  rw [key l x h]

/-- C229: every value of the result is the value before it or the value of the sequence up to a multiple of the period. -/
theorem C229_values (maxDiff period : ℝ) (x : ℝ) (l : List ℝ) :
    ∃ out, unwrapDiscont maxDiff period (x :: l) = some out ∧ out.length = l.length + 1 ∧ out[0]? = some x ∧
      ∀ i < l.length, ∃ y z : ℝ, out[i + 1]? = some y ∧ l[i]? = some z ∧ (out[i]? = some y ∨ ∃ n : Int, y = z + period * n) := by
  have key : ∀ (l : List ℝ) (x : ℝ) (n : Int), (unwrapDiscontGo maxDiff period x n l).length = l.length ∧
      ∀ i < l.length, ∃ y z : ℝ, (x :: unwrapDiscontGo maxDiff period x n l)[i + 1]? = some y ∧ l[i]? = some z ∧
        ((x :: unwrapDiscontGo maxDiff period x n l)[i]? = some y ∨ ∃ n : Int, y = z + period * n) := by
    intro l
    induction l with
    | nil => intro x n; simp [unwrapDiscontGo]
    | cons y l ih =>
      intro x n
      obtain ⟨r, m, h1, h2⟩ : ∃ (r : ℝ) (m : Int), unwrapDiscontGo maxDiff period x n (y :: l) = r :: unwrapDiscontGo maxDiff period r m l ∧
          (r = x ∨ ∃ n : Int, r = y + period * n) := by
        rw [unwrapDiscontGo]
        split_ifs
        · exact ⟨_, _, rfl, Or.inr ⟨_, rfl⟩⟩
        · exact ⟨_, _, rfl, Or.inl rfl⟩
        · exact ⟨_, _, rfl, Or.inr ⟨_, rfl⟩⟩
        · exact ⟨_, _, rfl, Or.inl rfl⟩
        · exact ⟨_, _, rfl, Or.inr ⟨_, rfl⟩⟩
      obtain ⟨i1, i2⟩ := ih r m
      rw [h1]
      refine ⟨by simp [i1], fun i hi => ?_⟩
      cases i with
      | zero =>
        refine ⟨r, y, by simp, by simp, ?_⟩
        rcases h2 with h2 | h2
        · left; simp [h2]
        · exact Or.inr h2
      | succ i =>
        obtain ⟨v, z, a1, a2, a3⟩ := i2 i (by simpa using hi)
        exact ⟨v, z, by simpa using a1, by simpa using a2, by simpa using a3⟩
  obtain ⟨h1, h2⟩ := key l x 0
  exact ⟨_, rfl, by simp [h1], rfl, h2⟩

/-- C229: a sequence inside of one period is never unwrapped, whatever its jumps: every value of the result is a value of the sequence. -/
theorem C229_never {maxDiff period a : ℝ} (x : ℝ) (l : List ℝ) (h : ∀ v ∈ x :: l, a ≤ v ∧ v ≤ a + period) :
    ∃ out, unwrapDiscont maxDiff period (x :: l) = some out ∧ ∀ v ∈ out, v ∈ x :: l := by
  have key : ∀ (l : List ℝ) (x : ℝ), (a ≤ x ∧ x ≤ a + period) → (∀ v ∈ l, a ≤ v ∧ v ≤ a + period) → ∀ v ∈ unwrapDiscontGo maxDiff period x 0 l, v ∈ x :: l := by
    intro l
    induction l with
    | nil => intro x _ _ v hv; simp [unwrapDiscontGo] at hv
    | cons y l ih =>
      intro x hx hl v hv
      obtain ⟨y1, y2⟩ := hl y (by simp)
      have hl' : ∀ v ∈ l, a ≤ v ∧ v ≤ a + period := fun v hv => hl v (by simp [hv])
      rw [unwrapDiscontGo] at hv
      rw [if_neg (by linarith)] at hv
      simp only [Int.cast_zero, mul_zero, add_zero] at hv
      split_ifs at hv
      · rcases List.mem_cons.1 hv with rfl | hv
        · simp
        · have := ih x hx hl' v hv
          simp only [List.mem_cons] at this ⊢
          tauto
      · linarith
      · rcases List.mem_cons.1 hv with rfl | hv
        · simp
        · have := ih x hx hl' v hv
          simp only [List.mem_cons] at this ⊢
          tauto
      · rcases List.mem_cons.1 hv with rfl | hv
        · simp
        · exact List.mem_cons_of_mem _ (ih y ⟨y1, y2⟩ hl' v hv)
  refine ⟨_, rfl, fun v hv => ?_⟩
  rcases List.mem_cons.1 hv with rfl | hv
  · simp
  · exact key l x (h x (by simp)) (fun v hv => h v (by simp [hv])) v hv

/-- C229 fails at the first wrap: the value before it is repeated. -/
theorem C229_false : ¬ C229_statement := by
  intro H
  have := H (1 / 4) 1 0 1 ![9 / 10, 11 / 10] ![0, 1] (by norm_num) (by norm_num)
    (by intro i; fin_cases i; norm_num [abs_le]) (by intro i; fin_cases i <;> norm_num)
  norm_num [List.ofFn_succ, unwrapDiscont, unwrapDiscontGo] at this

/-- C229, what is unwrapped: after the first jump by more than a period upwards the value is moved down by one period, and a constant continuation is then held there. -/
theorem C229_jump {maxDiff period : ℝ} (hp : maxDiff < period) (x y : ℝ) (h : period < y - x) (n : Nat) :
    unwrapDiscont maxDiff period (x :: y :: List.replicate n y) = some (x :: List.replicate (n + 1) (y - period)) := by
  have key : ∀ n : Nat, unwrapDiscontGo maxDiff period (y - period) (-1) (List.replicate n y) = List.replicate n (y - period) := by
    intro n
    induction n with
    | zero => rfl
    | succ n ih =>
      rw [List.replicate_succ, unwrapDiscontGo]
      rw [if_neg (by linarith), if_pos (by linarith), ih, ← List.replicate_succ]
  change some (x :: unwrapDiscontGo maxDiff period x 0 (y :: List.replicate n y)) = _
  rw [unwrapDiscontGo]
  rw [if_pos h]
  simp only [zero_sub, Int.cast_neg, Int.cast_one, mul_neg, mul_one]
  rw [← sub_eq_add_neg, key n, List.replicate_succ]

example : List.IsChain (fun a b => |b - a| ≤ (1 / 2 : ℝ)) [0, 1 / 2, 1 / 4, 3 / 4] := by
  simp only [List.isChain_cons_cons]
  norm_num [abs_le]

/-- **C229** Jumps up and down are treated alike: the mirrored sequence gives the mirrored result. -/
theorem C229_mirror (maxDiff period : ℝ) (hm : 0 ≤ maxDiff) (hp : 0 ≤ period) (l : List ℝ) :
    unwrapDiscont maxDiff period (l.map fun v => -v) = (unwrapDiscont maxDiff period l).map fun r => r.map fun v => -v := by
  have key : ∀ (l : List ℝ) (x : ℝ) (n : Int), unwrapDiscontGo maxDiff period (-x) (-n) (l.map fun v => -v) = (unwrapDiscontGo maxDiff period x n l).map fun v => -v := by
    intro l
    induction l with
    | nil => intro x n; simp [unwrapDiscontGo]
    | cons y l ih =>
      intro x n
      rw [List.map_cons, unwrapDiscontGo, unwrapDiscontGo]
      have e1 : -y + period * ((-(n + 1) : Int) : ℝ) = -(y + period * ((n + 1 : Int) : ℝ)) := by push_cast; ring
      have e2 : -y + period * ((-(n - 1) : Int) : ℝ) = -(y + period * ((n - 1 : Int) : ℝ)) := by push_cast; ring
      have e3 : -y + period * ((-n : Int) : ℝ) = -(y + period * (n : ℝ)) := by push_cast; ring
      have n1 : -n - 1 = -(n + 1) := by ring
      have n2 : -n + 1 = -(n - 1) := by ring
      have d : -y - -x = -(y - x) := by ring
      simp only [n1, n2, e1, e2, e3, d]
      obtain ⟨t, ht⟩ : ∃ t, t = y - x := ⟨_, rfl⟩
      rw [← ht]
      by_cases h1 : period < t
      · rw [if_pos h1, if_neg (by linarith), if_neg (by linarith), if_pos (by linarith), List.map_cons, ih]
      by_cases h3 : t < -period
      · rw [if_pos (by linarith), if_neg h1, if_neg (by linarith), if_pos h3, List.map_cons, ih]
      by_cases h2 : maxDiff < t
      · rw [if_neg (by linarith), if_neg (by linarith), if_neg (by linarith), if_pos (by linarith), if_neg h1, if_pos h2, List.map_cons, ih]
      by_cases h4 : t < -maxDiff
      · rw [if_neg (by linarith), if_pos (by linarith), if_neg h1, if_neg h2, if_neg h3, if_pos h4, List.map_cons, ih]
      · rw [if_neg (by linarith), if_neg (by linarith), if_neg (by linarith), if_neg (by linarith), if_neg h1, if_neg h2, if_neg h3, if_neg h4, List.map_cons, ih]
  cases l with
  | nil => rfl
  | cons x l =>
    have := key l x 0
    rw [neg_zero] at this
    change some (-x :: unwrapDiscontGo maxDiff period (-x) 0 (l.map fun v => -v)) = some ((x :: unwrapDiscontGo maxDiff period x 0 l).map fun v => -v)
    rw [this, List.map_cons]

/-- **C229** After a jump by more than the period the sequence goes on one period lower, as long as it stays in steps of at most `maxDiff` from there. -/
theorem C229_wrap (maxDiff period x y : ℝ) (l : List ℝ) (hmp : maxDiff ≤ period) (hj : period < y - x)
    (hs : List.IsChain (fun a b => |b - (a - period)| ≤ maxDiff) (y :: l)) :
    unwrapDiscont maxDiff period (x :: y :: l) = some (x :: (y :: l).map fun v => v - period) := by
  have key : ∀ (l : List ℝ) (y : ℝ), List.IsChain (fun a b => |b - (a - period)| ≤ maxDiff) (y :: l) → unwrapDiscontGo maxDiff period (y - period) (-1) l = l.map fun v => v - period := by
    intro l
    induction l with
    | nil => intro y _; simp [unwrapDiscontGo]
    | cons z l ih =>
      intro y h
      rw [List.isChain_cons_cons] at h
      obtain ⟨h1, h2⟩ := abs_le.1 h.1
      rw [unwrapDiscontGo]
      have e : z + period * ((-1 : Int) : ℝ) = z - period := by push_cast; ring
      rw [e, if_neg (by linarith), if_neg (by linarith), if_neg (by linarith), if_neg (by linarith), ih z h.2, List.map_cons]
  change some (x :: unwrapDiscontGo maxDiff period x 0 (y :: l)) = _
  rw [unwrapDiscontGo, if_pos hj]
  have e : y + period * ((0 - 1 : Int) : ℝ) = y - period := by push_cast; ring
  rw [e, zero_sub, key l y hs, List.map_cons]

/-- A sequence that jumps up by 7 with period 6: it goes on one period lower; mirrored it goes on one period higher. -/
example : unwrapDiscont 6 6 [0, 7, 6, 5] = some [0, 1, 0, -1] ∧ unwrapDiscont 6 6 [0, -7, -6, -5] = some [0, -1, 0, 1] := by
  have h := C229_wrap 6 6 0 7 [6, 5] (by norm_num) (by norm_num) (by norm_num [List.isChain_cons_cons])
  norm_num at h
  have m := C229_mirror 6 6 (by norm_num) (by norm_num) [0, 7, 6, 5]
  rw [h] at m
  norm_num at m
  exact ⟨h, m⟩

end Qampy
