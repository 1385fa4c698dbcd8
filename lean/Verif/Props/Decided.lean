import Verif.Model.Decided
import Verif.Props.GrayRate

/-!
# Decisions and demodulation of signal objects: C221
-/

namespace Qampy

theorem makeDecision_eq {coded : List ℂ} (hne : coded ≠ []) (row : List ℂ) : ∃ d, makeDecision row coded = some d ∧ d.map (·.2.2) = row.map (decIdx coded) ∧
    d.map (·.1) = row.map fun y => coded.getD (decIdx coded y) 0 := by
  induction row with
  | nil => exact ⟨[], rfl, rfl, rfl⟩
  | cons y row ih =>
    obtain ⟨d, h1, h2, h3⟩ := ih
    obtain ⟨r, g1, g2, g3⟩ := decIdx_spec hne y
    refine ⟨r :: d, ?_, ?_, ?_⟩
    · unfold makeDecision at h1 ⊢
      rw [List.mapM_cons, g1, h1]
      rfl
    · rw [List.map_cons, List.map_cons, h2, g2]
    · rw [List.map_cons, List.map_cons, h3, List.getD_eq_getElem?_getD, g3]
      rfl

theorem decideRow_eq {coded : List ℂ} (hne : coded ≠ []) (row : List ℂ) : ∃ dist, decideRow coded row = some (row.map fun y => coded.getD (decIdx coded y) 0, dist, row.map fun y => decIdx coded y % 2 ^ 16) := by
  obtain ⟨d, h1, h2, h3⟩ := makeDecision_eq hne row
  refine ⟨d.map (·.2.1), ?_⟩
  unfold decideRow
  rw [h1, Option.map_some, h3]
  have : (d.map fun x => x.2.2 % 2 ^ 16) = (d.map (·.2.2)).map (· % 2 ^ 16) := by rw [List.map_map]; rfl
  rw [this, h2, List.map_map]
  rfl

theorem demodulateObj_eq {coded : List ℂ} (hne : coded ≠ []) (k : Nat) (sig : List (List ℂ)) :
    demodulateObj k coded sig = some (sig.map fun row => demodulateIdx k (row.map fun y => decIdx coded y % 2 ^ 16)) := by
  have h : ∃ rows, decideObj coded sig = some rows ∧ (rows.map fun r => demodulateIdx k r.2.2) = sig.map fun row => demodulateIdx k (row.map fun y => decIdx coded y % 2 ^ 16) := by
    unfold decideObj
    induction sig with
    | nil => exact ⟨[], rfl, rfl⟩
    | cons row sig ih =>
      obtain ⟨rows, h1, h2⟩ := ih
      obtain ⟨dist, h3⟩ := decideRow_eq hne row
      refine ⟨(row.map fun y => coded.getD (decIdx coded y) 0, dist, row.map fun y => decIdx coded y % 2 ^ 16) :: rows, ?_, ?_⟩
      · rw [List.mapM_cons, h3, h1]
        rfl
      · rw [List.map_cons, List.map_cons, h2]
  obtain ⟨rows, h1, h2⟩ := h
  unfold demodulateObj
  rw [h1, Option.map_some, h2]

theorem decIdx_lt {coded : List ℂ} (hne : coded ≠ []) (y : ℂ) : decIdx coded y < coded.length := by
  obtain ⟨r, -, -, h⟩ := decIdx_spec hne y
  exact (List.getElem?_eq_some_iff.1 h).1

theorem demodulateIdx_rows (k : Nat) (idx : List Nat) (h : ∀ i ∈ idx, i < 2 ^ k) : demodulateIdx k idx = (idx.map (encodingRow k)).flatten := by
  unfold demodulateIdx
  rw [gather_encoding k idx h]

/-- C221: up to 65536 symbols the demodulation of a signal is the demodulation of each mode with the index of the nearest symbol, so that the
results for single modes apply to signal objects. -/
theorem C221_small (k : Nat) (coded : List ℂ) (hne : coded ≠ []) (hs : coded.length ≤ 65536) (sig : List (List ℂ)) :
    demodulateObj k coded sig = sig.mapM (demodulate k coded) ∧
    ∃ rows, decideObj coded sig = some rows ∧ ∀ (i : Nat) (row : List ℂ) (r : List ℂ × List ℝ × List Nat), sig[i]? = some row → rows[i]? = some r →
      r.1.length = row.length ∧ r.2.2.length = row.length ∧ ∀ (n j : Nat), r.2.2[n]? = some j → coded[j]? = r.1[n]? := by
  have hmod : ∀ y, decIdx coded y % 2 ^ 16 = decIdx coded y := fun y => Nat.mod_eq_of_lt (lt_of_lt_of_le (decIdx_lt hne y) hs)
  constructor
  · rw [demodulateObj_eq hne]
    symm
    rw [mapM_eq_some_iff, List.map_map]
    apply List.map_congr_left
    intro row _
    obtain ⟨d, h1, h2, -⟩ := makeDecision_eq hne row
    unfold demodulate
    rw [h1, Option.map_some, h2]
    simp only [Function.comp_apply, hmod]
  · have h : ∃ rows, decideObj coded sig = some rows ∧ rows.map some = sig.map (decideRow coded) := by
      unfold decideObj
      have : ∃ rows, sig.mapM (decideRow coded) = some rows := by
        induction sig with
        | nil => exact ⟨[], rfl⟩
        | cons row sig ih =>
          obtain ⟨rows, h1⟩ := ih
          obtain ⟨dist, h3⟩ := decideRow_eq hne row
          exact ⟨_ :: rows, by rw [List.mapM_cons, h3, h1]; rfl⟩
      obtain ⟨rows, h1⟩ := this
      exact ⟨rows, h1, ((mapM_eq_some_iff _ _ _).1 h1).symm⟩
    obtain ⟨rows, h1, h2⟩ := h
    refine ⟨rows, h1, ?_⟩
    intro i row r hi hr
    have h3 : (rows.map some)[i]? = (sig.map (decideRow coded))[i]? := by rw [h2]
    rw [List.getElem?_map, List.getElem?_map, hi, hr] at h3
    obtain ⟨dist, h4⟩ := decideRow_eq hne row
    have h5 : r = (row.map fun y => coded.getD (decIdx coded y) 0, dist, row.map fun y => decIdx coded y % 2 ^ 16) := by
      have : some (some r) = some (decideRow coded row) := h3
      rw [h4] at this
      exact Option.some.inj (Option.some.inj this)
    subst h5
    refine ⟨by simp, by simp, ?_⟩
    intro n j hj
    dsimp only at hj ⊢
    rw [List.getElem?_map] at hj ⊢
    cases hn : row[n]? with
    | none => rw [hn] at hj; cases hj
    | some y =>
      rw [hn] at hj
      have e : decIdx coded y = j := by rw [← hmod y]; exact Option.some.inj hj
      rw [Option.map_some, e, List.getD_eq_getElem?_getD]
      have : j < coded.length := e ▸ decIdx_lt hne y
      rw [List.getElem?_eq_getElem this]
      rfl

/-- C221: deciding a second time changes nothing, neither symbols nor bits, for any number of symbols. -/
theorem C221_again (k : Nat) (coded : List ℂ) (hne : coded ≠ []) (sig : List (List ℂ)) :
    ∃ rows, decideObj coded sig = some rows ∧ (decideObj coded (rows.map (·.1))).map (fun r => r.map (·.1)) = some (rows.map (·.1)) ∧
      demodulateObj k coded (rows.map (·.1)) = demodulateObj k coded sig := by
  have hd : ∀ y, decIdx coded (coded.getD (decIdx coded y) 0) = decIdx coded y := by
    intro y
    obtain ⟨s, h1, h2, h3⟩ := (decIdx_eq_iff hne y _).1 rfl
    rw [List.getD_eq_getElem?_getD, h1, Option.getD_some, decIdx_eq_iff hne]
    refine ⟨s, h1, fun s' _ => by simp, ?_⟩
    intro i hi s' hs'
    rw [sub_self, norm_zero, norm_pos_iff, sub_ne_zero]
    rintro rfl
    exact lt_irrefl _ (h3 i hi _ hs')
  have key : ∀ sig : List (List ℂ), ∃ rows, decideObj coded sig = some rows ∧ rows.map (·.1) = sig.map fun row => row.map fun y => coded.getD (decIdx coded y) 0 := by
    intro sig
    unfold decideObj
    induction sig with
    | nil => exact ⟨[], rfl, rfl⟩
    | cons row sig ih =>
      obtain ⟨rows, h1, h2⟩ := ih
      obtain ⟨dist, h3⟩ := decideRow_eq hne row
      refine ⟨_ :: rows, by rw [List.mapM_cons, h3, h1]; rfl, ?_⟩
      rw [List.map_cons, List.map_cons, h2]
  obtain ⟨rows, h1, h2⟩ := key sig
  refine ⟨rows, h1, ?_, ?_⟩
  · obtain ⟨rows', g1, g2⟩ := key (rows.map (·.1))
    rw [g1, Option.map_some, g2, h2, List.map_map]
    congr 1
    apply List.map_congr_left
    intro row _
    rw [Function.comp_apply, List.map_map]
    apply List.map_congr_left
    intro y _
    simp only [Function.comp_apply, hd]
  · rw [demodulateObj_eq hne, demodulateObj_eq hne, h2, List.map_map]
    congr 1
    apply List.map_congr_left
    intro row _
    simp only [Function.comp_apply, List.map_map]
    congr 1
    apply List.map_congr_left
    intro y _
    simp only [Function.comp_apply, hd]

theorem encodingRow_top (k i b : Nat) (hi : i < 2 ^ 16) (hb : b + 16 < k) : (encodingRow k i)[b]? = some false := by
  rw [encodingRow_getElem? _ _ _ (by omega)]
  congr 1
  apply Nat.testBit_lt_two_pow
  exact lt_of_lt_of_le hi (Nat.pow_le_pow_right (by norm_num) (by omega))

theorem flatten_rows_get {α : Type} (k : Nat) : ∀ (rows : List (List α)), (∀ r ∈ rows, r.length = k) → ∀ (n b : Nat), b < k → rows.flatten[n * k + b]? = (rows[n]?).bind (·[b]?)
  | [], _, n, b, _ => by simp
  | r :: rows, h, 0, b, hb => by
    rw [List.flatten_cons, Nat.zero_mul, Nat.zero_add, List.getElem?_append_left (by rw [h r (by simp)]; exact hb)]
    rfl
  | r :: rows, h, n + 1, b, hb => by
    have hr := h r (by simp)
    have e : (n + 1) * k + b = n * k + b + r.length := by rw [hr]; ring
    rw [List.flatten_cons, e, List.getElem?_append_right (by omega), Nat.add_sub_cancel, flatten_rows_get k rows (fun r hr => h r (by simp [hr])) n b hb]
    rfl

/-- C221: with more than 65536 symbols, the first `k - 16` bits of every symbol are demodulated as zero, whatever was received. -/
theorem C221_top_bits (k : Nat) (hk : 16 < k) (coded : List ℂ) (hlen : coded.length = 2 ^ k) (sig : List (List ℂ)) :
    ∃ rows, demodulateObj k coded sig = some rows ∧ ∀ (i n b : Nat) (row : List ℂ) (bits : List Bool), sig[i]? = some row → rows[i]? = some bits → n < row.length → b + 16 < k →
      bits[n * k + b]? = some false := by
  have hne : coded ≠ [] := by
    rintro rfl
    have := Nat.two_pow_pos k
    simp at hlen
    omega
  refine ⟨_, demodulateObj_eq hne k sig, ?_⟩
  intro i n b row bits hi hb hn hbk
  rw [List.getElem?_map, hi, Option.map_some] at hb
  rw [← Option.some.inj hb, demodulateIdx_rows, flatten_rows_get k _ _ n b (by omega)]
  · rw [List.getElem?_map, List.getElem?_map, List.getElem?_eq_getElem hn]
    exact encodingRow_top k _ b (Nat.mod_lt _ (by norm_num)) hbk
  · intro r hr
    obtain ⟨j, -, rfl⟩ := List.mem_map.1 hr
    exact length_encodingRow k j
  · intro j hj
    obtain ⟨y, -, rfl⟩ := List.mem_map.1 hj
    exact lt_of_lt_of_le (Nat.mod_lt _ (by norm_num)) (Nat.pow_le_pow_right (by norm_num) hk.le)

/-- The demodulation of the object inverts its modulation. -/
def C221_statement : Prop := ∀ (k : Nat) (scale : ℝ) (bits : List Bool), 1 ≤ k → scale ≠ 0 →
  demodulateObj k (qamCodedSymbols k scale) [modulate k (qamCodedSymbols k scale) bits] = some [bits.take (bits.length / k * k)]

/-- C221: the bits of a QAM signal with at most 65536 symbols are recovered. -/
theorem C221_roundtrip_partial (k : Nat) (hk : k ≤ 16) (scale : ℝ) (hs : scale ≠ 0) (bits : List Bool) :
    demodulateObj k (qamCodedSymbols k scale) [modulate k (qamCodedSymbols k scale) bits] = some [bits.take (bits.length / k * k)] := by
  have hl := length_qamCoded k scale
  have hne : qamCodedSymbols k scale ≠ [] := by
    intro h
    rw [h] at hl
    have := Nat.two_pow_pos k
    simp at hl
    omega
  have hle : (qamCodedSymbols k scale).length ≤ 65536 := by
    rw [hl]
    exact (Nat.pow_le_pow_right (by norm_num) hk).trans (by norm_num)
  rw [(C221_small k _ hne hle _).1, List.mapM_cons, C15_qam k scale hs bits]
  rfl

/-- C221: for every larger order, a symbol whose first bit is one is not recovered. -/
theorem C221_fails (k : Nat) (hk : 16 < k) (scale : ℝ) (bits : List Bool) (hb : bits.length = k) (h1 : bits[0]? = some true) :
    ∃ out, demodulateObj k (qamCodedSymbols k scale) [modulate k (qamCodedSymbols k scale) bits] = some [out] ∧ out.length = k ∧ out ≠ bits := by
  have hl := length_qamCoded k scale
  obtain ⟨h3, h4⟩ := chunks_spec k (bits.length / k) bits (Nat.div_mul_le_self _ _)
  have hk0 : 0 < k := by omega
  have hm : (modulate k (qamCodedSymbols k scale) bits).length = 1 := by
    have hc : chunks k (bits.length / k) bits = [bits] := by
      rw [hb, Nat.div_self hk0]
      simp [chunks, ← hb]
    unfold modulate
    rw [hc]
    have : bitsToIdx bits < (qamCodedSymbols k scale).length := by
      rw [hl, ← hb]
      exact bitsToIdx_lt bits
    simp [gather, List.getElem?_eq_getElem this]
  obtain ⟨rows, g1, g2⟩ := C221_top_bits k hk _ hl [modulate k (qamCodedSymbols k scale) bits]
  have hne : qamCodedSymbols k scale ≠ [] := by
    intro h
    rw [h] at hl
    have := Nat.two_pow_pos k
    simp at hl
    omega
  have g3 := demodulateObj_eq hne k [modulate k (qamCodedSymbols k scale) bits]
  rw [List.map_cons, List.map_nil] at g3
  refine ⟨_, g3, ?_, ?_⟩
  · rw [demodulateIdx_rows]
    · obtain ⟨y, hy⟩ := List.length_eq_one_iff.1 hm
      rw [hy]
      simp [length_encodingRow]
    · intro j hj
      obtain ⟨y, -, rfl⟩ := List.mem_map.1 hj
      exact lt_of_lt_of_le (Nat.mod_lt _ (by norm_num)) (Nat.pow_le_pow_right (by norm_num) hk.le)
  · intro h
    rw [g3] at g1
    have := g2 0 0 0 _ _ rfl (by rw [← Option.some.inj g1]; rfl) (by omega) (by omega)
    rw [h, Nat.zero_mul, h1] at this
    cases this

theorem C221_false : ¬ C221_statement := by
  intro h
  have h1 := h 18 1 (List.replicate 18 true) (by norm_num) one_ne_zero
  obtain ⟨out, h2, -, h3⟩ := C221_fails 18 (by norm_num) 1 (List.replicate 18 true) (by simp) (by simp)
  rw [h2] at h1
  apply h3
  simpa using h1

/-- C221: `cal_ber` of such a signal never exceeds `16 / k`. -/
theorem C221_ber (k : Nat) (hk : 16 < k) (coded : List ℂ) (hlen : coded.length = 2 ^ k) (rx tx : List ℂ) (hl : rx.length = tx.length) (hr : rx ≠ []) :
    ∃ ber, calBerObj k coded rx tx = some ber ∧ ber ≤ 16 / k := by
  have hne : coded ≠ [] := by
    rintro rfl
    have := Nat.two_pow_pos k
    simp at hlen
    omega
  have hk0 : (0 : ℚ) < k := by exact_mod_cast (by omega : 0 < k)
  unfold calBerObj
  rw [demodulateObj_eq hne, demodulateObj_eq hne]
  refine ⟨_, rfl, ?_⟩
  have hlt : ∀ (row : List ℂ), ∀ i ∈ (row.map fun y => decIdx coded y % 2 ^ 16), i < 2 ^ k := by
    intro row j hj
    obtain ⟨y, -, rfl⟩ := List.mem_map.1 hj
    exact lt_of_lt_of_le (Nat.mod_lt _ (by norm_num)) (Nat.pow_le_pow_right (by norm_num) hk.le)
  dsimp only
  rw [demodulateIdx_rows k _ (hlt rx), demodulateIdx_rows k _ (hlt tx), List.map_map, List.map_map]
  have hrow : ∀ a b : Nat, a < 2 ^ 16 → b < 2 ^ 16 → ((encodingRow k a).zip (encodingRow k b)).countP (fun p => p.1 ^^ p.2) ≤ 16 := by
    intro a b ha hb
    have hsplit : ∀ i, i < 2 ^ 16 → encodingRow k i = List.replicate (k - 16) false ++ (encodingRow k i).drop (k - 16) := by
      intro i hi
      conv_lhs => rw [← List.take_append_drop (k - 16) (encodingRow k i)]
      congr 1
      apply List.ext_getElem?
      intro t
      rw [List.getElem?_take, List.getElem?_replicate]
      split
      · exact encodingRow_top k i t hi (by omega)
      · rfl
    rw [hsplit a ha, hsplit b hb, List.zip_append (by simp), List.countP_append]
    have e0 : ((List.replicate (k - 16) false).zip (List.replicate (k - 16) false)).countP (fun p => p.1 ^^ p.2) = 0 := by
      rw [List.countP_eq_zero]
      intro p hp
      have := List.of_mem_zip hp
      simp [List.eq_of_mem_replicate this.1, List.eq_of_mem_replicate this.2]
    rw [e0, Nat.zero_add]
    refine List.countP_le_length.trans ?_
    rw [List.length_zip, List.length_drop, List.length_drop, length_encodingRow, length_encodingRow]
    omega
  have hcount : ∀ (rx tx : List ℂ), rx.length = tx.length →
      (((tx.map (encodingRow k ∘ fun y => decIdx coded y % 2 ^ 16)).flatten.zip (rx.map (encodingRow k ∘ fun y => decIdx coded y % 2 ^ 16)).flatten).countP fun p => p.1 ^^ p.2) ≤ 16 * rx.length := by
    intro rx
    induction rx with
    | nil => intro tx h; simp
    | cons y rx ih =>
      intro tx h
      cases tx with
      | nil => simp at h
      | cons t tx =>
        have hih := ih tx (by simpa using h)
        simp only [List.map_cons, List.flatten_cons, Function.comp_apply]
        rw [List.zip_append (by rw [length_encodingRow, length_encodingRow]), List.countP_append]
        have := hrow (decIdx coded t % 2 ^ 16) (decIdx coded y % 2 ^ 16) (Nat.mod_lt _ (by norm_num)) (Nat.mod_lt _ (by norm_num))
        simp only [List.length_cons]
        omega
  have hlen2 : (rx.map (encodingRow k ∘ fun y => decIdx coded y % 2 ^ 16)).flatten.length = rx.length * k := by
    rw [List.length_flatten, List.map_map]
    have : (List.length ∘ (encodingRow k ∘ fun y => decIdx coded y % 2 ^ 16)) = fun _ => k := by funext i; exact length_encodingRow k _
    rw [this]
    simp
  rw [hlen2]
  have h1 := hcount rx tx hl
  have h2 : ((((tx.map (encodingRow k ∘ fun y => decIdx coded y % 2 ^ 16)).flatten.zip (rx.map (encodingRow k ∘ fun y => decIdx coded y % 2 ^ 16)).flatten).countP fun p => p.1 ^^ p.2 : Nat) : ℚ) ≤ 16 * rx.length := by
    exact_mod_cast h1
  have hp : (0 : ℚ) < rx.length := by exact_mod_cast List.length_pos_iff.2 hr
  rw [Nat.cast_mul, div_le_div_iff₀ (by positivity) hk0]
  nlinarith

/-- The constellations of the library, with 64 and with 262144 symbols. -/
example : (qamCodedSymbols 6 1).length ≤ 65536 ∧ qamCodedSymbols 6 1 ≠ [] ∧ (qamCodedSymbols 18 1).length = 2 ^ 18 := by
  have h := length_qamCoded 6 1
  refine ⟨by rw [h]; norm_num, ?_, length_qamCoded 18 1⟩
  intro h1
  rw [h1] at h
  simp at h

end Qampy
