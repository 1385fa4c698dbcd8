import Verif.Model.DspCython
import Verif.Props.Prbs

/-!
C228: the Galois generator of prbs.py.
-/

namespace Qampy

/-- The bits of the function of dsp_cython.pyx are those of the generator of utils.py. -/
theorem C228_generator (mask seed N : Nat) : cyPrbsInt mask N seed = (List.range N).map fun i => (lfsrInt seed mask i).1 % 256 := by
  have hshift : ∀ (s i : Nat), lfsrInt s mask (i + 1) = lfsrInt (lfsrIntStep mask s).2 mask i := by
    intro s i
    induction i with
    | zero => rfl
    | succ i ih => rw [lfsrInt, ih, lfsrInt]
  induction N generalizing seed with
  | zero => rfl
  | succ N ih =>
    rw [cyPrbsInt]
    rw [List.range_succ_eq_map, List.map_cons, List.map_map]
    congr 1
    rw [show (if seed <<< 1 >>> mask.log2 ≠ 0 then seed <<< 1 ^^^ mask else seed <<< 1) = (lfsrIntStep mask seed).2 from rfl, ih]
    apply List.map_congr_left
    intro i _
    simp only [Function.comp_apply, Nat.succ_eq_add_one, hshift]

/-- C228: with the length of the register as third argument the compiled function gives the same bits. -/
theorem C228_compiled (mask seed N : Nat) : pytPrbsInt [seed, mask, Nat.log2 mask, N] = .ok (cyPrbsInt mask N seed) := by
  change Except.ok (pytPrbsIntLoop mask (Nat.log2 mask) N seed) = _
  congr 1
  induction N generalizing seed with
  | zero => rfl
  | succ N ih =>
    rw [pytPrbsIntLoop, cyPrbsInt, ih]

/-- The full claim: `make_prbs_intXOR` returns the given number of bits for every supported order and nonzero seed, and they repeat after `2^order-1`. -/
def C228_statement : Prop :=
  ∀ (order : Nat), order ∈ [7, 15, 23, 31] → ∀ (nbits seed : Nat), seed ≠ 0 → seed < 2 ^ order →
    ∃ out, makePrbsIntXOR order nbits (.int seed) = .ok out ∧ out.length = nbits ∧ ∀ i, i + (2 ^ order - 1) < nbits → out[i + (2 ^ order - 1)]? = out[i]?

/-- C228: no call of `make_prbs_intXOR` returns; with a supported order and an integer seed it is a TypeError. -/
theorem C228_never (order nbits : Nat) (seed : Seed) :
    (∀ out, makePrbsIntXOR order nbits seed ≠ .ok out) ∧
      (order ∈ [7, 15, 23, 31] → ∀ s, seed = .int s → makePrbsIntXOR order nbits seed = .error .typ) := by
  constructor
  · intro out h
    unfold makePrbsIntXOR makePrbsIntXORWith at h
    cases hm : masks order with
    | none => simp [hm] at h
    | some mask =>
      simp only [hm] at h
      cases seed with
      | none =>
        cases hb : bool2bin (List.replicate order true) with
        | error e => simp [hb, bind, Except.bind] at h
        | ok v => simp [hb, bind, Except.bind, pytPrbsInt] at h
      | int k => simp [bind, Except.bind, pytPrbsInt] at h
      | bits x =>
        cases hb : bool2bin x with
        | error e => simp [hb, bind, Except.bind] at h
        | ok v => simp [hb, bind, Except.bind, pytPrbsInt] at h
  · rintro ho s rfl
    simp only [List.mem_cons, List.not_mem_nil, or_false] at ho
    rcases ho with rfl | rfl | rfl | rfl <;> rfl

theorem C228_false : ¬ C228_statement := by
  intro H
  obtain ⟨out, h, -⟩ := H 7 (by simp) 10 1 (by norm_num) (by norm_num)
  exact (C228_never 7 10 (.int 1)).1 out h

/-- C228 with the three argument function of dsp_cython.pyx: the given number of bits, period `2^order-1`, and the bits of the generator `lfsr_int`. -/
theorem C228_galois_partial (order : Nat) (ho : order ∈ [7, 15, 23, 31]) (nbits seed : Nat) (h0 : seed ≠ 0) (hs : seed < 2 ^ order) :
    ∃ out, makePrbsIntXORCython order nbits (.int seed) = .ok out ∧ out.length = nbits ∧
      (∀ i, i + (2 ^ order - 1) < nbits → out[i + (2 ^ order - 1)]? = out[i]?) ∧
      ∃ mask, masks order = some mask ∧ ∀ i < nbits, out[i]? = some (decide ((lfsrInt seed mask i).1 = 1)) := by
  obtain ⟨mask, hm⟩ : ∃ mask, masks order = some mask := by
    simp only [List.mem_cons, List.not_mem_nil, or_false] at ho
    rcases ho with rfl | rfl | rfl | rfl <;> exact ⟨_, rfl⟩
  obtain ⟨hper, -, hbit, -⟩ := C72_galois_period order mask hm seed h0 hs
  have hout : makePrbsIntXORCython order nbits (.int seed) = .ok ((cyPrbsInt mask nbits seed).map (· != 0)) := by
    unfold makePrbsIntXORCython makePrbsIntXORWith
    simp only [hm]
    rfl
  have hget : ∀ i < nbits, ((cyPrbsInt mask nbits seed).map (· != 0))[i]? = some (decide ((lfsrInt seed mask i).1 = 1)) := by
    intro i hi
    rw [C228_generator, List.getElem?_map, List.getElem?_map, List.getElem?_range hi]
    have := (hbit i).1
    simp only [Option.map_some, Option.some.injEq]
    rcases (by omega : (lfsrInt seed mask i).1 = 0 ∨ (lfsrInt seed mask i).1 = 1) with h | h <;> rw [h] <;> decide
  refine ⟨_, hout, by rw [List.length_map, C228_generator]; simp, fun i hi => ?_, mask, hm, hget⟩
  rw [hget _ hi, hget _ (by omega), hper]

example : makePrbsIntXORCython 7 12 (.int 1) = .ok [false, false, false, false, false, false, true, true, true, true, true, true] := by decide +kernel
example : makePrbsIntXOR 15 100 .none = .error .typ := by decide +kernel

end Qampy
