import Verif.Tactics
import Mathlib.Data.Nat.Bitwise
import Mathlib.Dynamics.PeriodicPts.Defs
import Mathlib.Data.Nat.Prime.Basic

/-!
Linear maps over the field of two elements on `n`-bit numbers, represented by the images of the
powers of two. Matrix powers are computed by the kernel.
-/

namespace Qampy.Gf2

/-- Apply the map with the given columns. -/
def app : List Nat → Nat → Nat
  | [], _ => 0
  | c :: cs, s => (if s % 2 = 1 then c else 0) ^^^ app cs (s / 2)

/-- Composition: first `B`, then `A`. -/
def comp (A B : List Nat) : List Nat := B.map (app A)

/-- Columns of a map on `n`-bit numbers. -/
def cols (n : Nat) (f : Nat → Nat) : List Nat := (List.range n).map (fun j => f (2 ^ j))

/-- Identity. -/
def ident (n : Nat) : List Nat := cols n id

/-- `A + 1` -/
def addI (A : List Nat) : List Nat := List.zipWith (· ^^^ ·) A (ident A.length)

/-- `A ^ e` for `e < 2 ^ fuel`. -/
def mpow (n : Nat) (A : List Nat) : Nat → Nat → List Nat
  | 0, _ => ident n
  | f + 1, e =>
    let h := mpow n A f (e / 2)
    let h2 := comp h h
    if e % 2 = 1 then comp h2 A else h2

/-- The kernel computation: the map has order `2^n-1` and none of its powers `(2^n-1)/q` has a nonzero
fixed point. -/
def check (n : Nat) (f : Nat → Nat) (qs : List Nat) : Bool :=
  let m := 2 ^ n - 1
  mpow n (cols n f) n m == ident n &&
  qs.all fun q => mpow n (addI (mpow n (cols n f) n (m / q))) n m == ident n

/-- `f` is additive on `n`-bit numbers and maps them to `n`-bit numbers. -/
structure Linear (n : Nat) (f : Nat → Nat) : Prop where
  lt : ∀ s, s < 2 ^ n → f s < 2 ^ n
  add : ∀ x y, x < 2 ^ n → y < 2 ^ n → f (x ^^^ y) = f x ^^^ f y

theorem Linear.zero {n : Nat} {f : Nat → Nat} (h : Linear n f) : f 0 = 0 := by
  have := h.add 0 0 (by positivity) (by positivity)
  simpa using this

theorem app_xor (A : List Nat) (x y : Nat) : app A (x ^^^ y) = app A x ^^^ app A y := by
  induction A generalizing x y with
  | nil => simp [app]
  | cons c cs ih =>
    simp only [app, Nat.xor_div_two, ih]
    have hx : x % 2 = 0 ∨ x % 2 = 1 := by omega
    have hy : y % 2 = 0 ∨ y % 2 = 1 := by omega
    have hxy : (x ^^^ y) % 2 = (x % 2 + y % 2) % 2 := by
      have h := Nat.xor_mod_two_eq_one (a := x) (b := y)
      rcases hx with hx | hx <;> rcases hy with hy | hy <;> simp [hx, hy] at h ⊢ <;> omega
    rcases hx with hx | hx <;> rcases hy with hy | hy <;> simp [hxy, hx, hy]
    · ac_rfl
    · ac_rfl
    · rw [Nat.xor_assoc, Nat.xor_comm _ (c ^^^ _), Nat.xor_assoc, ← Nat.xor_assoc c, Nat.xor_self, Nat.zero_xor,
        Nat.xor_comm]

theorem app_zero (A : List Nat) : app A 0 = 0 := by
  induction A with
  | nil => rfl
  | cons c cs ih => simp [app, ih]

theorem app_comp (A B : List Nat) (s : Nat) : app (comp A B) s = app A (app B s) := by
  induction B generalizing s with
  | nil => simp [comp, app, app_zero]
  | cons c cs ih =>
    have hc : comp A (c :: cs) = app A c :: comp A cs := rfl
    rw [hc]
    simp only [app, ih, app_xor]
    split
    · rfl
    · simp [app_zero]

theorem app_cols {n : Nat} {f : Nat → Nat} (hf : Linear n f) {s : Nat} (hs : s < 2 ^ n) :
    app (cols n f) s = f s := by
  suffices h : ∀ n (f : Nat → Nat), f 0 = 0 → (∀ x y, x < 2 ^ n → y < 2 ^ n → f (x ^^^ y) = f x ^^^ f y) →
      ∀ s, s < 2 ^ n → app (cols n f) s = f s from h n f hf.zero hf.add s hs
  intro n
  induction n with
  | zero => intro f h0 _ s hs; have : s = 0 := by simpa using hs
            subst this; simp [cols, app, h0]
  | succ n ih =>
    intro f h0 hadd s hs
    have hcols : cols (n + 1) f = f 1 :: cols n (fun t => f (2 * t)) := by
      simp only [cols, List.range_succ_eq_map, List.map_cons, pow_zero, List.map_map]
      congr 1
      apply List.map_congr_left
      intro j _
      simp [Function.comp, pow_succ, mul_comm]
    have hg := ih (fun t => f (2 * t)) (by simpa using h0) (by
      intro x y hx hy
      have : 2 * (x ^^^ y) = (2 * x) ^^^ (2 * y) := by
        have := Nat.shiftLeft_xor_distrib (a := x) (b := y) (i := 1)
        simpa [Nat.shiftLeft_eq, mul_comm] using this
      rw [this]
      exact hadd _ _ (by rw [pow_succ]; omega) (by rw [pow_succ]; omega)) (s / 2) (by rw [pow_succ] at hs; omega)
    rw [hcols]
    simp only [app, hg]
    have hpos : 0 < 2 ^ n := by positivity
    rcases Nat.mod_two_eq_zero_or_one s with h | h
    · rw [if_neg (by omega), Nat.zero_xor]; congr 1; omega
    · rw [if_pos h, ← hadd _ _ (by rw [pow_succ]; omega) (by rw [pow_succ] at hs ⊢; omega)]
      congr 1
      have : 1 ^^^ 2 * (s / 2) = 1 + 2 * (s / 2) := by
        rw [Nat.xor_comm, Nat.add_comm]
        have := Nat.xor_one_of_even (n := 2 * (s / 2)) ⟨s / 2, by ring⟩
        rw [this]
      omega

theorem linear_id (n : Nat) : Linear n id := ⟨fun _ h => h, fun _ _ _ _ => rfl⟩

theorem app_ident {n s : Nat} (hs : s < 2 ^ n) : app (ident n) s = s := app_cols (linear_id n) hs

/-- Columns below `2^n` keep the range. -/
theorem app_lt {n : Nat} {A : List Nat} (h : ∀ c ∈ A, c < 2 ^ n) (s : Nat) : app A s < 2 ^ n := by
  induction A generalizing s with
  | nil => simp [app]
  | cons c cs ih =>
    simp only [app]
    apply Nat.xor_lt_two_pow
    · split
      · exact h c (by simp)
      · positivity
    · exact ih (fun c' hc' => h c' (by simp [hc'])) _

theorem comp_lt {n : Nat} {A B : List Nat} (h : ∀ c ∈ A, c < 2 ^ n) : ∀ c ∈ comp A B, c < 2 ^ n := by
  intro c hc
  obtain ⟨b, _, rfl⟩ := List.mem_map.1 hc
  exact app_lt h _

theorem cols_lt {n : Nat} {f : Nat → Nat} (hf : Linear n f) : ∀ c ∈ cols n f, c < 2 ^ n := by
  intro c hc
  obtain ⟨j, hj, rfl⟩ := List.mem_map.1 hc
  exact hf.lt _ (Nat.pow_lt_pow_right (by norm_num) (List.mem_range.1 hj))

theorem mpow_spec {n : Nat} {A : List Nat} (hA : ∀ c ∈ A, c < 2 ^ n) (fuel e : Nat) (he : e < 2 ^ fuel) :
    (∀ c ∈ mpow n A fuel e, c < 2 ^ n) ∧ ∀ s, s < 2 ^ n → app (mpow n A fuel e) s = (app A)^[e] s := by
  induction fuel generalizing e with
  | zero =>
    have : e = 0 := by simpa using he
    subst this
    exact ⟨cols_lt (linear_id n), fun s hs => by simpa [mpow] using app_ident hs⟩
  | succ fuel ih =>
    obtain ⟨h1, h2⟩ := ih (e / 2) (by rw [pow_succ] at he; omega)
    have hcomp : ∀ s, s < 2 ^ n → app (comp (mpow n A fuel (e / 2)) (mpow n A fuel (e / 2))) s
        = (app A)^[e / 2 + e / 2] s := by
      intro s hs
      rw [app_comp, h2 _ (by rw [h2 s hs, ← h2 s hs]; exact app_lt h1 s), h2 s hs, ← Function.iterate_add_apply]
    simp only [mpow]
    rcases Nat.mod_two_eq_zero_or_one e with h | h
    · rw [if_neg (by omega)]
      refine ⟨comp_lt h1, fun s hs => ?_⟩
      rw [hcomp s hs]; congr 2; omega
    · rw [if_pos h]
      refine ⟨comp_lt (comp_lt h1), fun s hs => ?_⟩
      rw [app_comp, hcomp _ (app_lt hA s), ← Function.iterate_succ_apply]; congr 2; omega

theorem addI_lt {n : Nat} {A : List Nat} (hl : A.length = n) (hA : ∀ c ∈ A, c < 2 ^ n) :
    ∀ c ∈ addI A, c < 2 ^ n := by
  intro c hc
  simp only [addI, hl] at hc
  obtain ⟨i, hi, rfl⟩ := List.mem_iff_getElem.1 hc
  rw [List.getElem_zipWith]
  exact Nat.xor_lt_two_pow (hA _ (List.getElem_mem _)) (cols_lt (linear_id n) _ (List.getElem_mem _))

theorem app_zipWith (A B : List Nat) (h : A.length = B.length) (s : Nat) :
    app (List.zipWith (· ^^^ ·) A B) s = app A s ^^^ app B s := by
  induction A generalizing B s with
  | nil => cases B <;> simp_all [app]
  | cons a A ih =>
    cases B with
    | nil => simp at h
    | cons b B =>
      simp only [List.zipWith_cons_cons, app, ih B (by simpa using h)]
      split
      · ac_rfl
      · simp

theorem length_mpow (n : Nat) (A : List Nat) (hA : A.length = n) (f e : Nat) : (mpow n A f e).length = n := by
  induction f generalizing e with
  | zero => simp [mpow, ident, cols]
  | succ f ih =>
    simp only [mpow]
    split
    · simp [comp, hA]
    · simp [comp, ih]

theorem iterate_app_cols {n : Nat} {f : Nat → Nat} (hf : Linear n f) (k s : Nat) (hs : s < 2 ^ n) :
    (app (cols n f))^[k] s = f^[k] s ∧ f^[k] s < 2 ^ n := by
  induction k generalizing s with
  | zero => exact ⟨rfl, hs⟩
  | succ k ih =>
    simp only [Function.iterate_succ_apply]
    rw [app_cols hf hs]
    exact ih _ (hf.lt s hs)

/-- Orbits of a checked map: every nonzero number has the exact period `2^n-1`. -/
theorem orbit {n : Nat} {f : Nat → Nat} {qs : List Nat} (hn : 0 < n) (hf : Linear n f)
    (hc : check n f qs = true)
    (hq : ∀ q, q.Prime → q ∣ 2 ^ n - 1 → q ∈ qs) {s : Nat} (hs : s < 2 ^ n) (h0 : s ≠ 0) :
    Function.minimalPeriod f s = 2 ^ n - 1 := by
  have hpos : 0 < 2 ^ n - 1 := by
    have : 2 ^ 1 ≤ 2 ^ n := Nat.pow_le_pow_right (by norm_num) hn
    omega
  simp only [check, Bool.and_eq_true, beq_iff_eq, List.all_eq_true] at hc
  obtain ⟨hc1, hc2⟩ := hc
  have hlt : 2 ^ n - 1 < 2 ^ n := by omega
  have hcl := cols_lt hf
  have hper : f^[2 ^ n - 1] s = s := by
    have := (mpow_spec hcl n _ hlt).2 s hs
    rw [hc1, app_ident hs, (iterate_app_cols hf _ s hs).1] at this
    exact this.symm
  have hdvd : Function.minimalPeriod f s ∣ 2 ^ n - 1 := Function.IsPeriodicPt.minimalPeriod_dvd hper
  by_contra hne
  obtain ⟨k, hk⟩ := hdvd
  have hk1 : k ≠ 1 := by rintro rfl; exact hne (by simpa using hk.symm)
  obtain ⟨q, hqp, hqk⟩ := Nat.exists_prime_and_dvd hk1
  obtain ⟨l, rfl⟩ := hqk
  have hqm : q ∣ 2 ^ n - 1 := ⟨Function.minimalPeriod f s * l, by rw [hk]; ring⟩
  have hmem := hq q hqp hqm
  have hdiv : (2 ^ n - 1) / q = Function.minimalPeriod f s * l := by
    rw [hk]
    apply Nat.div_eq_of_eq_mul_right hqp.pos
    ring
  have hfix : f^[(2 ^ n - 1) / q] s = s := by
    rw [hdiv]
    exact (Function.isPeriodicPt_minimalPeriod f s).mul_const l
  -- s is in the kernel of T^(m/q) + 1
  set P := mpow n (cols n f) n ((2 ^ n - 1) / q) with hP
  have hPspec := mpow_spec hcl n ((2 ^ n - 1) / q) (lt_of_le_of_lt (Nat.div_le_self _ _) hlt)
  have hPl : P.length = n := length_mpow n _ (by simp [cols]) _ _
  have hPs : app P s = s := by
    rw [hPspec.2 s hs, (iterate_app_cols hf _ s hs).1, hfix]
  have hker : app (addI P) s = 0 := by
    rw [addI, hPl, app_zipWith _ _ (by simp [hPl, ident, cols]), hPs, app_ident hs, Nat.xor_self]
  have hid := (mpow_spec (addI_lt hPl hPspec.1) n _ hlt).2 s hs
  rw [hc2 q hmem, app_ident hs] at hid
  have hzero : ∀ k, 0 < k → (app (addI P))^[k] s = 0 := by
    intro k hk
    obtain ⟨k, rfl⟩ := Nat.exists_eq_succ_of_ne_zero hk.ne'
    rw [Function.iterate_succ_apply, hker]
    clear hk
    induction k with
    | zero => rfl
    | succ k ih => rw [Function.iterate_succ_apply, app_zero, ih]
  rw [hzero _ hpos] at hid
  exact h0 hid

end Qampy.Gf2
