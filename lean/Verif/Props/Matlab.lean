import Verif.Model.Matlab
import Verif.Props.SymbolOnly
import Verif.Props.Waveform
import Verif.Lemmas.Fourier
import Verif.Tactics

/-!
C154, C155, C156: signals from Matlab files.
-/

namespace Qampy

open Complex (I)

/-! ### C154: the formats of the keys -/

/-- The array of `m` modes with `n` symbols `f i j`. -/
def modeArray (m n : Nat) (f : Nat → Nat → ℂ) : List (List ℂ) := (List.range m).map fun (i : Nat) => (List.range n).map fun (j : Nat) => f i j

/-- Real and imaginary parts as they are stored. -/
def reOf (f : Nat → Nat → ℂ) : Nat → Nat → ℂ := fun i j => ((f i j).re : ℂ)
def imOf (f : Nat → Nat → ℂ) : Nat → Nat → ℂ := fun i j => ((f i j).im : ℂ)

theorem addJ_parts (z : ℂ) : addJ (z.re : ℂ) (z.im : ℂ) = z := by
  unfold addJ
  rw [mul_comm]
  exact Complex.re_add_im z

theorem bcast_same {α β γ : Type} (f : α → β → γ) (x : List α) (y : List β) (h : x.length = y.length) : bcast f x y = some (List.zipWith f x y) := by
  unfold bcast
  rw [if_pos h]

theorem bcast_parts (n : Nat) (g : Nat → ℂ) :
    bcast addJ ((List.range n).map fun (j : Nat) => ((g j).re : ℂ)) ((List.range n).map fun (j : Nat) => ((g j).im : ℂ)) = some ((List.range n).map g) := by
  rw [bcast_same _ _ _ (by simp), List.zipWith_map, List.zipWith_self]
  simp only [addJ_parts]

theorem mapM_id_some {α : Type} (l : List α) : (l.map some).mapM id = some l := by
  rw [mapM_eq_some_iff]; simp

theorem matAddJ_parts (m n : Nat) (f : Nat → Nat → ℂ) : matAddJ (modeArray m n (reOf f)) (modeArray m n (imOf f)) = some (modeArray m n f) := by
  unfold matAddJ modeArray reOf imOf
  rw [bcast_same _ _ _ (by simp), List.zipWith_map, List.zipWith_self, Option.bind_some]
  simp only [bcast_parts]
  rw [show (fun i => some ((List.range n).map (f i))) = some ∘ fun i => (List.range n).map (f i) from rfl, ← List.map_map, mapM_id_some]

theorem matTranspose_modes (m n : Nat) (hm : 0 < m) (f : Nat → Nat → ℂ) : matTranspose (modeArray m n f) = modeArray n m fun j i => f i j := by
  have hc : ((modeArray m n f).headD []).length = n := by
    unfold modeArray
    obtain ⟨m', rfl⟩ : ∃ m', m = m' + 1 := ⟨m - 1, by omega⟩
    rw [List.range_succ_eq_map]
    simp
  unfold matTranspose
  rw [hc]
  unfold modeArray
  apply List.map_congr_left
  intro j hj
  have hj' : j < n := List.mem_range.1 hj
  rw [List.filterMap_map]
  have : ((fun r : List ℂ => r[j]?) ∘ fun i => (List.range n).map fun j => f i j) = fun i => some (f i j) := by
    funext i
    simp only [Function.comp_apply]
    rw [List.getElem?_map, List.getElem?_range hj']
    rfl
  rw [this, List.filterMap_eq_map']

/-- C154: one complex array, with the modes as rows, or as columns if it is transposed. -/
theorem C154_array (file : MatFile) (key : String) (m n : Nat) (f : Nat → Nat → ℂ) (pm : List (Nat × Nat)) :
    (file key = some (modeArray m n f) → ndarrayFromMatlab file [[key]] false false pm = .ok (modeArray m n f)) ∧
    (0 < n → file key = some (modeArray n m fun j i => f i j) → ndarrayFromMatlab file [[key]] true false pm = .ok (modeArray m n f)) := by
  constructor
  · intro h
    unfold ndarrayFromMatlab loadSingle MatFile.get
    simp only [h]
    rfl
  · intro hn h
    unfold ndarrayFromMatlab loadSingle MatFile.get
    simp only [h]
    have := matTranspose_modes n m hn (fun j i => f i j)
    change Except.ok (matTranspose _) = _
    rw [this]

/-- C154: two real arrays with the real and imaginary parts. -/
theorem C154_parts (file : MatFile) (re im : String) (m n : Nat) (f : Nat → Nat → ℂ) (pm : List (Nat × Nat)) :
    (file re = some (modeArray m n (reOf f)) → file im = some (modeArray m n (imOf f)) →
      ndarrayFromMatlab file [[re, im]] false false pm = .ok (modeArray m n f)) ∧
    (0 < n → file re = some (modeArray n m fun j i => reOf f i j) → file im = some (modeArray n m fun j i => imOf f i j) →
      ndarrayFromMatlab file [[re, im]] true false pm = .ok (modeArray m n f)) := by
  constructor
  · intro h1 h2
    unfold ndarrayFromMatlab loadSingle MatFile.get
    simp only [h1, h2]
    have := matAddJ_parts m n f
    simp only [bind, Except.bind, pure, Except.pure, this, orValue]
    rfl
  · intro hn h1 h2
    unfold ndarrayFromMatlab loadSingle MatFile.get
    simp only [h1, h2]
    have := matAddJ_parts n m (fun j i => f i j)
    have e := matTranspose_modes n m hn (fun j i => f i j)
    change (((orValue (matAddJ (modeArray n m (reOf fun j i => f i j)) (modeArray n m (imOf fun j i => f i j)))).bind fun s => Except.ok (matTranspose s)).bind _) = _
    simp only [this, orValue, Except.bind, e]
    rfl

/-- A vector as a row or as a column. -/
def IsVector (A : List (List ℂ)) (v : List ℂ) : Prop := A = [v] ∨ A = v.map fun z => [z]

theorem IsVector.flatten {A : List (List ℂ)} {v : List ℂ} (h : IsVector A v) : A.flatten = v := by
  rcases h with rfl | rfl
  · simp
  · induction v with
    | nil => rfl
    | cons a v ih => simp [ih]

theorem loadModes_ok (file : MatFile) (n0 n : Nat) : ∀ (ks : List (List String)) (rows acc : List (List ℂ)), acc ≠ [] → (∀ r ∈ acc, r.length = n) →
    (∀ r ∈ rows, r.length = n) → List.Forall₂ (fun k r => loadMode file n0 k = .ok r) ks rows → loadModes file n0 ks acc = .ok (acc ++ rows) := by
  intro ks
  induction ks with
  | nil =>
    intro rows acc _ _ _ h
    cases h
    simp [loadModes]
  | cons k ks ih =>
    intro rows acc hne hacc hrows h
    cases h with
    | @cons _ r _ rs h1 h2 =>
      have hr : r.length = n := hrows r (by simp)
      have hh : (acc.headD []).length = n := by
        cases acc with
        | nil => exact absurd rfl hne
        | cons a acc => exact hacc a (by simp)
      have := ih rs (acc ++ [r]) (by simp) (by
        intro x hx
        rcases List.mem_append.1 hx with hx | hx
        · exact hacc x hx
        · rw [List.mem_singleton.1 hx]; exact hr) (fun x hx => hrows x (by simp [hx])) h2
      unfold loadModes
      rw [h1]
      change (if r.length ≠ (acc.headD []).length then _ else _) = _
      rw [if_neg (by rw [hr, hh]; simp), this]
      simp

theorem ndarray_modes (file : MatFile) (keys : List (List String)) (n0 n : Nat) (rows : List (List ℂ)) (transpose : Bool) (pm : List (Nat × Nat))
    (h2 : 2 ≤ keys.length) (hk : ∀ k ∈ keys, k.length = n0) (hr : ∀ r ∈ rows, r.length = n)
    (h : List.Forall₂ (fun k r => loadMode file n0 k = .ok r) keys rows) :
    ndarrayFromMatlab file keys transpose false pm = .ok rows := by
  match keys, h2 with
  | k :: k' :: ks, _ =>
    cases h with
    | @cons _ r _ rs h1 h2 =>
      have e0 : k.length = n0 := hk k (by simp)
      have := loadModes_ok file n0 n (k' :: ks) rs [r] (by simp) (by simpa using hr r (by simp)) (fun x hx => hr x (by simp [hx])) h2
      unfold ndarrayFromMatlab
      simp only [e0, h1]
      change (loadModes file n0 (k' :: ks) [r]).bind _ = _
      rw [this]
      rfl

theorem forall2_range {α β : Type} (R : α → β → Prop) (m : Nat) (g : Nat → α) (h : Nat → β) (H : ∀ i, i < m → R (g i) (h i)) :
    List.Forall₂ R ((List.range m).map g) ((List.range m).map h) := by
  rw [List.forall₂_map_left_iff, List.forall₂_map_right_iff, List.forall₂_same]
  intro i hi
  exact H i (List.mem_range.1 hi)

/-- C154: one complex vector for each of at least two modes, each a row or a column. -/
theorem C154_modes (file : MatFile) (ks : Nat → String) (m n : Nat) (f : Nat → Nat → ℂ) (transpose : Bool) (pm : List (Nat × Nat)) (hm : 2 ≤ m)
    (h : ∀ i, i < m → ∃ A, file (ks i) = some A ∧ IsVector A ((List.range n).map fun (j : Nat) => f i j)) :
    ndarrayFromMatlab file ((List.range m).map fun (i : Nat) => [ks i]) transpose false pm = .ok (modeArray m n f) := by
  apply ndarray_modes file _ 1 n _ transpose pm (by simpa using hm) (by simp) (by
    intro r hr
    obtain ⟨i, _, rfl⟩ := List.mem_map.1 hr
    simp)
  apply forall2_range
  intro i hi
  obtain ⟨A, hA, hv⟩ := h i hi
  unfold loadMode keyAt MatFile.get
  rw [if_neg (by norm_num), if_pos rfl]
  simp only [bind, Except.bind, pure, Except.pure, List.getElem?_cons_zero, hA]
  rw [hv.flatten]

/-- C154: two real vectors for each of at least two modes. -/
theorem C154_mode_parts (file : MatFile) (re im : Nat → String) (m n : Nat) (f : Nat → Nat → ℂ) (transpose : Bool) (pm : List (Nat × Nat)) (hm : 2 ≤ m)
    (hre : ∀ i, i < m → ∃ A, file (re i) = some A ∧ IsVector A ((List.range n).map fun (j : Nat) => reOf f i j))
    (him : ∀ i, i < m → ∃ A, file (im i) = some A ∧ IsVector A ((List.range n).map fun (j : Nat) => imOf f i j)) :
    ndarrayFromMatlab file ((List.range m).map fun (i : Nat) => [re i, im i]) transpose false pm = .ok (modeArray m n f) := by
  apply ndarray_modes file _ 2 n _ transpose pm (by simpa using hm) (by simp) (by
    intro r hr
    obtain ⟨i, _, rfl⟩ := List.mem_map.1 hr
    simp)
  apply forall2_range
  intro i hi
  obtain ⟨A, hA, hv⟩ := hre i hi
  obtain ⟨B, hB, hw⟩ := him i hi
  unfold loadMode keyAt MatFile.get
  rw [if_pos rfl]
  simp only [bind, Except.bind, List.getElem?_cons_zero, List.getElem?_cons_succ, hA, hB]
  rw [hv.flatten, hw.flatten]
  have := bcast_parts n (f i)
  unfold reOf imOf
  rw [this]
  rfl

/-- C154: the rows of one real array, assigned to the quadratures of the modes by `portmap`. -/
theorem C154_ports (file : MatFile) (key : String) (S : List (List ℂ)) (m n : Nat) (f : Nat → Nat → ℂ) (p q : Nat → Nat) (hS : file key = some S)
    (hp : ∀ i, i < m → S[p i]? = some ((List.range n).map fun (j : Nat) => reOf f i j))
    (hq : ∀ i, i < m → S[q i]? = some ((List.range n).map fun (j : Nat) => imOf f i j)) :
    ndarrayFromMatlab file [[key]] false true ((List.range m).map fun (i : Nat) => (p i, q i)) = .ok (modeArray m n f) := by
  unfold ndarrayFromMatlab loadSingle MatFile.get
  simp only [hS]
  change portsToComplex S _ = _
  unfold portsToComplex modeArray
  rw [List.mapM_map]
  have : ∀ l : List Nat, (∀ i ∈ l, i < m) → (l.mapM fun i =>
      match S[p i]?, S[q i]? with
      | some a, some b => orValue (bcast addJ a b)
      | _, _ => .error (.py .index)) = (Except.ok (l.map fun i => (List.range n).map fun j => f i j) : Except LoadErr _) := by
    intro l
    induction l with
    | nil => intro _; rfl
    | cons i l ih =>
      intro hl
      have hi := hl i (by simp)
      rw [List.mapM_cons, ih fun x hx => hl x (by simp [hx]), hp i hi, hq i hi]
      have := bcast_parts n (f i)
      unfold reOf imOf
      simp only [this]
      rfl
  exact this _ fun i hi => List.mem_range.1 hi

/-- C154: a real part saved as a row and an imaginary part saved as a column give a square array, with no message. -/
theorem C154_mixed (file : MatFile) (re im : String) (a b : List ℂ) (h1 : file re = some [a]) (h2 : file im = some (b.map fun z => [z]))
    (hb : 2 ≤ b.length) (ha : 2 ≤ a.length) (pm : List (Nat × Nat)) :
    ndarrayFromMatlab file [[re, im]] false false pm = .ok (b.map fun y => a.map fun x => addJ x y) := by
  have e : matAddJ [a] (b.map fun z => [z]) = some (b.map fun y => a.map fun x => addJ x y) := by
    unfold matAddJ
    have : bcast (bcast addJ) [a] (b.map fun z => [z]) = some (b.map fun y => some (a.map fun x => addJ x y)) := by
      have hne : ([a] : List (List ℂ)).length ≠ (b.map fun z => [z]).length := by simp; omega
      unfold bcast
      rw [if_neg hne]
      simp only [List.map_map]
      congr 1
      apply List.map_congr_left
      intro y _
      simp only [Function.comp_apply, List.length_singleton]
      rw [if_neg (by omega)]
      match a, ha with
      | x :: x' :: a, _ => rfl
    rw [this, Option.bind_some, show (fun y => some (a.map fun x => addJ x y)) = some ∘ fun y => a.map fun x => addJ x y from rfl, ← List.map_map,
      mapM_id_some]
  unfold ndarrayFromMatlab loadSingle MatFile.get
  simp only [h1, h2]
  simp only [bind, Except.bind, pure, Except.pure, e, orValue]
  rfl

/-! ### C156: symbols of a constellation -/

/-- The symbols `ps` use each point of the constellation `r` times. -/
def PointsEven (k r : Nat) (ps : List (Int × Int)) : Prop := ps.Perm (List.replicate r (symbolsQam k)).flatten

theorem sum_flatten_replicate {α M : Type} [AddCommMonoid M] (f : α → M) (r : Nat) (l : List α) :
    ((List.replicate r l).flatten.map f).sum = r • (l.map f).sum := by
  rw [List.map_flatten, List.sum_flatten, List.map_replicate, List.map_replicate, List.sum_replicate]

theorem pointsEven_normalised {k r : Nat} (hk : 1 ≤ k) (hr : 1 ≤ r) {ps : List (Int × Int)} (h : PointsEven k r ps) :
    Normalised (ps.map (toComplex (Real.sqrt (scalingFactor k : ℝ)))) := by
  obtain ⟨h1, h2⟩ := C11_unit_power k hk
  have hperm := codedSymbols_perm (IsPerm.qam k) _ (length_scaled k (Real.sqrt (scalingFactor k : ℝ)))
  have e1 : ((symbolsQam k).map (toComplex (Real.sqrt (scalingFactor k : ℝ)))).sum = 0 := by
    rw [← hperm.sum_eq]; exact h2
  have e2 : (((symbolsQam k).map (toComplex (Real.sqrt (scalingFactor k : ℝ)))).map fun s => ‖s‖ ^ 2).sum = 2 ^ k := by
    rw [← (hperm.map fun s => ‖s‖ ^ 2).sum_eq]
    have h1' : ((qamCodedSymbols k (Real.sqrt (scalingFactor k : ℝ))).map fun s => ‖s‖ ^ 2).sum / 2 ^ k = 1 := h1
    rw [div_eq_one_iff_eq (by positivity)] at h1'
    exact h1'
  have hl : ps.length = r * 2 ^ k := by
    rw [h.length_eq, List.length_flatten, List.map_replicate, List.sum_replicate, length_symbolsQam, smul_eq_mul]
  refine ⟨?_, ?_, ?_⟩
  · intro h0
    have := congrArg List.length h0
    rw [List.length_map, hl, List.length_nil] at this
    have : 0 < r * 2 ^ k := by positivity
    omega
  · rw [(h.map _).sum_eq, sum_flatten_replicate, e1, smul_zero]
  · rw [List.map_map, (h.map _).sum_eq, sum_flatten_replicate, ← List.map_map, e2, List.length_map, hl]
    push_cast
    rw [nsmul_eq_mul]

/-- A positive gain and an offset of the saved symbols do not matter. -/
theorem normRow_points {k r : Nat} (hk : 1 ≤ k) (hr : 1 ≤ r) {ps : List (Int × Int)} (h : PointsEven k r ps) (g : ℝ) (hg : 0 < g) (b : ℂ) :
    normRow (ps.map fun p => (g : ℂ) * ⟨(p.1 : ℝ), (p.2 : ℝ)⟩ + b) = some (ps.map (toComplex (Real.sqrt (scalingFactor k : ℝ)))) := by
  have hF : (0 : ℝ) < (scalingFactor k : ℝ) := by exact_mod_cast scalingFactor_pos hk
  have hs := Real.sqrt_pos.2 hF
  have := normRow_affine (ps.map (toComplex (Real.sqrt (scalingFactor k : ℝ)))) (g * Real.sqrt (scalingFactor k : ℝ)) (by positivity) b
  rw [normRow_of_normalised (pointsEven_normalised hk hr h), List.map_map] at this
  rw [← this]
  congr 1
  apply List.map_congr_left
  intro p _
  simp only [Function.comp_apply, toComplex]
  have hc : ((Real.sqrt (scalingFactor k : ℝ) : ℝ) : ℂ) ≠ 0 := by exact_mod_cast hs.ne'
  push_cast
  field_simp

theorem pointsEven_fromSymbols {k r : Nat} (hk : 1 ≤ k) (hr : 1 ≤ r) (pss : List (List (Int × Int))) (hne : pss ≠ []) (h : ∀ ps ∈ pss, PointsEven k r ps) :
    ∃ bits, fromSymbols k (pss.map fun ps => ps.map (toComplex (Real.sqrt (scalingFactor k : ℝ))))
      = .ok (pss.map fun ps => ps.map (toComplex (Real.sqrt (scalingFactor k : ℝ))), bits) := by
  have hF : (0 : ℝ) < (scalingFactor k : ℝ) := by exact_mod_cast scalingFactor_pos hk
  obtain ⟨bits, hb, _⟩ := C145_all_points_partial k (Real.sqrt (scalingFactor k : ℝ)) (pss.map fun ps => ps.map (toComplex (Real.sqrt (scalingFactor k : ℝ))))
    hk (Real.sqrt_pos.2 hF) (by
      intro row hrow s hs
      obtain ⟨ps, hps, rfl⟩ := List.mem_map.1 hrow
      obtain ⟨p, hp, rfl⟩ := List.mem_map.1 hs
      obtain ⟨l, hl, hpl⟩ := List.mem_flatten.1 ((h ps hps).mem_iff.1 hp)
      rw [(List.mem_replicate.1 hl).2] at hpl
      exact (mem_qamCoded _ _ _).2 ⟨p, hpl, rfl⟩) (by
      intro s hs
      obtain ⟨p, hp, rfl⟩ := (mem_qamCoded _ _ _).1 hs
      obtain ⟨ps, hps⟩ := List.exists_mem_of_ne_nil _ hne
      refine ⟨_, List.mem_map.2 ⟨ps, hps, rfl⟩, List.mem_map.2 ⟨p, ?_, rfl⟩⟩
      exact (h ps hps).mem_iff.2 (List.mem_flatten.2 ⟨symbolsQam k, List.mem_replicate.2 ⟨by omega, rfl⟩, hp⟩))
  exact ⟨bits, hb⟩

/-- What is stored for one mode: its points, the gain and the offset. -/
structure SavedMode where
  ps : List (Int × Int)
  g : ℝ
  b : ℂ

/-- The stored symbols. -/
noncomputable def SavedMode.symbols (s : SavedMode) : List ℂ := s.ps.map fun p => (s.g : ℂ) * ⟨(p.1 : ℝ), (p.2 : ℝ)⟩ + s.b

theorem normalise_saved {k r : Nat} (hk : 1 ≤ k) (hr : 1 ≤ r) (ms : List SavedMode) (h : ∀ s ∈ ms, PointsEven k r s.ps ∧ 0 < s.g) :
    normaliseAndCenter (ms.map SavedMode.symbols) = some (ms.map fun s => s.ps.map (toComplex (Real.sqrt (scalingFactor k : ℝ)))) := by
  unfold normaliseAndCenter
  rw [mapM_eq_some_iff, List.map_map, List.map_map]
  apply List.map_congr_left
  intro s hs
  exact normRow_points hk hr (h s hs).1 s.g (h s hs).2 s.b

/-- C156: if the loaded modes use every point of the constellation equally often, with any gain and offset in each mode, the symbols of the signal
are the same points of the constellation of unit power. -/
theorem C156_load (file : MatFile) (k r : Nat) (keys : List (List String)) (tr dim : Bool) (pm : List (Nat × Nat)) (delay : Int) (ms : List SavedMode)
    (hk : 1 ≤ k) (hr : 1 ≤ r) (hne : ms ≠ []) (h : ∀ s ∈ ms, PointsEven k r s.ps ∧ 0 < s.g)
    (hload : ndarrayFromMatlab file keys tr dim pm = .ok (ms.map SavedMode.symbols)) :
    ∃ bits, loadSymbols file k keys false delay true tr dim pm
      = .ok (some (ms.map fun s => s.ps.map (toComplex (Real.sqrt (scalingFactor k : ℝ))), bits)) := by
  obtain ⟨bits, hb⟩ := pointsEven_fromSymbols hk hr (ms.map SavedMode.ps) (by simpa using hne) (by
    intro ps hps
    obtain ⟨s, hs, rfl⟩ := List.mem_map.1 hps
    exact (h s hs).1)
  rw [List.map_map] at hb
  refine ⟨bits, ?_⟩
  unfold loadSymbols
  rw [hload]
  change (match (if true = true then normaliseAndCenter (if false = true then _ else ms.map SavedMode.symbols) else _) with
    | none => _ | some s => _) = _
  rw [if_pos rfl, if_neg (by simp), normalise_saved hk hr ms h]
  simp only
  change (match fromSymbols k (ms.map ((fun ps : List (Int × Int) => ps.map (toComplex (Real.sqrt (scalingFactor k : ℝ)))) ∘ SavedMode.ps)) with
    | .error e => _ | .ok r => _) = _
  rw [hb]
  rfl

/-! ### C155: emulated polarisation multiplexing -/

/-- The documented behaviour: the second mode is the first one delayed by `fake_pm_delay` symbols. -/
def C155_statement : Prop :=
  ∀ (file : MatFile) (k : Nat) (key : String) (s : List ℂ) (delay : Int) (normalise : Bool) (rows : List (List ℂ)) (bits : List Bool),
    file key = some [s] → loadSymbols file k [[key]] true delay normalise false false defaultPorts = .ok (some (rows, bits)) →
    ∃ t, rows = [t, Np.roll t delay]

theorem rollFlat_row (s : List ℂ) (d : Int) : rollFlat [s] d = [Np.roll s d] := by
  unfold rollFlat
  simp

theorem meanC_perm {x y : List ℂ} (h : x.Perm y) : meanC x = meanC y := by
  unfold meanC
  rw [h.sum_eq, h.length_eq]

theorem normRow_roll (s : List ℂ) (d : Int) : normRow (Np.roll s d) = (normRow s).map fun t => Np.roll t d := by
  unfold normRow
  have hp := roll_perm s d
  simp only [meanC_perm hp]
  have e : meanR (((Np.roll s d).map fun z => z - meanC s).map cabsq) = meanR ((s.map fun z => z - meanC s).map cabsq) := by
    unfold meanR
    rw [(((hp.map _).map _).sum_eq), ((hp.map _).map _).length_eq]
  rw [e]
  split_ifs
  · rfl
  · rw [Option.map_some, List.map_map, List.map_map, List.map_map]
    simp [Np.roll, List.map_drop, List.map_take]

theorem mapM_roll {α β : Type} (f : α → Option β) (l : List α) (r : List β) (d : Int) (h : l.mapM f = some r) :
    (Np.roll l d).mapM f = some (Np.roll r d) := by
  rw [mapM_eq_some_iff] at h ⊢
  have := congrArg (fun x => Np.roll x d) h
  simpa [Np.roll, List.map_drop, List.map_take] using this

/-- C155, what holds: the first mode is the second one delayed, whatever the symbols. Missing: the documentation has the second mode delayed. -/
theorem C155_first_partial (file : MatFile) (k : Nat) (key : String) (s : List ℂ) (delay : Int) (normalise : Bool) (rows : List (List ℂ)) (bits : List Bool)
    (hs : file key = some [s]) (h : loadSymbols file k [[key]] true delay normalise false false defaultPorts = .ok (some (rows, bits))) :
    ∃ t, t.length = s.length ∧ rows = [Np.roll t delay, t] := by
  have hl : ndarrayFromMatlab file [[key]] false false defaultPorts = .ok [s] := by
    unfold ndarrayFromMatlab loadSingle MatFile.get
    simp only [hs]
    rfl
  have key2 : ∀ t : List ℂ, t.length = s.length → ∀ r, fromSymbols k [Np.roll t delay, t] = .ok r → r = (rows, bits) →
      ∃ u, u.length = s.length ∧ rows = [Np.roll u delay, u] := by
    intro t ht r hr he
    unfold fromSymbols fromSymbolArray at hr
    cases hd : makeDecision t (qamCodedSymbols k (estimatedScale k [Np.roll t delay, t])) with
    | none =>
      exfalso
      rw [List.mapM_cons, List.mapM_cons, hd] at hr
      cases hd' : makeDecision (Np.roll t delay) (qamCodedSymbols k (estimatedScale k [Np.roll t delay, t])) <;> rw [hd'] at hr <;> exact absurd hr (by simp)
    | some ds =>
      have hd' : makeDecision (Np.roll t delay) (qamCodedSymbols k (estimatedScale k [Np.roll t delay, t])) = some (Np.roll ds delay) :=
        mapM_roll _ _ _ _ hd
      rw [List.mapM_cons, List.mapM_cons, hd, hd'] at hr
      have hr' : (Except.ok ([(Np.roll ds delay).map (·.1), ds.map (·.1)], demodulateIdx k (ds.map (·.2.2))) : Except PyErr _) = .ok r := hr
      rw [he] at hr'
      have e : [(Np.roll ds delay).map (·.1), ds.map (·.1)] = rows := congrArg Prod.fst (Except.ok.inj hr')
      refine ⟨ds.map (·.1), ?_, ?_⟩
      · have := congrArg List.length ((mapM_eq_some_iff _ _ _).1 hd)
        rw [List.length_map, List.length_map] at this
        rw [List.length_map, ← this, ht]
      · rw [← e]
        simp [Np.roll, List.map_drop, List.map_take]
  unfold loadSymbols at h
  rw [hl] at h
  change (match (if normalise = true then normaliseAndCenter (if true = true then rollFlat [s] delay ++ [s] else [s]) else
    some (if true = true then rollFlat [s] delay ++ [s] else [s])) with | none => _ | some s => _) = _ at h
  rw [if_pos rfl, rollFlat_row] at h
  have fin : ∀ t : List ℂ, t.length = s.length →
      (match fromSymbols k [Np.roll t delay, t] with
        | .error e => (.error (.py e) : Except LoadErr (Option (List (List ℂ) × List Bool)))
        | .ok r => .ok (some r)) = .ok (some (rows, bits)) → ∃ u, u.length = s.length ∧ rows = [Np.roll u delay, u] := by
    intro t ht hh
    cases hf : fromSymbols k [Np.roll t delay, t] with
    | error e => rw [hf] at hh; exact absurd hh (by simp)
    | ok r =>
      rw [hf] at hh
      exact key2 t ht r hf (by simpa using hh)
  cases normalise with
  | false => exact fin s rfl h
  | true =>
    rw [if_pos rfl] at h
    have hn : normaliseAndCenter ([Np.roll s delay] ++ [s]) = (normRow s).map fun t => [Np.roll t delay, t] := by
      unfold normaliseAndCenter
      rw [List.singleton_append, List.mapM_cons, List.mapM_cons, normRow_roll]
      cases normRow s <;> rfl
    rw [hn] at h
    cases ht : normRow s with
    | none => rw [ht] at h; exact absurd h (by simp [pure, Except.pure])
    | some t =>
      rw [ht] at h
      refine fin t ?_ h
      unfold normRow at ht
      simp only at ht
      split_ifs at ht
      rw [← Option.some.inj ht]
      simp

/-- C155: symbols that use every point of the constellation equally often are loaded, as the same points of the constellation of unit power. -/
theorem C155_value_partial (file : MatFile) (k r : Nat) (key : String) (m : SavedMode) (delay : Int) (hk : 1 ≤ k) (hr : 1 ≤ r)
    (h : PointsEven k r m.ps) (hg : 0 < m.g) (hs : file key = some [m.symbols]) :
    ∃ bits, loadSymbols file k [[key]] true delay true false false defaultPorts
      = .ok (some ([Np.roll (m.ps.map (toComplex (Real.sqrt (scalingFactor k : ℝ)))) delay, m.ps.map (toComplex (Real.sqrt (scalingFactor k : ℝ)))], bits)) := by
  have hl : ndarrayFromMatlab file [[key]] false false defaultPorts = .ok [m.symbols] := by
    unfold ndarrayFromMatlab loadSingle MatFile.get
    simp only [hs]
    rfl
  have hroll : ∀ (f : Int × Int → ℂ), (Np.roll m.ps delay).map f = Np.roll (m.ps.map f) delay := by
    intro f
    simp [Np.roll, List.map_drop, List.map_take]
  have hn : normaliseAndCenter [Np.roll m.symbols delay, m.symbols]
      = some [Np.roll (m.ps.map (toComplex (Real.sqrt (scalingFactor k : ℝ)))) delay, m.ps.map (toComplex (Real.sqrt (scalingFactor k : ℝ)))] := by
    unfold normaliseAndCenter
    rw [List.mapM_cons, List.mapM_cons, normRow_roll, show normRow m.symbols = _ from normRow_points hk hr h m.g hg m.b]
    rfl
  obtain ⟨bits, hb⟩ := pointsEven_fromSymbols hk hr [Np.roll m.ps delay, m.ps] (by simp) (by
    intro ps hps
    simp only [List.mem_cons, List.not_mem_nil, or_false] at hps
    rcases hps with rfl | rfl
    · exact (roll_perm _ _).trans h
    · exact h)
  simp only [List.map_cons, List.map_nil, hroll] at hb
  refine ⟨bits, ?_⟩
  unfold loadSymbols
  rw [hl]
  change (match (if true = true then normaliseAndCenter (if true = true then rollFlat [m.symbols] delay ++ [m.symbols] else _) else _) with
    | none => _ | some s => _) = _
  rw [if_pos rfl, if_pos rfl, rollFlat_row, List.singleton_append, hn]
  simp only
  rw [hb]
  rfl

/-- The four points of QPSK, saved with gain two. -/
def qpskMode : SavedMode := ⟨symbolsQam 2, 2, 0⟩

theorem qpskMode_even : PointsEven 2 1 qpskMode.ps := by
  unfold PointsEven qpskMode
  simp

/-- C155 is violated: it is the first mode that is delayed. -/
theorem C155_false : ¬ C155_statement := by
  intro h
  obtain ⟨bits, hb⟩ := C155_value_partial (fun _ => some [qpskMode.symbols]) 2 1 "x" qpskMode 1 (by norm_num) le_rfl qpskMode_even (by norm_num [qpskMode]) rfl
  obtain ⟨t, ht⟩ := h _ 2 "x" _ 1 true _ bits rfl hb
  have h1 : t = Np.roll (qpskMode.ps.map (toComplex (Real.sqrt (scalingFactor 2 : ℝ)))) 1 := by
    have := congrArg (fun l => l.headD []) ht
    exact this.symm
  have h2 : qpskMode.ps.map (toComplex (Real.sqrt (scalingFactor 2 : ℝ))) = Np.roll t 1 := by
    have := congrArg (fun l => l.getD 1 []) ht
    exact this
  rw [h1, roll_roll] at h2
  have e : qpskMode.ps = [(-1, -1), (-1, 1), (1, -1), (1, 1)] := by
    change symbolsQam 2 = _
    decide
  rw [e] at h2
  have h3 := congrArg (fun l => l.headD 0) h2
  have hF : (0 : ℝ) < (scalingFactor 2 : ℝ) := by exact_mod_cast scalingFactor_pos (k := 2) (by norm_num)
  have h4 : toComplex (Real.sqrt (scalingFactor 2 : ℝ)) (-1, -1) = toComplex (Real.sqrt (scalingFactor 2 : ℝ)) (1, -1) := h3
  have := toComplex_inj (Real.sqrt_pos.2 hF).ne' h4
  simp at this

/-- A file to which `C156_load` applies: 16-QAM, one mode with gain 3 and offset `1+i`, one mode with gain 1. -/
example : ∃ bits, loadSymbols (fun _ => some [(⟨symbolsQam 4, 3, ⟨1, 1⟩⟩ : SavedMode).symbols, (⟨symbolsQam 4, 1, 0⟩ : SavedMode).symbols]) 4 [["a"]] false 0 true
    false false defaultPorts = .ok (some ([(symbolsQam 4).map (toComplex (Real.sqrt (scalingFactor 4 : ℝ))),
      (symbolsQam 4).map (toComplex (Real.sqrt (scalingFactor 4 : ℝ)))], bits)) := by
  refine C156_load _ 4 1 [["a"]] false false defaultPorts 0 [⟨symbolsQam 4, 3, ⟨1, 1⟩⟩, ⟨symbolsQam 4, 1, 0⟩] (by norm_num) le_rfl (by simp) ?_ rfl
  intro s hs
  simp only [List.mem_cons, List.not_mem_nil, or_false] at hs
  rcases hs with rfl | rfl
  · exact ⟨by unfold PointsEven; simp, by norm_num⟩
  · exact ⟨by unfold PointsEven; simp, by norm_num⟩

/-- Two modes in two arrays, one a row and the other one a column. -/
example : ndarrayFromMatlab (fun s => if s = "x" then some [[0, 1, 2]] else some [[I], [I + 1], [I + 2]]) [["x"], ["y"]] false false defaultPorts
    = .ok [[0, 1, 2], [I, I + 1, I + 2]] := by
  have := C154_modes (fun s => if s = "x" then some [[0, 1, 2]] else some [[I], [I + 1], [I + 2]]) (fun i => if i = 0 then "x" else "y") 2 3
    (fun i j => if i = 0 then (j : ℂ) else I + j) false defaultPorts le_rfl (by
      intro i hi
      interval_cases i
      · exact ⟨_, rfl, .inl (by simp [List.range_succ])⟩
      · exact ⟨_, rfl, .inr (by simp [List.range_succ])⟩)
  simpa [modeArray, List.range_succ] using this

/-- C154: the default port map: the first two rows are the parts of the first mode, the others those of the second one. -/
theorem C154_default_ports (file : MatFile) (key : String) (i1 q1 i2 q2 : Nat → ℝ) (n : Nat)
    (h : file key = some [(List.range n).map fun (j : Nat) => (i1 j : ℂ), (List.range n).map fun (j : Nat) => (q1 j : ℂ), (List.range n).map fun (j : Nat) => (i2 j : ℂ), (List.range n).map fun (j : Nat) => (q2 j : ℂ)]) :
    ndarrayFromMatlab file [[key]] false true defaultPorts = .ok [(List.range n).map fun (j : Nat) => ⟨i1 j, q1 j⟩, (List.range n).map fun (j : Nat) => ⟨i2 j, q2 j⟩] := by
  have := C154_ports file key _ 2 n (fun i j => if i = 0 then ⟨i1 j, q1 j⟩ else ⟨i2 j, q2 j⟩)
    (fun i => 2 * i) (fun i => 2 * i + 1) h (by intro i hi; interval_cases i <;> simp [reOf]) (by intro i hi; interval_cases i <;> simp [imOf])
  simpa [modeArray, List.range_succ, defaultPorts] using this

/-- The rows of an oscilloscope with four ports in the default order. -/
example : ndarrayFromMatlab (fun _ => some [[1, 2], [3, 4], [5, 6], [7, 8]]) [["x"]] false true defaultPorts = .ok [[⟨1, 3⟩, ⟨2, 4⟩], [⟨5, 7⟩, ⟨6, 8⟩]] := by
  have := C154_default_ports (fun _ => some [[1, 2], [3, 4], [5, 6], [7, 8]]) "x" (fun j => 1 + j) (fun j => 3 + j) (fun j => 5 + j) (fun j => 7 + j) 2 (by
    simp only [List.range_succ, List.range_zero, List.nil_append, List.cons_append, List.map_cons, List.map_nil]
    norm_num)
  simp only [List.range_succ, List.range_zero, List.nil_append, List.cons_append, List.map_cons, List.map_nil] at this
  rw [this]
  norm_num

end Qampy
