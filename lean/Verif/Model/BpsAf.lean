import Verif.Model.Phase
import Verif.Model.Pilots

/-!
Model of the ArrayFire version of the blind phase search, qampy/core/phaserecovery.py:161-206, which works on blocks of samples so that the distances to all symbols fit into the memory of the device.
`af.accum` (cumulative sum), `af.min`, `af.abs`, `af.broadcast` and `af.imin` (position of the first minimum) do what their documentation says; an empty slice of a device array is an empty array. The first block
is converted to the precision of the signal and the others to double precision (179, 189, 196, 201); arithmetic is exact here.
-/

namespace Qampy

open Complex (I)

/-- `_movavg_af(X, N, axis=0)`, phaserecovery.py:161-166; `cs[:-0]` is empty, so that the difference for `N = 0` has no common shape. -/
noncomputable def movavgAf (X : List (List ℝ)) (cols N : Nat) : Except PyErr (List (List ℝ)) :=
  if N = 0 then .error .value
  else
    let cs := cumsumRows (List.replicate cols 0) X
    .ok (List.zipWith (List.zipWith (· - ·)) (cs.drop N) (cs.take (cs.length - N)))

/-- One block: distances to the closest symbol, moving sums over `2N` rows and the best angle of each row, phaserecovery.py:178-181. -/
noncomputable def afBlock (rows : List (List ℂ)) (symbols : List ℂ) (cols N : Nat) : Except PyErr (List Nat) :=
  match rows.mapM fun r => r.mapM fun x => listMin (symbols.map fun s => ‖x - s‖ ^ 2) with
  | none => .error .value
  | some tmp => (movavgAf tmp cols (2 * N)).bind fun cs => (cs.mapM Np.argmin).elim (.error .value) .ok

/-- The samples rotated by all test angles, phaserecovery.py:174: one row of angles for all samples, or one per sample. -/
noncomputable def afRotated (E : List ℂ) (angles : List (List ℝ)) : List (List ℂ) :=
  E.mapIdx fun i e => (angles.getD (if angles.length = 1 then 0 else i) []).map fun φ : ℝ => e * Complex.exp (I * (φ : ℂ))

/-- The blocks after the first one and before the last one, phaserecovery.py:195-200. -/
noncomputable def afMiddle (EE : List (List ℂ)) (symbols : List ℂ) (cols N Nmax : Nat) (idx : List Nat) (i : Nat) : Except PyErr (List Nat) :=
  (afBlock (Np.slice EE ((i * Nmax : Nat) - (N : Int)) (((i + 1) * Nmax + N : Nat) : Int)) symbols cols N).bind fun b => setSlice idx (i * Nmax) ((i + 1) * Nmax) b

/-- The number of blocks and the size of the last one, phaserecovery.py:184-188. -/
def afSplit (L N Nmax : Nat) : Nat × Nat := if L % Nmax < N then (L / Nmax - 1, L % Nmax + Nmax) else (L / Nmax, L % Nmax)

/-- `_bps_idx_af(E, angles, symbols, N)`, phaserecovery.py:168-206, where `NMAX` is the module constant (4 GiB, line 38). A slice whose end is before its start is
empty, hence the `max` in the bounds of the assignments. -/
noncomputable def bpsIdxAf (E : List ℂ) (angles : List (List ℝ)) (symbols : List ℂ) (N NMAX : Nat) : Except PyErr (List Nat) :=
  let cols := (angles.headD []).length
  if cols = 0 ∨ symbols.length = 0 then .error .zeroDiv
  else if angles.length ≠ 1 ∧ angles.length ≠ E.length then .error .value
  else
    let Nmax := NMAX / cols / symbols.length / 16
    let L := E.length
    let EE := afRotated E angles
    if L ≤ Nmax + N then (afBlock EE symbols cols N).bind fun b => setSlice (List.replicate L 0) N (max N (L - N)) b
    else if Nmax = 0 then .error .zeroDiv
    else do
      let first ← afBlock (EE.take (Nmax + N)) symbols cols N
      let idx ← setSlice (List.replicate L 0) N (max N Nmax) first
      let idx ← (List.range' 1 ((afSplit L N Nmax).1 - 1)).foldlM (afMiddle EE symbols cols N Nmax) idx
      let last ← afBlock (Np.slice EE (((afSplit L N Nmax).1 * Nmax : Nat) - (N : Int)) (((afSplit L N Nmax).1 * Nmax + (afSplit L N Nmax).2 : Nat) : Int)) symbols cols N
      setSlice idx ((afSplit L N Nmax).1 * Nmax) (L - N) last

end Qampy
