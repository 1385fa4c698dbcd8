import Verif.Model.Waveform
import Verif.Model.Constellation

/-!
# Probabilistically shaped symbols
-/

namespace Qampy

/-- The cumulative distribution of `np.random.choice(a, N, p=p)`: `cdf = p.cumsum(); cdf /= cdf[-1]`. -/
noncomputable def choiceCdf (p : List ℝ) : List ℝ := (List.range p.length).map fun i => (p.take (i + 1)).sum / p.sum

/-- `cdf.searchsorted(u, side="right")` for the uniform draw `u`: the number of entries not above `u`. -/
noncomputable def choiceIdx (p : List ℝ) (u : ℝ) : Nat := (choiceCdf p).countP fun c => decide (c ≤ u)

/-- The checks of `np.random.choice` on `a` and `p`: equal lengths, no negative entry, sum one up to `sqrt(eps)`. -/
def choiceValid (a p : List ℝ) : Prop := a ≠ [] ∧ a.length = p.length ∧ (∀ q ∈ p, 0 ≤ q) ∧ |p.sum - 1| ≤ 1 / 2 ^ 26

open Classical in
/-- `np.random.choice(a, N, p=p)` with the `N` uniform draws `us` of the generator, used at theory.py:244-245. -/
noncomputable def npChoice (a p us : List ℝ) : Except PyErr (List ℝ) :=
  if choiceValid a p then us.mapM fun u => match a[choiceIdx p u]? with
    | some x => .ok x
    | none => .error .index
  else .error .value

/-- `generate_ps_symbols(N, symbs, px, normalize)`, theory.py:224-248; `us` and `vs` are the uniform draws of the two calls of
`np.random.choice`. The module does not import `utils` (theory.py:22-30), so normalising raises NameError. -/
noncomputable def generatePsSymbols (us vs symbs px : List ℝ) (normalize : Bool) : Except PyErr (List ℂ) := do
  let x ← npChoice symbs px us
  let y ← npChoice symbs px vs
  if normalize then throw .name
  return List.zipWith (fun a b => (⟨a, b⟩ : ℂ)) x y

end Qampy
