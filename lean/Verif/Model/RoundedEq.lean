import Verif.Model.Equaliser
import Verif.Model.Rounded

/-!
Filter and decisions with rounded arithmetic. Every real operation of the source is followed by the rounding function `fl`, in the order of the source; fused operations and the reordering that
`-ffast-math` permits are not modelled.
-/

namespace Qampy

/-- Complex addition: the parts are added separately. -/
noncomputable def addFl (fl : ℝ → ℝ) (a b : ℂ) : ℂ := ⟨fl (a.re + b.re), fl (a.im + b.im)⟩

/-- Complex multiplication by the usual formula (the compiler options include `-ffast-math`, so that there is no special treatment of infinities). -/
noncomputable def mulFl (fl : ℝ → ℝ) (a b : ℂ) : ℂ := ⟨fl (fl (a.re * b.re) - fl (a.im * b.im)), fl (fl (a.re * b.im) + fl (a.im * b.re))⟩

/-- `apply_filter(E, wx)`, pythran_equalisation.py:24-31, with rounded operations; compare `applyFilter`. -/
noncomputable def applyFilterFl (fl : ℝ → ℝ) (E wx : List (List ℂ)) (ntaps : Nat) : Option ℂ :=
  (List.range E.length).foldlM (fun acc k =>
    (List.range ntaps).foldlM (fun acc i => do
      let e ← at2 E k i
      let w ← at2 wx k i
      some (addFl fl acc (mulFl fl e w))) acc) 0

/-- `cabsq(X-symbs[j])`, pythran_dsp.py:3-4 and 19, with rounded operations. -/
noncomputable def distSqFl (fl : ℝ → ℝ) (X s : ℂ) : ℝ := fl (fl (fl (X.re - s.re) ^ 2) + fl (fl (X.im - s.im) ^ 2))

/-- `np.abs(X-symbs)`, pythran_equalisation.py:234, with a rounded difference; `flAbs` is the absolute value of the C library. -/
noncomputable def distAbsFl (fl : ℝ → ℝ) (flAbs : ℂ → ℝ) (X s : ℂ) : ℝ := flAbs ⟨fl (X.re - s.re), fl (X.im - s.im)⟩

/-- `abs(X-symbs[j])**2`, pythran_equalisation.py:262. -/
noncomputable def distAbsSqFl (fl : ℝ → ℝ) (flAbs : ℂ → ℝ) (X s : ℂ) : ℝ := fl (distAbsFl fl flAbs X s ^ 2)

/-- The loop of `det_symbol(X, symbs)`, pythran_equalisation.py:261-265 and pythran_dsp.py:18-22, for any way to compute the distance; `s` and `d0` are the symbol and the distance so far. -/
noncomputable def detSymbolBy (dist : ℂ → ℂ → ℝ) (X : ℂ) : List ℂ → ℂ → ℝ → ℂ × ℝ
  | [], s, d0 => (s, d0)
  | c :: cs, s, d0 => if dist X c < d0 then detSymbolBy dist X cs c (dist X c) else detSymbolBy dist X cs s d0

/-- `det_symbol_argmin(X, symbs)`, pythran_equalisation.py:233-236, for any way to compute the distance; compare `detSymbolArgmin`. -/
noncomputable def detArgminBy (dist : ℂ → ℂ → ℝ) (X : ℂ) (symbs : List ℂ) : Option (ℂ × ℝ × Nat) :=
  match Np.argmin (symbs.map fun s => dist X s) with
  | none => none
  | some i => some (symbs.getD i 0, (symbs.map fun s => dist X s).getD i 0, i)

end Qampy
