import Verif.Model.RoundedEq

/-!
Training with the transmitted symbols in rounded arithmetic, fixed step size. Every real operation of the source is followed by the rounding function `fl`, in the order of the source; products with
`1j` and sums with a zero part are exact.
-/

namespace Qampy

/-- `sbd_data_error`, pythran_equalisation.py:218-222, with rounded operations; compare `sbdDataError`. -/
noncomputable def sbdDataErrorFl (fl : ℝ → ℝ) (x : ℂ) (symbs : List ℂ) (i : Nat) : Option ℂ := do
  let s ← symbs[i]?
  some ⟨fl (fl (s.re - x.re) * |s.re|), fl (fl (s.im - x.im) * |s.im|)⟩

/-- `mu * err`, the first product of pythran_equalisation.py:170: a real times a complex number. -/
noncomputable def scaleFl (fl : ℝ → ℝ) (m : ℝ) (e : ℂ) : ℂ := ⟨fl (m * e.re), fl (m * e.im)⟩

/-- `wx[mode] += c * np.conj(X)`, pythran_equalisation.py:170, with rounded operations; compare `updateTaps`. -/
noncomputable def updateTapsFl (fl : ℝ → ℝ) (w X : List (List ℂ)) (c : ℂ) : Option (List (List ℂ)) :=
  if w.length = X.length ∧ ∀ p ∈ w.zip X, p.1.length = p.2.length then
    some (List.zipWith (List.zipWith fun a x => addFl fl a (mulFl fl c (star x))) w X)
  else none

/-- One pass of the loop body, pythran_equalisation.py:166-170, with rounded operations, for `adaptive=False`; the state is the taps and the errors so far (newest first). Compare `trainStep`. -/
noncomputable def trainStepFl (fl : ℝ → ℝ) (errf : ℂ → List ℂ → Nat → Option ℂ) (E : List (List ℂ)) (os ntaps : Nat) (symbs : List ℂ) (mu : ℝ)
    (st : List (List ℂ) × List ℂ) (i : Nat) : Option (List (List ℂ) × List ℂ) := do
  let X := window E (i * os) ntaps
  let xest ← applyFilterFl fl X st.1 ntaps
  let err ← errf xest symbs i
  let w ← updateTapsFl fl st.1 X (scaleFl fl mu err)
  some (w, err :: st.2)

/-- The two inner loops for one mode, pythran_equalisation.py:164-170, with rounded operations; compare `trainMode`. -/
noncomputable def trainModeFl (fl : ℝ → ℝ) (errf : ℂ → List ℂ → Nat → Option ℂ) (E : List (List ℂ)) (trSyms nIter os ntaps : Nat) (symbs : List ℂ) (w : List (List ℂ)) (mu : ℝ) :
    Option (List (List ℂ) × List ℂ) :=
  (List.range nIter).foldlM (fun st _ => (List.range trSyms).foldlM (trainStepFl fl errf E os ntaps symbs mu) st) (w, [])

end Qampy
