import Verif.Model.Equaliser

/-!
Model of `det_symbol_parallel` (core/equalisation/pythran_equalisation.py:269-302), the version of `det_symbol` with a private best symbol and a final
comparison.
-/

namespace Qampy

/-- `det_symbol_parallel(X, symbs)`, pythran_equalisation.py:269-302. The directive before the loop is commented out (`##omp`, line 291), so that the loop
(lines 292-296, here `detSymbolGo`) is sequential and runs on `d0_priv`, `s_priv`; the critical section (297-300) copies them if they are better. -/
noncomputable def detSymbolParallel (X : ℂ) (symbs : List ℂ) : ℂ × ℝ :=
  let priv := detSymbolGo X symbs 1 1000
  if priv.2 < 1000 then priv else (1, 1000)

/-- `det_symbol_parallel` as it would run with the directive and private `d0_priv`, `s_priv`: every thread has one part of the alphabet and searches it with its own start values, the
threads enter the critical section one after the other in any order (here: the order of the list of parts). -/
noncomputable def detSymbolThreads (X : ℂ) (parts : List (List ℂ)) : ℂ × ℝ :=
  parts.foldl (fun best part => let priv := detSymbolGo X part 1 1000; if priv.2 < best.2 then priv else best) (1, 1000)

end Qampy
