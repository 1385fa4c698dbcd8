import Verif.Model.Quality

/-!
Mutual information from received and transmitted symbols: qampy/core/signal_quality.py:307-336.
-/

namespace Qampy

/-- `cal_mi(signal, symbols_tx, alphabet, N0, fast)` for one mode, core/signal_quality.py:307-336; called with single modes by signals.py:546. `signal` and `symbols_tx` have the same length
(numpy raises otherwise). -/
noncomputable def calMi (signal symbolsTx alphabet : List ℂ) (N0 : ℝ) (fast : Bool) : ℝ :=
  if fast then calMiMcFast signal symbolsTx alphabet N0
  else calMiMc (List.zipWith (fun r t => r - t) signal symbolsTx) alphabet N0

end Qampy
