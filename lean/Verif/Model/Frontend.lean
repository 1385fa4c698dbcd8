import Verif.Model.PulseTime

/-!
Functions of the top level modules which take their parameters from the signal object (qampy/filtering.py).
-/

namespace Qampy

/-- `rrcos_pulseshaping(sig, beta, T=None)`, qampy/filtering.py:96-117, one mode of a signal with sampling rate `fs` and symbol rate `fb`: without a width the symbol rate itself is the width (114-115); the filter has the default 1001 taps of core/filter.py:177.
The attributes of the result are copied (`recreate_from_np_array`, C53). -/
noncomputable def shapePulse (fs fb beta : ℝ) (T : Option ℝ) (sig : List ℂ) : Except PyErr (Option (List ℂ)) :=
  rrcosPulseTime fs (T.getD fb) beta 1001 sig

end Qampy
