import Verif.Model.TrainAlt

/-!
Model of the radius of the square contour algorithm, core/equalisation/equalisation.py:262-269.
-/

namespace Qampy

open Complex

/-- `np.sign` of a real number. -/
noncomputable def npSign (x : ℝ) : ℝ := SignType.sign x

/-- `_cal_Rdash(syms)` for one symbol, core/equalisation/equalisation.py:262-263. -/
noncomputable def calRdash (s : ℂ) : ℂ :=
  ((|s.re + s.im| + |s.re - s.im| : ℝ) : ℂ) * ((npSign (s.re + s.im) : ℂ) + (npSign (s.re - s.im) : ℂ) + I * ((npSign (s.re + s.im) : ℂ) - (npSign (s.re - s.im) : ℂ))) * star s

/-- `_cal_Rsca(M)`, core/equalisation/equalisation.py:265-269, for the scaled constellation `syms`; the result is a complex number. -/
noncomputable def calRsca (syms : List ℂ) : ℂ :=
  ((syms.map fun s => ((|s.re + s.im| + |s.re - s.im| : ℝ) : ℂ) ^ 2 * calRdash s).sum / syms.length) / (4 * ((syms.map calRdash).sum / syms.length))

end Qampy
