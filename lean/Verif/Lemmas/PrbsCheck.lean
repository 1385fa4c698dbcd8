import Verif.Model.Prbs
import Verif.Lemmas.Gf2

/-! The kernel computations for the shift registers (matrix powers over the field of two elements). -/

namespace Qampy

/-- The register after one step. -/
def lfsrStep (taps : List Nat) (n sr : Nat) : Nat := (feedback taps n sr <<< (n - 1)) + (sr >>> 1)

/-- The prime factors of `2^n-1` for the supported orders. -/
def qlist : Nat → List Nat
  | 7 => [127]
  | 15 => [7, 31, 151]
  | 23 => [47, 178481]
  | 31 => [2147483647]
  | _ => []

theorem check7 : Gf2.check 7 (lfsrStep [7, 6] 7) (qlist 7) = true := by decide +kernel
theorem check15 : Gf2.check 15 (lfsrStep [15, 14] 15) (qlist 15) = true := by decide +kernel
theorem check23 : Gf2.check 23 (lfsrStep [23, 18] 23) (qlist 23) = true := by decide +kernel
theorem check31 : Gf2.check 31 (lfsrStep [31, 28] 31) (qlist 31) = true := by decide +kernel

theorem gcheck7 : Gf2.check 7 (fun s => (lfsrIntStep 193 s).2) (qlist 7) = true := by decide +kernel
theorem gcheck15 : Gf2.check 15 (fun s => (lfsrIntStep 49153 s).2) (qlist 15) = true := by decide +kernel
theorem gcheck23 : Gf2.check 23 (fun s => (lfsrIntStep 8650753 s).2) (qlist 23) = true := by decide +kernel
theorem gcheck31 : Gf2.check 31 (fun s => (lfsrIntStep 2415919105 s).2) (qlist 31) = true := by decide +kernel

end Qampy
