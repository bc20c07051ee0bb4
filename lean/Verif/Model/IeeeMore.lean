import Verif.Model.Double

/-! # The remaining members of `fp_ieee` (fp_ieee.hpp) -/

namespace Thls.Ieee
variable {E F : ℕ}

/-- fp_ieee.hpp:99-100. -/
def isPosNormal (x : Ieee E F) : Bool := x.isPositive && x.isNormal
/-- fp_ieee.hpp:102-103. -/
def isNegNormal (x : Ieee E F) : Bool := x.isNegative && x.isNormal
/-- fp_ieee.hpp:105-106. -/
def isPosZero (x : Ieee E F) : Bool := x.isPositive && x.isZero
/-- fp_ieee.hpp:108-109. -/
def isNegZero (x : Ieee E F) : Bool := x.isNegative && x.isZero
/-- fp_ieee.hpp:111-112. -/
def isPosInf (x : Ieee E F) : Bool := x.isPositive && x.isInf
/-- fp_ieee.hpp:114-115. -/
def isNegInf (x : Ieee E F) : Bool := x.isNegative && x.isInf

/-- `to_double_approx`: through MPFR, `mpfr_get_d` with rounding to nearest. fp_ieee.hpp:469-478. -/
def toDoubleApprox (x : Ieee E F) : Ieee 11 52 :=
  match x.toMpfr with
  | .nan => IeeeLimits.quietNaN 11 52
  | .inf neg => if neg then IeeeLimits.negInfinity 11 52 else IeeeLimits.infinity 11 52
  | .zero neg => if neg then IeeeLimits.negZero 11 52 else IeeeLimits.posZero 11 52
  | .num neg m e => dblRound neg m e

end Thls.Ieee
