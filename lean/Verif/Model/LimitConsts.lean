import Verif.Model.Limits
import Verif.Model.Ieee
import Verif.Model.Flopoco

/-! # The integer constants of `std::numeric_limits`, and the constants of `fp_softfloat32` -/

namespace Thls

/-- `digits`. fp_flopoco.hpp:278, fp_ieee.hpp:165, policy_flopoco.hpp:107, policy_ieee_on_flopoco.hpp:110. -/
def LimitConsts.digits (F : ℕ) : ℕ := F + 1

/-- `min_exponent` of `fp_flopoco` and its wrapper, and of the wrapper of `fp_ieee`. fp_flopoco.hpp:286-288, policy_flopoco.hpp:115-117,
policy_ieee_on_flopoco.hpp:118-120. -/
def LimitConsts.fpMinExponent (E : ℕ) : ℤ := 0 - (biasN E : ℤ)
/-- `max_exponent` of the same three types. fp_flopoco.hpp:289, policy_flopoco.hpp:118, policy_ieee_on_flopoco.hpp:121. -/
def LimitConsts.fpMaxExponent (E : ℕ) : ℤ := 0 + (biasN E : ℤ) + 1
/-- `numeric_limits<fp_ieee>::min_exponent`. fp_ieee.hpp:173-175. -/
def LimitConsts.ieeeMinExponent (E : ℕ) : ℤ := 0 - (biasN E : ℤ) + 1
/-- `numeric_limits<fp_ieee>::max_exponent`. fp_ieee.hpp:176. -/
def LimitConsts.ieeeMaxExponent (E : ℕ) : ℤ := 0 + (biasN E : ℤ)
/-- A function that begins with `assert(0)`: it returns only when assertions are compiled out (`ndebug`). fp_ieee.hpp:219,225,
fp_flopoco.hpp:338, fp_softfloat.hpp:129. -/
def LimitConsts.asserted {α : Type} (ndebug : Bool) (a : α) : Option α := if ndebug then some a else none
/-- `fp_ieee` `epsilon()`. The conversion of a negative `int` to `fw_uint<ExpBits>` is not modelled: the definition is faithful for
`F + 1 ≤ bias`. fp_ieee.hpp:216-221. -/
def LimitConsts.ieeeEpsilon (ndebug : Bool) (E F : ℕ) : Option (Ieee E F) := asserted ndebug (Ieee.mk3 E F 0 (biasN E - F - 1) 0)
/-- `fp_ieee` `round_error()`, faithful for `1 ≤ bias`. fp_ieee.hpp:223-227. -/
def LimitConsts.ieeeRoundError (ndebug : Bool) (E F : ℕ) : Option (Ieee E F) := asserted ndebug (Ieee.mk3 E F 0 (biasN E - 1) 0)
/-- `fp_flopoco` `round_error()`, faithful for `1 ≤ bias`. fp_flopoco.hpp:336-340. -/
def LimitConsts.fpRoundError (ndebug : Bool) (E F : ℕ) : Option (Fp E F) := asserted ndebug (Fp.mk3 E F 0b010 (biasN E - 1) 0)

/-! ## `numeric_limits<fp_softfloat32>`

Every function begins with `assert(0)`; `ndebug` says whether assertions are compiled out. The header compiles only with `THLS_SYNTHESIS`
defined (line 51 declares a constructor under another name). -/

namespace SoftLimits

/-- fp_softfloat.hpp:103. -/
def digits : ℕ := 24
/-- fp_softfloat.hpp:111-113. -/
def minExponent : ℤ := 0 - ((2 : ℤ) ^ (8 - 1) - 1)
/-- fp_softfloat.hpp:111-114. -/
def maxExponent : ℤ := 0 + ((2 : ℤ) ^ (8 - 1) - 1) + 1
open LimitConsts

/-- fp_softfloat.hpp:127-131. -/
def min (ndebug : Bool) : Option ℕ := asserted ndebug 0x00800000
/-- fp_softfloat.hpp:133-137. -/
def max (ndebug : Bool) : Option ℕ := asserted ndebug 0x7F000000
/-- fp_softfloat.hpp:140-144. -/
def lowest (ndebug : Bool) : Option ℕ := asserted ndebug 0xFF000000
/-- fp_softfloat.hpp:146-150. -/
def epsilon (ndebug : Bool) : Option ℕ := asserted ndebug 0x3F800001
/-- fp_softfloat.hpp:152-156. -/
def roundError (ndebug : Bool) : Option ℕ := asserted ndebug 0x3F000000
/-- fp_softfloat.hpp:158-162. -/
def infinity (ndebug : Bool) : Option ℕ := asserted ndebug 0x7F800000
/-- fp_softfloat.hpp:165-169. -/
def quietNaN (ndebug : Bool) : Option ℕ := asserted ndebug 0x7F800001
/-- fp_softfloat.hpp:171-175. -/
def signallingNaN (ndebug : Bool) : Option ℕ := asserted ndebug 0x7F800001
/-- fp_softfloat.hpp:177-181. -/
def denormMin (ndebug : Bool) : Option ℕ := asserted ndebug 0x00000001

end SoftLimits

end Thls
