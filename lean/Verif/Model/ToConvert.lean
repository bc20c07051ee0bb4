import Verif.Model.Ieee

/-! # `to<...>`: conversion between `float` and the wrapper class (policy_test.hpp, policy_flopoco.hpp)

A `float` is its packed word `Ieee 8 23` (the pointer casts at policy_flopoco.hpp:245 and 269 copy the word); a
`fp_flopoco_wrapper<wE,wF>` is its only member, a word of the FloPoCo format. `none` is a call that the compiler rejects. -/

namespace Thls.To

/-- The members of `convert_policy`; a policy is a number with these bits. policy_test.hpp:21-27. -/
def allowOverflow : ℕ := 1
/-- policy_test.hpp:24. -/
def allowUnderflow : ℕ := 2
/-- policy_test.hpp:25. -/
def allowPrecisionLoss : ℕ := 4

/-- Is one of the bits of `mask` set in the policy? policy_flopoco.hpp:242-243. -/
def allows (policy mask : ℕ) : Bool := policy &&& mask != 0

/-- The static assertions of `to_impl<fp_flopoco_wrapper<wE,wF>,policy,float>`. policy_flopoco.hpp:242-243. -/
def fromFloatAsserts (policy wE wF : ℕ) : Bool :=
  (allows policy (allowOverflow ||| allowUnderflow) || decide (8 ≤ wE)) &&
    (allows policy allowPrecisionLoss || decide (23 ≤ wF))

/-- The static assertions of `to_impl<float,policy,fp_flopoco_wrapper<wE,wF>>`. policy_flopoco.hpp:261-262. -/
def toFloatAsserts (policy wE wF : ℕ) : Bool :=
  (allows policy (allowOverflow ||| allowUnderflow) || decide (wE ≤ 8)) &&
    (allows policy allowPrecisionLoss || decide (wF ≤ 23))

/-- `to<fp_flopoco_wrapper<wE,wF>,policy>(src)`. `convert(fp_flopoco&, const fp_ieee&)` is declared for equal widths only
(fp_convert.hpp:17-26), so the call is rejected in every other format. policy_test.hpp:35-38, policy_flopoco.hpp:235-252. -/
def fromFloat (policy wE wF : ℕ) (src : Ieee 8 23) : Option (Fp wE wF) :=
  if h : fromFloatAsserts policy wE wF = true ∧ wE = 8 ∧ wF = 23 then
    some (cast (by rw [h.2.1, h.2.2]) (ieeeToFlopoco src))
  else none

/-- `to<float,policy>(src)`; `convert(fp_ieee&, const fp_flopoco&)` too is declared for equal widths only
(fp_convert.hpp:29-53). policy_test.hpp:35-38, policy_flopoco.hpp:254-270. -/
def toFloat (policy : ℕ) {wE wF : ℕ} (src : Fp wE wF) : Option (Ieee 8 23) :=
  if h : toFloatAsserts policy wE wF = true ∧ wE = 8 ∧ wF = 23 then
    some (flopocoToIeee (cast (by rw [h.2.1, h.2.2]) src))
  else none

end Thls.To
