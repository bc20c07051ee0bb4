import Verif.Model.Convert
import Verif.Model.Limits
import Verif.Model.Mul
import Verif.Model.Add
import Verif.Model.Div

/-! # The IEEE encoding, its conversions, and the IEEE-on-FloPoCo arithmetic
(fp_ieee.hpp, fp_convert.hpp, fp_promote.hpp, policy_ieee_on_flopoco.hpp) -/

namespace Thls

/-- `fp_ieee<E,F>`: one packed word of `1+E+F` bits. fp_ieee.hpp:18-49. -/
structure Ieee (E F : ℕ) where
  bits : ℕ
  isLt : bits < 2 ^ (1 + E + F)
deriving DecidableEq

namespace Ieee
variable {E F : ℕ}

/-- Constructor from a packed word (a `fw_uint<1+E+F>`, so that the reduction does nothing).
fp_ieee.hpp:29-31. -/
def ofBits (E F b : ℕ) : Ieee E F := ⟨b % 2 ^ (1 + E + F), Nat.mod_lt _ (by positivity)⟩

/-- `fp_ieee<E,F>(concat(sign,exp,frac))`, as used throughout fp_ieee.hpp, fp_convert.hpp and fp_promote.hpp;
ternary `concat` of fw_uint_on_masked_uint.hpp:726-728. -/
def mk3 (E F sign exp frac : ℕ) : Ieee E F := ofBits E F (concat (E + F) sign (concat F exp frac))

/-- fp_ieee.hpp:67-68. -/
def sign (x : Ieee E F) : ℕ := getBits (E + F) (E + F) x.bits
/-- fp_ieee.hpp:70-71. -/
def exp (x : Ieee E F) : ℕ := getBits (E + F - 1) F x.bits
/-- fp_ieee.hpp:73-74. -/
def frac (x : Ieee E F) : ℕ := getBits (F - 1) 0 x.bits

/-- `get_flags`: FloPoCo flags; denormals count as zero. fp_ieee.hpp:52-65. -/
def flags (x : Ieee E F) : ℕ :=
  if x.exp = 0 then 0b00
  else if x.exp = ones E then (if x.frac = 0 then 0b10 else 0b11)
  else 0b01

/-- fp_ieee.hpp:77-78. -/
def isZero (x : Ieee E F) : Bool := x.exp == 0
/-- fp_ieee.hpp:81-82. -/
def isNormal (x : Ieee E F) : Bool := x.exp != ones E && x.exp != 0
/-- fp_ieee.hpp:84-85. -/
def isInf (x : Ieee E F) : Bool := x.exp == ones E && x.frac == 0
/-- fp_ieee.hpp:87-88. -/
def isNan (x : Ieee E F) : Bool := x.exp == ones E && x.frac != 0
/-- fp_ieee.hpp:91-92. -/
def isPositive (x : Ieee E F) : Bool := x.sign == 0
/-- fp_ieee.hpp:95-96. -/
def isNegative (x : Ieee E F) : Bool := x.sign == 1

/-- `equals`. fp_ieee.hpp:124-140. -/
def equals (x o : Ieee E F) : Bool :=
  let eEq := x.exp == o.exp
  let fEq := x.frac == o.frac
  let sEq := x.sign == o.sign
  if x.exp = 0 then eEq
  else if x.exp = ones E then (if x.frac = 0 then eEq && fEq && sEq else eEq && o.frac != 0)
  else eEq && fEq && sEq

end Ieee

namespace IeeeLimits
/-- `numeric_limits<fp_ieee>::min()`. fp_ieee.hpp:189-192. -/
def min (E F : ℕ) : Ieee E F := Ieee.mk3 E F 0 (concat 1 0 1) 0
/-- fp_ieee.hpp:195-198. -/
def negMin (E F : ℕ) : Ieee E F := Ieee.mk3 E F 1 (concat 1 0 1) 0
/-- fp_ieee.hpp:200-203. -/
def max (E F : ℕ) : Ieee E F := Ieee.mk3 E F 0 (concat 1 (ones (E - 1)) 0) (ones F)
/-- fp_ieee.hpp:206-209. -/
def negMax (E F : ℕ) : Ieee E F := Ieee.mk3 E F 1 (concat 1 (ones (E - 1)) 0) (ones F)
/-- fp_ieee.hpp:211-214. -/
def lowest (E F : ℕ) : Ieee E F := Ieee.mk3 E F 1 (concat 1 (ones (E - 1)) 0) (ones F)
/-- fp_ieee.hpp:229-232. -/
def infinity (E F : ℕ) : Ieee E F := Ieee.mk3 E F 0 (ones E) 0
/-- fp_ieee.hpp:235-238. -/
def negInfinity (E F : ℕ) : Ieee E F := Ieee.mk3 E F 1 (ones E) 0
/-- fp_ieee.hpp:240-243. -/
def quietNaN (E F : ℕ) : Ieee E F := Ieee.mk3 E F 0 (ones E) (ones F)
/-- fp_ieee.hpp:245-249. -/
def signallingNaN (E F : ℕ) : Ieee E F := Ieee.mk3 E F 0 (ones E) 0
/-- fp_ieee.hpp:251-254. -/
def denormMin (E F : ℕ) : Ieee E F := min E F
/-- fp_ieee.hpp:257-260. -/
def posZero (E F : ℕ) : Ieee E F := Ieee.mk3 E F 0 0 0
/-- fp_ieee.hpp:263-266. -/
def negZero (E F : ℕ) : Ieee E F := Ieee.mk3 E F 1 0 0
/-- fp_ieee.hpp:273-276. -/
def posOne (E F : ℕ) : Ieee E F := Ieee.mk3 E F 0 (biasN E) 0
/-- fp_ieee.hpp:279-282. -/
def negOne (E F : ℕ) : Ieee E F := Ieee.mk3 E F 1 (biasN E) 0
end IeeeLimits

/-- `convert(fp_flopoco<E,F>&, const fp_ieee<E,F>&)`. fp_convert.hpp:17-26. -/
def ieeeToFlopoco {E F : ℕ} (x : Ieee E F) : Fp E F := Fp.mk4 E F x.flags x.sign x.exp x.frac

/-- `convert(fp_ieee<E,F>&, const fp_flopoco<E,F>&)`. fp_convert.hpp:29-53. -/
def flopocoToIeee {E F : ℕ} (x : Fp E F) : Ieee E F :=
  let over := x.isNormal && x.exp == ones E
  let under := x.isNormal && x.exp == 0
  Ieee.mk3 E F x.sign
    (if x.isZero || under then 0 else if x.isNan || x.isInf || over then ones E else x.exp)
    (if x.isZero || x.isInf || over || under then 0 else if x.isNan then ones F else x.frac)

/-- `promote(fp_ieee<DstE,DstF>&, const fp_ieee<SrcE,SrcF>&)`. fp_promote.hpp:67-76,126-127,157-161. -/
def ieeePromote (dE dF : ℕ) {sE sF : ℕ} (x : Ieee sE sF) : Ieee dE dF :=
  Ieee.mk3 dE dF x.sign (promoteExp dE sE x.exp) (promoteFrac dF sF x.frac)

/-- `promote(fp_ieee<DstE,DstF>&, const fp_flopoco<SrcE,SrcF>&)`; static assertion `DstE > SrcE`.
fp_promote.hpp:90-117,172-180. -/
def promoteToIeee (dE dF : ℕ) {sE sF : ℕ} (x : Fp sE sF) : Ieee dE dF :=
  Ieee.mk3 dE dF x.sign
    (if x.flags = 0b01 then promoteExp dE sE x.exp else if x.flags = 0b00 then 0 else ones dE)
    (if x.flags = 0b01 then promoteFrac dF sF x.frac else if x.flags = 0b11 then ones dF else 0)

/-- `get(mpfr_t)` with a destination of precision `F+1`. fp_ieee.hpp:365-404. -/
def Ieee.toMpfr {E F : ℕ} (x : Ieee E F) : Mpfr :=
  if x.isZero then .zero x.isNegative
  else if x.isInf then .inf x.isNegative
  else if x.isNan then .nan
  else .num x.isNegative (2 ^ F + x.frac) ((x.exp : ℤ) - F - biasN E)

/-- Constructor from an MPFR number of precision `F+1`. `none` is a thrown exception or the failed assertion of
line 329. fp_ieee.hpp:294-363 (`min_exponent`, `max_exponent` at 174-175). -/
def Ieee.ofMpfr (E F : ℕ) (allow : Bool) : Mpfr → Option (Ieee E F)
  | .nan => some (IeeeLimits.quietNaN E F)
  | .inf neg => some (if neg then IeeeLimits.negInfinity E F else IeeeLimits.infinity E F)
  | .zero neg => some (Ieee.ofBits E F (concat (E + F) neg.toNat 0))
  | .num neg m e0 =>
    if m / 2 ^ F % 2 = 0 then none else
    let fracBits := m - 2 ^ F
    let e := e0 + F
    if 2 ^ F ≤ fracBits then none else
    if e < 0 - (biasN E : ℤ) + 1 then
      if allow then some (Ieee.mk3 E F neg.toNat 0 0) else none
    else if e > 0 + (biasN E : ℤ) then
      if allow then some (Ieee.mk3 E F neg.toNat (ones E) 0) else none
    else some (Ieee.mk3 E F neg.toNat (e + biasN E).toNat fracBits)

/-- The operators of `fp_ieee_on_flopoco_wrapper`: convert, operate, convert back.
policy_ieee_on_flopoco.hpp:28-82; `mul`, `add`, `div` are `mul_v1`, `add_dual`, `div_v1`
(fp_flopoco_primitives.hpp). -/
def IeeeOps.mul {E F : ℕ} (a b : Ieee E F) : Option (Ieee E F) :=
  (mulV1 E F (ieeeToFlopoco a) (ieeeToFlopoco b)).map flopocoToIeee
/-- policy_ieee_on_flopoco.hpp:59-60. -/
def IeeeOps.add {E F : ℕ} (a b : Ieee E F) : Option (Ieee E F) :=
  (AddDual.addSame (ieeeToFlopoco a) (ieeeToFlopoco b)).map flopocoToIeee
/-- policy_ieee_on_flopoco.hpp:62-63. -/
def IeeeOps.div {E F : ℕ} (a b : Ieee E F) : Ieee E F :=
  flopocoToIeee (divV1 E F (ieeeToFlopoco a) (ieeeToFlopoco b))
/-- policy_ieee_on_flopoco.hpp:66-67. -/
def IeeeOps.lt {E F : ℕ} (a b : Ieee E F) : Bool := Ord.lessThan (ieeeToFlopoco a) (ieeeToFlopoco b)
/-- policy_ieee_on_flopoco.hpp:69-70. -/
def IeeeOps.le {E F : ℕ} (a b : Ieee E F) : Bool := Ord.lessThanEqual (ieeeToFlopoco a) (ieeeToFlopoco b)
/-- policy_ieee_on_flopoco.hpp:72-73. -/
def IeeeOps.eq {E F : ℕ} (a b : Ieee E F) : Bool := Ord.equal (ieeeToFlopoco a) (ieeeToFlopoco b)
/-- policy_ieee_on_flopoco.hpp:75-76. -/
def IeeeOps.ge {E F : ℕ} (a b : Ieee E F) : Bool := Ord.greaterThanEqual (ieeeToFlopoco a) (ieeeToFlopoco b)
/-- policy_ieee_on_flopoco.hpp:78-79. -/
def IeeeOps.gt {E F : ℕ} (a b : Ieee E F) : Bool := Ord.greaterThan (ieeeToFlopoco a) (ieeeToFlopoco b)
/-- policy_ieee_on_flopoco.hpp:81-82. -/
def IeeeOps.ne {E F : ℕ} (a b : Ieee E F) : Bool := Ord.notEqual (ieeeToFlopoco a) (ieeeToFlopoco b)

end Thls
