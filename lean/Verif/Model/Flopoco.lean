import Verif.Model.Bits

/-!
# The FloPoCo floating-point format (fp_flopoco.hpp)
-/

namespace Thls

/-- `fp_flopoco<E,F>`: one packed word of `3+E+F` bits. fp_flopoco.hpp:21-42,111. -/
structure Fp (E F : ℕ) where
  bits : ℕ
  isLt : bits < 2 ^ (3 + E + F)
deriving DecidableEq

namespace Fp

variable {E F : ℕ}

/-- Constructor from a packed word. The C++ argument has type `fw_uint<3+E+F>`; the reduction modulo
`2^(3+E+F)` is a no-op on such values. fp_flopoco.hpp:36-38. -/
def ofBits (E F b : ℕ) : Fp E F := ⟨b % 2 ^ (3 + E + F), Nat.mod_lt _ (by positivity)⟩

/-- Constructor from the four fields. fp_flopoco.hpp:40-42 (four-way `concat`,
fw_uint_on_masked_uint.hpp:726-733). -/
def mk4 (E F flags sign exp frac : ℕ) : Fp E F :=
  ofBits E F (concat (1 + E + F) flags (concat (E + F) sign (concat F exp frac)))

/-- fp_flopoco.hpp:113-114. -/
def flags (x : Fp E F) : ℕ := getBits (E + F + 2) (E + F + 1) x.bits
/-- fp_flopoco.hpp:116-117. -/
def sign (x : Fp E F) : ℕ := getBits (E + F) (E + F) x.bits
/-- fp_flopoco.hpp:119-120. -/
def exp (x : Fp E F) : ℕ := getBits (E + F - 1) F x.bits
/-- fp_flopoco.hpp:122-123. -/
def frac (x : Fp E F) : ℕ := getBits (F - 1) 0 x.bits
/-- fp_flopoco.hpp:126-127. -/
def expFrac (x : Fp E F) : ℕ := getBits (E + F - 1) 0 x.bits
/-- fp_flopoco.hpp:134-135. -/
def flagsExpFrac (x : Fp E F) : ℕ := concat (E + F) x.flags x.expFrac

/-- fp_flopoco.hpp:157-158. -/
def isZero (x : Fp E F) : Bool := x.flags == 0
/-- fp_flopoco.hpp:160-161. -/
def isNormal (x : Fp E F) : Bool := x.flags == 1
/-- fp_flopoco.hpp:163-164. -/
def isInf (x : Fp E F) : Bool := x.flags == 2
/-- fp_flopoco.hpp:166-167. -/
def isNan (x : Fp E F) : Bool := x.flags == 3
/-- fp_flopoco.hpp:169-170. -/
def isPositive (x : Fp E F) : Bool := x.sign == 0
/-- fp_flopoco.hpp:172-173. -/
def isNegative (x : Fp E F) : Bool := x.sign == 1

/-- `equals`. fp_flopoco.hpp:205-218. -/
def equals (x o : Fp E F) : Bool :=
  if x.flags ≠ o.flags then false
  else if x.isNan then o.isNan
  else if x.sign ≠ o.sign then false
  else if x.isNormal then x.exp == o.exp && x.frac == o.frac
  else true

end Fp

/-- The exponent bias as computed by the code, `(1<<(E-1))-1`. fp_flopoco.hpp:27. -/
def biasN (E : ℕ) : ℕ := 2 ^ (E - 1) - 1

end Thls
