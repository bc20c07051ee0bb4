import Verif.Model.Flopoco
import Verif.Spec

/-! # `numeric_limits`, `nextup`, `nextdown`, `within_1ulp` and MPFR exchange (fp_flopoco.hpp) -/

namespace Thls

namespace Fp
variable {E F : ℕ}

/-- `T(concat(fw_uint<3>(flags_sign), exp, frac))`. fp_flopoco.hpp:36-38 with the ternary `concat`
(fw_uint_on_masked_uint.hpp:726-728). -/
def mk3 (E F fs e f : ℕ) : Fp E F := ofBits E F (concat (E + F) fs (concat F e f))

/-- fp_flopoco.hpp:176-177. -/
def isPosNormal (x : Fp E F) : Bool := x.isPositive && x.isNormal
/-- fp_flopoco.hpp:179-180. -/
def isNegNormal (x : Fp E F) : Bool := x.isNegative && x.isNormal
/-- fp_flopoco.hpp:182-183. -/
def isPosZero (x : Fp E F) : Bool := x.isPositive && x.isZero
/-- fp_flopoco.hpp:185-186. -/
def isNegZero (x : Fp E F) : Bool := x.isNegative && x.isZero
/-- fp_flopoco.hpp:188-189. -/
def isPosInf (x : Fp E F) : Bool := x.isPositive && x.isInf
/-- fp_flopoco.hpp:191-192. -/
def isNegInf (x : Fp E F) : Bool := x.isNegative && x.isInf

/-- `get_equality_class`: a code ordering NaN, -Inf, -Norm, Zero, +Norm, +Inf. fp_flopoco.hpp:138-155. -/
def equalityClass (x : Fp E F) : ℕ :=
  let sf := getBits (E + F + 2) (E + F) x.bits
  if sf = 0b110 ∨ sf = 0b111 then 0
  else if sf = 0b101 then 1
  else if sf = 0b011 then 2
  else if sf = 0b001 ∨ sf = 0b000 then 3
  else if sf = 0b010 then 4
  else 5

/-- `within_1ulp`. fp_flopoco.hpp:220-253. -/
def within1ulp (x o : Fp E F) : Bool :=
  if o.isNan then x.isNan
  else if x.isNan then o.isNan
  else if x.isZero then o.isZero || (o.isNormal && o.exp == 0 && o.frac == 0)
  else if o.isZero then x.isZero || (x.isNormal && x.exp == 0 && x.frac == 0)
  else if x.sign ≠ o.sign then false
  else if x.isInf then o.isInf || (o.isNormal && o.exp == ones E && o.frac == ones F)
  else if o.isInf then x.isInf || (x.isNormal && x.exp == ones E && x.frac == ones F)
  else
    let ua := concat F x.exp x.frac
    let ub := concat F o.exp o.frac
    let (ua, ub) := if ua > ub then (ub, ua) else (ua, ub)
    addW (E + F) ua 1 == ub || ua == ub

end Fp

namespace Limits

/-- `numeric_limits<T>::min()`. fp_flopoco.hpp:302-305. -/
def min (E F : ℕ) : Fp E F := Fp.mk3 E F 0b010 0 0
/-- fp_flopoco.hpp:308-311. -/
def negMin (E F : ℕ) : Fp E F := Fp.mk3 E F 0b011 0 0
/-- fp_flopoco.hpp:313-316. -/
def max (E F : ℕ) : Fp E F := Fp.mk3 E F 0b010 (ones E) (ones F)
/-- fp_flopoco.hpp:319-322. -/
def negMax (E F : ℕ) : Fp E F := Fp.mk3 E F 0b011 (ones E) (ones F)
/-- fp_flopoco.hpp:324-327. -/
def lowest (E F : ℕ) : Fp E F := Fp.mk3 E F 0b011 (ones E) (ones F)
/-- `epsilon()` as compiled with `NDEBUG` (the body starts with `assert(0)`). fp_flopoco.hpp:329-334. -/
def epsilonBody (E F : ℕ) : Fp E F := Fp.mk3 E F 0b010 (biasN E - F - 1) 0
/-- `epsilon()` with assertions enabled never returns. fp_flopoco.hpp:332. -/
def epsilon (E F : ℕ) : Option (Fp E F) := none
/-- fp_flopoco.hpp:342-345. -/
def infinity (E F : ℕ) : Fp E F := Fp.mk3 E F 0b100 0 0
/-- fp_flopoco.hpp:348-351. -/
def negInfinity (E F : ℕ) : Fp E F := Fp.mk3 E F 0b101 0 0
/-- fp_flopoco.hpp:353-356. -/
def quietNaN (E F : ℕ) : Fp E F := Fp.mk3 E F 0b110 0 0
/-- fp_flopoco.hpp:358-362. -/
def signallingNaN (E F : ℕ) : Fp E F := Fp.mk3 E F 0b000 0 0
/-- fp_flopoco.hpp:370-373. -/
def posZero (E F : ℕ) : Fp E F := Fp.mk3 E F 0b000 0 0
/-- fp_flopoco.hpp:376-379. -/
def negZero (E F : ℕ) : Fp E F := Fp.mk3 E F 0b001 0 0
/-- fp_flopoco.hpp:386-389. -/
def posOne (E F : ℕ) : Fp E F := Fp.mk3 E F 0b010 (biasN E) 0
/-- fp_flopoco.hpp:392-395. -/
def negOne (E F : ℕ) : Fp E F := Fp.mk3 E F 0b011 (biasN E) 0

end Limits

/-- `nextup`. fp_flopoco.hpp:405-439. -/
def nextup {E F : ℕ} (x : Fp E F) : Fp E F :=
  if x.isPosInf then x
  else if x.isPosNormal then
    if x.frac = ones F then
      if x.exp = ones E then Limits.infinity E F
      else Fp.mk3 E F 0b010 (addW E x.exp 1) 0
    else Fp.mk3 E F 0b010 x.exp (addW F x.frac 1)
  else if x.isPosZero then Limits.min E F
  else if x.isNegZero then Limits.posZero E F
  else if x.isNegNormal then
    if x.frac = 0 then
      if x.exp = 0 then Limits.negZero E F
      else Fp.mk3 E F 0b011 (subW E x.exp 1) (ones F)
    else Fp.mk3 E F 0b011 x.exp (subW F x.frac 1)
  else if x.isNegInf then Limits.lowest E F
  else Limits.quietNaN E F

/-- `nextdown`, with the two wrong fraction constants of lines 454 and 466. fp_flopoco.hpp:441-475. -/
def nextdown {E F : ℕ} (x : Fp E F) : Fp E F :=
  if x.isPosInf then Limits.max E F
  else if x.isPosNormal then
    if x.frac = 0 then
      if x.exp = 0 then Limits.posZero E F
      else Fp.mk3 E F 0b010 (subW E x.exp 1) 0
    else Fp.mk3 E F 0b010 x.exp (subW F x.frac 1)
  else if x.isPosZero then Limits.negZero E F
  else if x.isNegZero then Limits.negMin E F
  else if x.isNegNormal then
    if x.frac = ones F then
      if x.exp = ones E then Limits.negInfinity E F
      else Fp.mk3 E F 0b011 (addW E x.exp 1) (ones F)
    else Fp.mk3 E F 0b011 x.exp (addW F x.frac 1)
  else if x.isNegInf then x
  else Limits.quietNaN E F

/-- An MPFR number of precision `p`: NaN, a signed infinity, a signed zero, or `± m * 2^e` with `m` of exactly
`p` bits (the form `mpfr_get_z_2exp` returns). This replaces the MPFR library.
The type `mpfr_t` of the library, as used at fp_flopoco.hpp:48,100-106,499-600. -/
inductive Mpfr where
  | nan
  | inf (neg : Bool)
  | zero (neg : Bool)
  | num (neg : Bool) (m : ℕ) (e : ℤ)
deriving DecidableEq

/-- The datum an MPFR number stands for. Specification of the library type; not a function of the code. -/
def Mpfr.datum : Mpfr → Spec.Datum
  | .nan => .nan
  | .inf s => .inf s
  | .zero s => .zero s
  | .num s m e => .num ((if s then -1 else 1) * ((m : ℚ) * 2 ^ e))

/-- `get(mpfr_t)` with a destination of precision `F+1` (any other precision throws, line 575).
`mpfr_set_z_2exp` of an `F+1`-bit integer into `F+1` bits is exact. fp_flopoco.hpp:571-613. -/
def toMpfr {E F : ℕ} (x : Fp E F) : Mpfr :=
  let negative := x.sign == 1
  if x.flags = 0b00 then .zero negative
  else if x.flags = 0b10 then .inf negative
  else if x.flags = 0b11 then .nan
  else .num negative (2 ^ F + x.frac) ((x.exp : ℤ) - F - biasN E)

/-- Constructor from an MPFR number of precision `F+1`. `none` is a thrown exception or failed assertion (line
533: the top bit of the significand must be set). fp_flopoco.hpp:498-569. -/
def ofMpfr (E F : ℕ) (allow : Bool) : Mpfr → Option (Fp E F)
  | .nan => some (Limits.quietNaN E F)
  | .inf neg => some (if neg then Limits.negInfinity E F else Limits.infinity E F)
  | .zero neg => some (Fp.ofBits E F (concat (1 + E + F) 0 (concat (E + F) neg.toNat 0)))
  | .num neg m e0 =>
    if m / 2 ^ F % 2 = 0 then none else
    let fracBits := m - 2 ^ F
    let e := e0 + F
    if 2 ^ F ≤ fracBits then none else
    if e < 0 - (biasN E : ℤ) then
      if allow then some (Fp.mk4 E F 0b00 neg.toNat 0 fracBits) else none
    else if e > 0 + (biasN E : ℤ) + 1 then
      if allow then some (Fp.mk4 E F 0b10 neg.toNat 0 fracBits) else none
    else some (Fp.mk4 E F 0b01 neg.toNat (e + biasN E).toNat fracBits)

end Thls
