import Mathlib.Data.Nat.Log
import Mathlib.Data.Int.Bitwise

/-! # The SoftFloat routines of the library (include/thls/tops/softfloat, softfloat_inline.hpp, policy_softfloat.hpp)

The 32-bit and the 64-bit routines are the same text up to constants: with `W = 1+E+F` the width of the word, the significand of
an intermediate result has `E-1` bits below its last place and its leading bit at position `W-2`. They are modelled once, over a
record of the constants; where the two texts differ (the shortcut of `softfloat_addMagsF32`, the casts of the range tests, the
products, the quotients) the model differs too. `goto`s are written as nested conditionals. The rounding mode is the constant
`softfloat_round_near_even` and `softfloat_raiseFlags` does nothing (softfloat.h:66-95, softfloat_raiseFlags.c), so that the tests of
the mode are written out and the flags are left out. The tests of a mask against zero (`isNaNF32UI`, `expB | sigB`, ...) are written
as tests of fields. The configuration is the one of platform.h:40-55: `SOFTFLOAT_FAST_INT64` and `SOFTFLOAT_FAST_DIV64TO32` are not
defined and `INLINE_LEVEL` is 5. -/

namespace Thls

/-- The constants in which the 32-bit and the 64-bit texts differ. E.g. s_roundPackToF32.c:43-112 and s_roundPackToF64.c:43-112. -/
structure SoftFmt where
  /-- exponent bits -/
  E : ℕ
  /-- fraction bits -/
  F : ℕ
  /-- width of the type `exp` is cast to in the range test of `softfloat_roundPackToF32`/`F64` -/
  cast : ℕ
  /-- width of `uint_fast32_t`/`uint_fast64_t`, at least that of the word; the C standard leaves it to the platform -/
  fast : ℕ
  /-- whether `softfloat_addMags` has the shortcut for equal exponents -/
  short : Bool

/-- The constants of the `F32` routines; `uint_fast32_t` has `fast` bits (32, or 64 on the usual 64-bit platforms).
internals.h:104-108, s_addMagsF32.c:43-125. -/
def soft32 (fast : ℕ) : SoftFmt := ⟨8, 23, 32, fast, true⟩
/-- The constants of the `F64` routines. internals.h:125-129, s_addMagsF64.c:43-127. -/
def soft64 (fast : ℕ) : SoftFmt := ⟨11, 52, 16, fast, false⟩

namespace SoftFmt
variable (f : SoftFmt)

/-- Width of the word. internals.h:104-108,125-129. -/
abbrev W : ℕ := 1 + f.E + f.F
/-- Number of bits below the last place of an intermediate significand: 7 for `F32`, 10 for `F64`.
s_roundPackToF32.c:43-112, s_roundPackToF64.c:43-112. -/
abbrev G : ℕ := f.E - 1
/-- The exponent field of infinities and NaNs: `0xFF`, `0x7FF`. f32_mul.c:44-140, f64_mul.c:44-150. -/
abbrev top : ℕ := 2 ^ f.E - 1
/-- The exponent of one: `0x7F`, `0x3FF`. f32_mul.c:44-140, f64_mul.c:44-150. -/
abbrev one : ℤ := 2 ^ (f.E - 1) - 1

/-- `signF32UI`, `signF64UI`. internals.h:104, 125. -/
def sign (w : ℕ) : Bool := w / 2 ^ (f.W - 1) % 2 == 1
/-- `expF32UI`, `expF64UI`. internals.h:105, 126. -/
def exp (w : ℕ) : ℕ := w / 2 ^ f.F % 2 ^ f.E
/-- `fracF32UI`, `fracF64UI`. internals.h:106, 127. -/
def frac (w : ℕ) : ℕ := w % 2 ^ f.F
/-- `packToF32UI`, `packToF64UI`, together with the assignment to the word of the union: the fields are added, so that a carry
out of `sig` goes to the exponent. internals.h:107, 128. -/
def pack (sign : Bool) (exp : ℤ) (sig : ℕ) : ℕ :=
  (sign.toNat * 2 ^ (f.W - 1) + (exp % 2 ^ f.W).toNat * 2 ^ f.F % 2 ^ f.W + sig) % 2 ^ f.W
/-- `isNaNF32UI`, `isNaNF64UI`. internals.h:109, 130. -/
def isNaN (w : ℕ) : Bool := f.exp w == f.top && f.frac w != 0
/-- `softfloat_isSigNaNF32UI`, `softfloat_isSigNaNF64UI`: the top bit of the fraction is clear, a lower one is set.
specialize.h:129, 164. -/
def isSigNaN (w : ℕ) : Bool :=
  f.exp w == f.top && w / 2 ^ (f.F - 1) % 2 == 0 && w % 2 ^ (f.F - 1) != 0
/-- `defaultNaNF32UI`, `defaultNaNF64UI`: `0xFFC00000`, `0xFFF8000000000000`. specialize.h:122, 157. -/
def defaultNaN : ℕ := (2 ^ (f.E + 2) - 1) * 2 ^ (f.F - 1)

/-- A left shift of a `uint_fast` value; `none`: the count is negative or not below the width, undefined behaviour.
Used throughout, e.g. s_normRoundPackToF32.c:42-57. -/
def shl (x : ℕ) (s : ℤ) : Option ℕ := if 0 ≤ s ∧ s < f.fast then some (x * 2 ^ s.toNat % 2 ^ f.fast) else none

/-- `softfloat_shiftRightJam32`, `softfloat_shiftRightJam64`. primitives.h:71-75, 92-96; the same text
in s_shiftRightJam32.c:42-48. -/
def jam (a dist : ℕ) : ℕ :=
  if dist < f.W - 1 then a / 2 ^ dist ||| (if a * 2 ^ ((f.W - dist % f.W) % f.W) % 2 ^ f.W ≠ 0 then 1 else 0)
  else if a ≠ 0 then 1 else 0

/-- `softfloat_countLeadingZeros32`, `softfloat_countLeadingZeros64` (argument reduced to the parameter type).
softfloat_inline.hpp:9-27. -/
def clz (a : ℕ) : ℕ := if a % 2 ^ f.W = 0 then f.W else f.W - 1 - Nat.log2 (a % 2 ^ f.W)

/-- `softfloat_propagateNaNF32UI`, `softfloat_propagateNaNF64UI`. s_propagateNaNF32UI.c:50-83, s_propagateNaNF64UI.c:50-83. -/
def propagateNaN (a b : ℕ) : ℕ :=
  let sa := f.isSigNaN a
  let sb := f.isSigNaN b
  let na := a ||| 2 ^ (f.F - 1)
  let nb := b ||| 2 ^ (f.F - 1)
  if sa && !sb then (if f.isNaN b then nb else na)
  else if !sa && sb then (if f.isNaN a then na else nb)
  else
    let ma := na % 2 ^ (f.W - 1)
    let mb := nb % 2 ^ (f.W - 1)
    if ma < mb then nb else if mb < ma then na else if na < nb then na else nb

/-- The rounding and the packing at the end of `softfloat_roundPackToF32`/`F64`. s_roundPackToF32.c:92-107, s_roundPackToF64.c:96-112. -/
def roundFinish (sign : Bool) (exp : ℤ) (sig : ℕ) : ℕ :=
  let roundBits := sig % 2 ^ f.G
  let sig := (sig + 2 ^ (f.G - 1)) % 2 ^ f.fast / 2 ^ f.G
  let sig := if roundBits = 2 ^ (f.G - 1) then sig / 2 * 2 else sig
  f.pack sign (if sig = 0 then 0 else exp) sig

/-- `softfloat_roundPackToF32`, `softfloat_roundPackToF64`. s_roundPackToF32.c:43-112, s_roundPackToF64.c:43-117. -/
def roundPack (sign : Bool) (exp : ℤ) (sig : ℕ) : ℕ :=
  if (f.top : ℤ) - 2 ≤ exp % 2 ^ f.cast then
    if exp < 0 then f.roundFinish sign 0 (f.jam (sig % 2 ^ f.W) (-exp).toNat)
    else if (f.top : ℤ) - 2 < exp ∨ 2 ^ (f.W - 1) ≤ (sig + 2 ^ (f.G - 1)) % 2 ^ f.fast then f.pack sign f.top 0
    else f.roundFinish sign exp sig
  else f.roundFinish sign exp sig

/-- `softfloat_normRoundPackToF32`, `softfloat_normRoundPackToF64`. s_normRoundPackToF32.c:42-57, s_normRoundPackToF64.c:42-57. -/
def normRoundPack (sign : Bool) (exp : ℤ) (sig : ℕ) : Option ℕ :=
  let shiftDist : ℤ := (f.clz sig : ℤ) - 1
  let exp := exp - shiftDist
  if (f.G : ℤ) ≤ shiftDist ∧ exp % 2 ^ 32 < (f.top : ℤ) - 2 then
    (f.shl sig (shiftDist - f.G)).map fun s => f.pack sign (if sig ≠ 0 then exp else 0) s
  else (f.shl sig shiftDist).map fun s => f.roundPack sign exp s

/-- `softfloat_normSubnormalF32Sig`, `softfloat_normSubnormalF64Sig`. s_normSubnormalF32Sig.c:41-51, s_normSubnormalF64Sig.c:41-51. -/
def normSubnormal (sig : ℕ) : Option (ℤ × ℕ) :=
  let shiftDist : ℤ := (f.clz sig : ℤ) - f.E
  (f.shl sig shiftDist).map fun s => (1 - shiftDist, s)

/-- The addition of the significands for different exponents: `big` is the fraction of the operand with the greater exponent `expZ`,
`exp` and `small` are the fields of the other, `dist` is the difference of the exponents. s_addMagsF32.c:89-115, s_addMagsF64.c:83-116. -/
def addFar (sign : Bool) (expZ : ℤ) (big exp small dist : ℕ) : ℕ :=
  let sigX := big * 2 ^ (f.G - 1) % 2 ^ f.fast
  let sigY := small * 2 ^ (f.G - 1) % 2 ^ f.fast
  let sigY := (sigY + if exp ≠ 0 then 2 ^ (f.W - 3) else sigY) % 2 ^ f.fast
  let sigY := f.jam (sigY % 2 ^ f.W) dist
  let sigZ := (2 ^ (f.W - 3) + sigX + sigY) % 2 ^ f.fast
  if sigZ < 2 ^ (f.W - 2) then f.roundPack sign (expZ - 1) (sigZ * 2 % 2 ^ f.fast) else f.roundPack sign expZ sigZ

/-- `softfloat_addMagsF32`, `softfloat_addMagsF64`. s_addMagsF32.c:43-125, s_addMagsF64.c:43-127. -/
def addMags (a b : ℕ) : ℕ :=
  let expA := f.exp a
  let sigA := f.frac a
  let expB := f.exp b
  let sigB := f.frac b
  let signZ := f.sign a
  if expA = expB then
    if expA = 0 then (a + sigB) % 2 ^ f.W
    else if expA = f.top then (if sigA ≠ 0 ∨ sigB ≠ 0 then f.propagateNaN a b else a)
    else
      let sigZ := 2 ^ (f.F + 1) + sigA + sigB
      if f.short = true ∧ sigZ % 2 = 0 ∧ expA < f.top - 1 then f.pack signZ expA (sigZ / 2)
      else f.roundPack signZ expA (sigZ * 2 ^ (f.G - 1) % 2 ^ f.fast)
  else if expA < expB then
    if expB = f.top then (if sigB ≠ 0 then f.propagateNaN a b else f.pack signZ f.top 0)
    else f.addFar signZ expB sigB expA sigA (expB - expA)
  else
    if expA = f.top then (if sigA ≠ 0 then f.propagateNaN a b else a)
    else f.addFar signZ expA sigA expB sigB (expA - expB)

/-- The subtraction of the significands for different exponents, with the fields as for `addFar`.
s_subMagsF32.c:102-132, s_subMagsF64.c:100-130. -/
def subFar (sign : Bool) (expZ : ℤ) (big exp small dist : ℕ) : Option ℕ :=
  let sigX := big * 2 ^ f.G % 2 ^ f.fast ||| 2 ^ (f.W - 2)
  let sigY := small * 2 ^ f.G % 2 ^ f.fast
  let sigY := (sigY + if exp ≠ 0 then 2 ^ (f.W - 2) else sigY) % 2 ^ f.fast
  let sigY := f.jam (sigY % 2 ^ f.W) dist
  f.normRoundPack sign (expZ - 1) ((sigX + 2 ^ f.fast - sigY) % 2 ^ f.fast)

/-- The subtraction of the significands for equal exponents. s_subMagsF32.c:77-97, s_subMagsF64.c:77-96. -/
def subNear (signZ : Bool) (expA sigA sigB : ℕ) : Option ℕ :=
  let sigDiff : ℤ := sigA - sigB
  if sigDiff = 0 then some (f.pack false 0 0)
  else
    let expA := if expA ≠ 0 then expA - 1 else expA
    let signZ := if sigDiff < 0 then !signZ else signZ
    let sigDiff := sigDiff.natAbs
    let shiftDist : ℤ := (f.clz sigDiff : ℤ) - f.E
    let expZ : ℤ := expA - shiftDist
    if expZ < 0 then (f.shl sigDiff expA).map fun s => f.pack signZ 0 s
    else (f.shl sigDiff shiftDist).map fun s => f.pack signZ expZ s

/-- `softfloat_subMagsF32`, `softfloat_subMagsF64`. s_subMagsF32.c:44-142, s_subMagsF64.c:44-140. -/
def subMags (a b : ℕ) : Option ℕ :=
  let expA := f.exp a
  let sigA := f.frac a
  let expB := f.exp b
  let sigB := f.frac b
  let signZ := f.sign a
  if expA = expB then
    if expA = f.top then some (if sigA ≠ 0 ∨ sigB ≠ 0 then f.propagateNaN a b else f.defaultNaN)
    else f.subNear signZ expA sigA sigB
  else if expA < expB then
    if expB = f.top then some (if sigB ≠ 0 then f.propagateNaN a b else f.pack (!signZ) f.top 0)
    else f.subFar (!signZ) expB sigB expA sigA (expB - expA)
  else
    if expA = f.top then some (if sigA ≠ 0 then f.propagateNaN a b else a)
    else f.subFar signZ expA sigA expB sigB (expA - expB)

/-- `f32_add`, `f64_add`. f32_add.c:43-69, f64_add.c:43-73. -/
def add (a b : ℕ) : Option ℕ := if f.sign a != f.sign b then f.subMags a b else some (f.addMags a b)

/-- The significand of an operand of a product or a quotient, with its exponent: denormals are normalised, and the leading bit is
inserted. f32_mul.c:90-101, 111-114, f64_mul.c:95-106, 110-111; f32_div.c:98-118, f64_div.c:95-115. -/
def unpackNorm (exp sig : ℕ) : Option (ℤ × ℕ) :=
  if exp = 0 then (f.normSubnormal sig).map fun p => (p.1, p.2 ||| 2 ^ f.F)
  else some (exp, sig ||| 2 ^ f.F)

/-- `f32_mul`, `f64_mul`; `prod` is the product of the two significands, `none` if one of its assertions fails.
f32_mul.c:44-145, f64_mul.c:44-149. -/
def mulWith (prod : ℕ → ℕ → Option ℕ) (a b : ℕ) : Option ℕ :=
  let expA := f.exp a
  let sigA := f.frac a
  let expB := f.exp b
  let sigB := f.frac b
  let signZ := f.sign a != f.sign b
  let infArg := fun (zero : Bool) => if zero then f.defaultNaN else f.pack signZ f.top 0
  if expA = f.top then
    some (if sigA ≠ 0 ∨ (expB = f.top ∧ sigB ≠ 0) then f.propagateNaN a b else infArg (expB == 0 && sigB == 0))
  else if expB = f.top then
    some (if sigB ≠ 0 then f.propagateNaN a b else infArg (expA == 0 && sigA == 0))
  else if (expA = 0 ∧ sigA = 0) ∨ (expB = 0 ∧ sigB = 0) then some (f.pack signZ 0 0)
  else do
    let p ← f.unpackNorm expA sigA
    let q ← f.unpackNorm expB sigB
    let sigZ ← prod p.2 q.2
    let expZ := p.1 + q.1 - f.one
    if sigZ < 2 ^ (f.W - 2) then return f.roundPack signZ (expZ - 1) (sigZ * 2 % 2 ^ f.fast)
    else return f.roundPack signZ expZ sigZ

/-- `f32_div`, `f64_div`; `quot sigA sigB` is the quotient of the two significands with the flag that tells whether the exponent has
been decremented. f32_div.c:44-179, f64_div.c:44-171. -/
def divWith (quot : ℕ → ℕ → Bool × ℕ) (a b : ℕ) : Option ℕ :=
  let expA := f.exp a
  let sigA := f.frac a
  let expB := f.exp b
  let sigB := f.frac b
  let signZ := f.sign a != f.sign b
  if expA = f.top then
    some (if sigA ≠ 0 then f.propagateNaN a b
      else if expB = f.top then (if sigB ≠ 0 then f.propagateNaN a b else f.defaultNaN)
      else f.pack signZ f.top 0)
  else if expB = f.top then some (if sigB ≠ 0 then f.propagateNaN a b else f.pack signZ 0 0)
  else if expB = 0 ∧ sigB = 0 then
    some (if expA = 0 ∧ sigA = 0 then f.defaultNaN else f.pack signZ f.top 0)
  else if expA = 0 ∧ sigA = 0 then some (f.pack signZ 0 0)
  else do
    let q ← f.unpackNorm expB sigB
    let p ← f.unpackNorm expA sigA
    let z := quot p.2 q.2
    let expZ := p.1 - q.1 + (f.one - 1)
    return f.roundPack signZ (if z.1 then expZ - 1 else expZ) z.2

/-- `f32_eq`, `f64_eq`. f32_eq.c:44-65, f64_eq.c:44-65. -/
def eq (a b : ℕ) : Bool :=
  if f.isNaN a || f.isNaN b then false else a == b || (a ||| b) * 2 % 2 ^ f.W == 0
/-- `f32_le`, `f64_le`. f32_le.c:43-65, f64_le.c:43-66. -/
def le (a b : ℕ) : Bool :=
  if f.isNaN a || f.isNaN b then false
  else if f.sign a != f.sign b then f.sign a || (a ||| b) * 2 % 2 ^ f.W == 0
  else a == b || (f.sign a != decide (a < b))
/-- `f32_lt`, `f64_lt`. f32_lt.c:43-65, f64_lt.c:43-66. -/
def lt (a b : ℕ) : Bool :=
  if f.isNaN a || f.isNaN b then false
  else if f.sign a != f.sign b then f.sign a && (a ||| b) * 2 % 2 ^ f.W != 0
  else a != b && (f.sign a != decide (a < b))

end SoftFmt

/-- `softfloat_shortShiftRightJam64`. primitives.h:51-54; the same text in s_shortShiftRightJam64.c:42-47. -/
def shortJam64 (a dist : ℕ) : ℕ := a / 2 ^ dist ||| (if a % 2 ^ dist ≠ 0 then 1 else 0)

/-- The product of the significands in `f32_mul`, with its assertions. f32_mul.c:111-115. -/
def softProd32 (sigA sigB : ℕ) : Option ℕ :=
  if sigA < 2 ^ 24 ∧ sigB < 2 ^ 24 then some (shortJam64 (sigA * sigB % 2 ^ 64 * 2 ^ 15 % 2 ^ 64) 32) else none

/-- `softfloat_mul64To128M`: the four 32-bit words of the product, least significant first. softfloat_inline.hpp:30-38. -/
def mul64To128M (a b : ℕ) : ℕ × ℕ × ℕ × ℕ :=
  let ab := a * b % 2 ^ 128
  (ab % 2 ^ 32, ab / 2 ^ 32 % 2 ^ 32, ab / 2 ^ 64 % 2 ^ 32, ab / 2 ^ 96 % 2 ^ 32)

/-- The product of the significands in `f64_mul`. f64_mul.c:110-120. -/
def softProd64 (sigA sigB : ℕ) : Option ℕ :=
  let z := mul64To128M (sigA * 2 ^ 10 % 2 ^ 64) (sigB * 2 ^ 11 % 2 ^ 64)
  let sigZ := z.2.2.2 * 2 ^ 32 ||| z.2.2.1
  some (if z.2.1 ≠ 0 ∨ z.1 ≠ 0 then sigZ ||| 1 else sigZ)

/-- `softfloat_approxRecip_1k0s`. s_approxRecip32_1.c:42-45. -/
def recipK0 : List ℕ := [0xFFC4, 0xF0BE, 0xE363, 0xD76F, 0xCCAD, 0xC2F0, 0xBA16, 0xB201,
  0xAA97, 0xA3C6, 0x9D7A, 0x97A6, 0x923C, 0x8D32, 0x887E, 0x8417]
/-- `softfloat_approxRecip_1k1s`. s_approxRecip32_1.c:46-49. -/
def recipK1 : List ℕ := [0xF0F1, 0xD62C, 0xBFA1, 0xAC77, 0x9C0A, 0x8DDB, 0x8185, 0x76BA,
  0x6D3B, 0x64D4, 0x5D5C, 0x56B1, 0x50B6, 0x4B55, 0x4679, 0x4211]

/-- The first approximation `r0` of `softfloat_approxRecip32_1`. s_approxRecip32_1.c:61-64. -/
def recipR0 (a : ℕ) : ℕ :=
  let index := a / 2 ^ 27 % 16
  let eps := a / 2 ^ 11 % 2 ^ 16
  (recipK0.getD index 0 + 2 ^ 16 - recipK1.getD index 0 * eps / 2 ^ 20) % 2 ^ 16

/-- `softfloat_approxRecip32_1`. s_approxRecip32_1.c:53-71. The value `r` is a `uint_fast32_t`; it is returned as a `uint32_t`. -/
def approxRecip (a : ℕ) : ℕ :=
  let r0 := recipR0 a
  let sigma0 := 2 ^ 32 - 1 - r0 * a / 2 ^ 7 % 2 ^ 32
  let r := r0 * 2 ^ 16 + r0 * sigma0 / 2 ^ 24
  let sqrSigma0 := sigma0 * sigma0 / 2 ^ 32
  (r + r % 2 ^ 32 * sqrSigma0 / 2 ^ 48) % 2 ^ 32

/-- The quotient of the significands in `f32_div`. The `uint64_t` remainder is negative when its top bit is set.
f32_div.c:129-152. -/
def softQuot32 (mA mB : ℕ) : Bool × ℕ :=
  let less := decide (mA < mB)
  let sigA := mA * 2 ^ (if less then 8 else 7)
  let sigB := mB * 2 ^ 8
  let sigZ := sigA * approxRecip sigB / 2 ^ 32 + 2
  if sigZ % 2 ^ 6 < 2 then
    let sigZ := sigZ / 4 * 4
    let rem := (sigA * 2 ^ 32 + (2 ^ 64 - sigZ * 2 * sigB % 2 ^ 64)) % 2 ^ 64
    (less, if rem / 2 ^ 63 = 1 then sigZ - 4 else if rem ≠ 0 then sigZ ||| 1 else sigZ)
  else (less, sigZ)

/-- The remainder step of `f64_div`: `((r - 2*q*(sigB>>32))<<28) - 2*q*((uint32_t)sigB>>4)` in `uint64_t`, where `2*q` is a
`uint32_t`. f64_div.c:125-128, 136-139. -/
def softRem64 (r q sigB : ℕ) : ℕ :=
  let doubleTerm := q * 2 % 2 ^ 32
  let hi := (r + (2 ^ 64 - doubleTerm * (sigB / 2 ^ 32) % 2 ^ 64)) % 2 ^ 64 * 2 ^ 28 % 2 ^ 64
  (hi + (2 ^ 64 - doubleTerm * (sigB % 2 ^ 32 / 2 ^ 4) % 2 ^ 64)) % 2 ^ 64

/-- The quotient of the significands in `f64_div`. f64_div.c:116-145. -/
def softQuot64 (mA mB : ℕ) : Bool × ℕ :=
  let less := decide (mA < mB)
  let sigA := mA * 2 ^ (if less then 11 else 10)
  let sigB := mB * 2 ^ 11
  let recip32 := (approxRecip (sigB / 2 ^ 32) + 2 ^ 32 - 2) % 2 ^ 32
  let sig32Z := sigA / 2 ^ 32 * recip32 / 2 ^ 32
  let rem := softRem64 sigA sig32Z sigB
  let q := (rem / 2 ^ 32 * recip32 / 2 ^ 32 + 4) % 2 ^ 32
  let sigZ := (sig32Z * 2 ^ 32 + q * 2 ^ 4) % 2 ^ 64
  if sigZ % 2 ^ 9 < 2 ^ 6 then
    let q := q / 8 * 8
    let sigZ := sigZ / 2 ^ 7 * 2 ^ 7
    let rem := softRem64 rem q sigB
    (less, if rem / 2 ^ 63 = 1 then sigZ - 2 ^ 7 else if rem ≠ 0 then sigZ ||| 1 else sigZ)
  else (less, sigZ)

/-! ## The operators of policy_softfloat.hpp -/

/-- `operator+(float32_t, float32_t)`. policy_softfloat.hpp:181-182. -/
def f32Add (fast a b : ℕ) : Option ℕ := (soft32 fast).add a b
/-- `operator*(float32_t, float32_t)`. policy_softfloat.hpp:178-179. -/
def f32Mul (fast a b : ℕ) : Option ℕ := (soft32 fast).mulWith softProd32 a b
/-- `operator/(float32_t, float32_t)`. policy_softfloat.hpp:184-185. -/
def f32Div (fast a b : ℕ) : Option ℕ := (soft32 fast).divWith softQuot32 a b
/-- `operator==(float32_t, float32_t)`. policy_softfloat.hpp:187-188. -/
def f32Eq (a b : ℕ) : Bool := (soft32 32).eq a b
/-- `operator<(float32_t, float32_t)`. policy_softfloat.hpp:193-194. -/
def f32Lt (a b : ℕ) : Bool := (soft32 32).lt a b
/-- `operator<=(float32_t, float32_t)`. policy_softfloat.hpp:199-200. -/
def f32Le (a b : ℕ) : Bool := (soft32 32).le a b
/-- `operator!=(float32_t, float32_t)`. policy_softfloat.hpp:190-191. -/
def f32Ne (a b : ℕ) : Bool := !f32Eq a b
/-- `operator>(float32_t, float32_t)`. policy_softfloat.hpp:196-197. -/
def f32Gt (a b : ℕ) : Bool := f32Lt b a
/-- `operator>=(float32_t, float32_t)`. policy_softfloat.hpp:202-203. -/
def f32Ge (a b : ℕ) : Bool := f32Le b a
/-- `operator+(float64_t, float64_t)`. policy_softfloat.hpp:209-210. -/
def f64Add (fast a b : ℕ) : Option ℕ := (soft64 fast).add a b
/-- `operator*(float64_t, float64_t)`. policy_softfloat.hpp:206-207. -/
def f64Mul (fast a b : ℕ) : Option ℕ := (soft64 fast).mulWith softProd64 a b
/-- `operator/(float64_t, float64_t)`. policy_softfloat.hpp:212-213. -/
def f64Div (fast a b : ℕ) : Option ℕ := (soft64 fast).divWith softQuot64 a b
/-- `operator==(float64_t, float64_t)`. policy_softfloat.hpp:215-216. -/
def f64Eq (a b : ℕ) : Bool := (soft64 64).eq a b
/-- `operator<(float64_t, float64_t)`. policy_softfloat.hpp:221-222. -/
def f64Lt (a b : ℕ) : Bool := (soft64 64).lt a b
/-- `operator<=(float64_t, float64_t)`. policy_softfloat.hpp:227-228. -/
def f64Le (a b : ℕ) : Bool := (soft64 64).le a b
/-- `operator!=(float64_t, float64_t)`. policy_softfloat.hpp:218-219. -/
def f64Ne (a b : ℕ) : Bool := !f64Eq a b
/-- `operator>(float64_t, float64_t)`. policy_softfloat.hpp:224-225. -/
def f64Gt (a b : ℕ) : Bool := f64Lt b a
/-- `operator>=(float64_t, float64_t)`. policy_softfloat.hpp:230-231. -/
def f64Ge (a b : ℕ) : Bool := f64Le b a

end Thls
