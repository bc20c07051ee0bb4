import Verif.Model.SoftFloat

/-! # The primitives of softfloat that softfloat_inline.hpp replaces, and its build option for division

softfloat_inline.hpp defines `softfloat_countLeadingZeros32`, `softfloat_countLeadingZeros64` and `softfloat_mul64To128M` with compiler
builtins before it includes the library, so the definitions of the library in src/ are left out. platform.h offers the option
`SOFTFLOAT_FAST_DIV64TO32`, which selects another `f32_div` and another reciprocal in `f64_div`. f32_mul.c keeps the original product in
an `#if 0`. This file models all of these. -/

namespace Thls

/-- `softfloat_countLeadingZeros8[256]`. primitives.h:109-126; commented out in s_countLeadingZeros8.c:41-59. -/
def clz8Table : List ℕ :=
  [8, 7, 6, 6, 5, 5, 5, 5, 4, 4, 4, 4, 4, 4, 4, 4,
   3, 3, 3, 3, 3, 3, 3, 3, 3, 3, 3, 3, 3, 3, 3, 3,
   2, 2, 2, 2, 2, 2, 2, 2, 2, 2, 2, 2, 2, 2, 2, 2,
   2, 2, 2, 2, 2, 2, 2, 2, 2, 2, 2, 2, 2, 2, 2, 2,
   1, 1, 1, 1, 1, 1, 1, 1, 1, 1, 1, 1, 1, 1, 1, 1,
   1, 1, 1, 1, 1, 1, 1, 1, 1, 1, 1, 1, 1, 1, 1, 1,
   1, 1, 1, 1, 1, 1, 1, 1, 1, 1, 1, 1, 1, 1, 1, 1,
   1, 1, 1, 1, 1, 1, 1, 1, 1, 1, 1, 1, 1, 1, 1, 1,
   0, 0, 0, 0, 0, 0, 0, 0, 0, 0, 0, 0, 0, 0, 0, 0,
   0, 0, 0, 0, 0, 0, 0, 0, 0, 0, 0, 0, 0, 0, 0, 0,
   0, 0, 0, 0, 0, 0, 0, 0, 0, 0, 0, 0, 0, 0, 0, 0,
   0, 0, 0, 0, 0, 0, 0, 0, 0, 0, 0, 0, 0, 0, 0, 0,
   0, 0, 0, 0, 0, 0, 0, 0, 0, 0, 0, 0, 0, 0, 0, 0,
   0, 0, 0, 0, 0, 0, 0, 0, 0, 0, 0, 0, 0, 0, 0, 0,
   0, 0, 0, 0, 0, 0, 0, 0, 0, 0, 0, 0, 0, 0, 0, 0,
   0, 0, 0, 0, 0, 0, 0, 0, 0, 0, 0, 0, 0, 0, 0, 0]

/-- `softfloat_countLeadingZeros16`; `none`: the table is read outside its bounds. primitives.h:134-143. -/
def libClz16 (a : ℕ) : Option ℕ :=
  if 0x100 ≤ a then clz8Table[a / 2 ^ 8]? else (clz8Table[a]?).map (8 + ·)

/-- `softfloat_countLeadingZeros32` of the library; `none`: the table is read outside its bounds. primitives.h:155-168,
s_countLeadingZeros32.c:45-61. -/
def libClz32 (a : ℕ) : Option ℕ :=
  let s := if a < 0x10000 then (16, a * 2 ^ 16 % 2 ^ 32) else (0, a)
  let s := if s.2 < 0x1000000 then (s.1 + 8, s.2 * 2 ^ 8 % 2 ^ 32) else s
  (clz8Table[s.2 / 2 ^ 24]?).map (s.1 + ·)

/-- `softfloat_countLeadingZeros64` of the library. s_countLeadingZeros64.c:45-70. -/
def libClz64 (a : ℕ) : Option ℕ :=
  let a32 := a / 2 ^ 32
  let s := if a32 = 0 then (32, a % 2 ^ 32) else (0, a32)
  let s := if s.2 < 0x10000 then (s.1 + 16, s.2 * 2 ^ 16 % 2 ^ 32) else s
  let s := if s.2 < 0x1000000 then (s.1 + 8, s.2 * 2 ^ 8 % 2 ^ 32) else s
  (clz8Table[s.2 / 2 ^ 24]?).map (s.1 + ·)

/-- `__builtin_clz`, `__builtin_clzl` on a parameter type of `w` bits: the argument is converted to it; `none`: the result for zero is
undefined. -/
def builtinClz (w a : ℕ) : Option ℕ := if a % 2 ^ w = 0 then none else some (w - 1 - Nat.log2 (a % 2 ^ w))

/-- `softfloat_countLeadingZeros32` as replaced; `unsigned int` has 32 bits. softfloat_inline.hpp:9-17. -/
def inlineClz32 (a : ℕ) : Option ℕ := if a = 0 then some 32 else builtinClz 32 a

/-- `softfloat_countLeadingZeros64` as replaced; `ulong` is the number of bits of `unsigned long`, which the language does not fix.
softfloat_inline.hpp:19-27. -/
def inlineClz64 (ulong a : ℕ) : Option ℕ := if a = 0 then some 64 else builtinClz ulong a

/-- `softfloat_mul64To128M` of the library, on 32-bit halves, with the carries recovered by comparisons; the words least significant first.
s_mul64To128M.c:43-65. -/
def libMul64To128M (a b : ℕ) : ℕ × ℕ × ℕ × ℕ :=
  let a32 := a / 2 ^ 32
  let a0 := a % 2 ^ 32
  let b32 := b / 2 ^ 32
  let b0 := b % 2 ^ 32
  let z0 := a0 * b0 % 2 ^ 64
  let mid1 := a32 * b0 % 2 ^ 64
  let mid := (mid1 + a0 * b32) % 2 ^ 64
  let z64 := a32 * b32 % 2 ^ 64
  let z64 := (z64 + ((if mid < mid1 then 1 else 0) * 2 ^ 32 ||| mid / 2 ^ 32)) % 2 ^ 64
  let mid := mid * 2 ^ 32 % 2 ^ 64
  let z0 := (z0 + mid) % 2 ^ 64
  let z64 := (z64 + if z0 < mid then 1 else 0) % 2 ^ 64
  (z0 % 2 ^ 32, z0 / 2 ^ 32, z64 % 2 ^ 32, z64 / 2 ^ 32)

/-- The product of the significands of `f32_mul` in the original library, now inside `#if 0`. f32_mul.c:105-108. -/
def libProd32 (sigA sigB : ℕ) : Option ℕ :=
  some (shortJam64 (sigA * 2 ^ 7 * (sigB * 2 ^ 8) % 2 ^ 64) 32)

/-- `softfloat_approxRecip32_1` with `SOFTFLOAT_FAST_DIV64TO32`. primitives.h:198. -/
def fastRecip (a : ℕ) : ℕ := 0x7FFFFFFFFFFFFFFF / a % 2 ^ 32

/-- The quotient of the significands in `f32_div` with `SOFTFLOAT_FAST_DIV64TO32`. f32_div.c:119-127. -/
def fastQuot32 (mA mB : ℕ) : Bool × ℕ :=
  let less := decide (mA < mB)
  let sig64A := mA * 2 ^ (if less then 31 else 30)
  let sigZ := sig64A / mB
  (less, if sigZ % 2 ^ 6 = 0 then sigZ ||| (if mB * sigZ ≠ sig64A then 1 else 0) else sigZ)

/-- The quotient of the significands in `f64_div` with `SOFTFLOAT_FAST_DIV64TO32`: `softQuot64` with the other reciprocal.
f64_div.c:116-145. -/
def fastQuot64 (mA mB : ℕ) : Bool × ℕ :=
  let less := decide (mA < mB)
  let sigA := mA * 2 ^ (if less then 11 else 10)
  let sigB := mB * 2 ^ 11
  let recip32 := (fastRecip (sigB / 2 ^ 32) + 2 ^ 32 - 2) % 2 ^ 32
  let sig32Z := sigA / 2 ^ 32 * recip32 / 2 ^ 32
  let rem := softRem64 sigA sig32Z sigB
  let q := (rem / 2 ^ 32 * recip32 / 2 ^ 32 + 4) % 2 ^ 32
  let sigZ := (sig32Z * 2 ^ 32 + q * 2 ^ 4) % 2 ^ 64
  if sigZ % 2 ^ 9 < 2 ^ 6 then
    let q := q / 8 * 8
    let sigZ := sigZ / 2 ^ 7 * 2 ^ 7
    let rem := softRem64 rem q sigB
    (less, if rem / 2 ^ 63 = 1 then sigZ - 2 ^ 7 else if rem ≠ 0 then sigZ ||| 1 else sigZ)
  else (less, sigZ)

/-- The product of the significands in `f64_mul` with the multiplication of the library. f64_mul.c:110-120, s_mul64To128M.c:43-65. -/
def libProd64 (sigA sigB : ℕ) : Option ℕ :=
  let z := libMul64To128M (sigA * 2 ^ 10 % 2 ^ 64) (sigB * 2 ^ 11 % 2 ^ 64)
  let sigZ := z.2.2.2 * 2 ^ 32 ||| z.2.2.1
  some (if z.2.1 ≠ 0 ∨ z.1 ≠ 0 then sigZ ||| 1 else sigZ)

/-- `f32_mul` with the original product. f32_mul.c:44-140. -/
def libF32Mul (fast a b : ℕ) : Option ℕ := (soft32 fast).mulWith libProd32 a b
/-- `f64_mul` with the multiplication of the library. f64_mul.c:44-150. -/
def libF64Mul (fast a b : ℕ) : Option ℕ := (soft64 fast).mulWith libProd64 a b
/-- `f32_div` with `SOFTFLOAT_FAST_DIV64TO32`. f32_div.c:44-180. -/
def fastF32Div (fast a b : ℕ) : Option ℕ := (soft32 fast).divWith fastQuot32 a b
/-- `f64_div` with `SOFTFLOAT_FAST_DIV64TO32`. f64_div.c:44-172. -/
def fastF64Div (fast a b : ℕ) : Option ℕ := (soft64 fast).divWith fastQuot64 a b

end Thls
