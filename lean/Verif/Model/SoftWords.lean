import Verif.Model.SoftFloat

/-! # The multi-word primitives of softfloat with a body in primitives.h

They are compiled if `SOFTFLOAT_FAST_INT64` is defined (`shiftLeft64To96`: if it is not). A `struct uint128` is the pair of its high and
low word, a `struct uint128_extra` the pair of that and its extra word. Distances are shift counts, for which the comments of the code give
the range; `-dist & 63` is reduced in every unsigned and signed type that `dist` has there to the same number. -/

namespace Thls.SoftWords

/-- `a << d` of a `uint64_t`, for `d < 64`. primitives.h:242-684. -/
def shl (a d : ℕ) : ℕ := a * 2 ^ d % 2 ^ 64
/-- `a >> d`, for `d < 64`. primitives.h:242-684. -/
def shr (a d : ℕ) : ℕ := a / 2 ^ d
/-- `-dist & 63`. primitives.h:242-684. -/
def neg (d : ℕ) : ℕ := (64 - d % 64) % 64
/-- The value of a comparison as an integer. primitives.h:242-684. -/
def bit (b : Bool) : ℕ := if b then 1 else 0

/-- `softfloat_eq128`. primitives.h:242-247. -/
def eq128 (a64 a0 b64 b0 : ℕ) : Bool := a64 == b64 && a0 == b0
/-- `softfloat_le128`. primitives.h:257-262. -/
def le128 (a64 a0 b64 b0 : ℕ) : Bool := decide (a64 < b64) || (a64 == b64 && decide (a0 ≤ b0))
/-- `softfloat_lt128`. primitives.h:272-277. -/
def lt128 (a64 a0 b64 b0 : ℕ) : Bool := decide (a64 < b64) || (a64 == b64 && decide (a0 < b0))

/-- `softfloat_shortShiftLeft128`. primitives.h:286-296. -/
def shortShiftLeft128 (a64 a0 d : ℕ) : ℕ × ℕ := (shl a64 d ||| shr a0 (neg d), shl a0 d)

/-- `softfloat_shortShiftRight128`. primitives.h:307-317. -/
def shortShiftRight128 (a64 a0 d : ℕ) : ℕ × ℕ := (shr a64 d, shl a64 (neg d) ||| shr a0 d)

/-- `softfloat_shortShiftRightJam64Extra`. primitives.h:328-339. -/
def shortShiftRightJam64Extra (a extra d : ℕ) : ℕ × ℕ := (shr a d, shl a (neg d) ||| bit (extra != 0))

/-- `softfloat_shortShiftRightJam128`. primitives.h:354-368. -/
def shortShiftRightJam128 (a64 a0 d : ℕ) : ℕ × ℕ :=
  (shr a64 d, shl a64 (neg d) ||| shr a0 d ||| bit (shl a0 (neg d) != 0))

/-- `softfloat_shortShiftRightJam128Extra`. primitives.h:380-393. -/
def shortShiftRightJam128Extra (a64 a0 extra d : ℕ) : (ℕ × ℕ) × ℕ :=
  ((shr a64 d, shl a64 (neg d) ||| shr a0 d), shl a0 (neg d) ||| bit (extra != 0))

/-- `softfloat_shiftRightJam64Extra`. primitives.h:417-434. -/
def shiftRightJam64Extra (a extra d : ℕ) : ℕ × ℕ :=
  let z := if d < 64 then (shr a d, shl a (neg d)) else (0, if d = 64 then a else bit (a != 0))
  (z.1, z.2 ||| bit (extra != 0))

/-- `softfloat_add128`. primitives.h:503-513. -/
def add128 (a64 a0 b64 b0 : ℕ) : ℕ × ℕ :=
  let v0 := (a0 + b0) % 2 ^ 64
  ((a64 + b64 + bit (decide (v0 < a0))) % 2 ^ 64, v0)

/-- `softfloat_sub128`. primitives.h:538-549. -/
def sub128 (a64 a0 b64 b0 : ℕ) : ℕ × ℕ :=
  let v64 := (a64 + 2 ^ 64 - b64) % 2 ^ 64
  ((v64 + 2 ^ 64 - bit (decide (a0 < b0))) % 2 ^ 64, (a0 + 2 ^ 64 - b0) % 2 ^ 64)

/-- `softfloat_mul64ByShifted32To128`. primitives.h:573-583. -/
def mul64ByShifted32To128 (a b : ℕ) : ℕ × ℕ :=
  let mid := a % 2 ^ 32 * b % 2 ^ 64
  ((a / 2 ^ 32 % 2 ^ 32 * b + mid / 2 ^ 32) % 2 ^ 64, shl mid 32)

/-- `softfloat_mul128By32`; `w` is the number of bits of `uint_fast32_t`, 32 or 64. primitives.h:601-614. -/
def mul128By32 (w a64 a0 b : ℕ) : ℕ × ℕ :=
  let v0 := a0 * b % 2 ^ 64
  let mid := a0 / 2 ^ 32 % 2 ^ 32 * b % 2 ^ 64
  let carry := (v0 / 2 ^ 32 % 2 ^ w + 2 ^ w - mid % 2 ^ w) % 2 ^ w % 2 ^ 32
  ((a64 * b + (mid + carry) % 2 ^ 64 / 2 ^ 32 % 2 ^ w) % 2 ^ 64, v0)

/-- `softfloat_shortShiftLeft64To96M`; the three 32-bit words, least significant first. primitives.h:672-684. -/
def shortShiftLeft64To96 (a d : ℕ) : ℕ × ℕ × ℕ :=
  let b := a / 2 ^ (32 - d)
  (a % 2 ^ 32 * 2 ^ d % 2 ^ 32, b % 2 ^ 32, b / 2 ^ 32 % 2 ^ 32)

end Thls.SoftWords
