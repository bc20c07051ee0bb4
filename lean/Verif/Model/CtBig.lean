import Mathlib.Data.Nat.Notation
import Mathlib.Data.Int.Notation

/-! # Compile-time big integers (core/ct_bigint.hpp)

A chain of `ct_limb`s ending in `ct_zero` is the list of its limbs, most significant first. The macros `HLS_SC` and
`HLS_STATIC_ASSERT` are read as a static constant and a static assertion. The static assertion on the range of a
limb is modelled apart, by `accepted`; every function below computes the limbs regardless of it. -/

namespace Thls.CtBig

/-- A non-negative number: `ct_zero`, or a `ct_limb` and a tail. ct_bigint.hpp:80-136. -/
abbrev Limbs := List ℕ

/-- A number: non-negative, or `ct_neg` of a non-negative number. ct_bigint.hpp:31-44, 138-159. -/
inductive Num where
  | pos (l : Limbs)
  | neg (l : Limbs)
deriving DecidableEq, Repr

/-- `digit_pos` plus one: the number of limbs. ct_bigint.hpp:89, 118. -/
def digits (l : Limbs) : ℕ := l.length

/-- `is_pos` of a chain of limbs. ct_bigint.hpp:99, 124. -/
def isPos : Limbs → Bool
  | [] => false
  | x :: t => decide (x > 0) || isPos t

/-- `is_zero` of a chain of limbs. ct_bigint.hpp:100, 125. -/
def isZero : Limbs → Bool
  | [] => true
  | x :: t => (x == 0) && isZero t

/-- `value()` of a chain of limbs. ct_bigint.hpp:108-112, 132-135. -/
def value : Limbs → ℕ
  | [] => 0
  | x :: t => x * 2 ^ (16 * digits t) + value t

/-- `value()` of a number. ct_bigint.hpp:155-158. -/
def Num.value : Num → ℤ
  | .pos l => CtBig.value l
  | .neg l => -CtBig.value l

/-- The static assertion in `ct_limb`, over a chain: every limb is below `limb_mask`. ct_bigint.hpp:83. -/
def accepted (l : Limbs) : Bool := l.all fun x => decide (x < 2 ^ 16 - 1)

/-- `ct_less_than` of chains of limbs. ct_bigint.hpp:165-175, 191-199. -/
def less : Limbs → Limbs → Bool
  | [], [] => false
  | [], b => isPos b
  | _ :: _, [] => false
  | x :: a, y :: b =>
    if digits a > digits b then (if x ≠ 0 then false else less a (y :: b))
    else if digits a < digits b then (if y ≠ 0 then true else less (x :: a) b)
    else if x ≠ y then decide (x < y) else less a b
termination_by a b => a.length + b.length

/-- `ct_equals` of chains of limbs. ct_bigint.hpp:205-215, 230-238. -/
def equals : Limbs → Limbs → Bool
  | [], [] => true
  | [], b => isZero b
  | a@(_ :: _), [] => isZero a
  | x :: a, y :: b =>
    if digits a > digits b then (if x ≠ 0 then false else equals a (y :: b))
    else if digits a < digits b then (if y ≠ 0 then false else equals (x :: a) b)
    else if x ≠ y then false else equals a b
termination_by a b => a.length + b.length

/-- `ct_less_than` of numbers; `none` where two partial specialisations match and neither is more specialised.
ct_bigint.hpp:165-199. -/
def Num.less : Num → Num → Option Bool
  | .pos a, .pos b => some (CtBig.less a b)
  | .neg a, .neg b => some (CtBig.less b a)
  | .neg _, .pos [] => none
  | .neg _, .pos (_ :: _) => some true
  | .pos [], .neg _ => none
  | .pos (_ :: _), .neg _ => some false

/-- `ct_greater_than` of numbers. ct_bigint.hpp:241-245. -/
def Num.greater (a b : Num) : Option Bool := Num.less b a

/-- `ct_equals` of numbers. ct_bigint.hpp:205-238. -/
def Num.equals : Num → Num → Option Bool
  | .pos a, .pos b => some (CtBig.equals a b)
  | .neg a, .neg b => some (CtBig.equals b a)
  | .neg _, .pos [] => none
  | .neg _, .pos (_ :: _) => some false
  | .pos [], .neg _ => none
  | .pos (_ :: _), .neg _ => some false

/-- `ct_zero_limbs<n>`. ct_bigint.hpp:274-290. -/
def zeroLimbs : ℕ → Limbs
  | 0 => []
  | n + 1 => 0 :: zeroLimbs n

/-- The worker of `ct_ensure_digits`. ct_bigint.hpp:297-308. -/
def ensureWorker (l : Limbs) : ℕ → Limbs
  | 0 => l
  | n + 1 => 0 :: ensureWorker l n

/-- `ct_ensure_digits<T,digits>`, with digits counted from one. ct_bigint.hpp:294-313. -/
def ensureDigits (l : Limbs) (n : ℕ) : Limbs := ensureWorker l (if n > digits l then n - digits l else 0)

/-- `ct_canonicalise`: drops one leading zero limb. ct_bigint.hpp:411-421. -/
def canonicalise : Limbs → Limbs
  | 0 :: t => t
  | l => l

/-- The worker of `ct_add`: the carry out and the sum limbs. The type of the carry wraps at 32 bits, which is never
reached. ct_bigint.hpp:440-457. -/
def addWorker : Limbs → Limbs → ℕ × Limbs
  | x :: a, y :: b =>
    let lower := addWorker a b
    let fullSum := lower.1 + x + y
    (fullSum / 2 ^ 16, (fullSum % 2 ^ 16) :: lower.2)
  | _, _ => (0, [])

/-- `ct_add`: the number of digits is parsed as `(1 + dA > dB) ? dA : dB`. ct_bigint.hpp:249-271, 430-463. -/
def add (a b : Limbs) : Limbs :=
  if a = [] then b
  else if b = [] then a
  else
    let n := if 1 + digits a > digits b then digits a else digits b
    canonicalise (addWorker (ensureDigits a n) (ensureDigits b n)).2

/-- `ct_shift_limbs_left`. ct_bigint.hpp:319-329. -/
def shiftLimbsLeft (n : ℕ) : Limbs → Limbs
  | [] => zeroLimbs n
  | x :: t => x :: shiftLimbsLeft n t

/-- `ct_shift_limbs_right`. ct_bigint.hpp:332-346. -/
def shiftLimbsRight (n : ℕ) : Limbs → Limbs
  | [] => []
  | x :: t => if digits t ≥ n then x :: shiftLimbsRight n t else []

/-- `ct_shift_right_detail`. ct_bigint.hpp:349-365. -/
def shiftRightDetail (places : ℕ) : ℕ → Limbs → Limbs
  | _, [] => []
  | carryIn, x :: t =>
    (carryIn ||| (x / 2 ^ places)) :: shiftRightDetail places ((x * 2 ^ (16 - places)) % 2 ^ 16) t

/-- `ct_shift_right`. ct_bigint.hpp:367-374. -/
def shiftRight (l : Limbs) (places : ℕ) : Limbs :=
  canonicalise (shiftRightDetail (places % 16) 0 (shiftLimbsRight (places / 16) l))

/-- `ct_shift_left_detail`: the carry out and the limbs. ct_bigint.hpp:378-398. -/
def shiftLeftDetail (places : ℕ) : Limbs → ℕ × Limbs
  | [] => (0, [])
  | x :: t =>
    let lower := shiftLeftDetail places t
    (x / 2 ^ (16 - places), ((lower.1 ||| (x * 2 ^ places)) % 2 ^ 16) :: lower.2)

/-- `ct_shift_left`. ct_bigint.hpp:400-408. -/
def shiftLeft (l : Limbs) (places : ℕ) : Limbs :=
  let lower := shiftLeftDetail (places % 16) (shiftLimbsLeft (places / 16) l)
  canonicalise (lower.1 :: lower.2)

/-- The worker of `ct_mul_single`, in 32-bit arithmetic. ct_bigint.hpp:468-486. -/
def mulWorker (b : ℕ) : Limbs → ℕ × Limbs
  | [] => (0, [])
  | x :: t =>
    let lower := mulWorker b t
    let full := ((x * b) % 2 ^ 32 + lower.1) % 2 ^ 32
    (full / 2 ^ 16, (full % 2 ^ 16) :: lower.2)

/-- `ct_mul_single`. ct_bigint.hpp:465-491. -/
def mulSingle (a : Limbs) (b : ℕ) : Limbs := canonicalise ((mulWorker b a).1 :: (mulWorker b a).2)

/-- `ct_mul`: only the product with zero can be instantiated. The general case names `boost::mpl::same_as` with two
arguments where it takes one, and passes the `if_` itself instead of its `type`. ct_bigint.hpp:493-521. -/
def mul (_a : Limbs) : Limbs → Option Limbs
  | [] => some []
  | _ :: _ => none

/-- A lower-case hexadecimal digit, as `printf` writes it. ct_bigint.hpp:93,104. -/
def hexChar (d : ℕ) : Char := if d < 10 then Char.ofNat ('0'.toNat + d) else Char.ofNat ('a'.toNat + (d - 10))

/-- `%04x` of a limb. ct_bigint.hpp:93. -/
def hex4 (x : ℕ) : List Char := [hexChar (x / 2 ^ 12 % 16), hexChar (x / 2 ^ 8 % 16), hexChar (x / 2 ^ 4 % 16), hexChar (x % 16)]

/-- `%x` of a limb: no leading zeros, and at least one digit. ct_bigint.hpp:104. -/
def hex (x : ℕ) : List Char :=
  if x < 2 ^ 4 then [hexChar (x % 16)]
  else if x < 2 ^ 8 then [hexChar (x / 2 ^ 4 % 16), hexChar (x % 16)]
  else if x < 2 ^ 12 then [hexChar (x / 2 ^ 8 % 16), hexChar (x / 2 ^ 4 % 16), hexChar (x % 16)]
  else hex4 x

/-- `print_interior`. ct_bigint.hpp:91-95, 120-121. -/
def printInterior : Limbs → List Char
  | [] => []
  | x :: t => hex4 x ++ printInterior t

/-- `print` of a chain of limbs. ct_bigint.hpp:102-106, 127-130. -/
def print : Limbs → List Char
  | [] => ['0']
  | x :: t => '0' :: 'x' :: (hex x ++ printInterior t)

/-- `print` of a number. ct_bigint.hpp:149-153. -/
def Num.print : Num → List Char
  | .pos l => CtBig.print l
  | .neg l => '-' :: CtBig.print l

end Thls.CtBig
