import Mathlib.Data.Int.Notation
import Mathlib.Data.Nat.Notation
import Mathlib.Data.Int.Order.Basic
import Mathlib.Data.Option.Basic

/-! # Range-tracking fixed-point values (types/fixval.hpp) and compile-time comparison
(core/constfunc_helpers.hpp)

`none` stands for an instantiation that does not compile, signed overflow or a failed assertion. A left shift of
a negative number, which older standards leave undefined, is taken to multiply. The macros `HLS_STATIC_ASSERT` and
`HLS_SC` are read as `THLS_STATIC_ASSERT` and `THLS_STATIC_CONST`. -/

namespace Thls.Fix

/-- A result of `int64_t` arithmetic; `none` on overflow. Used throughout fixval.hpp:70-201 and constfunc_helpers.hpp:51-70. -/
def ck (x : ℤ) : Option ℤ := if -2 ^ 63 ≤ x ∧ x < 2 ^ 63 then some x else none

/-- `v << places` in `int64_t`. fixval.hpp:78-81,105-106,121, constfunc_helpers.hpp:56-58. -/
def shl (v : ℤ) (places : ℤ) : Option ℤ :=
  if 0 ≤ places ∧ places < 64 then ck (v * 2 ^ places.toNat) else none

/-- `v >> places` in `int64_t`. fixval.hpp:161,175,190,200, constfunc_helpers.hpp:56. -/
def shr (v : ℤ) (places : ℤ) : Option ℤ :=
  if 0 ≤ places ∧ places < 64 then some (v / 2 ^ places.toNat) else none

/-- `ctMax<a,b>::val`. constfunc_helpers.hpp:35-37. -/
def ctMax (a b : ℤ) : ℤ := if a > b then a else b

/-- `ctMin<a,b>::val`. constfunc_helpers.hpp:39-41. -/
def ctMin (a b : ℤ) : ℤ := if a ≤ b then a else b

/-- `ctMax4<a,b,c,d>::val`. constfunc_helpers.hpp:43-45. -/
def ctMax4 (a b c d : ℤ) : ℤ := ctMax (ctMax a b) (ctMax c d)

/-- `ctMin4<a,b,c,d>::val`. constfunc_helpers.hpp:47-49. -/
def ctMin4 (a b c d : ℤ) : ℤ := ctMin (ctMin a b) (ctMin c d)

/-- The type `fixval<shift,low,high>`. fixval.hpp:8-13. -/
structure Ty where
  shift : ℤ
  low : ℤ
  high : ℤ
deriving DecidableEq, Repr

/-- A value of type `fixval<shift,low,high>`. fixval.hpp:8-32. -/
structure Val where
  ty : Ty
  val : ℤ
deriving DecidableEq, Repr

/-- The constructor from an integer, with its assertions. fixval.hpp:24-29. -/
def make (t : Ty) (x : ℤ) : Option Val := if t.low ≤ x ∧ x ≤ t.high then some ⟨t, x⟩ else none

/-- `fixval_constant<s,v>()`. fixval.hpp:65-67. -/
def constant (s v : ℤ) : Option Val := make ⟨s, v, v⟩ v

/-- `union_type<A,B>::type`. fixval.hpp:70-88. -/
def unionTy (a b : Ty) : Option Ty :=
  let eMin := ctMin a.shift b.shift
  let eMax := ctMax a.shift b.shift
  let sA := eMax - b.shift
  let sB := eMax - a.shift
  (shl a.low sA).bind fun nLowA => (shl a.high sA).bind fun nHighA =>
    (shl b.low sB).bind fun nLowB => (shl b.high sB).map fun nHighB =>
      ⟨eMin, ctMin nLowA nLowB, ctMax nHighA nHighB⟩

/-- `add_type<A,B>::type`. fixval.hpp:95-108. -/
def addTy (a b : Ty) : Option Ty :=
  let eMin := ctMin a.shift b.shift
  let eMax := ctMax a.shift b.shift
  let sA := eMax - b.shift
  let sB := eMax - a.shift
  (shl a.low sA).bind fun la => (shl b.low sB).bind fun lb => (ck (la + lb)).bind fun lo =>
    (shl a.high sA).bind fun ha => (shl b.high sB).bind fun hb => (ck (ha + hb)).map fun hi => ⟨eMin, lo, hi⟩

/-- `operator+`, with its assertions. fixval.hpp:111-122. -/
def add (a b : Val) : Option Val :=
  if a.ty.low ≤ a.val ∧ a.val ≤ a.ty.high ∧ b.ty.low ≤ b.val ∧ b.val ≤ b.ty.high then
    (addTy a.ty b.ty).bind fun t =>
      let eMax := ctMax a.ty.shift b.ty.shift
      (shl a.val (eMax - b.ty.shift)).bind fun x => (shl b.val (eMax - a.ty.shift)).bind fun y =>
        (ck (x + y)).bind fun s => make t s
  else none

/-- `mul_type<A,B>::type`. fixval.hpp:128-136. -/
def mulTy (a b : Ty) : Option Ty :=
  (ck (a.low * b.low)).bind fun p => (ck (a.low * b.high)).bind fun q =>
    (ck (a.high * b.low)).bind fun r => (ck (a.high * b.high)).map fun s =>
      ⟨a.shift + b.shift, ctMin4 p q r s, ctMax4 p q r s⟩

/-- `operator*`, with its assertions. fixval.hpp:138-149. -/
def mul (a b : Val) : Option Val :=
  if a.ty.low ≤ a.val ∧ a.val ≤ a.ty.high ∧ b.ty.low ≤ b.val ∧ b.val ≤ b.ty.high then
    (mulTy a.ty b.ty).bind fun t => (ck (a.val * b.val)).bind fun p => make t p
  else none

/-- `shift_right_type<V,S>::type`. fixval.hpp:155-162. -/
def shiftRightTy (v s : Ty) : Option Ty :=
  if s.shift = 0 ∧ s.low ≥ 0 then
    (shr v.low s.low).bind fun lo => (shr v.high s.low).map fun hi => ⟨v.shift, lo, hi⟩
  else none

/-- `operator>>` by a variable, with its assertions. fixval.hpp:165-176. -/
def shiftRight (v s : Val) : Option Val :=
  if v.ty.low ≤ v.val ∧ v.val ≤ v.ty.high ∧ s.ty.low ≤ s.val ∧ s.val ≤ s.ty.high then
    (shiftRightTy v.ty s.ty).bind fun t => (shr v.val s.val).bind fun x => make t x
  else none

/-- `shift_right_const_type<places,A>::type`. fixval.hpp:186-192. -/
def shiftRightConstTy (places : ℤ) (a : Ty) : Option Ty :=
  (shr a.low places).bind fun lo => (shr a.high places).map fun hi => ⟨a.shift, lo, hi⟩

/-- `shift_right_const<places>(a)`. fixval.hpp:195-201. -/
def shiftRightConst (places : ℤ) (a : Val) : Option Val :=
  (shiftRightConstTy places a.ty).bind fun t => (shr a.val places).bind fun x => make t x

/-- `ctCheckedShiftLeft<v,places>::val`. constfunc_helpers.hpp:51-59. -/
def checkedShiftLeft (v places : ℤ) : Option ℤ := shl v places

/-- `ctFixCompare<eA,vA,eB,vB>::val`. The second operand is computed from the first. constfunc_helpers.hpp:61-70. -/
def fixCompare (eA vA eB _vB : ℤ) : Option ℤ :=
  let eLo := ctMin eA eB
  (checkedShiftLeft vA (eA - eLo)).bind fun nA => (checkedShiftLeft vA (eA - eLo)).map fun nB =>
    if nA < nB then -1 else if nA > nB then 1 else 0

/-- `ctFixLessThan`, `ctFixLessThanEquals`, `ctFixEquals`, `ctFixGreaterThanEquals`, `ctFixGreaterThan`.
constfunc_helpers.hpp:73-91. -/
def fixLt (eA vA eB vB : ℤ) : Option Bool := (fixCompare eA vA eB vB).map fun c => decide (c < 0)
@[inherit_doc fixLt] def fixLe (eA vA eB vB : ℤ) : Option Bool := (fixCompare eA vA eB vB).map fun c => decide (c ≤ 0)
@[inherit_doc fixLt] def fixEq (eA vA eB vB : ℤ) : Option Bool := (fixCompare eA vA eB vB).map fun c => decide (c = 0)
@[inherit_doc fixLt] def fixGe (eA vA eB vB : ℤ) : Option Bool := (fixCompare eA vA eB vB).map fun c => decide (c ≥ 0)
@[inherit_doc fixLt] def fixGt (eA vA eB vB : ℤ) : Option Bool := (fixCompare eA vA eB vB).map fun c => decide (c > 0)

/-- The converting constructor. Its member `val` is not initialised: `garbage` is whatever it holds.
fixval.hpp:15-22. -/
def convert (t : Ty) (garbage : ℤ) (a : Val) : Option Val :=
  if a.ty.low ≤ a.ty.high ∧ t.shift ≤ a.ty.shift ∧ fixLe t.shift t.low a.ty.shift a.ty.low = some true ∧
      fixGe a.ty.shift a.ty.high t.shift t.high = some true then
    some ⟨t, garbage⟩
  else none

/-- `select(sel,a,b)`: both conversions have to compile, one of them runs. functions/select.hpp:3-8. -/
def select (sel : Bool) (garbageA garbageB : ℤ) (a b : Val) : Option Val :=
  (unionTy a.ty b.ty).bind fun t =>
    (convert t garbageA a).bind fun x => (convert t garbageB b).map fun y => if sel then x else y

/-- `horner_type<X,C0,Cr...>::type`. functions/horner.hpp:6-21. -/
def hornerTy (x : Ty) : Ty → List Ty → Option Ty
  | c, [] => some c
  | c, d :: cs => (hornerTy x d cs).bind fun base => (mulTy x base).bind fun m => addTy c m

/-- `horner(x,c0,cr...)`. functions/horner.hpp:26-34. -/
def horner (x : Val) : Val → List Val → Option Val
  | c, [] => some c
  | c, d :: cs => (horner x d cs).bind fun base => (mul x base).bind fun m => add c m

/-- `product_type<X0,Xr...>::type`. functions/product.hpp:4-16. -/
def productTy : Ty → List Ty → Option Ty
  | x, [] => some x
  | x, y :: xs => (productTy y xs).bind fun base => mulTy x base

/-- `product(x0,xr...)`. functions/product.hpp:21-29. -/
def product : Val → List Val → Option Val
  | x, [] => some x
  | x, y :: xs => (product y xs).bind fun base => mul x base

end Thls.Fix
