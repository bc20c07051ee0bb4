import Verif.Model.Dot
import Verif.Model.Policy

/-! # The dot product references and their tests (fp_flopoco_dot2_pos_rndd.hpp, fp_flopoco_dot4_pos_rndd.hpp)

MPFR is replaced by its documented behaviour. A C++ `double` is a binary64 word, and its arithmetic is that of IEEE 754 with
rounding to nearest. -/

namespace Thls

/-- The exact value of a `double`.
Library behaviour of `double`, used at fp_flopoco_dot2_pos_rndd.hpp:229, fp_flopoco_dot4_pos_rndd.hpp:372. -/
def dblValue (x : Ieee 11 52) : Mpfr :=
  let s := x.sign == 1
  if x.exp = ones 11 then (if x.frac = 0 then .inf s else .nan)
  else if x.exp = 0 then (if x.frac = 0 then .zero s else .num s x.frac (-1074))
  else .num s (2 ^ 52 + x.frac) ((x.exp : ℤ) - 1075)

/-- The `double` nearest to a value, as in `toDoubleApprox`.
Library behaviour, used at fp_flopoco_dot2_pos_rndd.hpp:215-232, fp_flopoco_dot4_pos_rndd.hpp:351-375. -/
def dblOf : Mpfr → Ieee 11 52
  | .nan => IeeeLimits.quietNaN 11 52
  | .inf neg => if neg then IeeeLimits.negInfinity 11 52 else IeeeLimits.infinity 11 52
  | .zero neg => if neg then IeeeLimits.negZero 11 52 else IeeeLimits.posZero 11 52
  | .num neg m e => dblRound neg m e

/-- `x*y` of two doubles: the exact product, rounded. Used at fp_flopoco_dot2_pos_rndd.hpp:215-232, fp_flopoco_dot4_pos_rndd.hpp:351-375. -/
def dblMul (x y : Ieee 11 52) : Ieee 11 52 :=
  match dblValue x, dblValue y with
  | .num s m e, .num s' m' e' => dblRound (s != s') (m * m') (e + e')
  | u, v => dblOf (Mpfr.mul 2 u v)

/-- The exact sum of two numbers, as an integer at the smaller exponent; an exact zero is positive.
Used at fp_flopoco_dot2_pos_rndd.hpp:215-232, fp_flopoco_dot4_pos_rndd.hpp:351-375. -/
def dblSum (s : Bool) (m : ℕ) (e : ℤ) (s' : Bool) (m' : ℕ) (e' : ℤ) : Ieee 11 52 :=
  let l := min e e'
  let k : ℤ := (if s then -1 else 1) * (m * 2 ^ (e - l).toNat) + (if s' then -1 else 1) * (m' * 2 ^ (e' - l).toNat)
  if k = 0 then IeeeLimits.posZero 11 52 else dblRound (decide (k < 0)) k.natAbs l

/-- `x+y` of two doubles: the exact sum, rounded. Used at fp_flopoco_dot2_pos_rndd.hpp:215-232, fp_flopoco_dot4_pos_rndd.hpp:351-375. -/
def dblAdd (x y : Ieee 11 52) : Ieee 11 52 :=
  match dblValue x, dblValue y with
  | .num s m e, .num s' m' e' => dblSum s m e s' m' e'
  | .num _ _ _, .zero _ => x
  | .zero _, .num _ _ _ => y
  | u, v => dblOf (Mpfr.add 2 u v)

/-- `mpfr_set_d(r, x, MPFR_RNDD)`, and `mpfr_set(r, x, MPFR_RNDD)`, into `p` bits.
Library behaviour, used at fp_flopoco_dot2_pos_rndd.hpp:229, fp_flopoco_dot4_pos_rndd.hpp:346,372. -/
def Mpfr.setDown (p : ℕ) : Mpfr → Mpfr
  | .num s m e => Mpfr.directed p false (Mpfr.num s m e).value
  | x => x

/-- `mpfr_add(r, x, y, MPFR_RNDD)` into `p` bits, of two numbers. The exceptional operands, and an exact zero, do not occur here: both
callers add positive numbers. Library behaviour, used at fp_flopoco_dot2_pos_rndd.hpp:210. -/
def Mpfr.addDown (p : ℕ) (x y : Mpfr) : Mpfr := Mpfr.directed p false (x.value + y.value)

/-- `dot2_pos_rndd_ref_large(a0,a1,b0,b1)`. `none` is a failing assertion. fp_flopoco_dot2_pos_rndd.hpp:181-213. -/
def dot2RefLarge {E F : ℕ} (a0 a1 b0 b1 : Fp E F) : Option (Fp E F) :=
  if dotArg a0 && dotArg a1 && dotArg b0 && dotArg b1 then
    let vab0 := Mpfr.mul (F + F + 2) (toMpfr a0) (toMpfr b0)
    let vab1 := Mpfr.mul (F + F + 2) (toMpfr a1) (toMpfr b1)
    ofMpfr E F true (Mpfr.addDown (F + 1) vab0 vab1)
  else none

/-- `dot2_pos_rndd_ref_small(a0,a1,b0,b1)`. `none` is the exception. fp_flopoco_dot2_pos_rndd.hpp:215-232. -/
def dot2RefSmall {E F : ℕ} (a0 a1 b0 b1 : Fp E F) : Option (Fp E F) :=
  if (F + 1) * 4 > 52 then none
  else
    let dres := dblAdd (dblMul (toDoubleApprox a0) (toDoubleApprox b0)) (dblMul (toDoubleApprox a1) (toDoubleApprox b1))
    ofMpfr E F true (Mpfr.setDown (F + 1) (dblValue dres))

/-- `dot2_pos_rndd_ref(a0,a1,b0,b1)`. fp_flopoco_dot2_pos_rndd.hpp:234-246. -/
def dot2Ref {E F : ℕ} (a0 a1 b0 b1 : Fp E F) : Option (Fp E F) :=
  if (F + 1) * 4 < 52 then dot2RefSmall a0 a1 b0 b1 else dot2RefLarge a0 a1 b0 b1

/-- `vacc += a*b` in `dot4_pos_rndd_ref_large`: a product into `2*(WF+1)` bits, a sum into `12*(WF+2)` bits, and the assertion that
both ternary values are zero. fp_flopoco_dot4_pos_rndd.hpp:327-344. -/
def dot4RefStep {E F : ℕ} (vacc : Mpfr) (a b : Fp E F) : Option Mpfr :=
  let vab := Mpfr.mulT (Mpfr.rndn (2 * (F + 1))) (toMpfr a) (toMpfr b)
  let s := Mpfr.addT (Mpfr.rndn (12 * (F + 2))) vacc vab.1
  if vab.2 ≠ 0 ∨ s.2 ≠ 0 then none else some s.1

/-- `dot4_pos_rndd_ref_large(a0,a1,a2,a3,b0,b1,b2,b3)`. `none` is a failing assertion. fp_flopoco_dot4_pos_rndd.hpp:294-349. -/
def dot4RefLarge {E F : ℕ} (a0 a1 a2 a3 b0 b1 b2 b3 : Fp E F) : Option (Fp E F) :=
  if dotArg a0 && dotArg a1 && dotArg a2 && dotArg a3 && dotArg b0 && dotArg b1 && dotArg b2 && dotArg b3 then
    let v := Mpfr.mulT (Mpfr.rndn (12 * (F + 2))) (toMpfr a0) (toMpfr b0)
    if v.2 ≠ 0 then none
    else
      (dot4RefStep v.1 a1 b1).bind fun v => (dot4RefStep v a2 b2).bind fun v => (dot4RefStep v a3 b3).bind fun v =>
        ofMpfr E F true (Mpfr.setDown (F + 1) v)
  else none

/-- `dot4_pos_rndd_ref_small(a0,a1,a2,a3,b0,b1,b2,b3)`. `none` is the exception or a failing static assertion of `to_double`.
fp_flopoco_dot4_pos_rndd.hpp:351-375. -/
def dot4RefSmall {E F : ℕ} (a0 a1 a2 a3 b0 b1 b2 b3 : Fp E F) : Option (Fp E F) :=
  if (F + 1) * 8 ≥ 52 then none
  else do
    let x0 ← toDouble a0
    let y0 ← toDouble b0
    let x1 ← toDouble a1
    let y1 ← toDouble b1
    let x2 ← toDouble a2
    let y2 ← toDouble b2
    let x3 ← toDouble a3
    let y3 ← toDouble b3
    let dres := dblAdd (dblAdd (dblAdd (dblMul x0 y0) (dblMul x1 y1)) (dblMul x2 y2)) (dblMul x3 y3)
    ofMpfr E F true (Mpfr.setDown (F + 1) (dblValue dres))

/-- `dot4_pos_rndd_ref(a0,a1,a2,a3,b0,b1,b2,b3)`. fp_flopoco_dot4_pos_rndd.hpp:377-393. -/
def dot4Ref {E F : ℕ} (a0 a1 a2 a3 b0 b1 b2 b3 : Fp E F) : Option (Fp E F) :=
  if (F + 1) * 8 < 52 then dot4RefSmall a0 a1 a2 a3 b0 b1 b2 b3 else dot4RefLarge a0 a1 a2 a3 b0 b1 b2 b3

/-- `x != y` of two doubles: true if either is a NaN. Used at fp_flopoco_dot4_pos_rndd.hpp:351-375. -/
def dblNe (x y : Ieee 11 52) : Bool :=
  match dblValue x, dblValue y with
  | .nan, _ => true
  | _, .nan => true
  | u, v => Mpfr.cmp u v != 0

/-! ## The test functions

The result of a test is `some true` if it returns, `some false` if it prints an error and calls `exit(1)`, and `none` if an assertion fails or
an exception is thrown. The random operands are an arbitrary list. -/

/-- One iteration of `test_dot2_pos_rndd`. fp_flopoco_dot2_pos_rndd.hpp:271-278. -/
def testDot2Body {E F : ℕ} (a0 a1 b0 b1 : Fp E F) : Option Bool :=
  (dot2Ref a0 a1 b0 b1).bind fun ref => (dot2 a0 a1 b0 b1).map fun got => ref.equals got

/-- One iteration of `test_dot4_pos_rndd` and of `exhaust_dot4_pos_rndd`. fp_flopoco_dot4_pos_rndd.hpp:419-425,450-456. -/
def testDot4Body {E F : ℕ} (a0 a1 a2 a3 b0 b1 b2 b3 : Fp E F) : Option Bool := do
  let ref ← dot4Ref a0 a1 a2 a3 b0 b1 b2 b3
  let got ← dot4 a0 a1 a2 a3 b0 b1 b2 b3
  let x ← toDouble ref
  let y ← toDouble got
  return !(dblNe x y)

/-- A loop whose body may exit. fp_flopoco_dot2_pos_rndd.hpp:248-310, fp_flopoco_dot4_pos_rndd.hpp:395-469. -/
def runAll {α : Type} (body : α → Option Bool) : List α → Option Bool
  | [] => some true
  | x :: l => (body x).bind fun ok => if ok then runAll body l else some false

/-- `test_dot2_pos_rndd(n)` on the operands drawn. fp_flopoco_dot2_pos_rndd.hpp:248-280. -/
def testDot2 {E F : ℕ} (args : List (Fin 4 → Fp E F)) : Option Bool :=
  runAll (fun a => testDot2Body (a 0) (a 1) (a 2) (a 3)) args

/-- `test_dot4_pos_rndd(n)` on the operands drawn. fp_flopoco_dot4_pos_rndd.hpp:395-427; `callN`: function_utils.hpp:24-34. -/
def testDot4 {E F : ℕ} (args : List (Fin 8 → Fp E F)) : Option Bool :=
  runAll (fun a => testDot4Body (a 0) (a 1) (a 2) (a 3) (a 4) (a 5) (a 6) (a 7)) args

/-- The loop `for(x=traits::min(); x.is_normal().to_bool(); x=nextup(x)) body(x)`, from `x`, for at most `n` evaluations of its
condition. `none` is then also a loop that has not ended. fp_flopoco_dot2_pos_rndd.hpp:292-297. -/
def forUp {E F : ℕ} (body : Fp E F → Option Bool) : ℕ → Fp E F → Option Bool
  | 0, _ => none
  | n + 1, x => if x.isNormal then (body x).bind fun ok => if ok then forUp body n (nextup x) else some false else some true

/-- The whole loop, with a bound `n` on its iterations. fp_flopoco_dot2_pos_rndd.hpp:292-297. -/
def forAll {E F : ℕ} (n : ℕ) (body : Fp E F → Option Bool) : Option Bool := forUp body n (Limits.min E F)

/-- The operands visited by the loop, in order. fp_flopoco_dot2_pos_rndd.hpp:292-297. -/
def upVisits {E F : ℕ} : ℕ → Fp E F → List (Fp E F)
  | 0, _ => []
  | n + 1, x => if x.isNormal then x :: upVisits n (nextup x) else []

/-- `exhaust_dot2_pos_rndd()`. The condition at line 301 is not negated: equality is the error. fp_flopoco_dot2_pos_rndd.hpp:282-310. -/
def exhaustDot2 (E F n : ℕ) : Option Bool :=
  forAll n fun x0 : Fp E F => forAll n fun x1 => forAll n fun x2 => forAll n fun x3 =>
    (dot2Ref x0 x1 x2 x3).bind fun ref => (dot2 x0 x1 x2 x3).map fun got => !(ref.equals got)

/-- `exhaust_dot4_pos_rndd()`. fp_flopoco_dot4_pos_rndd.hpp:429-469. -/
def exhaustDot4 (E F n : ℕ) : Option Bool :=
  forAll n fun x0 : Fp E F => forAll n fun x1 => forAll n fun x2 => forAll n fun x3 =>
    forAll n fun x4 => forAll n fun x5 => forAll n fun x6 => forAll n fun x7 => testDot4Body x0 x1 x2 x3 x4 x5 x6 x7

end Thls
