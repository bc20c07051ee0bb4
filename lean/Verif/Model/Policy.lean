import Verif.Model.Ref
import Verif.Model.Ieee
import Verif.Model.Double
import Verif.Model.SoftFloat

/-! # The policies and the policy test (policy_native.hpp, policy_softfloat.hpp, policy_flopoco.hpp,
policy_ieee_on_flopoco.hpp, policy_test.hpp)

MPFR is replaced by its documented behaviour. Here this includes a bounded exponent range, the ternary value and
`mpfr_subnormalize`. The MPFR exponent of `m * 2^e` with `m` of `p` bits is `e + p`. A C++ `float` or `double` is its word. -/

namespace Thls

namespace Mpfr

/-- `MPFR_RNDN` of a rational into `p` bits with the exponents `emin..emax`. A result above the range is an infinity. Below the range
it is the nearer of zero and the least positive number `2^(emin-1)`, and zero if the exact value is half-way.
Library behaviour, used at policy_native.hpp:41-90,138-188, policy_flopoco.hpp:195-231. -/
def rndnRange (emin emax : ℤ) (p : ℕ) (v : ℚ) : Mpfr :=
  if v = 0 then .zero false
  else
    let k := rndnPos p |v|
    if emax < k.2 + p then .inf (decide (v < 0))
    else if k.2 + p < emin then
      if |v| ≤ 2 ^ (emin - 2) then .zero (decide (v < 0)) else .num (decide (v < 0)) (2 ^ (p - 1)) (emin - p)
    else .num (decide (v < 0)) k.1 k.2

/-- The ternary value: the sign of the result minus the exact value. Library behaviour, used at policy_native.hpp:41-90,138-188. -/
def ternary (v : ℚ) : Mpfr → ℤ
  | .nan => 0
  | .inf s => if s then -1 else 1
  | x => if x.value < v then -1 else if v < x.value then 1 else 0

/-- A rounded result with its ternary value. Library behaviour, used at policy_native.hpp:41-90,138-188. -/
def roundT (rnd : ℚ → Mpfr) (v : ℚ) : Mpfr × ℤ := (rnd v, ternary v (rnd v))

/-- `mpfr_mul` with its ternary value; the exceptional operands are those of `Mpfr.mul`, which does not use its precision there.
Library behaviour, used at policy_native.hpp:41-56,138-153. -/
def mulT (rnd : ℚ → Mpfr) : Mpfr → Mpfr → Mpfr × ℤ
  | .num s m e, .num s' m' e' => roundT rnd ((Mpfr.num s m e).value * (Mpfr.num s' m' e').value)
  | x, y => (mul 2 x y, 0)

/-- `mpfr_add` with its ternary value. Library behaviour, used at policy_native.hpp:58-73,155-170. -/
def addT (rnd : ℚ → Mpfr) : Mpfr → Mpfr → Mpfr × ℤ
  | .num s m e, .num s' m' e' => roundT rnd ((Mpfr.num s m e).value + (Mpfr.num s' m' e').value)
  | .num s m e, .zero _ => roundT rnd (Mpfr.num s m e).value
  | .zero _, .num s m e => roundT rnd (Mpfr.num s m e).value
  | x, y => (add 2 x y, 0)

/-- `mpfr_div` with its ternary value. Library behaviour, used at policy_native.hpp:75-90,172-188. -/
def divT (rnd : ℚ → Mpfr) : Mpfr → Mpfr → Mpfr × ℤ
  | .num s m e, .num s' m' e' => roundT rnd ((Mpfr.num s m e).value / (Mpfr.num s' m' e').value)
  | x, y => (divWith (rndn 2) x y, 0)

/-- `mpfr_set` with its ternary value. Library behaviour, used at policy_native.hpp:96-110. -/
def setT (rnd : ℚ → Mpfr) : Mpfr → Mpfr × ℤ
  | .num s m e => roundT rnd (Mpfr.num s m e).value
  | x => (x, 0)

/-- `mpfr_subnormalize(x, t, MPFR_RNDN)`: a number below `2^(emin+p-2)` is rounded to a multiple of `2^(emin-1)`. A number half-way
between two multiples is rounded by the ternary value `t`: to the side of the exact value, to the even multiple if `t = 0`.
The result is given with the exponent `emin - 1`; MPFR keeps it in `p` bits.
Library behaviour, used at policy_native.hpp:50,67,84,105,147,164,182. -/
def subnormalize (emin : ℤ) (t : ℤ) : Mpfr → Mpfr
  | .num s m e =>
    if emin - 1 ≤ e then .num s m e
    else
      let d := (emin - 1 - e).toNat
      let k := m / 2 ^ d
      let r := m % 2 ^ d
      let up := 2 ^ d < 2 * r ∨ (2 ^ d = 2 * r ∧ (if t = 0 then k % 2 = 1 else if s then 0 < t else t < 0))
      .num s (if up then k + 1 else k) (emin - 1)
  | x => x

/-- `mpfr_cmp`: the sign of the difference, 0 if either is a NaN. Library behaviour, used at policy_native.hpp:13,114. -/
def cmp : Mpfr → Mpfr → ℤ
  | .nan, _ => 0
  | _, .nan => 0
  | .inf s, .inf t => if s = t then 0 else if s then -1 else 1
  | .inf s, _ => if s then -1 else 1
  | _, .inf t => if t then 1 else -1
  | x, y => if x.value < y.value then -1 else if y.value < x.value then 1 else 0

/-- `mpfr_nan_p`. Library behaviour, used at fp_ieee.hpp:303, test_fp_flopoco.cpp:38. -/
def isNan : Mpfr → Bool
  | .nan => true
  | _ => false

end Mpfr

/-- The exact value of a `float` or `double` word with `E` exponent and `F` fraction bits.
Library behaviour, used at policy_native.hpp:36,133. -/
def floatValue (E F w : ℕ) : Mpfr :=
  let s := w / 2 ^ (E + F) == 1
  let e := w / 2 ^ F % 2 ^ E
  let f := w % 2 ^ F
  if e = 2 ^ E - 1 then (if f = 0 then .inf s else .nan)
  else if e = 0 then (if f = 0 then .zero s else .num s f (1 - biasN E - F))
  else .num s (2 ^ F + f) ((e : ℤ) - biasN E - F)

/-- The word nearest to an MPFR number (`mpfr_get_d`, or `mpfr_get_d` followed by a conversion to `float` of a number that
`float` can hold), as `dblRound` for any format. Library behaviour, used at policy_native.hpp:12,110. -/
def floatRound (E F : ℕ) (x : Mpfr) : ℕ :=
  match x with
  | .nan => (2 ^ E - 1) * 2 ^ F + 2 ^ (F - 1)
  | .inf s => s.toNat * 2 ^ (E + F) + (2 ^ E - 1) * 2 ^ F
  | .zero s => s.toNat * 2 ^ (E + F)
  | .num s k e =>
    let le : ℤ := 1 - biasN E - F
    let qe : ℤ := max (e + Nat.log2 k - F) le
    let q := if qe ≤ e then k * 2 ^ (e - qe).toNat else roundShift k (qe - e).toNat
    let w := q + (qe - le).toNat * 2 ^ F
    s.toNat * 2 ^ (E + F) + (if (2 ^ E - 1) * 2 ^ F ≤ w then (2 ^ E - 1) * 2 ^ F else w)

namespace Native

/-- `to_mpfr(dst, x)` with a destination of `p` bits: throws unless the conversion is exact.
policy_native.hpp:35-39,132-136. -/
def toMpfr (E F p w : ℕ) : Option Mpfr :=
  let r := Mpfr.setT (Mpfr.rndn p) (floatValue E F w)
  if r.2 ≠ 0 then none else some r.1

/-- `policy_native_double::from_mpfr(x, allow)`. The test `lowest() <= |v|` always holds. policy_native.hpp:11-33. -/
def fromMpfrDouble (x : Mpfr) (allow : Bool) : Option ℕ :=
  let w := floatRound 11 52 x
  let v := floatValue 11 52 w
  if Mpfr.cmp x v ≠ 0 then
    match v with
    | .num _ m e => if (m : ℚ) * 2 ^ e ≤ 2 ^ (-1022 : ℤ) then (if allow then some w else none) else none
    | _ => if allow then some w else none
  else some w

/-- `policy_native_single::from_mpfr(x, allow)`. policy_native.hpp:96-130. -/
def fromMpfrSingle (x : Mpfr) (allow : Bool) : Option ℕ :=
  let i := Mpfr.setT (Mpfr.rndnRange (-148) 128 24) x
  let tmp := Mpfr.subnormalize (-148) i.2 i.1
  let w := floatRound 8 23 tmp
  let v := floatValue 8 23 w
  if Mpfr.cmp x v ≠ 0 then
    match v with
    | .num _ _ _ => none
    | _ => if allow then some w else none
  else some w

/-- The common body of the references: result and returned ternary value. `prec` is the precision of the destination; any
other precision throws. policy_native.hpp:41-90,138-188. -/
def refWith (op : (ℚ → Mpfr) → Mpfr → Mpfr → Mpfr × ℤ) (emin emax : ℤ) (p prec : ℕ) (a b : Mpfr) : Option (Mpfr × ℤ) :=
  if prec ≠ p then none
  else
    let i := op (Mpfr.rndnRange emin emax p) a b
    some (Mpfr.subnormalize emin i.2 i.1, i.2)

/-- `policy_native_double::ref_mul`. policy_native.hpp:41-56; also policy_concept, policy_test.hpp:75-88. -/
def refMulDouble (prec : ℕ) (a b : Mpfr) : Option (Mpfr × ℤ) := refWith Mpfr.mulT (-1073) 1024 53 prec a b
/-- `policy_native_double::ref_add`. policy_native.hpp:58-73. -/
def refAddDouble (prec : ℕ) (a b : Mpfr) : Option (Mpfr × ℤ) := refWith Mpfr.addT (-1073) 1024 53 prec a b
/-- `policy_native_double::ref_div`. policy_native.hpp:75-90. -/
def refDivDouble (prec : ℕ) (a b : Mpfr) : Option (Mpfr × ℤ) := refWith Mpfr.divT (-1073) 1024 53 prec a b
/-- `policy_native_single::ref_mul`. policy_native.hpp:138-153. -/
def refMulSingle (prec : ℕ) (a b : Mpfr) : Option (Mpfr × ℤ) := refWith Mpfr.mulT (-148) 128 24 prec a b
/-- `policy_native_single::ref_add`. policy_native.hpp:155-170. -/
def refAddSingle (prec : ℕ) (a b : Mpfr) : Option (Mpfr × ℤ) := refWith Mpfr.addT (-148) 128 24 prec a b
/-- `policy_native_single::ref_div`. policy_native.hpp:172-188. -/
def refDivSingle (prec : ℕ) (a b : Mpfr) : Option (Mpfr × ℤ) := refWith Mpfr.divT (-148) 128 24 prec a b

end Native

/-- What the policy test uses of a policy and its value type. policy_test.hpp:42-124,154-160. -/
structure TestPolicy (V : Type) where
  digits : ℕ
  fromMpfr : Mpfr → Bool → Option V
  toMpfr : V → Option Mpfr
  refMul : Mpfr → Mpfr → Option Mpfr
  refAdd : Mpfr → Mpfr → Option Mpfr
  refDiv : Mpfr → Mpfr → Option Mpfr
  mul : V → V → Option V
  add : V → V → Option V
  div : V → V → Option V
  eq : V → V → Bool
  ne : V → V → Bool
  lt : V → V → Bool
  le : V → V → Bool
  gt : V → V → Bool
  ge : V → V → Bool

/-- `policy_softfloat_single`: the exchange and the references are those of `policy_native_single`.
policy_softfloat.hpp:178-203,236-267; `digits` at 43. -/
def policySoftSingle (fast : ℕ) : TestPolicy ℕ where
  digits := 24
  fromMpfr := Native.fromMpfrSingle
  toMpfr := Native.toMpfr 8 23 24
  refMul a b := (Native.refMulSingle 24 a b).map Prod.fst
  refAdd a b := (Native.refAddSingle 24 a b).map Prod.fst
  refDiv a b := (Native.refDivSingle 24 a b).map Prod.fst
  mul := f32Mul fast
  add := f32Add fast
  div := f32Div fast
  eq := f32Eq
  ne := f32Ne
  lt := f32Lt
  le := f32Le
  gt := f32Gt
  ge := f32Ge

/-- `policy_softfloat_double`. policy_softfloat.hpp:206-231,270-300; `digits` at 124. -/
def policySoftDouble (fast : ℕ) : TestPolicy ℕ where
  digits := 53
  fromMpfr := Native.fromMpfrDouble
  toMpfr := Native.toMpfr 11 52 53
  refMul a b := (Native.refMulDouble 53 a b).map Prod.fst
  refAdd a b := (Native.refAddDouble 53 a b).map Prod.fst
  refDiv a b := (Native.refDivDouble 53 a b).map Prod.fst
  mul := f64Mul fast
  add := f64Add fast
  div := f64Div fast
  eq := f64Eq
  ne := f64Ne
  lt := f64Lt
  le := f64Le
  gt := f64Gt
  ge := f64Ge

/-- `policy_flopoco<E,F>` with the operators of `fp_flopoco_wrapper`: exponents from `-2^(E-1)+1` to `2^(E-1)+1`.
policy_flopoco.hpp:55-81,107,167-231. -/
def policyFlopoco (E F : ℕ) : TestPolicy (Fp E F) where
  digits := F + 1
  fromMpfr x allow := ofMpfr E F allow x
  toMpfr x := some (toMpfr x)
  refMul a b := some (Mpfr.mulT (Mpfr.rndnRange (-2 ^ (E - 1) + 1) (2 ^ (E - 1) + 1) (F + 1)) a b).1
  refAdd a b := some (Mpfr.addT (Mpfr.rndnRange (-2 ^ (E - 1) + 1) (2 ^ (E - 1) + 1) (F + 1)) a b).1
  refDiv a b := some (Mpfr.divT (Mpfr.rndnRange (-2 ^ (E - 1) + 1) (2 ^ (E - 1) + 1) (F + 1)) a b).1
  mul := mulV1 E F
  add := AddDual.addSame
  div a b := some (divV1 E F a b)
  eq := Ord.equal
  ne := Ord.notEqual
  lt := Ord.lessThan
  le := Ord.lessThanEqual
  gt := Ord.greaterThan
  ge := Ord.greaterThanEqual

/-- `policy_ieee_on_flopoco<E,F>` with the operators of `fp_ieee_on_flopoco_wrapper`: exponents from `-2^(E-1)+2` to `2^(E-1)`.
policy_ieee_on_flopoco.hpp:28-83,110,172-222. -/
def policyIeeeOnFlopoco (E F : ℕ) : TestPolicy (Ieee E F) where
  digits := F + 1
  fromMpfr x allow := Ieee.ofMpfr E F allow x
  toMpfr x := some (Ieee.toMpfr x)
  refMul a b := some (Mpfr.mulT (Mpfr.rndnRange (-2 ^ (E - 1) + 2) (2 ^ (E - 1)) (F + 1)) a b).1
  refAdd a b := some (Mpfr.addT (Mpfr.rndnRange (-2 ^ (E - 1) + 2) (2 ^ (E - 1)) (F + 1)) a b).1
  refDiv a b := some (Mpfr.divT (Mpfr.rndnRange (-2 ^ (E - 1) + 2) (2 ^ (E - 1)) (F + 1)) a b).1
  mul := IeeeOps.mul
  add := IeeeOps.add
  div a b := some (IeeeOps.div a b)
  eq := IeeeOps.eq
  ne := IeeeOps.ne
  lt := IeeeOps.lt
  le := IeeeOps.le
  gt := IeeeOps.gt
  ge := IeeeOps.ge

namespace PolicyTest
variable {V : Type}

/-- `results_t`: failures and checks for every operation, `(0,0)` where the map has no entry. The counters are C++ `int`s.
policy_test.hpp:290. -/
abbrev Results := String → ℕ × ℕ

/-- Counting one check. policy_test.hpp:298-302,315-316,325-326. -/
def record (r : Results) (op : String) (failed : Bool) : Results :=
  Function.update r op ((r op).1 + failed.toNat, (r op).2 + 1)

/-- The decision of `checkOperator`: the reference goes through the value type and back, then both are compared in MPFR.
policy_test.hpp:318-326. -/
def operatorFails (P : TestPolicy V) (got : Option V) (ref : Option Mpfr) : Option Bool := do
  let g ← got
  let r ← ref
  let refTmp ← P.fromMpfr r true
  let ref' ← P.toMpfr refTmp
  let gotM ← P.toMpfr g
  some (decide (Mpfr.cmp gotM ref' ≠ 0) || (gotM.isNan != ref'.isNan))

/-- The nine checks of one pair, in order: name and whether it fails. The messages are not modelled.
policy_test.hpp:366-381 with `checkComparison` 292-307. -/
def pairChecks (P : TestPolicy V) (a b : V) (inA inB : Mpfr) : Option (List (String × Bool)) := do
  let c := Mpfr.cmp inA inB
  let m ← operatorFails P (P.mul a b) (P.refMul inA inB)
  let s ← operatorFails P (P.add a b) (P.refAdd inA inB)
  let d ← operatorFails P (P.div a b) (P.refDiv inA inB)
  some [("Equal", P.eq a b != decide (c = 0)),
    ("NotEqual", P.ne a b != (decide (c ≠ 0) || (inA.isNan || inB.isNan))),
    ("LessThan", P.lt a b != decide (c < 0)),
    ("LessThanEqual", P.le a b != decide (c ≤ 0)),
    ("GreaterThan", P.gt a b != decide (0 < c)),
    ("GreaterThanEqual", P.ge a b != decide (0 ≤ c)),
    ("Mul", m), ("Add", s), ("Div", d)]

/-- The body of the inner loop. policy_test.hpp:358-382. -/
def innerStep (P : TestPolicy V) (a : V) (inA : Mpfr) (r : Results) (b : V) : Option Results := do
  let inB ← P.toMpfr b
  let l ← pairChecks P a b inA inB
  some (l.foldl (fun r c => record r c.1 c.2) r)

/-- The loops of `test_arithmetic` over the input. policy_test.hpp:353-383. -/
def testResults (P : TestPolicy V) (input : List V) : Option Results :=
  input.foldlM (fun r a => do
    let inA ← P.toMpfr a
    input.foldlM (innerStep P a inA) r) (fun _ => (0, 0))

/-- The operations checked. policy_test.hpp:366-381. -/
def names : List String :=
  ["Equal", "NotEqual", "LessThan", "LessThanEqual", "GreaterThan", "GreaterThanEqual", "Mul", "Add", "Div"]

/-- `test_arithmetic` for a given input (`make_input` is in Model/PolicyInput.lean): true if an operation has failed. `none`: an exception or
undefined behaviour. policy_test.hpp:342-402. -/
def testArithmetic (P : TestPolicy V) (input : List V) : Option Bool :=
  (testResults P input).map fun r => decide ((names.filter fun n => (r n).1 ≠ 0).length ≠ 0)

end PolicyTest

end Thls
