import Verif.Model.OpTest
import Verif.Model.DotRef
import Verif.Model.Text

/-! # The test programs of the number types (test_fp_flopoco.cpp, test_fp_ieee.cpp)

The generator is default-constructed in every function, so that every function sees the same stream of draws. The draws of
`std::uniform_real_distribution<double>` are arbitrary doubles here. What is printed is not modelled; `none` is a thrown exception or a
failed assertion, `some false` a failed `CHECK`; both end the program with exit code 1. -/

namespace Thls
namespace TypeTest

open OpTest

/-- `mpfr_equal_p`: false if either is a NaN. Library behaviour, used at test_fp_flopoco.cpp:24,32,70,126, test_fp_ieee.cpp:22-97. -/
def equalP (x y : Mpfr) : Bool := !x.isNan && !y.isNan && decide (Mpfr.cmp x y = 0)

/-- `mpfr_cmp(x,y)==0` and `!mpfr_cmp_d(x,y)`. Library behaviour, used at test_fp_flopoco.cpp:74,89,186-225, test_fp_ieee.cpp:157-196. -/
def cmpZero (x y : Mpfr) : Bool := decide (Mpfr.cmp x y = 0)

/-- `mpfr_set_d(x, d, MPFR_RNDN)` into `p` bits.
Library behaviour, used at test_fp_flopoco.cpp:60,81,116-117, test_fp_ieee.cpp:37,52,87-88. -/
def setD (p : ℕ) (d : Ieee 11 52) : Mpfr := Mpfr.set p (dblValue d)

/-- `mpfr_set_d(in, i, MPFR_RNDN)` for the small integers of the loops. test_fp_flopoco.cpp:60, test_fp_ieee.cpp:37. -/
def setInt (p i : ℕ) : Mpfr := Mpfr.rndn p (i : ℚ)

/-- `mpfr_inf_p(x)` and the sign of `x`. Library behaviour, used at test_fp_flopoco.cpp:45,55. -/
def isInfinite (neg : Bool) : Mpfr → Bool
  | .inf s => s == neg
  | _ => false

/-- The constants: infinities and NaN through `get` and `to_double`, `nextdown(lowest())`, `nextup(max())`.
test_fp_flopoco.cpp:22-57. -/
def constants (E F : ℕ) : Option Bool := do
  let pinf ← toDouble (Limits.infinity E F)
  let ninf ← toDouble (Limits.negInfinity E F)
  let nan ← toDouble (Limits.quietNaN E F)
  some (equalP (.inf false) (toMpfr (Limits.infinity E F)) && decide (dblValue pinf = .inf false) &&
    equalP (.inf true) (toMpfr (Limits.negInfinity E F)) && decide (dblValue ninf = .inf true) &&
    (toMpfr (Limits.quietNaN E F)).isNan && (dblValue nan).isNan &&
    isInfinite true (toMpfr (nextdown (Limits.lowest E F))) &&
    isInfinite false (toMpfr (nextup (Limits.max E F))))

/-- One small integer: it reads back, and its `to_double` is the integer. test_fp_flopoco.cpp:59-76. -/
def integerCheck (E F : ℕ) (m : Mpfr) : Option Bool := do
  let one ← ofMpfr E F false m
  let d ← toDouble one
  some (equalP m (toMpfr one) && cmpZero m (dblValue d))

/-- One random number: its `to_double` is the number. test_fp_flopoco.cpp:79-90. -/
def drawCheck (E F : ℕ) (m : Mpfr) : Option Bool := do
  let one ← ofMpfr E F false m
  let d ← toDouble one
  some (cmpZero m (dblValue d))

/-- One check after the other, ending at the first that fails. test_fp_flopoco.cpp:12-94, test_fp_ieee.cpp:11-65. -/
def seqCheck (a b : Option Bool) : Option Bool := do
  let ok ← a
  if ok then b else some false

/-- `test1<ExpBits,FracBits>`. test_fp_flopoco.cpp:12-94. -/
def test1 (E F : ℕ) (draws : ℕ → Ieee 11 52) : Option Bool :=
  seqCheck (constants E F) <|
  seqCheck (OpTest.forAll (fun i => integerCheck E F (setInt (F + 1) i)) (List.range 10)) <|
  OpTest.forAll (fun i => drawCheck E F (setD (F + 1) (draws i))) (List.range 10)

/-- The loop body of `test2`, for either type: `ref_mul` of two random numbers against MPFR's product. test_fp_flopoco.cpp:112-127,
test_fp_ieee.cpp:83-98. -/
def productCheck {T : Type} (ofM : Mpfr → Option T) (toM : T → Mpfr) (mul : T → T → Option T) (p : ℕ) (a b : Mpfr) : Option Bool := do
  let x ← ofM a
  let y ← ofM b
  let r ← mul x y
  some (equalP (Mpfr.mul p a b) (toM r))

/-- `test2<ExpBits,FracBits>`, for either type; `xa` is drawn before `xb`. test_fp_flopoco.cpp:96-133, test_fp_ieee.cpp:67-104. -/
def test2 {T : Type} (ofM : Mpfr → Option T) (toM : T → Mpfr) (mul : T → T → Option T) (p : ℕ) (draws : ℕ → Ieee 11 52) : Option Bool :=
  OpTest.forAll (fun i => productCheck ofM toM mul p (setD p (draws (2 * i))) (setD p (draws (2 * i + 1)))) (List.range 100)

/-- `test<ExpBits,FracBits>` of the FloPoCo type. test_fp_flopoco.cpp:135-140. -/
def test (E F : ℕ) (draws : ℕ → Ieee 11 52) : Option Bool :=
  seqCheck (test1 E F draws) (test2 (ofMpfr E F false) toMpfr (refMul E F) (F + 1) draws)

/-- A number built from MPFR has the given bits and reads back. test_fp_flopoco.cpp:181-186,189-194,197-204,207-215,218-225. -/
def singleCheck (bits : ℕ) (m : Mpfr) : Option Bool := do
  let x ← ofMpfr 8 23 false m
  some (decide (x.bits = bits) && cmpZero m (toMpfr x))

/-- `test_single`; the binary literals are 34 bits wide. test_fp_flopoco.cpp:142-229. -/
def testSingle : Option Bool :=
  let posOne := 0b0100111111100000000000000000000000
  let negOne := 0b0110111111100000000000000000000000
  let negMax := 0b0111111111111111111111111111111111
  let posMax := 0b0101111111111111111111111111111111
  let negMin := 0b0110000000000000000000000000000000
  let posMin := 0b0100000000000000000000000000000000
  seqCheck (some (decide ((Limits.infinity 8 23).bits = 0b1000000000000000000000000000000000) &&
    decide ((Limits.negInfinity 8 23).bits = 0b1010000000000000000000000000000000) &&
    decide ((Limits.posOne 8 23).bits = posOne) && decide ((Limits.negOne 8 23).bits = negOne) &&
    decide ((Limits.max 8 23).bits = posMax) && decide ((Limits.negMax 8 23).bits = negMax) &&
    decide ((Limits.min 8 23).bits = posMin) && decide ((Limits.negMin 8 23).bits = negMin))) <|
  seqCheck (singleCheck posOne (Mpfr.rndn 24 1)) <|
  seqCheck (singleCheck negOne (Mpfr.rndn 24 (-1))) <|
  seqCheck (singleCheck posMax (Mpfr.mul2si 24 (-23 + 2 ^ 7) (Mpfr.rndn 24 ((2 ^ 24 - 1 : ℕ) : ℚ)))) <|
  seqCheck (singleCheck negMax (Mpfr.negate 24 (Mpfr.mul2si 24 (-23 + 2 ^ 7) (Mpfr.rndn 24 ((2 ^ 24 - 1 : ℕ) : ℚ))))) <|
  singleCheck posMin (Mpfr.mul2si 24 (-23 - 2 ^ 7 + 1) (Mpfr.rndn 24 ((2 ^ 23 : ℕ) : ℚ)))

/-- The formats of `main`. test_fp_flopoco.cpp:237-248. -/
def formats : List (ℕ × ℕ) :=
  [(8, 23), (8, 24), (8, 25), (8, 26), (8, 29), (8, 30), (8, 31), (8, 32), (8, 33), (9, 40), (11, 52), (6, 4)]

/-- `main`: does the program end normally? test_fp_flopoco.cpp:231-257. -/
def main (draws : ℕ → Ieee 11 52) : Option Bool :=
  seqCheck testSingle (OpTest.forAll (fun f => test f.1 f.2 draws) formats)

/-! ## The IEEE type -/

/-- `test1<ExpBits,FracBits>` of the IEEE type. test_fp_ieee.cpp:11-65. -/
def ieeeTest1 (E F : ℕ) (draws : ℕ → Ieee 11 52) : Option Bool :=
  let check := fun m => do
    let one ← Ieee.ofMpfr E F false m
    some (equalP m one.toMpfr)
  seqCheck (some (equalP (.inf false) (IeeeLimits.infinity E F).toMpfr && equalP (.inf true) (IeeeLimits.negInfinity E F).toMpfr &&
    (IeeeLimits.quietNaN E F).toMpfr.isNan)) <|
  seqCheck (OpTest.forAll (fun i => check (setInt (F + 1) i)) (List.range 10)) <|
  OpTest.forAll (fun i => check (setD (F + 1) (draws i))) (List.range 10)

/-- `test<ExpBits,FracBits>` of the IEEE type. test_fp_ieee.cpp:106-111. -/
def ieeeTest (E F : ℕ) (draws : ℕ → Ieee 11 52) : Option Bool :=
  seqCheck (ieeeTest1 E F draws) (test2 (Ieee.ofMpfr E F false) Ieee.toMpfr (ieeeRefMul E F) (F + 1) draws)

/-- A number built from MPFR has the given bits and reads back. test_fp_ieee.cpp:152-157,160-165,168-175,178-186,189-196. -/
def ieeeSingleCheck (bits : ℕ) (m : Mpfr) : Option Bool := do
  let x ← Ieee.ofMpfr 8 23 false m
  some (decide (x.bits = bits) && cmpZero m x.toMpfr)

/-- `test_single` of the IEEE type. test_fp_ieee.cpp:113-200. -/
def ieeeTestSingle : Option Bool :=
  let posOne := 0b00111111100000000000000000000000
  let negOne := 0b10111111100000000000000000000000
  let negMax := 0b11111111011111111111111111111111
  let posMax := 0b01111111011111111111111111111111
  let negMin := 0b10000000100000000000000000000000
  let posMin := 0b00000000100000000000000000000000
  seqCheck (some (decide ((IeeeLimits.infinity 8 23).bits = 0b01111111100000000000000000000000) &&
    decide ((IeeeLimits.negInfinity 8 23).bits = 0b11111111100000000000000000000000) &&
    decide ((IeeeLimits.posOne 8 23).bits = posOne) && decide ((IeeeLimits.negOne 8 23).bits = negOne) &&
    decide ((IeeeLimits.max 8 23).bits = posMax) && decide ((IeeeLimits.negMax 8 23).bits = negMax) &&
    decide ((IeeeLimits.min 8 23).bits = posMin) && decide ((IeeeLimits.negMin 8 23).bits = negMin))) <|
  seqCheck (ieeeSingleCheck posOne (Mpfr.rndn 24 1)) <|
  seqCheck (ieeeSingleCheck negOne (Mpfr.rndn 24 (-1))) <|
  seqCheck (ieeeSingleCheck posMax (Mpfr.mul2si 24 (-23 + 2 ^ 7 - 1) (Mpfr.rndn 24 ((2 ^ 24 - 1 : ℕ) : ℚ)))) <|
  seqCheck (ieeeSingleCheck negMax (Mpfr.negate 24 (Mpfr.mul2si 24 (-23 + 2 ^ 7 - 1) (Mpfr.rndn 24 ((2 ^ 24 - 1 : ℕ) : ℚ))))) <|
  ieeeSingleCheck posMin (Mpfr.mul2si 24 (-23 - 2 ^ 7 + 2) (Mpfr.rndn 24 ((2 ^ 23 : ℕ) : ℚ)))

/-- The formats of `main`. test_fp_ieee.cpp:208-210. -/
def ieeeFormats : List (ℕ × ℕ) := [(8, 23), (11, 52), (6, 4)]

/-- `main` of the test of the IEEE type. test_fp_ieee.cpp:202-219. -/
def ieeeMain (draws : ℕ → Ieee 11 52) : Option Bool :=
  seqCheck ieeeTestSingle (OpTest.forAll (fun f => ieeeTest f.1 f.2 draws) ieeeFormats)

end TypeTest
end Thls
