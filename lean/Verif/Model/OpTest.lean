import Verif.Model.Policy
import Verif.Model.Add
import Verif.Model.Mul
import Verif.Model.Div
import Verif.Model.Convert
import Verif.Model.Fma
import Verif.Model.Inv
import Mathlib.Logic.Function.Iterate

/-! # The operator test programs (src/fp_ops/test_*.cpp) and their inputs (make_input.hpp)

MPFR's stepping functions are replaced by their documented behaviour, in the default exponent range of a 64-bit machine. A test
program is a function from the random draws to `some true` (it prints "Done"), `some false` (a check fails: it prints the operands and
calls `exit(1)`), or `none` (an exception, a failed assertion or undefined behaviour). The printing is not modelled. -/

namespace Thls

namespace Mpfr

/-- The least exponent of MPFR, in the convention that a number is a fraction in `[1/2, 1)` times `2^exponent`.
Library constant `mpfr_get_emin()`, in force at make_input.hpp:46,57,68,79. -/
def emin : ℤ := 1 - 2 ^ 62
/-- The greatest exponent of MPFR. Library constant `mpfr_get_emax()`, in force at make_input.hpp:46,57,68,79. -/
def emax : ℤ := 2 ^ 62 - 1

/-- The previous `p`-bit significand and its exponent. Library behaviour, used at make_input.hpp:57,79. -/
def predSig (p k : ℕ) (e : ℤ) : ℕ × ℤ := if k = 2 ^ (p - 1) then (2 ^ p - 1, e - 1) else (k - 1, e)

/-- The sign changed (`mpfr_mul_si(x,x,-1)` is exact). make_input.hpp:25,27,48,50,59,61,70,72,81,83,91,93,115,117. -/
def flip : Mpfr → Mpfr
  | .nan => .nan
  | .inf s => .inf !s
  | .zero s => .zero !s
  | .num s m e => .num (!s) m e

/-- `mpfr_nextabove`. Library behaviour, used at make_input.hpp:46,68. -/
def nextAbove (p : ℕ) : Mpfr → Mpfr
  | .nan => .nan
  | .inf false => .inf false
  | .inf true => .num true (2 ^ p - 1) (emax - p)
  | .zero _ => .num false (2 ^ (p - 1)) (emin - p)
  | .num false m e => if emax < (succSig p m e).2 + p then .inf false else .num false (succSig p m e).1 (succSig p m e).2
  | .num true m e => if (predSig p m e).2 + p < emin then .zero true else .num true (predSig p m e).1 (predSig p m e).2

/-- `mpfr_nextbelow`. Library behaviour, used at make_input.hpp:57,79. -/
def nextBelow (p : ℕ) (x : Mpfr) : Mpfr := flip (nextAbove p (flip x))

/-- `mpfr_nexttoward(x,y)`: one step from `x` in the direction of `y`; nothing if they are equal.
Library behaviour, used at test_add_single.cpp:31, test_fp_convert.cpp:32. -/
def nextToward (p : ℕ) (x y : Mpfr) : Mpfr :=
  if isNan x || isNan y then .nan
  else if cmp x y = 0 then x
  else if cmp x y < 0 then nextAbove p x
  else nextBelow p x

end Mpfr

namespace OpTest

/-! ## make_input -/

/-- `args.push_back(TType(tmp,allow))` for a number and for its negative, the form of every loop body. `allow` is false where the
constructor is called with one argument. make_input.hpp:24-27, 47-50, 58-61, 69-72, 80-83, 90-93, 114-117. -/
def pushPair (E F : ℕ) (allow : Bool) (t : Mpfr) : Option (List (Fp E F)) := do
  let a ← ofMpfr E F allow t
  let b ← ofMpfr E F allow t.flip
  some [a, b]

/-- A loop over the numbers `ts`. make_input.hpp:22-94. -/
def pushPairs (E F : ℕ) (allow : Bool) : List Mpfr → Option (List (Fp E F))
  | [] => some []
  | t :: ts => do
    let a ← pushPair E F allow t
    let r ← pushPairs E F allow ts
    some (a ++ r)

/-- The numbers of "small integers". make_input.hpp:22-28. -/
def smallInts (F : ℕ) : List Mpfr := (List.range 10).map fun i : ℕ => Mpfr.rndn (F + 1) ((i + 1 : ℕ) : ℚ)

/-- "Basic edge cases"; `zero()` is `pos_zero()`. make_input.hpp:32-39, fp_flopoco.hpp:381-383. -/
def edges (E F : ℕ) : List (Fp E F) :=
  [Limits.negInfinity E F, Limits.negMax E F, Limits.negMin E F, Limits.negZero E F, Limits.posZero E F, Limits.min E F,
    Limits.max E F, Limits.infinity E F]

/-- Ten steps of `step` from `t`. make_input.hpp:44-84. -/
def tenSteps (step : Mpfr → Mpfr) (t : Mpfr) : List Mpfr := (List.range 10).map fun i => step^[i + 1] t

/-- "Numbers just above one". make_input.hpp:44-51. -/
def aboveOne (F : ℕ) : List Mpfr := tenSteps (Mpfr.nextAbove (F + 1)) (Mpfr.rndn (F + 1) 1)
/-- "Numbers just below one". make_input.hpp:55-62. -/
def belowOne (F : ℕ) : List Mpfr := tenSteps (Mpfr.nextBelow (F + 1)) (Mpfr.rndn (F + 1) 1)
/-- "Numbers just above zero". make_input.hpp:66-73. -/
def aboveMin (E F : ℕ) : List Mpfr := tenSteps (Mpfr.nextAbove (F + 1)) (toMpfr (Limits.min E F))
/-- "Numbers just below infinity". make_input.hpp:77-84. -/
def belowMax (E F : ℕ) : List Mpfr := tenSteps (Mpfr.nextBelow (F + 1)) (toMpfr (Limits.max E F))

/-- `mpfr_set_d(tmp, ldexp(1.0, k))`: infinite above the range of `double`, zero below it. make_input.hpp:89. -/
def setLdexp (p : ℕ) (k : ℤ) : Mpfr :=
  if 1024 ≤ k then .inf false else if k < -1074 then .zero false else Mpfr.rndn p (2 ^ k)

/-- "Binary powers around one": `i` runs from `-F-6` to `F+5`, the exponent is `-i`. make_input.hpp:88-94. -/
def powers (F : ℕ) : List Mpfr := (List.range (2 * F + 12)).map fun i : ℕ => setLdexp (F + 1) ((F : ℤ) + 6 - i)

/-- `mpfr_urandomb`: a multiple of `2^-p` in `[0,1)`; `k` is the random draw. Library behaviour, used at make_input.hpp:110-111. -/
def urandomb (p k : ℕ) : Mpfr := Mpfr.rndn p (((k % 2 ^ p : ℕ) : ℚ) / 2 ^ p)

/-- The random number of one round of the loop. make_input.hpp:110-112. -/
def ratio (p : ℕ) (d : ℕ × ℕ) : Mpfr := Mpfr.divWith (Mpfr.rndn p) (urandomb p d.1) (urandomb p d.2)

/-- `while(args.size()<(unsigned)n)`; a round adds two elements, so `n` rounds of fuel are enough. `n` is taken to be non-negative.
make_input.hpp:105-118. -/
def randomLoop (E F n : ℕ) (draws : ℕ → ℕ × ℕ) : ℕ → ℕ → List (Fp E F) → Option (List (Fp E F))
  | 0, _, args => some args
  | fuel + 1, i, args =>
    if args.length < n then do
      let ps ← pushPair E F true (ratio (F + 1) (draws i))
      randomLoop E F n draws fuel (i + 1) (args ++ ps)
    else some args

/-- The elements that are pushed whatever `n` is. make_input.hpp:22-94. -/
def fixedInput (E F : ℕ) : Option (List (Fp E F)) := do
  let a ← pushPairs E F false (smallInts F)
  let b ← pushPairs E F false (aboveOne F)
  let c ← pushPairs E F false (belowOne F)
  let d ← pushPairs E F false (aboveMin E F)
  let e ← pushPairs E F false (belowMax E F)
  let p ← pushPairs E F true (powers F)
  some (a ++ edges E F ++ b ++ c ++ d ++ e ++ p)

/-- `make_input(args,n)` on an empty vector. The default state of GMP's generator is replaced by arbitrary draws.
make_input.hpp:11-124. -/
def makeInput (E F n : ℕ) (draws : ℕ → ℕ × ℕ) : Option (List (Fp E F)) := do
  let args ← fixedInput E F
  randomLoop E F n draws n 0 args

/-! ## The checks -/

/-- `if(!fref.equals(fgot).to_bool()) … exit(1)`. test_mul.cpp:18-23, test_add_dual.cpp:17-22, test_div.cpp:18-23, test_inv_nr.cpp:20-25. -/
def checkEquals {E F : ℕ} (ref got : Option (Fp E F)) : Option Bool := do
  let g ← got
  let r ← ref
  some (r.equals g)

/-- The check "for faithfully rounded": a result that is not equal is stepped towards the reference and compared again.
test_add_single.cpp:18-36, test_add_single_different_exp.cpp:20-38, test_fp_convert.cpp:18-36. -/
def checkFaithful {E F : ℕ} (ref got : Option (Fp E F)) : Option Bool := do
  let g ← got
  let r ← ref
  if r.equals g then some true
  else some (decide (Mpfr.cmp (Mpfr.nextToward (F + 1) (toMpfr g) (toMpfr r)) (toMpfr r) = 0))

/-- `if(!fref.within_1ulp(fgot).to_bool()) … exit(1)`. test_fma.cpp:20-26. -/
def checkUlp {E F : ℕ} (ref got : Option (Fp E F)) : Option Bool := do
  let g ← got
  let r ← ref
  some (r.within1ulp g)

/-- `if(!fref1.equals(fgot) && !fref2.equals(fgot)) … exit(1)`. test_inv_nr.cpp:47-52. -/
def checkEither {E F : ℕ} (ref : Option (Fp E F) × Option (Fp E F)) (got : Option (Fp E F)) : Option Bool := do
  let g ← got
  let r1 ← ref.1
  let r2 ← ref.2
  some (r1.equals g || r2.equals g)

/-! ## The loops -/

/-- A loop over the inputs that stops at the first check that fails. test_fp_convert.cpp:68-72, test_inv_nr.cpp:75-77. -/
def forAll {α : Type} (check : α → Option Bool) : List α → Option Bool
  | [] => some true
  | a :: as => do
    let ok ← check a
    if ok then forAll check as else some false

/-- The two nested loops. test_mul.cpp:52-57, test_add_single_different_exp.cpp:75-80. -/
def forAll2 {α β : Type} (check : α → β → Option Bool) (as : List α) (bs : List β) : Option Bool :=
  forAll (fun a => forAll (check a) bs) as

/-- The three nested loops of the test of `fma`. The second one runs over the indices of the first vector and reads the second one:
reading past its end is undefined. test_fma.cpp:72-80. -/
def forAllFma {α β γ : Type} (check : α → β → γ → Option Bool) (as : List α) (bs : List β) (cs : List γ) : Option Bool :=
  forAll (fun a => forAll (fun j => bs[j]?.bind fun b => forAll (check a b) cs) (List.range as.length)) as

/-! ## The programs -/

/-- `test_impl` for `mul`, with operands of one exponent width. test_mul.cpp:45-58, test_mul_different_frac.cpp:46-63. -/
def testMul (E FR FA FB n : ℕ) (dA dB : ℕ → ℕ × ℕ) : Option Bool := do
  let as ← makeInput E FA n dA
  let bs ← makeInput E FB n dB
  forAll2 (fun a b => checkEquals (refMul E FR a b) (mulV1 E FR a b)) as bs

/-- `test_impl` for `add_dual`. test_add_dual.cpp:62-75. -/
def testAddDual (E F n : ℕ) (draws : ℕ → ℕ × ℕ) : Option Bool := do
  let args ← makeInput E F n draws
  forAll2 (fun a b => checkEquals (refAdd E F a b) (AddDual.addSame a b)) args args

/-- `test_impl` for `div` (version 1, or 2). test_div.cpp:45-58, test_div_v2.cpp:45-58. -/
def testDiv (v2 : Bool) (E F n : ℕ) (draws : ℕ → ℕ × ℕ) : Option Bool := do
  let args ← makeInput E F n draws
  forAll2 (fun a b => checkEquals (refDiv E F a b) (some (if v2 then divV2 E F a b else divV1 E F a b))) args args

/-- `test_impl` for `add_single`, operands of different formats. test_add_single.cpp:62-75, test_add_single_different_exp.cpp:65-83,
test_add_single_different_frac.cpp:63-81. -/
def testAddSingle (EA FA EB FB n : ℕ) (dA dB : ℕ → ℕ × ℕ) : Option Bool := do
  let as ← makeInput EA FA n dA
  let bs ← makeInput EB FB n dB
  forAll2 (fun a b => checkFaithful (refAdd (max EA EB) (max FA FB) a b) (AddSingle.add a b)) as bs

/-- `test_impl` for `flopoco_convert`. test_fp_convert.cpp:60-73. -/
def testConvert (ER FR EA FA n : ℕ) (draws : ℕ → ℕ × ℕ) : Option Bool := do
  let args ← makeInput EA FA n draws
  forAll (fun a => checkFaithful (refConvert ER FR a) (some (convert ER FR a))) args

/-- `test_impl` for `flopoco_fma`. test_fma.cpp:61-81. -/
def testFma (ER FR EA FA EB FB EC FC n : ℕ) (dA dB dC : ℕ → ℕ × ℕ) : Option Bool := do
  let as ← makeInput EA FA n dA
  let bs ← makeInput EB FB n dB
  let cs ← makeInput EC FC n dC
  forAllFma (fun a b c => checkUlp (refFma ER FR a b c) (fma ER FR a b c)) as bs cs

/-- `test_impl` for `inv_direct`. test_inv_nr.cpp:67-79. -/
def testInvDirect (E F n : ℕ) (draws : ℕ → ℕ × ℕ) : Option Bool := do
  let args ← makeInput E F n draws
  forAll (fun a => checkEquals (refInv E F a) (Inv.directFp F a)) args

/-- `test_impl_faithful` for `inv_table_newton`. test_inv_nr.cpp:81-93. -/
def testInvFaithful (E FR FY n : ℕ) (draws : ℕ → ℕ × ℕ) : Option Bool := do
  let args ← makeInput E FY n draws
  forAll (fun a => checkEither (refInvFaithful E FR a) (Inv.tableNewtonFp FR a)) args

end OpTest
end Thls
