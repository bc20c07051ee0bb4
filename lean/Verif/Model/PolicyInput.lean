import Verif.Model.OpTest

/-! # The inputs of the policy test and the policy test programs (policy_test.hpp, src/fp_ops/test_policy_*.cpp)

The stepping functions of MPFR, `ldexp`, the random numbers and the lists of numbers are those of the operator tests (Model/OpTest.lean):
`make_input` of the policy test is the same text with `policy_t::from_mpfr` in the place of the constructor and the precision in the
place of the number of fraction bits in one loop. -/

namespace Thls

/-- What the policy test uses of `numeric_limits<value_t>` besides `digits`. policy_test.hpp:181-202. -/
structure TestLimits (V : Type) where
  min : V
  max : V
  infinity : V

/-- `numeric_limits<fp_flopoco_wrapper<E,F>>`: those of the wrapped type. policy_flopoco.hpp:130-155. -/
def limitsFlopoco (E F : ℕ) : TestLimits (Fp E F) := ⟨Limits.min E F, Limits.max E F, Limits.infinity E F⟩

/-- `numeric_limits<fp_ieee_on_flopoco_wrapper<E,F>>`. policy_ieee_on_flopoco.hpp:133-158. -/
def limitsIeee (E F : ℕ) : TestLimits (Ieee E F) := ⟨IeeeLimits.min E F, IeeeLimits.max E F, IeeeLimits.infinity E F⟩

/-- `numeric_limits<float32_t>` and `numeric_limits<float64_t>`: the words of the limits of `float` and `double`.
policy_softfloat.hpp:62-84, 143-165. -/
def limitsSoft (E F : ℕ) : TestLimits ℕ := ⟨2 ^ F, (2 ^ E - 1) * 2 ^ F - 1, (2 ^ E - 1) * 2 ^ F⟩

namespace PolicyInput
open OpTest
variable {V : Type}

/-- `args.push_back(policy_t::from_mpfr(tmp,allow))` for a number and for its negative. policy_test.hpp:175-178, 210-213, 221-224,
232-235, 243-246, 253-256, 278-281. -/
def push (P : TestPolicy V) (allow : Bool) (t : Mpfr) : Option (List V) := do
  let a ← P.fromMpfr t allow
  let b ← P.fromMpfr t.flip allow
  some [a, b]

/-- A loop over the numbers `ts`. policy_test.hpp:171-257. -/
def pushAll (P : TestPolicy V) (allow : Bool) : List Mpfr → Option (List V)
  | [] => some []
  | t :: ts => do
    let a ← push P allow t
    let r ← pushAll P allow ts
    some (a ++ r)

/-- "Basic edge cases". policy_test.hpp:181-202. -/
def edgeCases (P : TestPolicy V) (L : TestLimits V) : Option (List V) := do
  let a ← P.fromMpfr (.inf true) false
  let mx ← P.toMpfr L.max
  let b ← P.fromMpfr mx.flip false
  let mn ← P.toMpfr L.min
  let c ← P.fromMpfr mn.flip false
  let d ← P.fromMpfr (.zero true) false
  let e ← P.fromMpfr (.zero false) false
  some [a, b, c, d, e, L.min, L.max, L.infinity]

/-- "Small integers". policy_test.hpp:173-174. -/
def ints (p : ℕ) : List Mpfr := (List.range 10).map fun i : ℕ => Mpfr.rndn p ((i + 1 : ℕ) : ℚ)

/-- "Binary powers around one": `i` runs from `-digits-6` to `digits+5`, the exponent is `-i`. policy_test.hpp:251-252. -/
def binaryPowers (p : ℕ) : List Mpfr := (List.range (2 * p + 12)).map fun i : ℕ => setLdexp p ((p : ℤ) + 6 - i)

/-- The elements pushed whatever `n` is. policy_test.hpp:171-257. -/
def fixed (P : TestPolicy V) (L : TestLimits V) : Option (List V) := do
  let a ← pushAll P false (ints P.digits)
  let g ← edgeCases P L
  let b ← pushAll P false (tenSteps (Mpfr.nextAbove P.digits) (Mpfr.rndn P.digits 1))
  let c ← pushAll P false (tenSteps (Mpfr.nextBelow P.digits) (Mpfr.rndn P.digits 1))
  let mn ← P.toMpfr L.min
  let d ← pushAll P false (tenSteps (Mpfr.nextAbove P.digits) mn)
  let mx ← P.toMpfr L.max
  let e ← pushAll P false (tenSteps (Mpfr.nextBelow P.digits) mx)
  let p ← pushAll P true (binaryPowers P.digits)
  some (a ++ g ++ b ++ c ++ d ++ e ++ p)

/-- `while(args.size()<(unsigned)n)`; as in `OpTest.randomLoop`. policy_test.hpp:268-282. -/
def random (P : TestPolicy V) (n : ℕ) (draws : ℕ → ℕ × ℕ) : ℕ → ℕ → List V → Option (List V)
  | 0, _, args => some args
  | fuel + 1, i, args =>
    if args.length < n then do
      let ps ← push P true (ratio P.digits (draws i))
      random P n draws fuel (i + 1) (args ++ ps)
    else some args

/-- `test_policy<policy>::make_input(args,n)` on an empty vector, with arbitrary draws. policy_test.hpp:159-288. -/
def makeInput (P : TestPolicy V) (L : TestLimits V) (n : ℕ) (draws : ℕ → ℕ × ℕ) : Option (List V) := do
  let args ← fixed P L
  random P n draws n 0 args

/-- `test_policy<policy>::test_arithmetic(n)`: `some true` if an operation has failed, `none` if an exception is thrown, an assertion
fails or the behaviour is undefined. policy_test.hpp:342-402. -/
def test (P : TestPolicy V) (L : TestLimits V) (n : ℕ) (draws : ℕ → ℕ × ℕ) : Option Bool := do
  let input ← makeInput P L n draws
  PolicyTest.testArithmetic P input

/-- The exit code of a policy test program, given the outcomes of its calls of `test_arithmetic`. The returned values are not used; an
exception, or the signal of a failed assertion, ends it with 1 (undefined behaviour is not distinguished from them).
test_policy_flopoco.cpp:18-39, test_policy_ieee_on_flopoco.cpp:21-41, test_policy_softfloat.cpp:18-37, test_policy_native.cpp:18-37. -/
def exitCode : List (Option Bool) → ℕ
  | [] => 0
  | r :: rs => if r.isSome then exitCode rs else 1

/-- test_policy_flopoco.cpp: single, double and half precision, 100 inputs. test_policy_flopoco.cpp:25-30. -/
def programFlopoco (d1 d2 d3 : ℕ → ℕ × ℕ) : ℕ :=
  exitCode [test (policyFlopoco 8 23) (limitsFlopoco 8 23) 100 d1, test (policyFlopoco 11 52) (limitsFlopoco 11 52) 100 d2,
    test (policyFlopoco 5 10) (limitsFlopoco 5 10) 100 d3]

/-- test_policy_ieee_on_flopoco.cpp:28-33. -/
def programIeee (d1 d2 d3 : ℕ → ℕ × ℕ) : ℕ :=
  exitCode [test (policyIeeeOnFlopoco 8 23) (limitsIeee 8 23) 100 d1, test (policyIeeeOnFlopoco 11 52) (limitsIeee 11 52) 100 d2,
    test (policyIeeeOnFlopoco 5 10) (limitsIeee 5 10) 100 d3]

/-- test_policy_softfloat.cpp:25-28. -/
def programSoft (fast32 fast64 : ℕ) (d1 d2 : ℕ → ℕ × ℕ) : ℕ :=
  exitCode [test (policySoftSingle fast32) (limitsSoft 8 23) 100 d1, test (policySoftDouble fast64) (limitsSoft 11 52) 100 d2]

end PolicyInput
end Thls
