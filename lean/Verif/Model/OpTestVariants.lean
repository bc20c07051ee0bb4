import Verif.Model.OpTest

/-! # The tests of the other versions of the adder, and the counting program

`test_add_single_v2.cpp` has no model of its own: version 2 computes the same function as version 1 (C15), its test is the same program,
so it is `testAddSingle`. The programs of the parameter sweep, `test_add_param.cpp`, `test_mul_param.cpp` and `test_div_param.cpp`, are
`testAddDual`, `testMul` and `testDiv` with the two parameters filled in by CMake (src/fp_ops/CMakeLists.txt:62-98). -/

namespace Thls
namespace OpTest

/-- `test_impl` for version 3 of `add_single`. `u` and `v` stand for the indeterminate values of the model of that version.
test_add_single_v3.cpp:62-75. -/
def testAddSingleV3 (u v E F n : ℕ) (draws : ℕ → ℕ × ℕ) : Option Bool := do
  let args ← makeInput E F n draws
  forAll2 (fun a b => checkFaithful (refAdd E F a b) (AddSingle.addSameV3 u v a b)) args args

/-- `test_impl` for version 4 of `add_single`. test_add_single_v4.cpp:62-75. -/
def testAddSingleV4 (E F n : ℕ) (draws : ℕ → ℕ × ℕ) : Option Bool := do
  let args ← makeInput E F n draws
  forAll2 (fun a b => checkFaithful (refAdd E F a b) (AddSingle.addSameV4 a b)) args args

/-- `test_impl` for `add_single_v5`, operands of different formats. test_add_single_different_frac_v5.cpp:63-81. -/
def testAddSingleV5 (EA FA EB FB n : ℕ) (dA dB : ℕ → ℕ × ℕ) : Option Bool := do
  let as ← makeInput EA FA n dA
  let bs ← makeInput EB FB n dB
  forAll2 (fun a b => checkFaithful (refAdd (max EA EB) (max FA FB) a b) (AddSingle.addV5 a b)) as bs

/-- The inner loop of the counting program: the numbers of failures and of checks. test_add_single_param.cpp:56-61. -/
def countRow {α β : Type} (check : α → β → Option Bool) (a : α) : List β → ℕ × ℕ → Option (ℕ × ℕ)
  | [], c => some c
  | b :: bs, c => do
    let ok ← check a b
    countRow check a bs (if ok then (c.1, c.2 + 1) else (c.1 + 1, c.2 + 1))

/-- The outer loop. test_add_single_param.cpp:54-62. -/
def countAll {α β : Type} (check : α → β → Option Bool) (bs : List β) : List α → ℕ × ℕ → Option (ℕ × ℕ)
  | [], c => some c
  | a :: as, c => do
    let c ← countRow check a bs c
    countAll check bs as c

/-- The program that counts the sums `add_single` gets wrong: `none` if an assertion stops it, `some none` for the row "invalid", and
otherwise the last two columns of the row it prints, the failures and the checks. The counters are `int`: at most `(132+4F+n)^2` checks
are counted, which is taken to fit. The file of failing sums is not modelled. test_add_single_param.cpp:45-65, 69-98. -/
def paramAddSingle (E F n : ℕ) (draws : ℕ → ℕ × ℕ) : Option (Option (ℕ × ℕ)) :=
  if 2 ^ E > F then do
    let args ← makeInput E F n draws
    let r ← countAll (fun a b => checkEquals (refAdd E F a b) (AddSingle.addSame a b)) args args (0, 0)
    some (some r)
  else some none

end OpTest
end Thls
