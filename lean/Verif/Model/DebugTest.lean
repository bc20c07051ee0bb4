import Verif.Model.OpTest
import Verif.Model.Masked

/-! # The programs test_bits.cpp and test_*_debug.cpp

`some true`: the program returns 0; `some false`: it exits with an error; `none`: an assertion of the library fails or an exception
is thrown. Progress messages are left out. -/

namespace Thls.DebugTest

/-- `assert_fw_uint(x)`: exits unless the single bit is one; then goes on with `k`. test_bits.cpp:12. -/
def assertBit (x : Option ℕ) (k : Option Bool) : Option Bool := do
  let b ← x
  if b = 1 then k else some false

/-- `assert_bool(x)`. test_bits.cpp:14. -/
def assertBool (x : Bool) (k : Option Bool) : Option Bool := if x then k else some false

/-- A loop over `i` that shifts the variable left by one: `n` rounds are left. Width 70: test_bits.cpp:52-67, width 120:
test_bits.cpp:81-96. -/
def shiftLoop (W : ℕ) : ℕ → ℕ → ℕ → Option Bool
  | 0, _, _ => some true
  | n + 1, i, var => do
    let one ← Masked.ofInt W 1
    let x ← Masked.shr W var i
    assertBit (Masked.eq x one) <|
      assertBool (decide (2 ^ i = Masked.toMpz W var)) do
        let _ ← Masked.ofMpz W (2 ^ i)
        assertBool (decide (2 ^ i = Masked.toMpz W var)) do
          shiftLoop W n (i + 1) (← Masked.shl W var 1)

/-- A loop over `i` that doubles the variable. test_bits.cpp:71-75, 100-104. -/
def doubleLoop (W : ℕ) : ℕ → ℕ → ℕ → Option Bool
  | 0, _, _ => some true
  | n + 1, i, var => do
    let one ← Masked.ofInt W 1
    let x ← Masked.shr W var i
    assertBit (Masked.eq x one) do doubleLoop W n (i + 1) (← Masked.add W var var)

/-- The two loops of one width. test_bits.cpp:50-75, 79-104. -/
def loops (W : ℕ) (k : Option Bool) : Option Bool := do
  let a ← Masked.ofInt W 1 >>= shiftLoop W W 0
  assertBool a do
    let b ← Masked.ofInt W 1 >>= doubleLoop W W 0
    assertBool b k

/-- `concat(og<W>(),og<W>()) == og<2*W>()`. test_bits.cpp:106-108. -/
def onesConcat (W : ℕ) : Option ℕ := do
  let a ← Masked.og W
  let c ← Masked.concat W W a a
  Masked.eq c (← Masked.og (2 * W))

/-- `test_bits()`. `get_bit<I>` is `get_bits<I,I>`. The final message is left out. test_bits.cpp:16-114, fw_uint.hpp:282-286. -/
def testBits : Option Bool := do
  let t ← Masked.ofInt 1 1
  let f ← Masked.ofInt 1 0
  let alt ← Masked.ofInt 8 0b10101010
  let bit (i : ℕ) (x : ℕ) (w : ℕ) (v : ℤ) := Masked.getBits i i w x >>= fun b => Masked.cmpInt 1 Masked.eq b v
  assertBit (Masked.ne t f) <| assertBit (Masked.cmpInt 1 Masked.eq t 1) <| assertBit (Masked.cmpInt 1 Masked.eq f 0) <|
  assertBit (bit 0 t 1 1) <| assertBit (bit 0 f 1 0) <|
  assertBit (bit 0 alt 8 0) <| assertBit (bit 1 alt 8 1) <| assertBit (bit 6 alt 8 0) <| assertBit (bit 7 alt 8 1) <|
  assertBit (do Masked.eq (← Masked.getBits 7 0 8 alt) alt) <|
  assertBit (do Masked.cmpInt 4 Masked.eq (← Masked.getBits 6 3 8 alt) 0b0101) <|
  assertBit (do Masked.cmpInt 4 Masked.eq (← Masked.getBits 7 4 8 alt) 0b1010) <|
  assertBit (do Masked.eq (← Masked.concat 8 8 alt alt) (← Masked.ofInt 16 0b1010101010101010)) <|
  assertBit (do Masked.eq (← Masked.not 16 (← Masked.concat 8 8 alt alt)) (← Masked.ofInt 16 0b0101010101010101)) <|
  assertBit (do Masked.eq (← Masked.zpadHi 8 8 alt) (← Masked.ofInt 16 0b0000000010101010)) <|
  assertBit (do Masked.eq (← Masked.opadHi 8 8 alt) (← Masked.ofInt 16 0b1111111110101010)) <|
  assertBit (do Masked.eq (← Masked.mul 8 8 alt alt) (← Masked.ofInt 16 0b111000011100100)) <|
  loops 70 <| loops 120 <|
  assertBit (onesConcat 16) <| assertBit (onesConcat 32) <| assertBit (onesConcat 64) (some true)

/-- test_div_v2_debug.cpp:45-67. -/
def divV2Debug (draws : ℕ → ℕ × ℕ) : Option Bool := OpTest.testDiv true 8 23 200 draws

/-- `test_add_single_debug.cpp`, which runs the dual-path adder. test_add_single_debug.cpp:56-75. -/
def addSingleDebug (draws : ℕ → ℕ × ℕ) : Option Bool := OpTest.testAddDual 8 24 100 draws

/-- One line of the loops of test_add_dual_debug.cpp: the pair on which the program stops, if it does. test_add_dual_debug.cpp:16-58. -/
def lookFor {E F : ℕ} (A B : ℕ) (a : Fp E F) : List (Fp E F) → Option (Option (Fp E F × Fp E F))
  | [] => some none
  | b :: bs => do
    let _ ← AddDual.addSame a b
    let _ ← refAdd E F a b
    if a.bits = A ∧ b.bits = B then some (some (a, b)) else lookFor A B a bs

/-- The outer loop. test_add_dual_debug.cpp:67-72. -/
def lookForAll {E F : ℕ} (A B : ℕ) (bs : List (Fp E F)) : List (Fp E F) → Option (Option (Fp E F × Fp E F))
  | [] => some none
  | a :: as => do
    match ← lookFor A B a bs with
    | some r => some (some r)
    | none => lookForAll A B bs as

/-- `triggerA` and `triggerB`. test_add_dual_debug.cpp:24-25. -/
def triggerA : Option ℕ := Masked.ofString 35 "0b010_10000000_10000000_00000000_00000000".toList
@[inherit_doc triggerA] def triggerB : Option ℕ := Masked.ofString 35 "0b011_10011010_00000000_00000000_00000000".toList

/-- test_add_dual_debug.cpp, with `exit(0)` on the first trigger: `some (some p)` if it stops at the pair `p`, `some none` if it gets
to "Done". Both are successes. test_add_dual_debug.cpp:60-88. -/
def addDualDebug (draws : ℕ → ℕ × ℕ) : Option (Option (Fp 8 24 × Fp 8 24)) := do
  let args ← OpTest.makeInput 8 24 100 draws
  let A ← triggerA
  let B ← triggerB
  lookForAll A B args args

end Thls.DebugTest
