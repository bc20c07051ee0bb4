import Mathlib.Data.Nat.Notation
import Mathlib.Algebra.Order.Ring.Nat

/-! # What it means for two implementations of `fw_uint` to agree -/

namespace Thls

/-- The word `x` of the simulation and the word `y` of another implementation hold the same `fw_uint<W>`: `x` is a `W`-bit number and
`y` equals it. A `fw_uint<0>` holds no information: for `W = 0` the word `y` does not matter. -/
def SameFw (W x y : ℕ) : Prop := x < 2 ^ W ∧ (W = 0 ∨ x = y)

/-- The outcome `o'` follows the outcome `o` of an operation with a result of `W` bits: when `o` is a value (no assertion fails, no
exception is thrown), so is `o'`, and it is the same `fw_uint<W>`. -/
def FollowsFw (W : ℕ) (o o' : Option ℕ) : Prop := ∀ r, o = some r → ∃ r', o' = some r' ∧ SameFw W r r'

end Thls
