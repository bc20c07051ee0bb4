import Mathlib.Data.Nat.Notation
import Mathlib.Algebra.Order.Ring.Nat

/-! # Specification of the multi-word integer primitives -/

namespace Thls.Spec

/-- The 128-bit number with high word `w.1` and low word `w.2`. -/
def word128 (w : ℕ × ℕ) : ℕ := w.1 * 2 ^ 64 + w.2

/-- The words are words. -/
def Words (w : ℕ × ℕ) : Prop := w.1 < 2 ^ 64 ∧ w.2 < 2 ^ 64

/-- `z` is `a` shifted right by `d`, with the least significant bit set if a one was shifted off. -/
def ShiftedJammed (a d z : ℕ) : Prop :=
  z = if a % 2 ^ d = 0 then a / 2 ^ d else if a / 2 ^ d % 2 = 1 then a / 2 ^ d else a / 2 ^ d + 1

/-- `v` is `a` shifted right by `d > 0`, and the 64-bit word `extra` describes what was shifted off: its most significant bit is the last
bit shifted off, and its other bits are all zero exactly if all the others shifted off were. -/
def ShiftedExtra (a d v extra : ℕ) : Prop :=
  v = a / 2 ^ d ∧ extra < 2 ^ 64 ∧ extra / 2 ^ 63 = a / 2 ^ (d - 1) % 2 ∧ (extra % 2 ^ 63 = 0 ↔ a % 2 ^ (d - 1) = 0)

end Thls.Spec
