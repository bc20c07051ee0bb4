import Mathlib.Data.Nat.Notation
import Mathlib.Algebra.Order.Ring.Nat

/-! # Specification of the integer primitives under the software floating point -/

namespace Thls.Spec

/-- `c` is the number of zero bits above the leading one of the `W`-bit word `a`; all `W` bits are zero when `a` is. -/
def LeadingZeros (W a c : ℕ) : Prop :=
  if a = 0 then c = W else c < W ∧ 2 ^ (W - 1 - c) ≤ a ∧ a < 2 ^ (W - c)

/-- The number with the four 32-bit words `w`, the least significant first. -/
def fourWords (w : ℕ × ℕ × ℕ × ℕ) : ℕ := w.1 + w.2.1 * 2 ^ 32 + w.2.2.1 * 2 ^ 64 + w.2.2.2 * 2 ^ 96

end Thls.Spec
