import Verif.Spec

/-! # Specification: when the test programs of the number types pass -/

namespace Thls.Spec

/-- `a` is the non-negative `x` rounded to nearest, ties to even, in `p` bits with unbounded exponent. -/
def RoundsTo (p : ℕ) (x a : ℚ) : Prop := (x = 0 ∧ a = 0) ∨ (0 < x ∧ ∃ (m : ℕ) (e : ℤ), NearestEven p x m e ∧ a = m * 2 ^ e)

/-- `x` is zero, or at least the midpoint between `2^k` and the next smaller number of `p` bits. -/
def Reaches (p : ℕ) (k : ℤ) (x : ℚ) : Prop := x = 0 ∨ (1 - 2 ^ (-(p : ℤ) - 1)) * 2 ^ k ≤ x

/-- The condition on the draws `d`, for numbers of `p` bits the least of which is `2^k`: no number drawn, and no product of two numbers
drawn one after the other and rounded to `p` bits, falls below the numbers of the format. -/
def DrawsInRange (p : ℕ) (k : ℤ) (d : ℕ → ℚ) : Prop :=
  (∀ i < 200, Reaches p k (d i)) ∧
  ∀ i < 100, ∀ a b, RoundsTo p (d (2 * i)) a → RoundsTo p (d (2 * i + 1)) b → Reaches p k (a * b)

end Thls.Spec
