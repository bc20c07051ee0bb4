import Verif.Spec
import Mathlib.Order.Bounds.Basic

/-! # What the C++ standard says about the constants of `std::numeric_limits`

`V` is the set of the positive normalised values of a type; the radix is 2. This file does not mention any definition of the model. -/

namespace Thls.Spec

/-- `digits`: the number of bits of the significand. In every binade `[2^k, 2^(k+1))` that contains a value, the values are exactly the multiples
of `2^(k+1-d)`. -/
def DigitsOf (V : Set ℚ) (d : ℕ) : Prop :=
  V.Nonempty ∧ ∀ k : ℤ, (∃ v ∈ V, 2 ^ k ≤ v ∧ v < 2 ^ (k + 1)) →
    ∀ v : ℚ, 2 ^ k ≤ v → v < 2 ^ (k + 1) → (v ∈ V ↔ ∃ n : ℤ, v = n * 2 ^ (k + 1 - d))

/-- `min_exponent`: the least integer `n` such that `2^(n-1)` is a normalised value. -/
def MinExponentOf (V : Set ℚ) (n : ℤ) : Prop := IsLeast {n : ℤ | (2 : ℚ) ^ (n - 1) ∈ V} n

/-- `max_exponent`: the greatest integer `n` such that `2^(n-1)` is a finite value. -/
def MaxExponentOf (V : Set ℚ) (n : ℤ) : Prop := IsGreatest {n : ℤ | (2 : ℚ) ^ (n - 1) ∈ V} n

/-- `epsilon()`: the difference between 1 and the least value above it. -/
def EpsilonOf (V : Set ℚ) (q : ℚ) : Prop := (1 : ℚ) ∈ V ∧ IsLeast {v ∈ V | 1 < v} (1 + q)

end Thls.Spec
