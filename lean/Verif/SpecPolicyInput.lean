import Verif.SpecOpTest
import Verif.SpecRef

/-! # Specification: the inputs of the policy tests -/

namespace Thls.Spec

/-- The operands every policy test is run on, for a type of `F` fraction bits whose normal numbers have the exponents `lo..hi`: both
zeros and both infinities and, with both signs, the integers up to ten, the least normal and the greatest number, the ten numbers above
and below one, the ten above the least normal and below the greatest number, and the powers of two from `2^(-F-6)` to `2^(F+7)` that lie in the
range. -/
def PolicyOperand (F : ℕ) (lo hi : ℤ) (d : Datum) : Prop :=
  (∃ s, d = .zero s) ∨ (∃ s, d = .inf s) ∨
  (∃ i : ℕ, 1 ≤ i ∧ i ≤ 10 ∧
    (PlusMinus i d ∨ PlusMinus (1 + i / 2 ^ F) d ∨ PlusMinus (1 - i / 2 ^ (F + 1)) d ∨
      PlusMinus ((1 + i / 2 ^ F) * 2 ^ lo) d ∨ PlusMinus ((2 - (i + 1) / 2 ^ F) * 2 ^ hi) d)) ∨
  PlusMinus (2 ^ lo) d ∨ PlusMinus ((2 - 1 / 2 ^ F) * 2 ^ hi) d ∨
  ∃ k : ℤ, -(F : ℤ) - 7 < k ∧ k ≤ F + 7 ∧ lo ≤ k ∧ k ≤ hi ∧ PlusMinus (2 ^ k) d

/-- `d` is the quotient `x` rounded to `F+1` bits; a zero or an infinity of the same sign outside of the exponents `lo..hi`. -/
def QuotientOperand (F : ℕ) (lo hi : ℤ) (x d : Datum) : Prop :=
  match x with
  | .num w => ∃ (m : ℕ) (e : ℤ), NearestEven (F + 1) |w| m e ∧
      d = if e + F < lo then .zero (decide (w < 0)) else if hi < e + F then .inf (decide (w < 0))
        else .num ((if w < 0 then -1 else 1) * (m * 2 ^ e))
  | x => d = x

/-- The quotient of two uniform draws of `p` bits. -/
def drawnQuotient (p : ℕ) (d : ℕ × ℕ) : Datum := exactDiv (uniform p d.1) (uniform p d.2)

end Thls.Spec
