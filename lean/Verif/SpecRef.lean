import Verif.Spec

/-! # Exact results of the operations, including the exceptional operands

This file does not mention any definition of the model. -/

namespace Thls.Spec

/-- The rational value of a number (zero for the other data). -/
def Datum.val : Datum → ℚ
  | .num q => q
  | _ => 0

/-- The exact product. -/
def exactMul (a b : Datum) : Datum := (mulSpecial a b).getD (.num (a.val * b.val))

/-- The exact sum; `num 0` when two numbers cancel. -/
def exactAdd (a b : Datum) : Datum := (addSpecial a b).getD (.num (a.val + b.val))

/-- The exact quotient. -/
def exactDiv (a b : Datum) : Datum := (divSpecial a b).getD (.num (a.val / b.val))

/-- The exact product and sum. -/
def exactFma (a b c : Datum) : Datum := exactAdd (exactMul a b) c

/-- The exact product with a power of two. -/
def exactScale (k : ℤ) : Datum → Datum
  | .num q => .num (q * 2 ^ k)
  | d => d

/-- `d` is what the format `(E, F)` makes of the exact result `x`: a number is rounded to nearest, ties to even; an
exact zero from cancellation is `+0`; everything else is kept, with its sign. -/
def Delivers (E F : ℕ) (x d : Datum) : Prop :=
  match x with
  | .num w => if w = 0 then d = .zero false else Rounded E F w d
  | x => d = x

/-- `d` is what the format makes of the exact result `x` when rounding towards minus infinity (`up = false`) or
plus infinity with an unbounded exponent: the magnitude of a number is the largest `F+1`-bit number not above that of `x`, or the
smallest not below; an exponent below the range gives zero, above it infinity. -/
def DeliversDirected (E F : ℕ) (up : Bool) (x d : Datum) : Prop :=
  match x with
  | .num w => ∃ (m : ℕ) (e : ℤ), IsSig (F + 1) m ∧ d = rangeCheck E F (decide (w < 0)) m e ∧
      (if up = decide (w < 0) then
        (m : ℚ) * 2 ^ e ≤ |w| ∧ ∀ (m' : ℕ) (e' : ℤ), IsSig (F + 1) m' → (m' : ℚ) * 2 ^ e' ≤ |w| → (m' : ℚ) * 2 ^ e' ≤ m * 2 ^ e
      else
        |w| ≤ (m : ℚ) * 2 ^ e ∧ ∀ (m' : ℕ) (e' : ℤ), IsSig (F + 1) m' → |w| ≤ (m' : ℚ) * 2 ^ e' → (m : ℚ) * 2 ^ e ≤ m' * 2 ^ e')
  | x => d = x

end Thls.Spec
