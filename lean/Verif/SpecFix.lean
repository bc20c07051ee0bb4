import Verif.Model.Fixval
import Mathlib.Data.Rat.Cast.Order
import Mathlib.Algebra.Field.Rat

/-! # Specification of fixed-point values: the rational a value stands for -/

namespace Thls.Spec

/-- A value lies within the bounds of its type. -/
def InRange (a : Fix.Val) : Prop := a.ty.low ≤ a.val ∧ a.val ≤ a.ty.high

/-- The number denoted by a fixed-point value. -/
def fixValue (a : Fix.Val) : ℚ := a.val * (2 : ℚ) ^ a.ty.shift

/-- The polynomial `c0 + x c1 + x^2 c2 + ...`. -/
def poly (x : ℚ) : List ℚ → ℚ
  | [] => 0
  | c :: cs => c + x * poly x cs

end Thls.Spec
