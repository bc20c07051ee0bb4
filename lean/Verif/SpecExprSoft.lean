import Verif.SpecExpr

/-! # Expressions with the software floating-point types (property C112)

`float32_t` and `float64_t` have the operators `+`, `*` and `/`, and neither a negation nor a subtraction (policy_softfloat.hpp:178-232). -/

namespace Thls.Spec

/-- The expression uses no negation and no subtraction. -/
def Expr.Plain : Expr → Prop
  | .var _ => True
  | .neg _ => False
  | .add a b => a.Plain ∧ b.Plain
  | .sub _ _ => False
  | .mul a b => a.Plain ∧ b.Plain
  | .div a b => a.Plain ∧ b.Plain

/-- An expression computed on words with the given operators; `none` if one of them fails, or for an operation the type does not have. -/
def Expr.computeWords (add mul div : ℕ → ℕ → Option ℕ) (X : ℕ → ℕ) : Expr → Option ℕ
  | .var n => some (X n)
  | .neg _ => none
  | .add a b => do let x ← a.computeWords add mul div X; let y ← b.computeWords add mul div X; add x y
  | .sub _ _ => none
  | .mul a b => do let x ← a.computeWords add mul div X; let y ← b.computeWords add mul div X; mul x y
  | .div a b => do let x ← a.computeWords add mul div X; let y ← b.computeWords add mul div X; div x y

end Thls.Spec
