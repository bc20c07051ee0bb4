import Verif.SpecExpr
import Verif.SpecTree

/-! # Products and quotients in any order and bracketing (property C114) -/

namespace Thls.Spec

/-- An expression of products, quotients and negations only. -/
def Expr.IsMonomial : Expr → Prop
  | .var _ => True
  | .neg a => a.IsMonomial
  | .add _ _ => False
  | .sub _ _ => False
  | .mul a b => a.IsMonomial ∧ b.IsMonomial
  | .div a b => a.IsMonomial ∧ b.IsMonomial

/-- The number of operations that round. -/
def Expr.roundings : Expr → ℕ
  | .var _ => 0
  | .neg a => a.roundings
  | .add a b => a.roundings + b.roundings + 1
  | .sub a b => a.roundings + b.roundings + 1
  | .mul a b => a.roundings + b.roundings + 1
  | .div a b => a.roundings + b.roundings + 1

/-- The variables of an expression. -/
def Expr.vars : Expr → List ℕ
  | .var n => [n]
  | .neg a => a.vars
  | .add a b => a.vars ++ b.vars
  | .sub a b => a.vars ++ b.vars
  | .mul a b => a.vars ++ b.vars
  | .div a b => a.vars ++ b.vars

/-- The results of all operations of a schedule, the last one included. -/
def AddTree.partials {T : Type} (op : T → T → Option T) : AddTree T → List (Option T)
  | leaf _ => []
  | node l r => l.partials op ++ r.partials op ++ [(node l r).compute op]

end Thls.Spec
