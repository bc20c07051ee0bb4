import Verif.Spec

/-! # Sums in any order and bracketing (property C113) -/

namespace Thls.Spec

/-- A schedule of a sum: any binary tree of additions over the elements. -/
inductive AddTree (T : Type) where
  | leaf (x : T)
  | node (l r : AddTree T)

namespace AddTree
variable {T : Type}

/-- The elements, from left to right. -/
def leaves : AddTree T → List T
  | leaf x => [x]
  | node l r => l.leaves ++ r.leaves

/-- The number of additions on the longest path: the latency of the schedule. -/
def height : AddTree T → ℕ
  | leaf _ => 0
  | node l r => max l.height r.height + 1

/-- What a schedule computes with a given adder. -/
def compute (add : T → T → Option T) : AddTree T → Option T
  | leaf x => some x
  | node l r => do let a ← l.compute add; let b ← r.compute add; add a b

/-- What a schedule computes if the terms have to be computed first, for example as products. -/
def computeTerms {A : Type} (term : A → Option T) (add : T → T → Option T) : AddTree A → Option T
  | leaf a => term a
  | node l r => do let a ← l.computeTerms term add; let b ← r.computeTerms term add; add a b

end AddTree
end Thls.Spec
