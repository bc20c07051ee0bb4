import Verif.SpecDekker

/-! # Client programs: the exact error of a sum, compensated sums and dot products

Written against any number type with an addition and a change of sign; an operation that fails ends the program. -/

namespace Thls.Spec

variable {α : Type} (add : α → α → Option α) (neg : α → α)

/-- The rounded sum of `a` and `b`, and its error. -/
def twoSum (a b : α) : Option (α × α) := do
  let s ← add a b
  let v ← add s (neg a)
  let u ← add s (neg v)
  let p ← add a (neg u)
  let q ← add b (neg v)
  let t ← add p q
  return (s, t)

/-- One term is added: the running sum, and the running sum of the errors. -/
def compStep (st : α × α) (x : α) : Option (α × α) := do
  let (s, t) ← twoSum add neg st.1 x
  let e ← add st.2 t
  return (s, e)

/-- The sum of a list; the errors of the additions are summed as well and added in the end. -/
def compSum (zero : α) (xs : List α) : Option α := do
  let (s, e) ← xs.foldlM (compStep add neg) (zero, zero)
  add s e

/-- One product is added: the running sum, and the running sum of the errors of the products and sums. `c` is the constant of `split`. -/
def dotStep (mul : α → α → Option α) (c : α) (st : α × α) (xy : α × α) : Option (α × α) := do
  let (h, r) ← twoProduct add mul neg c xy.1 xy.2
  let (p, q) ← twoSum add neg st.1 h
  let w ← add q r
  let e ← add st.2 w
  return (p, e)

/-- The dot product of two vectors, given as a list of pairs. -/
def compDot (mul : α → α → Option α) (c zero : α) (xys : List (α × α)) : Option α := do
  let (s, e) ← xys.foldlM (dotStep add neg mul c) (zero, zero)
  add s e

/-- A pair whose product can be computed exactly in two parts: each factor is zero or in a range from `lo` to `hi / 2^(s+1)`, and the product is zero or at
least `plo`. -/
def SafePair (lo hi plo : ℚ) (s : ℕ) (v w : ℚ) : Prop :=
  (v = 0 ∨ (lo ≤ |v| ∧ 2 ^ (s + 1) * |v| < hi)) ∧ (w = 0 ∨ (lo ≤ |w| ∧ 2 ^ (s + 1) * |w| < hi)) ∧ (v * w = 0 ∨ plo ≤ |v * w|)

/-- The error of a sum of `n` terms with exact value `S` and sum of magnitudes `B`: one rounding of the result (`2^-(F+1)` of it), and a term of second
order in the unit `2^-(F+1)`. -/
def CompError (F n : ℕ) (S B r : ℚ) : Prop :=
  |r - S| ≤ 1 / 2 ^ (F + 1) * |S| + (1 + 1 / 2 ^ (F + 1)) * ((1 + 1 / 2 ^ (F + 1)) ^ n - 1) ^ 2 * B

end Thls.Spec
