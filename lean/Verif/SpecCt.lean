import Mathlib.Data.Nat.Notation
import Mathlib.Data.List.Basic

/-! # Specification of the compile-time generators and vectors -/

namespace Thls.Spec

/-- One step of the linear congruential generator `x' = A x + C mod M`. -/
def lcgStep (a c m x : ℕ) : ℕ := (a * x + c) % m

/-- A list with elements `i` and `j` exchanged; unchanged if an index is out of range. -/
def swapAt {α : Type} (l : List α) (i j : ℕ) : List α :=
  match l[i]?, l[j]? with
  | some a, some b => (l.set i b).set j a
  | _, _ => l

/-- The shuffle `for(j=n; j>1; j--) swap(p[j-1], p[draw % j])`, where a draw is the upper half of the value of
the generator, which then steps. -/
def shuffle {α ρ : Type} (value : ρ → ℕ) (next : ρ → ρ) : ℕ → ρ → List α → List α
  | 0, _, l => l
  | 1, _, l => l
  | j + 2, s, l => shuffle value next (j + 1) (next s) (swapAt l (j + 1) (value s / 2 ^ 16 % (j + 2)))

/-- The sum modulo two of a list of bits. -/
def parity (l : List ℕ) : ℕ := l.sum % 2

end Thls.Spec
