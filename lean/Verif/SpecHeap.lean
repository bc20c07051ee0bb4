import Mathlib.Data.Nat.Bits
import Mathlib.Algebra.BigOperators.Group.List.Basic

/-! # Specification of heaps of bits

A bit heap is read as a list of columns, most significant first; a column is a number of bits (its height) and
the bits themselves. Every bit of a column weighs the same: `2` to the number of columns to its right. -/

namespace Thls.Spec

/-- The number of ones among the low `h` bits of `x`. -/
def bitCount (h x : ℕ) : ℕ := ((List.range h).map fun i => x / 2 ^ i % 2).sum

/-- The sum of all bits of a heap, each with its weight. -/
def heapSum : List (ℕ × ℕ) → ℕ
  | [] => 0
  | (h, x) :: cols => bitCount h x * 2 ^ cols.length + heapSum cols

/-- The heights of columns that `n` rounds of 3:2 compression bring down to two rows: 2, 3, 4, 6, 9, 13, ... -/
def roundsHeight : ℕ → ℕ
  | 0 => 2
  | n + 1 => roundsHeight n * 3 / 2

end Thls.Spec
