import Verif.Spec

/-! # Specification: the inputs of the operator tests and what their checks accept -/

namespace Thls.Spec

/-- `d` is `v` or `-v`. -/
def PlusMinus (v : ℚ) (d : Datum) : Prop := d = .num v ∨ d = .num (-v)

/-- The operands every operator test of the format `(E, F)` is run on: both zeros and both infinities and, with both signs, the integers
up to ten, the least and the greatest number, the ten numbers above and below one, the ten above the least and below the greatest number,
and the representable powers of two from `2^(-F-5)` to `2^(F+6)`. -/
def TestOperand (E F : ℕ) (d : Datum) : Prop :=
  (∃ s, d = .zero s) ∨ (∃ s, d = .inf s) ∨
  (∃ i : ℕ, 1 ≤ i ∧ i ≤ 10 ∧
    (PlusMinus i d ∨ PlusMinus (1 + i / 2 ^ F) d ∨ PlusMinus (1 - i / 2 ^ (F + 1)) d ∨
      PlusMinus ((1 + i / 2 ^ F) * 2 ^ (-bias E)) d ∨
      PlusMinus ((2 - (i + 1) / 2 ^ F) * 2 ^ ((2 : ℤ) ^ E - 1 - bias E)) d)) ∨
  PlusMinus (2 ^ (-bias E)) d ∨ PlusMinus ((2 - 1 / 2 ^ F) * 2 ^ ((2 : ℤ) ^ E - 1 - bias E)) d ∨
  ∃ k : ℤ, -(F : ℤ) - 6 < k ∧ k ≤ F + 6 ∧ -bias E ≤ k ∧ k < 2 ^ E - bias E ∧ PlusMinus (2 ^ k) d

/-- A draw of a `p`-bit uniform random number: a multiple of `2^-p` in `[0, 1)`. -/
def uniform (p k : ℕ) : Datum := if k % 2 ^ p = 0 then .zero false else .num (((k % 2 ^ p : ℕ) : ℚ) / 2 ^ p)

/-- Two non-zero numbers of the same sign whose magnitudes have no number of `F+1` significant bits strictly between them. -/
def SameOrNeighbours (F : ℕ) (a b : Datum) : Prop :=
  ∃ v w : ℚ, a = .num v ∧ b = .num w ∧ 0 < v * w ∧
    ¬ ∃ (t : ℕ) (e : ℤ), IsSig (F + 1) t ∧
      ((|v| < (t : ℚ) * 2 ^ e ∧ (t : ℚ) * 2 ^ e < |w|) ∨ (|w| < (t : ℚ) * 2 ^ e ∧ (t : ℚ) * 2 ^ e < |v|))

end Thls.Spec
