import Verif.Spec

/-! # Specification of the rounding of version 4 of the single-path adder -/

namespace Thls.Spec

/-- `d` is `q` cut to `F+1` significant bits, in a format with `E` exponent bits: the digits after the last one kept are dropped,
except that a `q` exactly half way between two numbers, the lower one with an even significand, goes up (so that a tie goes to
the odd neighbour). Results out of range become zero or infinity. -/
def CutRounded (E F : ℕ) (q : ℚ) (d : Datum) : Prop :=
  ∃ (m : ℕ) (e : ℤ), IsSig (F + 1) m ∧ (m : ℚ) * 2 ^ e ≤ |q| ∧ |q| < ((m : ℚ) + 1) * 2 ^ e ∧
    d = rangeCheck E F (decide (q < 0)) (if |q| = ((m : ℚ) + 1 / 2) * 2 ^ e ∧ m % 2 = 0 then m + 1 else m) e

/-- What version 4 returns for two normal numbers instead of the rounded sum. -/
def CutsTo (E F : ℕ) (vx vy : ℚ) (d : Datum) : Prop :=
  if vx + vy = 0 then d = .zero false else CutRounded E F (vx + vy) d

end Thls.Spec
