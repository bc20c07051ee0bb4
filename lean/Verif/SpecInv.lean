import Verif.Spec

/-! # Faithful rounding

This file does not mention any definition of the model. -/

namespace Thls.Spec

/-- `w` is zero or a value of the format with `E` exponent and `F` fraction bits. -/
def Representable (E F : ℕ) (w : ℚ) : Prop :=
  w = 0 ∨ ∃ (m : ℕ) (e : ℤ), IsSig (F + 1) m ∧ 0 ≤ e + F + bias E ∧ e + F + bias E < 2 ^ E ∧
    |w| = (m : ℚ) * 2 ^ e

/-- `d` is the non-zero rational `x` rounded faithfully in the format `(E, F)`: `x` itself if it has an encoding, and
otherwise one of the two neighbours: `d` has the sign of `x`, it is a value of the format (or zero), and no value
of the format lies between it and `x`. -/
def Faithful (E F : ℕ) (x : ℚ) (d : Datum) : Prop :=
  ∃ q : ℚ, (d = .num q ∧ q ≠ 0 ∧ (q < 0 ↔ x < 0) ∨ d = .zero (decide (x < 0)) ∧ q = 0) ∧ Representable E F q ∧
    ∀ w : ℚ, Representable E F w → ¬ (q < w ∧ w ≤ x) ∧ ¬ (x ≤ w ∧ w < q)

end Thls.Spec
