import Verif.Spec

/-! # Rounding to an integer (property C115) -/

namespace Thls.Spec

/-- `n` is the integer nearest to `x`, the even one of two that are equally near. -/
def NearestInt (x : ℚ) (n : ℤ) : Prop :=
  (∀ j : ℤ, |x - n| ≤ |x - j|) ∧ ∀ j : ℤ, |x - n| = |x - j| → j ≠ n → Even n

end Thls.Spec
