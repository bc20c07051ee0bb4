import Verif.Spec

/-! # Specification of the rounding errors made by rounding twice -/

namespace Thls.Spec

/-- Rounding `q` to `G+1` significant bits and the outcome to the format `(E, F)` goes wrong (`F < G`): `|q|` is not the midpoint
`t = (m + 1/2) * 2^e` of two neighbouring `F+1`-bit numbers `m * 2^e` and `(m+1) * 2^e`, but so close to it that the first rounding
moves it there; the second one then takes the even neighbour, and `|q|` lies on the other side of `t`. The two neighbours differ as
data of the format: the upper one does not underflow and the lower one does not overflow. -/
def RoundsTwice (E F G : ℕ) (q : ℚ) : Prop :=
  ∃ (m : ℕ) (e : ℤ), IsSig (F + 1) m ∧ (2 : ℚ) ^ (-bias E) ≤ ((m : ℚ) + 1) * 2 ^ e ∧ (m : ℚ) * 2 ^ e < 2 ^ ((2 : ℤ) ^ E - bias E) ∧
    (if Even m then ((m : ℚ) + 1 / 2) * 2 ^ e < |q| else |q| < ((m : ℚ) + 1 / 2) * 2 ^ e) ∧
    (abs (|q| - ((m : ℚ) + 1 / 2) * 2 ^ e) < 2 ^ (e + F - G) / 2 ∨
      (abs (|q| - ((m : ℚ) + 1 / 2) * 2 ^ e) = 2 ^ (e + F - G) / 2 ∧ F + 1 < G))

end Thls.Spec
