import Verif.SpecOrder

/-! # Specification: the constants of the error bounds -/

namespace Thls.Spec

/-- Unit roundoff of a format with `F` fraction bits: `2^-(F+1)`. -/
def uro (F : ℕ) : ℚ := 2 ^ (-(F : ℤ) - 1)

/-- The smallest positive number of a FloPoCo format with `E` exponent bits. -/
def minPos (E : ℕ) : ℚ := 2 ^ (-bias E)

/-- The largest finite number of the FloPoCo format `(E, F)`. -/
def maxFin (E F : ℕ) : ℚ := ((2 ^ (F + 1) - 1 : ℕ) : ℚ) * 2 ^ (bias E + 1 - F)

end Thls.Spec
