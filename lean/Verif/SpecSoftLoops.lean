import Verif.SpecSoft
import Verif.SpecLoops

/-! # Specification: the constants of the error bounds with gradual underflow -/

namespace Thls.Spec

/-- The largest finite number of the IEEE 754 format `(E, F)`. -/
def ieeeMax (E F : ℕ) : ℚ := ((2 ^ (F + 1) - 1 : ℕ) : ℚ) * 2 ^ (bias E - F)

/-- Half the least denormal: the largest error a product can suffer by underflow. -/
def halfDenorm (E F : ℕ) : ℚ := 2 ^ (leastExp E F - 1)

/-- The finite value of a word, if it has one. -/
def wordFin (E F w : ℕ) : Option ℚ := (wordDatum E F w).fin

end Thls.Spec
