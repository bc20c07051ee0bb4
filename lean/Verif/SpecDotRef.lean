import Verif.Spec

/-! # Rationals that fit in a number of bits

This file does not mention any definition of the model. -/

namespace Thls.Spec

/-- `q` is an integer of at most `p` bits times a power of two. -/
def FitsBits (p : ℕ) (q : ℚ) : Prop := ∃ (n : ℕ) (g : ℤ), n < 2 ^ p ∧ q = n * 2 ^ g

end Thls.Spec
