import Verif.SpecSoft

/-! # What it means for two implementations of IEEE 754 to agree up to denormals

This file does not mention any definition of the model. -/

namespace Thls.Spec

/-- The word with a denormal replaced by the zero of its sign; every other word is left alone. -/
def flushWord (E F w : ℕ) : ℕ := if w / 2 ^ F % 2 ^ E = 0 then w / 2 ^ (E + F) * 2 ^ (E + F) else w

/-- `r`, from an implementation without denormals, against `z`, from one with denormals: the same word, or two NaNs, or a zero of the right
sign where the other result lies in the denormal range, at most the least normal number in magnitude. -/
def SameUpToFlush (E F r z : ℕ) : Prop :=
  r = z ∨ (wordDatum E F r = .nan ∧ wordDatum E F z = .nan) ∨
  ∃ q : ℚ, wordDatum E F z = .num q ∧ |q| ≤ ieeeMin E ∧ wordDatum E F r = .zero (decide (q < 0))

end Thls.Spec
