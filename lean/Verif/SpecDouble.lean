import Verif.Spec

/-! # Truncation into a format, and rounding to binary64

This file does not mention any definition of the model. -/

namespace Thls.Spec

/-- `d` is the non-zero rational `q` with its magnitude rounded towards zero to `F+1` bits, then range-checked. -/
def Truncated (E F : ℕ) (q : ℚ) (d : Datum) : Prop :=
  ∃ (m : ℕ) (e : ℤ), RoundDown (F + 1) |q| m e ∧ d = rangeCheck E F (decide (q < 0)) m e

/-- `m * 2^e` is a non-negative binary64 number, were the exponents unbounded above. -/
def IsBinary64 (m : ℕ) (e : ℤ) : Prop := m < 2 ^ 53 ∧ -1074 ≤ e

/-- `m * 2^e` is the binary64 magnitude nearest to `x`, ties to the even significand; `(m, e)` is its normalised form, or its
denormal form with the least exponent. -/
def NearestBinary64 (x : ℚ) (m : ℕ) (e : ℤ) : Prop :=
  IsBinary64 m e ∧ (2 ^ 52 ≤ m ∨ e = -1074) ∧
  (∀ (m' : ℕ) (e' : ℤ), IsBinary64 m' e' → |x - m * 2 ^ e| ≤ |x - m' * 2 ^ e'|) ∧
  (∀ (m' : ℕ) (e' : ℤ), IsBinary64 m' e' → |x - m * 2 ^ e| = |x - m' * 2 ^ e'| → (m' : ℚ) * 2 ^ e' ≠ m * 2 ^ e → Even m)

/-- `d` is the non-zero rational `q` rounded to nearest in binary64: gradual underflow, and infinity from `2^1024` on. -/
def RoundedBinary64 (q : ℚ) (d : Datum) : Prop :=
  ∃ (m : ℕ) (e : ℤ), NearestBinary64 |q| m e ∧
    d = if m = 0 then .zero (decide (q < 0))
      else if (2 : ℚ) ^ (1024 : ℤ) ≤ m * 2 ^ e then .inf (decide (q < 0))
      else .num ((if q < 0 then -1 else 1) * ((m : ℚ) * 2 ^ e))

end Thls.Spec
