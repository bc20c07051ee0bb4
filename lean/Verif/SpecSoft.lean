import Verif.SpecIeee

/-! # IEEE 754 words and rounding with gradual underflow

This file does not mention any definition of the model. -/

namespace Thls.Spec

/-- The datum of a packed IEEE 754 word with `E` exponent and `F` fraction bits: sign on top, then exponent, then fraction. -/
def wordDatum (E F w : ℕ) : Datum := ieeeDenote E F (w / 2 ^ (E + F)) (w / 2 ^ F % 2 ^ E) (w % 2 ^ F)

/-- The exponent of the last place of the denormals: `1 - bias - F`. -/
def leastExp (E F : ℕ) : ℤ := 1 - bias E - F

/-- `m * 2^e` is a non-negative number of the format, normal or denormal, were the exponents unbounded above. -/
def IsGradual (E F m : ℕ) (e : ℤ) : Prop := m < 2 ^ (F + 1) ∧ leastExp E F ≤ e

/-- `m * 2^e` is the number of the format nearest to `x`, ties to the even significand; `(m, e)` is its normalised form, or its
denormal form with the least exponent. -/
def NearestGradual (E F : ℕ) (x : ℚ) (m : ℕ) (e : ℤ) : Prop :=
  IsGradual E F m e ∧ (2 ^ F ≤ m ∨ e = leastExp E F) ∧
  (∀ (m' : ℕ) (e' : ℤ), IsGradual E F m' e' → |x - m * 2 ^ e| ≤ |x - m' * 2 ^ e'|) ∧
  (∀ (m' : ℕ) (e' : ℤ), IsGradual E F m' e' → |x - m * 2 ^ e| = |x - m' * 2 ^ e'| →
    (m' : ℚ) * 2 ^ e' ≠ m * 2 ^ e → Even m)

/-- `d` is the non-zero rational `q` rounded to nearest, ties to even, in the IEEE 754 format `(E, F)`: gradual underflow to a
zero of the sign of `q`, and an infinity of that sign from `2^(bias+1)` on. -/
def RoundedGradual (E F : ℕ) (q : ℚ) (d : Datum) : Prop :=
  ∃ (m : ℕ) (e : ℤ), NearestGradual E F |q| m e ∧
    d = if m = 0 then .zero (decide (q < 0))
      else if ieeeLimit E ≤ m * 2 ^ e then .inf (decide (q < 0))
      else .num ((if q < 0 then -1 else 1) * ((m : ℚ) * 2 ^ e))

/-- `d` is the IEEE 754 sum of two data in the format `(E, F)`, rounded to nearest: the table for NaNs, infinities and zeros,
`+0` for a sum of numbers that is zero, and the rounded exact sum otherwise. -/
def IeeeSum (E F : ℕ) (x y d : Datum) : Prop :=
  match x, y with
  | .num p, .num q => if p + q = 0 then d = .zero false else RoundedGradual E F (p + q) d
  | x, y => addSpecial x y = some d

/-- `d` is the IEEE 754 product of two data, rounded to nearest. -/
def IeeeProduct (E F : ℕ) (x y d : Datum) : Prop :=
  match x, y with
  | .num p, .num q => RoundedGradual E F (p * q) d
  | x, y => mulSpecial x y = some d

/-- `d` is the IEEE 754 quotient of two data, rounded to nearest. -/
def IeeeQuotient (E F : ℕ) (x y d : Datum) : Prop :=
  match x, y with
  | .num p, .num q => RoundedGradual E F (p / q) d
  | x, y => divSpecial x y = some d

end Thls.Spec
