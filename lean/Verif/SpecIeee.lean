import Verif.Spec

/-! # Specification of the IEEE-754 encodings -/

namespace Thls.Spec

/-- The datum denoted by the fields of an IEEE-754 binary format with `E` exponent and `F` fraction bits,
including its denormals: an all-zero exponent denotes `± frac * 2^(1 - bias - F)` (a zero if `frac = 0`), an
all-ones exponent an infinity (`frac = 0`) or a NaN, any other exponent `± (2^F + frac) * 2^(exp - bias - F)`. -/
def ieeeDenote (E F sign exp frac : ℕ) : Datum :=
  if exp = 0 then
    if frac = 0 then .zero (decide (sign = 1))
    else .num ((if sign = 1 then -1 else 1) * ((frac : ℚ) * 2 ^ (1 - bias E - F)))
  else if exp = 2 ^ E - 1 then
    if frac = 0 then .inf (decide (sign = 1)) else .nan
  else .num ((if sign = 1 then -1 else 1) * (((2 ^ F + frac : ℕ) : ℚ) * 2 ^ ((exp : ℤ) - bias E - F)))

/-- The smallest positive normal number of the IEEE format. -/
def ieeeMin (E : ℕ) : ℚ := 2 ^ (1 - bias E)

/-- The first power of two above the range of the IEEE format. -/
def ieeeLimit (E : ℕ) : ℚ := 2 ^ (bias E + 1)

/-- The IEEE range applied to a datum: magnitudes below the smallest normal number become zeros and
magnitudes of at least `2^(bias+1)` become infinities, with the sign kept. -/
def ieeeRange (E : ℕ) : Datum → Datum
  | .num q => if |q| < ieeeMin E then .zero (decide (q < 0))
      else if ieeeLimit E ≤ |q| then .inf (decide (q < 0)) else .num q
  | d => d

/-- `d` is the non-zero rational `q` rounded to nearest, ties to even, in the IEEE format `(E, F)` without
denormals: the magnitude is rounded to `F+1` bits with unbounded exponent; a rounded magnitude below the
smallest normal number gives a zero, one of at least `2^(bias+1)` an infinity. -/
def IeeeRounded (E F : ℕ) (q : ℚ) (d : Datum) : Prop :=
  ∃ (m : ℕ) (e : ℤ), NearestEven (F + 1) |q| m e ∧
    d = ieeeRange E (.num ((if q < 0 then -1 else 1) * ((m : ℚ) * 2 ^ e)))

end Thls.Spec
