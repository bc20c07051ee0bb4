import Verif.Model.Ieee

/-! # Exchange with C++ `double` (fp_flopoco.hpp:50-96, 985-1025)

A `double` is a binary64 word, `Ieee 11 52`; `frexp`, `ldexp`, `fpclassify` and the conversion from `uint64_t` behave as the
C and IEEE 754 standards say, with rounding to nearest. -/

namespace Thls

/-- The C++ expression `x<0` for a double: false for zeros and NaN. fp_flopoco.hpp:54. -/
def dblNegative (x : Ieee 11 52) : Bool := x.sign == 1 && !(x.exp == 0 && x.frac == 0) && !x.isNan

/-- `fp_flopoco(double)`. The case `FP_INFINITE` falls through into `FP_NAN` (lines 62-65). `none` is the undefined conversion of
a fraction of 2^64 or more to `uint64_t` (line 80). The bias is computed in `int`, so that `E` is at most 31 in the code.
fp_flopoco.hpp:51-96. -/
def ofDouble (E F : ℕ) (x : Ieee 11 52) : Option (Fp E F) :=
  let sign := (dblNegative x).toNat
  if x.exp = ones 11 then some (Fp.mk4 E F 0b11 sign 0 0)
  else if x.exp = 0 then some (Fp.mk4 E F 0b00 sign 0 0)
  else
    let e : ℤ := (x.exp : ℤ) - 1023
    if e < 0 - (biasN E : ℤ) then some (Fp.mk4 E F 0b00 sign 0 0)
    else if e > 0 + (biasN E : ℤ) + 1 then some (Fp.mk4 E F 0b10 sign 0 0)
    else
      let fx := x.frac * 2 ^ F / 2 ^ 52
      if 2 ^ 64 ≤ fx then none
      else some (Fp.mk4 E F 0b01 sign (e + biasN E).toNat fx)

/-- `n / 2^k` rounded to the nearest integer, ties to even (the rounding of IEEE 754, used by `ldexp`, by the conversion
from `uint64_t` to `double` and by `mpfr_get_d`). Library behaviour, used at fp_flopoco.hpp:80,1003-1007,1021. -/
def roundShift (n k : ℕ) : ℕ :=
  let q := n / 2 ^ k
  let r := n % 2 ^ k
  if 2 ^ k < 2 * r ∨ (2 ^ k = 2 * r ∧ q % 2 = 1) then q + 1 else q

/-- The binary64 word nearest to `±k * 2^e` (`k > 0`), with denormals and overflow to infinity: the exponent of the last place is
`qe`, and a carry out of the significand increments the exponent field. Library behaviour, used at fp_flopoco.hpp:1007,1021. -/
def dblRound (neg : Bool) (k : ℕ) (e : ℤ) : Ieee 11 52 :=
  let qe : ℤ := max (e + Nat.log2 k - 52) (-1074)
  let q := if qe ≤ e then k * 2 ^ (e - qe).toNat else roundShift k (qe - e).toNat
  let w := q + (qe + 1074).toNat * 2 ^ 52
  Ieee.ofBits 11 52 (concat 63 neg.toNat (if 2047 * 2 ^ 52 ≤ w then 2047 * 2 ^ 52 else w))

/-- Conversion of a `uint64_t` to `double`, as a significand and an exponent: exact below 2^53, otherwise rounded to 53 bits.
Library behaviour, used at fp_flopoco.hpp:1003-1007. -/
def u64ToDouble (u : ℕ) : ℕ × ℤ :=
  if u < 2 ^ 53 then (u, 0) else (roundShift u (Nat.log2 u - 52), (Nat.log2 u : ℤ) - 52)

/-- `to_double`. The significand is negated as a `uint64_t` (lines 1005-1007). `none`: a static assertion fails.
fp_flopoco.hpp:985-1013. -/
def toDouble {E F : ℕ} (x : Fp E F) : Option (Ieee 11 52) :=
  if 52 < F ∨ 11 < E then none
  else if x.isZero then some (if x.isNegative then IeeeLimits.negZero 11 52 else IeeeLimits.posZero 11 52)
  else if x.isNormal then
    let frac := concat F 1 x.frac
    let frac := if x.isNegative then (2 ^ 64 - frac) % 2 ^ 64 else frac
    let d := u64ToDouble frac
    some (dblRound false d.1 (d.2 + ((x.exp : ℤ) - biasN E - F)))
  else if x.isInf then some (if x.isNegative then IeeeLimits.negInfinity 11 52 else IeeeLimits.infinity 11 52)
  else some (IeeeLimits.quietNaN 11 52)

/-- `to_double_approx`: through MPFR, `mpfr_get_d` with rounding to nearest. fp_flopoco.hpp:1015-1024. -/
def toDoubleApprox {E F : ℕ} (x : Fp E F) : Ieee 11 52 :=
  match toMpfr x with
  | .nan => IeeeLimits.quietNaN 11 52
  | .inf neg => if neg then IeeeLimits.negInfinity 11 52 else IeeeLimits.infinity 11 52
  | .zero neg => if neg then IeeeLimits.negZero 11 52 else IeeeLimits.posZero 11 52
  | .num neg m e => dblRound neg m e

end Thls
