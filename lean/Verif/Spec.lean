import Mathlib.Algebra.Order.Field.Rat
import Mathlib.Algebra.Order.Field.Power
import Mathlib.Algebra.Group.Even
import Mathlib.Data.Rat.Defs

/-!
# Specification

This file does not mention any definition of the model. It says what the encodings denote and what
"correctly rounded" means, in the vocabulary of a user of the library.
-/

namespace Thls.Spec

/-- What a floating-point encoding denotes. `neg = true` is the negative sign. -/
inductive Datum where
  | nan
  | inf (neg : Bool)
  | zero (neg : Bool)
  | num (q : ℚ)
deriving DecidableEq

/-- Exponent bias of a format with `E` exponent bits: `2^(E-1) - 1`. -/
def bias (E : ℕ) : ℤ := 2 ^ (E - 1) - 1

/-- The datum denoted by the FloPoCo fields of a format with `E` exponent and `F` fraction bits.
Flags 0: zero, 1: normal `±(2^F + frac) * 2^(exp - bias - F)`, 2: infinity, 3: NaN. There are no denormals
and every exponent field, including all zeros and all ones, is an ordinary exponent. -/
def denote (E F flags sign exp frac : ℕ) : Datum :=
  match flags with
  | 0 => .zero (decide (sign = 1))
  | 1 => .num ((if sign = 1 then -1 else 1) * (((2 ^ F + frac : ℕ) : ℚ) * 2 ^ ((exp : ℤ) - bias E - F)))
  | 2 => .inf (decide (sign = 1))
  | _ => .nan

/-- `(m, e)` is a `p`-bit significand with an arbitrary exponent: it denotes `m * 2^e`. -/
def IsSig (p m : ℕ) : Prop := 2 ^ (p - 1) ≤ m ∧ m < 2 ^ p

/-- `m * 2^e` is the `p`-bit number nearest to the positive rational `x`, ties to even:
no `p`-bit number is closer, and if a different `p`-bit number is equally close, `m` is even. -/
def NearestEven (p : ℕ) (x : ℚ) (m : ℕ) (e : ℤ) : Prop :=
  IsSig p m ∧
  (∀ (m' : ℕ) (e' : ℤ), IsSig p m' → |x - m * 2 ^ e| ≤ |x - m' * 2 ^ e'|) ∧
  (∀ (m' : ℕ) (e' : ℤ), IsSig p m' → |x - m * 2 ^ e| = |x - m' * 2 ^ e'| →
      (m' : ℚ) * 2 ^ e' ≠ m * 2 ^ e → Even m)

/-- `m * 2^e` is the largest `p`-bit number not above `x`. -/
def RoundDown (p : ℕ) (x : ℚ) (m : ℕ) (e : ℤ) : Prop :=
  IsSig p m ∧ (m : ℚ) * 2 ^ e ≤ x ∧
  (∀ (m' : ℕ) (e' : ℤ), IsSig p m' → (m' : ℚ) * 2 ^ e' ≤ x → (m' : ℚ) * 2 ^ e' ≤ m * 2 ^ e)

/-- The datum of the format `(E, F)` for a number whose magnitude has been rounded to the
significand `m` (`F+1` bits) and exponent `e` with unbounded range: if the biased exponent
`e + F + bias` is negative the result is a zero, if it needs more than `E` bits an infinity, otherwise
the number itself. -/
def rangeCheck (E F : ℕ) (neg : Bool) (m : ℕ) (e : ℤ) : Datum :=
  if e + F + bias E < 0 then .zero neg
  else if 2 ^ E ≤ e + F + bias E then .inf neg
  else .num ((if neg then -1 else 1) * ((m : ℚ) * 2 ^ e))

/-- `d` is the non-zero rational `q` rounded to nearest, ties to even, in the format `(E, F)`. -/
def Rounded (E F : ℕ) (q : ℚ) (d : Datum) : Prop :=
  ∃ (m : ℕ) (e : ℤ), NearestEven (F + 1) |q| m e ∧ d = rangeCheck E F (decide (q < 0)) m e

/-- `d` is the positive rational `q` rounded down in the format `(E, F)`. -/
def RoundedDown (E F : ℕ) (q : ℚ) (d : Datum) : Prop :=
  ∃ (m : ℕ) (e : ℤ), RoundDown (F + 1) q m e ∧ d = rangeCheck E F false m e

/-- The sign of a datum (`false` for NaN). -/
def Datum.isNeg : Datum → Bool
  | .nan => false
  | .inf s => s
  | .zero s => s
  | .num q => decide (q < 0)

/-- The total order on non-NaN data in which -0 immediately precedes +0: `a` is strictly below `b`. -/
def Datum.Below : Datum → Datum → Prop
  | .nan, _ => False
  | _, .nan => False
  | .inf true, .inf true => False
  | .inf true, _ => True
  | _, .inf true => False
  | .inf false, _ => False
  | _, .inf false => True
  | .zero s, .zero t => s = true ∧ t = false
  | .zero _, .num q => 0 < q
  | .num q, .zero _ => q < 0
  | .num p, .num q => p < q

/-- The order of the extended reals: both zeros are the same point; NaN is unordered. -/
def Datum.Lt : Datum → Datum → Prop
  | .nan, _ => False
  | _, .nan => False
  | .inf true, .inf true => False
  | .inf true, _ => True
  | _, .inf true => False
  | .inf false, _ => False
  | _, .inf false => True
  | .zero _, .zero _ => False
  | .zero _, .num q => 0 < q
  | .num q, .zero _ => q < 0
  | .num p, .num q => p < q

/-- Equality as extended reals: the two zeros are equal, NaN is equal to nothing. -/
def Datum.RealEq : Datum → Datum → Prop
  | .nan, _ => False
  | .zero _, .zero _ => True
  | a, b => a = b

/-- The negated datum. -/
def Datum.neg : Datum → Datum
  | .nan => .nan
  | .inf s => .inf (!s)
  | .zero s => .zero (!s)
  | .num q => .num (-q)

/-- Products involving a NaN, an infinity or a zero, as in IEEE 754; `none` when both operands are
ordinary numbers. -/
def mulSpecial : Datum → Datum → Option Datum
  | .nan, _ => some .nan
  | _, .nan => some .nan
  | .inf _, .zero _ => some .nan
  | .zero _, .inf _ => some .nan
  | .inf s, b => some (.inf (s != b.isNeg))
  | a, .inf s => some (.inf (a.isNeg != s))
  | .zero s, b => some (.zero (s != b.isNeg))
  | a, .zero s => some (.zero (a.isNeg != s))
  | .num _, .num _ => none

/-- Sums involving a NaN, an infinity or a zero, as in IEEE 754 with rounding to nearest; `none` when both
operands are ordinary numbers. -/
def addSpecial : Datum → Datum → Option Datum
  | .nan, _ => some .nan
  | _, .nan => some .nan
  | .inf s, .inf t => some (if s = t then .inf s else .nan)
  | .inf s, _ => some (.inf s)
  | _, .inf t => some (.inf t)
  | .zero s, .zero t => some (.zero (s && t))
  | .zero _, b => some b
  | a, .zero _ => some a
  | .num _, .num _ => none

/-- Quotients involving a NaN, an infinity or a zero, as in IEEE 754; `none` when both operands are ordinary
numbers. -/
def divSpecial : Datum → Datum → Option Datum
  | .nan, _ => some .nan
  | _, .nan => some .nan
  | .inf _, .inf _ => some .nan
  | .zero _, .zero _ => some .nan
  | .inf s, b => some (.inf (s != b.isNeg))
  | a, .inf s => some (.zero (a.isNeg != s))
  | .zero s, b => some (.zero (s != b.isNeg))
  | a, .zero s => some (.inf (a.isNeg != s))
  | .num _, .num _ => none

end Thls.Spec
