import Verif.Spec
import Mathlib.Analysis.SpecialFunctions.Sqrt
import Mathlib.Analysis.SpecialFunctions.Log.Basic

/-! # Rounding of real numbers, and the real functions on data

This file does not mention any definition of the model. -/

namespace Thls.Spec

/-- `m * 2^e` is the `p`-bit number nearest to the positive real `x`, ties to even. -/
def NearestEvenReal (p : ℕ) (x : ℝ) (m : ℕ) (e : ℤ) : Prop :=
  IsSig p m ∧
  (∀ (m' : ℕ) (e' : ℤ), IsSig p m' → |x - m * 2 ^ e| ≤ |x - m' * 2 ^ e'|) ∧
  (∀ (m' : ℕ) (e' : ℤ), IsSig p m' → |x - m * 2 ^ e| = |x - m' * 2 ^ e'| →
      (m' : ℝ) * 2 ^ e' ≠ m * 2 ^ e → Even m)

/-- `d` is the real `x` rounded to nearest, ties to even, in the format `(E, F)`; the real zero is `+0`. -/
def RoundedReal (E F : ℕ) (x : ℝ) (d : Datum) : Prop :=
  if x = 0 then d = .zero false
  else ∃ (m : ℕ) (e : ℤ), NearestEvenReal (F + 1) |x| m e ∧ d = rangeCheck E F (x < 0) m e

/-- `d` is the square root of `a`, rounded: the zeros are kept, negative numbers and infinities give NaN. -/
def IsSqrt (E F : ℕ) (a d : Datum) : Prop :=
  match a with
  | .nan => d = .nan
  | .inf s => d = if s then .nan else .inf false
  | .zero s => d = .zero s
  | .num q => if q < 0 then d = .nan else RoundedReal E F (Real.sqrt q) d

/-- `d` is the exponential of `a`, rounded. -/
def IsExp (E F : ℕ) (a d : Datum) : Prop :=
  match a with
  | .nan => d = .nan
  | .inf s => d = if s then .zero false else .inf false
  | .zero _ => RoundedReal E F 1 d
  | .num q => RoundedReal E F (Real.exp q) d

/-- `d` is the natural logarithm of `a`, rounded: minus infinity at the zeros, NaN for negative numbers and infinities. -/
def IsLog (E F : ℕ) (a d : Datum) : Prop :=
  match a with
  | .nan => d = .nan
  | .inf s => d = if s then .nan else .inf false
  | .zero _ => d = .inf true
  | .num q => if q < 0 then d = .nan else RoundedReal E F (Real.log q) d

end Thls.Spec
