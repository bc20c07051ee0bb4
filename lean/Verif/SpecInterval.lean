import Verif.Model.Add
import Verif.Model.Mul
import Verif.Model.Div
import Verif.Model.Convert
import Verif.Model.Limits
import Verif.Denote

/-! # Interval arithmetic over the library (property C111): not code of the library, but what its users write with it

An interval is a pair of encodings. Every bound is computed with the ordinary, rounded operation and then moved outwards with `nextdown`
or `nextup`. -/

namespace Thls.Spec

/-- The datum is not above the rational `q`. -/
def Datum.AtMost : Datum → ℚ → Prop
  | .nan, _ => False
  | .inf neg, _ => neg = true
  | .zero _, q => 0 ≤ q
  | .num v, q => v ≤ q

/-- The datum is not below the rational `q`. -/
def Datum.AtLeast : Datum → ℚ → Prop
  | .nan, _ => False
  | .inf neg, _ => neg = false
  | .zero _, q => q ≤ 0
  | .num v, q => q ≤ v

/-- Two bounds. -/
structure Interval (E F : ℕ) where
  lo : Fp E F
  hi : Fp E F

namespace Interval
variable {E F : ℕ}

/-- The rational `q` lies between the bounds. -/
def Holds (i : Interval E F) (q : ℚ) : Prop := i.lo.datum.AtMost q ∧ i.hi.datum.AtLeast q

/-- Zeros and ordinary numbers. -/
def finite (x : Fp E F) : Bool := x.isZero || x.isNormal

/-- The smaller one according to `less_than`. -/
def lower (x y : Fp E F) : Fp E F := if Ord.lessThan x y then x else y

/-- The larger one according to `less_than`. -/
def upper (x y : Fp E F) : Fp E F := if Ord.lessThan x y then y else x

/-- The interval of all numbers. -/
def everything (E F : ℕ) : Interval E F := ⟨Limits.negInfinity E F, Limits.infinity E F⟩

def neg (a : Interval E F) : Interval E F := ⟨negV1 E F a.hi, negV1 E F a.lo⟩

def add (a b : Interval E F) : Option (Interval E F) := do
  let l ← AddDual.addSame a.lo b.lo
  let h ← AddDual.addSame a.hi b.hi
  some ⟨nextdown l, nextup h⟩

/-- From the four rounded results at the corners: first the neighbours, then the extremes. -/
def hull (p q r s : Fp E F) : Interval E F :=
  ⟨lower (lower (nextdown p) (nextdown q)) (lower (nextdown r) (nextdown s)),
    upper (upper (nextup p) (nextup q)) (upper (nextup r) (nextup s))⟩

def mul (a b : Interval E F) : Option (Interval E F) :=
  if finite a.lo && finite a.hi && finite b.lo && finite b.hi then do
    let p ← mulV1 E F a.lo b.lo
    let q ← mulV1 E F a.lo b.hi
    let r ← mulV1 E F a.hi b.lo
    let s ← mulV1 E F a.hi b.hi
    some (hull p q r s)
  else some (everything E F)

def div (a b : Interval E F) : Interval E F :=
  if finite a.lo && finite a.hi && finite b.lo && finite b.hi &&
      (Ord.lessThan (Limits.posZero E F) b.lo || Ord.lessThan b.hi (Limits.posZero E F)) then
    hull (divV1 E F a.lo b.lo) (divV1 E F a.lo b.hi) (divV1 E F a.hi b.lo) (divV1 E F a.hi b.hi)
  else everything E F

end Interval

/-- Arithmetic expressions over variables. -/
inductive Expr where
  | var (n : ℕ)
  | neg (a : Expr)
  | add (a b : Expr)
  | sub (a b : Expr)
  | mul (a b : Expr)
  | div (a b : Expr)

/-- The value of an expression in exact arithmetic; `none` after a division by zero. -/
def Expr.value (ρ : ℕ → ℚ) : Expr → Option ℚ
  | .var n => some (ρ n)
  | .neg a => (a.value ρ).map fun p => -p
  | .add a b => do let p ← a.value ρ; let q ← b.value ρ; some (p + q)
  | .sub a b => do let p ← a.value ρ; let q ← b.value ρ; some (p - q)
  | .mul a b => do let p ← a.value ρ; let q ← b.value ρ; some (p * q)
  | .div a b => do let p ← a.value ρ; let q ← b.value ρ; if q = 0 then none else some (p / q)

/-- The interval of an expression. -/
def Expr.interval {E F : ℕ} (I : ℕ → Interval E F) : Expr → Option (Interval E F)
  | .var n => some (I n)
  | .neg a => (a.interval I).map Interval.neg
  | .add a b => do let i ← a.interval I; let j ← b.interval I; i.add j
  | .sub a b => do let i ← a.interval I; let j ← b.interval I; i.add j.neg
  | .mul a b => do let i ← a.interval I; let j ← b.interval I; i.mul j
  | .div a b => do let i ← a.interval I; let j ← b.interval I; some (i.div j)

end Thls.Spec
