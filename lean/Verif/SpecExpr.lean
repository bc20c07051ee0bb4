import Verif.SpecInterval

/-! # Error analysis of expressions (property C112): not code of the library, but what its users compute with it, and the textbook bound -/

namespace Thls.Spec

/-- An expression computed with the operators of the library; a difference is the sum with the negated subtrahend. -/
def Expr.compute {E F : ℕ} (X : ℕ → Fp E F) : Expr → Option (Fp E F)
  | .var n => some (X n)
  | .neg a => (a.compute X).map (negV1 E F)
  | .add a b => do let x ← a.compute X; let y ← b.compute X; AddDual.addSame x y
  | .sub a b => do let x ← a.compute X; let y ← b.compute X; AddDual.addSame x (negV1 E F y)
  | .mul a b => do let x ← a.compute X; let y ← b.compute X; mulV1 E F x y
  | .div a b => do let x ← a.compute X; let y ← b.compute X; some (divV1 E F x y)

/-- One rounding step: the exact value is `v`, the operand of the rounding is within `b` of it. The rounded result is within
`b + u * (|v| + b) + tiny`, if nothing up to `|v| + b` overflows. -/
def roundStep (u tiny top v b : ℚ) : Option (ℚ × ℚ) :=
  if |v| + b < top then some (v, b + u * (|v| + b) + tiny) else none

/-- The exact value of an expression and the textbook bound of the error of its computation: `u` is the relative error of a rounding,
`tiny` what is lost at most when a result is flushed to zero, `top` the overflow threshold, `β n` the error of the input `n`. `none` if
an overflow or a division by zero is not excluded by the bounds. -/
def Expr.bound (u tiny top : ℚ) (ρ β : ℕ → ℚ) : Expr → Option (ℚ × ℚ)
  | .var n => some (ρ n, β n)
  | .neg a => (a.bound u tiny top ρ β).map fun p => (-p.1, p.2)
  | .add a b => do
    let p ← a.bound u tiny top ρ β
    let q ← b.bound u tiny top ρ β
    roundStep u tiny top (p.1 + q.1) (p.2 + q.2)
  | .sub a b => do
    let p ← a.bound u tiny top ρ β
    let q ← b.bound u tiny top ρ β
    roundStep u tiny top (p.1 - q.1) (p.2 + q.2)
  | .mul a b => do
    let p ← a.bound u tiny top ρ β
    let q ← b.bound u tiny top ρ β
    roundStep u tiny top (p.1 * q.1) (|p.1| * q.2 + |q.1| * p.2 + p.2 * q.2)
  | .div a b => do
    let p ← a.bound u tiny top ρ β
    let q ← b.bound u tiny top ρ β
    if q.2 < |q.1| then roundStep u tiny top (p.1 / q.1) ((|p.1| * q.2 + |q.1| * p.2) / (|q.1| * (|q.1| - q.2))) else none

/-- Evaluation of a polynomial by Horner's rule: `acc = acc * x + a` for the coefficients `a` after the leading one, which is the first
`acc`. -/
def hornerLoop {E F : ℕ} (x acc : Fp E F) (as : List (Fp E F)) : Option (Fp E F) :=
  as.foldlM (fun acc a => do let p ← mulV1 E F acc x; AddDual.addSame p a) acc

/-- The exact value of the polynomial with leading coefficient `c` and further coefficients `as`: `c x^n + a_1 x^(n-1) + … + a_n`. -/
def polynomial (x c : ℚ) : List ℚ → ℚ
  | [] => c
  | a :: as => c * x ^ (as.length + 1) + polynomial x a as

/-- The sum of the magnitudes of the terms of the polynomial, every coefficient but the leading one enlarged by `ε`. -/
def polynomialSize (ε x c : ℚ) (as : List ℚ) : ℚ := polynomial |x| |c| (as.map fun a => |a| + ε)

end Thls.Spec
