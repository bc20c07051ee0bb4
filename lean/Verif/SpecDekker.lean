import Verif.Spec

/-! # Client programs: splitting a number, and the exact product of two numbers

Written against any number type with an addition, a multiplication and a change of sign; an operation that fails ends the program. -/

namespace Thls.Spec

variable {α : Type} (add mul : α → α → Option α) (neg : α → α)

/-- The high and the low part of `x`; `c` is `2^s + 1`. -/
def split (c x : α) : Option (α × α) := do
  let p ← mul c x
  let d ← add x (neg p)
  let h ← add p d
  let l ← add x (neg h)
  return (h, l)

/-- The rounded product of `x` and `y`, and its error. -/
def twoProduct (c x y : α) : Option (α × α) := do
  let (hx, lx) ← split add mul neg c x
  let (hy, ly) ← split add mul neg c y
  let r ← mul x y
  let q ← mul hx hy
  let t1 ← add q (neg r)
  let m1 ← mul hx ly
  let t2 ← add t1 m1
  let m2 ← mul lx hy
  let t3 ← add t2 m2
  let m3 ← mul lx ly
  let t ← add t3 m3
  return (r, t)

/-- A floating-point word of `W` bits with the other sign. -/
def flipWord (W w : Nat) : Nat := (w + 2 ^ (W - 1)) % 2 ^ W

/-- What the two parts of a split number look like: with unit `2^e` of `v`, `vh` is at most `2^(F+1-s)` times `2^(e+s)` and `vl` at most `2^(s-1)` times
`2^e`. -/
def Halves (F s : ℕ) (v vh vl : ℚ) : Prop :=
  vh + vl = v ∧ ∃ e : ℤ, (2 : ℚ) ^ (e + F) ≤ |v| ∧ |v| < 2 ^ (e + F + 1) ∧ (∃ n : ℤ, vh = n * 2 ^ (e + s) ∧ |n| ≤ 2 ^ (F + 1 - s)) ∧
    ∃ m : ℤ, vl = m * 2 ^ e ∧ |m| ≤ 2 ^ (s - 1)

end Thls.Spec
