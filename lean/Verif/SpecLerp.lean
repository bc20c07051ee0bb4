import Mathlib.Logic.Basic

/-! # Specification: interpolation programs (property C117)

What a user writes with the operators `+`, unary `-` and `*` of a number type. `none` is an assertion failure. -/

namespace Thls.Spec

/-- `x + t * (y + n)`, where `n` stands for `-x`. -/
def lerp {T : Type} (add mul : T → T → Option T) (x n y t : T) : Option T := (add y n).bind fun d => (mul t d).bind (add x)

/-- `s * x + t * y`, where `s` stands for `1 - t`. -/
def blend {T : Type} (add mul : T → T → Option T) (x y s t : T) : Option T := (mul s x).bind fun a => (mul t y).bind (add a)

end Thls.Spec
