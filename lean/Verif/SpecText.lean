import Verif.Spec

/-! # Printed forms

This file does not mention any definition of the model. -/

namespace Thls.Spec

/-- `t` is the `W`-bit word `x` in binary, most significant bit first, after `0b`; underscores may separate digits. -/
def BitText (W x : ℕ) (t : List Char) : Prop :=
  ∃ digits : List Char, t = '0' :: 'b' :: digits ∧
    digits.filter (· ≠ '_') = (List.range W).map fun i : ℕ => if x.testBit (W - 1 - i) then '1' else '0'

/-- What is printed for the data that are not numbers. -/
def specialText : Datum → List Char
  | .zero s => if s then " -zero".toList else " +zero".toList
  | .inf s => if s then "-inf".toList else "+inf".toList
  | _ => " nan".toList

end Thls.Spec
