import Verif.Model.CtBig

/-! # Specification of compile-time big integers -/

namespace Thls.Spec

/-- The number whose base-65536 digits, most significant first, are given. -/
def limbsValue (l : List ℕ) : ℕ := l.foldl (fun acc x => acc * 65536 + x) 0

/-- The integer a compile-time number stands for. -/
def numValue : CtBig.Num → ℤ
  | .pos l => limbsValue l
  | .neg l => -limbsValue l

/-- Digits of a compile-time number are 16 bits wide. -/
def Limbs16 (l : List ℕ) : Prop := ∀ x ∈ l, x < 65536

/-- The value of a hexadecimal digit, lower or upper case. -/
def hexDigit (c : Char) : ℕ :=
  if c.toNat ≥ 97 then c.toNat - 87 else if c.toNat ≥ 65 then c.toNat - 55 else c.toNat - 48

/-- What a string of hexadecimal digits denotes. -/
def hexValue (s : List Char) : ℕ := s.foldl (fun acc c => acc * 16 + hexDigit c) 0

/-- What a C-style literal denotes: `0x` and hexadecimal digits, or `0`. -/
def literalValue : List Char → Option ℕ
  | ['0'] => some 0
  | '0' :: 'x' :: s => some (hexValue s)
  | _ => none

end Thls.Spec
