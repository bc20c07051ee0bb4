import Verif.Model.Ref
import Verif.Model.Ieee
import Verif.Model.Masked

/-! # Printed forms, `nextafter`, and the references of the IEEE type -/

namespace Thls

/-- `fw_uint::to_int`: asserts that the value fits in an `int`. fw_uint_on_masked_uint.hpp:641-645. -/
def toIntChecked (x : ℕ) : Option ℤ := if x ≤ 2 ^ 31 - 1 then some (x : ℤ) else none

/-- The decimal form of an `int` as a stream prints it. Library behaviour, used at fp_flopoco.hpp:1026-1055, fp_ieee.hpp:481-502. -/
def intText (i : ℤ) : List Char := (toString i).toList

/-- `fp_flopoco::str`. `approx` is the decimal text the stream prints for the `double` of `to_double_approx`, which is not modelled.
`none` is the failed assertion of `to_int`. fp_flopoco.hpp:1026-1055. -/
def Fp.str {E F : ℕ} (approx : Fp E F → List Char) (x : Fp E F) : Option (List Char) :=
  let acc := Masked.toString (3 + E + F) x.bits
  let flags := getBits (E + F + 2) (E + F + 1) x.bits
  let negative := getBits (E + F) (E + F) x.bits
  let mid : Option (List Char) :=
    if flags = 0b00 then some (if negative = 1 then " -zero".toList else " +zero".toList)
    else if flags = 0b01 then
      let expnt := getBits (E + F - 1) F x.bits
      let frac := getBits (F - 1) 0 x.bits
      (toIntChecked expnt).map fun e =>
        " normal".toList ++ " e=".toList ++ Masked.toString E expnt ++ "=".toList ++ intText (e - 2 ^ (E - 1) + 1) ++
          ", f=".toList ++ Masked.toString F frac
    else if flags = 0b10 then some (if negative = 1 then "-inf".toList else "+inf".toList)
    else some " nan".toList
  mid.map fun m => acc ++ m ++ " ~=".toList ++ approx x

/-- `fp_ieee::str`. `approx` is the decimal text of the `double` `ldexp(frac + 2^F, -F)`; its argument is read with `to_int`.
fp_ieee.hpp:481-502. -/
def Ieee.str {E F : ℕ} (approx : ℤ → List Char) (x : Ieee E F) : Option (List Char) :=
  let acc := Masked.toString (1 + E + F) x.bits
  if x.isZero then some (acc ++ if x.isNegative then " -zero".toList else " +zero".toList)
  else if x.isNormal then
    let expnt := getBits (E + F - 1) F x.bits
    let frac := getBits (F - 1) 0 x.bits
    (toIntChecked expnt).bind fun e => (toIntChecked frac).map fun f =>
      acc ++ " normal".toList ++ " e=".toList ++ Masked.toString E expnt ++ "=".toList ++ intText (e - 2 ^ (E - 1) + 1) ++
        " f=".toList ++ Masked.toString F frac ++ "= (approx)".toList ++ approx f
  else if x.isInf then some (acc ++ if x.isNegative then "-inf".toList else "+inf".toList)
  else some (acc ++ " nan".toList)

/-- `nextafter(x, y)`; `y` is a `double`, given by its datum. `none` is the thrown exception. fp_flopoco.hpp:479-495. -/
def nextafter {E F : ℕ} (x : Fp E F) (y : Spec.Datum) : Option (Fp E F) :=
  if y = .inf false then some (nextup x)
  else if y = .inf true then some (nextdown x)
  else none

/-- `ref_mul` of the IEEE type. fp_ieee.hpp:407-437. -/
def ieeeRefMul (ER FR : ℕ) {EA FA EB FB : ℕ} (a : Ieee EA FA) (b : Ieee EB FB) : Option (Ieee ER FR) :=
  Ieee.ofMpfr ER FR true (Mpfr.mul (FR + 1) (Ieee.toMpfr a) (Ieee.toMpfr b))

/-- `ref_add` of the IEEE type. fp_ieee.hpp:439-467. -/
def ieeeRefAdd (ER FR : ℕ) {EA FA EB FB : ℕ} (a : Ieee EA FA) (b : Ieee EB FB) : Option (Ieee ER FR) :=
  Ieee.ofMpfr ER FR true (Mpfr.add (FR + 1) (Ieee.toMpfr a) (Ieee.toMpfr b))

end Thls
