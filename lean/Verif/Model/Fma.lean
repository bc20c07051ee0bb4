import Verif.Model.Mul
import Verif.Model.Add
import Verif.Model.Convert

/-! # Model of the fused multiply-add -/

namespace Thls

/-- Exponent width of the intermediate sum (`wEXYZ`, with `wEXY = max(wEX,wEY)+2`). fp_flopoco_fma.hpp:23,33. -/
def fmaE (wEX wEY wEZ : ℕ) : ℕ := if max wEX wEY + 2 > wEZ then max wEX wEY + 2 else wEZ + 1

/-- Fraction width of the intermediate sum (`wFXYZ`). fp_flopoco_fma.hpp:30,34. -/
def fmaF (wFX wFY wFZ : ℕ) : ℕ := max (wFX + wFY + 2) wFZ

/-- The intermediate sum `xyz`: the factors are widened by two exponent bits, multiplied with a fraction wide
enough for the exact product, and the addend is added in the widened format by `add_fast` (`add_dual` of two
operands in the result format). fp_flopoco_fma.hpp:23-44. -/
def fmaSum {wEX wFX wEY wFY wEZ wFZ : ℕ} (x : Fp wEX wFX) (y : Fp wEY wFY) (z : Fp wEZ wFZ) :
    Option (Fp (fmaE wEX wEY wEZ) (fmaF wFX wFY wFZ)) :=
  (mulV1 (max wEX wEY + 2) (wFX + wFY + 2) (convert (max wEX wEY + 2) wFX x) (convert (max wEX wEY + 2) wFY y)).bind
    fun xy => AddDual.addSame (convert (fmaE wEX wEY wEZ) (fmaF wFX wFY wFZ) xy)
      (convert (fmaE wEX wEY wEZ) (fmaF wFX wFY wFZ) z)

/-- `fma<wER,wFR>(x,y,z)` and its alias `flopoco_fma`. fp_flopoco_fma.hpp:18-71. -/
def fma (wER wFR : ℕ) {wEX wFX wEY wFY wEZ wFZ : ℕ} (x : Fp wEX wFX) (y : Fp wEY wFY) (z : Fp wEZ wFZ) :
    Option (Fp wER wFR) :=
  (fmaSum x y z).map fun xyz => convert wER wFR xyz

end Thls
