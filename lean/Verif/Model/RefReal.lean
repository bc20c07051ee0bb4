import Verif.Model.Ref
import Mathlib.Analysis.SpecialFunctions.Sqrt
import Mathlib.Analysis.SpecialFunctions.Log.Basic

/-! # The MPFR reference functions of real functions (`ref_sqrt`, `ref_exp`, `ref_log` in fp_flopoco.hpp)

As in `Model/Ref.lean`, the MPFR library is replaced by its documented behaviour. The results are real numbers here, so the definitions are
not computable. -/

namespace Thls

namespace Mpfr

/-- The exponent of the last place of a positive real held in `p` bits. Part of the rounding of the library. -/
noncomputable def ulpExpR (p : ℕ) (a : ℝ) : ℤ := Int.log 2 a + 1 - p

/-- A positive real scaled to `p` integer bits. Part of the rounding of the library. -/
noncomputable def scaledR (p : ℕ) (a : ℝ) : ℝ := a / 2 ^ ulpExpR p a

open Classical in
/-- `MPFR_RNDN` of a positive real: nearest, ties to even. Library behaviour, used at fp_flopoco.hpp:901,921,940. -/
noncomputable def rndnPosR (p : ℕ) (a : ℝ) : ℕ × ℤ :=
  let k := ⌊scaledR p a⌋.toNat
  let r := scaledR p a - k
  if r > 1 / 2 ∨ (r = 1 / 2 ∧ k % 2 = 1) then succSig p k (ulpExpR p a) else (k, ulpExpR p a)

open Classical in
/-- `MPFR_RNDN` of a real; an exact zero is positive. Library behaviour, used at fp_flopoco.hpp:901,921,940. -/
noncomputable def rndnR (p : ℕ) (v : ℝ) : Mpfr :=
  if v = 0 then .zero false else .num (decide (v < 0)) (rndnPosR p |v|).1 (rndnPosR p |v|).2

/-- `mpfr_sqrt`: NaN for negative operands, `-0` for `-0`. Library behaviour, used at fp_flopoco.hpp:940. -/
noncomputable def sqrt (p : ℕ) : Mpfr → Mpfr
  | .nan => .nan
  | .inf true => .nan
  | .inf false => .inf false
  | .zero s => .zero s
  | .num true _ _ => .nan
  | .num false m e => rndnR p (Real.sqrt (m * 2 ^ e))

/-- `mpfr_exp`. Library behaviour, used at fp_flopoco.hpp:921. -/
noncomputable def exp (p : ℕ) : Mpfr → Mpfr
  | .nan => .nan
  | .inf true => .zero false
  | .inf false => .inf false
  | .zero _ => .num false (2 ^ (p - 1)) (1 - p)
  | .num s m e => rndnR p (Real.exp ((if s then -1 else 1) * (m * 2 ^ e)))

/-- `mpfr_log`. Library behaviour, used at fp_flopoco.hpp:901. -/
noncomputable def log (p : ℕ) : Mpfr → Mpfr
  | .nan => .nan
  | .inf true => .nan
  | .inf false => .inf false
  | .zero _ => .inf true
  | .num true _ _ => .nan
  | .num false m e => rndnR p (Real.log (m * 2 ^ e))

end Mpfr

/-- `ref_sqrt<ER,FR>(a)`. fp_flopoco.hpp:931-948. -/
noncomputable def refSqrt (ER FR : ℕ) {EA FA : ℕ} (a : Fp EA FA) : Option (Fp ER FR) :=
  ofMpfr ER FR true (Mpfr.sqrt (FR + 1) (toMpfr a))

/-- `ref_exp<ER,FR>(a)`. fp_flopoco.hpp:912-929. -/
noncomputable def refExp (ER FR : ℕ) {EA FA : ℕ} (a : Fp EA FA) : Option (Fp ER FR) :=
  ofMpfr ER FR true (Mpfr.exp (FR + 1) (toMpfr a))

/-- `ref_log<ER,FR>(a)`. fp_flopoco.hpp:892-909. -/
noncomputable def refLog (ER FR : ℕ) {EA FA : ℕ} (a : Fp EA FA) : Option (Fp ER FR) :=
  ofMpfr ER FR true (Mpfr.log (FR + 1) (toMpfr a))

end Thls
