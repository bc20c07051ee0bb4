import Verif.Model.Add
import Verif.Model.Mul
import Verif.Model.Div
import Verif.Model.Ieee
import Verif.Model.SoftFloat

/-! # The generated word-in, word-out modules

One C++ file per operator and format is generated from the templates in `src/fp_ops/mp/fp/primitive` (CMakeLists.txt there: exponent
widths 4 to 13, fraction widths 4 to 112). `none` is a failed assertion. -/

namespace Thls.Modules

/-- `fp_mul_flopoco_E_F`. src/fp_ops/mp/fp/primitive/fp_mul_flopoco_EEE_FFF.cpp:8-18. -/
def mul (E F a b : ℕ) : Option ℕ := (mulV1 E F (Fp.ofBits E F a) (Fp.ofBits E F b)).map Fp.bits

/-- `fp_mul_flopoco_ratio_E1_F1_E2_F2` with `E1 = E2` (all generated instances).
src/fp_ops/mp/fp/primitive/fp_mul_flopoco_ratio_EEE1_FFF1_EEE2_FFF2.cpp:11-22. -/
def mulRatio (E F1 F2 a b : ℕ) : Option ℕ := (mulV1 E F1 (Fp.ofBits E F1 a) (Fp.ofBits E F2 b)).map Fp.bits

/-- `fp_div_flopoco_E_F`. src/fp_ops/mp/fp/primitive/fp_div_flopoco_EEE_FFF.cpp:8-18. -/
def div (E F a b : ℕ) : Option ℕ := some (divV1 E F (Fp.ofBits E F a) (Fp.ofBits E F b)).bits

/-- `fp_div_flopoco_v2_E_F`. src/fp_ops/mp/fp/primitive/fp_div_flopoco_v2_EEE_FFF.cpp:8-18. -/
def divTwo (E F a b : ℕ) : Option ℕ := some (divV2 E F (Fp.ofBits E F a) (Fp.ofBits E F b)).bits

/-- `fp_add_flopoco_dual_E_F`. src/fp_ops/mp/fp/primitive/fp_add_flopoco_dual_EEE_FFF.cpp:8-18. -/
def addDual (E F a b : ℕ) : Option ℕ := (AddDual.addSame (Fp.ofBits E F a) (Fp.ofBits E F b)).map Fp.bits

/-- `fp_add_flopoco_single_E_F` and `fp_add_flopoco_single_v2_E_F`.
src/fp_ops/mp/fp/primitive/fp_add_flopoco_single_EEE_FFF.cpp:8-18, fp_add_flopoco_single_v2_EEE_FFF.cpp:8-18. -/
def addSingle (E F a b : ℕ) : Option ℕ := (AddSingle.addSame (Fp.ofBits E F a) (Fp.ofBits E F b)).map Fp.bits

/-- `fp_add_flopoco_single_v3_E_F`; `u` and `v` are the values of `__builtin_clz(0)` and of an uninitialised variable.
src/fp_ops/mp/fp/primitive/fp_add_flopoco_single_v3_EEE_FFF.cpp:8-18. -/
def addSingleThree (u v E F a b : ℕ) : Option ℕ := (AddSingle.addSameV3 u v (Fp.ofBits E F a) (Fp.ofBits E F b)).map Fp.bits

/-- `fp_add_flopoco_single_v4_E_F`. src/fp_ops/mp/fp/primitive/fp_add_flopoco_single_v4_EEE_FFF.cpp:8-18. -/
def addSingleFour (E F a b : ℕ) : Option ℕ := (AddSingle.addSameV4 (Fp.ofBits E F a) (Fp.ofBits E F b)).map Fp.bits

/-- `fp_add_flopoco_single_E1_F1_E2_F2`; it compiles only when the first format is the larger one.
src/fp_ops/mp/fp/primitive/fp_add_flopoco_single_ratio_EEE1_FFF1_EEE2_FFF2.cpp:11-22. -/
def addSingleRatio (E1 F1 E2 F2 a b : ℕ) : Option ℕ := (AddSingle.add (Fp.ofBits E1 F1 a) (Fp.ofBits E2 F2 b)).map Fp.bits

/-- `fp_mul_ieee_on_flopoco_E_F`. src/fp_ops/mp/fp/primitive/fp_mul_ieee_on_flopoco_EEE_FFF.cpp:10-18. -/
def ieeeMul (E F a b : ℕ) : Option ℕ := (IeeeOps.mul (Ieee.ofBits E F a) (Ieee.ofBits E F b)).map Ieee.bits

/-- `fp_add_ieee_on_flopoco_E_F`. src/fp_ops/mp/fp/primitive/fp_add_ieee_on_flopoco_EEE_FFF.cpp:10-18. -/
def ieeeAdd (E F a b : ℕ) : Option ℕ := (IeeeOps.add (Ieee.ofBits E F a) (Ieee.ofBits E F b)).map Ieee.bits

/-- `fp_div_ieee_on_flopoco_E_F`. src/fp_ops/mp/fp/primitive/fp_div_ieee_on_flopoco_EEE_FFF.cpp:10-18. -/
def ieeeDiv (E F a b : ℕ) : Option ℕ := some (IeeeOps.div (Ieee.ofBits E F a) (Ieee.ofBits E F b)).bits

end Thls.Modules
