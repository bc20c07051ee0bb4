import Verif.Model.Ieee
import Verif.Model.Mul
import Verif.Model.Add

/-! # Accumulation loops over the wrapper operators, and the benchmark kernels
(policy_flopoco.hpp, src/examples/sum.cpp, src/examples/dot_product.cpp, src/benchmarks) -/

namespace Thls

/-- The default constructor: all bits zero, which is `+0`. fp_flopoco.hpp:32-34,
fw_uint_on_masked_uint.hpp:372-376. -/
def Fp.default (E F : ℕ) : Fp E F := Fp.ofBits E F 0

/-- `fp_flopoco_wrapper::operator+=` and `operator+`: `add<wE,wF>`, which is `add_dual`. policy_flopoco.hpp:55-80,
fp_flopoco_primitives.hpp:18-22. -/
def wrapAdd {E F : ℕ} (a b : Fp E F) : Option (Fp E F) := AddDual.addSame a b

/-- `fp_flopoco_wrapper::operator*` and `operator*=`: `mul<wE,wF>`, which is `mul_v1`. policy_flopoco.hpp:55-80,
fp_flopoco_primitives.hpp:24-28. -/
def wrapMul {E F : ℕ} (a b : Fp E F) : Option (Fp E F) := mulV1 E F a b

/-- The loop of `sum`: `acc += fx` for every element in order, from a default-constructed accumulator. The code
fixes the format to (8,23); the model takes any. src/examples/sum.cpp:13-21. -/
def sumLoop {E F : ℕ} (xs : List (Fp E F)) : Option (Fp E F) := xs.foldlM wrapAdd (Fp.default E F)

/-- The loop of `dot_product`: `acc += fa*fb`. The code fixes the format to (8,23); the model takes any.
src/examples/dot_product.cpp:14-22. -/
def dotLoop {E F : ℕ} (xs : List (Fp E F × Fp E F)) : Option (Fp E F) :=
  xs.foldlM (fun acc p => (wrapMul p.1 p.2).bind (wrapAdd acc)) (Fp.default E F)

/-- `sum`: every `float` is converted to format (8,23), accumulated, and the accumulator converted to `float`.
src/examples/sum.cpp:9-23. -/
def sumFloat (data : List (Ieee 8 23)) : Option (Ieee 8 23) := (sumLoop (data.map ieeeToFlopoco)).map flopocoToIeee

/-- `dot_product`. src/examples/dot_product.cpp:9-24. -/
def dotFloat (data : List (Ieee 8 23 × Ieee 8 23)) : Option (Ieee 8 23) :=
  (dotLoop (data.map fun p => (ieeeToFlopoco p.1, ieeeToFlopoco p.2))).map flopocoToIeee

/-! ## Benchmark kernels -/

/-- `flopoco_full_dot_traits::add_mul` (the factors share an exponent width, or `mul` does not compile).
dot_product/sweep_types.hpp:108-110, mat_mul/sweep_types.hpp:64-66. -/
def fullAddMul {AE AF E LF RF : ℕ} (a : Fp AE AF) (x : Fp E LF) (y : Fp E RF) : Option (Fp AE AF) :=
  (mulV1 AE AF x y).bind (AddDual.addSame a)

/-- `flopoco_full_dot_traits::dot2`. dot_product/sweep_types.hpp:112-114. -/
def fullDot2 (AE AF : ℕ) {E LF RF : ℕ} (p0 p1 : Fp E LF × Fp E RF) : Option (Fp AE AF) :=
  (mulV1 AE AF p0.1 p0.2).bind fun a0 => (mulV1 AE AF p1.1 p1.2).bind fun a1 => AddDual.addSame a0 a1

/-- `dot_product_par4` with the full traits. dot_product/dot_product_par4_tl.hpp:8-23. -/
def fullPar4 (AE AF : ℕ) {E LF RF : ℕ} (p0 p1 p2 p3 : Fp E LF × Fp E RF) : Option (Fp AE AF) :=
  (fullDot2 AE AF p0 p1).bind fun a => (fullDot2 AE AF p2 p3).bind fun b => AddDual.addSame a b

/-- `flopoco_round_dot_traits::add_mul`: the product has `max(TLF,TRF)` fraction bits and is promoted to the accumulator
format by the adder. The result format of `add_single` is the larger of its operands' formats; a static assertion
requires it to be the accumulator's, so `max(TLF,TRF) <= TAF`. dot_product/sweep_types.hpp:142-145,
mat_mul/sweep_types.hpp:98-101; add_single's promotion fp_flopoco_add_single_v1.hpp:174-184. -/
def roundAddMul {AE AF E LF RF : ℕ} (a : Fp AE AF) (x : Fp E LF) (y : Fp E RF) : Option (Fp AE AF) :=
  (mulV1 AE (max LF RF) x y).bind fun p => AddSingle.addSame a (promote AE AF p)

/-- `flopoco_round_dot_traits::dot2`. dot_product/sweep_types.hpp:147-162. -/
def roundDot2 (AE AF : ℕ) {LE LF RE RF : ℕ} (p0 p1 : Fp LE LF × Fp RE RF) : Option (Fp AE AF) :=
  (mulV1 AE (max LF RF) (promote AE LF p0.1) (promote AE RF p0.2)).bind fun a0 =>
    (mulV1 AE (max LF RF) (promote AE LF p1.1) (promote AE RF p1.2)).bind fun a1 =>
      AddSingle.addSame (promote AE AF a0) (promote AE AF a1)

/-- `dot_product_par4` with the round traits. dot_product/dot_product_par4_tl.hpp:8-23,
dot_product/sweep_types.hpp:136-140. -/
def roundPar4 (AE AF : ℕ) {LE LF RE RF : ℕ} (p0 p1 p2 p3 : Fp LE LF × Fp RE RF) : Option (Fp AE AF) :=
  (roundDot2 AE AF p0 p1).bind fun a => (roundDot2 AE AF p2 p3).bind fun b => AddSingle.addSame a b

/-- One entry of `mat_mul`: `res = add_mul(res, left[r][i], right[i][c])` for `i` in order, from a default
`res`. The code fixes `N` to 16; the model takes any. mat_mul/mat_mul_16x16.hpp:14-22. -/
def matMulEntry {AE AF E LF RF n : ℕ} (addMul : Fp AE AF → Fp E LF → Fp E RF → Option (Fp AE AF))
    (left : Fin n → Fin n → Fp E LF) (right : Fin n → Fin n → Fp E RF) (r c : Fin n) : Option (Fp AE AF) :=
  (List.finRange n).foldlM (fun res i => addMul res (left r i) (right i c)) (Fp.default AE AF)

end Thls
