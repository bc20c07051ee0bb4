import Verif.Model.SoftFloat
import Verif.Model.Kernels

/-! # Loops and benchmark kernels over the software floating-point types -/

namespace Thls

/-- `fp_softfloat32()`, `float32_t{0}`: the word zero. fp_softfloat.hpp:27-29. -/
def softDefault : ℕ := 0

/-- `thls::add`, which is `f32_add`. fp_softfloat.hpp:230-233. -/
def softAdd32 (fast x y : ℕ) : Option ℕ := f32Add fast x y
/-- `thls::mul`, which is `f32_mul`. fp_softfloat.hpp:225-228. -/
def softMul32 (fast x y : ℕ) : Option ℕ := f32Mul fast x y
/-- `thls::div`, which is `f32_div`. fp_softfloat.hpp:235-238. -/
def softDiv32 (fast x y : ℕ) : Option ℕ := f32Div fast x y

/-- `softfloat32_dot_traits::add_mul`. dot_product/sweep_types.hpp:176-179, mat_mul/sweep_types.hpp:132-135. -/
def softAddMul (fast a x y : ℕ) : Option ℕ := (softMul32 fast x y).bind (softAdd32 fast a)

/-- `softfloat32_dot_traits::dot2`. dot_product/sweep_types.hpp:181-184. -/
def softDot2 (fast : ℕ) (p0 p1 : ℕ × ℕ) : Option ℕ :=
  (softMul32 fast p0.1 p0.2).bind fun a0 => (softMul32 fast p1.1 p1.2).bind fun a1 => softAdd32 fast a0 a1

/-- `dot_product_par4` with `softfloat32_dot_traits`. dot_product/dot_product_par4_tl.hpp:8-23,
dot_product/dot_product_par4_tl_soft32_soft32_soft32_round.cpp:1-5. -/
def softPar4 (fast : ℕ) (p0 p1 p2 p3 : ℕ × ℕ) : Option ℕ :=
  (softDot2 fast p0 p1).bind fun a => (softDot2 fast p2 p3).bind fun b => softAdd32 fast a b

/-- One entry of `mat_mul` with `softfloat32_dot_traits`: `res = add_mul(res, left[r][i], right[i][c])`. The code fixes `N` to 16; the
model takes any. mat_mul/mat_mul_16x16.hpp:14-22. -/
def softMatMulEntry {n : ℕ} (fast : ℕ) (left right : Fin n → Fin n → ℕ) (r c : Fin n) : Option ℕ :=
  (List.finRange n).foldlM (fun res i => softAddMul fast res (left r i) (right i c)) softDefault

end Thls
