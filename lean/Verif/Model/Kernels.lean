import Verif.Model.Heap
import Verif.Model.Masked
import Verif.Model.Loops

/-! # The adder and array kernels of src/fp_ops/mp

The code fixes the width of the adder kernels to 32 or 64 bits; the model takes any width of at least one bit (`n + 1`). -/

namespace Thls

/-! ## Multi-operand adders (src/fp_ops/mp/compressor) -/

namespace Kernel

/-- `add32x4_compressor`. add32x4_compressor.cpp:5-30. -/
def add4Compressor (n x0 x1 x2 x3 : ℕ) : Option ℕ := do
  let x01 ← Heap.merge (Heap.ofUint n x0) (Heap.ofUint n x1)
  let x23 ← Heap.merge (Heap.ofUint n x2) (Heap.ofUint n x3)
  let x0123 ← Heap.merge x01 x23
  Heap.collapse (Heap.compress x0123)

/-- `add32x8_compressor`, `add64x8_compressor`. add32x8_compressor.cpp:5-46, add64x8_compressor.cpp:5-34. -/
def add8Compressor (n x0 x1 x2 x3 x4 x5 x6 x7 : ℕ) : Option ℕ := do
  let x01 ← Heap.merge (Heap.ofUint n x0) (Heap.ofUint n x1)
  let x23 ← Heap.merge (Heap.ofUint n x2) (Heap.ofUint n x3)
  let x45 ← Heap.merge (Heap.ofUint n x4) (Heap.ofUint n x5)
  let x67 ← Heap.merge (Heap.ofUint n x6) (Heap.ofUint n x7)
  let x0123 ← Heap.merge x01 x23
  let x4567 ← Heap.merge x45 x67
  let all ← Heap.merge x0123 x4567
  Heap.collapse (Heap.compress all)

/-- `add32x4_row_heap`. add32x4_row_heap.cpp:5-25. -/
def add4RowHeap (n x0 x1 x2 x3 : ℕ) : Option ℕ := do
  let all := Rows.add (Rows.add (Rows.add (Rows.ofUint x0) (Rows.ofUint x1)) (Rows.ofUint x2)) (Rows.ofUint x3)
  Rows.collapse (n + 1) (← Rows.compress (n + 1) all)

/-- `add32x8_row_heap`. add32x8_row_heap.cpp:5-37. -/
def add8RowHeap (n x0 x1 x2 x3 x4 x5 x6 x7 : ℕ) : Option ℕ := do
  let all := Rows.add (Rows.add (Rows.add (Rows.add (Rows.add (Rows.add (Rows.add (Rows.ofUint x0) (Rows.ofUint x1)) (Rows.ofUint x2))
    (Rows.ofUint x3)) (Rows.ofUint x4)) (Rows.ofUint x5)) (Rows.ofUint x6)) (Rows.ofUint x7)
  Rows.collapse (n + 1) (← Rows.compress (n + 1) all)

/-- `add32x8`, `add64x8`: seven operators of the integer class. add32x8.cpp:5-19, add64x8.cpp:5-19. -/
def add8 (n x0 x1 x2 x3 x4 x5 x6 x7 : ℕ) : Option ℕ := do
  let s ← Masked.add (n + 1) x0 x1
  let s ← Masked.add (n + 1) s x2
  let s ← Masked.add (n + 1) s x3
  let s ← Masked.add (n + 1) s x4
  let s ← Masked.add (n + 1) s x5
  let s ← Masked.add (n + 1) s x6
  Masked.add (n + 1) s x7

/-! ## Array kernels (src/fp_ops/mp/fp/composite)

They are templates over the number type `T`: the model takes the two operators, which may fail an assertion, and the value
`init` of a default-constructed `T` (an indeterminate value for the built-in types) or of `T(0)`. Arrays are functions of the
index. `fp_sum_array_u2` and `fp_sum_vec4_left` are not valid C++. -/

variable {T : Type} (add mul : T → T → Option T) (init : T)

/-- `fp_sum_array`. fp_sum_array.cpp:1-13. -/
def sumArray (x : ℕ → T) : ℕ → Option T
  | 0 => some init
  | n + 1 => do add (← sumArray x n) (x n)

/-- `fp_dot_product`. fp_dot_product.cpp:1-14. -/
def dotProduct (a b : ℕ → T) : ℕ → Option T
  | 0 => some init
  | n + 1 => do add (← dotProduct a b n) (← mul (a n) (b n))

/-- `fp_dot_product_u2` for `n = 2 m` (it asserts that `n` is even). fp_dot_product_u2.cpp:1-17. -/
def dotProductU2 (a b : ℕ → T) : ℕ → Option T
  | 0 => some init
  | m + 1 => do
    let acc ← dotProductU2 a b m
    add (← add acc (← mul (a (2 * m)) (b (2 * m)))) (← mul (a (2 * m + 1)) (b (2 * m + 1)))

/-- The inner loop of `mmm`: entry `(r, c)`. The second factor is read at `r*i+c`. fp_mmm.cpp:9-17. -/
def mmmEntry (n : ℕ) (a b : ℕ → T) (r c : ℕ) : Option T :=
  dotProduct add mul init (fun i => a (r * n + i)) (fun i => b (r * i + c)) n

/-- The inner loop of the unrolled `mmm` for `n = 2 m`. fp_mmm_u2.cpp:11-19. -/
def mmmU2Loop (n : ℕ) (a b : ℕ → T) (r c : ℕ) : ℕ → Option T
  | 0 => some init
  | m + 1 => do
    let acc ← mmmU2Loop n a b r c m
    let p ← mul (a (r * n + 2 * m)) (b (r * (2 * m) + c))
    let q ← mul (a (r * n + 2 * m + 1)) (b (r * (2 * m + 1) + c))
    add acc (← add p q)

/-- Entry `(r, c)` of the unrolled `mmm`; `none` for an odd `n` (assertion). fp_mmm_u2.cpp:9-19. -/
def mmmU2Entry (n : ℕ) (a b : ℕ → T) (r c : ℕ) : Option T :=
  if n % 2 = 0 then mmmU2Loop add mul init n a b r c (n / 2) else none

/-- `fp_sum_vec4_balanced`. fp_sum_vec4_balanced.cpp:1-10. -/
def sumVec4 (a b c d : T) : Option T := do add (← add a b) (← add c d)

end Kernel

end Thls
