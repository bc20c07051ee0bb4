import Verif.Proofs.SoftExact

/-! # Properties C61 to C66: the software floating-point operators (policy_softfloat.hpp)

A `float32_t` is a word below `2^32`, a `float64_t` a word below `2^64`; `Spec.wordDatum 8 23` and `Spec.wordDatum 11 52` give the
IEEE 754 datum of such a word. `fast` is the width of `uint_fast32_t`, `uint_fast64_t`, which the C standard leaves to the platform:
the theorems hold for every admissible one. The result `none` of the model stands for undefined behaviour or a failed assertion. -/

namespace Thls
open Spec SoftFmt

/-- One, in single and in double precision. -/
theorem one_datum32 : wordDatum 8 23 0x3F800000 = .num 1 := by norm_num [wordDatum, ieeeDenote, bias]
theorem one_datum64 : wordDatum 11 52 0x3FF0000000000000 = .num 1 := by norm_num [wordDatum, ieeeDenote, bias]

/-- **C61.** `float32_t + float32_t` is the IEEE 754 operation, round to nearest even with gradual underflow, for all operands; it never runs
into undefined behaviour. -/
theorem C61_soft_add32 {fast a b : ℕ} (hfast : 32 ≤ fast) (ha : a < 2 ^ 32) (hb : b < 2 ^ 32) :
    ∃ z, f32Add fast a b = some z ∧ z < 2 ^ 32 ∧ IeeeSum 8 23 (wordDatum 8 23 a) (wordDatum 8 23 b) (wordDatum 8 23 z) := by
  have ok := soft32_ok hfast
  exact add_ieee ok ha hb

/-- **C61.** The datum determines the word: every word that is the IEEE 754 result and not a NaN is the word returned. -/
theorem C61_soft_add32_unique {fast a b r : ℕ} (hfast : 32 ≤ fast) (ha : a < 2 ^ 32) (hb : b < 2 ^ 32) (hr : r < 2 ^ 32)
    (hn : wordDatum 8 23 r ≠ .nan) (h : IeeeSum 8 23 (wordDatum 8 23 a) (wordDatum 8 23 b) (wordDatum 8 23 r)) : f32Add fast a b = some r := by
  have ok := soft32_ok hfast
  exact add_eq_of ok ha hb hr hn h

/-- **C62.** `float32_t * float32_t` is the IEEE 754 operation, round to nearest even with gradual underflow, for all operands; it never runs
into undefined behaviour. -/
theorem C62_soft_mul32 {fast a b : ℕ} (hfast : 32 ≤ fast) (ha : a < 2 ^ 32) (hb : b < 2 ^ 32) :
    ∃ z, f32Mul fast a b = some z ∧ z < 2 ^ 32 ∧ IeeeProduct 8 23 (wordDatum 8 23 a) (wordDatum 8 23 b) (wordDatum 8 23 z) := by
  have ok := soft32_ok hfast
  exact mul_ieee ok (prodOk32 fast) ha hb

/-- **C62.** The datum determines the word: every word that is the IEEE 754 result and not a NaN is the word returned. -/
theorem C62_soft_mul32_unique {fast a b r : ℕ} (hfast : 32 ≤ fast) (ha : a < 2 ^ 32) (hb : b < 2 ^ 32) (hr : r < 2 ^ 32)
    (hn : wordDatum 8 23 r ≠ .nan) (h : IeeeProduct 8 23 (wordDatum 8 23 a) (wordDatum 8 23 b) (wordDatum 8 23 r)) : f32Mul fast a b = some r := by
  have ok := soft32_ok hfast
  exact mul_eq_of ok (prodOk32 fast) ha hb hr hn h

/-- **C63.** `float32_t / float32_t` is the IEEE 754 operation, round to nearest even with gradual underflow, for all operands; it never runs
into undefined behaviour. -/
theorem C63_soft_div32 {fast a b : ℕ} (hfast : 32 ≤ fast) (ha : a < 2 ^ 32) (hb : b < 2 ^ 32) :
    ∃ z, f32Div fast a b = some z ∧ z < 2 ^ 32 ∧ IeeeQuotient 8 23 (wordDatum 8 23 a) (wordDatum 8 23 b) (wordDatum 8 23 z) := by
  have ok := soft32_ok hfast
  exact div_ieee ok (quotOk32 fast) ha hb

/-- **C63.** The datum determines the word: every word that is the IEEE 754 result and not a NaN is the word returned. -/
theorem C63_soft_div32_unique {fast a b r : ℕ} (hfast : 32 ≤ fast) (ha : a < 2 ^ 32) (hb : b < 2 ^ 32) (hr : r < 2 ^ 32)
    (hn : wordDatum 8 23 r ≠ .nan) (h : IeeeQuotient 8 23 (wordDatum 8 23 a) (wordDatum 8 23 b) (wordDatum 8 23 r)) : f32Div fast a b = some r := by
  have ok := soft32_ok hfast
  exact div_eq_of ok (quotOk32 fast) ha hb hr hn h

/-- **C61.** `float64_t + float64_t` is the IEEE 754 operation, round to nearest even with gradual underflow, for all operands; it never runs
into undefined behaviour. -/
theorem C61_soft_add64 {fast a b : ℕ} (hfast : 64 ≤ fast) (ha : a < 2 ^ 64) (hb : b < 2 ^ 64) :
    ∃ z, f64Add fast a b = some z ∧ z < 2 ^ 64 ∧ IeeeSum 11 52 (wordDatum 11 52 a) (wordDatum 11 52 b) (wordDatum 11 52 z) := by
  have ok := soft64_ok hfast
  exact add_ieee ok ha hb

/-- **C61.** The datum determines the word: every word that is the IEEE 754 result and not a NaN is the word returned. -/
theorem C61_soft_add64_unique {fast a b r : ℕ} (hfast : 64 ≤ fast) (ha : a < 2 ^ 64) (hb : b < 2 ^ 64) (hr : r < 2 ^ 64)
    (hn : wordDatum 11 52 r ≠ .nan) (h : IeeeSum 11 52 (wordDatum 11 52 a) (wordDatum 11 52 b) (wordDatum 11 52 r)) : f64Add fast a b = some r := by
  have ok := soft64_ok hfast
  exact add_eq_of ok ha hb hr hn h

/-- **C62.** `float64_t * float64_t` is the IEEE 754 operation, round to nearest even with gradual underflow, for all operands; it never runs
into undefined behaviour. -/
theorem C62_soft_mul64 {fast a b : ℕ} (hfast : 64 ≤ fast) (ha : a < 2 ^ 64) (hb : b < 2 ^ 64) :
    ∃ z, f64Mul fast a b = some z ∧ z < 2 ^ 64 ∧ IeeeProduct 11 52 (wordDatum 11 52 a) (wordDatum 11 52 b) (wordDatum 11 52 z) := by
  have ok := soft64_ok hfast
  exact mul_ieee ok (prodOk64 fast) ha hb

/-- **C62.** The datum determines the word: every word that is the IEEE 754 result and not a NaN is the word returned. -/
theorem C62_soft_mul64_unique {fast a b r : ℕ} (hfast : 64 ≤ fast) (ha : a < 2 ^ 64) (hb : b < 2 ^ 64) (hr : r < 2 ^ 64)
    (hn : wordDatum 11 52 r ≠ .nan) (h : IeeeProduct 11 52 (wordDatum 11 52 a) (wordDatum 11 52 b) (wordDatum 11 52 r)) : f64Mul fast a b = some r := by
  have ok := soft64_ok hfast
  exact mul_eq_of ok (prodOk64 fast) ha hb hr hn h

/-- **C63.** `float64_t / float64_t` is the IEEE 754 operation, round to nearest even with gradual underflow, for all operands; it never runs
into undefined behaviour. -/
theorem C63_soft_div64 {fast a b : ℕ} (hfast : 64 ≤ fast) (ha : a < 2 ^ 64) (hb : b < 2 ^ 64) :
    ∃ z, f64Div fast a b = some z ∧ z < 2 ^ 64 ∧ IeeeQuotient 11 52 (wordDatum 11 52 a) (wordDatum 11 52 b) (wordDatum 11 52 z) := by
  have ok := soft64_ok hfast
  exact div_ieee ok (quotOk64 fast) ha hb

/-- **C63.** The datum determines the word: every word that is the IEEE 754 result and not a NaN is the word returned. -/
theorem C63_soft_div64_unique {fast a b r : ℕ} (hfast : 64 ≤ fast) (ha : a < 2 ^ 64) (hb : b < 2 ^ 64) (hr : r < 2 ^ 64)
    (hn : wordDatum 11 52 r ≠ .nan) (h : IeeeQuotient 11 52 (wordDatum 11 52 a) (wordDatum 11 52 b) (wordDatum 11 52 r)) : f64Div fast a b = some r := by
  have ok := soft64_ok hfast
  exact div_eq_of ok (quotOk64 fast) ha hb hr hn h

/-- Ordinary, rounded, denormal, overflowing, cancelling and invalid sums. -/
example : f32Add 64 0x3F800000 0x33800001 = some 0x3F800001 ∧ f32Add 64 0x3F800000 0x33800000 = some 0x3F800000 ∧
    f32Add 32 0x00800000 0x80000001 = some 0x007FFFFF ∧ f32Add 64 0x7F7FFFFF 0x73000000 = some 0x7F800000 ∧
    f32Add 64 0x3F800001 0xBF800000 = some 0x34000000 ∧ f32Add 64 0x7F800000 0xFF800000 = some 0xFFC00000 ∧
    f64Add 64 0x3FF0000000000000 0x3CA0000000000001 = some 0x3FF0000000000001 := by
  refine ⟨?_, ?_, ?_, ?_, ?_, ?_, ?_⟩ <;> decide +kernel

/-- Ordinary, rounded, denormal, overflowing and invalid products. -/
example : f32Mul 64 0x3FC00000 0x3FC00000 = some 0x40100000 ∧ f32Mul 64 0x3F800001 0x3F800001 = some 0x3F800002 ∧
    f32Mul 32 0x00800001 0x3F000000 = some 0x00400000 ∧ f32Mul 64 0x00000001 0x3F000000 = some 0x00000000 ∧
    f32Mul 64 0x00000003 0x3F000000 = some 0x00000002 ∧
    f32Mul 64 0x7F000000 0xC0000000 = some 0xFF800000 ∧ f32Mul 64 0x7F800000 0x80000000 = some 0xFFC00000 ∧
    f64Mul 64 0x3FF0000000000001 0x3FF0000000000001 = some 0x3FF0000000000002 := by
  refine ⟨?_, ?_, ?_, ?_, ?_, ?_, ?_, ?_⟩ <;> decide +kernel

/-- Ordinary, exact, denormal, overflowing and invalid quotients. -/
example : f32Div 64 0x3F800000 0x40400000 = some 0x3EAAAAAB ∧ f32Div 32 0x40C00000 0x40400000 = some 0x40000000 ∧
    f32Div 64 0x00800000 0x40400000 = some 0x002AAAAB ∧ f32Div 64 0x7F000000 0x3E800000 = some 0x7F800000 ∧
    f32Div 64 0x80000000 0x00000000 = some 0xFFC00000 ∧ f32Div 64 0xBF800000 0x00000000 = some 0xFF800000 ∧
    f64Div 64 0x3FF0000000000000 0x4008000000000000 = some 0x3FD5555555555555 := by
  refine ⟨?_, ?_, ?_, ?_, ?_, ?_, ?_⟩ <;> decide +kernel

/-! ## Comparisons -/

/-- **C64.** The six comparisons of `float32_t` are those of the extended reals: signed zeros are equal and every comparison with a NaN
but `!=` is false. -/
theorem C64_soft_compare32 {a b : ℕ} (ha : a < 2 ^ 32) (hb : b < 2 ^ 32) :
    (f32Eq a b = true ↔ (wordDatum 8 23 a).RealEq (wordDatum 8 23 b)) ∧ (f32Ne a b = true ↔ ¬ (wordDatum 8 23 a).RealEq (wordDatum 8 23 b)) ∧
    (f32Lt a b = true ↔ (wordDatum 8 23 a).Lt (wordDatum 8 23 b)) ∧ (f32Gt a b = true ↔ (wordDatum 8 23 b).Lt (wordDatum 8 23 a)) ∧
    (f32Le a b = true ↔ (wordDatum 8 23 a).Le (wordDatum 8 23 b)) ∧ (f32Ge a b = true ↔ (wordDatum 8 23 b).Le (wordDatum 8 23 a)) := by
  have ok := soft32_ok (le_refl 32)
  have e : f32Eq a b = true ↔ (wordDatum 8 23 a).RealEq (wordDatum 8 23 b) := eq_spec ok ha hb
  refine ⟨e, ?_, lt_spec ok ha hb, lt_spec ok hb ha, le_spec ok ha hb, le_spec ok hb ha⟩
  rw [← e]
  unfold f32Ne
  simp

/-- **C64.** The six comparisons of `float64_t` are those of the extended reals: signed zeros are equal and every comparison with a NaN
but `!=` is false. -/
theorem C64_soft_compare64 {a b : ℕ} (ha : a < 2 ^ 64) (hb : b < 2 ^ 64) :
    (f64Eq a b = true ↔ (wordDatum 11 52 a).RealEq (wordDatum 11 52 b)) ∧ (f64Ne a b = true ↔ ¬ (wordDatum 11 52 a).RealEq (wordDatum 11 52 b)) ∧
    (f64Lt a b = true ↔ (wordDatum 11 52 a).Lt (wordDatum 11 52 b)) ∧ (f64Gt a b = true ↔ (wordDatum 11 52 b).Lt (wordDatum 11 52 a)) ∧
    (f64Le a b = true ↔ (wordDatum 11 52 a).Le (wordDatum 11 52 b)) ∧ (f64Ge a b = true ↔ (wordDatum 11 52 b).Le (wordDatum 11 52 a)) := by
  have ok := soft64_ok (le_refl 64)
  have e : f64Eq a b = true ↔ (wordDatum 11 52 a).RealEq (wordDatum 11 52 b) := eq_spec ok ha hb
  refine ⟨e, ?_, lt_spec ok ha hb, lt_spec ok hb ha, le_spec ok ha hb, le_spec ok hb ha⟩
  rw [← e]
  unfold f64Ne
  simp

example : f32Lt 0xBF800000 0x80000000 = true ∧ f32Eq 0x80000000 0 = true ∧ f32Le 0x7F800000 0x7F7FFFFF = false ∧
    f32Ne 0x7FC00000 0x7FC00000 = true ∧ f32Ge 0x00000001 0x80000001 = true ∧ f64Gt 1 0 = true := by decide +kernel

/-! ## Algebra -/

/-- **C65.** Addition and multiplication of `float32_t` are commutative bit for bit, NaN payloads included. -/
theorem C65_soft_comm32 {fast a b : ℕ} (hfast : 32 ≤ fast) (ha : a < 2 ^ 32) (hb : b < 2 ^ 32) :
    f32Add fast a b = f32Add fast b a ∧ f32Mul fast a b = f32Mul fast b a :=
  ⟨SoftFmt.add_comm (soft32_ok hfast) ha hb, SoftFmt.mul_comm (soft32_ok hfast) (prodOk32 fast) a b⟩

/-- **C65.** Addition is monotone as long as the sums are not NaN. -/
theorem C65_soft_add_monotone32 {fast a b c r s : ℕ} (hfast : 32 ≤ fast) (ha : a < 2 ^ 32) (hb : b < 2 ^ 32) (hc : c < 2 ^ 32)
    (hab : (wordDatum 8 23 a).Le (wordDatum 8 23 b)) (hr : f32Add fast a c = some r) (hs : f32Add fast b c = some s)
    (hrn : wordDatum 8 23 r ≠ .nan) (hsn : wordDatum 8 23 s ≠ .nan) : (wordDatum 8 23 r).Le (wordDatum 8 23 s) := by
  have ok := soft32_ok hfast
  obtain ⟨z, h1, -, h2⟩ := C61_soft_add32 hfast ha hc
  obtain ⟨w, h3, -, h4⟩ := C61_soft_add32 hfast hb hc
  rw [hr] at h1; rw [hs] at h3
  rw [← Option.some.inj h1] at h2; rw [← Option.some.inj h3] at h4
  exact sum_mono ok ha hb hc hab h2 h4 hrn hsn

/-- **C65.** Multiplication by a positive operand is monotone as long as the products are not NaN. -/
theorem C65_soft_mul_monotone32 {fast a b c r s : ℕ} (hfast : 32 ≤ fast) (ha : a < 2 ^ 32) (hb : b < 2 ^ 32) (hc : c < 2 ^ 32)
    (hab : (wordDatum 8 23 a).Le (wordDatum 8 23 b)) (hpos : (Datum.zero false).Lt (wordDatum 8 23 c)) (hr : f32Mul fast a c = some r)
    (hs : f32Mul fast b c = some s) (hrn : wordDatum 8 23 r ≠ .nan) (hsn : wordDatum 8 23 s ≠ .nan) : (wordDatum 8 23 r).Le (wordDatum 8 23 s) := by
  have ok := soft32_ok hfast
  obtain ⟨z, h1, -, h2⟩ := C62_soft_mul32 hfast ha hc
  obtain ⟨w, h3, -, h4⟩ := C62_soft_mul32 hfast hb hc
  rw [hr] at h1; rw [hs] at h3
  rw [← Option.some.inj h1] at h2; rw [← Option.some.inj h3] at h4
  exact product_mono ok ha hb hc hab hpos h2 h4 hrn hsn

/-- **C65.** Division by a positive number is monotone in the numerator. -/
theorem C65_soft_div_monotone32 {fast a b c r s : ℕ} {w : ℚ} (hfast : 32 ≤ fast) (ha : a < 2 ^ 32) (hb : b < 2 ^ 32) (hc : c < 2 ^ 32)
    (hab : (wordDatum 8 23 a).Le (wordDatum 8 23 b)) (hcw : wordDatum 8 23 c = .num w) (hw : 0 < w) (hr : f32Div fast a c = some r)
    (hs : f32Div fast b c = some s) : (wordDatum 8 23 r).Le (wordDatum 8 23 s) := by
  have ok := soft32_ok hfast
  obtain ⟨z, h1, -, h2⟩ := C63_soft_div32 hfast ha hc
  obtain ⟨w', h3, -, h4⟩ := C63_soft_div32 hfast hb hc
  rw [hr] at h1; rw [hs] at h3
  rw [← Option.some.inj h1] at h2; rw [← Option.some.inj h3] at h4
  exact quotient_mono ok ha hb hab hcw hw h2 h4

/-- **C65.** Identities, bit for bit: `x * 1 = x`, `x / 1 = x` and `x + (-0) = x` for every `x` that is not a NaN. -/
theorem C65_soft_identities32 {fast a : ℕ} (hfast : 32 ≤ fast) (ha : a < 2 ^ 32) (hn : wordDatum 8 23 a ≠ .nan) :
    f32Mul fast a 0x3F800000 = some a ∧ f32Div fast a 0x3F800000 = some a ∧ f32Add fast a 0x80000000 = some a := by
  have ok := soft32_ok hfast
  refine ⟨mul_one_word ok (prodOk32 fast) ha ?_ one_datum32 hn, div_one_word ok (quotOk32 fast) ha ?_ one_datum32 hn,
    add_neg_zero_word ok ha ?_ ?_ hn⟩
  · norm_num [SoftFmt.W, soft32]
  · norm_num [SoftFmt.W, soft32]
  · norm_num [SoftFmt.W, soft32]
  · norm_num [wordDatum, ieeeDenote, soft32]

/-- **C65.** `x / x` is one and `x + (-x)` is `+0` for every number `x`, denormals included. -/
theorem C65_soft_inverses32 {fast a b : ℕ} {v : ℚ} (hfast : 32 ≤ fast) (ha : a < 2 ^ 32) (hb : b < 2 ^ 32) (hv : wordDatum 8 23 a = .num v)
    (hbv : wordDatum 8 23 b = .num (-v)) : f32Div fast a a = some 0x3F800000 ∧ f32Add fast a b = some 0 := by
  have ok := soft32_ok hfast
  refine ⟨div_self_word ok (quotOk32 fast) ha ?_ one_datum32 hv, add_neg_word ok ha hb ?_ ?_ hv hbv⟩
  · norm_num [SoftFmt.W, soft32]
  · norm_num [SoftFmt.W, soft32]
  · norm_num [wordDatum, ieeeDenote, soft32]

/-- **C65.** The difference of two numbers within a factor of two of each other is exact, even among the denormals. -/
theorem C65_soft_difference_exact32 {fast a b r : ℕ} {p q : ℚ} (hfast : 32 ≤ fast) (ha : a < 2 ^ 32) (hb : b < 2 ^ 32)
    (hp : wordDatum 8 23 a = .num p) (hq : wordDatum 8 23 b = .num q) (hsgn : p * q < 0) (h1 : |p| ≤ 2 * |q|) (h2 : |q| ≤ 2 * |p|)
    (hr : f32Add fast a b = some r) : wordDatum 8 23 r = if p + q = 0 then .zero false else .num (p + q) := by
  have ok := soft32_ok hfast
  obtain ⟨z, g1, -, g2⟩ := C61_soft_add32 hfast ha hb
  rw [hr] at g1
  rw [← Option.some.inj g1] at g2
  exact sterbenz ok ha hb hp hq hsgn h1 h2 g2

/-- **C65.** A sum below twice the least normal number is exact: addition does not lose bits by underflow. -/
theorem C65_soft_tiny_sum_exact32 {fast a b r : ℕ} {p q : ℚ} (hfast : 32 ≤ fast) (ha : a < 2 ^ 32) (hb : b < 2 ^ 32)
    (hp : wordDatum 8 23 a = .num p) (hq : wordDatum 8 23 b = .num q) (hs : |p + q| < 2 * 2 ^ (1 - bias 8))
    (hr : f32Add fast a b = some r) : wordDatum 8 23 r = if p + q = 0 then .zero false else .num (p + q) := by
  have ok := soft32_ok hfast
  obtain ⟨z, g1, -, g2⟩ := C61_soft_add32 hfast ha hb
  rw [hr] at g1
  rw [← Option.some.inj g1] at g2
  exact sum_tiny_exact ok ha hb hp hq hs g2

/-- **C65.** Addition and multiplication of `float64_t` are commutative bit for bit, NaN payloads included. -/
theorem C65_soft_comm64 {fast a b : ℕ} (hfast : 64 ≤ fast) (ha : a < 2 ^ 64) (hb : b < 2 ^ 64) :
    f64Add fast a b = f64Add fast b a ∧ f64Mul fast a b = f64Mul fast b a :=
  ⟨SoftFmt.add_comm (soft64_ok hfast) ha hb, SoftFmt.mul_comm (soft64_ok hfast) (prodOk64 fast) a b⟩

/-- **C65.** Addition is monotone as long as the sums are not NaN. -/
theorem C65_soft_add_monotone64 {fast a b c r s : ℕ} (hfast : 64 ≤ fast) (ha : a < 2 ^ 64) (hb : b < 2 ^ 64) (hc : c < 2 ^ 64)
    (hab : (wordDatum 11 52 a).Le (wordDatum 11 52 b)) (hr : f64Add fast a c = some r) (hs : f64Add fast b c = some s)
    (hrn : wordDatum 11 52 r ≠ .nan) (hsn : wordDatum 11 52 s ≠ .nan) : (wordDatum 11 52 r).Le (wordDatum 11 52 s) := by
  have ok := soft64_ok hfast
  obtain ⟨z, h1, -, h2⟩ := C61_soft_add64 hfast ha hc
  obtain ⟨w, h3, -, h4⟩ := C61_soft_add64 hfast hb hc
  rw [hr] at h1; rw [hs] at h3
  rw [← Option.some.inj h1] at h2; rw [← Option.some.inj h3] at h4
  exact sum_mono ok ha hb hc hab h2 h4 hrn hsn

/-- **C65.** Multiplication by a positive operand is monotone as long as the products are not NaN. -/
theorem C65_soft_mul_monotone64 {fast a b c r s : ℕ} (hfast : 64 ≤ fast) (ha : a < 2 ^ 64) (hb : b < 2 ^ 64) (hc : c < 2 ^ 64)
    (hab : (wordDatum 11 52 a).Le (wordDatum 11 52 b)) (hpos : (Datum.zero false).Lt (wordDatum 11 52 c)) (hr : f64Mul fast a c = some r)
    (hs : f64Mul fast b c = some s) (hrn : wordDatum 11 52 r ≠ .nan) (hsn : wordDatum 11 52 s ≠ .nan) : (wordDatum 11 52 r).Le (wordDatum 11 52 s) := by
  have ok := soft64_ok hfast
  obtain ⟨z, h1, -, h2⟩ := C62_soft_mul64 hfast ha hc
  obtain ⟨w, h3, -, h4⟩ := C62_soft_mul64 hfast hb hc
  rw [hr] at h1; rw [hs] at h3
  rw [← Option.some.inj h1] at h2; rw [← Option.some.inj h3] at h4
  exact product_mono ok ha hb hc hab hpos h2 h4 hrn hsn

/-- **C65.** Division by a positive number is monotone in the numerator. -/
theorem C65_soft_div_monotone64 {fast a b c r s : ℕ} {w : ℚ} (hfast : 64 ≤ fast) (ha : a < 2 ^ 64) (hb : b < 2 ^ 64) (hc : c < 2 ^ 64)
    (hab : (wordDatum 11 52 a).Le (wordDatum 11 52 b)) (hcw : wordDatum 11 52 c = .num w) (hw : 0 < w) (hr : f64Div fast a c = some r)
    (hs : f64Div fast b c = some s) : (wordDatum 11 52 r).Le (wordDatum 11 52 s) := by
  have ok := soft64_ok hfast
  obtain ⟨z, h1, -, h2⟩ := C63_soft_div64 hfast ha hc
  obtain ⟨w', h3, -, h4⟩ := C63_soft_div64 hfast hb hc
  rw [hr] at h1; rw [hs] at h3
  rw [← Option.some.inj h1] at h2; rw [← Option.some.inj h3] at h4
  exact quotient_mono ok ha hb hab hcw hw h2 h4

/-- **C65.** Identities, bit for bit: `x * 1 = x`, `x / 1 = x` and `x + (-0) = x` for every `x` that is not a NaN. -/
theorem C65_soft_identities64 {fast a : ℕ} (hfast : 64 ≤ fast) (ha : a < 2 ^ 64) (hn : wordDatum 11 52 a ≠ .nan) :
    f64Mul fast a 0x3FF0000000000000 = some a ∧ f64Div fast a 0x3FF0000000000000 = some a ∧ f64Add fast a 0x8000000000000000 = some a := by
  have ok := soft64_ok hfast
  refine ⟨mul_one_word ok (prodOk64 fast) ha ?_ one_datum64 hn, div_one_word ok (quotOk64 fast) ha ?_ one_datum64 hn,
    add_neg_zero_word ok ha ?_ ?_ hn⟩
  · norm_num [SoftFmt.W, soft64]
  · norm_num [SoftFmt.W, soft64]
  · norm_num [SoftFmt.W, soft64]
  · norm_num [wordDatum, ieeeDenote, soft64]

/-- **C65.** `x / x` is one and `x + (-x)` is `+0` for every number `x`, denormals included. -/
theorem C65_soft_inverses64 {fast a b : ℕ} {v : ℚ} (hfast : 64 ≤ fast) (ha : a < 2 ^ 64) (hb : b < 2 ^ 64) (hv : wordDatum 11 52 a = .num v)
    (hbv : wordDatum 11 52 b = .num (-v)) : f64Div fast a a = some 0x3FF0000000000000 ∧ f64Add fast a b = some 0 := by
  have ok := soft64_ok hfast
  refine ⟨div_self_word ok (quotOk64 fast) ha ?_ one_datum64 hv, add_neg_word ok ha hb ?_ ?_ hv hbv⟩
  · norm_num [SoftFmt.W, soft64]
  · norm_num [SoftFmt.W, soft64]
  · norm_num [wordDatum, ieeeDenote, soft64]

/-- **C65.** The difference of two numbers within a factor of two of each other is exact, even among the denormals. -/
theorem C65_soft_difference_exact64 {fast a b r : ℕ} {p q : ℚ} (hfast : 64 ≤ fast) (ha : a < 2 ^ 64) (hb : b < 2 ^ 64)
    (hp : wordDatum 11 52 a = .num p) (hq : wordDatum 11 52 b = .num q) (hsgn : p * q < 0) (h1 : |p| ≤ 2 * |q|) (h2 : |q| ≤ 2 * |p|)
    (hr : f64Add fast a b = some r) : wordDatum 11 52 r = if p + q = 0 then .zero false else .num (p + q) := by
  have ok := soft64_ok hfast
  obtain ⟨z, g1, -, g2⟩ := C61_soft_add64 hfast ha hb
  rw [hr] at g1
  rw [← Option.some.inj g1] at g2
  exact sterbenz ok ha hb hp hq hsgn h1 h2 g2

/-- **C65.** A sum below twice the least normal number is exact: addition does not lose bits by underflow. -/
theorem C65_soft_tiny_sum_exact64 {fast a b r : ℕ} {p q : ℚ} (hfast : 64 ≤ fast) (ha : a < 2 ^ 64) (hb : b < 2 ^ 64)
    (hp : wordDatum 11 52 a = .num p) (hq : wordDatum 11 52 b = .num q) (hs : |p + q| < 2 * 2 ^ (1 - bias 11))
    (hr : f64Add fast a b = some r) : wordDatum 11 52 r = if p + q = 0 then .zero false else .num (p + q) := by
  have ok := soft64_ok hfast
  obtain ⟨z, g1, -, g2⟩ := C61_soft_add64 hfast ha hb
  rw [hr] at g1
  rw [← Option.some.inj g1] at g2
  exact sum_tiny_exact ok ha hb hp hq hs g2

/-- The hypotheses of the statements on exact differences are met: `1.5 - 1` and the difference of two denormals. -/
example : wordDatum 8 23 0x3FC00000 = .num (3 / 2) ∧ wordDatum 8 23 0xBF800000 = .num (-1) ∧
    f32Add 64 0x3FC00000 0xBF800000 = some 0x3F000000 ∧ f32Add 64 0x00000005 0x80000003 = some 2 := by
  refine ⟨?_, ?_, by decide +kernel, by decide +kernel⟩ <;> norm_num [wordDatum, ieeeDenote, bias]

/-- The hypotheses of the monotonicity statements are met by operands with different results. -/
example : (wordDatum 8 23 0x3F800000).Le (wordDatum 8 23 0x3FC00000) ∧ (Datum.zero false).Lt (wordDatum 8 23 0x40400000) ∧
    f32Add 64 0x3F800000 0x40400000 = some 0x40800000 ∧ f32Add 64 0x3FC00000 0x40400000 = some 0x40900000 ∧
    f32Mul 64 0x3F800000 0x40400000 = some 0x40400000 ∧ f32Mul 64 0x3FC00000 0x40400000 = some 0x40900000 ∧
    f32Div 64 0x3F800000 0x40400000 = some 0x3EAAAAAB ∧ f32Div 64 0x3FC00000 0x40400000 = some 0x3F000000 := by
  refine ⟨Or.inl ?_, ?_, ?_, ?_, ?_, ?_, ?_, ?_⟩
  · norm_num [wordDatum, ieeeDenote, bias, Datum.Lt]
  · norm_num [wordDatum, ieeeDenote, bias, Datum.Lt]
  all_goals decide +kernel

/-! ## NaNs -/

/-- **C66.** A NaN produced by `float32_t` arithmetic is quiet: the top bit of its fraction is set. -/
theorem C66_soft_quiet32 {fast a b z : ℕ} (hfast : 32 ≤ fast) (ha : a < 2 ^ 32) (hb : b < 2 ^ 32)
    (h : f32Add fast a b = some z ∨ f32Mul fast a b = some z ∨ f32Div fast a b = some z) (hn : wordDatum 8 23 z = .nan) :
    z / 2 ^ 22 % 2 = 1 := by
  have ok := soft32_ok hfast
  have hq : (soft32 fast).Quiet z := by
    rcases h with h | h | h
    · exact add_quiet ok ha hb h hn
    · exact mul_quiet ok (prodOk32 fast) ha hb h hn
    · exact div_quiet ok (quotOk32 fast) ha hb h hn
  have h2 : 2 ^ 22 ≤ z % 2 ^ 23 := hq.2
  omega

/-- **C66.** With exactly one NaN operand, on either side, the result carries its fraction with the quiet bit set: the payload survives. -/
theorem C66_soft_payload32 {fast a b : ℕ} (hfast : 32 ≤ fast) (ha : a < 2 ^ 32) (hb : b < 2 ^ 32) (hn : wordDatum 8 23 a = .nan)
    (hn' : wordDatum 8 23 b ≠ .nan) :
    ∃ z, z % 2 ^ 23 = a % 2 ^ 23 ||| 2 ^ 22 ∧
      f32Add fast a b = some z ∧ f32Mul fast a b = some z ∧ f32Div fast a b = some z ∧
      f32Add fast b a = some z ∧ f32Mul fast b a = some z ∧ f32Div fast b a = some z := by
  have ok := soft32_ok hfast
  have na : (soft32 fast).isNaN a = true := by
    by_contra h
    exact datum_ne_nan ok ha h hn
  have nb : (soft32 fast).isNaN b = false := by
    by_contra h
    exact hn' (nan_datum ok hb (by simpa using h))
  refine ⟨(soft32 fast).propagateNaN a b, ?_, add_nan ok a b (Or.inl na), mul_nan _ a b (Or.inl na), div_nan ok _ a b (Or.inl na), ?_, ?_, ?_⟩
  · have h1 := propagateNaN_one ok na nb
    have h2 : (soft32 fast).frac (a ||| 2 ^ 22) = a % 2 ^ 23 ||| 2 ^ 22 := by
      show (a ||| 2 ^ 22) % 2 ^ 23 = _
      rw [Nat.or_mod_two_pow, Nat.mod_eq_of_lt (show 2 ^ 22 < 2 ^ 23 by norm_num)]
    exact h1.trans h2
  · rw [propagateNaN_comm]; exact add_nan ok b a (Or.inr na)
  · rw [propagateNaN_comm]; exact mul_nan _ b a (Or.inr na)
  · rw [propagateNaN_comm]; exact div_nan ok _ b a (Or.inr na)

/-- **C66.** A NaN produced by `float64_t` arithmetic is quiet: the top bit of its fraction is set. -/
theorem C66_soft_quiet64 {fast a b z : ℕ} (hfast : 64 ≤ fast) (ha : a < 2 ^ 64) (hb : b < 2 ^ 64)
    (h : f64Add fast a b = some z ∨ f64Mul fast a b = some z ∨ f64Div fast a b = some z) (hn : wordDatum 11 52 z = .nan) :
    z / 2 ^ 51 % 2 = 1 := by
  have ok := soft64_ok hfast
  have hq : (soft64 fast).Quiet z := by
    rcases h with h | h | h
    · exact add_quiet ok ha hb h hn
    · exact mul_quiet ok (prodOk64 fast) ha hb h hn
    · exact div_quiet ok (quotOk64 fast) ha hb h hn
  have h2 : 2 ^ 51 ≤ z % 2 ^ 52 := hq.2
  omega

/-- **C66.** With exactly one NaN operand, on either side, the result carries its fraction with the quiet bit set: the payload survives. -/
theorem C66_soft_payload64 {fast a b : ℕ} (hfast : 64 ≤ fast) (ha : a < 2 ^ 64) (hb : b < 2 ^ 64) (hn : wordDatum 11 52 a = .nan)
    (hn' : wordDatum 11 52 b ≠ .nan) :
    ∃ z, z % 2 ^ 52 = a % 2 ^ 52 ||| 2 ^ 51 ∧
      f64Add fast a b = some z ∧ f64Mul fast a b = some z ∧ f64Div fast a b = some z ∧
      f64Add fast b a = some z ∧ f64Mul fast b a = some z ∧ f64Div fast b a = some z := by
  have ok := soft64_ok hfast
  have na : (soft64 fast).isNaN a = true := by
    by_contra h
    exact datum_ne_nan ok ha h hn
  have nb : (soft64 fast).isNaN b = false := by
    by_contra h
    exact hn' (nan_datum ok hb (by simpa using h))
  refine ⟨(soft64 fast).propagateNaN a b, ?_, add_nan ok a b (Or.inl na), mul_nan _ a b (Or.inl na), div_nan ok _ a b (Or.inl na), ?_, ?_, ?_⟩
  · have h1 := propagateNaN_one ok na nb
    have h2 : (soft64 fast).frac (a ||| 2 ^ 51) = a % 2 ^ 52 ||| 2 ^ 51 := by
      show (a ||| 2 ^ 51) % 2 ^ 52 = _
      rw [Nat.or_mod_two_pow, Nat.mod_eq_of_lt (show 2 ^ 51 < 2 ^ 52 by norm_num)]
    exact h1.trans h2
  · rw [propagateNaN_comm]; exact add_nan ok b a (Or.inr na)
  · rw [propagateNaN_comm]; exact mul_nan _ b a (Or.inr na)
  · rw [propagateNaN_comm]; exact div_nan ok _ b a (Or.inr na)

/-- A signalling NaN with a payload, on either side of an operator. -/
example : wordDatum 8 23 0x7F800123 = .nan ∧ f32Add 64 0x7F800123 0x3F800000 = some 0x7FC00123 ∧
    f32Div 64 0xFF800000 0x7F800123 = some 0x7FC00123 := by
  refine ⟨?_, by decide +kernel, by decide +kernel⟩
  norm_num [wordDatum, ieeeDenote]

/-- The sign of the NaN does not always survive: a negative quiet NaN plus `+inf` is a positive one. -/
theorem C66_soft_nan_sign_lost : f32Add 64 0xFFC00000 0x7F800000 = some 0x7FC00000 := by decide +kernel

end Thls
