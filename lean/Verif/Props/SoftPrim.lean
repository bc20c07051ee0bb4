import Verif.Proofs.SoftPrim

/-! # C87: the replaced primitives and the division option do not change a result -/

namespace Thls
open Spec

/-- **C87.** The replacement of `softfloat_countLeadingZeros32` by a compiler builtin counts the leading zeros of every 32-bit word, zero
included, is what the addition and the normalisation rely on, and returns what the table-driven code of the library returns. -/
theorem C87_leading_zeros32 {a : ℕ} (fast : ℕ) (ha : a < 2 ^ 32) :
    ∃ c, inlineClz32 a = some c ∧ libClz32 a = some c ∧ (soft32 fast).clz a = c ∧ LeadingZeros 32 a c := by
  obtain ⟨c, h1, h2⟩ := libClz32_spec ha
  by_cases h0 : a = 0
  · subst h0
    have : c = 32 := by simpa [LeadingZeros] using h2
    subst this
    exact ⟨32, rfl, h1, rfl, h2⟩
  · obtain ⟨d, g1, g2⟩ := builtinClz_spec h0 ha
    obtain rfl := leadingZeros_unique h2 g2
    refine ⟨c, by rw [inlineClz32, if_neg h0, g1], h1, ?_, h2⟩
    unfold builtinClz at g1
    unfold SoftFmt.clz
    change (if a % 2 ^ 32 = 0 then 32 else 32 - 1 - Nat.log2 (a % 2 ^ 32)) = c
    rw [Nat.mod_eq_of_lt ha, if_neg h0] at g1 ⊢
    exact Option.some.inj g1

example : inlineClz32 0x00012345 = some 15 ∧ libClz32 0x00012345 = some 15 ∧ libClz32 0 = some 32 ∧ libClz32 0xFF = some 24 := by
  decide +kernel

/-- **C87.** The same for `softfloat_countLeadingZeros64` where `unsigned long` has 64 bits. -/
theorem C87_leading_zeros64 {a : ℕ} (fast : ℕ) (ha : a < 2 ^ 64) :
    ∃ c, inlineClz64 64 a = some c ∧ libClz64 a = some c ∧ (soft64 fast).clz a = c ∧ LeadingZeros 64 a c := by
  obtain ⟨c, h1, h2⟩ := libClz64_spec ha
  by_cases h0 : a = 0
  · subst h0
    have : c = 64 := by simpa [LeadingZeros] using h2
    subst this
    exact ⟨64, rfl, h1, rfl, h2⟩
  · obtain ⟨d, g1, g2⟩ := builtinClz_spec h0 ha
    obtain rfl := leadingZeros_unique h2 g2
    refine ⟨c, by rw [inlineClz64, if_neg h0, g1], h1, ?_, h2⟩
    unfold builtinClz at g1
    unfold SoftFmt.clz
    change (if a % 2 ^ 64 = 0 then 64 else 64 - 1 - Nat.log2 (a % 2 ^ 64)) = c
    rw [Nat.mod_eq_of_lt ha, if_neg h0] at g1 ⊢
    exact Option.some.inj g1

/-- **C87.** The 64-bit replacement calls `__builtin_clzl`, whose parameter is an `unsigned long`: it is right exactly where that type has
64 bits. -/
theorem C87_leading_zeros64_iff (ulong : ℕ) :
    (∀ a < 2 ^ 64, ∃ c, inlineClz64 ulong a = some c ∧ LeadingZeros 64 a c) ↔ ulong = 64 := by
  constructor
  · intro h
    by_contra hne
    rcases Nat.lt_or_ge ulong 64 with hl | hl
    · obtain ⟨c, h1, -⟩ := h (2 ^ ulong) (Nat.pow_lt_pow_right (by norm_num) hl)
      rw [inlineClz64, if_neg (Nat.two_pow_pos _).ne', builtinClz, Nat.mod_self, if_pos rfl] at h1
      cases h1
    · obtain ⟨c, h1, h2⟩ := h 1 (by norm_num)
      have e : 1 % 2 ^ ulong = 1 := Nat.mod_eq_of_lt (Nat.one_lt_two_pow (by omega))
      rw [inlineClz64, if_neg (by norm_num), builtinClz, e, if_neg (by norm_num)] at h1
      have hc := Option.some.inj h1
      rw [show Nat.log2 1 = 0 by decide +kernel] at hc
      rw [LeadingZeros, if_neg (by norm_num)] at h2
      omega
  · rintro rfl a ha
    obtain ⟨c, h1, -, -, h2⟩ := C87_leading_zeros64 64 ha
    exact ⟨c, h1, h2⟩

/-- Where `unsigned long` has 32 bits the result for `2^40` is undefined and the one for 5 is 32 too small. -/
example : inlineClz64 32 (2 ^ 40) = none ∧ inlineClz64 32 5 = some 29 ∧ inlineClz64 64 5 = some 61 ∧ libClz64 5 = some 61 := by
  decide +kernel

/-- **C87.** `softfloat_countLeadingZeros16` counts the leading zeros of every 16-bit word. -/
theorem C87_leading_zeros16 {a : ℕ} (ha : a < 2 ^ 16) : ∃ c, libClz16 a = some c ∧ LeadingZeros 16 a c := libClz16_spec ha

example : libClz16 0x0F00 = some 4 ∧ libClz16 0x0001 = some 15 := by decide +kernel

/-- **C87.** `softfloat_mul64To128M`, both the replacement and the library's version on 32-bit halves: the four words hold the exact
128-bit product, for all operands. -/
theorem C87_product_words {a b : ℕ} (ha : a < 2 ^ 64) (hb : b < 2 ^ 64) :
    fourWords (mul64To128M a b) = a * b ∧ libMul64To128M a b = mul64To128M a b ∧
      (mul64To128M a b).1 < 2 ^ 32 ∧ (mul64To128M a b).2.1 < 2 ^ 32 ∧ (mul64To128M a b).2.2.1 < 2 ^ 32 ∧
      (mul64To128M a b).2.2.2 < 2 ^ 32 := by
  obtain ⟨h1, h2⟩ := mul64To128M_value ha hb
  exact ⟨h1, libMul_eq ha hb, h2⟩

example : libMul64To128M (2 ^ 64 - 1) (2 ^ 64 - 1) = (1, 0, 2 ^ 32 - 2, 2 ^ 32 - 1) := by decide +kernel

/-- **C87.** The product of `f64_mul` with the multiplication of the library: the same word for all operands. -/
theorem C87_mul64_same (fast a b : ℕ) : libF64Mul fast a b = f64Mul fast a b := by
  unfold libF64Mul f64Mul
  rw [libProd64_eq]

/-- **C87.** The product of `f32_mul` that is shortened "to make multiplier smaller": the same word as with the original, for all
operands. -/
theorem C87_mul32_same {fast : ℕ} (hfast : 32 ≤ fast) (a b : ℕ) : libF32Mul fast a b = f32Mul fast a b :=
  SoftFmt.mul_congr (soft32_ok hfast) (fun m n _ m2 _ n2 => libProd32_eq m2 n2) a b

example : libF32Mul 64 0x3FC00001 0x40490FDB = f32Mul 64 0x3FC00001 0x40490FDB ∧ f32Mul 64 0x3FC00001 0x40490FDB = some 0x4096CBE5 := by
  decide +kernel

/-- **C87.** `SOFTFLOAT_FAST_DIV64TO32` does not change any quotient of `f32_div`, NaNs included. -/
theorem C87_div32_option {fast a b : ℕ} (hfast : 32 ≤ fast) (ha : a < 2 ^ 32) (hb : b < 2 ^ 32) : fastF32Div fast a b = f32Div fast a b :=
  SoftFmt.div_congr (soft32_ok hfast) (fastQuotOk32 fast) (quotOk32 fast) ha hb

/-- **C87.** `SOFTFLOAT_FAST_DIV64TO32` does not change any quotient of `f64_div`, NaNs included. -/
theorem C87_div64_option {fast a b : ℕ} (hfast : 64 ≤ fast) (ha : a < 2 ^ 64) (hb : b < 2 ^ 64) : fastF64Div fast a b = f64Div fast a b :=
  SoftFmt.div_congr (soft64_ok hfast) (fastQuotOk64 fast) (quotOk64 fast) ha hb

/-- The two reciprocals differ, the quotients do not. -/
example : approxRecip 0x80000000 ≠ fastRecip 0x80000000 ∧ fastF32Div 64 0x3F800000 0x40400000 = some 0x3EAAAAAB ∧
    f32Div 64 0x3F800000 0x40400000 = some 0x3EAAAAAB ∧ fastF64Div 64 0x3FF0000000000000 0x4008000000000000 = some 0x3FD5555555555555 := by
  decide +kernel

/-- **C87.** `softfloat_approxRecip32_1(a)` for a normalised `a`, that is `1 ≤ A < 2`: the result is below the true reciprocal, by less
than 2.008 units of the last place; with `SOFTFLOAT_FAST_DIV64TO32` by at most one. -/
theorem C87_reciprocal {a : ℕ} (h1 : 2 ^ 31 ≤ a) (h2 : a < 2 ^ 32) :
    (approxRecip a : ℚ) < 2 ^ 63 / a ∧ 2 ^ 63 / (a : ℚ) - approxRecip a < 2008 / 1000 ∧
      (fastRecip a : ℚ) < 2 ^ 63 / a ∧ 2 ^ 63 / (a : ℚ) - fastRecip a ≤ 1 := by
  obtain ⟨g1, g2⟩ := approxRecip_spec h1 h2
  obtain ⟨k1, k2⟩ := fastRecip_spec h1 h2
  have ha : (0 : ℚ) < a := by exact_mod_cast (show 0 < a by omega)
  have h1' : (2147483648 : ℚ) ≤ a := by exact_mod_cast h1
  have g1' : (approxRecip a : ℚ) * a < 2 ^ 63 := by exact_mod_cast g1
  have g2' : (2 : ℚ) ^ 63 ≤ approxRecip a * a + 2 * a + 2 ^ 24 + 2 ^ 16 := by exact_mod_cast g2
  have k1' : (fastRecip a : ℚ) * a < 2 ^ 63 := by exact_mod_cast k1
  have k2' : (2 : ℚ) ^ 63 ≤ fastRecip a * a + a := by exact_mod_cast k2
  refine ⟨by rwa [lt_div_iff₀ ha], ?_, by rwa [lt_div_iff₀ ha], ?_⟩
  · rw [sub_lt_iff_lt_add, div_lt_iff₀ ha]
    norm_num at g2' ⊢
    linarith
  · rw [sub_le_iff_le_add, div_le_iff₀ ha]
    norm_num at k2' ⊢
    linarith

example : approxRecip 0x80000000 = 0xFFFFFFFE ∧ fastRecip 0x80000000 = 0xFFFFFFFF := by decide +kernel

end Thls
