import Verif.Proofs.SoftDot

/-! # Property C72: accumulation with the software floating-point types

The array kernels (C70) and the benchmark traits, with the operators of `float32_t` and `float64_t`. `wordFin E F w` is the finite
value of the IEEE 754 word `w`, `uro F = 2^-(F+1)` the unit roundoff, `ieeeMax` the largest finite number, `ieeeMin` the least normal
number, `halfDenorm` half the least denormal. -/

namespace Thls
open Spec SoftFmt

/-- **C72.** Summation of any finite `float32_t` values, any number of them: it never runs into undefined behaviour; a finite result
differs from the exact sum by at most `((1+u)^(n-1) - 1) Σ|v_i|` (nothing is added for underflow, because sums do not underflow); and the
result is finite when `(1+u)^(n-1) Σ|v_i|` is at most the largest finite number. -/
theorem C72_soft_sum_error32 {fast : ℕ} (hfast : 32 ≤ fast) (x : ℕ → ℕ) (v : ℕ → ℚ) (n : ℕ)
    (hw : ∀ i < n, x i < 2 ^ 32) (hx : ∀ i < n, wordFin 8 23 (x i) = some (v i)) :
    ∃ r, Kernel.sumArray (f32Add fast) softDefault x n = some r ∧ r < 2 ^ 32 ∧
      (∀ s, wordFin 8 23 r = some s →
        |s - ∑ i ∈ Finset.range n, v i| ≤ ((1 + uro 23) ^ (n - 1) - 1) * ∑ i ∈ Finset.range n, |v i|) ∧
      ((1 + uro 23) ^ (n - 1) * ∑ i ∈ Finset.range n, |v i| ≤ ieeeMax 8 23 → ∃ s, wordFin 8 23 r = some s) :=
  soft_sum (soft32_ok hfast) soft_zero32 x v n hw hx

/-- **C72.** Dot product of any finite `float32_t` values: a finite result differs from the exact one by at most
`((1+u)^n - 1) Σ|p_i q_i| + n (1+u)^(n-1) halfDenorm`, and it is finite when `(1+u)^n (Σ|p_i q_i| + 2 ieeeMin)` is at most the largest
finite number. -/
theorem C72_soft_dot_error32 {fast : ℕ} (hfast : 32 ≤ fast) (a b : ℕ → ℕ) (p q : ℕ → ℚ) (n : ℕ)
    (ha : ∀ i < n, a i < 2 ^ 32) (hb : ∀ i < n, b i < 2 ^ 32) (hx : ∀ i < n, wordFin 8 23 (a i) = some (p i))
    (hy : ∀ i < n, wordFin 8 23 (b i) = some (q i)) :
    ∃ r, Kernel.dotProduct (f32Add fast) (f32Mul fast) softDefault a b n = some r ∧ r < 2 ^ 32 ∧
      (∀ s, wordFin 8 23 r = some s →
        |s - ∑ i ∈ Finset.range n, p i * q i| ≤ ((1 + uro 23) ^ n - 1) * (∑ i ∈ Finset.range n, |p i * q i|) +
          n * (1 + uro 23) ^ (n - 1) * halfDenorm 8 23) ∧
      ((1 + uro 23) ^ n * ((∑ i ∈ Finset.range n, |p i * q i|) + 2 * ieeeMin 8) ≤ ieeeMax 8 23 →
        ∃ s, wordFin 8 23 r = some s) :=
  soft_dot (soft32_ok hfast) soft_zero32 (prodOk32 fast) a b p q n ha hb hx hy

/-- **C72.** Sums of small multiples of a common power of two are exact, in any order: if the elements are `m_i 2^k` with
`Σ|m_i| ≤ 2^24` and `2^k` not below the least denormal, the loop returns exactly `(Σ m_i) 2^k`. -/
theorem C72_soft_sum_exact32 {fast : ℕ} (hfast : 32 ≤ fast) (x : ℕ → ℕ) (m : ℕ → ℤ) (k : ℤ) (n : ℕ)
    (hw : ∀ i < n, x i < 2 ^ 32) (hx : ∀ i < n, wordFin 8 23 (x i) = some ((m i : ℚ) * 2 ^ k))
    (hs : ∑ i ∈ Finset.range n, |m i| ≤ 2 ^ 24) (hk : -149 ≤ k) (hk2 : k ≤ 103) :
    ∃ r, Kernel.sumArray (f32Add fast) softDefault x n = some r ∧ r < 2 ^ 32 ∧
      wordFin 8 23 r = some (((∑ i ∈ Finset.range n, m i : ℤ) : ℚ) * 2 ^ k) :=
  soft_sum_exact (soft32_ok hfast) soft_zero32 x m k n hw hx hs (by change leastExp 8 23 ≤ k; unfold leastExp bias; norm_num; omega)
    (by change k + (23 : ℕ) + 1 ≤ bias 8; unfold bias; norm_num; omega)

/-- **C72.** Exceptions are not lost: an element that is not finite leaves a sum that is not finite, and a NaN leaves a NaN. -/
theorem C72_soft_sum_exceptions32 {fast : ℕ} (hfast : 32 ≤ fast) (x : ℕ → ℕ) (n : ℕ) (hw : ∀ i < n, x i < 2 ^ 32) :
    ∃ r, Kernel.sumArray (f32Add fast) softDefault x n = some r ∧ r < 2 ^ 32 ∧
      ((∃ i < n, wordFin 8 23 (x i) = none) → wordFin 8 23 r = none) ∧
      ((∃ i < n, wordDatum 8 23 (x i) = .nan) → wordDatum 8 23 r = .nan) :=
  soft_sum_exceptions (soft32_ok hfast) x n hw

/-- **C72.** The same for dot products: a factor that is not finite leaves a result that is not finite, a NaN factor a NaN. -/
theorem C72_soft_dot_exceptions32 {fast : ℕ} (hfast : 32 ≤ fast) (a b : ℕ → ℕ) (n : ℕ) (ha : ∀ i < n, a i < 2 ^ 32)
    (hb : ∀ i < n, b i < 2 ^ 32) :
    ∃ r, Kernel.dotProduct (f32Add fast) (f32Mul fast) softDefault a b n = some r ∧ r < 2 ^ 32 ∧
      ((∃ i < n, wordFin 8 23 (a i) = none ∨ wordFin 8 23 (b i) = none) → wordFin 8 23 r = none) ∧
      ((∃ i < n, wordDatum 8 23 (a i) = .nan ∨ wordDatum 8 23 (b i) = .nan) → wordDatum 8 23 r = .nan) :=
  soft_dot_exceptions (soft32_ok hfast) (prodOk32 fast) a b n ha hb

/-- **C72.** Summation of any finite `float64_t` values, any number of them: it never runs into undefined behaviour; a finite result
differs from the exact sum by at most `((1+u)^(n-1) - 1) Σ|v_i|` (nothing is added for underflow, because sums do not underflow); and the
result is finite when `(1+u)^(n-1) Σ|v_i|` is at most the largest finite number. -/
theorem C72_soft_sum_error64 {fast : ℕ} (hfast : 64 ≤ fast) (x : ℕ → ℕ) (v : ℕ → ℚ) (n : ℕ)
    (hw : ∀ i < n, x i < 2 ^ 64) (hx : ∀ i < n, wordFin 11 52 (x i) = some (v i)) :
    ∃ r, Kernel.sumArray (f64Add fast) softDefault x n = some r ∧ r < 2 ^ 64 ∧
      (∀ s, wordFin 11 52 r = some s →
        |s - ∑ i ∈ Finset.range n, v i| ≤ ((1 + uro 52) ^ (n - 1) - 1) * ∑ i ∈ Finset.range n, |v i|) ∧
      ((1 + uro 52) ^ (n - 1) * ∑ i ∈ Finset.range n, |v i| ≤ ieeeMax 11 52 → ∃ s, wordFin 11 52 r = some s) :=
  soft_sum (soft64_ok hfast) soft_zero64 x v n hw hx

/-- **C72.** Dot product of any finite `float64_t` values: a finite result differs from the exact one by at most
`((1+u)^n - 1) Σ|p_i q_i| + n (1+u)^(n-1) halfDenorm`, and it is finite when `(1+u)^n (Σ|p_i q_i| + 2 ieeeMin)` is at most the largest
finite number. -/
theorem C72_soft_dot_error64 {fast : ℕ} (hfast : 64 ≤ fast) (a b : ℕ → ℕ) (p q : ℕ → ℚ) (n : ℕ)
    (ha : ∀ i < n, a i < 2 ^ 64) (hb : ∀ i < n, b i < 2 ^ 64) (hx : ∀ i < n, wordFin 11 52 (a i) = some (p i))
    (hy : ∀ i < n, wordFin 11 52 (b i) = some (q i)) :
    ∃ r, Kernel.dotProduct (f64Add fast) (f64Mul fast) softDefault a b n = some r ∧ r < 2 ^ 64 ∧
      (∀ s, wordFin 11 52 r = some s →
        |s - ∑ i ∈ Finset.range n, p i * q i| ≤ ((1 + uro 52) ^ n - 1) * (∑ i ∈ Finset.range n, |p i * q i|) +
          n * (1 + uro 52) ^ (n - 1) * halfDenorm 11 52) ∧
      ((1 + uro 52) ^ n * ((∑ i ∈ Finset.range n, |p i * q i|) + 2 * ieeeMin 11) ≤ ieeeMax 11 52 →
        ∃ s, wordFin 11 52 r = some s) :=
  soft_dot (soft64_ok hfast) soft_zero64 (prodOk64 fast) a b p q n ha hb hx hy

/-- **C72.** Sums of small multiples of a common power of two are exact, in any order: if the elements are `m_i 2^k` with
`Σ|m_i| ≤ 2^53` and `2^k` not below the least denormal, the loop returns exactly `(Σ m_i) 2^k`. -/
theorem C72_soft_sum_exact64 {fast : ℕ} (hfast : 64 ≤ fast) (x : ℕ → ℕ) (m : ℕ → ℤ) (k : ℤ) (n : ℕ)
    (hw : ∀ i < n, x i < 2 ^ 64) (hx : ∀ i < n, wordFin 11 52 (x i) = some ((m i : ℚ) * 2 ^ k))
    (hs : ∑ i ∈ Finset.range n, |m i| ≤ 2 ^ 53) (hk : -1074 ≤ k) (hk2 : k ≤ 970) :
    ∃ r, Kernel.sumArray (f64Add fast) softDefault x n = some r ∧ r < 2 ^ 64 ∧
      wordFin 11 52 r = some (((∑ i ∈ Finset.range n, m i : ℤ) : ℚ) * 2 ^ k) :=
  soft_sum_exact (soft64_ok hfast) soft_zero64 x m k n hw hx hs (by change leastExp 11 52 ≤ k; unfold leastExp bias; norm_num; omega)
    (by change k + (52 : ℕ) + 1 ≤ bias 11; unfold bias; norm_num; omega)

/-- **C72.** Exceptions are not lost: an element that is not finite leaves a sum that is not finite, and a NaN leaves a NaN. -/
theorem C72_soft_sum_exceptions64 {fast : ℕ} (hfast : 64 ≤ fast) (x : ℕ → ℕ) (n : ℕ) (hw : ∀ i < n, x i < 2 ^ 64) :
    ∃ r, Kernel.sumArray (f64Add fast) softDefault x n = some r ∧ r < 2 ^ 64 ∧
      ((∃ i < n, wordFin 11 52 (x i) = none) → wordFin 11 52 r = none) ∧
      ((∃ i < n, wordDatum 11 52 (x i) = .nan) → wordDatum 11 52 r = .nan) :=
  soft_sum_exceptions (soft64_ok hfast) x n hw

/-- **C72.** The same for dot products: a factor that is not finite leaves a result that is not finite, a NaN factor a NaN. -/
theorem C72_soft_dot_exceptions64 {fast : ℕ} (hfast : 64 ≤ fast) (a b : ℕ → ℕ) (n : ℕ) (ha : ∀ i < n, a i < 2 ^ 64)
    (hb : ∀ i < n, b i < 2 ^ 64) :
    ∃ r, Kernel.dotProduct (f64Add fast) (f64Mul fast) softDefault a b n = some r ∧ r < 2 ^ 64 ∧
      ((∃ i < n, wordFin 11 52 (a i) = none ∨ wordFin 11 52 (b i) = none) → wordFin 11 52 r = none) ∧
      ((∃ i < n, wordDatum 11 52 (a i) = .nan ∨ wordDatum 11 52 (b i) = .nan) → wordDatum 11 52 r = .nan) :=
  soft_dot_exceptions (soft64_ok hfast) (prodOk64 fast) a b n ha hb

/-- **C72, the benchmark `dot_product_par4` with `float32_t`.** For all finite factors: a finite result differs from the exact dot
product by at most `((1+u)^3 - 1) Σ|p_i q_i| + 4 (1+u)^2 halfDenorm`, and it is finite when `(1+u)^2 Σ|p_i q_i| + 4 (1+u) halfDenorm` is at
most the largest finite number. -/
theorem C72_soft_par4_error {fast : ℕ} (hfast : 32 ≤ fast) (a : Fin 4 → ℕ × ℕ) (p q : Fin 4 → ℚ)
    (hw : ∀ i, (a i).1 < 2 ^ 32 ∧ (a i).2 < 2 ^ 32) (hx : ∀ i, wordFin 8 23 (a i).1 = some (p i)) (hy : ∀ i, wordFin 8 23 (a i).2 = some (q i)) :
    ∃ r, softPar4 fast (a 0) (a 1) (a 2) (a 3) = some r ∧ r < 2 ^ 32 ∧
      (∀ s, wordFin 8 23 r = some s → |s - ∑ i, p i * q i| ≤
        ((1 + uro 23) ^ 3 - 1) * (∑ i, |p i * q i|) + 4 * (1 + uro 23) ^ 2 * halfDenorm 8 23) ∧
      ((1 + uro 23) ^ 2 * (∑ i, |p i * q i|) + 4 * (1 + uro 23) * halfDenorm 8 23 ≤ ieeeMax 8 23 → ∃ s, wordFin 8 23 r = some s) := by
  have ok := soft32_ok hfast
  obtain ⟨r0, a1, a2, a3, a4⟩ := soft_dot2 ok (prodOk32 fast) (hw 0).1 (hw 0).2 (hw 1).1 (hw 1).2 (hx 0) (hy 0) (hx 1) (hy 1)
  obtain ⟨r1, b1, b2, b3, b4⟩ := soft_dot2 ok (prodOk32 fast) (hw 2).1 (hw 2).2 (hw 3).1 (hw 3).2 (hx 2) (hy 2) (hx 3) (hy 3)
  obtain ⟨r, c1, c2⟩ := (soft_adder ok).total r0 r1 a2 b2
  have s1 : ∑ i, p i * q i = (p 0 * q 0 + p 1 * q 1) + (p 2 * q 2 + p 3 * q 3) := by rw [Fin.sum_univ_four]; ring
  have s2 : ∑ i, |p i * q i| = (|p 0 * q 0| + |p 1 * q 1|) + (|p 2 * q 2| + |p 3 * q 3|) := by rw [Fin.sum_univ_four]; ring
  rw [s1, s2]
  refine ⟨r, ?_, c2, soft_add_node ok a2 b2 c1 (abs_add_le _ _) (abs_add_le _ _) a3 b3 a4 b4⟩
  have e0 : softDot2 fast (a 0) (a 1) = some r0 := a1
  have e1 : softDot2 fast (a 2) (a 3) = some r1 := b1
  rw [softPar4, e0, Option.bind_some, e1, Option.bind_some]
  exact c1

/-- **C72, the benchmark `mat_mul` with `float32_t`.** Entry `(r, c)` of the product of two `n × n` matrices of finite values approximates
`Σ_i left[r][i] * right[i][c]` with the bounds of the dot product. -/
theorem C72_soft_mat_mul_error {fast n : ℕ} (hfast : 32 ≤ fast) (left right : Fin n → Fin n → ℕ) (p q : Fin n → Fin n → ℚ)
    (hl : ∀ i j, left i j < 2 ^ 32) (hr : ∀ i j, right i j < 2 ^ 32) (hx : ∀ i j, wordFin 8 23 (left i j) = some (p i j))
    (hy : ∀ i j, wordFin 8 23 (right i j) = some (q i j)) (r c : Fin n) :
    ∃ z, softMatMulEntry fast left right r c = some z ∧ z < 2 ^ 32 ∧
      (∀ s, wordFin 8 23 z = some s →
        |s - ∑ i, p r i * q i c| ≤ ((1 + uro 23) ^ n - 1) * (∑ i, |p r i * q i c|) + n * (1 + uro 23) ^ (n - 1) * halfDenorm 8 23) ∧
      ((1 + uro 23) ^ n * ((∑ i, |p r i * q i c|) + 2 * ieeeMin 8) ≤ ieeeMax 8 23 → ∃ s, wordFin 8 23 z = some s) := by
  obtain ⟨z, h1, h2, h3, h4⟩ := C72_soft_dot_error32 hfast (fun i => if h : i < n then left r ⟨i, h⟩ else 0)
    (fun i => if h : i < n then right ⟨i, h⟩ c else 0) (fun i => if h : i < n then p r ⟨i, h⟩ else 0)
    (fun i => if h : i < n then q ⟨i, h⟩ c else 0) n (fun i h => by simp only [h, dite_true]; exact hl _ _)
    (fun i h => by simp only [h, dite_true]; exact hr _ _) (fun i h => by simp only [h, dite_true]; exact hx _ _)
    (fun i h => by simp only [h, dite_true]; exact hy _ _)
  have s1 : ∑ i ∈ Finset.range n, (if h : i < n then p r ⟨i, h⟩ else 0) * (if h : i < n then q ⟨i, h⟩ c else 0) = ∑ i, p r i * q i c := by
    rw [Finset.sum_range]; simp
  have s2 : ∑ i ∈ Finset.range n, |(if h : i < n then p r ⟨i, h⟩ else 0) * (if h : i < n then q ⟨i, h⟩ c else 0)| = ∑ i, |p r i * q i c| := by
    rw [Finset.sum_range]; simp
  rw [s1, s2] at h3
  rw [s2] at h4
  refine ⟨z, ?_, h2, h3, h4⟩
  rw [← h1, (C70_in_order (f32Add fast) (f32Mul fast) softDefault (fun _ => 0) _ _ n).2, ← List.map_coe_finRange_eq_range,
    List.foldlM_map, softMatMulEntry]
  congr 1
  funext acc i
  simp [softAddMul, softMul32]
  rfl

/-- The hypotheses hold for ordinary values and the loops compute: `1 + 2 + (-0.5)`, `1.5*1.5 + 2*(-3)`, and a four-way dot product; a sum
with an infinity and one with a NaN. -/
example : Kernel.sumArray (f32Add 64) softDefault ([0x3F800000, 0x40000000, 0xBF000000].getD · 0) 3 = some 0x40200000 ∧
    Kernel.dotProduct (f32Add 64) (f32Mul 64) softDefault ([0x3FC00000, 0x40000000].getD · 0) ([0x3FC00000, 0xC0400000].getD · 0) 2 = some 0xC0700000 ∧
    softPar4 64 (0x3F800000, 0x3F800000) (0x40000000, 0x40000000) (0x40400000, 0x40400000) (0x40800000, 0x40800000) = some 0x41F00000 ∧
    Kernel.sumArray (f32Add 64) softDefault ([0x3F800000, 0x7F800000, 0xBF000000].getD · 0) 3 = some 0x7F800000 ∧
    Kernel.sumArray (f32Add 64) softDefault ([0x3F800000, 0x7FC00001, 0xBF000000].getD · 0) 3 = some 0x7FC00001 := by
  refine ⟨?_, ?_, ?_, ?_, ?_⟩ <;> decide +kernel

/-- The elements of the first sum are finite with the values `1`, `2`, `-1/2`, and the overflow condition holds. -/
example : wordFin 8 23 0x3F800000 = some 1 ∧ wordFin 8 23 0x40000000 = some 2 ∧ wordFin 8 23 0xBF000000 = some (-1 / 2) ∧
    (1 + uro 23) ^ (3 - 1) * (|(1 : ℚ)| + |2| + |(-1 / 2)|) ≤ ieeeMax 8 23 := by
  refine ⟨?_, ?_, ?_, ?_⟩
  · norm_num [wordFin, wordDatum, ieeeDenote, bias, Datum.fin]
  · norm_num [wordFin, wordDatum, ieeeDenote, bias, Datum.fin]
  · norm_num [wordFin, wordDatum, ieeeDenote, bias, Datum.fin]
  · norm_num [uro, ieeeMax, bias, abs_of_pos, abs_of_neg]

end Thls
