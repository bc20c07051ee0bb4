import Verif.Model.Bits

/-! # Leading-zero counter and normalising shifter (fp_flopoco_add_single_v1.hpp) -/

namespace Thls

/-- `intlog2<N>::value`: the number of bits of `N`. The template recursion `1 + intlog2<N/2>`, `intlog2<0> = 0`
is `intlog2_zero` and `intlog2_pos` below. fp_flopoco_add_single_v1.hpp:10-20. -/
def intlog2 (n : ℕ) : ℕ := if n = 0 then 0 else Nat.log2 n + 1

/-- `LZOCShifterImpl<WD,WC>::go`: the shifted word and the count. `none` is the failed assertion
`WD >= (1<<(WC-1))`. The other assertion, `x==0 || hi!=0 || lo!=0`, is always true because its `BASE` is 0, so
that `hi` and `lo` together are all of `x`; it is not modelled.
fp_flopoco_add_single_v1.hpp:77-133 (the same in v2, v4; used by v5 and add_dual). -/
def lzoc? (WD : ℕ) : ℕ → ℕ → Option (ℕ × ℕ)
  | 0, x => some (x, 0)
  | WC + 1, x =>
    if WD < 2 ^ WC then none
    else
      let hi := getBits (WD - 1) (WD - 2 ^ WC) x
      let bit := decide (hi = 0)
      let mid := if 2 ^ WC = WD then x else if bit then x * 2 ^ 2 ^ WC % 2 ^ WD else x
      match lzoc? WD WC mid with
      | none => none
      | some (out, lo) => some (out, concat WC bit.toNat lo)

theorem intlog2_zero : intlog2 0 = 0 := rfl

theorem intlog2_pos {n : ℕ} (h : n ≠ 0) : intlog2 n = 1 + intlog2 (n / 2) := by
  unfold intlog2
  rw [if_neg h]
  by_cases h2 : n / 2 = 0
  · rw [if_pos h2]
    have : n = 1 := by omega
    subst this
    decide
  · rw [if_neg h2]
    conv_lhs => rw [Nat.log2_def, if_pos (show n ≥ 2 by omega)]
    omega

/-- `intlog2 n` is the number of bits of `n`. -/
theorem intlog2_spec {n : ℕ} (h : n ≠ 0) : 2 ^ (intlog2 n - 1) ≤ n ∧ n < 2 ^ intlog2 n ∧ 1 ≤ intlog2 n := by
  unfold intlog2
  rw [if_neg h]
  exact ⟨by simpa using Nat.log2_self_le h, Nat.lt_log2_self, by omega⟩

theorem intlog2_le {n k : ℕ} (h : n < 2 ^ k) : intlog2 n ≤ k := by
  by_cases h0 : n = 0
  · subst h0; simp [intlog2_zero]
  · obtain ⟨h1, -, -⟩ := intlog2_spec h0
    by_contra hc
    have : 2 ^ k ≤ 2 ^ (intlog2 n - 1) := Nat.pow_le_pow_right (by norm_num) (by omega)
    omega

theorem le_intlog2 {n k : ℕ} (h : 2 ^ k ≤ n) : k < intlog2 n := by
  have h0 : n ≠ 0 := by have : 0 < 2 ^ k := by positivity
                        omega
  obtain ⟨-, h1, -⟩ := intlog2_spec h0
  by_contra hc
  have : 2 ^ intlog2 n ≤ 2 ^ k := Nat.pow_le_pow_right (by norm_num) (by omega)
  omega

end Thls
