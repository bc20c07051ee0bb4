import Verif.Proofs.SoftWord

/-! # NaN propagation -/

namespace Thls
open Spec

theorem lor_div (x k : ℕ) : (x ||| 2 ^ k) / 2 ^ (k + 1) = x / 2 ^ (k + 1) := by
  rw [← Nat.shiftRight_eq_div_pow, Nat.shiftRight_or_distrib, Nat.shiftRight_eq_div_pow, Nat.shiftRight_eq_div_pow,
    Nat.div_eq_of_lt (show 2 ^ k < 2 ^ (k + 1) from Nat.pow_lt_pow_right (by norm_num) (by omega)), Nat.or_zero]

theorem lor_mod_ge (x k : ℕ) : 2 ^ k ≤ (x ||| 2 ^ k) % 2 ^ (k + 1) := by
  apply Nat.ge_two_pow_of_testBit
  rw [Nat.testBit_mod_two_pow, Nat.testBit_or, Nat.testBit_two_pow_self]
  simp

namespace SoftFmt
variable {f : SoftFmt}

theorem quiet_fields (ok : f.Ok) (a : ℕ) :
    f.exp (a ||| 2 ^ (f.F - 1)) = f.exp a ∧ 2 ^ (f.F - 1) ≤ f.frac (a ||| 2 ^ (f.F - 1)) ∧
      (a < 2 ^ f.W → a ||| 2 ^ (f.F - 1) < 2 ^ f.W) := by
  obtain ⟨k, hk⟩ : ∃ k, f.F = k + 1 := ⟨f.F - 1, by have := ok.hF; have := ok.hE; omega⟩
  unfold exp frac
  rw [hk, Nat.add_sub_cancel]
  refine ⟨by rw [lor_div], lor_mod_ge _ _, fun h => ?_⟩
  exact Nat.or_lt_two_pow h (Nat.pow_lt_pow_right (by norm_num) (by simp only [W]; omega))

theorem isNaN_iff (a : ℕ) : f.isNaN a = true ↔ f.exp a = f.top ∧ f.frac a ≠ 0 := by
  unfold isNaN; simp

theorem isSigNaN_exp {a : ℕ} (h : f.isSigNaN a = true) : f.exp a = f.top := by
  unfold isSigNaN at h
  simp only [Bool.and_eq_true, beq_iff_eq] at h
  exact h.1.1

theorem mag_mod (a : ℕ) : a % 2 ^ (f.W - 1) = f.frac a + f.exp a * 2 ^ f.F := by
  unfold frac exp
  rw [show f.W - 1 = f.F + f.E by simp only [W]; omega, pow_add, Nat.mod_mul]
  ring

theorem exp_le_of_mag {a b : ℕ} (h : a % 2 ^ (f.W - 1) ≤ b % 2 ^ (f.W - 1)) : f.exp a ≤ f.exp b := by
  rw [mag_mod, mag_mod] at h
  by_contra hc
  push Not at hc
  have h1 : (f.exp b + 1) * 2 ^ f.F ≤ f.exp a * 2 ^ f.F := Nat.mul_le_mul_right _ hc
  have := (fields_lt f b).2
  rw [Nat.add_mul] at h1
  omega

/-- The result of `softfloat_propagateNaN` is a quiet NaN. -/
theorem propagateNaN_spec (ok : f.Ok) {a b : ℕ} (ha : a < 2 ^ f.W) (hb : b < 2 ^ f.W) (h : f.isNaN a = true ∨ f.isNaN b = true) :
    f.exp (f.propagateNaN a b) = f.top ∧ 2 ^ (f.F - 1) ≤ f.frac (f.propagateNaN a b) ∧ f.propagateNaN a b < 2 ^ f.W := by
  obtain ⟨a1, a2, a3⟩ := quiet_fields ok a
  obtain ⟨b1, b2, b3⟩ := quiet_fields ok b
  have resA : f.exp a = f.top → f.exp (a ||| 2 ^ (f.F - 1)) = f.top ∧ 2 ^ (f.F - 1) ≤ f.frac (a ||| 2 ^ (f.F - 1)) ∧ a ||| 2 ^ (f.F - 1) < 2 ^ f.W :=
    fun h => ⟨a1.trans h, a2, a3 ha⟩
  have resB : f.exp b = f.top → f.exp (b ||| 2 ^ (f.F - 1)) = f.top ∧ 2 ^ (f.F - 1) ≤ f.frac (b ||| 2 ^ (f.F - 1)) ∧ b ||| 2 ^ (f.F - 1) < 2 ^ f.W :=
    fun h => ⟨b1.trans h, b2, b3 hb⟩
  have ea : f.exp a ≤ f.top := by have := (fields_lt f a).1; simp only [top]; omega
  have eb : f.exp b ≤ f.top := by have := (fields_lt f b).1; simp only [top]; omega
  have htop : f.exp a = f.top ∨ f.exp b = f.top := by
    rw [isNaN_iff, isNaN_iff] at h
    rcases h with h | h
    · exact Or.inl h.1
    · exact Or.inr h.1
  unfold propagateNaN
  simp only
  by_cases sa : f.isSigNaN a = true <;> by_cases sb : f.isSigNaN b = true
  · simp only [sa, sb, Bool.not_true, Bool.and_false, Bool.false_eq_true, if_false, Bool.false_and]
    split_ifs
    · exact resB (isSigNaN_exp sb)
    · exact resA (isSigNaN_exp sa)
    · exact resA (isSigNaN_exp sa)
    · exact resB (isSigNaN_exp sb)
  · rw [Bool.not_eq_true] at sb
    simp only [sa, sb, Bool.not_false, Bool.and_true, if_true]
    split_ifs with hn
    · exact resB ((isNaN_iff b).mp hn).1
    · exact resA (isSigNaN_exp sa)
  · rw [Bool.not_eq_true] at sa
    simp only [sa, sb, Bool.not_true, Bool.and_false, Bool.false_eq_true, if_false, Bool.not_false, Bool.and_true, if_true]
    split_ifs with hn
    · exact resA ((isNaN_iff a).mp hn).1
    · exact resB (isSigNaN_exp sb)
  · rw [Bool.not_eq_true] at sa sb
    simp only [sa, sb, Bool.not_false, Bool.and_true, Bool.false_eq_true, if_false, Bool.and_false]
    split_ifs with h1 h2 h3
    · have := exp_le_of_mag h1.le
      rw [a1, b1] at this
      exact resB (by omega)
    · have := exp_le_of_mag h2.le
      rw [a1, b1] at this
      exact resA (by omega)
    · have := exp_le_of_mag (not_lt.mp h1)
      rw [a1, b1] at this
      exact resA (by omega)
    · have := exp_le_of_mag (not_lt.mp h2)
      rw [a1, b1] at this
      exact resB (by omega)

theorem propagateNaN_datum (ok : f.Ok) {a b : ℕ} (ha : a < 2 ^ f.W) (hb : b < 2 ^ f.W) (h : f.isNaN a = true ∨ f.isNaN b = true) :
    wordDatum f.E f.F (f.propagateNaN a b) = .nan ∧ f.propagateNaN a b < 2 ^ f.W := by
  obtain ⟨h1, h2, h3⟩ := propagateNaN_spec ok ha hb h
  have := Nat.two_pow_pos (f.F - 1)
  exact ⟨datum_nan ok h3 h1 (by omega), h3⟩

/-- `softfloat_propagateNaN` does not depend on the order of its arguments. -/
theorem propagateNaN_comm (a b : ℕ) : f.propagateNaN a b = f.propagateNaN b a := by
  unfold propagateNaN
  simp only
  cases f.isSigNaN a <;> cases f.isSigNaN b <;> simp only [Bool.not_true, Bool.not_false, Bool.and_true, Bool.and_false,
    Bool.false_eq_true, if_false, if_true]
  all_goals
    split_ifs <;> first | rfl | omega

theorem defaultNaN_datum (ok : f.Ok) : wordDatum f.E f.F f.defaultNaN = .nan ∧ f.defaultNaN < 2 ^ f.W := by
  obtain ⟨k, hk⟩ : ∃ k, f.F = k + 1 := ⟨f.F - 1, by have := ok.hF; have := ok.hE; omega⟩
  have hp := Nat.two_pow_pos k
  obtain ⟨T, hT, htop, -, -⟩ := top_pow ok
  have hw : f.defaultNaN = 1 * 2 ^ (f.E + f.F) + (2 ^ k + (2 ^ f.E - 1) * 2 ^ f.F) := by
    unfold defaultNaN
    have e1 : 2 ^ (f.E + 2) - 1 = 4 * T + 15 := by rw [pow_add, hT]; omega
    have e2 : 2 ^ f.E - 1 = T + 3 := by omega
    rw [e1, e2, hk, Nat.add_sub_cancel, pow_add 2 f.E, hT, pow_succ]
    ring
  have hlt : 2 ^ k + (2 ^ f.E - 1) * 2 ^ f.F < 2 ^ (f.E + f.F) := by
    have e2 : 2 ^ f.E - 1 = T + 3 := by omega
    rw [pow_add, e2, hT, hk, pow_succ]
    have : (T + 4) * (2 ^ k * 2) = (T + 3) * (2 ^ k * 2) + 2 ^ k * 2 := by ring
    omega
  constructor
  · rw [hw, wordDatum_split hlt]
    have h1 : (2 ^ k + (2 ^ f.E - 1) * 2 ^ f.F) / 2 ^ f.F = 2 ^ f.E - 1 := by
      rw [Nat.add_mul_div_right _ _ (by positivity), Nat.div_eq_of_lt, Nat.zero_add]
      exact Nat.pow_lt_pow_right (by norm_num) (by omega)
    have h2 : (2 ^ k + (2 ^ f.E - 1) * 2 ^ f.F) % 2 ^ f.F = 2 ^ k := by
      rw [Nat.add_mul_mod_self_right, Nat.mod_eq_of_lt]
      exact Nat.pow_lt_pow_right (by norm_num) (by omega)
    rw [h1, h2]
    unfold ieeeDenote
    rw [if_neg (by omega), if_pos rfl, if_neg (by omega)]
  · rw [hw, W_pow]; omega

end SoftFmt
end Thls
