import Verif.Props.Inv

/-! # Property C30: exactly where `inv_faithful` is defined and right -/

namespace Thls
open Spec Inv

/-- **C30, exactly where `inv_faithful` is defined**: with 7 to 62 result bits and at least 8 operand bits, except where the starting value of the
iteration needs more than the 8 or 9 operand bits there are. It does not depend on the operand. -/
theorem C30_faithful_defined_iff {E FY FR : ℕ} (y : Fp E FY) :
    (∃ z, tableNewtonFp FR y = some z) ↔ 7 ≤ FR ∧ FR ≤ 62 ∧ 8 ≤ FY ∧ ¬ (FY = 8 ∧ (FR = 14 ∨ (25 ≤ FR ∧ FR ≤ 30) ∨ 48 ≤ FR)) ∧
      ¬ (FY = 9 ∧ (FR = 29 ∨ FR = 30 ∨ 56 ≤ FR)) := by
  constructor
  · rintro ⟨z, hz⟩
    obtain ⟨h1, h2, h3, h4⟩ := tableNewtonFp_some hz
    unfold starterBits at h4
    split_ifs at h4 <;> omega
  · rintro ⟨h1, h2, h3, h4, h5⟩
    obtain ⟨r, hr, -⟩ := tableNewtonFp_eq (by omega) y h1 h2 h3 (by unfold starterBits; split_ifs <;> omega)
    exact ⟨_, hr⟩

/-- **C30, exactly where `inv_faithful` is right**: for magnitudes strictly between `2^bias` and `2^(bias+1)` only if it returns the least number of the
format, which needs an operand finer than the result. -/
theorem C30_faithful_iff {E FY FR : ℕ} (hE : 2 ≤ E) (y : Fp E FY) (z : Fp E FR) (v : ℚ) (hz : tableNewtonFp FR y = some z) (hy : y.datum = .num v) :
    Faithful E FR (1 / v) z.datum ↔
      |v| ≤ 2 ^ bias E ∨ 2 ^ (bias E + 1) ≤ |v| ∨ FR < FY ∧ ∃ q, z.datum = .num q ∧ |q| = 2 ^ (-bias E) := by
  by_cases hm : |v| ≤ 2 ^ bias E ∨ 2 ^ (bias E + 1) ≤ |v|
  · exact iff_of_true (C30_faithful_partial hE y z v hz hy hm) (by tauto)
  push Not at hm
  obtain ⟨hv1, hv2⟩ := hm
  rw [or_iff_right (not_le.mpr hv1), or_iff_right (not_le.mpr hv2)]
  obtain ⟨h7, h62, h8, hS⟩ := tableNewtonFp_some hz
  obtain ⟨r, hr, h1, h2⟩ := tableNewtonFp_eq (by omega) y h7 h62 h8 hS
  rw [hz] at hr
  injection hr with hr
  obtain ⟨he, hf0⟩ := exp_of_middle hE (by omega) hy hv1 hv2
  have hf1 := (datum_num_iff.mp hy).1
  have hfr := y.frac_lt (by omega : 1 ≤ FY)
  have hne : y.exp ≠ ones E := by unfold ones; omega
  have hfl : resultFlags E y.flags y.exp = 1 := by
    unfold resultFlags; rw [hf1]; simp [hne]
  have hy1 : 2 ^ FY ≤ 2 ^ FY + y.frac := by omega
  have hy2 : 2 ^ FY + y.frac < 2 ^ (FY + 1) := by rw [pow_succ 2]; omega
  have hd := hr ▸ result_datum (r := r) (by omega) (by omega : 1 ≤ FR) y _ (exp_sel_lt (c := getBit (FR + 1) r) baseExp_lt)
  rw [hfl] at hd
  have hpos := two_zpow_pos (-bias E)
  have hb0 : 0 ≤ bias E := by
    unfold bias
    have : (1 : ℤ) ≤ 2 ^ (E - 1) := one_le_pow₀ (by norm_num)
    omega
  have hlt : (2 : ℚ) ^ (-bias E) < 2 ^ (bias E + 1) := zpow_lt_zpow_right₀ (by norm_num) (by omega)
  by_cases hrl : r < 2 ^ (FR + 1)
  · have hbit : getBit (FR + 1) r = false := by
      unfold getBit; rw [Nat.div_eq_of_lt hrl]; rfl
    rw [hbit, baseExp_wrap hE he] at hd
    obtain ⟨q, hq, hq2⟩ := inv_wrapped_value (FR := FR) (s := y.sign) (f := r % 2 ^ FR) hE
    have hzq : z.datum = .num q := by rw [hd]; exact hq
    have hv0 : 0 < |v| := (two_zpow_pos _).trans hv1
    have hx : |1 / v| < 2 ^ (-bias E) := by
      rw [abs_div, abs_one, div_lt_iff₀ hv0, zpow_neg, ← div_eq_inv_mul, lt_div_iff₀ (two_zpow_pos _), one_mul]
      exact hv1
    refine iff_of_false ?_ ?_
    · rintro ⟨q', hq', -, h⟩
      rcases hq' with ⟨h3, -, h4⟩ | ⟨h3, -⟩
      · rw [hzq] at h3
        injection h3 with h3
        subst h3
        have rep : ∀ t : ℚ, |t| = 2 ^ (-bias E) → Representable E FR t := fun t ht => by
          refine Or.inr ⟨2 ^ FR, -bias E - FR, ⟨by simp, Nat.pow_lt_pow_right (by norm_num) (by omega)⟩, by omega, ?_, ?_⟩
          · rw [show -bias E - FR + FR + bias E = 0 by ring]; positivity
          · rw [ht]; push_cast
            rw [← zpow_natCast, ← zpow_add₀ (by norm_num)]; congr 1; ring
        rw [abs_lt] at hx
        by_cases h0 : 1 / v < 0
        · have hq0 := h4.mpr h0
          rw [abs_of_neg hq0] at hq2
          exact (h (-2 ^ (-bias E)) (rep _ (by rw [abs_neg, abs_of_pos hpos]))).1 ⟨by linarith, by linarith [hx.1]⟩
        · have hq0 : 0 ≤ q := not_lt.mp (mt h4.mp h0)
          rw [abs_of_nonneg hq0] at hq2
          exact (h (2 ^ (-bias E)) (rep _ (abs_of_pos hpos))).2 ⟨by linarith [hx.2], by linarith⟩
      · rw [hzq] at h3; cases h3
    · rintro ⟨-, q', h3, h4⟩
      rw [hzq] at h3
      injection h3 with h3
      rw [h3] at hq2
      linarith
  · have hre : r = 2 ^ (FR + 1) := by
      rw [pow_add] at h1
      have k0 : 0 < 2 ^ FY + y.frac := by positivity
      have k1 : r * (2 ^ FY + y.frac) < (2 ^ (FR + 1) + 1) * (2 ^ FY + y.frac) := by
        have : 2 ^ (FR + 1) * 2 ^ FY ≤ 2 ^ (FR + 1) * (2 ^ FY + y.frac) := Nat.mul_le_mul_left _ (by omega)
        linarith
      have := Nat.lt_of_mul_lt_mul_right k1
      omega
    have hbit : getBit (FR + 1) r = true := by
      unfold getBit; rw [hre, Nat.div_self (by positivity)]; rfl
    refine iff_of_true ?_ ⟨?_, ?_⟩
    · rw [hd, inv_value hy]
      exact faithful_result hE hy1 hy2 h1 h2 (Or.inr ⟨he, hre⟩)
    · by_contra hF
      have k2 : 2 ^ FY ≤ 2 ^ FR := Nat.pow_le_pow_right (by norm_num) (by omega)
      have k3 : 2 ^ (FR + 1) = 2 * 2 ^ FR := by ring
      have k4 : 2 ^ (FR + 1 + FY) = 2 ^ (FR + 1) * 2 ^ FY := by ring
      have k6 : 2 ^ (FR + 1) ≤ 2 ^ (FR + 1) * y.frac := Nat.le_mul_of_pos_right _ (by omega)
      rw [hre, Nat.mul_add] at h1
      omega
    · refine ⟨_, hd, ?_⟩
      rw [abs_signed (sig_scaled_pos _ _ _)]
      have ha : addW E (baseExp E y.exp) 1 = 0 := by
        rw [baseExp_wrap hE he]; unfold addW
        rw [Nat.sub_add_cancel Nat.one_le_two_pow, Nat.mod_self]
      rw [hbit, if_pos rfl, ha, hre, pow_succ, Nat.mul_mod_right, Nat.add_zero]
      push_cast
      rw [← zpow_natCast, ← zpow_add₀ (by norm_num)]; congr 1; ring

/-- Both kinds of result in the last binade: with fourteen operand and ten result bits, `1/(2^15(1+2^-14))` is the least number, and `1/49152` is wrong. -/
example : tableNewtonFp 10 (Fp.mk4 5 14 1 0 30 1) = some (Fp.mk4 5 10 1 0 0 0) ∧
    tableNewtonFp 10 (Fp.mk4 5 14 1 0 30 8192) = some (Fp.mk4 5 10 1 0 31 341) := by decide +kernel

end Thls
