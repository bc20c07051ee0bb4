import Verif.Proofs.LimitConsts

/-! # C79: the integer constants of `std::numeric_limits` -/

namespace Thls
open Spec

/-! ## `fp_flopoco` and its wrapper -/

/-- **C79.** `digits` of the FloPoCo type and its wrapper is right, and it is the only number that is. -/
theorem C79_flopoco_digits {E F : ℕ} (hE : 1 ≤ E) (hF : 1 ≤ F) (d : ℕ) (hd : 1 ≤ d) :
    DigitsOf {v : ℚ | 0 < v ∧ ∃ x : Fp E F, x.datum = .num v} d ↔ d = LimitConsts.digits F := by
  rw [fp_values hE hF]
  exact normalSet_digits_iff (by have := two_bias hE; omega) hd

/-- **C79, the part that fails.** Both exponent constants of the FloPoCo type and its wrapper are one too small. -/
theorem C79_flopoco_exponents_wrong {E F : ℕ} (hE : 1 ≤ E) (hF : 1 ≤ F) (n : ℤ) :
    (MinExponentOf {v : ℚ | 0 < v ∧ ∃ x : Fp E F, x.datum = .num v} n ↔ n = LimitConsts.fpMinExponent E + 1) ∧
    (MaxExponentOf {v : ℚ | 0 < v ∧ ∃ x : Fp E F, x.datum = .num v} n ↔ n = LimitConsts.fpMaxExponent E + 1) := by
  have hb := two_bias hE
  rw [fp_values hE hF, normalSet_min (by omega), normalSet_max (by omega), LimitConsts.fpMinExponent, LimitConsts.fpMaxExponent, pow_bias]
  constructor <;> constructor <;> intro h <;> omega

/-- For the format with 8 exponent and 23 fraction bits the constants are -127 and 128; the right ones are -126 and 129. -/
example : LimitConsts.fpMinExponent 8 = -127 ∧ LimitConsts.fpMaxExponent 8 = 128 ∧
    MinExponentOf {v : ℚ | 0 < v ∧ ∃ x : Fp 8 23, x.datum = .num v} (-126) ∧
    MaxExponentOf {v : ℚ | 0 < v ∧ ∃ x : Fp 8 23, x.datum = .num v} 129 :=
  ⟨by decide, by decide, (C79_flopoco_exponents_wrong (by decide) (by decide) _).1.2 (by decide),
    (C79_flopoco_exponents_wrong (by decide) (by decide) _).2.2 (by decide)⟩

example : DigitsOf {v : ℚ | 0 < v ∧ ∃ x : Fp 8 23, x.datum = .num v} 24 :=
  (C79_flopoco_digits (by decide) (by decide) 24 (by decide)).2 rfl

/-- **C79.** `round_error()` of the FloPoCo type does not return; compiled without assertions it is one half. -/
theorem C79_flopoco_round_error {E F : ℕ} (hE : 2 ≤ E) (hF : 1 ≤ F) :
    LimitConsts.fpRoundError false E F = none ∧
    ∃ r, LimitConsts.fpRoundError true E F = some r ∧ r.datum = .num (1 / 2) := by
  refine ⟨rfl, _, rfl, ?_⟩
  have pF : 0 < 2 ^ F := by positivity
  have hb := biasN_lt (E := E)
  have hb1 : 1 ≤ biasN E := by
    have : 2 ^ 1 ≤ 2 ^ (E - 1) := Nat.pow_le_pow_right (by norm_num) (by omega)
    unfold biasN; omega
  obtain ⟨a, b, c⟩ := Fp.mk3_fields (E := E) (F := F) (fs := 2) (e := biasN E - 1) (f := 0) (by omega) (by decide) (by omega) pF
  have hx : (Fp.mk3 E F 2 (biasN E - 1) 0).exp = biasN E - 1 := by
    rw [← Fp.expFrac_div (by omega) hF, c]; exact concat_div pF
  have hf : (Fp.mk3 E F 2 (biasN E - 1) 0).frac = 0 := by
    rw [← Fp.expFrac_mod (by omega) hF, c]; exact concat_mod pF
  rw [Fp.datum, a, b, hx, hf]
  simp only [denote]
  have : ((biasN E - 1 : ℕ) : ℤ) - bias E - F = - 1 - F := by
    rw [← pow_bias]; push_cast [hb1]; ring
  rw [this, zpow_sub₀ (by norm_num), zpow_natCast]
  norm_num
  field_simp

/-! ## `fp_ieee` and its wrapper -/

theorem ieee_type_values {E F : ℕ} (hE : 2 ≤ E) (hF : 1 ≤ F) :
    {v : ℚ | ieeeMin E ≤ v ∧ ∃ x : Ieee E F, x.datum = .num v} = normalSet F (1 - bias E) (bias E) := by
  rw [← ieee_values hE]
  ext v
  constructor
  · rintro ⟨hv, x, hx⟩
    exact ⟨hv, x.sign, x.exp, x.frac, x.sign_lt, x.exp_lt (by omega), x.frac_lt hF, hx⟩
  · rintro ⟨hv, s, e, f, h1, h2, h3, h4⟩
    exact ⟨hv, Ieee.mk3 E F s e f, by rw [Ieee.mk3_datum (by omega) hF h1 h2 h3, h4]⟩

/-- **C79.** `digits` of the IEEE type and its wrapper is right. -/
theorem C79_ieee_digits {E F : ℕ} (hE : 2 ≤ E) (hF : 1 ≤ F) (d : ℕ) (hd : 1 ≤ d) :
    DigitsOf {v : ℚ | ieeeMin E ≤ v ∧ ∃ x : Ieee E F, x.datum = .num v} d ↔ d = LimitConsts.digits F := by
  have hb : 1 ≤ bias E := by
    have := two_bias (show 1 ≤ E by omega)
    have : (2 : ℤ) ^ 2 ≤ 2 ^ E := pow_le_pow_right₀ (by norm_num) hE
    omega
  rw [ieee_type_values hE hF]
  exact normalSet_digits_iff (by omega) hd

/-- **C79, the part that fails.** Both exponent constants of the IEEE type are one too small. Those of its wrapper are not the same
numbers: the greatest exponent is right there, the least one is two too small. -/
theorem C79_ieee_exponents_wrong {E F : ℕ} (hE : 2 ≤ E) (hF : 1 ≤ F) (n : ℤ) :
    (MinExponentOf {v : ℚ | ieeeMin E ≤ v ∧ ∃ x : Ieee E F, x.datum = .num v} n ↔ n = LimitConsts.ieeeMinExponent E + 1) ∧
    (MaxExponentOf {v : ℚ | ieeeMin E ≤ v ∧ ∃ x : Ieee E F, x.datum = .num v} n ↔ n = LimitConsts.ieeeMaxExponent E + 1) ∧
    (MinExponentOf {v : ℚ | ieeeMin E ≤ v ∧ ∃ x : Ieee E F, x.datum = .num v} n ↔ n = LimitConsts.fpMinExponent E + 2) ∧
    (MaxExponentOf {v : ℚ | ieeeMin E ≤ v ∧ ∃ x : Ieee E F, x.datum = .num v} n ↔ n = LimitConsts.fpMaxExponent E) := by
  have hb : 1 ≤ bias E := by
    have := two_bias (show 1 ≤ E by omega)
    have : (2 : ℤ) ^ 2 ≤ 2 ^ E := pow_le_pow_right₀ (by norm_num) hE
    omega
  rw [ieee_type_values hE hF, normalSet_min (by omega), normalSet_max (by omega), LimitConsts.ieeeMinExponent,
    LimitConsts.ieeeMaxExponent, LimitConsts.fpMinExponent, LimitConsts.fpMaxExponent, pow_bias]
  refine ⟨⟨?_, ?_⟩, ⟨?_, ?_⟩, ⟨?_, ?_⟩, ⟨?_, ?_⟩⟩ <;> intro h <;> omega

/-- For single precision `std::numeric_limits<float>` has -125 and 128; the IEEE type has -126 and 127, its wrapper -127 and 128. -/
example : LimitConsts.ieeeMinExponent 8 = -126 ∧ LimitConsts.ieeeMaxExponent 8 = 127 ∧
    MinExponentOf {v : ℚ | ieeeMin 8 ≤ v ∧ ∃ x : Ieee 8 23, x.datum = .num v} (-125) ∧
    MaxExponentOf {v : ℚ | ieeeMin 8 ≤ v ∧ ∃ x : Ieee 8 23, x.datum = .num v} 128 :=
  ⟨by decide, by decide, (C79_ieee_exponents_wrong (by decide) (by decide) _).1.2 (by decide),
    (C79_ieee_exponents_wrong (by decide) (by decide) _).2.1.2 (by decide)⟩

/-- **C79, the part that fails.** `epsilon()` of the IEEE type does not return; without assertions it is half the distance from 1 to the next
value. `round_error()` does not return either; without assertions it is right. -/
theorem C79_ieee_epsilon_wrong {E F : ℕ} (hE : 2 ≤ E) (hF : 1 ≤ F) (h : F + 2 ≤ biasN E) :
    (LimitConsts.ieeeEpsilon false E F = none ∧ LimitConsts.ieeeRoundError false E F = none) ∧
    (∃ r q, LimitConsts.ieeeEpsilon true E F = some r ∧ r.datum = .num q ∧
      EpsilonOf {v : ℚ | ieeeMin E ≤ v ∧ ∃ x : Ieee E F, x.datum = .num v} (2 * q)) ∧
    (∃ r, LimitConsts.ieeeRoundError true E F = some r ∧ r.datum = .num (1 / 2)) := by
  have pF : 0 < 2 ^ F := by positivity
  have hb := biasN_lt (E := E)
  have hbz : (biasN E : ℤ) = bias E := pow_bias
  have one : ∀ e, 1 ≤ e → e ≤ biasN E →
      (Ieee.mk3 E F 0 e 0).datum = .num (2 ^ ((e : ℤ) - bias E)) := by
    intro e he0 he
    have hbb := two_bias (show 1 ≤ E by omega)
    have hne : e ≠ 2 ^ E - 1 := by
      intro hh
      zify [show 1 ≤ 2 ^ E from Nat.one_le_two_pow] at hh he
      omega
    rw [Ieee.mk3_datum (by omega) hF (by decide) (by omega) pF, ieeeDenote, if_neg (by omega : e ≠ 0), if_neg hne,
      zpow_sub₀ (by norm_num), zpow_natCast]
    push_cast; norm_num; field_simp
  refine ⟨⟨rfl, rfl⟩, ⟨_, _, rfl, one _ (by omega) (by omega), ?_⟩, ⟨_, rfl, ?_⟩⟩
  · rw [ieee_type_values hE hF]
    have e1 : (2 : ℚ) * 2 ^ (((biasN E - F - 1 : ℕ) : ℤ) - bias E) = 2 ^ (-(F : ℤ)) := by
      rw [← zpow_one_add₀ (by norm_num)]; congr 1
      rw [← hbz]; omega
    rw [e1]
    refine ⟨?_, ⟨⟨2 ^ F + 1, 0, by omega, ?_, by omega, by omega, ?_⟩, ?_⟩, ?_⟩
    · have := (normalSet_pow (F := F) (lo := 1 - bias E) (hi := bias E) (k := 0)).2 (by omega)
      simpa using this
    · have : 2 ^ 1 ≤ 2 ^ F := Nat.pow_le_pow_right (by norm_num) hF
      rw [pow_succ]; omega
    · rw [zero_sub, zpow_neg, zpow_natCast]; push_cast; field_simp
    · have := two_zpow_pos (-(F : ℤ)); linarith
    · rintro v ⟨⟨m, e, h1, h2, h3, h4, rfl⟩, hv⟩
      have p := two_zpow_pos (e - F)
      rcases lt_trichotomy e 0 with he | he | he
      · exfalso
        have a : (m : ℚ) * 2 ^ (e - F) < 1 := by
          have hm : (m : ℚ) < ((2 ^ (F + 1) : ℕ) : ℚ) := by exact_mod_cast h2
          calc _ < ((2 ^ (F + 1) : ℕ) : ℚ) * 2 ^ (e - F) := mul_lt_mul_of_pos_right hm p
            _ = (2 : ℚ) ^ (e + 1) := by
              rw [zpow_sub₀ (by norm_num), zpow_natCast, zpow_add₀ (by norm_num)]; push_cast; rw [pow_succ]; field_simp
            _ ≤ 2 ^ (0 : ℤ) := zpow_le_zpow_right₀ (by norm_num) (by omega)
            _ = 1 := by norm_num
        linarith
      · subst he
        have hm : 2 ^ F + 1 ≤ m := by
          by_contra hlt
          have : m = 2 ^ F := by omega
          rw [this, zero_sub, zpow_neg, zpow_natCast] at hv
          push_cast at hv
          rw [mul_inv_cancel₀ (by positivity)] at hv
          exact lt_irrefl _ hv
        have hm' : ((2 ^ F + 1 : ℕ) : ℚ) ≤ m := by exact_mod_cast hm
        calc 1 + (2 : ℚ) ^ (-(F : ℤ)) = ((2 ^ F + 1 : ℕ) : ℚ) * 2 ^ ((0 : ℤ) - F) := by
              rw [zero_sub, zpow_neg, zpow_natCast]; push_cast; field_simp
          _ ≤ _ := mul_le_mul_of_nonneg_right hm' p.le
      · have hm' : ((2 ^ F : ℕ) : ℚ) ≤ m := by exact_mod_cast h1
        calc 1 + (2 : ℚ) ^ (-(F : ℤ)) ≤ 2 := by
              have : (2 : ℚ) ^ (-(F : ℤ)) ≤ 2 ^ (0 : ℤ) := zpow_le_zpow_right₀ (by norm_num) (by omega)
              norm_num at this ⊢; linarith
          _ = (2 : ℚ) ^ (1 : ℤ) := by norm_num
          _ ≤ 2 ^ e := zpow_le_zpow_right₀ (by norm_num) (by omega)
          _ = ((2 ^ F : ℕ) : ℚ) * 2 ^ (e - F) := by
              rw [zpow_sub₀ (by norm_num), zpow_natCast]; push_cast; field_simp
          _ ≤ _ := mul_le_mul_of_nonneg_right hm' p.le
  · rw [one _ (by omega) (by omega)]
    have : ((biasN E - 1 : ℕ) : ℤ) - bias E = -1 := by rw [← hbz]; omega
    rw [this]; norm_num

example : 2 ≤ 8 ∧ 23 + 2 ≤ biasN 8 := by decide

/-! ## `fp_softfloat32` -/

theorem word32_values :
    {v : ℚ | ieeeMin 8 ≤ v ∧ ∃ w < 2 ^ 32, wordDatum 8 23 w = .num v} = normalSet 23 (-126) 127 := by
  have hh : normalSet 23 (-126) 127 = normalSet 23 (1 - bias 8) (bias 8) := by
    have : bias 8 = 127 := by decide
    rw [this]; norm_num
  rw [hh, ← ieee_values (by decide)]
  ext v
  constructor
  · rintro ⟨hv, w, hw, h⟩
    exact ⟨hv, _, _, _, by omega, by omega, by omega, h⟩
  · rintro ⟨hv, s, e, f, h1, h2, h3, h4⟩
    refine ⟨hv, s * 2 ^ 31 + e * 2 ^ 23 + f, by omega, ?_⟩
    unfold wordDatum
    rw [show (s * 2 ^ 31 + e * 2 ^ 23 + f) / 2 ^ (8 + 23) = s by omega,
      show (s * 2 ^ 31 + e * 2 ^ 23 + f) / 2 ^ 23 % 2 ^ 8 = e by omega,
      show (s * 2 ^ 31 + e * 2 ^ 23 + f) % 2 ^ 23 = f by omega, h4]

/-- **C79.** The constants of the software single-precision type: `digits` and `max_exponent` are right, `min_exponent` is two too small. -/
theorem C79_soft_exponents_wrong (n : ℤ) :
    DigitsOf {v : ℚ | ieeeMin 8 ≤ v ∧ ∃ w < 2 ^ 32, wordDatum 8 23 w = .num v} SoftLimits.digits ∧
    (MinExponentOf {v : ℚ | ieeeMin 8 ≤ v ∧ ∃ w < 2 ^ 32, wordDatum 8 23 w = .num v} n ↔ n = SoftLimits.minExponent + 2) ∧
    (MaxExponentOf {v : ℚ | ieeeMin 8 ≤ v ∧ ∃ w < 2 ^ 32, wordDatum 8 23 w = .num v} n ↔ n = SoftLimits.maxExponent) := by
  rw [word32_values, normalSet_min (by norm_num), normalSet_max (by norm_num), SoftLimits.minExponent, SoftLimits.maxExponent]
  refine ⟨normalSet_digits (by norm_num), ?_, ?_⟩ <;> norm_num

/-- **C79, the part that fails.** No function of the software type's limits returns when assertions are enabled. Without assertions: `min()`,
`round_error()`, `infinity()` and `denorm_min()` are right; `max()` is `2^127`, which is below other finite values; `lowest()` is `-2^127`;
`epsilon()` is more than one; `quiet_NaN()` is a NaN, but with the quiet bit clear, and is the same word as `signalling_NaN()`. -/
theorem C79_soft_functions_wrong :
    (SoftLimits.min false = none ∧ SoftLimits.max false = none ∧ SoftLimits.lowest false = none ∧ SoftLimits.epsilon false = none ∧
      SoftLimits.roundError false = none ∧ SoftLimits.infinity false = none ∧ SoftLimits.quietNaN false = none ∧
      SoftLimits.signallingNaN false = none ∧ SoftLimits.denormMin false = none) ∧
    ((SoftLimits.min true).map (wordDatum 8 23) = some (.num (ieeeMin 8)) ∧
      (SoftLimits.roundError true).map (wordDatum 8 23) = some (.num (1 / 2)) ∧
      (SoftLimits.infinity true).map (wordDatum 8 23) = some (.inf false) ∧
      (SoftLimits.denormMin true).map (wordDatum 8 23) = some (.num (2 ^ (-149 : ℤ)))) ∧
    ((SoftLimits.max true).map (wordDatum 8 23) = some (.num (2 ^ 127)) ∧
      (SoftLimits.lowest true).map (wordDatum 8 23) = some (.num (-2 ^ 127)) ∧
      (∃ w < 2 ^ 32, ∃ q, wordDatum 8 23 w = .num q ∧ 2 ^ 127 < q)) ∧
    (SoftLimits.epsilon true).map (wordDatum 8 23) = some (.num (1 + 1 / 2 ^ 23)) ∧
    (∃ w, SoftLimits.quietNaN true = some w ∧ SoftLimits.signallingNaN true = some w ∧ wordDatum 8 23 w = .nan ∧ w.testBit 22 = false) := by
  have hb : bias 8 = 127 := by decide
  refine ⟨by decide, ⟨?_, ?_, ?_, ?_⟩, ⟨?_, ?_, 0x7F000001, by norm_num, (1 + 1 / 2 ^ 23) * 2 ^ 127, ?_, by norm_num⟩, ?_, _, rfl, rfl, ?_, by decide⟩ <;>
    norm_num [SoftLimits.min, SoftLimits.roundError, SoftLimits.infinity, SoftLimits.denormMin, SoftLimits.max, SoftLimits.lowest,
      SoftLimits.epsilon, LimitConsts.asserted, wordDatum, ieeeDenote, ieeeMin, hb]

end Thls
