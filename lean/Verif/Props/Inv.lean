import Verif.Proofs.InvDirect

/-! # C30: reciprocals -/

namespace Thls
open Spec Inv

/-- **C30, `inv` is unusable.** `inv` (the alias of `inv_v1`) violates a precondition on every operand of every format:
the constant one is spelled with the octal literal `0100`, which does not fit in the four bits it is put in. -/
theorem C30_inv_wrong {E F : ℕ} (y : Fp E F) : invV1 E F y = none := by
  unfold invV1 cg
  rw [if_neg (by norm_num)]
  rfl

/-- What `inv` would do with the constant that was meant: divide one by the operand. -/
example : divSame srtFull1 (Fp.ofBits 4 3 (concat (4 - 1 + 3) 0b0100 (concat 3 (ones (4 - 1)) 0))) (Fp.mk4 4 3 1 0 8 0)
    = Fp.mk4 4 3 1 0 6 0 := by decide

/-- **C30, where `inv_faithful` is defined.** Between 7 and 62 result fraction bits, with at least 10 operand fraction
bits, no assertion fails on any encoding. -/
theorem C30_faithful_defined {E FY FR : ℕ} (hFR : 7 ≤ FR ∧ FR ≤ 62) (hFY : 10 ≤ FY) (y : Fp E FY) :
    ∃ z, tableNewtonFp FR y = some z := by
  obtain ⟨r, hr, -⟩ := tableNewtonFp_eq (by omega) y hFR.1 hFR.2 (by omega)
    (by unfold starterBits; split_ifs <;> omega)
  exact ⟨_, hr⟩

/-- **C30, where `inv_faithful` does not compile**: fewer than 7 or more than 62 result bits, or fewer than 8 operand
bits, although small formats are the ones with a direct table of their own. -/
theorem C30_faithful_undefined {E FY FR : ℕ} (h : FR < 7 ∨ 62 < FR ∨ FY < 8) (y : Fp E FY) :
    tableNewtonFp FR y = none := by
  cases hc : tableNewtonFp FR y with
  | none => rfl
  | some z => have := tableNewtonFp_some hc; omega

/-- **C30, `inv_faithful` is faithful.** Whenever it is defined, the result for a normal number `v` is `1/v` or one of
its two neighbours, unless `|v|` lies strictly between `2^bias` and `2^(bias+1)`. Missing: that last binade, where
the claim is false (`C30_faithful_wrap_wrong`). -/
theorem C30_faithful_partial {E FY FR : ℕ} (hE : 2 ≤ E) (y : Fp E FY) (z : Fp E FR) (v : ℚ)
    (hz : tableNewtonFp FR y = some z) (hy : y.datum = .num v)
    (hv : |v| ≤ 2 ^ bias E ∨ 2 ^ (bias E + 1) ≤ |v|) : Faithful E FR (1 / v) z.datum := by
  obtain ⟨h7, h62, h8, hS⟩ := tableNewtonFp_some hz
  obtain ⟨r, hr, h1, h2⟩ := tableNewtonFp_eq (by omega) y h7 h62 h8 hS
  rw [hz] at hr
  injection hr with hr
  rw [hr, result_datum (by omega) (by omega) y _ (exp_sel_lt baseExp_lt), inv_value hy]
  have hf1 := (datum_num_iff.mp hy).1
  have hfr := y.frac_lt (by omega : 1 ≤ FY)
  have hy1 : 2 ^ FY ≤ 2 ^ FY + y.frac := by omega
  have hy2 : 2 ^ FY + y.frac < 2 ^ (FY + 1) := by rw [pow_succ 2]; omega
  rcases hv with hv | hv
  · have he := exp_of_small hE (by omega) hy hv
    have hne : y.exp ≠ ones E := by unfold ones; omega
    have hfl : resultFlags E y.flags y.exp = 1 := by
      unfold resultFlags; rw [hf1]; simp [hne]
    rw [hfl]
    apply faithful_result hE hy1 hy2 h1 h2
    rcases he with he | ⟨he, hf0⟩
    · exact Or.inl he
    · right
      refine ⟨he, ?_⟩
      rw [hf0, Nat.add_zero] at h1 h2
      have hP : 0 < 2 ^ FY := by positivity
      rw [pow_add] at h1 h2
      have k1 : r * 2 ^ FY < (2 ^ (FR + 1) + 1) * 2 ^ FY := by linarith
      have k2 := Nat.lt_of_mul_lt_mul_right k1
      have k3 := Nat.lt_of_mul_lt_mul_right h2
      omega
  · have he := exp_of_large hE (by omega) hy hv
    have hfl : resultFlags E y.flags y.exp = 0 := by
      unfold resultFlags; rw [hf1]; simp [he]
    rw [hfl]
    exact faithful_large hE he

/-- 1/1.5 with ten fraction bits: 0.66650390625, the lower neighbour; `-1/1` is exact. -/
example : tableNewtonFp 10 (Fp.mk4 5 10 1 0 15 512) = some (Fp.mk4 5 10 1 0 14 341) := by decide +kernel
example : tableNewtonFp 10 (Fp.mk4 5 10 1 1 15 0) = some (Fp.mk4 5 10 1 1 15 0) := by decide +kernel
/-- The hypotheses are met by 1.5. -/
example : (Fp.mk4 5 10 1 0 15 512).datum = .num (3 / 2) ∧ |(3 / 2 : ℚ)| ≤ 2 ^ bias 5 := by
  constructor
  · rw [Fp.mk4_datum (by decide) (by decide) (by decide) (by decide) (by decide) (by decide)]
    norm_num [denote, bias, zpow_neg]
  · norm_num [bias]

/-- **C30, exceptional operands** of `inv_faithful`: the reciprocal of a zero is the infinity of the same sign, of an
infinity the zero of the same sign, and of NaN is NaN. -/
theorem C30_faithful_exceptions {E FY FR : ℕ} (hE : 1 ≤ E) (y : Fp E FY) (z : Fp E FR)
    (hz : tableNewtonFp FR y = some z) :
    (∀ s, y.datum = .zero s → z.datum = .inf s) ∧ (∀ s, y.datum = .inf s → z.datum = .zero s) ∧
    (y.datum = .nan → z.datum = .nan) := by
  obtain ⟨h7, h62, h8, hS⟩ := tableNewtonFp_some hz
  obtain ⟨r, hr, -⟩ := tableNewtonFp_eq (by omega) y h7 h62 h8 hS
  rw [hz] at hr
  injection hr with hr
  rw [hr, result_datum hE (by omega) y _ (exp_sel_lt baseExp_lt)]
  rcases flags_cases y with h | h | h | h
  · rw [datum_flags0 y h, h]
    refine ⟨?_, by simp, by simp⟩
    intro s hs; injection hs with hs; rw [← hs]; rfl
  · rw [datum_normal y h]; simp
  · rw [datum_flags2 y h, h]
    refine ⟨by simp, ?_, by simp⟩
    intro s hs; injection hs with hs; rw [← hs]; rfl
  · rw [datum_flags3 y h, h]
    exact ⟨by simp, by simp, fun _ => rfl⟩

example : ∃ z, tableNewtonFp 10 (Fp.mk4 5 10 0 1 3 77) = some z ∧ z.datum = .inf true := by
  obtain ⟨z, hz⟩ := C30_faithful_defined (FR := 10) (by decide) (by decide) (Fp.mk4 5 10 0 1 3 77)
  refine ⟨z, hz, (C30_faithful_exceptions (by decide) _ _ hz).1 true ?_⟩
  rw [Fp.mk4_datum (by decide) (by decide) (by decide) (by decide) (by decide) (by decide)]
  rfl

/-- The value of a result whose exponent field has wrapped to all ones. -/
theorem inv_wrapped_value {E FR s f : ℕ} (hE : 2 ≤ E) :
    ∃ q, denote E FR 1 s (2 ^ E - 1) f = .num q ∧ 2 ^ (bias E + 1) ≤ |q| := by
  refine ⟨_, rfl, ?_⟩
  rw [abs_signed (sig_scaled_pos _ _ _)]
  obtain ⟨-, hb2⟩ := bias_bounds hE
  have h1 : ((2 ^ E - 1 : ℕ) : ℤ) = 2 ^ E - 1 := by rw [Nat.cast_sub Nat.one_le_two_pow]; push_cast; rfl
  have h2 : (2 : ℚ) ^ (bias E + 1) = 2 ^ FR * 2 ^ (((2 ^ E - 1 : ℕ) : ℤ) - bias E - FR) := by
    rw [← zpow_natCast, ← zpow_add₀ (by norm_num)]; congr 1; rw [h1]; linarith
  rw [h2]
  apply mul_le_mul_of_nonneg_right _ (two_zpow_pos _).le
  push_cast
  have : (0 : ℚ) ≤ f := by positivity
  linarith

/-- **C30, the reciprocal of large numbers wraps around.** In every format whose operand is no finer than its result,
`inv_faithful` of every number strictly between `2^bias` and `2^(bias+1)` is at least `2^(bias+1)`, although the exact
reciprocal is below `2^-bias`: the exponent underflows by one and wraps. -/
theorem C30_faithful_wrap_wrong {E FY FR : ℕ} (hE : 2 ≤ E) (hF : FY ≤ FR) (y : Fp E FY) (z : Fp E FR) (v : ℚ)
    (hz : tableNewtonFp FR y = some z) (hy : y.datum = .num v) (hv1 : 2 ^ bias E < |v|)
    (hv2 : |v| < 2 ^ (bias E + 1)) : ∃ q, z.datum = .num q ∧ 2 ^ (bias E + 1) ≤ |q| ∧ |1 / v| < 2 ^ (-bias E) := by
  obtain ⟨h7, h62, h8, hS⟩ := tableNewtonFp_some hz
  obtain ⟨r, hr, h1, h2⟩ := tableNewtonFp_eq (by omega) y h7 h62 h8 hS
  rw [hz] at hr
  injection hr with hr
  rw [hr, result_datum (by omega) (by omega) y _ (exp_sel_lt baseExp_lt)]
  obtain ⟨he, hf0⟩ := exp_of_middle hE (by omega) hy hv1 hv2
  have hf1 := (datum_num_iff.mp hy).1
  have hfr := y.frac_lt (by omega : 1 ≤ FY)
  have hne : y.exp ≠ ones E := by unfold ones; omega
  have hfl : resultFlags E y.flags y.exp = 1 := by
    unfold resultFlags; rw [hf1]; simp [hne]
  have hrl : r < 2 ^ (FR + 1) := by
    by_contra hc
    push Not at hc
    have k1 := Nat.mul_le_mul_right (2 ^ FY + y.frac) hc
    have k2 : 2 ^ FY ≤ 2 ^ FR := Nat.pow_le_pow_right (by norm_num) hF
    have k3 : 2 ^ (FR + 1) = 2 * 2 ^ FR := by ring
    have k4 : 2 ^ (FR + 1 + FY) = 2 ^ (FR + 1) * 2 ^ FY := by ring
    have k5 : 1 ≤ y.frac := by omega
    have k6 : 2 ^ (FR + 1) ≤ 2 ^ (FR + 1) * y.frac := Nat.le_mul_of_pos_right _ k5
    rw [Nat.mul_add] at k1
    omega
  have hbit : getBit (FR + 1) r = false := by
    unfold getBit; rw [Nat.div_eq_of_lt hrl]; rfl
  rw [hfl, hbit, baseExp_wrap hE he]
  obtain ⟨q, hq, hq2⟩ := inv_wrapped_value (FR := FR) (s := y.sign) (f := r % 2 ^ FR) hE
  refine ⟨q, ?_, hq2, ?_⟩
  · rw [← hq]; rfl
  · have hv0 : 0 < |v| := (two_zpow_pos _).trans hv1
    rw [abs_div, abs_one, div_lt_iff₀ hv0, zpow_neg, ← div_eq_inv_mul, lt_div_iff₀ (two_zpow_pos _), one_mul]
    exact hv1

/-- With five exponent bits, 1/49152 is computed as 1.33*2^16. -/
example : tableNewtonFp 10 (Fp.mk4 5 10 1 0 30 512) = some (Fp.mk4 5 10 1 0 31 341) := by decide +kernel

/-- The outcome of `inv_direct`. -/
theorem inv_direct_eq {E FY FR : ℕ} (hFY : 1 ≤ FY) (hFY2 : FY ≤ 30) (hFR2 : FR ≤ 50) (hF : FY ≤ FR + 1)
    (y : Fp E FY) :
    directFp FR y = some (Fp.mk4 E FR (resultFlags E y.flags y.exp) y.sign
      (if getBit (FR + 1) (directEntry (FR + 1) FY y.frac) then addW E (baseExp E y.exp) 1 else baseExp E y.exp)
      (directEntry (FR + 1) FY y.frac % 2 ^ FR)) := by
  unfold directFp
  rw [if_pos (by omega), directEntry_bit (by omega) (y.frac_lt hFY) hF]
  simp only [decide_eq_true_eq]

/-- The reciprocal from the direct table is correctly rounded when the table entry is not above the midpoint. -/
theorem direct_rounded_core {E FY FR : ℕ} (hE : 2 ≤ E) (hFY : 1 ≤ FY) (hFY2 : FY ≤ 30) (hFR : 1 ≤ FR)
    (hF : FY ≤ FR + 1) (h50 : FR ≤ 50) (y : Fp E FY) (v : ℚ)
    (hy : y.datum = .num v) (hv : |v| ≤ 2 ^ bias E ∨ 2 ^ (bias E + 1) ≤ |v|)
    (hbd1 : (2 * (directEntry (FR + 1) FY y.frac : ℤ) - 1) * (2 ^ FY + y.frac) < 2 * 2 ^ (FR + 1 + FY)) :
    ∃ z : Fp E FR, directFp FR y = some z ∧ Rounded E FR (1 / v) z.datum := by
  refine ⟨_, inv_direct_eq hFY hFY2 (by omega) hF y, ?_⟩
  rw [result_datum (by omega) hFR y _ (exp_sel_lt baseExp_lt), inv_value hy]
  have hf1 := (datum_num_iff.mp hy).1
  have hfr := y.frac_lt hFY
  have hy1 : 2 ^ FY ≤ 2 ^ FY + y.frac := by omega
  have hy2 : 2 ^ FY + y.frac < 2 ^ (FY + 1) := by rw [pow_succ 2]; omega
  obtain ⟨hb1, hb2⟩ := bias_bounds hE
  have hyQ : (0 : ℚ) < ((2 ^ FY + y.frac : ℕ) : ℚ) := by
    have : 0 < 2 ^ FY + y.frac := by positivity
    exact_mod_cast this
  -- the exact value in units of the result
  set g : ℤ := bias E - y.exp - (FR + 1) with hg
  have hX : (2 : ℚ) ^ (bias E + FY - y.exp) / ((2 ^ FY + y.frac : ℕ) : ℚ) =
      ((2 ^ (FR + 1 + FY) : ℕ) : ℚ) / ((2 ^ FY + y.frac : ℕ) : ℚ) * 2 ^ g := by
    have : (2 : ℚ) ^ (bias E + FY - y.exp) = ((2 ^ (FR + 1 + FY) : ℕ) : ℚ) * 2 ^ g := by
      push_cast
      rw [← zpow_natCast, ← zpow_add₀ (by norm_num)]
      congr 1
      rw [hg]; push_cast; ring
    rw [this]; ring
  rw [hX]
  have hXpos : 0 < ((2 ^ (FR + 1 + FY) : ℕ) : ℚ) / ((2 ^ FY + y.frac : ℕ) : ℚ) * 2 ^ g := by positivity
  have hsg : decide ((if y.sign = 1 then (-1 : ℚ) else 1) *
      (((2 ^ (FR + 1 + FY) : ℕ) : ℚ) / ((2 ^ FY + y.frac : ℕ) : ℚ) * 2 ^ g) < 0) = decide (y.sign = 1) := by
    simp only [decide_eq_decide]; exact signed_neg hXpos
  have hexpcase : y.exp + 3 ≤ 2 ^ E ∨ (y.exp + 2 = 2 ^ E ∧ y.frac = 0) ∨ y.exp = ones E := by
    rcases hv with hv | hv
    · rcases exp_of_small hE hFY hy hv with h | h
      · exact Or.inl h
      · exact Or.inr (Or.inl h)
    · exact Or.inr (Or.inr (exp_of_large hE hFY hy hv))
  have h4 : 4 ≤ 2 ^ E := by
    calc 4 = 2 ^ 2 := rfl
      _ ≤ _ := Nat.pow_le_pow_right (by norm_num) hE
  by_cases hf0 : y.frac = 0
  · -- a power of two
    have hval : ((2 ^ (FR + 1 + FY) : ℕ) : ℚ) / ((2 ^ FY + y.frac : ℕ) : ℚ) * 2 ^ g = ((2 ^ FR : ℕ) : ℚ) * 2 ^ (g + 1) := by
      rw [hf0, two_zpow_succ]
      have : ((2 ^ (FR + 1 + FY) : ℕ) : ℚ) / ((2 ^ FY + 0 : ℕ) : ℚ) = 2 * 2 ^ FR := by
        rw [div_eq_iff (by positivity)]; push_cast; ring
      rw [this]; push_cast; ring
    refine ⟨2 ^ FR, g + 1, ?_, ?_⟩
    · rw [abs_signed hXpos, hval]
      apply nearest_down (by omega)
      · exact ⟨by rw [Nat.add_sub_cancel], by rw [pow_succ 2]; have : 0 < 2 ^ FR := by positivity
                                              omega⟩
      · exact le_refl _
      · rw [sub_self]; have := two_zpow_pos (g + 1); linarith
      · rw [sub_self]; intro h; have := two_zpow_pos (g + 1); linarith
    · rw [hsg, hf0, directEntry_one (by omega)]
      have hbit : getBit (FR + 1) (2 ^ (FR + 1)) = true := by
        unfold getBit; rw [Nat.div_self (by positivity)]; rfl
      have hmod : 2 ^ (FR + 1) % 2 ^ FR = 0 := by rw [show 2 ^ (FR + 1) = 2 * 2 ^ FR by ring, Nat.mul_mod_left]
      rw [hbit, hmod, if_pos rfl]
      unfold rangeCheck
      have hrange : g + 1 + FR + bias E = 2 ^ E - 2 - y.exp := by rw [hg]; linarith
      rw [hrange]
      have hdisj : y.exp + 2 ≤ 2 ^ E ∨ y.exp = ones E := by omega
      rcases hdisj with he2 | he2
      · have hne : y.exp ≠ ones E := by unfold ones; omega
        have hfl : resultFlags E y.flags y.exp = 1 := by
          unfold resultFlags; rw [hf1]; simp [hne]
        have heZ : (y.exp : ℤ) + 2 ≤ 2 ^ E := by exact_mod_cast he2
        have hexp : addW E (baseExp E y.exp) 1 = 2 ^ E - 2 - y.exp := by
          unfold addW
          rcases Nat.lt_or_ge (y.exp + 2) (2 ^ E) with h | h
          · rw [baseExp_eq (by omega), Nat.mod_eq_of_lt (by omega)]; omega
          · rw [baseExp_wrap hE (by omega), show 2 ^ E - 1 + 1 = 2 ^ E by omega, Nat.mod_self]; omega
        have n1 : ¬ ((2 : ℤ) ^ E - 2 - y.exp < 0) := by omega
        have n2 : ¬ ((2 : ℤ) ^ E ≤ 2 ^ E - 2 - y.exp) := by omega
        rw [hfl, hexp, if_neg n1, if_neg n2]
        unfold denote
        simp only [Nat.add_zero, decide_eq_true_eq]
        congr 4
        have : ((2 ^ E - 2 - y.exp : ℕ) : ℤ) = 2 ^ E - 2 - y.exp := by
          rw [Nat.cast_sub (by omega), Nat.cast_sub (by omega)]; push_cast; rfl
        rw [this, hg]; linarith
      · have hfl : resultFlags E y.flags y.exp = 0 := by
          unfold resultFlags; rw [hf1]; simp [he2]
        have heZ : (y.exp : ℤ) = 2 ^ E - 1 := by
          rw [he2]; unfold ones
          rw [Nat.cast_sub Nat.one_le_two_pow]; push_cast; rfl
        have n0 : (2 : ℤ) ^ E - 2 - y.exp < 0 := by omega
        rw [hfl, if_pos n0]
        rfl
  · -- not a power of two
    have hlt := directEntry_lt (LR := FR + 1) (by omega) hfr hf0 hF
    obtain ⟨-, hbd2, -⟩ := directEntry_bounds (LR := FR + 1) (by omega) hfr
    set r := directEntry (FR + 1) FY y.frac with hr
    have hnear := nearest_result (r := r) rfl hy1 hy2 (by push_cast; exact hbd1) (by push_cast; exact hbd2) hlt g
    refine ⟨r, g, ?_, ?_⟩
    · rw [abs_signed hXpos]; exact hnear
    · rw [hsg]
      have hr1 : 2 ^ FR ≤ r := by have := hnear.1.1; rwa [Nat.add_sub_cancel] at this
      have hbit : getBit (FR + 1) r = false := by
        unfold getBit; rw [Nat.div_eq_of_lt hlt]; rfl
      have hmod : r % 2 ^ FR = r - 2 ^ FR := by
        rw [pow_succ 2] at hlt
        rw [Nat.mod_eq_sub_mod hr1, Nat.mod_eq_of_lt (by omega)]
      rw [hbit, hmod]
      unfold rangeCheck
      have hrange : g + FR + bias E = 2 ^ E - 3 - y.exp := by rw [hg]; linarith
      rw [hrange]
      have hdisj : y.exp + 3 ≤ 2 ^ E ∨ y.exp = ones E := by omega
      rcases hdisj with he3 | he3
      · have hne : y.exp ≠ ones E := by unfold ones; omega
        have hfl : resultFlags E y.flags y.exp = 1 := by
          unfold resultFlags; rw [hf1]; simp [hne]
        have heZ : (y.exp : ℤ) + 3 ≤ 2 ^ E := by exact_mod_cast he3
        have n1 : ¬ ((2 : ℤ) ^ E - 3 - y.exp < 0) := by omega
        have n2 : ¬ ((2 : ℤ) ^ E ≤ 2 ^ E - 3 - y.exp) := by omega
        rw [hfl, if_neg n1, if_neg n2, baseExp_eq he3]
        unfold denote
        simp only [Bool.false_eq_true, if_false, decide_eq_true_eq]
        rw [show 2 ^ FR + (r - 2 ^ FR) = r by omega]
        congr 4
        have : ((2 ^ E - 3 - y.exp : ℕ) : ℤ) = 2 ^ E - 3 - y.exp := by
          rw [Nat.cast_sub (by omega), Nat.cast_sub (by omega)]; push_cast; rfl
        rw [this, hg]; linarith
      · have hfl : resultFlags E y.flags y.exp = 0 := by
          unfold resultFlags; rw [hf1]; simp [he3]
        have heZ : (y.exp : ℤ) = 2 ^ E - 1 := by
          rw [he3]; unfold ones
          rw [Nat.cast_sub Nat.one_le_two_pow]; push_cast; rfl
        have n0 : (2 : ℤ) ^ E - 3 - y.exp < 0 := by omega
        rw [hfl, if_pos n0]
        rfl

/-- **C30, the direct table is correctly rounded.** For operands no finer than the result plus one bit, and at most 51
fraction bits altogether, `inv_direct` of a normal number is the correctly rounded reciprocal, unless the number
lies strictly between `2^bias` and `2^(bias+1)`. Missing: that binade and wider operands, where the claim is false
(`C30_direct_wrap_wrong`, `C30_direct_wrong`), and wider formats, which `C30_direct_format_iff` settles. -/
theorem C30_direct_partial {E FY FR : ℕ} (hE : 2 ≤ E) (hFY : 1 ≤ FY) (hFY2 : FY ≤ 30) (hFR : 1 ≤ FR)
    (hF : FY ≤ FR + 1) (h51 : FR + FY ≤ 51) (y : Fp E FY) (v : ℚ)
    (hy : y.datum = .num v) (hv : |v| ≤ 2 ^ bias E ∨ 2 ^ (bias E + 1) ≤ |v|) :
    ∃ z : Fp E FR, directFp FR y = some z ∧ Rounded E FR (1 / v) z.datum := by
  obtain ⟨-, -, h⟩ := directEntry_bounds (LR := FR + 1) (by omega) (y.frac_lt hFY)
  exact direct_rounded_core hE hFY hFY2 hFR hF (by omega) y v hy hv (h (by omega) (by omega))

/-- 1/1.5 with ten fraction bits: 0.66650390625, the nearest. -/
example : directFp 10 (Fp.mk4 5 10 1 0 15 512) = some (Fp.mk4 5 10 1 0 14 341) := by decide +kernel

/-- **C30, the direct table is faithful** also for wider formats, under the same condition on the magnitude. -/
theorem C30_direct_faithful_partial {E FY FR : ℕ} (hE : 2 ≤ E) (hFY : 1 ≤ FY) (hFY2 : FY ≤ 30) (hFR : 1 ≤ FR)
    (hF : FY ≤ FR + 1) (h50 : FR ≤ 50) (y : Fp E FY) (v : ℚ)
    (hy : y.datum = .num v) (hv : |v| ≤ 2 ^ bias E ∨ 2 ^ (bias E + 1) ≤ |v|) :
    ∃ z : Fp E FR, directFp FR y = some z ∧ Faithful E FR (1 / v) z.datum := by
  refine ⟨_, inv_direct_eq hFY hFY2 h50 hF y, ?_⟩
  rw [result_datum (by omega) hFR y _ (exp_sel_lt baseExp_lt), inv_value hy]
  have hf1 := (datum_num_iff.mp hy).1
  have hfr := y.frac_lt hFY
  rcases hv with hv | hv
  · have he := exp_of_small hE hFY hy hv
    have hne : y.exp ≠ ones E := by
      have := Nat.one_le_two_pow (n := E)
      unfold ones; omega
    have hfl : resultFlags E y.flags y.exp = 1 := by
      unfold resultFlags; rw [hf1]; simp [hne]
    rw [hfl]
    obtain ⟨h1, h2⟩ := directEntry_faithful (LR := FR + 1) (by omega) hfr
    apply faithful_result hE (by omega) (by rw [pow_succ 2]; omega) h1 h2
    rcases he with he | ⟨he, hf0⟩
    · exact Or.inl he
    · right
      rw [hf0]
      exact ⟨he, directEntry_one (by omega)⟩
  · have he := exp_of_large hE hFY hy hv
    have hfl : resultFlags E y.flags y.exp = 0 := by
      unfold resultFlags; rw [hf1]; simp [he]
    rw [hfl]
    exact faithful_large hE he

/-- **C30, the direct table for finer operands.** When the operand has at least two more fraction bits than the result,
the reciprocal of `±(1+2^-wFY)*2^k` loses a factor of nearly two: the table entry rounds up to one but the exponent
is adjusted only for operands that are powers of two. -/
theorem C30_direct_wrong {E FY FR : ℕ} (hE : 2 ≤ E) (hFR : 1 ≤ FR) (hF : FR + 2 ≤ FY) (hFY2 : FY ≤ 30)
    (y : Fp E FY) (v : ℚ) (hy : y.datum = .num v) (hf : y.frac = 1) (he : y.exp + 3 ≤ 2 ^ E) :
    ∃ (z : Fp E FR) (q : ℚ), directFp FR y = some z ∧ z.datum = .num q ∧ 3 * |q| < 2 * |1 / v| := by
  obtain ⟨-, hbd2, -⟩ := directEntry_bounds (LR := FR + 1) (Ly := FY) (f := 1) (by omega)
    (Nat.one_lt_two_pow (by omega))
  obtain ⟨h1, h2⟩ := directEntry_faithful (LR := FR + 1) (Ly := FY) (f := 1) (by omega)
    (Nat.one_lt_two_pow (by omega))
  have hP : 0 < 2 ^ FY := by positivity
  have hPZ : (0 : ℤ) < 2 ^ FY := by positivity
  have hone : (1 : ℕ) < 2 ^ FY := Nat.one_lt_two_pow (by omega)
  obtain ⟨-, hr2⟩ := recip_bounds (by omega) (by omega : 2 ^ FY ≤ 2 ^ FY + 1) (by rw [pow_succ 2]; omega) h1 h2
  have hwide : (2 : ℤ) * 2 ^ (FR + 1) ≤ 2 ^ FY := by
    rw [← pow_succ']; exact pow_le_pow_right₀ (by norm_num) (by omega)
  have hr : directEntry (FR + 1) FY 1 = 2 ^ (FR + 1) := by
    have hr2Z : (directEntry (FR + 1) FY 1 : ℤ) ≤ 2 ^ (FR + 1) := by exact_mod_cast hr2
    have hge : (2 : ℤ) ^ (FR + 1) ≤ directEntry (FR + 1) FY 1 := by
      by_contra hc
      push Not at hc
      rw [pow_add 2 (FR + 1) FY] at hbd2
      push_cast at hbd2
      generalize (directEntry (FR + 1) FY 1 : ℤ) = r at *
      generalize (2 : ℤ) ^ (FR + 1) = A at *
      generalize (2 : ℤ) ^ FY = B at *
      have : (2 * r + 1) * (B + 1) ≤ (2 * A - 1) * (B + 1) := mul_le_mul_of_nonneg_right (by linarith) (by linarith)
      nlinarith
    have : (directEntry (FR + 1) FY 1 : ℤ) = 2 ^ (FR + 1) := le_antisymm hr2Z hge
    exact_mod_cast this
  have hf1 := (datum_num_iff.mp hy).1
  have hne : y.exp ≠ ones E := by unfold ones; omega
  have hfl : resultFlags E y.flags y.exp = 1 := by
    unfold resultFlags; rw [hf1]; simp [hne]
  have hmod : 2 ^ (FR + 1) % 2 ^ FR = 0 := by rw [show 2 ^ (FR + 1) = 2 * 2 ^ FR by ring, Nat.mul_mod_left]
  refine ⟨Fp.mk4 E FR (resultFlags E y.flags y.exp) y.sign (baseExp E y.exp) (2 ^ (FR + 1) % 2 ^ FR),
    (if y.sign = 1 then -1 else 1) *
      (((2 ^ FR + 0 : ℕ) : ℚ) * 2 ^ (((2 ^ E - 3 - y.exp : ℕ) : ℤ) - bias E - FR)), ?_, ?_, ?_⟩
  · unfold directFp
    rw [if_pos (by omega), hf, hr]
    simp only [Nat.one_ne_zero, if_false]
  · rw [result_datum (by omega) hFR y _ baseExp_lt, hfl, hmod, baseExp_eq he]
    rfl
  · obtain ⟨-, hb2⟩ := bias_bounds hE
    rw [inv_value hy, abs_signed (sig_scaled_pos _ _ _), hf]
    have hy0 : (0 : ℚ) < ((2 ^ FY + 1 : ℕ) : ℚ) := by positivity
    rw [abs_signed (div_pos (two_zpow_pos _) hy0)]
    have hcast : ((2 ^ E - 3 - y.exp : ℕ) : ℤ) = 2 ^ E - 3 - y.exp := by
      rw [Nat.cast_sub (by omega), Nat.cast_sub (by omega)]; push_cast; rfl
    have e1 : ((2 ^ FR + 0 : ℕ) : ℚ) * 2 ^ (((2 ^ E - 3 - y.exp : ℕ) : ℤ) - bias E - FR) =
        2 ^ (bias E - y.exp - 1) := by
      push_cast
      rw [add_zero, ← zpow_natCast, ← zpow_add₀ (by norm_num)]
      congr 1; rw [hcast]; linarith
    have e2 : (2 : ℚ) ^ (bias E + FY - y.exp) = 2 * 2 ^ FY * 2 ^ (bias E - y.exp - 1) := by
      rw [show (2 : ℚ) * 2 ^ FY = 2 ^ ((FY : ℤ) + 1) by rw [two_zpow_succ, zpow_natCast],
        ← zpow_add₀ (by norm_num)]
      congr 1; ring
    rw [e1, e2]
    have hg := two_zpow_pos (bias E - y.exp - 1)
    set G : ℚ := 2 ^ (bias E - y.exp - 1) with hG
    have h8 : (8 : ℚ) ≤ 2 ^ FY := by
      calc (8 : ℚ) = 2 ^ 3 := by norm_num
        _ ≤ _ := pow_le_pow_right₀ (by norm_num) (by omega)
    rw [← mul_div_assoc, lt_div_iff₀ hy0]
    push_cast
    nlinarith

/-- 1/(1+1/16) with one result bit: 0.5 instead of 1. -/
example : directFp 1 (Fp.mk4 4 4 1 0 7 1) = some (Fp.mk4 4 1 1 0 6 0) := by decide +kernel

/-- **C30, the direct table also wraps around** between `2^bias` and `2^(bias+1)`, in every format. -/
theorem C30_direct_wrap_wrong {E FY FR : ℕ} (hE : 2 ≤ E) (hFY : 1 ≤ FY) (hFY2 : FY ≤ 30) (hFR : 1 ≤ FR)
    (h50 : FR ≤ 50) (y : Fp E FY) (v : ℚ) (hy : y.datum = .num v) (hv1 : 2 ^ bias E < |v|)
    (hv2 : |v| < 2 ^ (bias E + 1)) :
    ∃ (z : Fp E FR) (q : ℚ), directFp FR y = some z ∧ z.datum = .num q ∧ 2 ^ (bias E + 1) ≤ |q| ∧
      |1 / v| < 2 ^ (-bias E) := by
  obtain ⟨he, hf0⟩ := exp_of_middle hE hFY hy hv1 hv2
  have hf1 := (datum_num_iff.mp hy).1
  have hne : y.exp ≠ ones E := by unfold ones; omega
  have hfl : resultFlags E y.flags y.exp = 1 := by
    unfold resultFlags; rw [hf1]; simp [hne]
  obtain ⟨q, hq, hq2⟩ := inv_wrapped_value (FR := FR) (s := y.sign) (f := directEntry (FR + 1) FY y.frac % 2 ^ FR) hE
  refine ⟨Fp.mk4 E FR (resultFlags E y.flags y.exp) y.sign (baseExp E y.exp)
    (directEntry (FR + 1) FY y.frac % 2 ^ FR), q, ?_, ?_, hq2, ?_⟩
  · unfold directFp
    rw [if_pos (by omega)]
    simp only [hf0, if_false]
  · rw [result_datum (by omega) hFR y _ baseExp_lt, hfl, baseExp_wrap hE he, hq]
  · have hv0 : 0 < |v| := (two_zpow_pos _).trans hv1
    rw [abs_div, abs_one, div_lt_iff₀ hv0, zpow_neg, ← div_eq_inv_mul, lt_div_iff₀ (two_zpow_pos _), one_mul]
    exact hv1

/-- **C30, exceptional operands** of `inv_direct`. -/
theorem C30_direct_exceptions {E FY FR : ℕ} (hE : 1 ≤ E) (hFR : 1 ≤ FR) (y : Fp E FY) (z : Fp E FR)
    (hz : directFp FR y = some z) :
    (∀ s, y.datum = .zero s → z.datum = .inf s) ∧ (∀ s, y.datum = .inf s → z.datum = .zero s) ∧
    (y.datum = .nan → z.datum = .nan) := by
  unfold directFp at hz
  split at hz
  swap
  · cases hz
  injection hz with hz
  rw [← hz, result_datum hE hFR y _ (by
    split
    · exact addW_lt _ _ _
    · exact baseExp_lt)]
  rcases flags_cases y with h | h | h | h
  · rw [datum_flags0 y h, h]
    refine ⟨?_, by simp, by simp⟩
    intro s hs; injection hs with hs; rw [← hs]; rfl
  · rw [datum_normal y h]; simp
  · rw [datum_flags2 y h, h]
    refine ⟨by simp, ?_, by simp⟩
    intro s hs; injection hs with hs; rw [← hs]; rfl
  · rw [datum_flags3 y h, h]
    exact ⟨by simp, by simp, fun _ => rfl⟩

end Thls
