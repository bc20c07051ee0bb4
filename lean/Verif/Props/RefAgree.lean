import Verif.Proofs.RefAgree

/-! # Property C54: the operators agree with the MPFR reference functions -/

namespace Thls
open Spec

/-- On the rounding path with equal exponent widths, multiplication is defined for every encoding. -/
theorem mulV1_total {wE wFR wFX wFY : ℕ} (x : Fp wE wFX) (y : Fp wE wFY) :
    ∃ r : Fp wE wFR, mulV1 wE wFR x y = some r := by
  have hb := biasN_lt (E := wE)
  have hpw : 2 ^ (wE + 2) = 4 * 2 ^ wE := by rw [pow_add]; ring
  unfold mulV1
  simp only []
  rw [if_neg (by omega)]
  split
  · rw [if_neg (lt_irrefl _)]; exact ⟨_, rfl⟩
  · rw [if_neg (by simp)]; exact ⟨_, rfl⟩

/-- **C54.** `mul` agrees with `ref_mul` on every pair of encodings, when the product is rounded. -/
theorem C54_mul_agrees {wE wFR wFX wFY : ℕ} (hE : 2 ≤ wE) (hR : 1 ≤ wFR) (hX : 1 ≤ wFX) (hY : 1 ≤ wFY)
    (hpath : wFR ≤ wFX + wFY) (x : Fp wE wFX) (y : Fp wE wFY) :
    ∃ r r' : Fp wE wFR, mulV1 wE wFR x y = some r ∧ refMul wE wFR x y = some r' ∧ r.equals r' = true := by
  obtain ⟨r, hr⟩ := mulV1_total (wFR := wFR) x y
  obtain ⟨r', hr', hd'⟩ := C53_ref_mul (ER := wE) (by omega) hR x y
  refine ⟨r, r', hr, hr', delivers_equals (by omega) hR (exactMul_delivers (by omega) hR ?_ ?_) hd'⟩
  · exact fun d hd => C12_mul_exceptions (by omega) hR (by omega) x y r hr d hd
  · intro p q hp hq
    obtain ⟨s, hs, hd⟩ := C10_mul_correctly_rounded hE hR hX hY hpath x y p q hp hq
    rw [hr] at hs
    rw [Option.some.inj hs]; exact hd

/-- **C54.** `mul` into a format with room for the whole product agrees with `ref_mul` unless the product of two numbers lies
below the range; then the operator returns NaN and the reference function does not. -/
theorem C54_mul_wide_agrees_iff {wE wFR wFX wFY : ℕ} (hE : 2 ≤ wE) (hX : 1 ≤ wFX) (hY : 1 ≤ wFY)
    (hpath : wFX + wFY + 1 ≤ wFR) (x : Fp wE wFX) (y : Fp wE wFY) :
    ∃ r r' : Fp wE wFR, mulV1 wE wFR x y = some r ∧ refMul wE wFR x y = some r' ∧
      (r.equals r' = true ↔ ∀ p q, x.datum = .num p → y.datum = .num q → (2 : ℚ) ^ (-bias wE) ≤ |p * q|) := by
  obtain ⟨r, hr⟩ := mulV1_total (wFR := wFR) x y
  obtain ⟨r', hr', hd'⟩ := C53_ref_mul (ER := wE) (FR := wFR) (by omega) (by omega) x y
  refine ⟨r, r', hr, hr', ?_, ?_⟩
  · intro heq p q hp hq
    by_contra hc
    push Not at hc
    obtain ⟨s, hs, hd⟩ := C11_mul_wide_underflow_is_nan hE hX hY hpath x y p q hp hq hc
    rw [hr] at hs
    rw [C07_equals_iff_same_datum (by omega) (by omega), Option.some.inj hs, hd] at heq
    rw [exactMul, hp, hq, ← heq] at hd'
    change if p * q = 0 then _ else _ at hd'
    rw [if_neg (mul_ne_zero (fp_num_ne_zero hp) (fp_num_ne_zero hq))] at hd'
    obtain ⟨m, e, -, h⟩ := hd'
    rw [rangeCheck] at h
    split_ifs at h
  · intro hlo
    refine delivers_equals (by omega) (by omega) (exactMul_delivers (by omega) (by omega) ?_ ?_) hd'
    · exact fun d hd => C12_mul_exceptions (by omega) (by omega) (by omega) x y r hr d hd
    · intro p q hp hq
      obtain ⟨s, hs, hd⟩ := C11_mul_wide_exact_partial hE hX hY hpath x y p q hp hq (hlo p q hp hq)
      rw [hr] at hs
      rw [← Option.some.inj hs] at hd
      by_cases hov : |p * q| < 2 ^ ((2 : ℤ) ^ wE - bias wE)
      · rw [if_pos hov] at hd
        exact rounded_self (by omega) (by omega) r _ hd
      · rw [if_neg hov] at hd
        rw [exactMul, hp, hq] at hd'
        change if p * q = 0 then _ else _ at hd'
        rw [if_neg (mul_ne_zero (fp_num_ne_zero hp) (fp_num_ne_zero hq))] at hd'
        change Rounded wE wFR (p * q) _ at hd'
        rw [hd, ← rounded_overflow hd' (not_lt.mp hov)]
        exact hd'

/-- **C54.** `div` (v1 and v2) agrees with `ref_div` on every pair of encodings. -/
theorem C54_div_agrees {wER wFR wEX wFX wEY wFY : ℕ} (hER : 2 ≤ wER) (hEX : 1 ≤ wEX) (hFX : 1 ≤ wFX)
    (hEY : 1 ≤ wEY) (hFY : 1 ≤ wFY) (hX : wEX ≤ wER ∧ wFX ≤ wFR) (hY : wEY ≤ wER ∧ wFY ≤ wFR)
    (x : Fp wEX wFX) (y : Fp wEY wFY) :
    ∃ r' : Fp wER wFR, refDiv wER wFR x y = some r' ∧ (divV1 wER wFR x y).equals r' = true ∧
      (divV2 wER wFR x y).equals r' = true := by
  obtain ⟨r', hr', hd'⟩ := C53_ref_div (ER := wER) (FR := wFR) (by omega) (by omega) x y
  have h : (divV1 wER wFR x y).equals r' = true := by
    refine delivers_equals (by omega) (by omega) (exactDiv_delivers (by omega) (by omega) ?_ ?_) hd'
    · exact fun d hd => C22_div_exceptions hEX hFX hEY hFY hX hY x y d hd
    · exact fun p q hp hq => C20_div_correctly_rounded hER hEX hFX hEY hFY hX hY x y p q hp hq
  refine ⟨r', hr', h, ?_⟩
  have := C21_div_versions_agree (wER := wER) (wFR := wFR) (by omega) x y
  rw [this]; exact h

/-- **C54.** The dual-path adder agrees with `ref_add` on every pair of encodings. Missing: the formats of C14 in which it is
not correctly rounded. -/
theorem C54_add_agrees_partial {wEX wFX wEY wFY : ℕ} (hEX : 1 ≤ wEX) (hFX : 1 ≤ wFX) (hEY : 1 ≤ wEY)
    (hFY : 1 ≤ wFY) (hE : 3 < max wEX wEY) (hok : DualFormat (max wEX wEY) (max wFX wFY))
    (hfmt : max wFX wFY ≤ 2 ^ (max wEX wEY + 1)) (x : Fp wEX wFX) (y : Fp wEY wFY) :
    ∃ r r', AddDual.add x y = some r ∧ refAdd (max wEX wEY) (max wFX wFY) x y = some r' ∧ r.equals r' = true := by
  obtain ⟨r', hr', hd'⟩ := C53_ref_add (ER := max wEX wEY) (FR := max wFX wFY) (by omega) (by omega) x y
  have key : ∃ r, AddDual.add x y = some r := by
    cases h : addSpecial x.datum y.datum with
    | some d =>
      obtain ⟨r, hr, -⟩ := C17_add_dual_exceptions hEX hFX hEY hFY hE hok x y d h
      exact ⟨r, hr⟩
    | none =>
      obtain ⟨p, q, hp, hq⟩ := (C17_addSpecial_domain _ _).mp h
      obtain ⟨r, hr, -⟩ := C14_add_correctly_rounded_partial hEX hFX hEY hFY hE hok hfmt x y p q hp hq
      exact ⟨r, hr⟩
  obtain ⟨r, hr⟩ := key
  refine ⟨r, r', hr, hr', delivers_equals (by omega) (by omega) (exactAdd_delivers (by omega) (by omega) ?_ ?_) hd'⟩
  · intro d hd
    obtain ⟨s, hs, h⟩ := C17_add_dual_exceptions hEX hFX hEY hFY hE hok x y d hd
    rw [hr] at hs; rw [Option.some.inj hs]; exact h
  · intro p q hp hq
    obtain ⟨s, hs, h⟩ := C14_add_correctly_rounded_partial hEX hFX hEY hFY hE hok hfmt x y p q hp hq
    rw [hr] at hs; rw [Option.some.inj hs]; exact h

/-- **C54.** The single-path adder agrees with `ref_add` outside the clamp case. Missing: the clamp case, in which they differ
(`C54_add_single_disagrees`), and the formats in which it asserts. -/
theorem C54_add_single_agrees_partial {wEX wFX wEY wFY : ℕ} (hEX : 1 ≤ wEX) (hFX : 1 ≤ wFX) (hEY : 1 ≤ wEY)
    (hFY : 1 ≤ wFY) (hfmt : max wFX wFY + 3 < 2 ^ max wEX wEY) (hfmt2 : max wFX wFY + 3 ≠ 2 ^ (max wEX wEY - 1))
    (x : Fp wEX wFX) (y : Fp wEY wFY)
    (hcl : ∀ p q, x.datum = .num p → y.datum = .num q →
      ¬ ClampCase (max wFX wFY) p q ∧ ¬ ClampCase (max wFX wFY) q p) :
    ∃ r r', AddSingle.add x y = some r ∧ refAdd (max wEX wEY) (max wFX wFY) x y = some r' ∧ r.equals r' = true := by
  have hE : 2 ≤ max wEX wEY := by
    by_contra hc
    have : max wEX wEY = 1 := by omega
    rw [this] at hfmt; omega
  obtain ⟨r', hr', hd'⟩ := C53_ref_add (ER := max wEX wEY) (FR := max wFX wFY) (by omega) (by omega) x y
  have key : ∃ r, AddSingle.add x y = some r := by
    cases h : addSpecial x.datum y.datum with
    | some d =>
      obtain ⟨⟨r, hr, -⟩, -⟩ := C17_add_single_exceptions hEX hFX hEY hFY hfmt hfmt2 x y d h
      exact ⟨r, hr⟩
    | none =>
      obtain ⟨p, q, hp, hq⟩ := (C17_addSpecial_domain _ _).mp h
      obtain ⟨r, hr, -⟩ := C15_add_single_correctly_rounded_partial hEX hFX hEY hFY hfmt hfmt2 x y p q hp hq
        (fun _ => hcl p q hp hq)
      exact ⟨r, hr⟩
  obtain ⟨r, hr⟩ := key
  refine ⟨r, r', hr, hr', delivers_equals (by omega) (by omega) (exactAdd_delivers (by omega) (by omega) ?_ ?_) hd'⟩
  · intro d hd
    obtain ⟨⟨s, hs, h⟩, -⟩ := C17_add_single_exceptions hEX hFX hEY hFY hfmt hfmt2 x y d hd
    rw [hr] at hs; rw [Option.some.inj hs]; exact h
  · intro p q hp hq
    obtain ⟨s, hs, h⟩ := C15_add_single_correctly_rounded_partial hEX hFX hEY hFY hfmt hfmt2 x y p q hp hq
      (fun _ => hcl p q hp hq)
    rw [hr] at hs; rw [Option.some.inj hs]; exact h

/-- **C54, a part that fails.** In the clamp case the single-path adder and `ref_add` return different numbers. -/
theorem C54_add_single_disagrees {E F : ℕ} (hE : 2 ≤ E) (hF : 1 ≤ F) (hfmt : F + 3 < 2 ^ (E - 1)) (x y : Fp E F)
    (vx vy : ℚ) (hx : x.datum = .num vx) (hy : y.datum = .num vy) (hcl : ClampCase F vx vy) :
    ∃ r r', AddSingle.addSame x y = some r ∧ refAdd E F x y = some r' ∧ r.equals r' = false := by
  obtain ⟨r, hr, -, hn⟩ := C15_add_single_clamp_wrong hE hF hfmt x y vx vy hx hy hcl
  obtain ⟨r', hr', hd'⟩ := C53_ref_add (ER := E) (FR := F) (by omega) hF x y
  refine ⟨r, r', hr, hr', ?_⟩
  rw [Bool.eq_false_iff, ne_eq, C07_equals_iff_same_datum (by omega) hF]
  intro h
  rw [← h, exactAdd, hx, hy] at hd'
  exact hn hd'

/-- **C54.** `neg` and `convert` agree with `ref_neg` and `ref_convert` on every encoding, except on exceptional operands whose
fraction is narrowed at equal exponent width. Missing: that exception, where the code is wrong
(`C54_convert_disagrees`). -/
theorem C54_convert_agrees_partial {ER FR EX FX : ℕ} (hER : 2 ≤ ER) (hFR : 1 ≤ FR) (hEX : 1 ≤ EX) (hFX : 1 ≤ FX)
    (x : Fp EX FX) (hw : (∃ v, x.datum = .num v) ∨ ER ≠ EX ∨ FX ≤ FR) :
    (∃ r', refConvert ER FR x = some r' ∧ (convert ER FR x).equals r' = true) ∧
    (∃ r', refNeg ER FR x = some r' ∧ (negV1 ER FR x).equals r' = true) := by
  have gen : ∀ z : Fp EX FX, ((∃ v, z.datum = .num v) ∨ ER ≠ EX ∨ FX ≤ FR) → Delivers ER FR z.datum (convert ER FR z).datum := by
    intro z hz
    by_cases hnum : ∃ v, z.datum = .num v
    · obtain ⟨v, hv⟩ := hnum
      rw [hv]
      change if v = 0 then _ else _
      rw [if_neg (fp_num_ne_zero hv)]
      exact C24_convert_correctly_rounded (by omega) hFR hEX hFX z v hv
    · refine delivers_self (by omega) hFR (C24_convert_special_partial (by omega) hFR hEX hFX z ?_ ?_)
      · exact fun v hv => hnum ⟨v, hv⟩
      · intro h1 h2
        rcases hz with h | h | h
        · exact absurd h hnum
        · exact absurd h1 h
        · omega
  obtain ⟨-, ⟨r1, h1, d1⟩, ⟨r2, h2, d2⟩, -, -⟩ := C53_ref_unary (ER := ER) (FR := FR) (by omega) hFR x 0
  refine ⟨⟨r2, h2, delivers_equals (by omega) hFR (gen x hw) d2⟩, ⟨r1, h1, delivers_equals (by omega) hFR ?_ d1⟩⟩
  rw [← flipSign_datum hEX hFX]
  refine gen _ ?_
  rcases hw with ⟨v, hv⟩ | h
  · exact Or.inl ⟨-v, by rw [flipSign_datum hEX hFX, hv]; rfl⟩
  · exact Or.inr h

/-- **C54, a part that fails.** There are zeros and NaNs on which `convert` and `ref_convert` differ, in every narrowing at equal
exponent width. -/
theorem C54_convert_disagrees {E FR FX : ℕ} (hE : 2 ≤ E) (hFR : 1 ≤ FR) (h : FR < FX) :
    ∃ z : Fp E FX, z.datum = .zero false ∧ ∃ r', refConvert E FR z = some r' ∧ (convert E FR z).equals r' = false := by
  obtain ⟨z, -, hz, hi, -, -⟩ := C24_convert_special_wrong (E := E) (by omega) hFR h
  obtain ⟨-, -, ⟨r2, h2, d2⟩, -, -⟩ := C53_ref_unary (ER := E) (FR := FR) (by omega) hFR z 0
  refine ⟨z, hz, r2, h2, ?_⟩
  rw [Bool.eq_false_iff, ne_eq, C07_equals_iff_same_datum (by omega) hFR, hi]
  rw [hz] at d2
  rw [show r2.datum = .zero false from d2]
  simp

/-- The hypotheses are met by single precision, and a rounded product, a rounded quotient and a sum agree there. -/
example : DualFormat 8 23 ∧ 23 < 2 ^ (8 + 1) ∧ 23 + 3 < 2 ^ 8 ∧ 23 + 3 ≠ 2 ^ (8 - 1) ∧
    mulV1 4 3 (Fp.mk4 4 3 1 0 7 7) (Fp.mk4 4 3 1 0 7 7) = some (Fp.mk4 4 3 1 0 8 6) ∧
    (mulV1 4 7 (Fp.mk4 4 3 1 0 0 0) (Fp.mk4 4 3 1 0 0 0)).map Fp.isNan = some true := by
  refine ⟨?_, by decide, by decide, by decide, by decide, by decide⟩
  intro k hk
  exfalso
  have : k < 7 := by
    by_contra hc
    have : 2 ^ 7 ≤ 2 ^ k := Nat.pow_le_pow_right (by norm_num) (by omega)
    omega
  interval_cases k <;> omega

end Thls
