import Verif.Proofs.MulOneBit
import Verif.Props.RefAgree

/-! # Properties C10, C11 and C54 in formats with a one-bit exponent

The exponent of the product has two bits more than those of the operands, which is one too few for the carry of the rounding if there is only one
exponent bit. -/

namespace Thls
open Spec

/-- **C10, one-bit exponents.** The product is rounded correctly exactly if it is below `16 * (1 - 2^-(wFR+2))`; all larger products, which
should be infinities, are returned as zeros. -/
theorem C10_mul_one_exponent_bit_iff {wFR wFX wFY : ℕ} (hR : 1 ≤ wFR) (hX : 1 ≤ wFX) (hY : 1 ≤ wFY) (hpath : wFR ≤ wFX + wFY)
    (x : Fp 1 wFX) (y : Fp 1 wFY) (vx vy : ℚ) (hx : x.datum = .num vx) (hy : y.datum = .num vy) :
    ∃ r : Fp 1 wFR, mulV1 1 wFR x y = some r ∧ (Rounded 1 wFR (vx * vy) r.datum ↔ |vx * vy| < 16 * (1 - 1 / 2 ^ (wFR + 2))) ∧
      (16 * (1 - 1 / 2 ^ (wFR + 2)) ≤ |vx * vy| → r.datum = .zero (decide (vx * vy < 0)) ∧ Rounded 1 wFR (vx * vy) (.inf (decide (vx * vy < 0)))) := by
  obtain ⟨hfx, rfl⟩ := datum_num_iff.mp hx
  obtain ⟨hfy, rfl⟩ := datum_num_iff.mp hy
  obtain ⟨hq, hsgn⟩ := prod_value x y
  generalize (if x.sign = 1 then (-1 : ℚ) else 1) * (((2 ^ wFX + x.frac : ℕ) : ℚ) * 2 ^ ((x.exp : ℤ) - bias 1 - wFX)) *
    ((if y.sign = 1 then (-1 : ℚ) else 1) * (((2 ^ wFY + y.frac : ℕ) : ℚ) * 2 ^ ((y.exp : ℤ) - bias 1 - wFY))) = q at hq hsgn ⊢
  have hxe := x.exp_lt le_rfl
  have hye := y.exp_lt le_rfl
  obtain ⟨hP1, hP2⟩ := prod_bounds (x.frac_lt hX) (y.frac_lt hY)
  obtain ⟨hG1, hG2⟩ := sigProdExt_spec (by omega) hP1 hP2
  obtain ⟨k, hk⟩ : ∃ k, wFX + wFY + 1 = k + wFR := ⟨wFX + wFY + 1 - wFR, by omega⟩
  have hb1 : bias 1 = 0 := by norm_num [bias]
  refine ⟨mulRound 1 wFR (wFX + wFY + 2) 1 ((x.sign + y.sign) % 2)
    (mulExp 1 1 x.exp y.exp (getBit (wFX + wFY + 1) ((2 ^ wFX + x.frac) * (2 ^ wFY + y.frac))))
    (mulSigExt (wFX + wFY + 2) (getBit (wFX + wFY + 1) ((2 ^ wFX + x.frac) * (2 ^ wFY + y.frac)))
      ((2 ^ wFX + x.frac) * (2 ^ wFY + y.frac))), ?_, ?_⟩
  · unfold mulV1
    rw [show wFX + 1 + wFY + 1 = wFX + wFY + 2 by omega, show wFX + wFY + 2 - 1 = wFX + wFY + 1 by omega]
    simp only [hfx, hfy, mulExc_normal, opadHi1]
    rw [if_neg (by decide), if_neg (by omega), if_neg (by simp)]
  generalize (2 ^ wFX + x.frac) * (2 ^ wFY + y.frac) = P at *
  have hexp := mulExp_cast (wE := 1) (ex := x.exp) (ey := y.exp) (getBit (wFX + wFY + 1) P)
  generalize getBit (wFX + wFY + 1) P = norm at *
  generalize mulSigExt (wFX + wFY + 2) norm P = G at *
  have hn1 := Bool.toNat_le norm
  have hw : wFX + wFY + 2 = k + 1 + wFR := by omega
  rw [hw] at hG1 hG2 ⊢
  obtain ⟨hf, hN⟩ := split_fraction hG1
  have hkk : (wFX : ℤ) + wFY + 1 = k + wFR := by exact_mod_cast hk
  have hlow : G % 2 ^ k < 2 ^ k := Nat.mod_lt _ (by positivity)
  have hqN : |q| = ((2 ^ (k + 1 + wFR) + G : ℕ) : ℚ) * 2 ^ ((x.exp : ℤ) + y.exp - 2 * bias 1 - wFX - wFY + norm.toNat - 2) := by
    rw [hq]; exact scale_eq hG2
  obtain ⟨t, ht⟩ : ∃ t : ℤ, t = ((x.exp : ℤ) + y.exp - bias 1 + norm.toNat) * 2 ^ wFR + (G / 2 ^ (k + 1) : ℕ) +
      (if getBit k G && (decide (G % 2 ^ k ≠ 0) || decide (G / 2 ^ (k + 1) % 2 = 1)) then 1 else 0) := ⟨_, rfl⟩
  have hround : Rounded 1 wFR q (packedDatum 1 wFR (decide (q < 0)) t) := by
    rw [ht]
    exact rounded_of_int hR hf hqN hN hlow (by linarith)
  obtain ⟨hc, hle⟩ := one_bit_carry (F := wFR) (f := G / 2 ^ (k + 1)) (low := G % 2 ^ k) (k := k) (r := getBit k G)
    (be := (x.exp : ℤ) + y.exp - bias 1 + norm.toNat) (a := |q|) hR hf hlow (by rw [hb1]; omega) (by
      rw [hqN, hN, hb1, div_mul_eq_mul_div, mul_div_assoc, ← zpow_natCast, ← zpow_sub₀ (by norm_num)]
      congr 2
      linarith)
  rw [← ht] at hc hle
  have ht0 : 0 ≤ t := by
    rw [ht, hb1]
    have : (0 : ℤ) ≤ if getBit k G && (decide (G % 2 ^ k ≠ 0) || decide (G / 2 ^ (k + 1) % 2 = 1)) then 1 else 0 := by split <;> norm_num
    have h2 : (0 : ℤ) ≤ ((x.exp : ℤ) + y.exp - 0 + norm.toNat) * 2 ^ wFR := mul_nonneg (by omega) (by positivity)
    exact add_nonneg (add_nonneg h2 (Int.natCast_nonneg _)) this
  rw [mulRound_datum_sum le_rfl hR (by omega) hG1 (Nat.mod_lt _ (by norm_num)) hexp ht (by
    have : (0 : ℤ) < 2 ^ (1 + wFR + 1) := by positivity
    linarith) hle, show decide ((x.sign + y.sign) % 2 = 1) = decide (q < 0) by simp [hsgn]]
  have hinf : t = 2 ^ (1 + wFR + 1) → packedDatum 1 wFR (decide (q < 0)) t = .inf (decide (q < 0)) := by
    intro h
    unfold packedDatum
    rw [if_neg (by omega), if_pos (by rw [h]; exact pow_le_pow_right₀ (by norm_num) (by omega))]
  constructor
  · by_cases h : t = 2 ^ (1 + wFR + 1)
    · rw [if_pos h]
      refine iff_of_false ?_ (not_lt.mpr (hc.mp h))
      intro hz
      have := rounded_unique hz hround
      rw [hinf h] at this
      cases this
    · rw [if_neg h]
      exact iff_of_true hround (not_le.mp fun hh => h (hc.mpr hh))
  · intro h
    have h' := hc.mpr h
    rw [if_pos h']
    exact ⟨rfl, hinf h' ▸ hround⟩

/-- **C10, one-bit exponents, operands and result of the same format.** No product is large enough to go wrong. -/
theorem C10_mul_one_exponent_bit_same {F : ℕ} (hF : 1 ≤ F) (x y : Fp 1 F) (vx vy : ℚ) (hx : x.datum = .num vx) (hy : y.datum = .num vy) :
    ∃ r : Fp 1 F, mulV1 1 F x y = some r ∧ Rounded 1 F (vx * vy) r.datum := by
  obtain ⟨r, hr, h, -⟩ := C10_mul_one_exponent_bit_iff hF hF hF (by omega) x y vx vy hx hy
  refine ⟨r, hr, h.mpr ?_⟩
  have hP : (0 : ℚ) < 2 ^ F := by positivity
  have key : ∀ (z : Fp 1 F) (v : ℚ), z.datum = .num v → |v| ≤ 4 * (1 - 1 / (2 * 2 ^ F)) := by
    intro z v hz
    obtain ⟨-, rfl⟩ := datum_num_iff.mp hz
    have hf := z.frac_lt hF
    have he := z.exp_lt le_rfl
    have hfq : ((2 ^ F + z.frac : ℕ) : ℚ) ≤ 2 * 2 ^ F - 1 := by
      have : ((2 ^ F + z.frac + 1 : ℕ) : ℚ) ≤ ((2 * 2 ^ F : ℕ) : ℚ) := by exact_mod_cast (by omega : 2 ^ F + z.frac + 1 ≤ 2 * 2 ^ F)
      push_cast at this ⊢; linarith
    have hz2 : (2 : ℚ) ^ ((z.exp : ℤ) - bias 1 - F) ≤ 2 ^ (1 - (F : ℤ)) := zpow_le_zpow_right₀ (by norm_num) (by
      norm_num [bias]; omega)
    have habs : abs ((if z.sign = 1 then (-1 : ℚ) else 1) * (((2 ^ F + z.frac : ℕ) : ℚ) * 2 ^ ((z.exp : ℤ) - bias 1 - F))) =
        ((2 ^ F + z.frac : ℕ) : ℚ) * 2 ^ ((z.exp : ℤ) - bias 1 - F) := by
      rw [abs_mul, abs_of_nonneg (show (0 : ℚ) ≤ ((2 ^ F + z.frac : ℕ) : ℚ) * 2 ^ ((z.exp : ℤ) - bias 1 - F) by positivity)]
      split <;> simp
    rw [habs]
    refine (mul_le_mul hfq hz2 (by positivity) (by linarith [one_le_pow₀ (show (1 : ℚ) ≤ 2 by norm_num) (n := F)])).trans (le_of_eq ?_)
    rw [zpow_sub₀ (by norm_num), zpow_natCast]; field_simp; ring
  have h1 := key x vx hx
  have h2 := key y vy hy
  rw [abs_mul]
  have h3 := mul_le_mul h1 h2 (abs_nonneg _) ((abs_nonneg _).trans h1)
  refine lt_of_le_of_lt h3 ?_
  have hu : (0 : ℚ) < 1 / 2 ^ F := by positivity
  have hu1 : (1 : ℚ) / 2 ^ F ≤ 1 := by
    rw [div_le_one hP]; exact one_le_pow₀ (by norm_num)
  have e1 : (1 : ℚ) / (2 * 2 ^ F) = 1 / 2 ^ F / 2 := by field_simp
  have e2 : (1 : ℚ) / 2 ^ (F + 2) = 1 / 2 ^ F / 4 := by rw [pow_add]; field_simp; norm_num
  rw [e1, e2]
  generalize (1 : ℚ) / 2 ^ F = u at *
  nlinarith

/-- The largest numbers with two fraction bits, 3.5 each: in four fraction bits their product 12.25 is an infinity, as it should be; and a case
that goes wrong: the largest numbers with five fraction bits, 3.9375 each, whose product 15.50390625 is to be rounded to one fraction bit, give a zero. -/
example : (∃ r : Fp 1 4, mulV1 1 4 (Fp.mk4 1 2 1 0 1 3) (Fp.mk4 1 2 1 0 1 3) = some r ∧ r.flags = 2) ∧
    (∃ r : Fp 1 1, mulV1 1 1 (Fp.mk4 1 5 1 0 1 31) (Fp.mk4 1 5 1 0 1 31) = some r ∧ r.flags = 0) := by decide +kernel

/-- **C11, one-bit exponents.** With room for the whole product nothing goes wrong: no product is below the range. -/
theorem C11_mul_wide_one_exponent_bit {wFR wFX wFY : ℕ} (hX : 1 ≤ wFX) (hY : 1 ≤ wFY) (hpath : wFX + wFY + 1 ≤ wFR) (x : Fp 1 wFX)
    (y : Fp 1 wFY) (vx vy : ℚ) (hx : x.datum = .num vx) (hy : y.datum = .num vy) :
    ∃ r : Fp 1 wFR, mulV1 1 wFR x y = some r ∧ r.datum = if |vx * vy| < 4 then .num (vx * vy) else .inf (decide (vx * vy < 0)) := by
  obtain ⟨r, be, hr, h1, h2, hd⟩ := mulV1_exact_any le_rfl hX hY hpath hx hy
  have hb1 : bias 1 = 0 := by norm_num [bias]
  rw [hb1, sub_zero] at h1 h2
  have hge : ∀ {F : ℕ} (z : Fp 1 F) (v : ℚ), z.datum = .num v → 1 ≤ |v| := by
    intro F z v hz
    obtain ⟨-, rfl⟩ := datum_num_iff.mp hz
    have habs : abs ((if z.sign = 1 then (-1 : ℚ) else 1) * (((2 ^ F + z.frac : ℕ) : ℚ) * 2 ^ ((z.exp : ℤ) - bias 1 - F))) =
        ((2 ^ F + z.frac : ℕ) : ℚ) * 2 ^ ((z.exp : ℤ) - bias 1 - F) := by
      rw [abs_mul, abs_of_nonneg (show (0 : ℚ) ≤ ((2 ^ F + z.frac : ℕ) : ℚ) * 2 ^ ((z.exp : ℤ) - bias 1 - F) by positivity)]
      split <;> simp
    rw [habs, hb1, sub_zero, zpow_sub₀ (by norm_num), zpow_natCast, zpow_natCast]
    have hP : (0 : ℚ) < 2 ^ F := by positivity
    have h1 : (1 : ℚ) ≤ 2 ^ z.exp := one_le_pow₀ (by norm_num)
    have h2 : (2 : ℚ) ^ F ≤ ((2 ^ F + z.frac : ℕ) : ℚ) := by push_cast; linarith [Nat.cast_nonneg (α := ℚ) z.frac]
    rw [mul_div_assoc', le_div_iff₀ hP, one_mul]
    nlinarith
  have hq : 1 ≤ |vx * vy| := by rw [abs_mul]; exact one_le_mul_of_one_le_of_one_le (hge x vx hx) (hge y vy hy)
  have hbe : 0 ≤ be := by
    by_contra hc
    have : (2 : ℚ) ^ (be + 1) ≤ 2 ^ (0 : ℤ) := zpow_le_zpow_right₀ (by norm_num) (by omega)
    rw [zpow_zero] at this
    linarith
  refine ⟨r, hr, ?_⟩
  rw [hd, if_neg (by omega)]
  by_cases hov : 2 ^ 1 ≤ be
  · have : (2 : ℚ) ^ (2 : ℤ) ≤ 2 ^ be := zpow_le_zpow_right₀ (by norm_num) (by omega)
    norm_num at this
    rw [if_pos hov, if_neg (by linarith)]
  · have : (2 : ℚ) ^ (be + 1) ≤ 2 ^ (2 : ℤ) := zpow_le_zpow_right₀ (by norm_num) (by omega)
    norm_num at this
    rw [if_neg hov, if_pos (by linarith)]

/-- **C54, one-bit exponents.** `mul` agrees with `ref_mul` except on the products that become zeros. -/
theorem C54_mul_one_exponent_bit_agrees_iff {wFR wFX wFY : ℕ} (hR : 1 ≤ wFR) (hX : 1 ≤ wFX) (hY : 1 ≤ wFY) (hpath : wFR ≤ wFX + wFY)
    (x : Fp 1 wFX) (y : Fp 1 wFY) :
    ∃ r r' : Fp 1 wFR, mulV1 1 wFR x y = some r ∧ refMul 1 wFR x y = some r' ∧
      (r.equals r' = true ↔ ∀ p q, x.datum = .num p → y.datum = .num q → |p * q| < 16 * (1 - 1 / 2 ^ (wFR + 2))) := by
  obtain ⟨r, hr⟩ := mulV1_total (wFR := wFR) x y
  obtain ⟨r', hr', hd'⟩ := C53_ref_mul (ER := 1) le_rfl hR x y
  refine ⟨r, r', hr, hr', ?_, ?_⟩
  · intro heq p q hp hq
    obtain ⟨s, hs, hi, -⟩ := C10_mul_one_exponent_bit_iff hR hX hY hpath x y p q hp hq
    rw [hr] at hs
    cases hs
    rw [← hi, (C07_equals_iff_same_datum le_rfl hR r r').mp heq]
    rw [exactMul, hp, hq] at hd'
    change if p * q = 0 then _ else _ at hd'
    rw [if_neg (mul_ne_zero (fp_num_ne_zero hp) (fp_num_ne_zero hq))] at hd'
    exact hd'
  · intro h
    refine delivers_equals le_rfl hR (exactMul_delivers le_rfl hR ?_ ?_) hd'
    · exact fun d hd => C12_mul_exceptions le_rfl hR (by omega) x y r hr d hd
    · intro p q hp hq
      obtain ⟨s, hs, hi, -⟩ := C10_mul_one_exponent_bit_iff hR hX hY hpath x y p q hp hq
      rw [hr] at hs
      cases hs
      exact hi.mpr (h p q hp hq)

/-- `3 * 1` with one fraction bit each and room for the product is three. -/
example : ∃ r : Fp 1 3, mulV1 1 3 (Fp.mk4 1 1 1 0 1 1) (Fp.mk4 1 1 1 0 0 0) = some r ∧ r = Fp.mk4 1 3 1 0 1 4 := by decide +kernel

end Thls
