import Verif.Proofs.Mul

/-! # Properties C10-C13: multiplication -/

namespace Thls
open Spec

/-- **C10.** When the result fraction is too short to hold the exact product, `mul` returns the product of
two normal numbers rounded to nearest, ties to even, with overflow to infinity and underflow to zero. -/
theorem C10_mul_correctly_rounded {wE wFR wFX wFY : ℕ} (hE : 2 ≤ wE) (hR : 1 ≤ wFR) (hX : 1 ≤ wFX)
    (hY : 1 ≤ wFY) (hpath : wFR ≤ wFX + wFY) (x : Fp wE wFX) (y : Fp wE wFY) (vx vy : ℚ)
    (hx : x.datum = .num vx) (hy : y.datum = .num vy) :
    ∃ r : Fp wE wFR, mulV1 wE wFR x y = some r ∧ Rounded wE wFR (vx * vy) r.datum := by
  obtain ⟨hfx, rfl⟩ := datum_num_iff.mp hx
  obtain ⟨hfy, rfl⟩ := datum_num_iff.mp hy
  obtain ⟨r, hr, h⟩ := mulV1_round hE hR hX hY hpath x y hfx hfy
  refine ⟨r, hr, h _ ?_ ?_⟩
  · exact (prod_value x y).1
  · exact (prod_value x y).2

/-- 1.5 * 1.25 in a format with 3 fraction bits is exact; the hypotheses are met. -/
example : (Fp.mk4 4 3 1 0 7 4).datum = .num (3/2) := by
  rw [Fp.mk4_datum (by decide) (by decide) (by decide) (by decide) (by decide) (by decide)]
  norm_num [denote, bias]

/-- A case that does round: 1.875 * 1.875 = 3.515625 is rounded to 3.5. -/
example : ∃ r : Fp 4 3, mulV1 4 3 (Fp.mk4 4 3 1 0 7 7) (Fp.mk4 4 3 1 0 7 7) = some r ∧ r = Fp.mk4 4 3 1 0 8 6 := by
  decide

/-- **C11.** When the result fraction has room for the whole product (`wFR ≥ wFX+wFY+1`) and the product does
not underflow, `mul` is exact, or returns the infinity of the right sign when the product is too large. -/
theorem C11_mul_wide_exact_partial {wE wFR wFX wFY : ℕ} (hE : 2 ≤ wE) (hX : 1 ≤ wFX) (hY : 1 ≤ wFY)
    (hpath : wFX + wFY + 1 ≤ wFR) (x : Fp wE wFX) (y : Fp wE wFY) (vx vy : ℚ)
    (hx : x.datum = .num vx) (hy : y.datum = .num vy) (hlo : (2 : ℚ) ^ (-bias wE) ≤ |vx * vy|) :
    ∃ r : Fp wE wFR, mulV1 wE wFR x y = some r ∧
      r.datum = if |vx * vy| < 2 ^ ((2 : ℤ) ^ wE - bias wE) then .num (vx * vy)
        else .inf (decide (vx * vy < 0)) := by
  obtain ⟨r, be, hr, h1, h2, hd⟩ := mulV1_exact hE hX hY hpath hx hy
  refine ⟨r, hr, ?_⟩
  have hbe : 0 ≤ be := by
    by_contra hc
    have : (2 : ℚ) ^ (be + 1 - bias wE) ≤ 2 ^ (-bias wE) := zpow_le_zpow_right₀ (by norm_num) (by omega)
    linarith
  rw [hd, if_neg (by omega)]
  by_cases hov : 2 ^ wE ≤ be
  · have : (2 : ℚ) ^ ((2 : ℤ) ^ wE - bias wE) ≤ 2 ^ (be - bias wE) := zpow_le_zpow_right₀ (by norm_num) (by omega)
    rw [if_pos hov, if_neg (by linarith)]
  · have : (2 : ℚ) ^ (be + 1 - bias wE) ≤ 2 ^ ((2 : ℤ) ^ wE - bias wE) :=
      zpow_le_zpow_right₀ (by norm_num) (by omega)
    rw [if_neg hov, if_pos (by linarith)]

/-- **C11, the part that fails.** A product below the normal range computed into a wide result is NaN,
although zero (the underflow result of the rounding path) is the only sensible answer. -/
theorem C11_mul_wide_underflow_is_nan {wE wFR wFX wFY : ℕ} (hE : 2 ≤ wE) (hX : 1 ≤ wFX) (hY : 1 ≤ wFY)
    (hpath : wFX + wFY + 1 ≤ wFR) (x : Fp wE wFX) (y : Fp wE wFY) (vx vy : ℚ)
    (hx : x.datum = .num vx) (hy : y.datum = .num vy) (hlo : |vx * vy| < (2 : ℚ) ^ (-bias wE)) :
    ∃ r : Fp wE wFR, mulV1 wE wFR x y = some r ∧ r.datum = .nan := by
  obtain ⟨r, be, hr, h1, h2, hd⟩ := mulV1_exact hE hX hY hpath hx hy
  refine ⟨r, hr, ?_⟩
  have hbe : be < 0 := by
    by_contra hc
    have : (2 : ℚ) ^ (-bias wE) ≤ 2 ^ (be - bias wE) := zpow_le_zpow_right₀ (by norm_num) (by omega)
    linarith
  rw [hd, if_pos hbe]

/-- **C11, the part that fails: a wider result exponent.** `mul` into a format with more exponent bits than the operands
violates a precondition on every pair of encodings, whatever the fraction widths. -/
theorem C11_mul_wider_exponent_asserts {wER wFR wE wFX wFY : ℕ} (h : wE < wER) (x : Fp wE wFX) (y : Fp wE wFY) :
    mulV1 wER wFR x y = none := by
  unfold mulV1
  simp only [h, if_true]
  split_ifs <;> first | rfl | (exfalso; omega)

/-- **C11, the part that fails: a narrower result exponent.** `mul` into a format with fewer exponent bits runs when the
fraction is wide enough for the product, but the product of one and one is then NaN or infinity. -/
theorem C11_mul_narrower_exponent_wrong {wER wFR wE wFX wFY : ℕ} (hER : 2 ≤ wER) (h : wER < wE) (hX : 1 ≤ wFX) (hY : 1 ≤ wFY)
    (hpath : wFX + wFY + 1 ≤ wFR) :
    (Fp.mk4 wE wFX 1 0 (biasN wE) 0).datum = .num 1 ∧ (Fp.mk4 wE wFY 1 0 (biasN wE) 0).datum = .num 1 ∧
    ∃ r, mulV1 wER wFR (Fp.mk4 wE wFX 1 0 (biasN wE) 0) (Fp.mk4 wE wFY 1 0 (biasN wE) 0) = some r ∧
      (r.datum = .nan ∨ r.datum = .inf false) := by
  have hbE := biasN_lt (E := wE)
  have hone : ∀ F, 1 ≤ F → (Fp.mk4 wE F 1 0 (biasN wE) 0).datum = .num 1 := by
    intro F hF
    have hz : (0 : ℕ) < 2 ^ F := by positivity
    rw [Fp.mk4_datum (by decide) (by decide) hbE hz (by omega) hF]
    simp only [denote, pow_bias]
    norm_num
  refine ⟨hone wFX hX, hone wFY hY, ?_⟩
  have hzX : (0 : ℕ) < 2 ^ wFX := by positivity
  have hzY : (0 : ℕ) < 2 ^ wFY := by positivity
  obtain ⟨p, hp⟩ : ∃ p, p = 2 ^ (wER - 1) := ⟨_, rfl⟩
  obtain ⟨j, hj⟩ := Nat.exists_eq_add_of_lt h
  have hp2 : 2 ^ wER = 2 * p := by
    conv_lhs => rw [show wER = (wER - 1) + 1 by omega, pow_succ 2, ← hp]
    ring
  have hbR : biasN wER = p - 1 := by unfold biasN; rw [hp]
  have hEk : 2 ^ wE = 2 * p * (2 * 2 ^ j) := by rw [hj, pow_succ 2, pow_add, hp2]; ring
  have hbE2 : 2 * biasN wE + 2 = 2 ^ wE := by
    unfold biasN
    have h1 : 2 ^ wE = 2 * 2 ^ (wE - 1) := by
      conv_lhs => rw [show wE = (wE - 1) + 1 by omega, pow_succ 2]
      ring
    have h2 : 0 < 2 ^ (wE - 1) := by positivity
    omega
  have hp1 : 1 ≤ p := by rw [hp]; exact Nat.one_le_two_pow
  have hj1 : 1 ≤ 2 ^ j := Nat.one_le_two_pow
  have hpw : 2 ^ (wE + 2) = 4 * 2 ^ wE := by rw [pow_add]; ring
  have hk : 2 * p * (2 * 2 ^ j) = 2 * p * (2 * 2 ^ j - 1) + 2 * p := by
    rw [← Nat.mul_succ]; congr 1; omega
  have hpk : 2 * p ≤ 2 * p * (2 * 2 ^ j - 1) := Nat.le_mul_of_pos_right _ (by omega)
  -- the exponent before range checking
  have hep : mulExp wER wE (biasN wE) (biasN wE) false = 2 * p * (2 * 2 ^ j - 1) + (p - 1) := by
    unfold mulExp addW subW
    rw [Bool.toNat_false, Nat.add_zero, Nat.mod_mod, Nat.mod_eq_of_lt (by omega : biasN wE + biasN wE < 2 ^ (wE + 2)), hbR,
      show biasN wE + biasN wE + (2 ^ (wE + 2) - (p - 1)) = 2 * p * (2 * 2 ^ j - 1) + (p - 1) + 2 ^ (wE + 2) by omega,
      Nat.add_mod_right, Nat.mod_eq_of_lt (by omega)]
  have hnorm : getBit (wFX + 1 + wFY + 1 - 1) (opadHi1 wFX 0 * opadHi1 wFY 0) = false := by
    unfold opadHi1 getBit
    rw [Nat.add_zero, Nat.add_zero, ← pow_add, Nat.div_eq_of_lt (Nat.pow_lt_pow_right (by norm_num) (by omega))]
    rfl
  refine ⟨mulExact wER wFR (wFX + wFY) 1 0 (2 * p * (2 * 2 ^ j - 1) + (p - 1)) false (opadHi1 wFX 0 * opadHi1 wFY 0), ?_, ?_⟩
  · unfold mulV1
    rw [Fp.mk4_flags (by decide) (by decide) hbE hzX, Fp.mk4_flags (by decide) (by decide) hbE hzY,
      Fp.mk4_sign (by decide) (by decide) hbE hzX, Fp.mk4_sign (by decide) (by decide) hbE hzY,
      Fp.mk4_exp (by decide) (by decide) hbE hzX (by omega), Fp.mk4_exp (by decide) (by decide) hbE hzY (by omega),
      Fp.mk4_frac (by decide) (by decide) hbE hzX hX, Fp.mk4_frac (by decide) (by decide) hbE hzY hY]
    simp only [hnorm, hep, mulExc_normal]
    rw [if_neg (by omega), if_pos (by omega), if_neg (by omega)]
  · unfold mulExact
    have hdiv : (2 * p * (2 * 2 ^ j - 1) + (p - 1)) / (2 * p) = 2 * 2 ^ j - 1 := by
      rw [Nat.mul_add_div (by omega), Nat.div_eq_of_lt (by omega), Nat.add_zero]
    have htop : getBits (wER + 1) wER (2 * p * (2 * 2 ^ j - 1) + (p - 1)) = (2 * 2 ^ j - 1) % 4 := by
      unfold getBits
      rw [hp2, hdiv, show wER + 1 + 1 - wER = 2 by omega]; rfl
    have hlow := getBits_lt (wER - 1) 0 (2 * p * (2 * 2 ^ j - 1) + (p - 1))
    rw [show wER - 1 + 1 - 0 = wER by omega] at hlow
    have hsig : mulExactSig wFR (wFX + wFY) false (opadHi1 wFX 0 * opadHi1 wFY 0) < 2 ^ wFR := by
      unfold mulExactSig
      rw [if_neg (by simp)]
      have h1 := getBits_lt (wFX + wFY - 1) 0 (opadHi1 wFX 0 * opadHi1 wFY 0)
      have h2 := concat_lt (w := 1 + wFR - (wFX + wFY + 2) + 1) (b := 0) h1 (by positivity)
      refine h2.trans_eq ?_
      congr 1; omega
    simp only [htop]
    have hcase : (2 * 2 ^ j - 1) % 4 = 1 ∨ (2 * 2 ^ j - 1) % 4 = 3 := by omega
    rcases hcase with hc | hc
    · right
      rw [hc, Fp.mk4_datum (by decide) (by decide) hlow hsig (by omega) (by omega)]
      rfl
    · left
      rw [hc, Fp.mk4_datum (by decide) (by decide) hlow hsig (by omega) (by omega)]
      rfl

/-- Half precision into a format with four exponent bits: `1 * 1` is infinite. -/
example : (mulV1 4 21 (Fp.mk4 5 10 1 0 15 0) (Fp.mk4 5 10 1 0 15 0)).map Fp.isInf = some true := by decide

/-- Concrete witness of the failure: the square of the smallest normal number of `fp_flopoco<4,3>` into
`fp_flopoco<4,7>` has NaN flags. -/
example : (mulV1 4 7 (Fp.mk4 4 3 1 0 0 0) (Fp.mk4 4 3 1 0 0 0)).map Fp.isNan = some true := by decide

/-- and a non-trivial exact case: 1.875 * 1.875 = 3.515625. -/
example : mulV1 4 7 (Fp.mk4 4 3 1 0 7 7) (Fp.mk4 4 3 1 0 7 7) = some (Fp.mk4 4 7 1 0 8 0b1100001) := by decide

/-- **C12.** For every pair of formats for which `mul` runs to completion, products with a NaN, an infinity or a
zero operand follow the IEEE 754 rules, including the sign. -/
theorem C12_mul_exceptions {wER wFR wE wFX wFY : ℕ} (hE : 1 ≤ wER) (hR : 1 ≤ wFR) (hX : 1 ≤ wFX + wFY)
    (x : Fp wE wFX) (y : Fp wE wFY) (r : Fp wER wFR) (h : mulV1 wER wFR x y = some r) (d : Datum)
    (hd : mulSpecial x.datum y.datum = some d) : r.datum = d :=
  mul_special hE hR hX h hd

/-- The hypotheses of C12 are met: -inf * 1.5 = -inf and 0 * inf = NaN. -/
example : mulV1 4 3 (Fp.mk4 4 3 2 1 0 0) (Fp.mk4 4 3 1 0 7 4) = some (Fp.mk4 4 3 2 1 0 4) := by decide
example : (mulV1 4 3 (Fp.mk4 4 3 0 1 0 0) (Fp.mk4 4 3 2 0 7 4)).map Fp.isNan = some true := by decide

/-- **C13.** Multiplication is commutative, bit for bit, for every choice of operand and result formats. -/
theorem C13_mul_comm {wER wFR wE wFX wFY : ℕ} (x : Fp wE wFX) (y : Fp wE wFY) :
    mulV1 wER wFR x y = mulV1 wER wFR y x := by
  unfold mulV1
  rw [Nat.add_comm y.sign, Nat.mul_comm (opadHi1 wFY y.frac), mulExc_comm _ _ y.flags_lt x.flags_lt,
    show wFY + 1 + wFX + 1 = wFX + 1 + wFY + 1 by omega, Nat.add_comm wFY wFX]
  unfold mulExp addW
  rw [Nat.add_comm y.exp]

example : mulV1 4 3 (Fp.mk4 4 5 1 1 3 9) (Fp.mk4 4 2 1 0 9 3) = some (Fp.mk4 4 3 1 1 6 1) := by decide

end Thls
