import Verif.Proofs.Div

/-! # Properties C20-C22: division -/

namespace Thls
open Spec

/-- **C20.** For every result format at least as wide as both operands (the static assertions of the code),
`div` of two normal numbers is the real quotient rounded to nearest, ties to even, with overflow to infinity
and underflow to zero. -/
theorem C20_div_correctly_rounded {wER wFR wEX wFX wEY wFY : ℕ} (hER : 2 ≤ wER)
    (hEX : 1 ≤ wEX) (hFX : 1 ≤ wFX) (hEY : 1 ≤ wEY) (hFY : 1 ≤ wFY)
    (hX : wEX ≤ wER ∧ wFX ≤ wFR) (hY : wEY ≤ wER ∧ wFY ≤ wFR) (x : Fp wEX wFX) (y : Fp wEY wFY) (vx vy : ℚ)
    (hx : x.datum = .num vx) (hy : y.datum = .num vy) :
    Rounded wER wFR (vx / vy) (divV1 wER wFR x y).datum := by
  refine Div.divSame_round hER (by omega) ?_ ?_
  · rw [promote_datum hEX hFX hX.1 hX.2, hx]
  · rw [promote_datum hEY hFY hY.1 hY.2, hy]

/-- The same for the second version of the divider. -/
theorem C20_div_v2_correctly_rounded {wER wFR wEX wFX wEY wFY : ℕ} (hER : 2 ≤ wER)
    (hEX : 1 ≤ wEX) (hFX : 1 ≤ wFX) (hEY : 1 ≤ wEY) (hFY : 1 ≤ wFY)
    (hE : wER = max wEX wEY) (hF : wFR = max wFX wFY) (x : Fp wEX wFX) (y : Fp wEY wFY) (vx vy : ℚ)
    (hx : x.datum = .num vx) (hy : y.datum = .num vy) :
    Rounded wER wFR (vx / vy) (divV2 wER wFR x y).datum := by
  unfold divV2
  rw [Div.divSame2_eq (by omega)]
  exact C20_div_correctly_rounded hER hEX hFX hEY hFY ⟨by omega, by omega⟩ ⟨by omega, by omega⟩ x y vx vy hx hy

/-- 1.5 / 1.25 = 1.2 rounds to 1.25 with three fraction bits; -1.875/1.5 = -1.25 exactly. -/
example : divV1 4 3 (Fp.mk4 4 3 1 0 7 4) (Fp.mk4 4 3 1 0 7 2) = Fp.mk4 4 3 1 0 7 2 := by decide
example : divV1 4 3 (Fp.mk4 4 3 1 1 7 7) (Fp.mk4 4 3 1 0 7 4) = Fp.mk4 4 3 1 1 7 2 := by decide
/-- A mixed-format case and an even fraction width: 1 / 1.5 = 0.6666 rounds to 1.01010b / 2 + half an ulp up. -/
example : divV1 5 6 (Fp.mk4 4 3 1 0 7 0) (Fp.mk4 3 2 1 0 3 2) = Fp.mk4 5 6 1 0 14 21 := by decide

/-- **C21, in range.** For every fraction width, every pair of significands and every iteration, the partial
remainder `fX*4^j - 2*fY*Q` (for the quotient digits `Q` produced so far) is smaller in magnitude than
twice the divisor, the machine word is its two's-complement image, and the selection bits are not one of the
four combinations the table leaves to its default. -/
theorem C21_partial_remainder_in_range {wF fX fY : ℕ} (hF : 1 ≤ wF)
    (hX : fX < 2 ^ (wF + 1)) (hY : 2 ^ wF ≤ fY ∧ fY < 2 ^ (wF + 1)) (j : ℕ) :
    (∃ Q : ℤ, |(fX : ℤ) * 4 ^ j - 2 * fY * Q| < 2 * fY ∧
      ((srtRem srtFull1 wF fX fY j : ℕ) : ℤ) = ((fX : ℤ) * 4 ^ j - 2 * fY * Q) % 2 ^ (wF + 3)) ∧
    srtSel wF (srtRem srtFull1 wF fX fY j) fY ∉ [0b01100, 0b01110, 0b10000, 0b10010] := by
  obtain ⟨hw, hlo, hhi, h0⟩ := Div.rem_inv hF hX hY.1 hY.2 j
  have hQ : ∃ Q : ℤ, Div.WS wF fX fY j = (fX : ℤ) * 4 ^ j - 2 * fY * Q := by
    clear hw hlo hhi h0
    induction j with
    | zero => exact ⟨0, by simp [Div.WS]⟩
    | succ j ih =>
      obtain ⟨Q, hQ⟩ := ih
      refine ⟨4 * Q + Div.sd (srtTable (srtSel wF (srtRem srtFull1 wF fX fY j) fY)), ?_⟩
      simp only [Div.WS]
      rw [hQ]
      ring
  refine ⟨?_, (Div.step_bound hF hY.1 hY.2 hw hlo hhi h0 rfl).2.2.2⟩
  obtain ⟨Q, hQ⟩ := hQ
  rw [hQ] at hlo hhi hw
  exact ⟨Q, abs_lt.mpr ⟨hlo, hhi⟩, hw⟩

/-- The remainders of 15/9 with three fraction bits, as machine words. -/
example : (List.range 4).map (srtRem srtFull1 3 15 9) = [15, 6, 6, 6] := by decide

/-- **C21, versions agree.** The two versions of the divider return the same bits for every input. -/
theorem C21_div_versions_agree {wER wFR wEX wFX wEY wFY : ℕ} (hF : 1 ≤ wFR) (x : Fp wEX wFX) (y : Fp wEY wFY) :
    divV2 wER wFR x y = divV1 wER wFR x y :=
  Div.divSame2_eq hF _ _

/-- The word assembled from the digits is the truncated quotient followed by an exact sticky bit. -/
theorem C21_quotient_digits {wF fX fY : ℕ} (hF : 1 ≤ wF)
    (hX : fX < 2 ^ (wF + 1)) (hY : 2 ^ wF ≤ fY ∧ fY < 2 ^ (wF + 1)) :
    divSig srtFull1 wF fX fY / 2 = 2 ^ (wF + 2) * fX / fY ∧
    (divSig srtFull1 wF fX fY % 2 = 0 ↔ fY ∣ 2 ^ (wF + 2) * fX) := by
  rw [Div.divSig_eq hF hX hY.1 hY.2]
  split_ifs with h
  · exact ⟨by omega, by simp [h]⟩
  · exact ⟨by omega, by simp only [h, iff_false]; omega⟩

/-- **C22.** Quotients with a NaN, an infinity or a zero operand follow the IEEE 754 rules, including the sign,
for every format and every encoding of the operands. -/
theorem C22_div_exceptions {wER wFR wEX wFX wEY wFY : ℕ}
    (hEX : 1 ≤ wEX) (hFX : 1 ≤ wFX) (hEY : 1 ≤ wEY) (hFY : 1 ≤ wFY)
    (hX : wEX ≤ wER ∧ wFX ≤ wFR) (hY : wEY ≤ wER ∧ wFY ≤ wFR) (x : Fp wEX wFX) (y : Fp wEY wFY) (d : Datum)
    (hd : divSpecial x.datum y.datum = some d) : (divV1 wER wFR x y).datum = d := by
  refine Div.divSame_special (by omega) srtFull1 (x := promote wER wFR x) (y := promote wER wFR y) rfl ?_
  rw [promote_datum hEX hFX hX.1 hX.2, promote_datum hEY hFY hY.1 hY.2]
  exact hd

/-- The table is a total description: it is undefined only for two ordinary numbers, which C20 covers. -/
theorem C22_divSpecial_domain (a b : Datum) : divSpecial a b = none ↔ ∃ p q, a = .num p ∧ b = .num q := by
  cases a <;> cases b <;> simp [divSpecial]

/-- Minus 1.5 over 0 is minus infinity; infinity over infinity is NaN. -/
example : (divV1 4 3 (Fp.mk4 4 3 1 1 7 4) (Fp.mk4 4 3 0 0 5 1)).datum = .inf true :=
  C22_div_exceptions (by decide) (by decide) (by decide) (by decide) (by decide) (by decide) _ _ _ (by
    rw [Fp.mk4_datum (by decide) (by decide) (by decide) (by decide) (by decide) (by decide),
      Fp.mk4_datum (by decide) (by decide) (by decide) (by decide) (by decide) (by decide)]
    norm_num [denote, bias, divSpecial, Datum.isNeg])
example : (divV1 4 3 (Fp.mk4 4 3 2 1 7 4) (Fp.mk4 4 3 2 0 5 1)).isNan = true := by decide

end Thls
