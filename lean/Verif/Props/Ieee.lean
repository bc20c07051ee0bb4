import Verif.Proofs.Ieee
import Verif.Props.Mul
import Verif.Props.Add
import Verif.Props.Div
import Verif.Props.Convert

/-! # Properties C28, C29, C51: the IEEE encoding and IEEE arithmetic through the FloPoCo format -/

namespace Thls
open Spec

/-! ## C28: conversion between the IEEE and FloPoCo encodings -/

/-- **C28.** Converting an IEEE word to the FloPoCo format of the same widths gives the same datum, except that
a denormal becomes a zero of the same sign (`ieeeRange` changes nothing else, see
`C28_ieeeRange_of_word`). -/
theorem C28_ieee_to_flopoco {E F : ℕ} (hE : 1 ≤ E) (hF : 1 ≤ F) (x : Ieee E F) :
    (ieeeToFlopoco x).datum = ieeeRange E x.datum := ieeeToFlopoco_datum hE hF x

/-- **C28.** The IEEE range leaves every non-denormal word alone and turns denormals into zeros of the same
sign. -/
theorem C28_ieeeRange_of_word {E F : ℕ} (hE : 1 ≤ E) (hF : 1 ≤ F) (x : Ieee E F) :
    (¬ (x.exp = 0 ∧ x.frac ≠ 0) → ieeeRange E x.datum = x.datum) ∧
    (x.exp = 0 ∧ x.frac ≠ 0 → (∃ q, x.datum = .num q ∧ 0 < |q| ∧ |q| < ieeeMin E) ∧
      ieeeRange E x.datum = .zero (decide (x.sign = 1))) := by
  rw [ieee_flushed hE hF]
  constructor
  · intro h
    unfold Ieee.datum ieeeDenote
    by_cases e1 : x.exp = 0
    · have : x.frac = 0 := by by_contra hc; exact h ⟨e1, hc⟩
      simp only [e1, this, if_true]
    · simp only [e1, if_false]
  · rintro ⟨h1, h2⟩
    have hp : (0 : ℚ) < 2 ^ (1 - bias E - F) := two_zpow_pos _
    have hq : (0 : ℚ) < x.frac := by exact_mod_cast Nat.pos_of_ne_zero h2
    have hpos : (0 : ℚ) < (x.frac : ℚ) * 2 ^ (1 - bias E - F) := by positivity
    refine ⟨⟨(if x.sign = 1 then -1 else 1) * ((x.frac : ℚ) * 2 ^ (1 - bias E - F)), ?_, ?_, ?_⟩, ?_⟩
    · unfold Ieee.datum ieeeDenote; simp only [h1, h2, if_true, if_false]
    · rw [abs_signed hpos]; exact hpos
    · rw [abs_signed hpos]
      unfold ieeeMin
      have e1 : (2 : ℚ) ^ (1 - bias E) = 2 ^ F * 2 ^ (1 - bias E - F) := by
        rw [← zpow_natCast (2 : ℚ) F, ← zpow_add₀ (by norm_num)]; congr 1; ring
      have hfq : (x.frac : ℚ) < 2 ^ F := by exact_mod_cast x.frac_lt hF
      rw [e1]
      nlinarith
    · rw [if_pos h1]

/-- **C28.** Converting a FloPoCo word to the IEEE format of the same widths keeps the datum whenever it is in
the IEEE normal range; magnitudes below the smallest IEEE normal become zeros, magnitudes of at least
`2^(bias+1)` become infinities, with the sign kept. -/
theorem C28_flopoco_to_ieee {E F : ℕ} (hE : 2 ≤ E) (hF : 1 ≤ F) (x : Fp E F) :
    (flopocoToIeee x).datum = ieeeRange E x.datum := flopocoToIeee_datum hE hF x

/-- **C28.** IEEE to FloPoCo and back returns the identical word, unless it is a denormal (then it is a zero of
the same sign) or a NaN (then it is a NaN). -/
theorem C28_round_trip {E F : ℕ} (hE : 2 ≤ E) (hF : 1 ≤ F) (x : Ieee E F) :
    (x.datum ≠ .nan → ¬ (x.exp = 0 ∧ x.frac ≠ 0) → flopocoToIeee (ieeeToFlopoco x) = x) ∧
    (flopocoToIeee (ieeeToFlopoco x)).datum = ieeeRange E x.datum := by
  refine ⟨?_, by rw [flopocoToIeee_datum hE hF, ieeeToFlopoco_datum (by omega) hF, ieeeRange_idem]⟩
  intro hn hd
  obtain ⟨a1, a2, a3, a4⟩ := ieeeToFlopoco_fields (by omega : 1 ≤ E) hF x
  obtain ⟨b1, b2, b3⟩ := flopocoToIeee_fields (by omega : 1 ≤ E) hF (ieeeToFlopoco x)
  rw [a1, a3] at b2
  rw [a1, a3, a4] at b3
  have hone : ¬ ones E = 0 := by
    have h4 : 4 ≤ 2 ^ E := by
      calc 4 = 2 ^ 2 := rfl
        _ ≤ 2 ^ E := Nat.pow_le_pow_right (by norm_num) hE
    unfold ones; omega
  have hnan : x.exp = ones E → x.frac = 0 := by
    intro h
    by_contra hc
    apply hn
    unfold Ieee.datum ieeeDenote
    rw [if_neg (by omega), if_pos (show x.exp = 2 ^ E - 1 from h), if_neg hc]
  apply Ieee.ext_fields (by omega) hF (b1.trans a2)
  · rw [b2]
    unfold Ieee.flags
    by_cases e1 : x.exp = 0
    · simp [e1]
    · by_cases e2 : x.exp = ones E
      · simp [e2, hone, hnan e2]
      · simp [e1, e2]
  · rw [b3]
    unfold Ieee.flags
    by_cases e1 : x.exp = 0
    · have : x.frac = 0 := by by_contra hc; exact hd ⟨e1, hc⟩
      simp [e1, this]
    · by_cases e2 : x.exp = ones E
      · simp [e2, hone, hnan e2]
      · simp [e1, e2]

/-- Non-vacuity: -1.625 in binary16-like (4,3); the largest FloPoCo exponent overflows; a denormal is flushed. -/
example : flopocoToIeee (ieeeToFlopoco (Ieee.mk3 4 3 1 7 5)) = Ieee.mk3 4 3 1 7 5 ∧
    ieeeToFlopoco (Ieee.mk3 4 3 1 7 5) = Fp.mk4 4 3 1 1 7 5 ∧
    flopocoToIeee (Fp.mk4 4 3 1 1 15 2) = Ieee.mk3 4 3 1 15 0 ∧
    flopocoToIeee (Fp.mk4 4 3 1 1 0 2) = Ieee.mk3 4 3 1 0 0 ∧
    (ieeeToFlopoco (Ieee.mk3 4 3 1 0 2)).isZero = true := by decide

/-- **C28.** Promotion of a FloPoCo word to an IEEE format with more exponent bits and at least as many fraction
bits is exact for every word. -/
theorem C28_promote_to_ieee_exact {dE dF sE sF : ℕ} (hE : 1 ≤ sE) (hF : 1 ≤ sF) (h1 : sE < dE) (h2 : sF ≤ dF)
    (x : Fp sE sF) : (promoteToIeee dE dF x).datum = x.datum := by
  have pE : 4 ≤ 2 ^ dE := by
    calc 4 = 2 ^ 2 := rfl
      _ ≤ 2 ^ dE := Nat.pow_le_pow_right (by norm_num) (by omega)
  have pF : 2 ≤ 2 ^ dF := by
    calc 2 = 2 ^ 1 := rfl
      _ ≤ 2 ^ dF := Nat.pow_le_pow_right (by norm_num) (by omega)
  have hsE := two_pow_pred hE
  have hdE := two_pow_pred (show 1 ≤ dE by omega)
  have hmid : 2 * 2 ^ (sE - 1) ≤ 2 ^ (dE - 1) := by
    rw [← hsE]; exact Nat.pow_le_pow_right (by norm_num) (by omega)
  have hps : 0 < 2 ^ (sE - 1) := by positivity
  have he := x.exp_lt hE
  have hpe := promoteExp_eq hE h1.le he
  have hpf := promoteFrac_lt h2 (x.frac_lt hF)
  have hb : biasN sE = 2 ^ (sE - 1) - 1 ∧ biasN dE = 2 ^ (dE - 1) - 1 := ⟨rfl, rfl⟩
  have hex : promoteExp dE sE x.exp < 2 ^ dE - 1 ∧ 0 < promoteExp dE sE x.exp := by
    rw [hpe.1]; omega
  have key := Ieee.mk3_datum (s := x.sign)
    (e := (if x.flags = 0b01 then promoteExp dE sE x.exp else if x.flags = 0b00 then 0 else ones dE))
    (f := (if x.flags = 0b01 then promoteFrac dF sF x.frac else if x.flags = 0b11 then ones dF else 0))
    (by omega : 1 ≤ dE) (by omega : 1 ≤ dF) x.sign_lt (by unfold ones; split_ifs <;> omega)
    (by unfold ones; split_ifs <;> omega)
  unfold promoteToIeee
  rw [key]
  have o1 : (ones dE = 0) = False := by unfold ones; simp only [eq_iff_iff, iff_false]; omega
  have o2 : (ones dF = 0) = False := by unfold ones; simp only [eq_iff_iff, iff_false]; omega
  have o3 : 2 ^ dE - 1 = ones dE := rfl
  rcases flags_cases x with h | h | h | h
  · rw [datum_flags0 x h]; simp [h, ieeeDenote]
  · have hd := promote_datum hE hF h1.le h2 x
    obtain ⟨a, b, c, d⟩ := promote_fields hE hF h1.le h2 x
    rw [datum_normal _ (by rw [a, h])] at hd
    rw [← hd, c, d, b]
    simp only [h, if_true, ieeeDenote]
    rw [if_neg (by omega), if_neg (by omega), hpe.1]
    rfl
  · rw [datum_flags2 x h]; simp [h, ieeeDenote, o1, o3]
  · rw [datum_flags3 x h]; simp [h, ieeeDenote, o1, o2, o3]

example : promoteToIeee 5 4 (Fp.mk4 4 3 1 1 15 5) = Ieee.mk3 5 4 1 23 10 := by decide

theorem ieeePromote_fields {dE dF sE sF : ℕ} (hE : 1 ≤ sE) (hF : 1 ≤ sF) (h1 : sE ≤ dE) (h2 : sF ≤ dF) (x : Ieee sE sF) :
    (ieeePromote dE dF x).sign = x.sign ∧ (ieeePromote dE dF x).exp = x.exp + (biasN dE - biasN sE) ∧
    (ieeePromote dE dF x).frac = x.frac * 2 ^ (dF - sF) := by
  obtain ⟨p1, p2⟩ := promoteExp_eq hE h1 (x.exp_lt hE)
  have p3 := promoteFrac_lt h2 (x.frac_lt hF)
  obtain ⟨a, b, c⟩ := Ieee.mk3_fields (by omega : 1 ≤ dE) (by omega : 1 ≤ dF) x.sign_lt p2 p3
  unfold ieeePromote
  rw [a, b, c]
  exact ⟨rfl, p1, rfl⟩

/-- Value of a significand when both fields are widened. -/
theorem widened_value {dE dF sE sF e f : ℕ} (h1 : sE ≤ dE) (h2 : sF ≤ dF) :
    ((2 ^ dF + f * 2 ^ (dF - sF) : ℕ) : ℚ) * 2 ^ (((e + (biasN dE - biasN sE) : ℕ) : ℤ) - bias dE - dF)
      = ((2 ^ sF + f : ℕ) : ℚ) * 2 ^ ((e : ℤ) - bias sE - sF) := by
  have hb := biasN_mono h1
  rw [← pow_bias, ← pow_bias]
  have e1 : ((2 ^ dF + f * 2 ^ (dF - sF) : ℕ) : ℚ) = ((2 ^ sF + f : ℕ) : ℚ) * 2 ^ (dF - sF) := by
    have : 2 ^ dF + f * 2 ^ (dF - sF) = (2 ^ sF + f) * 2 ^ (dF - sF) := by
      rw [Nat.add_mul, ← pow_add, show sF + (dF - sF) = dF by omega]
    exact_mod_cast this
  rw [e1, mul_assoc, ← zpow_natCast, ← zpow_add₀ (by norm_num)]
  congr 2
  push_cast [hb, h2]
  ring

/-- **C28 (partial).** IEEE to IEEE promotion is exact for normal numbers; with an unchanged exponent width it is
exact for every word. Missing: zeros, denormals, infinities and NaNs when the exponent is widened, for which the
code is wrong (`C28_ieee_promote_wrong`). -/
theorem C28_ieee_promote_partial {dE dF sE sF : ℕ} (hE : 1 ≤ sE) (hF : 1 ≤ sF) (h1 : sE ≤ dE) (h2 : sF ≤ dF)
    (x : Ieee sE sF) (h : sE = dE ∨ (x.exp ≠ 0 ∧ x.exp ≠ 2 ^ sE - 1)) :
    (ieeePromote dE dF x).datum = x.datum := by
  obtain ⟨a, b, c⟩ := ieeePromote_fields hE hF h1 h2 x
  have he := x.exp_lt hE
  have hw := widened_value (e := x.exp) (f := x.frac) h1 h2
  have hp : 0 < 2 ^ (dF - sF) := by positivity
  unfold Ieee.datum ieeeDenote
  rw [a, b, c, hw]
  rcases h with rfl | ⟨h3, h4⟩
  · simp only [Nat.sub_self, Nat.add_zero, mul_eq_zero, hp.ne', or_false]
    have : ((x.frac * 2 ^ (dF - sF) : ℕ) : ℚ) * 2 ^ (1 - bias sE - dF) = x.frac * 2 ^ (1 - bias sE - sF) := by
      push_cast
      rw [mul_assoc, ← zpow_natCast, ← zpow_add₀ (by norm_num)]
      congr 2
      push_cast [h2]
      ring
    rw [this]
  · have hlt : x.exp + (biasN dE - biasN sE) < 2 ^ dE - 1 := by
      rcases Nat.lt_or_ge sE dE with hlt | hge
      · have hs := two_pow_pred hE
        have hd := two_pow_pred (show 1 ≤ dE by omega)
        have hmid : 2 * 2 ^ (sE - 1) ≤ 2 ^ (dE - 1) := by
          rw [← hs]; exact Nat.pow_le_pow_right (by norm_num) (by omega)
        have hps : 0 < 2 ^ (sE - 1) := by positivity
        unfold biasN
        omega
      · have : sE = dE := by omega
        subst this; omega
    rw [if_neg (by omega), if_neg (by omega), if_neg h3, if_neg h4]

/-- **C28, where it fails.** When the exponent is widened every zero, denormal, infinity and NaN is promoted to
an ordinary number: the value `±(2^F + frac) * 2^(exp - bias - F)` its fields would have as a normal number. -/
theorem C28_ieee_promote_wrong {dE dF sE sF : ℕ} (hE : 1 ≤ sE) (hF : 1 ≤ sF) (h1 : sE < dE) (h2 : sF ≤ dF)
    (x : Ieee sE sF) (h : x.exp = 0 ∨ x.exp = 2 ^ sE - 1) :
    (ieeePromote dE dF x).datum = .num ((if x.sign = 1 then -1 else 1) *
      (((2 ^ sF + x.frac : ℕ) : ℚ) * 2 ^ ((x.exp : ℤ) - bias sE - sF))) ∧
    (ieeePromote dE dF x).datum ≠ x.datum := by
  obtain ⟨a, b, c⟩ := ieeePromote_fields hE hF h1.le h2 x
  have he := x.exp_lt hE
  have hw := widened_value (e := x.exp) (f := x.frac) h1.le h2
  have hs := two_pow_pred hE
  have hd := two_pow_pred (show 1 ≤ dE by omega)
  have hmid : 2 * 2 ^ (sE - 1) ≤ 2 ^ (dE - 1) := by
    rw [← hs]; exact Nat.pow_le_pow_right (by norm_num) (by omega)
  have hps : 0 < 2 ^ (sE - 1) := by positivity
  have hb1 : biasN dE - biasN sE ≠ 0 ∧ x.exp + (biasN dE - biasN sE) < 2 ^ dE - 1 := by unfold biasN; omega
  have hval : (ieeePromote dE dF x).datum = .num ((if x.sign = 1 then -1 else 1) *
      (((2 ^ sF + x.frac : ℕ) : ℚ) * 2 ^ ((x.exp : ℤ) - bias sE - sF))) := by
    unfold Ieee.datum ieeeDenote
    rw [a, b, c, hw, if_neg (by omega), if_neg (by omega)]
  refine ⟨hval, ?_⟩
  rw [hval]
  unfold Ieee.datum ieeeDenote
  rcases h with h | h
  · rw [if_pos h]
    by_cases hf : x.frac = 0
    · rw [if_pos hf]; simp
    · rw [if_neg hf, Ne, Datum.num.injEq, h]
      have e2 : (2 : ℚ) ^ (1 - bias sE - sF) = 2 * 2 ^ (0 - bias sE - sF) := by
        rw [← two_zpow_succ]; congr 1; ring
      have hfq : (x.frac : ℚ) < 2 ^ sF := by exact_mod_cast x.frac_lt hF
      have hp0 : (0 : ℚ) < 2 ^ (0 - bias sE - sF) := two_zpow_pos _
      have hsg : (if x.sign = 1 then (-1 : ℚ) else 1) ≠ 0 := by split_ifs <;> norm_num
      intro hc
      have hc' := mul_left_cancel₀ hsg hc
      rw [e2, Nat.cast_zero] at hc'
      push_cast at hc'
      have := mul_right_cancel₀ hp0.ne' (show ((2 : ℚ) ^ sF + x.frac) * 2 ^ (0 - bias sE - sF)
        = (2 * x.frac) * 2 ^ (0 - bias sE - sF) by rw [hc']; ring)
      linarith
  · by_cases h0 : x.exp = 0
    · -- only possible when the source exponent has one bit and is both; not the case here
      exfalso
      have : 2 ≤ 2 ^ sE := by omega
      omega
    · rw [if_neg h0, if_pos h]
      split_ifs <;> simp

/-- Promoting +0 of (4,3) to five exponent bits gives 2^-7; promoting infinity gives 2^8. -/
example : ieeePromote 5 3 (Ieee.mk3 4 3 0 0 0) = Ieee.mk3 5 3 0 8 0 ∧
    ieeePromote 5 3 (Ieee.mk3 4 3 0 15 0) = Ieee.mk3 5 3 0 23 0 := by decide
example : ieeePromote 5 4 (Ieee.mk3 4 3 1 9 5) = Ieee.mk3 5 4 1 17 10 := by decide

/-! ## C51: classification, comparison, limits and MPFR exchange of IEEE words -/

/-- **C51.** The class predicates agree with what the word denotes, with denormals counted as zeros. -/
theorem C51_classes {E F : ℕ} (hE : 2 ≤ E) (hF : 1 ≤ F) (x : Ieee E F) :
    (x.isZero = true ↔ ∃ s, ieeeRange E x.datum = .zero s) ∧ (x.isNormal = true ↔ ∃ q, ieeeRange E x.datum = .num q) ∧
    (x.isInf = true ↔ ∃ s, ieeeRange E x.datum = .inf s) ∧ (x.isNan = true ↔ ieeeRange E x.datum = .nan) ∧
    (ieeeRange E x.datum ≠ .nan → (x.isNegative = true ↔ (ieeeRange E x.datum).isNeg = true)) ∧
    x.isPositive = !x.isNegative := by
  have hs := x.sign_lt
  have h4 : 4 ≤ 2 ^ E := by
    calc 4 = 2 ^ 2 := rfl
      _ ≤ 2 ^ E := Nat.pow_le_pow_right (by norm_num) hE
  have hpos : (0 : ℚ) < ((2 ^ F + x.frac : ℕ) : ℚ) * 2 ^ ((x.exp : ℤ) - bias E - F) := sig_scaled_pos _ _ _
  obtain ⟨u, hu⟩ : ∃ u : ℕ, u = 2 ^ E - 1 := ⟨_, rfl⟩
  have h0 : ¬ (u = 0) := by omega
  have hp : x.isPositive = !x.isNegative := by
    unfold Ieee.isPositive Ieee.isNegative
    have : x.sign = 0 ∨ x.sign = 1 := by omega
    rcases this with h | h <;> rw [h] <;> rfl
  rw [ieee_flushed (by omega) hF]
  simp only [Ieee.isZero, Ieee.isNormal, Ieee.isInf, Ieee.isNan, ones]
  rw [← hu]
  by_cases e1 : x.exp = 0
  · have e2 : ¬ (0 = u) := by omega
    simp [e1, e2, Ieee.isNegative, Datum.isNeg, hp]
  · by_cases e2 : x.exp = u
    · by_cases e3 : x.frac = 0
      · rw [if_neg e1, if_pos e2, if_pos e3]
        simp [e2, h0, e3, Ieee.isNegative, Datum.isNeg, hp]
      · rw [if_neg e1, if_pos e2, if_neg e3]
        simp [e2, h0, e3, hp]
    · rw [if_neg e1, if_neg e2]
      simp only [Datum.isNeg, signed_neg hpos]
      simp [e1, e2, Ieee.isNegative, hp]

/-- **C51.** `equals` holds exactly when, with denormals read as zeros, both words denote the same extended real
(the two zeros are equal) or both are NaN. -/
theorem C51_equals {E F : ℕ} (hE : 2 ≤ E) (hF : 1 ≤ F) (x y : Ieee E F) :
    x.equals y = true ↔ (ieeeRange E x.datum).RealEq (ieeeRange E y.datum) ∨
      (ieeeRange E x.datum = .nan ∧ ieeeRange E y.datum = .nan) := by
  have h4 : 4 ≤ 2 ^ E := by
    calc 4 = 2 ^ 2 := rfl
      _ ≤ 2 ^ E := Nat.pow_le_pow_right (by norm_num) hE
  have sx := x.sign_lt
  have sy := y.sign_lt
  have ss : (decide (x.sign = 1) = decide (y.sign = 1)) ↔ x.sign = y.sign := by
    rw [decide_eq_decide]; omega
  -- normal words: equal values have equal fields
  have hinj : x.exp ≠ 0 → x.exp ≠ 2 ^ E - 1 → y.exp ≠ 0 → y.exp ≠ 2 ^ E - 1 →
      (Datum.num ((if x.sign = 1 then -1 else 1) * (((2 ^ F + x.frac : ℕ) : ℚ) * 2 ^ ((x.exp : ℤ) - bias E - F)))
        = Datum.num ((if y.sign = 1 then -1 else 1) * (((2 ^ F + y.frac : ℕ) : ℚ) * 2 ^ ((y.exp : ℤ) - bias E - F)))
      ↔ x.sign = y.sign ∧ x.exp = y.exp ∧ x.frac = y.frac) := by
    intro a1 a2 b1 b2
    obtain ⟨f1, f2, f3, f4⟩ := ieeeToFlopoco_fields (by omega : 1 ≤ E) hF x
    obtain ⟨g1, g2, g3, g4⟩ := ieeeToFlopoco_fields (by omega : 1 ≤ E) hF y
    have fx : (ieeeToFlopoco x).flags = 1 := by
      rw [f1]; unfold Ieee.flags; rw [if_neg a1, if_neg (show ¬ x.exp = ones E from a2)]
    have fy : (ieeeToFlopoco y).flags = 1 := by
      rw [g1]; unfold Ieee.flags; rw [if_neg b1, if_neg (show ¬ y.exp = ones E from b2)]
    have hx := datum_normal _ fx
    have hy := datum_normal _ fy
    rw [f2, f3, f4] at hx
    rw [g2, g3, g4] at hy
    rw [← hx, ← hy, ← C07_equals_iff_same_datum (by omega) hF]
    unfold Fp.equals
    rw [fx, fy]
    simp only [Fp.isNan, Fp.isNormal, fx, f2, f3, f4, g2, g3, g4]
    by_cases e1 : x.sign = y.sign
    · simp [e1]
    · simp [e1]
  rw [ieee_flushed (by omega) hF, ieee_flushed (by omega) hF]
  unfold Ieee.equals
  obtain ⟨u, hu⟩ : ∃ u : ℕ, u = 2 ^ E - 1 := ⟨_, rfl⟩
  have h0 : ¬ (u = 0) := by omega
  have hou : ones E = u := hu.symm
  rw [← hu] at hinj
  simp only [hou, ← hu]
  by_cases a1 : x.exp = 0
  · rw [if_pos a1, if_pos a1, a1]
    by_cases b1 : y.exp = 0
    · simp [b1, Datum.RealEq]
    · rw [if_neg b1]
      by_cases b2 : y.exp = u
      · by_cases b3 : y.frac = 0 <;> simp [b2, b3, Datum.RealEq, Ne.symm h0]
      · simp [b2, Datum.RealEq, Ne.symm b1]
  · rw [if_neg a1, if_neg a1]
    by_cases a2 : x.exp = u
    · rw [if_pos a2, if_pos a2, a2]
      by_cases b1 : y.exp = 0
      · by_cases a3 : x.frac = 0 <;> simp [b1, a3, Datum.RealEq, h0]
      · by_cases b2 : y.exp = u
        · have cc : (0 = y.frac) ↔ y.frac = 0 := eq_comm
          by_cases a3 : x.frac = 0 <;> by_cases b3 : y.frac = 0 <;> simp [b2, a3, b3, Datum.RealEq, h0, ss, cc]
        · by_cases a3 : x.frac = 0 <;> simp [b1, b2, a3, Datum.RealEq, Ne.symm b2]
    · rw [if_neg a2, if_neg a2]
      by_cases b1 : y.exp = 0
      · simp [b1, a1, Datum.RealEq]
      · by_cases b2 : y.exp = u
        · by_cases b3 : y.frac = 0 <;> simp [b2, b3, a2, Datum.RealEq, h0]
        · rw [if_neg b1, if_neg b2]
          simp only [Datum.RealEq, hinj a1 a2 b1 b2, Bool.and_eq_true, beq_iff_eq, reduceCtorEq, and_self, or_false]
          tauto

example : (Ieee.mk3 4 3 0 0 3).equals (Ieee.mk3 4 3 1 0 0) = true ∧ (Ieee.mk3 4 3 0 7 3).equals (Ieee.mk3 4 3 1 7 3) = false ∧
    (Ieee.mk3 4 3 0 15 3).equals (Ieee.mk3 4 3 1 15 1) = true := by decide

/-- **C51.** The values of `numeric_limits` of the IEEE format. -/
theorem C51_limits_values_partial {E F : ℕ} (hE : 2 ≤ E) (hF : 1 ≤ F) :
    (IeeeLimits.min E F).datum = .num (ieeeMin E) ∧ (IeeeLimits.negMin E F).datum = .num (-ieeeMin E) ∧
    (IeeeLimits.max E F).datum = .num ((2 - 1 / 2 ^ F) * 2 ^ bias E) ∧
    (IeeeLimits.lowest E F).datum = .num (-((2 - 1 / 2 ^ F) * 2 ^ bias E)) ∧
    IeeeLimits.negMax E F = IeeeLimits.lowest E F ∧ IeeeLimits.denormMin E F = IeeeLimits.min E F ∧
    (IeeeLimits.infinity E F).datum = .inf false ∧ (IeeeLimits.negInfinity E F).datum = .inf true ∧
    (IeeeLimits.quietNaN E F).datum = .nan ∧
    (IeeeLimits.posZero E F).datum = .zero false ∧ (IeeeLimits.negZero E F).datum = .zero true ∧
    (IeeeLimits.posOne E F).datum = .num 1 ∧ (IeeeLimits.negOne E F).datum = .num (-1) := by
  have hE1 : 1 ≤ E := by omega
  have pE := two_pow_pred hE1
  have pE2 := two_pow_pred (show 1 ≤ E - 1 by omega)
  have q0 : 0 < 2 ^ (E - 1 - 1) := by positivity
  have h4 : 4 ≤ 2 ^ E := by
    calc 4 = 2 ^ 2 := rfl
      _ ≤ 2 ^ E := Nat.pow_le_pow_right (by norm_num) hE
  have h5 : 2 ≤ 2 ^ F := by
    calc 2 = 2 ^ 1 := rfl
      _ ≤ 2 ^ F := Nat.pow_le_pow_right (by norm_num) hF
  obtain ⟨u, hu⟩ : ∃ u : ℕ, u = 2 ^ E := ⟨_, rfl⟩
  obtain ⟨w, hw⟩ : ∃ w : ℕ, w = 2 ^ F := ⟨_, rfl⟩
  have cmax : concat 1 (ones (E - 1)) 0 = u - 2 := by unfold concat ones; omega
  have cmin : concat 1 0 1 = 1 := rfl
  have hb : biasN E = u / 2 - 1 := by unfold biasN; omega
  have hbz : bias E = (u : ℤ) / 2 - 1 := by rw [← pow_bias, hb]; omega
  have hwq : (w : ℚ) = 2 ^ F := by rw [hw]; push_cast; rfl
  have hw0 : (0 : ℚ) < 2 ^ F := by positivity
  have hd : ∀ {s e f : ℕ}, s < 2 → e < u → f < w → (Ieee.mk3 E F s e f).datum = ieeeDenote E F s e f := by
    intro s e f a b c
    exact Ieee.mk3_datum hE1 hF a (by omega) (by omega)
  have hnorm : ∀ {s e f : ℕ}, s < 2 → e ≠ 0 → e < u - 1 → f < w → (Ieee.mk3 E F s e f).datum =
      .num ((if s = 1 then -1 else 1) * ((1 + (f : ℚ) / 2 ^ F) * 2 ^ ((e : ℤ) - bias E))) := by
    intro s e f a b c d
    rw [hd a (by omega) d]
    unfold ieeeDenote
    rw [if_neg b, if_neg (by omega)]
    congr 2
    rw [zpow_sub₀ (by norm_num : (2 : ℚ) ≠ 0), zpow_natCast]; push_cast; field_simp
  have honesF : ((ones F : ℕ) : ℚ) = 2 ^ F - 1 := by
    unfold ones; rw [Nat.cast_sub (by omega)]; push_cast; rfl
  have oF : ones F < w := by unfold ones; omega
  have oE : ones E = u - 1 := by unfold ones; omega
  refine ⟨?_, ?_, ?_, ?_, rfl, rfl, ?_, ?_, ?_, ?_, ?_, ?_, ?_⟩
  · unfold IeeeLimits.min ieeeMin; rw [cmin, hnorm (by decide) (by decide) (by omega) (by omega)]; simp
  · unfold IeeeLimits.negMin ieeeMin; rw [cmin, hnorm (by decide) (by decide) (by omega) (by omega)]; simp
  · unfold IeeeLimits.max
    rw [cmax, hnorm (by decide) (by omega) (by omega) oF, honesF, show ((u - 2 : ℕ) : ℤ) - bias E = bias E by omega]
    simp only [zero_ne_one, if_false, one_mul]
    congr 2; field_simp; ring
  · unfold IeeeLimits.lowest
    rw [cmax, hnorm (by decide) (by omega) (by omega) oF, honesF, show ((u - 2 : ℕ) : ℤ) - bias E = bias E by omega]
    simp only [if_true, neg_one_mul]
    congr 3; field_simp; ring
  · unfold IeeeLimits.infinity
    rw [hd (by decide) (by omega) (by omega)]; unfold ieeeDenote; rw [if_neg (by omega), if_pos (by unfold ones; rfl), if_pos rfl]; rfl
  · unfold IeeeLimits.negInfinity
    rw [hd (by decide) (by omega) (by omega)]; unfold ieeeDenote; rw [if_neg (by omega), if_pos (by unfold ones; rfl), if_pos rfl]; rfl
  · unfold IeeeLimits.quietNaN
    rw [hd (by decide) (by omega) (by omega)]; unfold ieeeDenote
    rw [if_neg (by omega), if_pos (by unfold ones; rfl), if_neg (by unfold ones; omega)]
  · unfold IeeeLimits.posZero
    rw [hd (by decide) (by omega) (by omega)]; rfl
  · unfold IeeeLimits.negZero
    rw [hd (by decide) (by omega) (by omega)]; rfl
  · unfold IeeeLimits.posOne
    rw [hnorm (by decide) (by omega) (by omega) (by omega), pow_bias]; simp
  · unfold IeeeLimits.negOne
    rw [hnorm (by decide) (by omega) (by omega) (by omega), pow_bias]; simp

/-- **C51, where it fails.** `signalling_NaN()` is an infinity, and `denorm_min()` is the smallest normal
number. -/
theorem C51_signalling_nan_is_infinity {E F : ℕ} (hE : 2 ≤ E) (hF : 1 ≤ F) :
    (IeeeLimits.signallingNaN E F).datum = .inf false ∧ (IeeeLimits.signallingNaN E F).isNan = false ∧
    (IeeeLimits.denormMin E F).datum = .num (ieeeMin E) := by
  have h := C51_limits_values_partial hE hF
  have h7 : (IeeeLimits.signallingNaN E F).datum = .inf false := h.2.2.2.2.2.2.1
  refine ⟨h7, ?_, h.1⟩
  have := (C51_classes hE hF (IeeeLimits.signallingNaN E F)).2.2.2.1
  rw [h7] at this
  simpa [ieeeRange] using this

/-- **C51.** `min`, `max` and `lowest` bound every normal IEEE number. -/
theorem C51_limits_bound {E F : ℕ} (hE : 2 ≤ E) (hF : 1 ≤ F) (x : Ieee E F) (v : ℚ)
    (hx : ieeeRange E x.datum = .num v) :
    ∃ mn mx lo : ℚ, (IeeeLimits.min E F).datum = .num mn ∧ (IeeeLimits.max E F).datum = .num mx ∧
      (IeeeLimits.lowest E F).datum = .num lo ∧ lo ≤ v ∧ v ≤ mx ∧ mn ≤ |v| := by
  obtain ⟨h1, -, h2, h3, -⟩ := C51_limits_values_partial hE hF
  refine ⟨_, _, _, h1, h2, h3, ?_⟩
  rw [ieee_flushed (by omega) hF] at hx
  have a : ¬ x.exp = 0 := by intro a; rw [if_pos a] at hx; simp at hx
  rw [if_neg a] at hx
  have b : ¬ x.exp = 2 ^ E - 1 := by intro b; rw [if_pos b] at hx; split_ifs at hx
  rw [if_neg b] at hx
  have hpos : (0 : ℚ) < ((2 ^ F + x.frac : ℕ) : ℚ) * 2 ^ ((x.exp : ℤ) - bias E - F) := sig_scaled_pos _ _ _
  have habs : |v| = ((2 ^ F + x.frac : ℕ) : ℚ) * 2 ^ ((x.exp : ℤ) - bias E - F) := by
    injection hx with hx; rw [← hx, abs_signed hpos]
  have he := x.exp_lt (show 1 ≤ E by omega)
  obtain ⟨b1, b2⟩ := two_bias (show 1 ≤ E by omega)
  have hc : ((2 ^ E : ℕ) : ℤ) = 2 * bias E + 2 := by push_cast; exact b1
  have hlow := (sig_bounds (x.frac_lt hF) ((x.exp : ℤ) - bias E)).1
  have hf : (x.frac : ℚ) + 1 ≤ 2 ^ F := by exact_mod_cast x.frac_lt hF
  have hw0 : (0 : ℚ) < 2 ^ F := by positivity
  have hup : |v| ≤ (2 - 1 / 2 ^ F) * 2 ^ bias E := by
    rw [habs, zpow_sub₀ (by norm_num : (2 : ℚ) ≠ 0), zpow_natCast]
    have h5 : (2 : ℚ) ^ ((x.exp : ℤ) - bias E) ≤ 2 ^ bias E := zpow_le_zpow_right₀ (by norm_num) (by omega)
    have h6 : ((2 ^ F + x.frac : ℕ) : ℚ) / 2 ^ F ≤ 2 - 1 / 2 ^ F := by
      push_cast
      rw [div_le_iff₀ hw0]
      have : (2 - 1 / (2 : ℚ) ^ F) * 2 ^ F = 2 * 2 ^ F - 1 := by field_simp
      rw [this]; linarith
    have h7 : (0 : ℚ) < 2 ^ ((x.exp : ℤ) - bias E) := two_zpow_pos _
    have h8 : (0 : ℚ) ≤ ((2 ^ F + x.frac : ℕ) : ℚ) / 2 ^ F := by positivity
    calc ((2 ^ F + x.frac : ℕ) : ℚ) * (2 ^ ((x.exp : ℤ) - bias E) / 2 ^ F)
        = ((2 ^ F + x.frac : ℕ) : ℚ) / 2 ^ F * 2 ^ ((x.exp : ℤ) - bias E) := by ring
      _ ≤ (2 - 1 / 2 ^ F) * 2 ^ bias E := mul_le_mul h6 h5 h7.le (h8.trans h6)
  refine ⟨by have := neg_abs_le v; linarith, le_trans (le_abs_self v) hup, ?_⟩
  rw [habs]
  refine le_trans ?_ hlow
  unfold ieeeMin
  exact zpow_le_zpow_right₀ (by norm_num) (by omega)

/-- **C51.** Extraction of an IEEE word into an MPFR number of precision `F+1` gives its value, denormals
being read as zeros. -/
theorem C51_to_mpfr {E F : ℕ} (hE : 2 ≤ E) (hF : 1 ≤ F) (x : Ieee E F) :
    (Ieee.toMpfr x).datum = ieeeRange E x.datum := by
  have h4 : 4 ≤ 2 ^ E := by
    calc 4 = 2 ^ 2 := rfl
      _ ≤ 2 ^ E := Nat.pow_le_pow_right (by norm_num) hE
  rw [ieee_flushed (by omega) hF]
  unfold Ieee.toMpfr Ieee.isZero Ieee.isInf Ieee.isNan Ieee.isNegative
  obtain ⟨u, hu⟩ : ∃ u : ℕ, u = 2 ^ E - 1 := ⟨_, rfl⟩
  have hou : ones E = u := hu.symm
  have h0 : ¬ (u = 0) := by omega
  simp only [hou, ← hu]
  by_cases a1 : x.exp = 0
  · simp [a1, Mpfr.datum, beq_eq_decide]
  · by_cases a2 : x.exp = u
    · by_cases a3 : x.frac = 0 <;> simp [a2, a3, h0, Mpfr.datum, beq_eq_decide]
    · simp only [beq_eq_decide, a1, a2, decide_false, Bool.false_and, if_false, Mpfr.datum, ← pow_bias, Bool.false_eq_true]
      rw [show (x.exp : ℤ) - F - biasN E = x.exp - biasN E - F by ring]
      simp

/-- **C51.** Constructing an IEEE word from any MPFR number of precision `F+1`: the value is kept when it is a
normal number of the format; otherwise the result is a zero or infinity of the right sign if
under/overflow is allowed and an exception if not. -/
theorem C51_of_mpfr {E F m : ℕ} (hE : 2 ≤ E) (hF : 1 ≤ F) (allow neg : Bool) (e : ℤ) (hm : IsSig (F + 1) m) :
    if (1 ≤ e + F + bias E ∧ e + F ≤ bias E) ∨ allow then
      ∃ y : Ieee E F, Ieee.ofMpfr E F allow (.num neg m e) = some y ∧
        y.datum = ieeeRange E (Mpfr.num neg m e).datum
    else Ieee.ofMpfr E F allow (.num neg m e) = none := by
  have hE1 : 1 ≤ E := by omega
  have pE : 0 < 2 ^ E := by positivity
  obtain ⟨b1, b2⟩ := two_bias hE1
  have hc : ((2 ^ E : ℕ) : ℤ) = 2 * bias E + 2 := by push_cast; exact b1
  have hb : (biasN E : ℤ) = bias E := pow_bias
  obtain ⟨m1, m2⟩ := hm
  rw [Nat.add_sub_cancel] at m1
  rw [pow_succ] at m2
  have hbit : m / 2 ^ F % 2 = 1 := by
    have : m / 2 ^ F = 1 := Nat.div_eq_of_lt_le (by omega) (by omega)
    rw [this]
  have hfr : m - 2 ^ F < 2 ^ F := by omega
  have hs : neg.toNat < 2 := by cases neg <;> decide
  have hsd : decide (neg.toNat = 1) = neg := by cases neg <;> rfl
  have hsg : (if neg = true then (-1 : ℚ) else 1) = if neg.toNat = 1 then -1 else 1 := by cases neg <;> rfl
  have hmm : 2 ^ F + (m - 2 ^ F) = m := by omega
  have hpos : (0 : ℚ) < (m : ℚ) * 2 ^ e := by
    have h0 : 0 < m := lt_of_lt_of_le (by positivity : 0 < 2 ^ F) m1
    exact mul_pos (by exact_mod_cast h0) (two_zpow_pos _)
  have habs : |(if neg = true then (-1 : ℚ) else 1) * ((m : ℚ) * 2 ^ e)| = (m : ℚ) * 2 ^ e := by
    rw [hsg, abs_signed hpos]
  have hneg : decide ((if neg = true then (-1 : ℚ) else 1) * ((m : ℚ) * 2 ^ e) < 0) = neg := by
    rw [hsg, decide_eq_decide.mpr (signed_neg hpos), hsd]
  have hbd := sig_bounds hfr (e + F)
  rw [hmm, show e + (F : ℤ) - F = e by ring] at hbd
  have hou : ones E < 2 ^ E := by unfold ones; omega
  have h4 : 4 ≤ 2 ^ E := by
    calc 4 = 2 ^ 2 := rfl
      _ ≤ 2 ^ E := Nat.pow_le_pow_right (by norm_num) hE
  have n1 : ¬ ones E = 0 := by unfold ones; omega
  simp only [Ieee.ofMpfr, hbit, Nat.not_le.mpr hfr, one_ne_zero, if_false]
  unfold Mpfr.datum ieeeRange
  simp only [habs, hneg]
  by_cases h1 : e + F + biasN E < 1
  · have h2 : e + F < 0 - (biasN E : ℤ) + 1 := by omega
    have hlow : (m : ℚ) * 2 ^ e < ieeeMin E := by
      refine lt_of_lt_of_le hbd.2 ?_
      unfold ieeeMin; exact zpow_le_zpow_right₀ (by norm_num) (by omega)
    cases allow
    · rw [if_neg (by simp; omega), if_pos h2]; rfl
    · simp only [h2, if_true, or_true, hlow]
      refine ⟨_, rfl, ?_⟩
      rw [Ieee.mk3_datum hE1 hF hs pE (by positivity), ieeeDenote, if_pos rfl, if_pos rfl, hsd]
  · have hlow : ¬ ((m : ℚ) * 2 ^ e < ieeeMin E) := by
      refine not_lt.mpr (le_trans ?_ hbd.1)
      unfold ieeeMin; exact zpow_le_zpow_right₀ (by norm_num) (by omega)
    have h2 : ¬ (e + F < 0 - (biasN E : ℤ) + 1) := by omega
    by_cases h3 : e + F > 0 + (biasN E : ℤ)
    · have hhi : ieeeLimit E ≤ (m : ℚ) * 2 ^ e := by
        refine le_trans ?_ hbd.1
        unfold ieeeLimit; exact zpow_le_zpow_right₀ (by norm_num) (by omega)
      cases allow
      · rw [if_neg (by simp; omega), if_neg h2, if_pos h3]; rfl
      · simp only [h2, h3, if_true, if_false, or_true, hlow, hhi]
        refine ⟨_, rfl, ?_⟩
        rw [Ieee.mk3_datum hE1 hF hs hou (by positivity), ieeeDenote, if_neg n1, if_pos (by unfold ones; rfl), if_pos rfl, hsd]
    · have hhi : ¬ (ieeeLimit E ≤ (m : ℚ) * 2 ^ e) := by
        refine not_le.mpr (lt_of_lt_of_le hbd.2 ?_)
        unfold ieeeLimit; exact zpow_le_zpow_right₀ (by norm_num) (by omega)
      rw [if_pos (Or.inl ⟨by omega, by omega⟩), if_neg h2, if_neg h3, if_neg hlow, if_neg hhi]
      refine ⟨_, rfl, ?_⟩
      have het : ((e + F + biasN E).toNat : ℤ) = e + F + biasN E := Int.toNat_of_nonneg (by omega)
      rw [Ieee.mk3_datum hE1 hF hs (by omega) hfr, ieeeDenote, if_neg (by omega), if_neg (by omega), hmm, het, hsg, ← hb,
        show e + (F : ℤ) + biasN E - biasN E - F = e by ring]

/-- **C51.** NaNs, infinities and zeros of MPFR are kept, and construction from an extracted word gives back the
value of that word with denormals flushed. -/
theorem C51_mpfr_round_trip {E F : ℕ} (hE : 2 ≤ E) (hF : 1 ≤ F) (allow : Bool) (x : Ieee E F) :
    (∃ y, Ieee.ofMpfr E F allow .nan = some y ∧ y.datum = .nan) ∧
    (∀ s, ∃ y, Ieee.ofMpfr E F allow (.inf s) = some y ∧ y.datum = .inf s) ∧
    (∀ s, ∃ y, Ieee.ofMpfr E F allow (.zero s) = some y ∧ y.datum = .zero s) ∧
    ∃ y, Ieee.ofMpfr E F allow (Ieee.toMpfr x) = some y ∧ y.datum = ieeeRange E x.datum := by
  obtain ⟨-, -, -, -, -, -, l1, l2, l3, l4, l5, -⟩ := C51_limits_values_partial hE hF
  have g1 : ∃ y, Ieee.ofMpfr E F allow .nan = some y ∧ y.datum = .nan := ⟨_, rfl, l3⟩
  have g2 : ∀ s, ∃ y, Ieee.ofMpfr E F allow (.inf s) = some y ∧ y.datum = .inf s := by
    intro s; cases s
    · exact ⟨_, rfl, l1⟩
    · exact ⟨_, rfl, l2⟩
  have g3 : ∀ s, ∃ y, Ieee.ofMpfr E F allow (.zero s) = some y ∧ y.datum = .zero s := by
    intro s; cases s
    · exact ⟨IeeeLimits.posZero E F, by simp [Ieee.ofMpfr, IeeeLimits.posZero, Ieee.mk3, concat], l4⟩
    · exact ⟨IeeeLimits.negZero E F, by simp [Ieee.ofMpfr, IeeeLimits.negZero, Ieee.mk3, concat], l5⟩
  refine ⟨g1, g2, g3, ?_⟩
  have ht := C51_to_mpfr hE hF x
  have hk0 : ieeeRange E (Ieee.toMpfr x).datum = (Ieee.toMpfr x).datum := by rw [ht, ieeeRange_idem]
  rw [← ht]
  cases hk : Ieee.toMpfr x with
  | nan => exact g1
  | inf s => exact g2 s
  | zero s => exact g3 s
  | num neg m e =>
    obtain ⟨b1, b2⟩ := two_bias (show 1 ≤ E by omega)
    have hc : ((2 ^ E : ℕ) : ℤ) = 2 * bias E + 2 := by push_cast; exact b1
    have hb : (biasN E : ℤ) = bias E := pow_bias
    have he := x.exp_lt (show 1 ≤ E by omega)
    have hf := x.frac_lt hF
    rw [hk] at hk0
    unfold Ieee.toMpfr at hk
    split_ifs at hk with a b c
    simp only [Ieee.isZero, Ieee.isInf, Ieee.isNan, beq_iff_eq, Bool.and_eq_true, bne_iff_ne, ne_eq, ones] at a b c
    injection hk with k1 k2 k3
    have hn : x.exp ≠ 2 ^ E - 1 := by
      intro h; by_cases hz : x.frac = 0
      · exact b ⟨h, hz⟩
      · exact c ⟨h, hz⟩
    have := C51_of_mpfr hE hF allow neg e (m := m) ⟨by rw [Nat.add_sub_cancel]; omega, by rw [pow_succ]; omega⟩
    rw [if_pos (Or.inl ⟨by omega, by omega⟩), hk0] at this
    exact this

/-- A significand of 24 bits that is accepted, one whose exponent is refused, and a number read back. -/
example : IsSig 24 (2 ^ 23 + 5) ∧
    (Ieee.ofMpfr 8 23 false (.num true (2 ^ 23 + 5) (-23))).map Ieee.bits = some 0xBF800005 ∧
    (Ieee.ofMpfr 8 23 false (.num true (2 ^ 23 + 5) (-150))) = none ∧
    ieeeRange 8 (Ieee.mk3 8 23 1 127 5).datum = (Ieee.toMpfr (Ieee.mk3 8 23 1 127 5)).datum := by
  refine ⟨⟨by decide, by decide⟩, by decide +kernel, by decide +kernel, (C51_to_mpfr (by decide) (by decide) _).symm⟩

end Thls
