import Verif.SpecIeee
import Verif.Model.Ieee
import Verif.Proofs.Convert
import Verif.Proofs.Order

/-! # Lemmas on the IEEE encoding -/

namespace Thls
open Spec

namespace Ieee
variable {E F : ℕ}

/-- The datum denoted by an IEEE word. -/
def datum (x : Ieee E F) : Datum := ieeeDenote E F x.sign x.exp x.frac

theorem sign_lt (x : Ieee E F) : x.sign < 2 := by
  have := getBits_lt (E + F) (E + F) x.bits
  rwa [show E + F + 1 - (E + F) = 1 by omega] at this

theorem exp_lt (hE : 1 ≤ E) (x : Ieee E F) : x.exp < 2 ^ E := by
  have := getBits_lt (E + F - 1) F x.bits
  rwa [show E + F - 1 + 1 - F = E by omega] at this

theorem frac_lt (hF : 1 ≤ F) (x : Ieee E F) : x.frac < 2 ^ F := by
  have := getBits_lt (F - 1) 0 x.bits
  rwa [show F - 1 + 1 - 0 = F by omega] at this

theorem mk3_fields {s e f : ℕ} (hE : 1 ≤ E) (hF : 1 ≤ F) (hs : s < 2) (he : e < 2 ^ E) (hf : f < 2 ^ F) :
    (mk3 E F s e f).sign = s ∧ (mk3 E F s e f).exp = e ∧ (mk3 E F s e f).frac = f := by
  have h1 := concat_lt he hf
  have h2 : concat (E + F) s (concat F e f) < 2 ^ (1 + (E + F)) := concat_lt (by simpa using hs) h1
  have hb : (mk3 E F s e f).bits = concat (E + F) s (concat F e f) := by
    unfold mk3 ofBits
    refine Nat.mod_eq_of_lt (by rwa [Nat.add_assoc])
  refine ⟨?_, ?_, ?_⟩
  · unfold sign
    rw [hb, getBits_concat_high h1 le_rfl le_rfl, Nat.sub_self, getBits_all (by simpa using hs)]
  · unfold exp
    rw [hb, getBits_concat_low h1 (by omega) (by omega), getBits_concat_high hf le_rfl (by omega),
      Nat.sub_self, getBits_all (by rwa [show E + F - 1 - F + 1 = E by omega])]
  · unfold frac
    rw [hb, getBits_concat_low h1 (by omega) (by omega), getBits_concat_low hf (by omega) (by omega),
      getBits_all (by rwa [show F - 1 + 1 = F by omega])]

theorem mk3_datum {s e f : ℕ} (hE : 1 ≤ E) (hF : 1 ≤ F) (hs : s < 2) (he : e < 2 ^ E) (hf : f < 2 ^ F) :
    (mk3 E F s e f).datum = ieeeDenote E F s e f := by
  obtain ⟨a, b, c⟩ := mk3_fields hE hF hs he hf
  unfold datum
  rw [a, b, c]

theorem bits_eq (hE : 1 ≤ E) (hF : 1 ≤ F) (x : Ieee E F) : x.bits = concat (E + F) x.sign (concat F x.exp x.frac) := by
  have hx := x.isLt
  have h1 : x.sign = x.bits / 2 ^ (E + F) := by
    unfold sign
    exact getBits_top (by rwa [show E + F + 1 = 1 + E + F by omega]) (by omega)
  have h2 : concat F x.exp x.frac = x.bits % 2 ^ (E + F) := by
    unfold concat exp frac getBits
    rw [show E + F - 1 + 1 - F = E by omega, show F - 1 + 1 - 0 = F by omega, pow_zero, Nat.div_one, Nat.add_comm E F, pow_add]
    rw [Nat.mod_mul]; ring
  rw [h1, h2]
  unfold concat
  rw [Nat.mul_comm, Nat.div_add_mod]

theorem ext_fields (hE : 1 ≤ E) (hF : 1 ≤ F) {x y : Ieee E F} (h1 : x.sign = y.sign) (h2 : x.exp = y.exp)
    (h3 : x.frac = y.frac) : x = y := by
  have := bits_eq hE hF x
  have h := bits_eq hE hF y
  rw [h1, h2, h3, ← h] at this
  cases x; cases y; simp only [mk.injEq]; exact this

end Ieee

/-! ## Range -/

theorem two_bias {E : ℕ} (hE : 1 ≤ E) : (2 : ℤ) ^ E = 2 * bias E + 2 ∧ 0 ≤ bias E := by
  unfold bias
  have : (2 : ℤ) ^ E = 2 * 2 ^ (E - 1) := by
    conv_lhs => rw [show E = (E - 1) + 1 by omega, pow_succ]
    ring
  have hp : (0 : ℤ) < 2 ^ (E - 1) := by positivity
  constructor <;> omega

/-- Magnitude of a significand at a binary exponent. -/
theorem sig_bounds {F f : ℕ} (hf : f < 2 ^ F) (g : ℤ) :
    (2 : ℚ) ^ g ≤ ((2 ^ F + f : ℕ) : ℚ) * 2 ^ (g - F) ∧ ((2 ^ F + f : ℕ) : ℚ) * 2 ^ (g - F) < 2 ^ (g + 1) := by
  have hp : (0 : ℚ) < 2 ^ (g - F) := two_zpow_pos _
  have e1 : (2 : ℚ) ^ g = 2 ^ F * 2 ^ (g - F) := by
    rw [← zpow_natCast (2 : ℚ) F, ← zpow_add₀ (by norm_num)]; congr 1; ring
  have hfq : (f : ℚ) < 2 ^ F := by exact_mod_cast hf
  have hf0 : (0 : ℚ) ≤ f := by positivity
  rw [two_zpow_succ, e1]
  push_cast
  constructor <;> nlinarith

theorem ieeeRange_normal {E F : ℕ} (hE : 1 ≤ E) {s e f : ℕ} (hf : f < 2 ^ F) (he : e < 2 ^ E) :
    ieeeRange E (.num ((if s = 1 then -1 else 1) * (((2 ^ F + f : ℕ) : ℚ) * 2 ^ ((e : ℤ) - bias E - F))))
      = if e = 0 then .zero (decide (s = 1)) else if e = 2 ^ E - 1 then .inf (decide (s = 1))
        else .num ((if s = 1 then -1 else 1) * (((2 ^ F + f : ℕ) : ℚ) * 2 ^ ((e : ℤ) - bias E - F))) := by
  obtain ⟨h1, h2⟩ := sig_bounds hf ((e : ℤ) - bias E)
  have hpos : (0 : ℚ) < ((2 ^ F + f : ℕ) : ℚ) * 2 ^ ((e : ℤ) - bias E - F) := sig_scaled_pos _ _ _
  obtain ⟨b1, b2⟩ := two_bias hE
  have hc : ((2 ^ E : ℕ) : ℤ) = 2 * bias E + 2 := by push_cast; exact b1
  unfold ieeeRange
  simp only [abs_signed hpos, signed_neg hpos]
  unfold ieeeMin ieeeLimit
  by_cases h0 : e = 0
  · rw [if_pos h0, if_pos]
    refine lt_of_lt_of_le h2 (zpow_le_zpow_right₀ (by norm_num) (by omega))
  · rw [if_neg h0, if_neg]
    swap
    · rw [not_lt]
      exact le_trans (zpow_le_zpow_right₀ (by norm_num) (by omega)) h1
    by_cases h3 : e = 2 ^ E - 1
    · rw [if_pos h3, if_pos]
      have : (e : ℤ) = 2 * bias E + 1 := by omega
      exact le_trans (zpow_le_zpow_right₀ (by norm_num) (by omega)) h1
    · rw [if_neg h3, if_neg]
      rw [not_le]
      exact lt_of_lt_of_le h2 (zpow_le_zpow_right₀ (by norm_num) (by omega))

theorem ieeeRange_denormal {E F : ℕ} {s f : ℕ} (hf : f < 2 ^ F) (hf0 : f ≠ 0) :
    ieeeRange E (.num ((if s = 1 then -1 else 1) * ((f : ℚ) * 2 ^ (1 - bias E - F)))) = .zero (decide (s = 1)) := by
  have hp : (0 : ℚ) < 2 ^ (1 - bias E - F) := two_zpow_pos _
  have hq : (0 : ℚ) < f := by exact_mod_cast Nat.pos_of_ne_zero hf0
  have hpos : (0 : ℚ) < (f : ℚ) * 2 ^ (1 - bias E - F) := by positivity
  unfold ieeeRange
  simp only [abs_signed hpos, signed_neg hpos]
  rw [if_pos]
  unfold ieeeMin
  have e1 : (2 : ℚ) ^ (1 - bias E) = 2 ^ F * 2 ^ (1 - bias E - F) := by
    rw [← zpow_natCast (2 : ℚ) F, ← zpow_add₀ (by norm_num)]; congr 1; ring
  have hfq : (f : ℚ) < 2 ^ F := by exact_mod_cast hf
  rw [e1]
  nlinarith

theorem ieeeRange_idem (E : ℕ) (d : Datum) : ieeeRange E (ieeeRange E d) = ieeeRange E d := by
  cases d with
  | num q =>
    by_cases h1 : |q| < ieeeMin E
    · simp only [ieeeRange, h1, if_true]
    · by_cases h2 : ieeeLimit E ≤ |q|
      · simp only [ieeeRange, h1, h2, if_true, if_false]
      · simp only [ieeeRange, h1, h2, if_false]
  | _ => rfl

/-- The value of a word after the IEEE range has been applied, by fields. -/
theorem ieee_flushed {E F : ℕ} (hE : 1 ≤ E) (hF : 1 ≤ F) (x : Ieee E F) :
    ieeeRange E x.datum = if x.exp = 0 then .zero (decide (x.sign = 1))
      else if x.exp = 2 ^ E - 1 then (if x.frac = 0 then .inf (decide (x.sign = 1)) else .nan)
      else .num ((if x.sign = 1 then -1 else 1) * (((2 ^ F + x.frac : ℕ) : ℚ) * 2 ^ ((x.exp : ℤ) - bias E - F))) := by
  unfold Ieee.datum ieeeDenote
  by_cases h0 : x.exp = 0
  · simp only [h0, if_true]
    by_cases hf : x.frac = 0
    · simp only [hf, if_true]; rfl
    · simp only [hf, if_false]; exact ieeeRange_denormal (x.frac_lt hF) hf
  · simp only [h0, if_false]
    by_cases h1 : x.exp = 2 ^ E - 1
    · simp only [h1, if_true]
      split_ifs <;> rfl
    · simp only [h1, if_false]
      rw [ieeeRange_normal hE (x.frac_lt hF) (x.exp_lt hE), if_neg h0, if_neg h1]

theorem ieee_range_of_rounded {E F : ℕ} (hE : 1 ≤ E) {q : ℚ} {d : Datum} (h : Rounded E F q d) :
    IeeeRounded E F q (ieeeRange E d) := by
  obtain ⟨m, e, hn, rfl⟩ := h
  refine ⟨m, e, hn, ?_⟩
  obtain ⟨b1, b2⟩ := two_bias hE
  have hp : (0 : ℚ) < 2 ^ e := two_zpow_pos _
  obtain ⟨m1, m2⟩ := hn.1
  rw [Nat.add_sub_cancel] at m1
  have hm0 : (2 : ℚ) ^ F ≤ m := by exact_mod_cast m1
  have hm1 : (m : ℚ) < 2 ^ (F + 1) := by exact_mod_cast m2
  have hpF : (0 : ℚ) < 2 ^ F := by positivity
  have hmpos : (0 : ℚ) < m := lt_of_lt_of_le hpF hm0
  have hpos : (0 : ℚ) < (m : ℚ) * 2 ^ e := by positivity
  have l1 : (2 : ℚ) ^ (F + e : ℤ) ≤ (m : ℚ) * 2 ^ e := by
    rw [zpow_add₀ (by norm_num), zpow_natCast]; exact mul_le_mul_of_nonneg_right hm0 hp.le
  have l2 : (m : ℚ) * 2 ^ e < 2 ^ (F + 1 + e : ℤ) := by
    rw [zpow_add₀ (by norm_num) (F + 1 : ℤ), show ((F : ℤ) + 1) = ((F + 1 : ℕ) : ℤ) by push_cast; rfl, zpow_natCast]
    exact mul_lt_mul_of_pos_right hm1 hp
  have habs : |(if q < 0 then (-1 : ℚ) else 1) * ((m : ℚ) * 2 ^ e)| = (m : ℚ) * 2 ^ e := by
    split_ifs
    · rw [neg_one_mul, abs_neg, abs_of_pos hpos]
    · rw [one_mul, abs_of_pos hpos]
  have hneg : ((if q < 0 then (-1 : ℚ) else 1) * ((m : ℚ) * 2 ^ e) < 0) ↔ q < 0 := by
    split_ifs with h
    · simp only [h, iff_true]; linarith
    · simp only [h, iff_false, one_mul]; linarith
  unfold rangeCheck
  simp only [decide_eq_true_eq]
  by_cases c1 : e + F + bias E < 0
  · rw [if_pos c1]
    unfold ieeeRange
    simp only [habs, hneg]
    rw [if_pos]
    refine lt_of_lt_of_le l2 ?_
    unfold ieeeMin
    exact zpow_le_zpow_right₀ (by norm_num) (by omega)
  · rw [if_neg c1]
    by_cases c2 : 2 ^ E ≤ e + F + bias E
    · rw [if_pos c2]
      unfold ieeeRange
      simp only [habs, hneg]
      have hl : ieeeLimit E ≤ (m : ℚ) * 2 ^ e := by
        refine le_trans ?_ l1
        unfold ieeeLimit
        exact zpow_le_zpow_right₀ (by norm_num) (by omega)
      have hmn : ieeeMin E ≤ ieeeLimit E := zpow_le_zpow_right₀ (by norm_num) (by omega)
      rw [if_neg (not_lt.mpr (hmn.trans hl)), if_pos hl]
    · rw [if_neg c2]

/-! ## Conversions -/

theorem ieeeToFlopoco_fields {E F : ℕ} (hE : 1 ≤ E) (hF : 1 ≤ F) (x : Ieee E F) :
    (ieeeToFlopoco x).flags = x.flags ∧ (ieeeToFlopoco x).sign = x.sign ∧ (ieeeToFlopoco x).exp = x.exp ∧
    (ieeeToFlopoco x).frac = x.frac := by
  have hfl : x.flags < 4 := by unfold Ieee.flags; split_ifs <;> decide
  have a := x.sign_lt
  have b := x.exp_lt hE
  have c := x.frac_lt hF
  exact ⟨Fp.mk4_flags hfl a b c, Fp.mk4_sign hfl a b c, Fp.mk4_exp hfl a b c hE, Fp.mk4_frac hfl a b c hF⟩

theorem ieeeToFlopoco_datum {E F : ℕ} (hE : 1 ≤ E) (hF : 1 ≤ F) (x : Ieee E F) :
    (ieeeToFlopoco x).datum = ieeeRange E x.datum := by
  obtain ⟨h1, h2, h3, h4⟩ := ieeeToFlopoco_fields hE hF x
  rw [ieee_flushed hE hF]
  unfold Fp.datum
  rw [h1, h2, h3, h4]
  unfold Ieee.flags ones
  by_cases e1 : x.exp = 0
  · simp only [e1, if_true]; rfl
  · simp only [e1, if_false]
    by_cases e2 : x.exp = 2 ^ E - 1
    · simp only [e2, if_true]
      split_ifs <;> rfl
    · simp only [e2, if_false]; rfl

theorem flopocoToIeee_fields {E F : ℕ} (hE : 1 ≤ E) (hF : 1 ≤ F) (x : Fp E F) :
    (flopocoToIeee x).sign = x.sign ∧
    (flopocoToIeee x).exp = (if x.flags = 0 ∨ (x.flags = 1 ∧ x.exp = 0) then 0
      else if x.flags = 3 ∨ x.flags = 2 ∨ (x.flags = 1 ∧ x.exp = ones E) then ones E else x.exp) ∧
    (flopocoToIeee x).frac = (if x.flags = 3 then ones F
      else if x.flags = 1 ∧ x.exp ≠ 0 ∧ x.exp ≠ ones E then x.frac else 0) := by
  have pE : 0 < 2 ^ E := by positivity
  have pF : 0 < 2 ^ F := by positivity
  have oE : ones E < 2 ^ E := by unfold ones; omega
  have oF : ones F < 2 ^ F := by unfold ones; omega
  have b := x.exp_lt hE
  have c := x.frac_lt hF
  have key := Ieee.mk3_fields (s := x.sign)
    (e := (if x.isZero || (x.isNormal && x.exp == 0) then 0
      else if x.isNan || x.isInf || (x.isNormal && x.exp == ones E) then ones E else x.exp))
    (f := (if x.isZero || x.isInf || (x.isNormal && x.exp == ones E) || (x.isNormal && x.exp == 0) then 0
      else if x.isNan then ones F else x.frac)) hE hF x.sign_lt
    (by split_ifs <;> assumption) (by split_ifs <;> assumption)
  unfold flopocoToIeee
  obtain ⟨k1, k2, k3⟩ := key
  dsimp only
  rw [k1, k2, k3]
  refine ⟨rfl, ?_, ?_⟩
  · simp only [Fp.isZero, Fp.isNormal, Fp.isInf, Fp.isNan, Bool.or_eq_true, Bool.and_eq_true, beq_iff_eq, or_assoc]
  · simp only [Fp.isZero, Fp.isNormal, Fp.isInf, Fp.isNan, Bool.or_eq_true, Bool.and_eq_true, beq_iff_eq, or_assoc]
    rcases flags_cases x with h | h | h | h <;> simp [h]
    by_cases e1 : x.exp = 0 <;> by_cases e2 : x.exp = ones E <;> simp [e1, e2]

theorem flopocoToIeee_datum {E F : ℕ} (hE : 2 ≤ E) (hF : 1 ≤ F) (x : Fp E F) :
    (flopocoToIeee x).datum = ieeeRange E x.datum := by
  obtain ⟨h1, h2, h3⟩ := flopocoToIeee_fields (by omega) hF x
  have h4 : 4 ≤ 2 ^ E := by
    calc 4 = 2 ^ 2 := rfl
      _ ≤ 2 ^ E := Nat.pow_le_pow_right (by norm_num) hE
  have h5 : 2 ≤ 2 ^ F := by
    calc 2 = 2 ^ 1 := rfl
      _ ≤ 2 ^ F := Nat.pow_le_pow_right (by norm_num) hF
  have o1 : (ones E = 0) = False := by unfold ones; simp only [eq_iff_iff, iff_false]; omega
  have o2 : (ones F = 0) = False := by unfold ones; simp only [eq_iff_iff, iff_false]; omega
  have o3 : 2 ^ E - 1 = ones E := rfl
  unfold Ieee.datum ieeeDenote
  rw [h1, h2, h3]
  rcases flags_cases x with h | h | h | h
  · rw [datum_flags0 x h]; simp [h, ieeeRange]
  · rw [datum_normal x h, ieeeRange_normal (by omega) (x.frac_lt hF) (x.exp_lt (by omega))]
    simp only [h, o3]
    by_cases e1 : x.exp = 0
    · simp [e1]
    · by_cases e2 : x.exp = ones E
      · simp [e2, o1]
      · simp [e1, e2]
  · rw [datum_flags2 x h]; simp [h, ieeeRange, o1, o3]
  · rw [datum_flags3 x h]; simp [h, ieeeRange, o1, o2, o3]

end Thls
