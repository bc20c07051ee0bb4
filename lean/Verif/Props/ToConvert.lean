import Verif.Model.ToConvert
import Verif.Props.Ieee

/-! # C88: the conversions `to<...>` between `float` and the wrapper class

A conversion that has not been given the permission to overflow, underflow or lose precision should keep the value. -/

namespace Thls
open Spec

/-- A subnormal `float`. -/
abbrev Subnormal (x : Ieee 8 23) : Prop := x.exp = 0 ∧ x.frac ≠ 0

/-- **C88.** The conversions exist for single precision only, and there whatever permissions are given. -/
theorem C88_accepted_iff (policy wE wF : ℕ) (x : Ieee 8 23) (w : Fp wE wF) :
    ((To.fromFloat policy wE wF x).isSome = true ↔ wE = 8 ∧ wF = 23) ∧
    ((To.toFloat policy w).isSome = true ↔ wE = 8 ∧ wF = 23) := by
  constructor
  · unfold To.fromFloat
    constructor
    · intro h; split at h
      · rename_i h'; exact h'.2
      · simp at h
    · rintro ⟨rfl, rfl⟩
      rw [dif_pos ⟨by simp [To.fromFloatAsserts], rfl, rfl⟩]; rfl
  · unfold To.toFloat
    constructor
    · intro h; split at h
      · rename_i h'; exact h'.2
      · simp at h
    · rintro ⟨rfl, rfl⟩
      rw [dif_pos ⟨by simp [To.toFloatAsserts], rfl, rfl⟩]; rfl

theorem To.fromFloat_eq (policy : ℕ) (x : Ieee 8 23) : To.fromFloat policy 8 23 x = some (ieeeToFlopoco x) := by
  unfold To.fromFloat
  rw [dif_pos ⟨by simp [To.fromFloatAsserts], rfl, rfl⟩]; rfl

theorem To.toFloat_eq (policy : ℕ) (w : Fp 8 23) : To.toFloat policy w = some (flopocoToIeee w) := by
  unfold To.toFloat
  rw [dif_pos ⟨by simp [To.toFloatAsserts], rfl, rfl⟩]; rfl

theorem To.allows_iff (policy : ℕ) :
    (To.allows policy (To.allowOverflow ||| To.allowUnderflow) = true ↔ policy.testBit 0 = true ∨ policy.testBit 1 = true) ∧
    (To.allows policy To.allowPrecisionLoss = true ↔ policy.testBit 2 = true) := by
  constructor
  · have h : policy &&& 3 = policy % 4 := by
      have := Nat.and_two_pow_sub_one_eq_mod policy 2
      norm_num at this
      exact this
    unfold To.allows
    rw [show To.allowOverflow ||| To.allowUnderflow = 3 from rfl, h, bne_iff_ne, ne_eq, Nat.testBit_zero, Nat.testBit_succ,
      Nat.testBit_zero, decide_eq_true_eq, decide_eq_true_eq]
    omega
  · unfold To.allows
    have h : policy &&& 4 = if policy.testBit 2 = true then 4 else 0 := by
      apply Nat.eq_of_testBit_eq
      intro i
      rw [Nat.testBit_and, show (4 : ℕ) = 2 ^ 2 from rfl, Nat.testBit_two_pow]
      by_cases hi : 2 = i
      · subst hi
        cases policy.testBit 2 <;> decide
      · rw [decide_eq_false hi, Bool.and_false]
        split
        · rw [Nat.testBit_two_pow, decide_eq_false hi]
        · simp
    rw [show To.allowPrecisionLoss = 4 from rfl, h]
    cases policy.testBit 2 <;> simp

/-- **C88.** What the static assertions ask for: leave to over- or underflow (the lowest two bits of the policy) unless the
exponent of the result is as wide, and leave to lose precision (the third bit) unless the fraction is. -/
theorem C88_static_assertions_iff (policy wE wF : ℕ) :
    (To.fromFloatAsserts policy wE wF = true ↔
      (policy.testBit 0 = true ∨ policy.testBit 1 = true ∨ 8 ≤ wE) ∧ (policy.testBit 2 = true ∨ 23 ≤ wF)) ∧
    (To.toFloatAsserts policy wE wF = true ↔
      (policy.testBit 0 = true ∨ policy.testBit 1 = true ∨ wE ≤ 8) ∧ (policy.testBit 2 = true ∨ wF ≤ 23)) := by
  obtain ⟨h1, h2⟩ := To.allows_iff policy
  unfold To.fromFloatAsserts To.toFloatAsserts
  simp only [Bool.and_eq_true, Bool.or_eq_true, decide_eq_true_eq, h1, h2, or_assoc, and_self]

/-- Leave to overflow does not help with a narrow fraction. -/
example : To.fromFloatAsserts 1 5 10 = false ∧ To.fromFloatAsserts 5 5 10 = true ∧ To.toFloatAsserts 4 9 30 = false := by decide

/-- **C88.** From `float`: the value is kept exactly if the argument is not subnormal; a subnormal becomes a zero of its sign,
although no permission to underflow has been given. -/
theorem C88_from_float (policy : ℕ) (x : Ieee 8 23) :
    ∃ w, To.fromFloat policy 8 23 x = some w ∧ (w.datum = x.datum ↔ ¬ Subnormal x) ∧
      (Subnormal x → w.datum = .zero (decide (x.sign = 1))) := by
  refine ⟨_, To.fromFloat_eq policy x, ?_⟩
  obtain ⟨h1, h2⟩ := C28_ieeeRange_of_word (E := 8) (F := 23) (by norm_num) (by norm_num) x
  rw [C28_ieee_to_flopoco (by norm_num) (by norm_num)]
  refine ⟨⟨fun h hs => ?_, h1⟩, fun h => (h2 h).2⟩
  obtain ⟨⟨q, hq, -⟩, hz⟩ := h2 hs
  rw [hz, hq] at h
  cases h

/-- **C88.** To `float`: zeros, infinities and NaN are kept, and a number exactly if its magnitude is at least `2^-126` and
below `2^128`; smaller ones become zeros and larger ones infinities of their sign, although no permission has been given. -/
theorem C88_to_float (policy : ℕ) (w : Fp 8 23) :
    ∃ f, To.toFloat policy w = some f ∧
      (f.datum = w.datum ↔ ∀ q, w.datum = .num q → 2 ^ (-126 : ℤ) ≤ |q| ∧ |q| < 2 ^ (128 : ℤ)) ∧
      (∀ q, w.datum = .num q → |q| < 2 ^ (-126 : ℤ) → f.datum = .zero (decide (q < 0))) ∧
      (∀ q, w.datum = .num q → 2 ^ (128 : ℤ) ≤ |q| → f.datum = .inf (decide (q < 0))) := by
  have e1 : ieeeMin 8 = 2 ^ (-126 : ℤ) := by norm_num [ieeeMin, bias]
  have e2 : ieeeLimit 8 = 2 ^ (128 : ℤ) := by norm_num [ieeeLimit, bias]
  have hlt : (2 : ℚ) ^ (-126 : ℤ) < 2 ^ (128 : ℤ) := by norm_num
  refine ⟨_, To.toFloat_eq policy w, ?_⟩
  rw [C28_flopoco_to_ieee (by norm_num) (by norm_num), ← e1, ← e2]
  rw [← e1, ← e2] at hlt
  refine ⟨⟨fun h q hq => ?_, fun h => ?_⟩, fun q hq hlo => ?_, fun q hq hhi => ?_⟩
  · rw [hq] at h
    unfold ieeeRange at h
    dsimp only at h
    by_cases c1 : |q| < ieeeMin 8
    · rw [if_pos c1] at h; cases h
    · by_cases c2 : ieeeLimit 8 ≤ |q|
      · rw [if_neg c1, if_pos c2] at h; cases h
      · exact ⟨not_lt.mp c1, not_le.mp c2⟩
  · cases hw : w.datum with
    | num q =>
      obtain ⟨a, b⟩ := h q hw
      unfold ieeeRange
      dsimp only
      rw [if_neg (not_lt.mpr a), if_neg (not_le.mpr b)]
    | zero s => rfl
    | inf s => rfl
    | nan => rfl
  · rw [hq]; unfold ieeeRange; dsimp only; rw [if_pos hlo]
  · rw [hq]; unfold ieeeRange; dsimp only; rw [if_neg (by linarith), if_pos hhi]

/-- **C88.** From `float` to the wrapper and back returns the same word exactly if it is neither subnormal nor a NaN with a
payload other than all ones. -/
theorem C88_float_round_trip_iff (p p' : ℕ) (x : Ieee 8 23) :
    ((To.fromFloat p 8 23 x).bind fun w => To.toFloat p' w) = some x ↔
      ¬ Subnormal x ∧ (x.datum = .nan → x.frac = 2 ^ 23 - 1) := by
  rw [To.fromFloat_eq, Option.bind_some, To.toFloat_eq, Option.some.injEq]
  obtain ⟨r1, r2⟩ := C28_round_trip (E := 8) (F := 23) (by norm_num) (by norm_num) x
  obtain ⟨h1, h2⟩ := C28_ieeeRange_of_word (E := 8) (F := 23) (by norm_num) (by norm_num) x
  obtain ⟨a1, a2, a3, a4⟩ := ieeeToFlopoco_fields (E := 8) (F := 23) (by norm_num) (by norm_num) x
  obtain ⟨b1, b2, b3⟩ := flopocoToIeee_fields (E := 8) (F := 23) (by norm_num) (by norm_num) (ieeeToFlopoco x)
  by_cases hs : Subnormal x
  · constructor
    · intro h
      obtain ⟨⟨q, hq, -⟩, hz⟩ := h2 hs
      rw [h, hz, hq] at r2
      cases r2
    · intro h; exact absurd hs h.1
  · by_cases hn : x.datum = .nan
    · have hx : x.exp = 255 ∧ x.frac ≠ 0 := by
        unfold Ieee.datum ieeeDenote at hn
        split_ifs at hn <;> simp_all
      have hfl : x.flags = 3 := by
        unfold Ieee.flags
        rw [if_neg (by omega), if_pos (by rw [hx.1]; rfl), if_neg hx.2]
      have hf : (flopocoToIeee (ieeeToFlopoco x)).frac = 2 ^ 23 - 1 := by
        rw [b3, a1, hfl]; simp [ones]
      have he : (flopocoToIeee (ieeeToFlopoco x)).exp = x.exp := by
        rw [b2, a1, hfl, hx.1]; simp [ones]
      constructor
      · intro h; rw [h] at hf; exact ⟨hs, fun _ => hf⟩
      · intro h
        exact Ieee.ext_fields (by norm_num) (by norm_num) (b1.trans a2) he (hf.trans (h.2 hn).symm)
    · exact ⟨fun _ => ⟨hs, fun h => absurd h hn⟩, fun _ => r1 hn hs⟩

/-- **C88.** From the wrapper to `float` and back gives what the conversion to `float` alone has made of the value. -/
theorem C88_wrapper_round_trip (p p' : ℕ) (w : Fp 8 23) :
    ∃ f w', To.toFloat p w = some f ∧ To.fromFloat p' 8 23 f = some w' ∧ w'.datum = f.datum := by
  refine ⟨_, _, To.toFloat_eq p w, To.fromFloat_eq p' _, ?_⟩
  rw [C28_ieee_to_flopoco (by norm_num) (by norm_num), C28_flopoco_to_ieee (by norm_num) (by norm_num), ieeeRange_idem]

/-- **C88.** Without any permission the value is not always kept: a subnormal number, and at either end of the wider range of
the wrapper class a number. -/
theorem C88_permission_wrong :
    (∃ x w, To.fromFloat 0 8 23 x = some w ∧ w.datum ≠ x.datum) ∧
    (∃ (w : Fp 8 23) (f : Ieee 8 23) (q : ℚ), To.toFloat 0 w = some f ∧ w.datum = .num q ∧ f.datum = .zero false) ∧
    (∃ (w : Fp 8 23) (f : Ieee 8 23) (q : ℚ), To.toFloat 0 w = some f ∧ w.datum = .num q ∧ f.datum = .inf false) := by
  refine ⟨?_, ?_, ?_⟩
  · obtain ⟨w, h1, h2, -⟩ := C88_from_float 0 (Ieee.mk3 8 23 0 0 1)
    exact ⟨_, w, h1, fun h => h2.mp h (by decide)⟩
  · refine ⟨Fp.mk4 8 23 1 0 0 0, _, _, To.toFloat_eq 0 _, by rw [Fp.mk4_datum] <;> first | rfl | norm_num, ?_⟩
    decide +kernel
  · refine ⟨Fp.mk4 8 23 1 0 255 0, _, _, To.toFloat_eq 0 _, by rw [Fp.mk4_datum] <;> first | rfl | norm_num, ?_⟩
    decide +kernel

/-- Non-vacuity: -1.5 goes both ways unchanged, a subnormal does not. -/
example : ((To.fromFloat 0 8 23 (Ieee.mk3 8 23 1 127 4194304)).bind fun w => To.toFloat 0 w) = some (Ieee.mk3 8 23 1 127 4194304) ∧
    ((To.fromFloat 0 8 23 (Ieee.mk3 8 23 1 0 5)).bind fun w => To.toFloat 0 w) = some (Ieee.mk3 8 23 1 0 0) ∧
    To.toFloat 0 (Fp.mk4 8 24 1 0 127 0) = none := by
  rw [To.fromFloat_eq, To.fromFloat_eq, Option.bind_some, Option.bind_some, To.toFloat_eq, To.toFloat_eq]
  refine ⟨by decide +kernel, by decide +kernel, ?_⟩
  rw [To.toFloat, dif_neg (by omega)]

end Thls
