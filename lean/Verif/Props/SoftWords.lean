import Verif.Proofs.SoftWords

/-! # C89: the multi-word primitives of softfloat compute what their comments say -/

namespace Thls
open Spec SoftWords

/-- **C89.** The comparisons order the 128-bit numbers. -/
theorem C89_comparisons {a64 a0 b64 b0 : ℕ} (ha : Words (a64, a0)) (hb : Words (b64, b0)) :
    (eq128 a64 a0 b64 b0 = true ↔ word128 (a64, a0) = word128 (b64, b0)) ∧
    (le128 a64 a0 b64 b0 = true ↔ word128 (a64, a0) ≤ word128 (b64, b0)) ∧
    (lt128 a64 a0 b64 b0 = true ↔ word128 (a64, a0) < word128 (b64, b0)) := by
  obtain ⟨h1, h2⟩ := ha
  obtain ⟨h3, h4⟩ := hb
  simp only at h1 h2 h3 h4
  simp only [eq128, le128, lt128, word128, Bool.and_eq_true, Bool.or_eq_true, beq_iff_eq, decide_eq_true_eq]
  omega

/-- **C89.** Sums and differences are those of the 128-bit numbers, modulo `2^128`. -/
theorem C89_add_sub {a64 a0 b64 b0 : ℕ} (ha : Words (a64, a0)) (hb : Words (b64, b0)) :
    Words (add128 a64 a0 b64 b0) ∧ Words (sub128 a64 a0 b64 b0) ∧
    word128 (add128 a64 a0 b64 b0) = (word128 (a64, a0) + word128 (b64, b0)) % 2 ^ 128 ∧
    word128 (sub128 a64 a0 b64 b0) = (word128 (a64, a0) + 2 ^ 128 - word128 (b64, b0)) % 2 ^ 128 := by
  obtain ⟨h1, h2⟩ := ha
  obtain ⟨h3, h4⟩ := hb
  simp only at h1 h2 h3 h4
  simp only [Words, word128, add128, sub128, bit, decide_eq_true_eq]
  refine ⟨?_, ?_, ?_, ?_⟩
  · omega
  · omega
  · split_ifs <;> omega
  · split_ifs <;> omega

/-- **C89.** The left shift of 128 bits, modulo `2^128`. -/
theorem C89_shift_left {a64 a0 d : ℕ} (ha : Words (a64, a0)) (h1 : 1 ≤ d) (h2 : d ≤ 63) :
    Words (shortShiftLeft128 a64 a0 d) ∧
    word128 (shortShiftLeft128 a64 a0 d) = word128 (a64, a0) * 2 ^ d % 2 ^ 128 := by
  obtain ⟨h64, h0⟩ := ha
  simp only at h64 h0
  have hs : a0 / 2 ^ (64 - d) < 2 ^ d := by
    have := shr_lt h0 (show 64 - d ≤ 64 by omega)
    rwa [show 64 - (64 - d) = d by omega] at this
  have hQ : 0 < 2 ^ (64 - d) := by positivity
  have hP : 0 < 2 ^ d := by positivity
  have hPQ := split_pow (d := d) (by omega)
  have hm := Nat.mod_lt a64 hQ
  have hm0 := Nat.mod_lt a0 hQ
  have hd := Nat.div_add_mod a64 (2 ^ (64 - d))
  have hd0 := Nat.div_add_mod a0 (2 ^ (64 - d))
  simp only [Words, word128, shortShiftLeft128]
  rw [shl_eq a64 (by omega), shl_eq a0 (by omega), neg_eq h1 h2, shr, mul_or _ hs]
  generalize a64 / 2 ^ (64 - d) = u at *
  generalize a64 % 2 ^ (64 - d) = v at *
  generalize a0 / 2 ^ (64 - d) = s at *
  generalize a0 % 2 ^ (64 - d) = t at *
  generalize (2 : ℕ) ^ (64 - d) = Q at *
  generalize (2 : ℕ) ^ d = P at *
  have b1 : v * P + s < 2 ^ 64 := by nlinarith
  have b2 : t * P < 2 ^ 64 := by nlinarith
  refine ⟨⟨b1, b2⟩, ?_⟩
  have key : (a64 * 2 ^ 64 + a0) * P = 2 ^ 128 * u + ((v * P + s) * 2 ^ 64 + t * P) := by
    rw [← hd, ← hd0, show (2 : ℕ) ^ 128 = 2 ^ 64 * 2 ^ 64 by norm_num, ← hPQ]; ring
  rw [key, Nat.mul_add_mod, Nat.mod_eq_of_lt]
  omega

/-- **C89.** The right shift of 128 bits. -/
theorem C89_shift_right {a64 a0 d : ℕ} (ha : Words (a64, a0)) (h1 : 1 ≤ d) (h2 : d ≤ 63) :
    Words (shortShiftRight128 a64 a0 d) ∧ word128 (shortShiftRight128 a64 a0 d) = word128 (a64, a0) / 2 ^ d := by
  obtain ⟨h64, h0⟩ := ha
  obtain ⟨a, b, c, -⟩ := right_words h64 h0 h1 h2
  simp only [Words, word128, shortShiftRight128]
  rw [right_low h0 h1 h2]
  exact ⟨⟨a, b⟩, c⟩

/-- **C89.** The right shift of 128 bits that keeps a one shifted off as the least significant bit. -/
theorem C89_shift_right_jam {a64 a0 d : ℕ} (ha : Words (a64, a0)) (h1 : 1 ≤ d) (h2 : d ≤ 63) :
    Words (shortShiftRightJam128 a64 a0 d) ∧
    ShiftedJammed (word128 (a64, a0)) d (word128 (shortShiftRightJam128 a64 a0 d)) := by
  obtain ⟨h64, h0⟩ := ha
  obtain ⟨a, b, c, e⟩ := right_words h64 h0 h1 h2
  have hz : (shl a0 (neg d) != 0) = decide (a0 % 2 ^ d ≠ 0) := by
    rw [shl_neg a0 h1 h2]
    have hQ : 0 < 2 ^ (64 - d) := by positivity
    by_cases h : a0 % 2 ^ d = 0
    · simp [h]
    · have : a0 % 2 ^ d * 2 ^ (64 - d) ≠ 0 := Nat.mul_ne_zero h (by omega)
      simp only [bne_iff_ne, ne_eq, this, not_false_eq_true, h, decide_true, bne, beq_eq_false_iff_ne, Bool.not_eq_true']
  have hdef : shortShiftRightJam128 a64 a0 d =
      (a64 / 2 ^ d, if a0 % 2 ^ d ≠ 0 ∧ (a64 % 2 ^ d * 2 ^ (64 - d) + a0 / 2 ^ d) % 2 = 0
        then a64 % 2 ^ d * 2 ^ (64 - d) + a0 / 2 ^ d + 1 else a64 % 2 ^ d * 2 ^ (64 - d) + a0 / 2 ^ d) := by
    unfold shortShiftRightJam128
    rw [right_low h0 h1 h2, hz, or_bit]
    simp only [decide_eq_true_eq]
    rfl
  rw [hdef]
  unfold Words ShiftedJammed word128
  dsimp only at *
  rw [e, ← c]
  generalize a64 % 2 ^ d * 2 ^ (64 - d) + a0 / 2 ^ d = y at *
  generalize a64 / 2 ^ d = x at *
  generalize a0 % 2 ^ d = r at *
  refine ⟨⟨a, ?_⟩, ?_⟩
  · split_ifs with hc <;> omega
  · split_ifs <;> omega

theorem extra_word {a e d : ℕ} (ha : a < 2 ^ 64) (h1 : 1 ≤ d) (h2 : d ≤ 63) (b : ℕ) (hb : b < 2 ^ 64) :
    ShiftedExtra (b * 2 ^ 128 + a * 2 ^ 64 + e % 2 ^ 64) (64 + d) ((b * 2 ^ 64 + a) / 2 ^ d)
      (shl a (neg d) ||| bit (e % 2 ^ 64 != 0)) := by
  have he : e % 2 ^ 64 < 2 ^ 64 := Nat.mod_lt _ (by norm_num)
  generalize e % 2 ^ 64 = x at *
  have hP : 0 < 2 ^ (d - 1) := by positivity
  have hP2 : (2 : ℕ) ^ d = 2 ^ (d - 1) * 2 := by rw [← pow_succ]; congr 1; omega
  have hQ2 : (2 : ℕ) ^ (64 - d) * 2 ^ (d - 1) = 2 ^ 63 := by rw [← pow_add]; congr 1; omega
  have hQe : 2 ∣ 2 ^ (64 - d) := dvd_pow_self 2 (by omega)
  have hQ : 0 < 2 ^ (64 - d) := by positivity
  have hbit : bit (x != 0) < 2 ^ (64 - d) := by
    have : 2 ≤ 2 ^ (64 - d) := Nat.le_of_dvd hQ hQe
    unfold bit; split_ifs <;> omega
  have hb0 : bit (x != 0) = 0 ↔ x = 0 := by unfold bit; simp
  rw [shl_neg a h1 h2, mul_or _ hbit]
  have hV : b * 2 ^ 128 + a * 2 ^ 64 + x = 2 ^ 64 * (b * 2 ^ 64 + a) + x := by
    rw [show (2 : ℕ) ^ 128 = 2 ^ 64 * 2 ^ 64 by norm_num]; ring
  -- the parts of `b * 2 ^ 64 + a`
  have hA : ∀ k, (b * 2 ^ 128 + a * 2 ^ 64 + x) / 2 ^ (64 + k) = (b * 2 ^ 64 + a) / 2 ^ k := by
    intro k
    rw [pow_add, ← Nat.div_div_eq_div_mul, hV, Nat.mul_add_div (by norm_num), Nat.div_eq_of_lt he, Nat.add_zero]
  have hB : ∀ k, k ≤ 64 → (b * 2 ^ 64 + a) % 2 ^ k = a % 2 ^ k := by
    intro k hk
    rw [show b * 2 ^ 64 = 2 ^ k * (b * 2 ^ (64 - k)) by
      rw [← split_pow hk]; ring, Nat.mul_add_mod]
  have hbitAt : (b * 2 ^ 64 + a) / 2 ^ (d - 1) % 2 = a % 2 ^ d / 2 ^ (d - 1) := by
    rw [← hB d (by omega), hP2, Nat.mod_mul_right_div_self]
  have hm := Nat.mod_lt (a % 2 ^ d) hP
  have hlt : a % 2 ^ d < 2 ^ d := Nat.mod_lt _ (by positivity)
  have hdm := Nat.div_add_mod (a % 2 ^ d) (2 ^ (d - 1))
  have hlow : (b * 2 ^ 128 + a * 2 ^ 64 + x) % 2 ^ (64 + (d - 1)) = 0 ↔ a % 2 ^ d % 2 ^ (d - 1) = 0 ∧ x = 0 := by
    rw [pow_add, Nat.mod_mul, hV, Nat.mul_add_mod, Nat.mod_eq_of_lt he, Nat.mul_add_div (by norm_num), Nat.div_eq_of_lt he,
      Nat.add_zero, hB _ (by omega), hP2, Nat.mod_mul_right_mod]
    constructor
    · intro h
      rcases Nat.eq_zero_of_add_eq_zero h with ⟨p, q⟩
      refine ⟨?_, p⟩
      rcases Nat.mul_eq_zero.mp q with q | q
      · norm_num at q
      · exact q
    · rintro ⟨p, q⟩; rw [p, q]; norm_num
  refine ⟨?_, ?_, ?_, ?_⟩
  · rw [hA]
  · have := split_pow (d := d) (by omega)
    generalize (2 : ℕ) ^ (64 - d) = Q at *
    nlinarith
  · rw [show 64 + d - 1 = 64 + (d - 1) by omega, hA, hbitAt]
    generalize a % 2 ^ d / 2 ^ (d - 1) = u at *
    generalize a % 2 ^ d % 2 ^ (d - 1) = v at *
    rw [← hdm, show (2 ^ (d - 1) * u + v) * 2 ^ (64 - d) + bit (x != 0) = 2 ^ 63 * u + (v * 2 ^ (64 - d) + bit (x != 0)) by
      rw [← hQ2]; ring, Nat.mul_add_div (by norm_num), Nat.div_eq_of_lt, Nat.add_zero]
    rw [← hQ2]
    generalize (2 : ℕ) ^ (64 - d) = Q at *
    nlinarith
  · rw [show 64 + d - 1 = 64 + (d - 1) by omega, hlow]
    generalize a % 2 ^ d / 2 ^ (d - 1) = u at *
    generalize a % 2 ^ d % 2 ^ (d - 1) = v at *
    rw [← hdm, show (2 ^ (d - 1) * u + v) * 2 ^ (64 - d) + bit (x != 0) = 2 ^ 63 * u + (v * 2 ^ (64 - d) + bit (x != 0)) by
      rw [← hQ2]; ring, Nat.mul_add_mod, Nat.mod_eq_of_lt]
    · rw [← hb0]
      constructor
      · intro h
        rcases Nat.eq_zero_of_add_eq_zero h with ⟨p, q⟩
        refine ⟨?_, q⟩
        rcases Nat.mul_eq_zero.mp p with p | p
        · exact p
        · omega
      · rintro ⟨p, q⟩; rw [p, q]; ring
    · rw [← hQ2]
      generalize (2 : ℕ) ^ (64 - d) = Q at *
      nlinarith

/-- **C89.** The right shifts with an extra word, by 64 and up to 63 more. -/
theorem C89_shift_right_extra {a64 a0 extra d : ℕ} (ha : Words (a64, a0)) (he : extra < 2 ^ 64) (h1 : 1 ≤ d) (h2 : d ≤ 63) :
    ShiftedExtra (a0 * 2 ^ 64 + extra) (64 + d) (shortShiftRightJam64Extra a0 extra d).1 (shortShiftRightJam64Extra a0 extra d).2 ∧
    Words (shortShiftRightJam128Extra a64 a0 extra d).1 ∧
    ShiftedExtra (word128 (a64, a0) * 2 ^ 64 + extra) (64 + d) (word128 (shortShiftRightJam128Extra a64 a0 extra d).1)
      (shortShiftRightJam128Extra a64 a0 extra d).2 := by
  obtain ⟨h64, h0⟩ := ha
  simp only at h64 h0
  have ex : extra % 2 ^ 64 = extra := Nat.mod_eq_of_lt he
  have k0 := extra_word (e := extra) h0 h1 h2 0 (by norm_num)
  have k1 := extra_word (e := extra) h0 h1 h2 a64 h64
  rw [ex] at k0 k1
  rw [Nat.zero_mul, Nat.zero_mul, Nat.zero_add, Nat.zero_add] at k0
  obtain ⟨a, b, c, -⟩ := right_words h64 h0 h1 h2
  refine ⟨k0, ?_⟩
  simp only [Words, word128, shortShiftRightJam128Extra]
  rw [right_low h0 h1 h2]
  refine ⟨⟨a, b⟩, ?_⟩
  rw [show shr a64 d = a64 / 2 ^ d from rfl, c, show (a64 * 2 ^ 64 + a0) * 2 ^ 64 + extra = a64 * 2 ^ 128 + a0 * 2 ^ 64 + extra by
    rw [show (2 : ℕ) ^ 128 = 2 ^ 64 * 2 ^ 64 by norm_num]; ring]
  exact k1

/-- **C89.** The right shift with an extra word by 64 and any non-zero number more. -/
theorem C89_shift_right_extra_any {a extra d : ℕ} (ha : a < 2 ^ 64) (he : extra < 2 ^ 64) (h1 : 1 ≤ d) :
    ShiftedExtra (a * 2 ^ 64 + extra) (64 + d) (shiftRightJam64Extra a extra d).1 (shiftRightJam64Extra a extra d).2 := by
  by_cases hd : d < 64
  · have := (C89_shift_right_extra (a64 := 0) ⟨by norm_num, ha⟩ he h1 (by omega : d ≤ 63)).1
    unfold shiftRightJam64Extra
    rw [if_pos hd]
    exact this
  · have hor := fun x => or_bit x (extra != 0)
    unfold shiftRightJam64Extra ShiftedExtra
    rw [if_neg hd]
    dsimp only
    rw [hor, show 64 + d - 1 = 63 + d by omega]
    simp only [bne_iff_ne, ne_eq]
    have hbig : a * 2 ^ 64 + extra < 2 ^ 128 := by
      rw [show (2 : ℕ) ^ 128 = 2 ^ 64 * 2 ^ 64 by norm_num]; nlinarith
    have hz : (a * 2 ^ 64 + extra) / 2 ^ (64 + d) = 0 :=
      Nat.div_eq_of_lt (lt_of_lt_of_le hbig (Nat.pow_le_pow_right (by norm_num) (by omega)))
    rw [hz]
    by_cases h64 : d = 64
    · subst h64
      rw [if_pos rfl]
      norm_num
      refine ⟨?_, ?_, ?_⟩ <;> split_ifs <;> omega
    · have hw : a * 2 ^ 64 + extra < 2 ^ (63 + d) :=
        lt_of_lt_of_le hbig (Nat.pow_le_pow_right (by norm_num) (by omega))
      rw [if_neg h64, Nat.div_eq_of_lt hw, Nat.mod_eq_of_lt hw]
      have hb : bit (a != 0) = if a = 0 then 0 else 1 := by unfold bit; by_cases h : a = 0 <;> simp [h]
      rw [hb]
      by_cases h0 : a = 0
      · subst h0
        by_cases h1 : extra = 0 <;> simp [h1]
      · simp only [if_neg h0]
        norm_num
        omega

/-- **C89.** The products: of a word, a half word and `2^32`; of two words and a half word modulo `2^128`, whether
`uint_fast32_t` has 32 or 64 bits. -/
theorem C89_products {a64 a0 b w : ℕ} (ha : Words (a64, a0)) (hb : b < 2 ^ 32) (hw : w = 32 ∨ w = 64) :
    Words (mul64ByShifted32To128 a0 b) ∧ word128 (mul64ByShifted32To128 a0 b) = a0 * b * 2 ^ 32 ∧
    Words (mul128By32 w a64 a0 b) ∧ word128 (mul128By32 w a64 a0 b) = word128 (a64, a0) * b % 2 ^ 128 := by
  obtain ⟨h64, h0⟩ := ha
  simp only at h64 h0
  have hl : a0 % 2 ^ 32 < 2 ^ 32 := Nat.mod_lt _ (by norm_num)
  have hh : a0 / 2 ^ 32 < 2 ^ 32 := by omega
  have hd := Nat.div_add_mod a0 (2 ^ 32)
  have hh' : a0 / 2 ^ 32 % 2 ^ 32 = a0 / 2 ^ 32 := Nat.mod_eq_of_lt hh
  simp only [Words, word128, mul64ByShifted32To128, mul128By32, hh', shl_eq _ (show 32 ≤ 64 by norm_num)]
  have e1 : a0 * b = a0 / 2 ^ 32 * b * 2 ^ 32 + a0 % 2 ^ 32 * b := by
    conv_lhs => rw [← hd]
    ring
  have e2 : (a64 * 2 ^ 64 + a0) * b = a64 * b * 2 ^ 64 + a0 * b := by ring
  rw [e2]
  have b1 : a0 % 2 ^ 32 * b ≤ (2 ^ 32 - 1) * (2 ^ 32 - 1) := Nat.mul_le_mul (by omega) (by omega)
  have b2 : a0 / 2 ^ 32 * b ≤ (2 ^ 32 - 1) * (2 ^ 32 - 1) := Nat.mul_le_mul (by omega) (by omega)
  rw [e1]
  generalize a0 % 2 ^ 32 * b = l at *
  generalize a0 / 2 ^ 32 * b = m at *
  generalize a64 * b = t at *
  norm_num at b1 b2
  have f1 : l % 2 ^ 64 = l := Nat.mod_eq_of_lt (by omega)
  have f2 : m % 2 ^ 64 = m := Nat.mod_eq_of_lt (by omega)
  rw [f1, f2]
  have fc : ((m * 2 ^ 32 + l) % 2 ^ 64 / 2 ^ 32 % 2 ^ w + 2 ^ w - m % 2 ^ w) % 2 ^ w % 2 ^ 32 = l / 2 ^ 32 := by
    rcases hw with rfl | rfl <;> omega
  rw [fc]
  have fw : (m + l / 2 ^ 32) % 2 ^ 64 / 2 ^ 32 % 2 ^ w = (m + l / 2 ^ 32) / 2 ^ 32 := by
    rcases hw with rfl | rfl <;> omega
  rw [fw]
  refine ⟨⟨by omega, by omega⟩, by omega, ⟨by omega, by omega⟩, by omega⟩

/-- **C89.** The left shift of a word into 96 bits loses nothing. -/
theorem C89_shift_left_96 {a d : ℕ} (ha : a < 2 ^ 64) (h1 : 1 ≤ d) (h2 : d ≤ 31) :
    (shortShiftLeft64To96 a d).1 + (shortShiftLeft64To96 a d).2.1 * 2 ^ 32 + (shortShiftLeft64To96 a d).2.2 * 2 ^ 64 = a * 2 ^ d ∧
    (shortShiftLeft64To96 a d).1 < 2 ^ 32 ∧ (shortShiftLeft64To96 a d).2.1 < 2 ^ 32 ∧ (shortShiftLeft64To96 a d).2.2 < 2 ^ 32 := by
  have hP : 0 < 2 ^ d := by positivity
  have hPQ : (2 : ℕ) ^ (32 - d) * 2 ^ d = 2 ^ 32 := by rw [← pow_add]; congr 1; omega
  have hQ : 0 < 2 ^ (32 - d) := by positivity
  have hmod : a % 2 ^ 32 * 2 ^ d % 2 ^ 32 = a % 2 ^ (32 - d) * 2 ^ d := by
    rw [Nat.mod_mul_mod]
    conv_lhs => rw [← hPQ]
    rw [Nat.mul_mod_mul_right]
  simp only [shortShiftLeft64To96, hmod]
  have hd := Nat.div_add_mod a (2 ^ (32 - d))
  have hm := Nat.mod_lt a hQ
  have hbig : a / 2 ^ (32 - d) < 2 ^ 64 := lt_of_le_of_lt (Nat.div_le_self _ _) ha
  generalize a / 2 ^ (32 - d) = q at *
  generalize a % 2 ^ (32 - d) = r at *
  have hrp : r * 2 ^ d < 2 ^ 32 := by
    rw [← hPQ]; exact Nat.mul_lt_mul_of_pos_right hm hP
  have hq : a * 2 ^ d = q * 2 ^ 32 + r * 2 ^ d := by rw [← hd, ← hPQ]; ring
  rw [hq]
  generalize r * 2 ^ d = y at *
  refine ⟨?_, hrp, Nat.mod_lt _ (by norm_num), Nat.mod_lt _ (by norm_num)⟩
  clear hq hd hm hmod hPQ
  omega

/-- Non-vacuity: a carry, a borrow, a jammed bit, an extra word, a product that overflows. -/
example : add128 1 (2 ^ 64 - 1) 2 1 = (4, 0) ∧ sub128 5 0 2 1 = (2, 2 ^ 64 - 1) ∧ shortShiftRightJam128 3 5 1 = (1, 2 ^ 63 + 3) ∧
    shortShiftRightJam128 0 8 4 = (0, 1) ∧ shiftRightJam64Extra 7 9 2 = (1, 2 ^ 63 + 2 ^ 62 + 1) ∧
    shiftRightJam64Extra 7 0 70 = (0, 1) ∧ mul128By32 64 (2 ^ 63) (2 ^ 64 - 1) 6 = (5, 2 ^ 64 - 6) ∧
    shortShiftLeft64To96 (2 ^ 64 - 1) 31 = (2 ^ 31, 2 ^ 32 - 1, 2 ^ 31 - 1) ∧ lt128 1 5 2 0 = true := by
  decide +kernel

end Thls
