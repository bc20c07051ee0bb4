import Verif.Proofs.Masked
import Mathlib.Data.Nat.Size

/-! # Properties C01-C05: the `fw_uint` integers -/

namespace Thls
open Masked

/-! ## C01: arithmetic -/

/-- **C01.** `+` and `-` of W-bit operands are addition and subtraction modulo `2^W`; no assertion fails. -/
theorem C01_add {W a b : ℕ} (hW : W ≤ 128) : add W a b = some ((a + b) % 2 ^ W) := ofBits_mod hW

theorem C01_sub {W a b : ℕ} (hW : W ≤ 128) (hb : b < 2 ^ W) :
    ∃ r : ℕ, sub W a b = some r ∧ (r : ℤ) = ((a : ℤ) - b) % 2 ^ W := by
  have hb' := lt_stW hW hb
  refine ⟨_, ofBits_mod hW, ?_⟩
  push_cast [Nat.cast_sub hb'.le]
  obtain ⟨k, hk⟩ := Nat.exists_eq_add_of_le (le_stW hW)
  rw [hk, pow_add, show (a : ℤ) + (2 ^ W * 2 ^ k - b) = (a - b) + 2 ^ W * 2 ^ k by ring,
    Int.add_mul_emod_self_left]

/-- The overloads taking an `int` (of either sign). -/
theorem C01_add_int {W a : ℕ} {b : ℤ} (hW : W ≤ 128) :
    ∃ r : ℕ, addInt W a b = some r ∧ (r : ℤ) = ((a : ℤ) + b) % 2 ^ W := by
  refine ⟨_, ofBits_mod hW, ?_⟩
  push_cast [cast_int_mod]
  rw [Int.add_emod, emod_pow_dvd (le_stW hW), ← Int.add_emod]

theorem C01_sub_int {W a : ℕ} {b : ℤ} (hW : W ≤ 128) :
    ∃ r : ℕ, subInt W a b = some r ∧ (r : ℤ) = ((a : ℤ) - b) % 2 ^ W := by
  refine ⟨_, ofBits_mod hW, ?_⟩
  have h1 : (b % 2 ^ stW W).toNat ≤ 2 ^ stW W := by
    have := Int.emod_lt_of_pos b (show (0 : ℤ) < 2 ^ stW W by positivity)
    have h2 := cast_int_mod (stW W) b
    zify; rw [h2]; exact this.le
  push_cast [Nat.cast_sub h1, cast_int_mod]
  obtain ⟨k, hk⟩ := Nat.exists_eq_add_of_le (le_stW hW)
  rw [show (a : ℤ) + (2 ^ stW W - b % 2 ^ stW W) = (a - b % 2 ^ stW W) + 2 ^ stW W by ring]
  conv_lhs => rw [Int.add_emod, Int.sub_emod, emod_pow_dvd (le_stW hW), ← Int.sub_emod]
  rw [hk, pow_add, Int.mul_emod_right]
  simp

/-- `*` is the exact product, in the storage word of the result width. -/
theorem C01_mul {W O a b : ℕ} (hW : O + W ≤ 128) (ha : a < 2 ^ W) (hb : b < 2 ^ O) :
    mul W O a b = some (a * b) := by
  have ha' : a < 2 ^ (O + W) := ha.trans_le (Nat.pow_le_pow_right (by norm_num) (by omega))
  have hb' : b < 2 ^ (O + W) := hb.trans_le (Nat.pow_le_pow_right (by norm_num) (by omega))
  have hab : a * b < 2 ^ (O + W) := by
    rw [pow_add, Nat.mul_comm (2 ^ O)]; exact Nat.mul_lt_mul'' ha hb
  unfold mul
  rw [Nat.mod_eq_of_lt (lt_stW hW ha'), Nat.mod_eq_of_lt (lt_stW hW hb'), Nat.mod_eq_of_lt (lt_stW hW hab)]
  exact ofBits_eq hW hab

theorem C01_square {W a : ℕ} (hW : 2 * W ≤ 128) (ha : a < 2 ^ W) : square W a = some (a * a) := by
  have := C01_mul (W := W) (O := W) (by omega) ha ha
  unfold mul at this
  unfold square
  rwa [two_mul]

/-- Bitwise operations, stated bit by bit. `r.testBit i` is bit `i` of `r`; bits at or above `W` are zero. -/
theorem C01_not {W a : ℕ} (hW : W ≤ 128) (ha : a < 2 ^ W) :
    ∃ r, Masked.not W a = some r ∧ r < 2 ^ W ∧ ∀ i < W, r.testBit i = !a.testBit i := by
  refine ⟨_, not_eq hW ha, by omega, fun i hi => ?_⟩
  rw [show 2 ^ W - 1 - a = 2 ^ W - (a + 1) by omega, Nat.testBit_two_pow_sub_succ ha]
  simp [hi]

theorem C01_and {W a b : ℕ} (hW : W ≤ 128) (ha : a < 2 ^ W) :
    ∃ r, Masked.and W a b = some r ∧ r < 2 ^ W ∧ ∀ i, r.testBit i = (a.testBit i && b.testBit i) := by
  have h : a &&& b < 2 ^ W := Nat.and_le_left.trans_lt ha
  exact ⟨_, ofBits_eq hW h, h, fun i => Nat.testBit_and a b i⟩

theorem C01_or {W a b : ℕ} (hW : W ≤ 128) (ha : a < 2 ^ W) (hb : b < 2 ^ W) :
    ∃ r, Masked.or W a b = some r ∧ r < 2 ^ W ∧ ∀ i, r.testBit i = (a.testBit i || b.testBit i) := by
  have h : a ||| b < 2 ^ W := Nat.or_lt_two_pow ha hb
  refine ⟨a ||| b, ?_, h, fun i => Nat.testBit_or a b i⟩
  unfold Masked.or
  rw [and_mask hW, Nat.mod_eq_of_lt h]
  exact ofBits_eq hW h

theorem C01_xor {W a b : ℕ} (hW : W ≤ 128) (ha : a < 2 ^ W) (hb : b < 2 ^ W) :
    ∃ r, Masked.xor W a b = some r ∧ r < 2 ^ W ∧ ∀ i, r.testBit i = (a.testBit i ^^ b.testBit i) := by
  have h : a ^^^ b < 2 ^ W := Nat.xor_lt_two_pow ha hb
  refine ⟨a ^^^ b, ?_, h, fun i => Nat.testBit_xor a b i⟩
  unfold Masked.xor
  rw [and_mask hW, Nat.mod_eq_of_lt h]
  exact ofBits_eq hW h

/-- Shifts: within the documented range they are division by and multiplication with a power of two. -/
theorem C01_shr {W a d : ℕ} (hW : W ≤ 128) (ha : a < 2 ^ W) (hd : d < W) : shr W a d = some (a / 2 ^ d) := by
  unfold shr
  rw [if_pos (by omega), Int.toNat_natCast, Nat.shiftRight_eq_div_pow]
  exact ofBits_eq hW ((Nat.div_le_self _ _).trans_lt ha)

theorem C01_shl {W a d : ℕ} (hW : W ≤ 128) (hd : d < W) : shl W a d = some (a * 2 ^ d % 2 ^ W) := by
  unfold shl
  rw [if_pos (by omega), Int.toNat_natCast, Nat.shiftLeft_eq]
  exact ofBits_mod hW

/-- Adder helpers: `add_with_cin` and `add_sub`. -/
theorem C01_add_with_cin {W x y c : ℕ} (h1 : 1 ≤ W) (hW : W ≤ 128) (hc : c < 2) :
    addWithCin W x y c = some ((x + y + c) % 2 ^ W) := by
  have hz : zpadHi (W - 1) 1 c = some c := by
    unfold zpadHi
    rw [zg_eq (by omega)]
    simpa using concat_eq (a := 0) (by omega : W - 1 + 1 ≤ 128) (by positivity) (by simpa using hc)
  unfold addWithCin
  rw [C01_add hW, hz]
  exact (C01_add hW).trans (by rw [Nat.mod_add_mod])

theorem C01_add_sub {W s x y : ℕ} (h1 : 1 ≤ W) (hW : W ≤ 128) (hs : s < 2) (hy : y < 2 ^ W) :
    ∃ r : ℕ, addSub W s x y = some r ∧ (r : ℤ) = (if s = 1 then (x : ℤ) - y else x + y) % 2 ^ W := by
  unfold addSub
  rw [not_eq hW hy]
  interval_cases s
  · refine ⟨_, C01_add_with_cin h1 hW (by norm_num), ?_⟩
    push_cast; simp
  · refine ⟨_, C01_add_with_cin h1 hW (by norm_num), ?_⟩
    simp only [↓reduceIte]
    rw [show x + (2 ^ W - 1 - y) + 1 = x + (2 ^ W - y) by omega]
    push_cast [Nat.cast_sub hy.le]
    rw [show (x : ℤ) + (2 ^ W - y) = (x - y) + 2 ^ W by ring, Int.add_emod_right]

/-- The storage-level operations compute the value-level operations used in the rest of the model. -/
theorem C01_refines_value_model {W a b : ℕ} (hW : W ≤ 128) (ha : a < 2 ^ W) (hb : b < 2 ^ W) :
    add W a b = some (addW W a b) ∧ sub W a b = some (subW W a b) ∧ not W a = some (notW W a) := by
  refine ⟨C01_add hW, ?_, not_eq hW ha⟩
  obtain ⟨r, hr, hv⟩ := C01_sub (a := a) hW hb
  rw [hr]
  congr 1
  have := cast_subW (a := a) hb.le
  omega

/-- 100-bit operands: the storage word is wider than the value, and the sum wraps. -/
example : add 100 (2 ^ 100 - 1) 5 = some 4 := by decide
example : mul 40 30 (2 ^ 40 - 1) (2 ^ 30 - 1) = some ((2 ^ 40 - 1) * (2 ^ 30 - 1)) := by decide
example : sub 33 3 5 = some (2 ^ 33 - 2) := by decide

/-- A documented-looking use that does fail: `x | 1` on a one-bit number trips the strict range check. -/
theorem C01_or_int_all_ones_rejected : orInt 1 0 1 = none ∧ orInt 8 0 255 = none := by decide

/-- The `int` overloads of the bitwise operators, for a non-negative argument in range, are the operators
themselves; a negative argument is rejected by an assertion. -/
theorem C01_bitwise_int {W a b : ℕ} (hW : W ≤ 128) (hb : b < 2 ^ W) :
    andInt W a b = Masked.and W a b ∧ xorInt W a b = Masked.xor W a b ∧
    (b ≠ 2 ^ W - 1 → orInt W a b = Masked.or W a b) ∧
    (∀ n : ℤ, n < 0 → andInt W a n = none ∧ xorInt W a n = none ∧ orInt W a n = none) := by
  have hs := lt_stW hW hb
  have h : (((b : ℕ) : ℤ) % 2 ^ stW W).toNat = b := by
    have : (b : ℤ) < 2 ^ stW W := by exact_mod_cast hs
    rw [Int.emod_eq_of_lt (by positivity) this, Int.toNat_natCast]
  refine ⟨?_, ?_, fun hne => ?_, fun n hn => ⟨?_, ?_, ?_⟩⟩
  · unfold andInt Masked.and; rw [if_neg (by omega), h]
  · unfold xorInt Masked.xor; rw [if_neg (by omega), h]
  · unfold orInt Masked.or
    rw [h, mask_eq hW, if_neg (by omega)]
  · unfold andInt; rw [if_pos hn]
  · unfold xorInt; rw [if_pos hn]
  · unfold orInt; rw [if_pos (Or.inl hn)]

example : andInt 8 0b1100 0b1010 = some 0b1000 ∧ xorInt 8 0b1100 0b1010 = some 0b0110 ∧
    orInt 8 0b1100 0b1010 = some 0b1110 := by decide

/-- Both shifts assert that the distance is at least zero and less than the width. -/
theorem C01_shift_rejects {W a : ℕ} {d : ℤ} (h : d < 0 ∨ (W : ℤ) ≤ d) : shr W a d = none ∧ shl W a d = none := by
  unfold shr shl
  rw [if_neg (by omega), if_neg (by omega)]
  exact ⟨rfl, rfl⟩

example : shr 8 200 8 = none ∧ shl 8 200 (-1) = none := by decide

/-! ## C02: comparisons -/

/-- **C02.** Each comparison returns the one-bit number 1 exactly when the relation holds. -/
theorem C02_comparisons (a b : ℕ) :
    lt a b = some (if a < b then 1 else 0) ∧ le a b = some (if a ≤ b then 1 else 0) ∧
    eq a b = some (if a = b then 1 else 0) ∧ ge a b = some (if a ≥ b then 1 else 0) ∧
    gt a b = some (if a > b then 1 else 0) ∧ ne a b = some (if a ≠ b then 1 else 0) := by
  unfold lt le eq ge gt ne
  have h : ∀ (p : Prop) [Decidable p], (decide p).toNat = if p then 1 else 0 := by
    intro p _; split <;> simp [*]
  simp only [ofBool_eq, h, and_self]

/-- Comparisons with an `int`: any non-negative `int` (below `2^31`) is compared by value. -/
theorem C02_comparisons_int (W a : ℕ) (o : ℕ) (ho : o < 2 ^ 31) (cmp : ℕ → ℕ → Option ℕ) :
    cmpInt W cmp a o = cmp a o := by
  have hs : 2 ^ 32 ≤ 2 ^ stW W := Nat.pow_le_pow_right (by norm_num) (by unfold stW; split; rfl; split <;> norm_num)
  unfold cmpInt
  rw [if_neg (by omega)]
  congr 1
  have h : (o : ℤ) < 2 ^ stW W := by
    have : o < 2 ^ stW W := by omega
    exact_mod_cast this
  rw [Int.emod_eq_of_lt (by omega) h, Int.toNat_natCast]

example : cmpInt 70 gt (2 ^ 69) 5 = some 1 := by decide

/-! ## C03: slices and concatenation -/

/-- **C03.** `get_bits<HI,LO>` returns exactly bits `HI..LO`. -/
theorem C03_get_bits {HI LO W x : ℕ} (hW : W ≤ 128) (h1 : HI < W) (h2 : LO ≤ HI) :
    ∃ r, Masked.getBits HI LO W x = some r ∧ r < 2 ^ (HI + 1 - LO) ∧
      ∀ i < HI + 1 - LO, r.testBit i = x.testBit (LO + i) := by
  refine ⟨_, getBits_eq hW h1 (by omega), Nat.mod_lt _ (by positivity), fun i hi => ?_⟩
  rw [Nat.testBit_mod_two_pow, ← Nat.shiftRight_eq_div_pow, Nat.testBit_shiftRight]
  simp [hi]

/-- `concat(a,b)` has `b` in its low bits and `a` above. -/
theorem C03_concat {WA WB a b : ℕ} (hW : WA + WB ≤ 128) (ha : a < 2 ^ WA) (hb : b < 2 ^ WB) :
    ∃ r, Masked.concat WA WB a b = some r ∧ r < 2 ^ (WA + WB) ∧
      (∀ i < WB, r.testBit i = b.testBit i) ∧ ∀ i, r.testBit (WB + i) = a.testBit i := by
  refine ⟨_, concat_eq hW ha hb, concat_lt ha hb, fun i hi => ?_, fun i => ?_⟩
  · rw [Nat.mul_comm, Nat.testBit_two_pow_mul_add a hb]; simp [hi]
  · rw [Nat.mul_comm, Nat.testBit_two_pow_mul_add a hb]; simp

/-- Slicing a concatenation gives back the parts. -/
theorem C03_slices_of_concat {WA WB a b : ℕ} (hA : 1 ≤ WA) (hB : 1 ≤ WB) (hW : WA + WB ≤ 128)
    (ha : a < 2 ^ WA) (hb : b < 2 ^ WB) :
    ∃ r, Masked.concat WA WB a b = some r ∧
      Masked.getBits (WA + WB - 1) WB (WA + WB) r = some a ∧ Masked.getBits (WB - 1) 0 (WA + WB) r = some b := by
  refine ⟨_, concat_eq hW ha hb, ?_, ?_⟩
  · rw [getBits_eq hW (by omega) (by omega), show WA + WB - 1 + 1 - WB = WA by omega]
    have := concat_div (a := a) hb
    unfold Thls.concat at this
    rw [this, Nat.mod_eq_of_lt ha]
  · rw [getBits_eq hW (by omega) (by omega), show WB - 1 + 1 - 0 = WB by omega, pow_zero, Nat.div_one]
    have := concat_mod (a := a) hb
    unfold Thls.concat at this
    rw [this]

/-- Concatenating adjacent slices gives back the value. -/
theorem C03_concat_of_slices {W K x : ℕ} (hW : W ≤ 128) (hK : 1 ≤ K) (hKW : K < W) (hx : x < 2 ^ W) :
    (do Masked.concat (W - K) K (← Masked.getBits (W - 1) K W x) (← Masked.getBits (K - 1) 0 W x)) = some x := by
  rw [getBits_eq hW (by omega) (by omega), getBits_eq hW (by omega) (by omega),
    show W - 1 + 1 - K = W - K by omega, show K - 1 + 1 - 0 = K by omega, pow_zero, Nat.div_one]
  have h1 : x / 2 ^ K < 2 ^ (W - K) := by
    rw [Nat.div_lt_iff_lt_mul (by positivity), ← pow_add, show W - K + K = W by omega]; exact hx
  rw [Nat.mod_eq_of_lt h1]
  refine (concat_eq (by omega) h1 (Nat.mod_lt _ (by positivity))).trans ?_
  rw [Nat.mul_comm, Nat.div_add_mod]

/-- Three- and four-way concatenation put the parts in order, most significant first. -/
theorem C03_concat3 {WA WB WC a b c : ℕ} (hW : WA + WB + WC ≤ 128) (ha : a < 2 ^ WA) (hb : b < 2 ^ WB)
    (hc : c < 2 ^ WC) :
    concat3 WA WB WC a b c = some (a * 2 ^ (WB + WC) + b * 2 ^ WC + c) := by
  have hbc := concat_lt hb hc
  unfold Thls.concat at hbc
  unfold concat3
  rw [concat_eq (by omega) hb hc]
  exact (concat_eq (by omega) ha hbc).trans (by rw [Nat.add_assoc])

theorem C03_concat4 {WA WB WC WD a b c d : ℕ} (hW : WA + WB + WC + WD ≤ 128) (ha : a < 2 ^ WA) (hb : b < 2 ^ WB)
    (hc : c < 2 ^ WC) (hd : d < 2 ^ WD) :
    concat4 WA WB WC WD a b c d = some (a * 2 ^ (WB + WC + WD) + b * 2 ^ (WC + WD) + c * 2 ^ WD + d) := by
  have hab := concat_lt ha hb
  have hcd := concat_lt hc hd
  unfold Thls.concat at hab hcd
  unfold concat4
  rw [concat_eq (by omega) ha hb, concat_eq (by omega) hc hd]
  refine (concat_eq (by omega) hab hcd).trans ?_
  congr 1
  rw [Nat.add_assoc WB, pow_add 2 WB]; ring

/-- The `take`/`drop` helpers select exactly the bits their names say. -/
theorem C03_take_drop {B W x : ℕ} (hW : W ≤ 128) (hB : B ≤ W) (hx : x < 2 ^ W) :
    takeLsbs B W x = some (x % 2 ^ B) ∧ dropLsbs B W x = some (x / 2 ^ B) ∧
    takeMsbs B W x = some (x / 2 ^ (W - B)) ∧ dropMsbs B W x = some (x % 2 ^ (W - B)) := by
  refine ⟨?_, ?_, ?_, ?_⟩
  · unfold takeLsbs
    rw [if_pos hB]
    split
    · subst B; rw [zg_eq (by omega)]; simp [Nat.mod_one]
    · rw [getBits_eq hW (by omega) (by omega), show B - 1 + 1 - 0 = B by omega]; simp
  · unfold dropLsbs
    rw [if_pos hB]
    split
    · subst B; rw [zg_eq (by omega), Nat.div_eq_of_lt hx]
    · rw [getBits_eq hW (by omega) (by omega), show W - 1 + 1 - B = W - B by omega, Nat.mod_eq_of_lt]
      rw [Nat.div_lt_iff_lt_mul (by positivity), ← pow_add, show W - B + B = W by omega]; exact hx
  · unfold takeMsbs
    rw [if_pos hB]
    split
    · subst B; rw [zg_eq (by omega), Nat.sub_zero, Nat.div_eq_of_lt hx]
    · rw [getBits_eq hW (by omega) (by omega), show W - 1 + 1 - (W - B) = B by omega, Nat.mod_eq_of_lt]
      rw [Nat.div_lt_iff_lt_mul (by positivity), ← pow_add, show B + (W - B) = W by omega]; exact hx
  · unfold dropMsbs
    rw [if_pos hB]
    split
    · subst B; rw [zg_eq (by omega)]; simp [Nat.mod_one]
    · rw [getBits_eq hW (by omega) (by omega), show W - 1 - B + 1 - 0 = W - B by omega]; simp

/-- The single-bit slices at either end, and what is left after removing them. -/
theorem C03_single_bit {W x : ℕ} (h1 : 1 ≤ W) (hW : W ≤ 128) (hx : x < 2 ^ W) :
    takeLsb W x = some (x % 2) ∧ takeMsb W x = some (x / 2 ^ (W - 1)) ∧
    (2 ≤ W → dropLsb W x = some (x / 2) ∧ dropMsb W x = some (x % 2 ^ (W - 1))) := by
  have ht : x / 2 ^ (W - 1) < 2 := by
    rw [Nat.div_lt_iff_lt_mul (by positivity), ← pow_succ', show W - 1 + 1 = W by omega]; exact hx
  refine ⟨?_, ?_, fun h2 => ⟨?_, ?_⟩⟩
  · unfold takeLsb; rw [getBits_eq hW (by omega) (by omega)]; simp
  · unfold takeMsb
    rw [getBits_eq hW (by omega) (by omega), show W - 1 + 1 - (W - 1) = 1 by omega, pow_one, Nat.mod_eq_of_lt ht]
  · unfold dropLsb
    rw [getBits_eq hW (by omega) (by omega), show W - 1 + 1 - 1 = W - 1 by omega, pow_one, Nat.mod_eq_of_lt]
    rw [Nat.div_lt_iff_lt_mul (by norm_num), ← pow_succ, show W - 1 + 1 = W by omega]
    exact hx
  · unfold dropMsb
    rw [getBits_eq hW (by omega) (by omega), show W - 2 + 1 - 0 = W - 1 by omega, pow_zero, Nat.div_one]

example : takeLsb 8 200 = some 0 ∧ takeMsb 8 200 = some 1 ∧ dropLsb 8 200 = some 100 ∧ dropMsb 8 200 = some 72 := by
  decide

/-- `checked_cast` is the identity when the widths agree and fails its assertion otherwise. -/
theorem C03_checked_cast {WD WS x : ℕ} (hW : WD ≤ 128) (hx : x < 2 ^ WS) :
    checkedCast WD WS x = if WD = WS then some x else none := by
  unfold checkedCast
  split
  · rename_i h
    subst h
    exact ofBits_eq hW hx
  · rfl

example : checkedCast 8 8 200 = some 200 ∧ checkedCast 9 8 200 = none := by decide

/-- `get_bits` asserts that the high bit exists. -/
theorem C03_get_bits_rejects {HI LO W x : ℕ} (h : W ≤ HI) : Masked.getBits HI LO W x = none := by
  unfold Masked.getBits
  rw [if_neg (by omega)]

/-- Padding and resizing. -/
theorem C03_pad {P W x : ℕ} (hW : P + W ≤ 128) (hx : x < 2 ^ W) :
    zpadHi P W x = some x ∧ opadHi P W x = some ((2 ^ P - 1) * 2 ^ W + x) ∧
    zpadLo P W x = some (x * 2 ^ P) ∧ opadLo P W x = some (x * 2 ^ P + (2 ^ P - 1)) := by
  have hP : 2 ^ P - 1 < 2 ^ P := by have : 0 < 2 ^ P := by positivity
                                    omega
  unfold zpadHi opadHi zpadLo opadLo
  rw [zg_eq (by omega), og_eq (by omega)]
  refine ⟨?_, ?_, ?_, ?_⟩
  · exact (concat_eq hW (by positivity) hx).trans (by simp)
  · exact concat_eq hW hP hx
  · exact (concat_eq (by omega) hx (by positivity)).trans (by simp)
  · exact concat_eq (by omega) hx hP

theorem C03_resize {B W x : ℕ} (hW : W ≤ 128) (hB : B ≤ 128) (hx : x < 2 ^ W) :
    resize B W x = some (x % 2 ^ B) := by
  unfold resize
  rw [(C03_pad (P := B - W) (by omega) hx).1]
  exact (C03_take_drop (by omega) (by omega)
    (hx.trans_le (Nat.pow_le_pow_right (by norm_num) (by omega)))).1

/-- `copybit<W>` replicates the bit. -/
theorem C03_copybit {W b : ℕ} (hW : W ≤ 128) (hb : b < 2) : copybit W b = some (b * (2 ^ W - 1)) := by
  unfold copybit
  interval_cases b
  · simp [zg_eq hW]
  · simp [og_eq hW]

/-- `concat_array<HI,LO>` of `n+1` words is the number with those base-`2^W` digits. -/
theorem C03_concat_array {W lo : ℕ} (x : ℕ → ℕ) (hx : ∀ i, x i < 2 ^ W) (n : ℕ) (hW : (n + 1) * W ≤ 128) :
    ∃ r, concatArray W lo x n = some r ∧ r < 2 ^ ((n + 1) * W) ∧
      ∀ i ≤ n, r / 2 ^ (i * W) % 2 ^ W = x (lo + i) := by
  induction n with
  | zero =>
    refine ⟨x lo, rfl, by simpa using hx lo, fun i hi => ?_⟩
    obtain rfl : i = 0 := by omega
    simp [Nat.mod_eq_of_lt (hx lo)]
  | succ n ih =>
    have e1 : (n + 1 + 1) * W = W + (n + 1) * W := by ring
    obtain ⟨r, hr, hlt, hd⟩ := ih (by rw [e1] at hW; omega)
    unfold concatArray
    rw [hr]
    have hc := concat_lt (hx (lo + n + 1)) hlt
    refine ⟨_, concat_eq (by omega) (hx _) hlt, by rw [e1]; exact hc, fun i hi => ?_⟩
    by_cases hin : i ≤ n
    · rw [← hd i hin]
      have hle : i * W + W ≤ (n + 1) * W := by
        have : (i + 1) * W ≤ (n + 1) * W := Nat.mul_le_mul_right _ (by omega)
        linarith [Nat.succ_mul i W]
      obtain ⟨k, hk⟩ := Nat.exists_eq_add_of_le hle
      rw [hk, pow_add, pow_add, show x (lo + n + 1) * (2 ^ (i * W) * 2 ^ W * 2 ^ k) + r
        = r + 2 ^ (i * W) * (2 ^ W * (x (lo + n + 1) * 2 ^ k)) by ring,
        Nat.add_mul_div_left _ _ (by positivity), Nat.add_mul_mod_self_left]
    · obtain rfl : i = n + 1 := by omega
      have := concat_div (a := x (lo + n + 1)) hlt
      unfold Thls.concat at this
      rw [this, Nat.mod_eq_of_lt (hx _)]
      rfl

example : (do Masked.concat 5 40 (← Masked.getBits 44 40 45 (2 ^ 44 + 12345)) (← Masked.getBits 39 0 45 (2 ^ 44 + 12345)))
    = some (2 ^ 44 + 12345) := by decide
example : concatArray 8 1 (fun i => 10 * i) 2 = some (30 * 2 ^ 16 + 20 * 2 ^ 8 + 10) := by decide

/-! ## C04: text and GMP round trips -/

/-- **C04.** Reading back the text printed for `x` gives `x`. -/
theorem C04_string_round_trip {W x : ℕ} (hW : W ≤ 128) (hx : x < 2 ^ W) : ofString W (toString W x) = some x := by
  have := parse_toStringLoop hx (le_stW hW) W le_rfl
  rw [Nat.div_eq_of_lt hx] at this
  exact this

/-- The printed text contains the bits, most significant first: for widths up to 8 (no separators) the
`i`-th character from the right is bit `i`. -/
theorem C04_string_digits {W x i : ℕ} (hW : W ≤ 8) (hi : i < W) :
    (toStringLoop x W)[W - 1 - i]? = some (if x.testBit i then '1' else '0') := by
  induction W with
  | zero => omega
  | succ n ih =>
    unfold toStringLoop
    have hsep : ¬ (n % 8 = 0 ∧ n ≠ 0) := by omega
    simp only [hsep, ↓reduceIte, bit_and_one]
    by_cases h : i = n
    · subst h
      simp [Nat.testBit_eq_decide_div_mod_eq]
    · rw [show n + 1 - 1 - i = (n - 1 - i) + 1 by omega, List.getElem?_cons_succ]
      exact ih (by omega) (by omega)

example : String.ofList (toString 12 0xABC) = "0b1010_10111100" := by decide
example : ofString 12 (toString 12 0xABC) = some 0xABC := by decide

/-- `to_mpz_t` yields the integer value. -/
theorem C04_to_mpz {W x : ℕ} (hx : x < 2 ^ W) : toMpz W x = x := by
  unfold toMpz
  rw [toMpzLoop_eq]
  simp only [pow_zero, Nat.div_one, mul_one, Nat.zero_add]
  exact Nat.mod_eq_of_lt (hx.trans_le (Nat.pow_le_pow_right (by norm_num) (by omega)))

/-- Constructing from the GMP integer gives the number back, and integers of more than `W` bits are rejected. -/
theorem C04_mpz_round_trip {W x : ℕ} (h1 : 1 ≤ W) (hW : W ≤ 128) (hx : x < 2 ^ W) :
    ofMpz W (toMpz W x) = some x := by
  rw [C04_to_mpz hx]
  unfold ofMpz
  have hsz : Nat.size x ≤ W := Nat.size_le.mpr hx
  rw [if_neg (by omega), ofMpzLoop_eq hx (le_stW hW) _ _ _ (by norm_num)]
  simp only [pow_zero, Nat.div_one, mul_one, Nat.zero_add]
  rw [Nat.mod_eq_of_lt (hx.trans_le (Nat.pow_le_pow_right (by norm_num) (by omega)))]
  exact ofBits_eq hW hx

theorem C04_mpz_too_large {W x : ℕ} (hx : 2 ^ W ≤ x) : ofMpz W x = none := by
  unfold ofMpz
  have : W < Nat.size x := Nat.lt_size.mpr hx
  rw [if_pos (by omega)]

end Thls

/-! ## C05: the two-limb 128-bit fallback -/

namespace Thls.Fallback

/-- The integer a pair of limbs stands for. -/
def U128.val (a : U128) : ℕ := a.hi * 2 ^ 64 + a.lo

/-- Both limbs are 64-bit words. -/
def U128.Ok (a : U128) : Prop := a.hi < 2 ^ 64 ∧ a.lo < 2 ^ 64

/-- **C05.** Addition and subtraction are modulo `2^128`. -/
theorem C05_add {a b : U128} (ha : a.Ok) (hb : b.Ok) :
    (add a b).Ok ∧ (add a b).val = (a.val + b.val) % 2 ^ 128 := by
  obtain ⟨ha1, ha2⟩ := ha
  obtain ⟨hb1, hb2⟩ := hb
  simp only [add, U128.val, U128.Ok, u64]
  norm_num at *
  split <;> omega

theorem C05_sub {a b : U128} (ha : a.Ok) (hb : b.Ok) :
    (sub a b).Ok ∧ ((sub a b).val : ℤ) = ((a.val : ℤ) - b.val) % 2 ^ 128 := by
  obtain ⟨ha1, ha2⟩ := ha
  obtain ⟨hb1, hb2⟩ := hb
  simp only [sub, U128.val, U128.Ok, u64]
  norm_num at *
  split <;> omega

/-- Shifts by any distance below 128. -/
theorem C05_shr {a : U128} (ha : a.Ok) {s : ℕ} (hs : s < 128) :
    (shr a s).Ok ∧ (shr a s).val = a.val / 2 ^ s := by
  obtain ⟨ha1, ha2⟩ := ha
  unfold shr
  split
  · subst s; exact ⟨⟨ha1, ha2⟩, by simp⟩
  · split
    · rename_i h0 h64
      obtain ⟨k, hk⟩ := Nat.exists_eq_add_of_le (show s ≤ 64 by omega)
      have hlow : a.lo / 2 ^ s < 2 ^ k := by
        rw [Nat.div_lt_iff_lt_mul (by positivity), ← pow_add, Nat.add_comm, ← hk]; exact ha2
      have e64 : 2 ^ 64 = 2 ^ s * 2 ^ k := by rw [hk, pow_add]
      have hor : (a.lo >>> s) ||| u64 (a.hi <<< (64 - s)) = a.hi % 2 ^ s * 2 ^ k + a.lo / 2 ^ s := by
        unfold u64
        rw [show 64 - s = k by omega, Nat.shiftLeft_eq, Nat.shiftRight_eq_div_pow, e64, Nat.mul_comm (2 ^ s),
          Nat.mul_comm a.hi, Nat.mul_mod_mul_left, Nat.or_comm, Nat.mul_comm (2 ^ k), ← Nat.shiftLeft_eq,
          ← Nat.shiftLeft_add_eq_or_of_lt hlow, Nat.shiftLeft_eq]
      refine ⟨⟨?_, ?_⟩, ?_⟩
      · exact (by rw [Nat.shiftRight_eq_div_pow]; exact (Nat.div_le_self _ _).trans_lt ha1)
      · dsimp only
        rw [hor, e64]
        have h1 : a.hi % 2 ^ s < 2 ^ s := Nat.mod_lt _ (by positivity)
        have h2 : (a.hi % 2 ^ s + 1) * 2 ^ k ≤ 2 ^ s * 2 ^ k := Nat.mul_le_mul_right _ h1
        rw [Nat.add_mul, Nat.one_mul] at h2
        omega
      · unfold U128.val
        dsimp only
        rw [hor, Nat.shiftRight_eq_div_pow, e64]
        have h3 := Nat.div_add_mod a.hi (2 ^ s)
        conv_rhs => rw [← h3, show (2 ^ s * (a.hi / 2 ^ s) + a.hi % 2 ^ s) * (2 ^ s * 2 ^ k) + a.lo
          = a.lo + 2 ^ s * ((2 ^ s * (a.hi / 2 ^ s) + a.hi % 2 ^ s) * 2 ^ k) by ring,
          Nat.add_mul_div_left _ _ (by positivity)]
        ring
    · rename_i h0 h64
      obtain ⟨k, hk⟩ := Nat.exists_eq_add_of_le (show 64 ≤ s by omega)
      refine ⟨⟨by positivity, ?_⟩, ?_⟩
      · exact (by rw [Nat.shiftRight_eq_div_pow]; exact (Nat.div_le_self _ _).trans_lt ha1)
      · unfold U128.val
        dsimp only
        rw [Nat.shiftRight_eq_div_pow, hk, Nat.add_sub_cancel_left, pow_add, ← Nat.div_div_eq_div_mul]
        have := concat_div (a := a.hi) ha2
        unfold concat at this
        rw [this]; simp

theorem C05_shl {a : U128} (ha : a.Ok) {s : ℕ} (hs : s < 128) :
    (shl a s).Ok ∧ (shl a s).val = a.val * 2 ^ s % 2 ^ 128 := by
  obtain ⟨ha1, ha2⟩ := ha
  have e128 : (2 : ℕ) ^ 128 = 2 ^ 64 * 2 ^ 64 := by norm_num
  unfold shl
  split
  · subst s
    refine ⟨⟨ha1, ha2⟩, ?_⟩
    rw [pow_zero, Nat.mul_one, Nat.mod_eq_of_lt]
    exact concat_lt (wa := 64) ha1 ha2
  · split
    · rename_i h0 h64
      obtain ⟨k, hk⟩ := Nat.exists_eq_add_of_le (show s ≤ 64 by omega)
      have e64 : 2 ^ 64 = 2 ^ s * 2 ^ k := by rw [hk, pow_add]
      have hlow : a.lo / 2 ^ k < 2 ^ s := by
        rw [Nat.div_lt_iff_lt_mul (by positivity), ← pow_add, ← hk]; exact ha2
      have hor : u64 (a.hi <<< s) ||| (a.lo >>> (64 - s)) = a.hi % 2 ^ k * 2 ^ s + a.lo / 2 ^ k := by
        unfold u64
        rw [show 64 - s = k by omega, Nat.shiftLeft_eq, Nat.shiftRight_eq_div_pow, e64,
          Nat.mul_comm a.hi, Nat.mul_mod_mul_left, Nat.mul_comm (2 ^ s), ← Nat.shiftLeft_eq,
          ← Nat.shiftLeft_add_eq_or_of_lt hlow, Nat.shiftLeft_eq]
      have hlo : u64 (a.lo <<< s) = a.lo % 2 ^ k * 2 ^ s := by
        unfold u64
        rw [Nat.shiftLeft_eq, e64, Nat.mul_comm a.lo, Nat.mul_mod_mul_left, Nat.mul_comm]
      have hOk : (⟨u64 (a.hi <<< s) ||| (a.lo >>> (64 - s)), u64 (a.lo <<< s)⟩ : U128).Ok := by
        refine ⟨?_, Nat.mod_lt _ (by norm_num)⟩
        dsimp only
        rw [hor, e64]
        have h1 : a.hi % 2 ^ k < 2 ^ k := Nat.mod_lt _ (by positivity)
        have h2 : (a.hi % 2 ^ k + 1) * 2 ^ s ≤ 2 ^ k * 2 ^ s := Nat.mul_le_mul_right _ h1
        rw [Nat.add_mul, Nat.one_mul] at h2
        rw [Nat.mul_comm (2 ^ s) (2 ^ k)]
        omega
      refine ⟨hOk, ?_⟩
      have hlt := concat_lt (wa := 64) hOk.1 hOk.2
      unfold concat at hlt
      unfold U128.val
      dsimp only at hlt ⊢
      rw [hor, hlo] at hlt ⊢
      rw [← Nat.mod_eq_of_lt hlt]
      have h3 := Nat.div_add_mod a.hi (2 ^ k)
      have h4 := Nat.div_add_mod a.lo (2 ^ k)
      have : (a.hi * 2 ^ 64 + a.lo) * 2 ^ s
          = (a.hi % 2 ^ k * 2 ^ s + a.lo / 2 ^ k) * 2 ^ 64 + a.lo % 2 ^ k * 2 ^ s
            + 2 ^ (64 + 64) * (a.hi / 2 ^ k) := by
        conv_lhs => rw [← h3, ← h4]
        rw [pow_add 2 64 64, e64]; ring
      rw [this, show (128 : ℕ) = 64 + 64 by norm_num, Nat.add_mul_mod_self_left]
    · rename_i h0 h64
      obtain ⟨k, hk⟩ := Nat.exists_eq_add_of_le (show 64 ≤ s by omega)
      refine ⟨⟨Nat.mod_lt _ (by norm_num), by norm_num⟩, ?_⟩
      unfold U128.val u64
      dsimp only
      rw [Nat.shiftLeft_eq, hk, Nat.add_sub_cancel_left, e128, pow_add,
        show (a.hi * 2 ^ 64 + a.lo) * (2 ^ 64 * 2 ^ k) = 2 ^ 64 * (a.lo * 2 ^ k + 2 ^ 64 * (a.hi * 2 ^ k)) by ring,
        Nat.mul_mod_mul_left, Nat.add_mul_mod_self_left, Nat.add_zero, Nat.mul_comm]

/-- Comparisons decide the integer order. -/
theorem C05_comparisons {a b : U128} (ha : a.Ok) (hb : b.Ok) :
    (lt a b = true ↔ a.val < b.val) ∧ (le a b = true ↔ a.val ≤ b.val) ∧ (gt a b = true ↔ a.val > b.val) ∧
    (ge a b = true ↔ a.val ≥ b.val) ∧ (eq a b = true ↔ a.val = b.val) := by
  obtain ⟨ha1, ha2⟩ := ha
  obtain ⟨hb1, hb2⟩ := hb
  simp only [lt, le, gt, ge, eq, U128.val, Bool.and_eq_true, decide_eq_true_eq]
  norm_num at *
  refine ⟨?_, ?_, ?_, ?_, ?_⟩ <;> omega

/-- Bitwise operations act on the 128-bit value. -/
theorem C05_bitwise {a b : U128} (ha : a.Ok) (hb : b.Ok) :
    (and a b).val = a.val &&& b.val ∧ (or a b).val = a.val ||| b.val ∧ (xor a b).val = a.val ^^^ b.val := by
  have key : ∀ x : U128, x.lo < 2 ^ 64 → ∀ i, x.val.testBit i = if i < 64 then x.lo.testBit i else x.hi.testBit (i - 64) := by
    intro x hx i
    unfold U128.val
    rw [Nat.mul_comm, Nat.testBit_two_pow_mul_add _ hx]
  have h1 := Nat.and_lt_two_pow a.lo hb.2
  have h2 := Nat.or_lt_two_pow ha.2 hb.2
  have h3 := Nat.xor_lt_two_pow ha.2 hb.2
  refine ⟨?_, ?_, ?_⟩ <;> apply Nat.eq_of_testBit_eq <;> intro i
  · rw [key (and a b) h1, Nat.testBit_and, key a ha.2, key b hb.2]
    split <;> simp [and, Nat.testBit_and]
  · rw [key (or a b) h2, Nat.testBit_or, key a ha.2, key b hb.2]
    split <;> simp [or, Nat.testBit_or]
  · rw [key (xor a b) h3, Nat.testBit_xor, key a ha.2, key b hb.2]
    split <;> simp [xor, Nat.testBit_xor]

/-- **C05, the part that fails.** The product is not the product modulo `2^128`: the 32-bit partial products
are truncated to 32 bits. `65536 * 65536` gives 0. -/
theorem C05_mul_wrong : ∃ a b : U128, a.Ok ∧ b.Ok ∧ (mul a b).val ≠ a.val * b.val % 2 ^ 128 :=
  ⟨⟨0, 65536⟩, ⟨0, 65536⟩, ⟨by decide, by decide⟩, ⟨by decide, by decide⟩, by decide⟩

/-- Multiplication is right as long as every 32-bit partial product fits in 32 bits; in particular for
16-bit operands. -/
theorem C05_mul_small_partial {a b : ℕ} (ha : a < 2 ^ 16) (hb : b < 2 ^ 16) :
    (mul ⟨0, a⟩ ⟨0, b⟩).val = a * b := by
  have hab : a * b < 2 ^ 32 := by
    calc a * b < 2 ^ 16 * 2 ^ 16 := Nat.mul_lt_mul'' ha hb
      _ = 2 ^ 32 := by norm_num
  have h1 : a >>> 32 = 0 := by rw [Nat.shiftRight_eq_div_pow]; exact Nat.div_eq_of_lt (by omega)
  have h2 : b >>> 32 = 0 := by rw [Nat.shiftRight_eq_div_pow]; exact Nat.div_eq_of_lt (by omega)
  have z1 : m32 0 0 = ⟨0, 0⟩ := rfl
  have hm : ∀ x y, m32 x y = ⟨0, (x % 2 ^ 32) * (y % 2 ^ 32) % 2 ^ 32⟩ := fun _ _ => rfl
  simp only [mul, m64, h1, h2, hm, Nat.mod_eq_of_lt (show a < 2 ^ 32 by omega),
    Nat.mod_eq_of_lt (show b < 2 ^ 32 by omega), Nat.mod_eq_of_lt hab]
  norm_num [shl, add, u64, U128.val]
  rw [Nat.mod_eq_of_lt (by omega : a * b < 18446744073709551616)]
  simp

example : (add ⟨1, 2 ^ 64 - 1⟩ ⟨2, 1⟩) = ⟨4, 0⟩ := by decide
example : (shl ⟨0, 3⟩ 63) = ⟨1, 2 ^ 63⟩ := by decide

end Thls.Fallback
