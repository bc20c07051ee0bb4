import Verif.Model.Masked
import Verif.Proofs.Pack

/-! # Lemmas for the storage-level backend -/

namespace Thls.Masked

theorem le_stW {W : ℕ} (h : W ≤ 128) : W ≤ stW W := by
  unfold stW; split
  · omega
  · split <;> omega

theorem allOnes_eq (s : ℕ) : allOnes s = 2 ^ s - 1 := by
  unfold allOnes
  rw [Nat.zero_add, Nat.mod_eq_of_lt]
  have : 0 < 2 ^ s := by positivity
  omega

theorem mask_eq {W : ℕ} (h : W ≤ 128) : mask W = 2 ^ W - 1 := by
  unfold mask
  split
  · subst W; rfl
  · have hs := le_stW h
    rw [allOnes_eq, Nat.shiftRight_eq_div_pow]
    obtain ⟨k, hk⟩ := Nat.exists_eq_add_of_le hs
    rw [hk, Nat.add_sub_cancel_left, pow_add, Nat.div_eq_iff (by positivity)]
    have h1 : 0 < 2 ^ W := by positivity
    have h2 : 0 < 2 ^ k := by positivity
    obtain ⟨a, ha⟩ : ∃ a, 2 ^ W = a + 1 := ⟨2 ^ W - 1, by omega⟩
    rw [ha, Nat.add_sub_cancel, Nat.add_mul, Nat.one_mul]
    omega

theorem and_mask {W v : ℕ} (h : W ≤ 128) : v &&& mask W = v % 2 ^ W := by
  rw [mask_eq h, Nat.and_two_pow_sub_one_eq_mod]

theorem ofBits_eq {W v : ℕ} (h : W ≤ 128) (hv : v < 2 ^ W) : ofBits W v = some v := by
  unfold ofBits
  rw [and_mask h, Nat.mod_eq_of_lt hv, if_pos]
  rw [mask_eq h]; omega

theorem mod_stW {W v : ℕ} (h : W ≤ 128) : v % 2 ^ stW W % 2 ^ W = v % 2 ^ W :=
  Nat.mod_mod_of_dvd _ (pow_dvd_pow 2 (le_stW h))

theorem lt_stW {W v : ℕ} (h : W ≤ 128) (hv : v < 2 ^ W) : v < 2 ^ stW W :=
  hv.trans_le (Nat.pow_le_pow_right (by norm_num) (le_stW h))

theorem ofBits_mod {W v : ℕ} (h : W ≤ 128) : ofBits W (v % 2 ^ stW W &&& mask W) = some (v % 2 ^ W) := by
  rw [and_mask h, mod_stW h]
  exact ofBits_eq h (Nat.mod_lt _ (by positivity))

theorem cast_int_mod (s : ℕ) (b : ℤ) : (((b % 2 ^ s).toNat : ℕ) : ℤ) = b % 2 ^ s :=
  Int.toNat_of_nonneg (Int.emod_nonneg _ (by positivity))

theorem ofInt_eq {W : ℕ} {v : ℤ} (h : W ≤ 128) (h0 : 0 ≤ v) (hv : v < 2 ^ W) : ofInt W v = some v.toNat := by
  have hs : (2 : ℤ) ^ W ≤ 2 ^ stW W := pow_le_pow_right₀ (by norm_num) (le_stW h)
  unfold ofInt
  rw [if_neg (by omega), Int.emod_eq_of_lt h0 (by omega), if_pos]
  rw [mask_eq h]
  have : (v.toNat : ℤ) < ((2 ^ W : ℕ) : ℤ) := by push_cast; rw [Int.toNat_of_nonneg h0]; exact hv
  omega

theorem ofBool_eq (b : Bool) : ofBool b = some b.toNat := by
  cases b <;> rfl

theorem emod_pow_dvd {W s : ℕ} (h : W ≤ s) (z : ℤ) : z % 2 ^ s % 2 ^ W = z % 2 ^ W :=
  Int.emod_emod_of_dvd _ (pow_dvd_pow 2 h)

theorem getBits_eq {HI LO W x : ℕ} (hW : W ≤ 128) (h1 : HI < W) (h2 : LO ≤ HI + 1) :
    getBits HI LO W x = some (x / 2 ^ LO % 2 ^ (HI + 1 - LO)) := by
  unfold getBits
  rw [if_pos h1, ofBits_mod (by omega), Nat.shiftRight_eq_div_pow]

theorem concat_eq {WA WB a b : ℕ} (hW : WA + WB ≤ 128) (ha : a < 2 ^ WA) (hb : b < 2 ^ WB) :
    concat WA WB a b = some (a * 2 ^ WB + b) := by
  have hlt := concat_lt ha hb
  unfold Thls.concat at hlt
  have hle : a * 2 ^ WB < 2 ^ (WA + WB) := by omega
  have ha' : a < 2 ^ (WA + WB) := ha.trans_le (Nat.pow_le_pow_right (by norm_num) (by omega))
  have hb' : b < 2 ^ (WA + WB) := hb.trans_le (Nat.pow_le_pow_right (by norm_num) (by omega))
  unfold concat
  dsimp only
  rw [Nat.mod_eq_of_lt (lt_stW hW ha'), Nat.mod_eq_of_lt (lt_stW hW hb')]
  by_cases h0 : WA = 0
  · subst h0
    have : a = 0 := by simpa using ha
    subst this
    simp only [↓reduceIte, Nat.shiftLeft_zero, Nat.zero_mod, Nat.zero_or, Nat.zero_mul, Nat.zero_add]
    exact ofBits_eq (by omega) (by omega)
  · rw [if_neg h0, Nat.shiftLeft_eq, Nat.mod_eq_of_lt (lt_stW hW hle), ← Nat.shiftLeft_eq,
      ← Nat.shiftLeft_add_eq_or_of_lt hb, Nat.shiftLeft_eq]
    exact ofBits_eq hW hlt

theorem zg_eq {W : ℕ} (h : W ≤ 128) : zg W = some 0 := by
  unfold zg; rw [ofInt_eq h le_rfl (by positivity)]; rfl

theorem not_eq {W a : ℕ} (h : W ≤ 128) (ha : a < 2 ^ W) : not W a = some (2 ^ W - 1 - a) := by
  unfold not
  have : a ^^^ mask W = 2 ^ W - 1 - a := by
    rw [mask_eq h]
    apply Nat.eq_of_testBit_eq
    intro i
    rw [Nat.testBit_xor, Nat.testBit_two_pow_sub_one,
      show 2 ^ W - 1 - a = 2 ^ W - (a + 1) by omega, Nat.testBit_two_pow_sub_succ ha]
    by_cases hi : i < W
    · simp [hi]
    · have : a.testBit i = false := Nat.testBit_lt_two_pow (ha.trans_le (Nat.pow_le_pow_right (by norm_num) (by omega)))
      simp [hi, this]
  rw [this]
  exact ofBits_eq h (by have : 0 < 2 ^ W := by positivity
                        omega)

theorem og_eq {W : ℕ} (h : W ≤ 128) : og W = some (2 ^ W - 1) := by
  unfold og; rw [zg_eq h]
  exact not_eq h (by positivity)

/-! ## Text -/

theorem bit_and_one (x i : ℕ) : ((x >>> i) &&& 1 = 1) ↔ x / 2 ^ i % 2 = 1 := by
  rw [Nat.and_one_is_mod, Nat.shiftRight_eq_div_pow]

theorem parse_underscore (s n bits : ℕ) (rest : List Char) :
    parseLoop s (n + 1) bits ('_' :: rest) = parseLoop s (n + 1) bits rest := by
  rw [parseLoop]; rfl

theorem parse_digit {s n bits d : ℕ} (hd : d < 2) (hb : 2 * bits + d < 2 ^ s) (rest : List Char) :
    parseLoop s (n + 1) bits ((if d = 1 then '1' else '0') :: rest) = parseLoop s n (2 * bits + d) rest := by
  rw [parseLoop]
  interval_cases d
  · simp only [show ¬ ((0 : ℕ) = 1) by decide, ↓reduceIte, show ¬ ('0' = '_') by decide]
    rw [Nat.shiftLeft_eq, pow_one, Nat.add_zero, Nat.mod_mod, Nat.mul_comm, Nat.mod_eq_of_lt (by omega)]
    rfl
  · simp only [↓reduceIte, show ¬ ('1' = '_') by decide, show ¬ ('1' = '0') by decide]
    rw [Nat.shiftLeft_eq, pow_one, Nat.mul_comm, Nat.mod_eq_of_lt (by omega : 2 * bits < 2 ^ s),
      Nat.mod_eq_of_lt hb]

/-- The parser reads back the first `n` bits printed. -/
theorem parse_toStringLoop {s W x : ℕ} (hx : x < 2 ^ W) (hW : W ≤ s) (n : ℕ) (hn : n ≤ W) :
    parseLoop s n (x / 2 ^ n) (toStringLoop x n) = some x := by
  induction n with
  | zero => simp [parseLoop, toStringLoop]
  | succ n ih =>
    unfold toStringLoop
    dsimp only
    have hsplit : 2 * (x / 2 ^ (n + 1)) + x / 2 ^ n % 2 = x / 2 ^ n := by
      rw [pow_succ, ← Nat.div_div_eq_div_mul]; omega
    have hlt : x / 2 ^ n < 2 ^ s :=
      (Nat.div_le_self _ _).trans_lt (hx.trans_le (Nat.pow_le_pow_right (by norm_num) hW))
    have hbit : (if (x >>> n) &&& 1 = 1 then '1' else '0') = (if x / 2 ^ n % 2 = 1 then '1' else '0') := by
      simp only [bit_and_one]
    rw [hbit, parse_digit (Nat.mod_lt _ (by norm_num)) (by omega), hsplit]
    by_cases h8 : n % 8 = 0 ∧ n ≠ 0
    · obtain ⟨m, rfl⟩ : ∃ m, n = m + 1 := ⟨n - 1, by omega⟩
      rw [if_pos h8, parse_underscore]
      exact ih (by omega)
    · rw [if_neg h8]
      exact ih (by omega)

/-! ## GMP exchange -/

theorem toMpzLoop_eq (x n off res : ℕ) :
    toMpzLoop x n off res = res + (x / 2 ^ off % 2 ^ (32 * n)) * 2 ^ off := by
  induction n generalizing off res with
  | zero => simp [toMpzLoop, Nat.mod_one]
  | succ n ih =>
    rw [toMpzLoop, ih]
    have h1 : (x >>> off) &&& 0xFFFFFFFF = x / 2 ^ off % 2 ^ 32 := by
      rw [Nat.shiftRight_eq_div_pow, show (0xFFFFFFFF : ℕ) = 2 ^ 32 - 1 by norm_num,
        Nat.and_two_pow_sub_one_eq_mod]
    rw [h1, show 32 * (n + 1) = 32 + 32 * n by ring, pow_add 2 32, Nat.mod_mul, pow_add 2 off,
      ← Nat.div_div_eq_div_mul]
    ring

theorem ofMpzLoop_eq {s x W : ℕ} (hx : x < 2 ^ W) (hs : W ≤ s) (n off bits : ℕ) (hb : bits < 2 ^ off) :
    ofMpzLoop s x n off bits = bits + (x / 2 ^ off % 2 ^ (32 * n)) * 2 ^ off := by
  induction n generalizing off bits with
  | zero => simp [ofMpzLoop, Nat.mod_one]
  | succ n ih =>
    rw [ofMpzLoop]
    have hlimb : (x / 2 ^ off % 2 ^ 32) * 2 ^ off < 2 ^ s := by
      calc (x / 2 ^ off % 2 ^ 32) * 2 ^ off ≤ (x / 2 ^ off) * 2 ^ off :=
            Nat.mul_le_mul_right _ (Nat.mod_le _ _)
        _ ≤ x := Nat.div_mul_le_self _ _
        _ < 2 ^ s := hx.trans_le (Nat.pow_le_pow_right (by norm_num) hs)
    rw [Nat.shiftLeft_eq, Nat.mod_eq_of_lt hlimb, Nat.or_comm, ← Nat.shiftLeft_eq,
      ← Nat.shiftLeft_add_eq_or_of_lt hb, Nat.shiftLeft_eq, ih]
    · rw [show 32 * (n + 1) = 32 + 32 * n by ring, pow_add 2 32, Nat.mod_mul, pow_add 2 off,
        ← Nat.div_div_eq_div_mul]
      ring
    · have h1 : x / 2 ^ off % 2 ^ 32 < 2 ^ 32 := Nat.mod_lt _ (by positivity)
      rw [pow_add]
      have : (x / 2 ^ off % 2 ^ 32 + 1) * 2 ^ off ≤ 2 ^ 32 * 2 ^ off := Nat.mul_le_mul_right _ h1
      rw [Nat.add_mul, Nat.one_mul] at this
      rw [Nat.mul_comm (2 ^ off)]
      omega

end Thls.Masked
