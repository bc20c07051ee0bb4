import Verif.Model.SoftWords
import Verif.SpecWords
import Mathlib.Tactic.Linarith
import Mathlib.Tactic.Ring

/-! # Helper lemmas about words and shifts -/

namespace Thls.SoftWords

theorem neg_eq {d : ℕ} (h1 : 1 ≤ d) (h2 : d ≤ 63) : neg d = 64 - d := by unfold neg; omega

theorem mul_or {k y : ℕ} (x : ℕ) (hy : y < 2 ^ k) : x * 2 ^ k ||| y = x * 2 ^ k + y := by
  rw [Nat.mul_comm x, ← Nat.two_pow_add_eq_or_of_lt hy]

theorem shl_eq (a : ℕ) {d : ℕ} (h : d ≤ 64) : shl a d = a % 2 ^ (64 - d) * 2 ^ d := by
  unfold shl
  conv_lhs => rw [show (2 : ℕ) ^ 64 = 2 ^ (64 - d) * 2 ^ d by rw [← pow_add]; congr 1; omega]
  rw [Nat.mul_mod_mul_right]

theorem shl_neg (a : ℕ) {d : ℕ} (h1 : 1 ≤ d) (h2 : d ≤ 63) : shl a (neg d) = a % 2 ^ d * 2 ^ (64 - d) := by
  rw [neg_eq h1 h2, shl_eq a (by omega), show 64 - (64 - d) = d by omega]

theorem split_pow {d : ℕ} (h : d ≤ 64) : (2 : ℕ) ^ (64 - d) * 2 ^ d = 2 ^ 64 := by rw [← pow_add]; congr 1; omega

theorem shr_lt {a d : ℕ} (ha : a < 2 ^ 64) (h : d ≤ 64) : a / 2 ^ d < 2 ^ (64 - d) :=
  Nat.div_lt_of_lt_mul (by rw [Nat.mul_comm, split_pow h]; exact ha)

/-- The low word of a right shift. -/
theorem right_low {a64 a0 d : ℕ} (h0 : a0 < 2 ^ 64) (h1 : 1 ≤ d) (h2 : d ≤ 63) :
    shl a64 (neg d) ||| shr a0 d = a64 % 2 ^ d * 2 ^ (64 - d) + a0 / 2 ^ d := by
  rw [shl_neg a64 h1 h2, shr, mul_or _ (shr_lt h0 (by omega))]

theorem right_words {a64 a0 d : ℕ} (h64 : a64 < 2 ^ 64) (h0 : a0 < 2 ^ 64) (h1 : 1 ≤ d) (h2 : d ≤ 63) :
    a64 / 2 ^ d < 2 ^ 64 ∧ a64 % 2 ^ d * 2 ^ (64 - d) + a0 / 2 ^ d < 2 ^ 64 ∧
    a64 / 2 ^ d * 2 ^ 64 + (a64 % 2 ^ d * 2 ^ (64 - d) + a0 / 2 ^ d) = (a64 * 2 ^ 64 + a0) / 2 ^ d ∧
    (a64 * 2 ^ 64 + a0) % 2 ^ d = a0 % 2 ^ d := by
  have hP : 0 < 2 ^ d := by positivity
  have hQ : 0 < 2 ^ (64 - d) := by positivity
  have hPQ := split_pow (d := d) (by omega)
  have hs := shr_lt h0 (show d ≤ 64 by omega)
  have hm := Nat.mod_lt a64 hP
  have hd := Nat.div_add_mod a64 (2 ^ d)
  have hd0 := Nat.div_add_mod a0 (2 ^ d)
  have hm0 := Nat.mod_lt a0 hP
  generalize a64 / 2 ^ d = u at *
  generalize a64 % 2 ^ d = v at *
  generalize hs' : a0 / 2 ^ d = s at *
  generalize ht' : a0 % 2 ^ d = t at *
  generalize (2 : ℕ) ^ (64 - d) = Q at *
  generalize (2 : ℕ) ^ d = P at *
  have key : a64 * 2 ^ 64 + a0 = P * (u * 2 ^ 64 + (v * Q + s)) + t := by
    rw [← hd, ← hd0, ← hPQ]; ring
  refine ⟨?_, ?_, ?_, ?_⟩
  · nlinarith
  · nlinarith
  · rw [key, Nat.mul_add_div hP, Nat.div_eq_of_lt hm0, Nat.add_zero]
  · rw [key, Nat.mul_add_mod, Nat.mod_eq_of_lt hm0]

theorem or_bit (x : ℕ) (b : Bool) : x ||| bit b = if b = true ∧ x % 2 = 0 then x + 1 else x := by
  cases b
  · simp [bit]
  · have h1 := Nat.div_add_mod (x ||| 1) 2
    have h2 : (x ||| 1) / 2 = x / 2 := by
      rw [← Nat.shiftRight_one, Nat.shiftRight_or_distrib]; simp [Nat.shiftRight_one]
    have h3 : (x ||| 1) % 2 = 1 := by
      have := Nat.or_mod_two_eq_one (a := x) (b := 1); simp
    have e : bit true = 1 := rfl
    rw [e]
    split_ifs with hc
    · omega
    · simp at hc; omega

end Thls.SoftWords
