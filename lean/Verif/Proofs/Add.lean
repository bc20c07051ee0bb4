import Verif.Proofs.Pack
import Verif.Proofs.Lzoc
import Verif.Proofs.Convert
import Verif.Model.Add
import Mathlib.Tactic.FieldSimp

/-! # Adders: alignment, addition, absorption (helpers) -/

namespace Thls
open Spec

/-! ## Alignment -/

theorem addAlign_spec {F pad m s : ℕ} (hm : m < 2 ^ (F + 1)) (hs : s < 2 * F + 4 + pad) :
    addAlign? F pad m s = some (4 * m / 2 ^ s, decide (m * 2 ^ (F + 3) / 2 ^ s % 2 ^ (F + 1) ≠ 0)) := by
  unfold addAlign? shr?
  rw [if_pos hs]
  have h1 : concat (F + 3 + pad) m 0 / 2 ^ s / 2 ^ pad = m * 2 ^ (F + 3) / 2 ^ s := by
    unfold concat
    rw [Nat.add_zero, Nat.div_div_eq_div_mul, pow_add 2 (F + 3) pad, ← Nat.mul_assoc,
      Nat.mul_div_mul_right _ _ (by positivity)]
  have h2 : m * 2 ^ (F + 3) / 2 ^ s < 2 ^ (2 * F + 3 + 1) := by
    refine (Nat.div_le_self _ _).trans_lt ?_
    rw [show 2 * F + 3 + 1 = (F + 1) + (F + 3) by ring, pow_add 2 (F + 1)]
    exact (Nat.mul_lt_mul_right (a := 2 ^ (F + 3)) (by positivity)).mpr hm
  dsimp only
  rw [h1, getBits_top h2 (by omega), getBits_zero_eq_mod]
  congr 2
  rw [Nat.div_div_eq_div_mul, Nat.mul_comm (2 ^ s), ← Nat.div_div_eq_div_mul]
  congr 1
  rw [show F + 3 = 2 + (F + 1) by ring, pow_add, ← Nat.mul_assoc, Nat.mul_div_cancel _ (by positivity)]
  omega

/-- `y` lies in `[Y, Y+1)` and the sticky bit tells whether it is exactly `Y`. -/
def Aligned (y : ℚ) (Y : ℕ) (st : Bool) : Prop := (Y : ℚ) ≤ y ∧ y < Y + 1 ∧ (st = false ↔ y = Y)

theorem aligned_of_le {F m s : ℕ} (hs : s ≤ F + 3) :
    Aligned (4 * m / 2 ^ s : ℚ) (4 * m / 2 ^ s) (decide (m * 2 ^ (F + 3) / 2 ^ s % 2 ^ (F + 1) ≠ 0)) := by
  obtain ⟨k, hk⟩ := Nat.exists_eq_add_of_le hs
  have h1 : m * 2 ^ (F + 3) / 2 ^ s = m * 2 ^ k := by
    rw [hk, Nat.mul_comm (m), pow_add, Nat.mul_assoc, Nat.mul_div_cancel_left _ (by positivity), Nat.mul_comm]
  have hps : (0 : ℚ) < 2 ^ s := by positivity
  have hdm := Nat.div_add_mod (4 * m) (2 ^ s)
  have hml := Nat.mod_lt (4 * m) (show 0 < 2 ^ s by positivity)
  have hq : (4 * m : ℚ) = 2 ^ s * ((4 * m / 2 ^ s : ℕ) : ℚ) + ((4 * m % 2 ^ s : ℕ) : ℚ) := by
    exact_mod_cast hdm.symm
  have hmq : ((4 * m % 2 ^ s : ℕ) : ℚ) < 2 ^ s := by exact_mod_cast hml
  have hm0 : (0 : ℚ) ≤ ((4 * m % 2 ^ s : ℕ) : ℚ) := Nat.cast_nonneg _
  refine ⟨?_, ?_, ?_⟩
  · rw [le_div_iff₀ hps]; linarith
  · rw [div_lt_iff₀ hps]; linarith
  · rw [div_eq_iff hps.ne', h1]
    simp only [ne_eq, decide_not, Bool.not_eq_eq_eq_not, Bool.not_false, decide_eq_true_eq]
    have h2 : m * 2 ^ k % 2 ^ (F + 1) = 0 ↔ 4 * m % 2 ^ s = 0 := by
      rw [← Nat.dvd_iff_mod_eq_zero, ← Nat.dvd_iff_mod_eq_zero,
        ← Nat.mul_dvd_mul_iff_right (show 0 < 4 by norm_num),
        ← Nat.mul_dvd_mul_iff_right (show 0 < 2 ^ k by positivity) (a := 2 ^ s)]
      rw [show 2 ^ (F + 1) * 4 = 2 ^ s * 2 ^ k by rw [← pow_add, ← hk, show (4 : ℕ) = 2 ^ 2 by norm_num, ← pow_add],
        show m * 2 ^ k * 4 = 4 * m * 2 ^ k by ring]
    rw [h2]
    constructor
    · intro h; rw [h] at hq; rw [hq]; push_cast; ring
    · intro h
      have : ((4 * m % 2 ^ s : ℕ) : ℚ) = 0 := by linarith
      exact_mod_cast this

theorem align_big {F m s : ℕ} (hm : m < 2 ^ (F + 1)) (hs : F + 3 ≤ s) : 4 * m / 2 ^ s = 0 := by
  apply Nat.div_eq_of_lt
  have : 2 ^ (F + 3) ≤ 2 ^ s := Nat.pow_le_pow_right (by norm_num) hs
  have : 2 ^ (F + 3) = 4 * 2 ^ (F + 1) := by rw [show F + 3 = 2 + (F + 1) by ring, pow_add]; norm_num
  omega

/-- The sticky bit needs a shift by at least 3. -/
theorem sticky_shift {F m s : ℕ} (hm : m < 2 ^ (F + 1))
    (h : decide (m * 2 ^ (F + 3) / 2 ^ s % 2 ^ (F + 1) ≠ 0) = true) : 4 * m / 2 ^ s < 2 ^ F := by
  have h3 : 3 ≤ s := by
    by_contra hc
    push Not at hc
    apply of_decide_eq_true h
    obtain ⟨k, hk⟩ := Nat.exists_eq_add_of_le (show s ≤ 2 by omega)
    rw [show F + 3 = s + k + (F + 1) by omega, pow_add, pow_add,
      show m * (2 ^ s * 2 ^ k * 2 ^ (F + 1)) = 2 ^ s * (m * 2 ^ k * 2 ^ (F + 1)) by ring,
      Nat.mul_div_cancel_left _ (by positivity), Nat.mul_mod_left]
  rw [Nat.div_lt_iff_lt_mul (by positivity)]
  have : 2 ^ 3 ≤ 2 ^ s := Nat.pow_le_pow_right (by norm_num) h3
  have e : 2 ^ (F + 1) = 2 * 2 ^ F := by rw [pow_succ]; ring
  nlinarith [Nat.mul_le_mul_left (2 ^ F) this]

theorem align_lt {F m s : ℕ} (hm : m < 2 ^ (F + 1)) : 4 * m / 2 ^ s < 2 ^ (F + 3) := by
  refine (Nat.div_le_self _ _).trans_lt ?_
  have : 2 ^ (F + 3) = 4 * 2 ^ (F + 1) := by rw [show F + 3 = 2 + (F + 1) by ring, pow_add]; norm_num
  omega

/-! ## The significand adder -/

theorem addFar_add {F fx Y : ℕ} (st : Bool) (hf : fx < 2 ^ F) (hY : Y < 2 ^ (F + 3)) :
    addFar F fx Y false st = 4 * (2 ^ F + fx) + Y := by
  have e1 : 2 ^ (F + 3) = 8 * 2 ^ F := by rw [pow_add]; ring
  have e2 : 2 ^ (F + 4) = 16 * 2 ^ F := by rw [pow_add]; ring
  simp only [addFar, addW, concat, Bool.false_and, Bool.toNat_false, Bool.false_eq_true, if_false, Nat.add_zero,
    Nat.mod_mod, Nat.one_mul]
  rw [e2, Nat.mod_eq_of_lt (by omega)]
  omega

theorem addFar_sub {F fx Y : ℕ} (st : Bool) (hf : fx < 2 ^ F) (hY : Y + st.toNat ≤ 4 * (2 ^ F + fx)) :
    addFar F fx Y true st = 4 * (2 ^ F + fx) - Y - st.toNat := by
  have e2 : 2 ^ (F + 4) = 16 * 2 ^ F := by rw [pow_add]; ring
  have hp : 0 < 2 ^ F := by positivity
  simp only [addFar, addW, concat, Bool.true_and, if_true, notW, Nat.one_mul, Nat.add_zero]
  rw [e2, Nat.mod_add_mod]
  cases st <;> simp only [Bool.toNat_false, Bool.toNat_true, Bool.not_false, Bool.not_true] at *
  · rw [show (2 ^ F + fx) * 2 ^ 2 + (16 * 2 ^ F - 1 - Y) + 1 = (4 * (2 ^ F + fx) - Y - 0) + 16 * 2 ^ F by omega,
      Nat.add_mod_right, Nat.mod_eq_of_lt (by omega)]
  · rw [show (2 ^ F + fx) * 2 ^ 2 + (16 * 2 ^ F - 1 - Y) + 0 = (4 * (2 ^ F + fx) - Y - 1) + 16 * 2 ^ F by omega,
      Nat.add_mod_right, Nat.mod_eq_of_lt (by omega)]

/-! ## Absorption -/

/-- A number within half a unit of a significand rounds to it; below a power of two the unit is halved. -/
theorem nearest_absorb {F m : ℕ} {e : ℤ} {δ : ℚ} (hF : 1 ≤ F) (hm : IsSig (F + 1) m) (h2 : δ < 2) (h3 : -2 < δ)
    (h1 : m = 2 ^ F → -1 ≤ δ) : NearestEven (F + 1) ((4 * m + δ) * 2 ^ (e - 2)) m e := by
  have hu := two_zpow_pos (e - 2)
  have he : (2 : ℚ) ^ e = 4 * 2 ^ (e - 2) := by
    rw [show e = (e - 2) + 2 by ring, zpow_add₀ (by norm_num)]; norm_num; ring
  rcases le_or_gt 0 δ with h | h
  · refine nearest_down (by omega) hm ?_ ?_ ?_
    · rw [he]; nlinarith
    · rw [he]; nlinarith
    · intro hc; exfalso; rw [he] at hc; nlinarith
  · by_cases hp : m = 2 ^ F
    · have hl : IsSig (F + 1) (2 ^ (F + 1) - 1) := by
        have : 2 ^ (F + 1) = 2 * 2 ^ F := by rw [pow_succ]; ring
        have : 0 < 2 ^ F := by positivity
        constructor <;> simp <;> omega
      have hc : (((2 ^ (F + 1) - 1 : ℕ) : ℚ) + 1) = 2 * 2 ^ F := by
        have : (2 ^ (F + 1) - 1 : ℕ) + 1 = 2 * 2 ^ F := by
          have : 2 ^ (F + 1) = 2 * 2 ^ F := by rw [pow_succ]; ring
          have : 0 < 2 ^ F := by positivity
          omega
        exact_mod_cast this
      have he1 : (2 : ℚ) ^ (e - 1) = 2 * 2 ^ (e - 2) := by
        rw [show e - 1 = (e - 2) + 1 by ring, two_zpow_succ]
      have h1 := h1 hp
      have hmq : (m : ℚ) = 2 ^ F := by rw [hp]; push_cast; rfl
      refine nearest_up (m := 2 ^ (F + 1) - 1) (e := e - 1) (by omega) hl hm ?_ ?_ ?_ ?_
      · rw [hc, he, he1, hmq]; ring
      · rw [hc, he1, hmq]; nlinarith
      · rw [hc, he1, hmq]; nlinarith
      · intro _; rw [hp]; exact (Nat.even_pow.mpr ⟨by norm_num, by omega⟩)
    · have hl : IsSig (F + 1) (m - 1) := by
        obtain ⟨a, b⟩ := hm
        rw [Nat.add_sub_cancel] at a
        refine ⟨?_, by omega⟩
        rw [Nat.add_sub_cancel]; omega
      have hm1 : 1 ≤ m := by
        obtain ⟨a, b⟩ := hm
        have : 0 < 2 ^ (F + 1 - 1) := by positivity
        omega
      have hc : (((m - 1 : ℕ) : ℚ) + 1) = m := by push_cast [Nat.cast_sub hm1]; ring
      refine nearest_up (m := m - 1) (e := e) (by omega) hl hm ?_ ?_ ?_ ?_
      · rw [hc]
      · rw [hc, he]; nlinarith
      · rw [hc, he]; nlinarith
      · intro hh; exfalso; rw [hc, he] at hh; nlinarith

end Thls
