import Verif.SpecRoundInt
import Verif.Proofs.RoundErr

/-! Rounding to an integer with an adder (property C115). -/

namespace Thls
open Spec

/-- The sum with the constant: among the numbers of one binade the nearest one is the nearest multiple of the unit. -/
theorem nearest_multiple {F m : ℕ} {e k : ℤ} {q : ℚ} (hm : m < 2 ^ (F + 1)) (hlo : 2 ^ F * 2 ^ k ≤ q) (hhi : q ≤ 2 ^ (F + 1) * 2 ^ k)
    (hmin : ∀ j : ℕ, 2 ^ F ≤ j → j ≤ 2 ^ (F + 1) → |q - m * 2 ^ e| ≤ |q - j * 2 ^ k| ∧
      (|q - m * 2 ^ e| = |q - j * 2 ^ k| → (j : ℚ) * 2 ^ k ≠ m * 2 ^ e → Even m)) :
    k ≤ e ∧ ∃ n : ℕ, (m : ℚ) * 2 ^ e = n * 2 ^ k ∧ 2 ^ F ≤ n ∧ n ≤ 2 ^ (F + 1) ∧ NearestInt (q / 2 ^ k) n := by
  have hk := two_zpow_pos k
  have hpow : 2 ^ F ≤ 2 ^ (F + 1) := Nat.pow_le_pow_right (by norm_num) (by omega)
  have hl := (hmin (2 ^ F) le_rfl hpow).1
  have hh := (hmin (2 ^ (F + 1)) hpow le_rfl).1
  push_cast at hl hh
  -- the nearest number is in the binade
  have w1 : 2 ^ F * 2 ^ k ≤ (m : ℚ) * 2 ^ e := by
    by_contra hc
    push Not at hc
    rw [abs_of_nonneg (by linarith), abs_of_nonneg (by linarith)] at hl
    linarith
  have w2 : (m : ℚ) * 2 ^ e ≤ 2 ^ (F + 1) * 2 ^ k := by
    by_contra hc
    push Not at hc
    rw [abs_of_nonpos (by linarith), abs_of_nonpos (by linarith)] at hh
    linarith
  have hke : k ≤ e := by
    by_contra hc
    push Not at hc
    have h1 : (m : ℚ) < 2 ^ (F + 1) := by exact_mod_cast hm
    have h2 : (2 : ℚ) ^ e ≤ 2 ^ (k - 1) := zpow_le_zpow_right₀ (by norm_num) (by omega)
    have h3 : (m : ℚ) * 2 ^ e < 2 ^ (F + 1) * 2 ^ (k - 1) :=
      lt_of_le_of_lt (mul_le_mul_of_nonneg_left h2 (by positivity)) (mul_lt_mul_of_pos_right h1 (two_zpow_pos _))
    rw [zpow_sub₀ (by norm_num), zpow_one, pow_succ, show (2 : ℚ) ^ F * 2 * (2 ^ k / 2) = 2 ^ F * 2 ^ k by ring] at h3
    linarith
  obtain ⟨d, hd⟩ : ∃ d : ℕ, e = k + d := ⟨(e - k).toNat, by omega⟩
  have hval : (m : ℚ) * 2 ^ e = (m * 2 ^ d : ℕ) * 2 ^ k := by
    rw [hd, zpow_add₀ (by norm_num), zpow_natCast]; push_cast; ring
  rw [hval] at w1 w2 hl hh
  have n1 : 2 ^ F ≤ m * 2 ^ d := by
    have := le_of_mul_le_mul_right w1 hk
    exact_mod_cast this
  have n2 : m * 2 ^ d ≤ 2 ^ (F + 1) := by
    have := le_of_mul_le_mul_right w2 hk
    exact_mod_cast this
  have hdist : ∀ j : ℚ, |q / 2 ^ k - j| = |q - j * 2 ^ k| / 2 ^ k := by
    intro j
    rw [show q / 2 ^ k - j = (q - j * 2 ^ k) / 2 ^ k by field_simp, abs_div, abs_of_pos hk]
  -- an integer outside of the binade is farther away than one of its ends
  have hout : ∀ j : ℤ, (∃ i : ℕ, (i : ℤ) = j ∧ 2 ^ F ≤ i ∧ i ≤ 2 ^ (F + 1)) ∨ |q - ((m * 2 ^ d : ℕ) : ℚ) * 2 ^ k| < |q - j * 2 ^ k| := by
    intro j
    rcases lt_or_ge j (2 ^ F) with c1 | c1
    · refine Or.inr (lt_of_le_of_lt hl ?_)
      have h1 : (j : ℚ) < 2 ^ F := by exact_mod_cast c1
      have h2 := mul_lt_mul_of_pos_right h1 hk
      rw [abs_of_nonneg (by linarith), abs_of_nonneg (by linarith)]
      linarith
    · rcases lt_or_ge ((2 : ℤ) ^ (F + 1)) j with c2 | c2
      · refine Or.inr (lt_of_le_of_lt hh ?_)
        have h1 : (2 : ℚ) ^ (F + 1) < j := by exact_mod_cast c2
        have h2 := mul_lt_mul_of_pos_right h1 hk
        rw [abs_of_nonpos (by linarith), abs_of_nonpos (by linarith)]
        linarith
      · have h0 : (0 : ℤ) < 2 ^ F := by positivity
        refine Or.inl ⟨j.toNat, by omega, ?_, ?_⟩
        · zify; rw [Int.toNat_of_nonneg (by omega)]; exact c1
        · zify; rw [Int.toNat_of_nonneg (by omega)]; exact c2
  refine ⟨hke, m * 2 ^ d, hval, n1, n2, fun j => ?_, fun j hj hne => ?_⟩
  · rw [Int.cast_natCast, hdist, hdist]
    refine div_le_div_of_nonneg_right ?_ hk.le
    rcases hout j with ⟨i, rfl, h1, h2⟩ | h
    · rw [← hval, Int.cast_natCast]; exact (hmin i h1 h2).1
    · exact h.le
  · rw [Int.cast_natCast, hdist, hdist, div_left_inj' hk.ne'] at hj
    rcases hout j with ⟨i, rfl, h1, h2⟩ | h
    · rw [← hval, Int.cast_natCast] at hj
      have he : Even m := by
        refine (hmin i h1 h2).2 hj ?_
        rw [hval]
        intro hc
        have := mul_right_cancel₀ hk.ne' hc
        exact hne (by exact_mod_cast this)
      exact_mod_cast he.mul_right _
    · exact absurd hj h.ne

/-- Taking an even integer away again. -/
theorem NearestInt.sub {x : ℚ} {n c : ℤ} (h : NearestInt (x + c) n) (hc : Even c) : NearestInt x (n - c) := by
  refine ⟨fun j => ?_, fun j hj hne => ?_⟩
  · have := h.1 (j + c)
    push_cast at this ⊢
    rwa [show x - (n - c : ℚ) = x + c - n by ring, show x - (j : ℚ) = x + c - (j + c) by ring]
  · have := h.2 (j + c) (by
      push_cast at hj ⊢
      rwa [show x - (n - c : ℚ) = x + c - n by ring, show x - (j : ℚ) = x + c - (j + c) by ring] at hj) (by omega)
    exact this.sub hc

end Thls
