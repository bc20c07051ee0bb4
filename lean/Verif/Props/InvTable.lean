import Verif.Proofs.Double
import Verif.Proofs.InvDirect
import Verif.Props.TypeTest

/-! # C30: the tables of the reciprocal circuits are computed in `double`, and C85: what the checks of the type test demand -/

namespace Thls
open Spec

/-- **C30.** The quotient from which an entry of the tables is computed is the `double` quotient: `n/d` rounded to nearest, ties to even, for all
quotients from one half to one. -/
theorem C30_table_division {n d : ℕ} (hd : 0 < d) (hlo : d ≤ 2 * n) (hhi : n ≤ d) :
    RoundedBinary64 ((n : ℚ) / d) (.num ((Inv.divDouble n d : ℚ) * 2 ^ (-53 : ℤ))) := by
  have hdq : (0 : ℚ) < d := by exact_mod_cast hd
  have hn0 : 0 < n := by omega
  have hx : (0 : ℚ) < (n : ℚ) / d := div_pos (by exact_mod_cast hn0) hdq
  obtain ⟨q, hq⟩ : ∃ q, q = n * 2 ^ 53 / d := ⟨_, rfl⟩
  obtain ⟨r, hr⟩ : ∃ r, r = n * 2 ^ 53 % d := ⟨_, rfl⟩
  have hqr : d * q + r = n * 2 ^ 53 := by rw [hq, hr]; exact Nat.div_add_mod _ _
  have hrd : r < d := by rw [hr]; exact Nat.mod_lt _ hd
  have hw : (2 : ℚ) ^ (-53 : ℤ) = 1 / 2 ^ 53 := by norm_num
  have hval : (n : ℚ) / d = (q + (r : ℚ) / d) * 2 ^ (-53 : ℤ) := by
    have : ((d * q + r : ℕ) : ℚ) = ((n * 2 ^ 53 : ℕ) : ℚ) := by rw [hqr]
    push_cast at this
    rw [hw]
    field_simp
    linarith
  have hr0 : (0 : ℚ) ≤ (r : ℚ) / d := div_nonneg (by positivity) hdq.le
  have hr1 : (r : ℚ) / d < 1 := by rw [div_lt_one hdq]; exact_mod_cast hrd
  have hp : (0 : ℚ) < 2 ^ (-53 : ℤ) := two_zpow_pos _
  have key : ∃ m e, NearestBinary64 ((n : ℚ) / d) m e ∧ (m : ℚ) * 2 ^ e = (Inv.divDouble n d : ℚ) * 2 ^ (-53 : ℤ) ∧ 0 < m ∧ (m : ℚ) * 2 ^ e ≤ 1 := by
    rcases Nat.eq_or_lt_of_le hhi with h | h
    · subst h
      have h1 : Inv.divDouble n n = 2 ^ 53 := by
        unfold Inv.divDouble
        rw [Nat.mul_div_cancel_left _ hd, Nat.mul_mod_right]
        simp
      have := nearest64 (n := 2 ^ 52) (q := 2 ^ 52) (qe := -52) (x := (n : ℚ) / n) (Or.inl le_rfl) (by norm_num) (by norm_num)
        (by rw [div_self hdq.ne']; norm_num) (by rw [div_self hdq.ne']; norm_num)
        (Or.inl ⟨rfl, by rw [div_self hdq.ne']; norm_num, fun _ => by norm_num⟩)
      refine ⟨_, _, this, ?_, ?_, ?_⟩
      · rw [canon64_value, h1]; norm_num
      · unfold canon64; norm_num
      · rw [canon64_value]; norm_num
    · have hq1 : 2 ^ 52 ≤ q := by
        rw [hq, Nat.le_div_iff_mul_le hd]; omega
      have hq2 : q < 2 ^ 53 := by
        rw [hq, Nat.div_lt_iff_lt_mul hd]
        have := Nat.mul_lt_mul_of_pos_right h (show 0 < 2 ^ 53 by positivity)
        omega
      have hcase : (Inv.divDouble n d = q ∧ 2 * r ≤ d ∧ (2 * r = d → q % 2 = 0)) ∨ (Inv.divDouble n d = q + 1 ∧ d ≤ 2 * r ∧ (2 * r = d → q % 2 = 1)) := by
        have : Inv.divDouble n d = if 2 * r > d ∨ (2 * r = d ∧ q % 2 = 1) then q + 1 else q := by
          unfold Inv.divDouble; rw [hq, hr]
        rw [this]
        split_ifs with hc <;> omega
      have hhalf : (r : ℚ) / d ≤ 1 / 2 ↔ 2 * r ≤ d := by
        rw [div_le_iff₀ hdq]
        constructor
        · intro h'
          have : (2 * r : ℚ) ≤ d := by linarith
          exact_mod_cast this
        · intro h'
          have : (2 * r : ℚ) ≤ d := by exact_mod_cast h'
          linarith
      have hhalf' : (1 : ℚ) / 2 ≤ (r : ℚ) / d ↔ d ≤ 2 * r := by
        rw [le_div_iff₀ hdq]
        constructor
        · intro h'
          have : (d : ℚ) ≤ 2 * r := by linarith
          exact_mod_cast this
        · intro h'
          have : (d : ℚ) ≤ 2 * r := by exact_mod_cast h'
          linarith
      have := nearest64 (n := q) (q := Inv.divDouble n d) (qe := -53) (x := (n : ℚ) / d) (Or.inl hq1) hq2 (by norm_num)
        (by rw [hval]; exact mul_le_mul_of_nonneg_right (by linarith) hp.le)
        (by rw [hval]; exact mul_lt_mul_of_pos_right (by linarith) hp)
        (by
          rw [hval, show ((q : ℚ) + r / d) * 2 ^ (-53 : ℤ) - q * 2 ^ (-53 : ℤ) = (r / d) * 2 ^ (-53 : ℤ) by ring,
            show ((q : ℚ) + 1) * 2 ^ (-53 : ℤ) - (q + r / d) * 2 ^ (-53 : ℤ) = (1 - r / d) * 2 ^ (-53 : ℤ) by ring]
          refine hcase.imp (fun ⟨h1, h2, h3⟩ => ⟨h1, ?_, fun h4 => h3 ?_⟩) (fun ⟨h1, h2, h3⟩ => ⟨h1, ?_, fun h4 => h3 ?_⟩)
          · have := mul_le_mul_of_nonneg_right (hhalf.mpr h2) hp.le
            linarith
          · have h5 : (r : ℚ) / d = 1 / 2 := mul_right_cancel₀ hp.ne' (h4.trans (by ring))
            have := hhalf'.mp h5.ge
            omega
          · have := mul_le_mul_of_nonneg_right (hhalf'.mpr h2) hp.le
            linarith
          · have h5 : 1 - (r : ℚ) / d = 1 / 2 := mul_right_cancel₀ hp.ne' (h4.trans (by ring))
            have := hhalf.mp (by linarith)
            omega)
      refine ⟨_, _, this, canon64_value _ _, ?_, ?_⟩
      · unfold canon64
        split_ifs with hc
        · norm_num
        · rcases hcase with h | h <;> omega
      · rw [canon64_value]
        have : (Inv.divDouble n d : ℚ) ≤ 2 ^ 53 := by
          have : Inv.divDouble n d ≤ 2 ^ 53 := by rcases hcase with h | h <;> omega
          exact_mod_cast this
        rw [hw]
        linarith
  obtain ⟨m, e, hn, hv, hm, hle⟩ := key
  refine ⟨m, e, by rwa [abs_of_pos hx], ?_⟩
  have hbig : ¬ (2 : ℚ) ^ (1024 : ℤ) ≤ m * 2 ^ e := by
    have : (1 : ℚ) < 2 ^ (1024 : ℤ) := one_lt_zpow₀ (by norm_num) (by norm_num)
    exact fun h => absurd (lt_of_lt_of_le this (h.trans hle)) (lt_irrefl _)
  rw [if_neg (by omega), if_neg hbig, if_neg (not_lt.mpr hx.le), one_mul, hv]

/-- A tie occurs in this range: between `2^52` and `2^52 + 1` units. -/
example : Inv.divDouble (2 ^ 53 + 1) (2 ^ 54) = 2 ^ 52 ∧ Inv.divDouble (2 ^ 53 + 3) (2 ^ 54) = 2 ^ 52 + 2 := by decide +kernel

/-- **C85.** A check of the single precision part of the program passes exactly if the conversion succeeds, has the expected bits, and reads back as the
same number. -/
theorem C85_single_check_iff (bits : ℕ) (m : Mpfr) :
    TypeTest.singleCheck bits m = some true ↔ ∃ x, ofMpfr 8 23 false m = some x ∧ x.bits = bits ∧ Mpfr.cmp m (toMpfr x) = 0 := by
  unfold TypeTest.singleCheck TypeTest.cmpZero
  cases ofMpfr 8 23 false m with
  | none => simp
  | some x => simp

/-- A number with too many bits does not read back. -/
example : TypeTest.singleCheck 0b0100111111100000000000000000000000 (.num false (2 ^ 30 + 1) (-30)) ≠ some true := by
  decide +kernel

end Thls
