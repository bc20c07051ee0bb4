import Verif.Model.Lzoc
import Verif.Proofs.Pack

/-! # The normalising shifter -/

namespace Thls

theorem lzoc_spec {WD : ℕ} : ∀ (WC x : ℕ), 2 ^ WC ≤ 2 * WD → x < 2 ^ WD → 2 ^ (WD - 2 ^ WC) ≤ x →
    ∃ c, lzoc? WD WC x = some (x * 2 ^ c, c) ∧ c < 2 ^ WC ∧ 2 ^ (WD - 1) ≤ x * 2 ^ c ∧ x * 2 ^ c < 2 ^ WD := by
  intro WC
  induction WC with
  | zero =>
    intro x _ hx hlo
    exact ⟨0, by simp [lzoc?], by simp, by simpa using hlo, by simpa using hx⟩
  | succ WC ih =>
    intro x hW hx hlo
    have hs : 2 ^ WC ≤ WD := by rw [pow_succ] at hW; omega
    have hs1 : 1 ≤ 2 ^ WC := Nat.one_le_two_pow
    have hhi : getBits (WD - 1) (WD - 2 ^ WC) x = x / 2 ^ (WD - 2 ^ WC) := by
      rw [getBits_top (by rwa [show WD - 1 + 1 = WD by omega]) (by omega)]
    rw [lzoc?, if_neg (by omega)]
    dsimp only
    rw [hhi]
    by_cases hb : x < 2 ^ (WD - 2 ^ WC)
    · have hd : x / 2 ^ (WD - 2 ^ WC) = 0 := Nat.div_eq_of_lt hb
      have hne : 2 ^ WC ≠ WD := by
        intro h
        rw [h, Nat.sub_self] at hb
        have : 0 < 2 ^ (WD - 2 ^ (WC + 1)) := by positivity
        omega
      have hlt : x * 2 ^ 2 ^ WC < 2 ^ WD := by
        have := (Nat.mul_lt_mul_right (a := 2 ^ 2 ^ WC) (by positivity)).mpr hb
        rwa [← pow_add, Nat.sub_add_cancel hs] at this
      have hge : 2 ^ (WD - 2 ^ WC) ≤ x * 2 ^ 2 ^ WC := by
        have h1 : 2 ^ (WD - 2 ^ (WC + 1)) * 2 ^ 2 ^ WC ≤ x * 2 ^ 2 ^ WC := Nat.mul_le_mul_right _ hlo
        rw [← pow_add] at h1
        refine le_trans (Nat.pow_le_pow_right (by norm_num) ?_) h1
        rw [pow_succ]; omega
      obtain ⟨c, h1, h2, h3, h4⟩ := ih (x * 2 ^ 2 ^ WC) (by omega) hlt hge
      have he : x * 2 ^ 2 ^ WC * 2 ^ c = x * 2 ^ (2 ^ WC + c) := by rw [pow_add]; ring
      refine ⟨2 ^ WC + c, ?_, by rw [pow_succ]; omega, by rwa [← he], by rwa [← he]⟩
      rw [hd, if_neg hne]
      simp only [decide_true, ↓reduceIte, Bool.toNat_true]
      rw [Nat.mod_eq_of_lt hlt, h1]
      dsimp only
      rw [he, concat, Nat.one_mul]
    · push Not at hb
      have hd : x / 2 ^ (WD - 2 ^ WC) ≠ 0 := by
        have := (Nat.le_div_iff_mul_le (k := 2 ^ (WD - 2 ^ WC)) (x := 1) (y := x) (by positivity)).mpr (by simpa using hb)
        omega
      obtain ⟨c, h1, h2, h3, h4⟩ := ih x (by omega) hx hb
      refine ⟨c, ?_, by rw [pow_succ]; omega, h3, h4⟩
      simp only [hd, decide_false, Bool.false_eq_true, ↓reduceIte, ite_self, Bool.toNat_false]
      rw [h1]
      simp [concat]

theorem lzoc_zero {WD : ℕ} : ∀ (WC : ℕ), 2 ^ WC ≤ 2 * WD → lzoc? WD WC 0 = some (0, 2 ^ WC - 1) := by
  intro WC
  induction WC with
  | zero => intro _; rfl
  | succ WC ih =>
    intro hW
    have hs : 2 ^ WC ≤ WD := by rw [pow_succ] at hW; omega
    have hs1 : 1 ≤ 2 ^ WC := Nat.one_le_two_pow
    have hg : ∀ a b, getBits a b 0 = 0 := by intro a b; simp [getBits]
    rw [lzoc?, if_neg (by omega)]
    simp only [hg, decide_true, ↓reduceIte, Nat.zero_mul, Nat.zero_mod, ite_self, Bool.toNat_true]
    rw [ih (by omega)]
    simp only [Option.some.injEq, Prod.mk.injEq, true_and]
    rw [concat, pow_succ]; omega

theorem intlog2_le_two_mul {n : ℕ} (h : n ≠ 0) : 2 ^ intlog2 n ≤ 2 * n := by
  obtain ⟨h1, -, h3⟩ := intlog2_spec h
  have : 2 ^ intlog2 n = 2 * 2 ^ (intlog2 n - 1) := by
    conv_lhs => rw [show intlog2 n = (intlog2 n - 1) + 1 by omega, pow_succ]
    ring
  omega

/-- With the count width the library uses. -/
theorem lzoc_norm {WD x : ℕ} (hWD : WD ≠ 0) (hx : x < 2 ^ WD) (h0 : x ≠ 0) :
    ∃ c, lzoc? WD (intlog2 WD) x = some (x * 2 ^ c, c) ∧ c < WD ∧ 2 ^ (WD - 1) ≤ x * 2 ^ c ∧ x * 2 ^ c < 2 ^ WD ∧
      c ≠ ones (intlog2 WD) := by
  obtain ⟨-, h2, -⟩ := intlog2_spec hWD
  obtain ⟨c, c1, -, c3, c4⟩ := lzoc_spec (intlog2 WD) x (intlog2_le_two_mul hWD) hx
    (by rw [Nat.sub_eq_zero_of_le h2.le, pow_zero]; omega)
  have hc : c < WD := by
    by_contra hc
    have h5 : 2 ^ WD ≤ 2 ^ c := Nat.pow_le_pow_right (by norm_num) (by omega)
    have h6 : 1 * 2 ^ c ≤ x * 2 ^ c := Nat.mul_le_mul_right _ (Nat.pos_of_ne_zero h0)
    omega
  exact ⟨c, c1, hc, c3, c4, by unfold ones; omega⟩

end Thls
