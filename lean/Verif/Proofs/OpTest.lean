import Verif.Model.OpTest
import Verif.SpecOpTest
import Verif.Proofs.RefAgree
import Verif.Proofs.Policy
import Verif.Proofs.Mono
import Verif.Proofs.PolicyOps

/-! Lemmas for C77 and C78: the test inputs and the checks of the operator tests. -/

namespace Thls
open Spec

namespace Mpfr

/-- The `F+1`-bit number with index `k`: `2^F` numbers to a binade, counted from `2^F * 2^0`. -/
def at_ (s : Bool) (F : ℕ) (k : ℤ) : Mpfr := .num s (2 ^ F + (k % 2 ^ F).toNat) (k / 2 ^ F)

theorem at_eq (s : Bool) {F i : ℕ} (c : ℤ) (hi : i < 2 ^ F) : at_ s F (c * 2 ^ F + i) = .num s (2 ^ F + i) c := by
  have hp : (0 : ℤ) < 2 ^ F := by positivity
  have hi' : (i : ℤ) < 2 ^ F := by exact_mod_cast hi
  have h1 : (c * 2 ^ F + i) / 2 ^ F = c := by
    rw [add_comm, Int.add_mul_ediv_right _ _ hp.ne', Int.ediv_eq_zero_of_lt (by omega) hi', zero_add]
  have h2 : (c * 2 ^ F + i) % 2 ^ F = i := by
    rw [add_comm, Int.add_mul_emod_self_right, Int.emod_eq_of_lt (by omega) hi']
  rw [at_, h1, h2]
  simp

/-- Every `F+1`-bit number has an index. -/
theorem eq_at (s : Bool) {F m : ℕ} (e : ℤ) (hm : IsSig (F + 1) m) : Mpfr.num s m e = at_ s F (e * 2 ^ F + ((m - 2 ^ F : ℕ) : ℤ)) := by
  obtain ⟨h1, h2⟩ := hm
  rw [Nat.add_sub_cancel] at h1
  rw [pow_succ] at h2
  rw [at_eq s e (by omega), show 2 ^ F + (m - 2 ^ F) = m by omega]

theorem flip_at (s : Bool) (F : ℕ) (k : ℤ) : (at_ s F k).flip = at_ (!s) F k := rfl

theorem isSig_at (F : ℕ) (k : ℤ) : IsSig (F + 1) (2 ^ F + (k % 2 ^ F).toNat) := by
  have hp : (0 : ℤ) < 2 ^ F := by positivity
  have h := Int.emod_lt_of_pos k hp
  have h0 := Int.emod_nonneg k hp.ne'
  have h1 : (k % 2 ^ F).toNat < 2 ^ F := by
    have : (((k % 2 ^ F).toNat : ℕ) : ℤ) < ((2 ^ F : ℕ) : ℤ) := by push_cast; omega
    exact_mod_cast this
  exact ⟨by simp, by rw [pow_succ]; omega⟩

theorem index_split (F : ℕ) (k : ℤ) : ∃ (c : ℤ) (i : ℕ), i < 2 ^ F ∧ k = c * 2 ^ F + i ∧ c = k / 2 ^ F := by
  have hp : (0 : ℤ) < 2 ^ F := by positivity
  have h := Int.emod_lt_of_pos k hp
  have h0 := Int.emod_nonneg k hp.ne'
  refine ⟨k / 2 ^ F, (k % 2 ^ F).toNat, ?_, ?_, rfl⟩
  · have : (((k % 2 ^ F).toNat : ℕ) : ℤ) < ((2 ^ F : ℕ) : ℤ) := by push_cast; omega
    exact_mod_cast this
  · have := Int.mul_ediv_add_emod k (2 ^ F)
    rw [Int.toNat_of_nonneg h0]; linarith

theorem succSig_at {F i : ℕ} (c : ℤ) (hi : i < 2 ^ F) :
    Mpfr.num false (succSig (F + 1) (2 ^ F + i) c).1 (succSig (F + 1) (2 ^ F + i) c).2 = at_ false F (c * 2 ^ F + i + 1) := by
  have hp : 0 < 2 ^ F := by positivity
  unfold succSig
  rw [pow_succ, Nat.add_sub_cancel]
  by_cases h : i + 1 = 2 ^ F
  · rw [if_pos (by omega)]
    have := at_eq false (F := F) (i := 0) (c + 1) hp
    rw [show (c + 1) * 2 ^ F + ((0 : ℕ) : ℤ) = c * 2 ^ F + i + 1 by
      have : ((i : ℤ) + 1) = 2 ^ F := by exact_mod_cast h
      push_cast; linarith] at this
    rw [this]
    simp
  · rw [if_neg (by omega)]
    have := at_eq false (F := F) (i := i + 1) c (by omega)
    rw [show c * 2 ^ F + ((i + 1 : ℕ) : ℤ) = c * 2 ^ F + i + 1 by push_cast; ring] at this
    rw [this, Nat.add_assoc]

theorem predSig_at {F i : ℕ} (c : ℤ) (hi : i < 2 ^ F) :
    Mpfr.num true (predSig (F + 1) (2 ^ F + i) c).1 (predSig (F + 1) (2 ^ F + i) c).2 = at_ true F (c * 2 ^ F + i - 1) := by
  have hp : 0 < 2 ^ F := by positivity
  unfold predSig
  rw [pow_succ, Nat.add_sub_cancel]
  by_cases h : i = 0
  · subst h
    rw [if_pos (by omega)]
    have := at_eq true (F := F) (i := 2 ^ F - 1) (c - 1) (by omega)
    rw [show (c - 1) * 2 ^ F + ((2 ^ F - 1 : ℕ) : ℤ) = c * 2 ^ F + ((0 : ℕ) : ℤ) - 1 by
      rw [Nat.cast_sub (by omega)]; push_cast; ring] at this
    rw [this, show 2 ^ F * 2 - 1 = 2 ^ F + (2 ^ F - 1) by omega]
  · rw [if_neg (by omega)]
    have := at_eq true (F := F) (i := i - 1) c (by omega)
    rw [show c * 2 ^ F + ((i - 1 : ℕ) : ℤ) = c * 2 ^ F + i - 1 by rw [Nat.cast_sub (by omega)]; push_cast; ring] at this
    rw [this, show 2 ^ F + i - 1 = 2 ^ F + (i - 1) by omega]

theorem nextAbove_at {F : ℕ} {k : ℤ} (h : (k + 1) / 2 ^ F + F + 1 ≤ emax) :
    nextAbove (F + 1) (at_ false F k) = at_ false F (k + 1) := by
  obtain ⟨c, i, hi, rfl, -⟩ := index_split F k
  have hs := succSig_at c hi
  have h2 : (succSig (F + 1) (2 ^ F + i) c).2 = (c * 2 ^ F + i + 1) / 2 ^ F := by
    rw [at_] at hs; exact (Mpfr.num.inj hs).2.2
  rw [at_eq _ c hi]
  simp only [nextAbove]
  rw [if_neg, hs]
  rw [h2]; push_cast; omega

theorem nextAbove_at_neg {F : ℕ} {k : ℤ} (h : emin ≤ (k - 1) / 2 ^ F + F + 1) :
    nextAbove (F + 1) (at_ true F k) = at_ true F (k - 1) := by
  obtain ⟨c, i, hi, rfl, -⟩ := index_split F k
  have hs := predSig_at c hi
  have h2 : (predSig (F + 1) (2 ^ F + i) c).2 = (c * 2 ^ F + i - 1) / 2 ^ F := by
    rw [at_] at hs; exact (Mpfr.num.inj hs).2.2
  rw [at_eq _ c hi]
  simp only [nextAbove]
  rw [if_neg, hs]
  rw [h2]; push_cast; omega

theorem nextBelow_at {F : ℕ} {k : ℤ} (h : emin ≤ (k - 1) / 2 ^ F + F + 1) :
    nextBelow (F + 1) (at_ false F k) = at_ false F (k - 1) := by
  rw [nextBelow, flip_at, Bool.not_false, nextAbove_at_neg h, flip_at, Bool.not_true]

theorem nextBelow_at_neg {F : ℕ} {k : ℤ} (h : (k + 1) / 2 ^ F + F + 1 ≤ emax) :
    nextBelow (F + 1) (at_ true F k) = at_ true F (k + 1) := by
  rw [nextBelow, flip_at, Bool.not_true, nextAbove_at h, flip_at, Bool.not_false]

theorem iterate_above {F : ℕ} {k : ℤ} (i : ℕ) (h : (k + i) / 2 ^ F + F + 1 ≤ emax) :
    (nextAbove (F + 1))^[i] (at_ false F k) = at_ false F (k + i) := by
  induction i with
  | zero => simp
  | succ i ih =>
    have hp : (0 : ℤ) < 2 ^ F := by positivity
    have hm : (k + i) / 2 ^ F ≤ (k + (i + 1 : ℕ)) / 2 ^ F := Int.ediv_le_ediv hp (by push_cast; omega)
    rw [Function.iterate_succ_apply', ih (by omega), nextAbove_at (by
      rw [show k + (i : ℤ) + 1 = k + (i + 1 : ℕ) by push_cast; ring]; exact h)]
    congr 1; push_cast; ring

theorem iterate_below {F : ℕ} {k : ℤ} (i : ℕ) (h : emin ≤ (k - i) / 2 ^ F + F + 1) :
    (nextBelow (F + 1))^[i] (at_ false F k) = at_ false F (k - i) := by
  induction i with
  | zero => simp
  | succ i ih =>
    have hp : (0 : ℤ) < 2 ^ F := by positivity
    have hm : (k - (i + 1 : ℕ)) / 2 ^ F ≤ (k - i) / 2 ^ F := Int.ediv_le_ediv hp (by push_cast; omega)
    rw [Function.iterate_succ_apply', ih (by omega), nextBelow_at (by
      rw [show k - (i : ℤ) - 1 = k - (i + 1 : ℕ) by push_cast; ring]; exact h)]
    congr 1; push_cast; ring

end Mpfr

/-- A number is written in one way. -/
theorem sig_eq_of_value {p m m' : ℕ} {e e' : ℤ} (hp : 1 ≤ p) (hm : IsSig p m) (hm' : IsSig p m')
    (h : (m : ℚ) * 2 ^ e = m' * 2 ^ e') : m = m' ∧ e = e' := by
  have he : e = e' := le_antisymm (sig_exp_le hp hm hm' h.le) (sig_exp_le hp hm' hm h.ge)
  subst he
  exact ⟨by exact_mod_cast mul_right_cancel₀ (two_zpow_pos e).ne' h, rfl⟩

/-- Rounding a number that fits. -/
theorem rndn_eq {F m : ℕ} (hF : 1 ≤ F) {e : ℤ} {v : ℚ} (hm : IsSig (F + 1) m) (hv : (m : ℚ) * 2 ^ e = v) :
    Mpfr.rndn (F + 1) v = .num false m e := by
  have hm0 : (0 : ℚ) < m := by exact_mod_cast sig_pos hm
  have h0 : 0 < v := by rw [← hv]; exact mul_pos hm0 (two_zpow_pos e)
  have hn := Mpfr.rndnPos_spec (p := F + 1) (by omega) (abs_pos.mpr h0.ne')
  rw [Mpfr.rndn, if_neg h0.ne', decide_eq_false (by linarith)]
  rw [abs_of_pos h0] at hn ⊢
  have h2 := hn.2.1 m e hm
  rw [hv, sub_self, abs_zero] at h2
  have h3 := abs_nonpos_iff.mp h2
  obtain ⟨a, b⟩ := sig_eq_of_value (by omega) hn.1 hm (by rw [hv]; linarith)
  rw [a, b]

theorem toMpfr_num {E F : ℕ} (hF : 1 ≤ F) {x : Fp E F} {v : ℚ} (hx : x.datum = .num v) :
    toMpfr x = Mpfr.at_ (decide (v < 0)) F ((x.exp : ℤ) * 2 ^ F + x.frac - (F + bias E) * 2 ^ F) := by
  obtain ⟨h1, h2⟩ := datum_num_iff.mp hx
  have hf := x.frac_lt hF
  have hs := x.sign_lt
  rw [show (x.exp : ℤ) * 2 ^ F + x.frac - (F + bias E) * 2 ^ F = ((x.exp : ℤ) - F - bias E) * 2 ^ F + x.frac by ring,
    Mpfr.at_eq _ _ hf, toMpfr, if_neg (by omega), if_neg (by omega), if_neg (by omega), ← pow_bias]
  have hp := sig_scaled_pos F x.frac ((x.exp : ℤ) - bias E - F)
  congr 1
  obtain h | h : x.sign = 0 ∨ x.sign = 1 := by omega
  · rw [h, if_neg (by decide), one_mul] at h2
    rw [h, decide_eq_false (by rw [h2]; linarith)]; rfl
  · rw [h, if_pos rfl] at h2
    rw [h, decide_eq_true (by rw [h2]; linarith)]; rfl

end Thls
