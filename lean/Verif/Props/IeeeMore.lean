import Verif.Model.IeeeMore
import Verif.Props.Ieee
import Verif.Props.Double

/-! # C51, C56 for the remaining members of `fp_ieee` -/

namespace Thls
open Spec

/-- **C51.** The predicates that combine a class with a sign; denormals count as zeros. -/
theorem C51_signed_classes {E F : ℕ} (hE : 2 ≤ E) (hF : 1 ≤ F) (x : Ieee E F) :
    (x.isPosNormal = true ↔ ∃ q, 0 < q ∧ ieeeRange E x.datum = .num q) ∧
    (x.isNegNormal = true ↔ ∃ q, q < 0 ∧ ieeeRange E x.datum = .num q) ∧
    (x.isPosZero = true ↔ ieeeRange E x.datum = .zero false) ∧ (x.isNegZero = true ↔ ieeeRange E x.datum = .zero true) ∧
    (x.isPosInf = true ↔ ieeeRange E x.datum = .inf false) ∧ (x.isNegInf = true ↔ ieeeRange E x.datum = .inf true) := by
  obtain ⟨cz, cn, ci, -, cs, cp⟩ := C51_classes hE hF x
  simp only [Ieee.isPosNormal, Ieee.isNegNormal, Ieee.isPosZero, Ieee.isNegZero, Ieee.isPosInf, Ieee.isNegInf, Bool.and_eq_true, cp,
    Bool.not_eq_true', cz, cn, ci]
  rw [← Bool.not_eq_true]
  cases hd : ieeeRange E x.datum with
  | nan => simp
  | zero s =>
    rw [hd] at cs
    rw [cs (by simp)]
    cases s <;> simp [Datum.isNeg]
  | inf s =>
    rw [hd] at cs
    rw [cs (by simp)]
    cases s <;> simp [Datum.isNeg]
  | num q =>
    have hq : q ≠ 0 := by
      rw [ieee_flushed (by omega) hF] at hd
      have hpos : (0 : ℚ) < ((2 ^ F + x.frac : ℕ) : ℚ) * 2 ^ ((x.exp : ℤ) - bias E - F) := sig_scaled_pos _ _ _
      split_ifs at hd
      all_goals
        simp only [Datum.num.injEq] at hd
        intro h0
        rw [h0] at hd
        linarith
    rw [hd] at cs
    rw [cs (by simp)]
    simp only [Datum.isNeg, decide_eq_true_eq, Datum.num.injEq, exists_eq', and_true, not_lt, reduceCtorEq, exists_false, and_false,
      exists_eq_right']
    exact ⟨fun h => lt_of_le_of_ne h (Ne.symm hq), le_of_lt⟩

/-- Non-vacuity: a positive number, a denormal that counts as a negative zero, an infinity. -/
example : (Ieee.mk3 5 10 0 15 3).isPosNormal = true ∧ (Ieee.mk3 5 10 1 0 3).isNegZero = true ∧
    (Ieee.mk3 5 10 1 31 0).isNegInf = true ∧ (Ieee.mk3 5 10 1 31 1).isNegInf = false := by decide

/-- **C56.** `to_double_approx` of the IEEE type rounds every number to the nearest double, ties to even, with gradual underflow and
overflow to infinity; it keeps zeros, infinities and NaN; denormals count as zeros. -/
theorem C56_ieee_to_double_approx {E F : ℕ} (hE : 2 ≤ E) (hF : 1 ≤ F) (x : Ieee E F) :
    (∀ v, ieeeRange E x.datum = .num v → RoundedBinary64 v x.toDoubleApprox.datum) ∧
      ((∀ v, ieeeRange E x.datum ≠ .num v) → x.toDoubleApprox.datum = ieeeRange E x.datum) := by
  have hm := C51_to_mpfr hE hF x
  unfold Ieee.toDoubleApprox
  rw [← hm]
  have hq : (IeeeLimits.quietNaN 11 52).datum = .nan := by decide +kernel
  have hi0 : (IeeeLimits.infinity 11 52).datum = .inf false := by decide +kernel
  have hi1 : (IeeeLimits.negInfinity 11 52).datum = .inf true := by decide +kernel
  have hz0 : (IeeeLimits.posZero 11 52).datum = .zero false := by decide +kernel
  have hz1 : (IeeeLimits.negZero 11 52).datum = .zero true := by decide +kernel
  cases h : x.toMpfr with
  | nan => exact ⟨fun v hv => (by cases hv), fun _ => hq⟩
  | inf s => cases s
             · exact ⟨fun v hv => (by cases hv), fun _ => hi0⟩
             · exact ⟨fun v hv => (by cases hv), fun _ => hi1⟩
  | zero s => cases s
              · exact ⟨fun v hv => (by cases hv), fun _ => hz0⟩
              · exact ⟨fun v hv => (by cases hv), fun _ => hz1⟩
  | num s m e =>
    refine ⟨fun v hv => ?_, fun hne => absurd rfl (hne _)⟩
    have hm0 : 0 < m := by
      unfold Ieee.toMpfr at h
      split_ifs at h
      simp only [Mpfr.num.injEq] at h
      have : 0 < 2 ^ F := by positivity
      omega
    have := dblRound_rounded hm0 s e
    simp only [Mpfr.datum, Datum.num.injEq] at hv
    rw [← hv]
    exact this

/-- **C56.** For IEEE formats of at most 11 exponent and 52 fraction bits, `to_double_approx` is exact but for denormals. -/
theorem C56_ieee_to_double_approx_exact {E F : ℕ} (hE : 2 ≤ E) (hE' : E ≤ 11) (hF : 1 ≤ F) (hF' : F ≤ 52) (x : Ieee E F) :
    x.toDoubleApprox.datum = ieeeRange E x.datum := by
  obtain ⟨h1, h2⟩ := C56_ieee_to_double_approx hE hF x
  cases hd : ieeeRange E x.datum with
  | num v =>
    have hv := hd
    rw [ieee_flushed (by omega) hF] at hv
    have hpos : (0 : ℚ) < ((2 ^ F + x.frac : ℕ) : ℚ) * 2 ^ ((x.exp : ℤ) - bias E - F) := sig_scaled_pos _ _ _
    have hf := x.frac_lt hF
    have he := x.exp_lt (by omega : 1 ≤ E)
    have hE2 : 2 ^ E ≤ 2 ^ 11 := Nat.pow_le_pow_right (by norm_num) hE'
    have hF2 : 2 ^ F ≤ 2 ^ 52 := Nat.pow_le_pow_right (by norm_num) hF'
    have hb : bias E ≤ 1023 ∧ (2 : ℤ) ^ E = 2 * bias E + 2 := by
      refine ⟨?_, by have := two_bias (by omega : 1 ≤ E); exact this.1⟩
      have : (2 : ℤ) ^ (E - 1) ≤ 2 ^ 10 := pow_le_pow_right₀ (by norm_num) (by omega)
      unfold bias
      norm_num at this
      omega
    by_cases e1 : x.exp = 0
    · rw [if_pos e1] at hv; cases hv
    by_cases e2 : x.exp = 2 ^ E - 1
    · rw [if_neg e1, if_pos e2] at hv; split_ifs at hv <;> cases hv
    rw [if_neg e1, if_neg e2] at hv
    have hE3 : ((2 : ℕ) ^ E : ℤ) = 2 * bias E + 2 := by exact_mod_cast hb.2
    have hlo : (x.exp : ℤ) < 2 * bias E + 1 := by
      rw [← hb.2.symm.trans hb.2] at hE3
      omega
    have hv' := Datum.num.inj hv
    obtain ⟨s1, s2⟩ := sig_bounds hf ((x.exp : ℤ) - bias E)
    refine rounded64_self (q := v) (m' := 2 ^ F + x.frac) (e' := (x.exp : ℤ) - bias E - F) ?_ ⟨by omega, by omega⟩ ?_ ?_ (h1 v hd)
    · intro h0
      have := dbl_abs (s := x.sign) hpos
      rw [hv', h0, abs_zero] at this
      linarith
    · rw [← hv', dbl_abs hpos]
    · rw [← hv', dbl_abs hpos]
      exact lt_of_lt_of_le s2 (zpow_le_zpow_right₀ (by norm_num) (by omega))
  | nan => rw [h2 (by rw [hd]; exact fun v h => by cases h), hd]
  | inf s => rw [h2 (by rw [hd]; exact fun v h => by cases h), hd]
  | zero s => rw [h2 (by rw [hd]; exact fun v h => by cases h), hd]

/-- Non-vacuity: -1.5 of the half precision format as a double; a denormal gives a zero. -/
example : (Ieee.mk3 5 10 1 15 512).toDoubleApprox = Ieee.mk3 11 52 1 1023 (2 ^ 51) ∧
    (Ieee.mk3 5 10 1 0 512).toDoubleApprox = Ieee.mk3 11 52 1 0 0 := by decide +kernel

end Thls
