import Verif.Proofs.Ref
import Verif.Proofs.Mono
import Verif.Proofs.Ieee
import Verif.SpecLoops
import Mathlib.Tactic.Linarith
import Mathlib.Tactic.Positivity
import Mathlib.Tactic.Ring

/-! # Error of one correctly rounded operation -/

namespace Thls

open Spec

theorem uro_pos (F : ℕ) : 0 < uro F := two_zpow_pos _

theorem uro_le (F : ℕ) : uro F ≤ 1 / 2 := by
  have : (2 : ℚ) ^ (-(F : ℤ) - 1) ≤ 2 ^ (-1 : ℤ) := zpow_le_zpow_right₀ (by norm_num) (by omega)
  unfold uro
  norm_num at this ⊢
  exact this

theorem nearest_err {F m : ℕ} {e : ℤ} {a : ℚ} (ha : 0 < a) (h : NearestEven (F + 1) a m e) :
    |a - m * 2 ^ e| ≤ uro F * a := by
  obtain ⟨b1, b2, b3⟩ := Mpfr.scaled_bounds (p := F + 1) (by omega) ha
  obtain ⟨hs, l1, l2⟩ := Mpfr.floor_sig (p := F + 1) (by omega) ha
  obtain ⟨n1, n2, -⟩ := Mpfr.succSig_spec (by omega) (Mpfr.ulpExp (F + 1) a) hs
  have h1 := h.2.1 _ (Mpfr.ulpExp (F + 1) a) hs
  have h2 := h.2.1 _ (Mpfr.succSig (F + 1) ⌊Mpfr.scaled (F + 1) a⌋.toNat (Mpfr.ulpExp (F + 1) a)).2 n1
  rw [n2] at h2
  generalize ((⌊Mpfr.scaled (F + 1) a⌋.toNat : ℕ) : ℚ) = k at *
  generalize Mpfr.scaled (F + 1) a = t at *
  have hu := two_zpow_pos (Mpfr.ulpExp (F + 1) a)
  generalize (2 : ℚ) ^ (Mpfr.ulpExp (F + 1) a) = w at *
  have e1 : |a - k * w| = (t - k) * w := by
    rw [b3, ← sub_mul, abs_of_nonneg (mul_nonneg (by linarith) hu.le)]
  have e2 : |a - (k + 1) * w| = (k + 1 - t) * w := by
    rw [b3, ← sub_mul, abs_of_nonpos (mul_nonpos_of_nonpos_of_nonneg (by linarith) hu.le)]
    ring
  rw [e1] at h1
  rw [e2] at h2
  have e3 : uro F * a = uro F * t * w := by rw [mul_assoc, ← b3]
  have e4 : (1 : ℚ) / 2 ≤ uro F * t := by
    have : uro F * 2 ^ F ≤ uro F * t := by
      apply mul_le_mul_of_nonneg_left _ (uro_pos F).le
      simpa using b1
    have e5 : uro F * 2 ^ F = 1 / 2 := by
      unfold uro
      rw [← zpow_natCast, ← zpow_add₀ (by norm_num), show -(F : ℤ) - 1 + F = -1 by ring]
      norm_num
    linarith
  have e6 : 1 / 2 * w ≤ uro F * t * w := mul_le_mul_of_nonneg_right e4 hu.le
  rw [e3]
  linarith

theorem rangeCheck_fin {E F m : ℕ} {e : ℤ} {neg : Bool} {s : ℚ} (h : (rangeCheck E F neg m e).fin = some s) :
    (e + F + bias E < 0 ∧ s = 0) ∨
    (0 ≤ e + F + bias E ∧ e + F + bias E < 2 ^ E ∧ s = (if neg then -1 else 1) * ((m : ℚ) * 2 ^ e)) := by
  unfold rangeCheck at h
  by_cases h1 : e + F + bias E < 0
  · rw [if_pos h1] at h
    simp only [Datum.fin, Option.some.injEq] at h
    exact Or.inl ⟨h1, h.symm⟩
  · rw [if_neg h1] at h
    by_cases h2 : 2 ^ E ≤ e + F + bias E
    · rw [if_pos h2] at h; simp [Datum.fin] at h
    · rw [if_neg h2] at h
      simp only [Datum.fin, Option.some.injEq] at h
      exact Or.inr ⟨by omega, by omega, h.symm⟩

theorem sig_upper {F m : ℕ} (hm : IsSig (F + 1) m) (e : ℤ) : (m : ℚ) * 2 ^ e < 2 ^ (e + F + 1) := by
  have h1 : (m : ℚ) < 2 ^ (F + 1) := by exact_mod_cast hm.2
  have h2 := mul_lt_mul_of_pos_right h1 (two_zpow_pos e)
  rwa [← zpow_natCast, ← zpow_add₀ (by norm_num), show ((F + 1 : ℕ) : ℤ) + e = e + F + 1 by push_cast; ring] at h2

theorem sig_lower {F m : ℕ} (hm : IsSig (F + 1) m) (e : ℤ) : (2 : ℚ) ^ (e + F) ≤ (m : ℚ) * 2 ^ e := by
  have h1 : (2 : ℚ) ^ F ≤ m := by exact_mod_cast hm.1
  have h2 := mul_le_mul_of_nonneg_right h1 (two_zpow_pos e).le
  rwa [← zpow_natCast, ← zpow_add₀ (by norm_num), show (F : ℤ) + e = e + F by ring] at h2

theorem signed_dist (q t : ℚ) : |(if decide (q < 0) then -1 else 1) * t - q| = |(|q| - t)| := by
  by_cases h : q < 0
  · simp only [h, decide_true, if_true]
    rw [abs_of_neg h]; congr 1; ring
  · simp only [h, decide_false]
    rw [abs_of_nonneg (not_lt.mp h), abs_sub_comm]
    congr 1
    simp

theorem rounded_err {E F : ℕ} {q s : ℚ} {d : Datum} (hq : q ≠ 0) (h : Rounded E F q d) (hs : d.fin = some s) :
    |s - q| ≤ uro F * |q| + minPos E := by
  obtain ⟨m, e, hn, rfl⟩ := h
  have hp : 0 < minPos E := two_zpow_pos (-bias E)
  have ha := nearest_err (abs_pos.mpr hq) hn
  rcases rangeCheck_fin hs with ⟨h1, rfl⟩ | ⟨-, -, rfl⟩
  · have h2 := sig_upper hn.1 e
    have h3 : (2 : ℚ) ^ (e + F + 1) ≤ minPos E := zpow_le_zpow_right₀ (by norm_num) (by omega)
    have h4 := (abs_le.mp ha).2
    rw [zero_sub, abs_neg]
    linarith
  · rw [signed_dist]; linarith

theorem rounded0_err {E F : ℕ} {q s : ℚ} {d : Datum} (h : Rounded0 E F q d) (hs : d.fin = some s) :
    |s - q| ≤ uro F * |q| + minPos E := by
  unfold Rounded0 at h
  by_cases hq : q = 0
  · rw [if_pos hq] at h
    obtain ⟨t, rfl⟩ := h
    simp only [Datum.fin, Option.some.injEq] at hs
    subst hs; subst hq
    have : 0 < minPos E := two_zpow_pos (-bias E)
    simpa using this.le
  · rw [if_neg hq] at h; exact rounded_err hq h hs

theorem maxFin_sig (F : ℕ) : IsSig (F + 1) (2 ^ (F + 1) - 1) := by
  have : 0 < 2 ^ F := by positivity
  constructor
  · rw [Nat.add_sub_cancel, pow_succ]; omega
  · rw [pow_succ]; omega

theorem rounded_finite {E F : ℕ} (hE : 1 ≤ E) {q : ℚ} {d : Datum} (h : Rounded E F q d) (hb : |q| ≤ maxFin E F) :
    ∃ s, d.fin = some s ∧ |s| ≤ maxFin E F := by
  obtain ⟨m, e, hn, rfl⟩ := h
  have h1 := hn.2.1 _ (bias E + 1 - F) (maxFin_sig F)
  rw [show ((2 ^ (F + 1) - 1 : ℕ) : ℚ) * 2 ^ (bias E + 1 - F) = maxFin E F from rfl] at h1
  have h2 : (m : ℚ) * 2 ^ e ≤ maxFin E F := by
    rw [abs_sub_comm |q| (maxFin E F), abs_of_nonneg (show 0 ≤ maxFin E F - |q| by linarith)] at h1
    have := (abs_le.mp h1).1
    linarith
  have h3 := sig_lower hn.1 e
  have h4 := sig_upper (maxFin_sig F) (bias E + 1 - F)
  rw [show ((2 ^ (F + 1) - 1 : ℕ) : ℚ) * 2 ^ (bias E + 1 - F) = maxFin E F from rfl] at h4
  have h5 : e + F < bias E + 1 - F + F + 1 := (zpow_lt_zpow_iff_right₀ (a := (2 : ℚ)) (by norm_num)).mp (by linarith)
  have hbE := two_bias hE
  have hm0 : (0 : ℚ) ≤ m * 2 ^ e := mul_nonneg (by positivity) (two_zpow_pos e).le
  unfold rangeCheck
  by_cases c1 : e + F + bias E < 0
  · rw [if_pos c1]; exact ⟨0, rfl, by rw [abs_zero]; linarith⟩
  · rw [if_neg c1, if_neg (by omega)]
    refine ⟨_, rfl, ?_⟩
    rw [abs_mul, abs_of_nonneg hm0]
    split_ifs <;> simpa using h2

theorem rounded0_finite {E F : ℕ} (hE : 1 ≤ E) {q : ℚ} {d : Datum} (h : Rounded0 E F q d) (hb : |q| ≤ maxFin E F) :
    ∃ s, d.fin = some s := by
  unfold Rounded0 at h
  by_cases hq : q = 0
  · rw [if_pos hq] at h; obtain ⟨t, rfl⟩ := h; exact ⟨0, rfl⟩
  · rw [if_neg hq] at h
    obtain ⟨s, hs, -⟩ := rounded_finite hE h hb
    exact ⟨s, hs⟩

/-- A representable number in range is rounded to itself. -/
theorem rounded_exact {E F : ℕ} (hE : 1 ≤ E) {q : ℚ} {d : Datum} (hq : q ≠ 0) (h : Rounded E F q d) {m' : ℕ} {e' : ℤ}
    (hm : IsSig (F + 1) m') (hv : |q| = m' * 2 ^ e') (h1 : 0 ≤ e' + F + bias E) (h2 : e' + F + bias E < 2 ^ E) : d = .num q := by
  obtain ⟨m, e, hn, rfl⟩ := h
  have h3 := hn.2.1 m' e' hm
  rw [hv, sub_self, abs_zero] at h3
  have h4 : (m : ℚ) * 2 ^ e = m' * 2 ^ e' := by
    have := abs_eq_zero.mp (le_antisymm h3 (abs_nonneg _)); linarith
  have l := sig_lower hn.1 e
  have u := sig_upper hn.1 e
  have l' := sig_lower hm e'
  have u' := sig_upper hm e'
  have h5 : e + F < e' + F + 1 := (zpow_lt_zpow_iff_right₀ (a := (2 : ℚ)) (by norm_num)).mp (by linarith)
  have h6 : e' + F < e + F + 1 := (zpow_lt_zpow_iff_right₀ (a := (2 : ℚ)) (by norm_num)).mp (by linarith)
  have : e = e' := by omega
  unfold rangeCheck
  rw [if_neg (by omega), if_neg (by omega), h4, ← hv]
  congr 1
  by_cases h : q < 0
  · simp only [h, decide_true, if_true, abs_of_neg h]; ring
  · simp only [h, decide_false]
    rw [abs_of_nonneg (not_lt.mp h)]; simp

end Thls
