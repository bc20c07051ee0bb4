import Verif.SpecOrder
import Verif.Props.Mul
import Verif.Props.Add
import Verif.Props.Div

/-! Lemmas for C44 and C45: monotonicity of rounding, rounding of negated numbers. -/

namespace Thls
open Spec

theorem sig_exp_le {p m m' : ℕ} {e e' : ℤ} (hp : 1 ≤ p) (hm : IsSig p m) (hm' : IsSig p m')
    (h : (m : ℚ) * 2 ^ e ≤ m' * 2 ^ e') : e ≤ e' := by
  by_contra hc
  push Not at hc
  have h1 : (2 : ℚ) ^ (e' + 1) ≤ 2 ^ e := zpow_le_zpow_right₀ (by norm_num) (by omega)
  rw [two_zpow_succ] at h1
  have h2 : ((2 : ℚ) ^ (p - 1)) ≤ m := by exact_mod_cast hm.1
  have h3 : (m' : ℚ) + 1 ≤ 2 ^ p := by exact_mod_cast hm'.2
  have h4 : (2 : ℚ) ^ p = 2 * 2 ^ (p - 1) := by
    obtain ⟨q, rfl⟩ := Nat.exists_eq_add_of_le' hp
    rw [pow_succ]; simp; ring
  have h5 := two_zpow_pos e'
  have h6 : (0 : ℚ) < 2 ^ (p - 1) := by positivity
  have h7 : (2 : ℚ) ^ (p - 1) * (2 * 2 ^ e') ≤ m * 2 ^ e :=
    mul_le_mul h2 h1 (by positivity) (le_trans h6.le h2)
  nlinarith

theorem nearest_mono {p m m' : ℕ} {e e' : ℤ} {x y : ℚ} (hp : 1 ≤ p) (hxy : x ≤ y)
    (h : NearestEven p x m e) (h' : NearestEven p y m' e') : (m : ℚ) * 2 ^ e ≤ m' * 2 ^ e' := by
  by_contra hc
  push Not at hc
  have h1 := h.2.1 m' e' h'.1
  have h2 := h'.2.1 m e h.1
  have a1 : (m : ℚ) * 2 ^ e + m' * 2 ^ e' ≤ 2 * x := by
    rcases abs_cases (x - m * 2 ^ e) with ⟨p1, p2⟩ | ⟨p1, p2⟩ <;>
    rcases abs_cases (x - m' * 2 ^ e') with ⟨q1, q2⟩ | ⟨q1, q2⟩ <;> linarith
  have a2 : 2 * y ≤ (m : ℚ) * 2 ^ e + m' * 2 ^ e' := by
    rcases abs_cases (y - m * 2 ^ e) with ⟨p1, p2⟩ | ⟨p1, p2⟩ <;>
    rcases abs_cases (y - m' * 2 ^ e') with ⟨q1, q2⟩ | ⟨q1, q2⟩ <;> linarith
  have : x = y := by linarith
  subst this
  obtain ⟨rfl, rfl⟩ := nearest_unique hp h h'
  exact lt_irrefl _ hc

theorem le_neg {a b : Datum} : a.Le b ↔ b.neg.Le a.neg := by
  rcases a with _ | s | s | p <;> rcases b with _ | t | t | q <;> (try cases s) <;> (try cases t) <;>
    simp [Datum.Le, Datum.Lt, Datum.RealEq, Datum.neg]
  all_goals constructor <;> (intro h; rcases h with h | h <;> first | (left; linarith) | (right; linarith))

theorem neg_neg_datum (a : Datum) : a.neg.neg = a := by
  cases a <;> simp [Datum.neg]

theorem le_trans_datum {a b c : Datum} (h1 : a.Le b) (h2 : b.Le c) : a.Le c := by
  revert h1 h2
  rcases a with _ | s | s | p <;> rcases b with _ | t | t | q <;> rcases c with _ | u | u | r <;>
    (try cases s) <;> (try cases t) <;> (try cases u) <;>
    simp [Datum.Le, Datum.Lt, Datum.RealEq, ← le_iff_lt_or_eq]
  all_goals intro h1 h2
  all_goals linarith

theorem le_top {d : Datum} (h : d ≠ .nan) : d.Le (.inf false) := by
  rcases d with _ | s | s | p
  · exact absurd rfl h
  all_goals simp [Datum.Le, Datum.Lt, Datum.RealEq]
  cases s <;> simp [Datum.Lt]

theorem bot_le {d : Datum} (h : d ≠ .nan) : (Datum.inf true).Le d := by
  rcases d with _ | s | s | p
  · exact absurd rfl h
  all_goals simp [Datum.Le, Datum.Lt, Datum.RealEq]
  cases s <;> simp [Datum.Lt]

theorem rangeCheck_neg (E F : ℕ) (s : Bool) (m : ℕ) (e : ℤ) :
    rangeCheck E F (!s) m e = (rangeCheck E F s m e).neg := by
  unfold rangeCheck
  split_ifs <;> cases s <;> simp [Datum.neg] at *

theorem rounded_neg {E F : ℕ} {q : ℚ} {d : Datum} (hq : q ≠ 0) (h : Rounded E F q d) : Rounded E F (-q) d.neg := by
  obtain ⟨m, e, h1, rfl⟩ := h
  refine ⟨m, e, by rwa [abs_neg], ?_⟩
  rw [← rangeCheck_neg]
  congr 1
  rcases lt_or_gt_of_ne hq with h | h
  · simp [h, h.le]
  · simp [h, h.le]

theorem rangeCheck_nonneg {E F m : ℕ} {e : ℤ} (hm : 0 < m) (s : Bool) : (Datum.zero s).Le (rangeCheck E F false m e) := by
  unfold rangeCheck
  have : (0 : ℚ) < m * 2 ^ e := mul_pos (by exact_mod_cast hm) (two_zpow_pos _)
  split_ifs <;> simp [Datum.Le, Datum.Lt, Datum.RealEq, this] at *

theorem rangeCheck_mono {E F m m' : ℕ} {e e' : ℤ} (hm : IsSig (F + 1) m) (hm' : IsSig (F + 1) m')
    (h : (m : ℚ) * 2 ^ e ≤ m' * 2 ^ e') : (rangeCheck E F false m e).Le (rangeCheck E F false m' e') := by
  have he := sig_exp_le (by omega) hm hm' h
  have pos : ∀ {n : ℕ}, IsSig (F + 1) n → ∀ g : ℤ, (0 : ℚ) < n * 2 ^ g := by
    intro n hn g
    have : 0 < 2 ^ (F + 1 - 1) := by positivity
    exact mul_pos (by exact_mod_cast lt_of_lt_of_le this hn.1) (two_zpow_pos _)
  have p1 := pos hm e
  have p2 := pos hm' e'
  unfold rangeCheck
  split_ifs
  all_goals first
    | contradiction
    | (exfalso; omega)
    | (simp [Datum.Le, Datum.Lt, Datum.RealEq, p1, p2]; done)
    | (simp [Datum.Le, Datum.Lt, Datum.RealEq]; exact h.lt_or_eq)

theorem sig_pos {p m : ℕ} (h : IsSig p m) : 0 < m := lt_of_lt_of_le (by positivity) h.1

theorem rounded_mono {E F : ℕ} {q r : ℚ} {d d' : Datum} (hq : q ≠ 0) (hr : r ≠ 0) (hqr : q ≤ r)
    (h : Rounded E F q d) (h' : Rounded E F r d') : d.Le d' := by
  obtain ⟨m, e, h1, rfl⟩ := h
  obtain ⟨m', e', h2, rfl⟩ := h'
  rcases lt_or_gt_of_ne hq with a | a <;> rcases lt_or_gt_of_ne hr with b | b
  · rw [abs_of_neg a] at h1
    rw [abs_of_neg b] at h2
    rw [le_neg, ← rangeCheck_neg, ← rangeCheck_neg]
    simp only [a, b, decide_true, Bool.not_true]
    exact rangeCheck_mono h2.1 h1.1 (nearest_mono (by omega) (by linarith) h2 h1)
  · refine le_trans_datum (b := .zero false) ?_ ?_
    · rw [le_neg, ← rangeCheck_neg]
      simp only [a, decide_true, Bool.not_true]
      exact rangeCheck_nonneg (sig_pos h1.1) _
    · simp only [not_lt.mpr b.le, decide_false]
      exact rangeCheck_nonneg (sig_pos h2.1) _
  · linarith
  · rw [abs_of_pos a] at h1
    rw [abs_of_pos b] at h2
    simp only [not_lt.mpr a.le, not_lt.mpr b.le, decide_false]
    exact rangeCheck_mono h1.1 h2.1 (nearest_mono (by omega) hqr h1 h2)

theorem rounded0_mono {E F : ℕ} {q r : ℚ} {d d' : Datum} (hqr : q ≤ r)
    (h : Rounded0 E F q d) (h' : Rounded0 E F r d') : d.Le d' := by
  unfold Rounded0 at h h'
  by_cases a : q = 0 <;> by_cases b : r = 0
  · rw [if_pos a] at h; rw [if_pos b] at h'
    obtain ⟨s, rfl⟩ := h; obtain ⟨t, rfl⟩ := h'
    right; trivial
  · rw [if_pos a] at h; rw [if_neg b] at h'
    obtain ⟨s, rfl⟩ := h; obtain ⟨m, e, h2, rfl⟩ := h'
    have : 0 < r := lt_of_le_of_ne (a ▸ hqr) (Ne.symm b)
    simp only [not_lt.mpr this.le, decide_false]
    exact rangeCheck_nonneg (sig_pos h2.1) _
  · rw [if_neg a] at h; rw [if_pos b] at h'
    obtain ⟨s, rfl⟩ := h'; obtain ⟨m, e, h2, rfl⟩ := h
    have : q < 0 := lt_of_le_of_ne (b ▸ hqr) a
    rw [le_neg, ← rangeCheck_neg]
    simp only [this, decide_true, Bool.not_true]
    exact rangeCheck_nonneg (sig_pos h2.1) _
  · rw [if_neg a] at h; rw [if_neg b] at h'
    exact rounded_mono a b hqr h h'

end Thls
