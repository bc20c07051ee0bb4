import Verif.Props.Ref
import Verif.Props.Mul
import Verif.Props.Div
import Verif.Props.Add

/-! # Results of the operators in the vocabulary of the reference functions -/

namespace Thls
open Spec

/-- Two words of a format that deliver the same exact result are equal. -/
theorem delivers_equals {E F : ℕ} (hE : 1 ≤ E) (hF : 1 ≤ F) {x : Datum} {r r' : Fp E F}
    (h : Delivers E F x r.datum) (h' : Delivers E F x r'.datum) : r.equals r' = true :=
  (C07_equals_iff_same_datum hE hF r r').mpr (delivers_unique h h')

theorem fp_num_ne_zero {E F : ℕ} {x : Fp E F} {v : ℚ} (h : x.datum = .num v) : v ≠ 0 := by
  refine Mpfr.num_ne_zero (toMpfr_ok x) ?_
  rw [C47_to_mpfr_exact, h]

/-- A word whose datum is the exact result delivers it. -/
theorem delivers_self {E F : ℕ} (hE : 1 ≤ E) (hF : 1 ≤ F) {r : Fp E F} {d : Datum} (h : r.datum = d) :
    Delivers E F d r.datum := by
  cases d with
  | num w =>
    simp only [Delivers]
    rw [if_neg (fp_num_ne_zero h)]
    exact rounded_self hF hE r w h
  | _ => exact h

theorem mulSpecial_none {a b : Datum} (h : mulSpecial a b = none) : ∃ p q, a = .num p ∧ b = .num q := by
  cases a <;> cases b <;> simp [mulSpecial] at h ⊢

/-- An operator that is right on two numbers and on the exceptional operands delivers the exact product. -/
theorem exactMul_delivers {E F EA FA EB FB : ℕ} (hE : 1 ≤ E) (hF : 1 ≤ F) {a : Fp EA FA} {b : Fp EB FB} {r : Fp E F}
    (hs : ∀ d, mulSpecial a.datum b.datum = some d → r.datum = d)
    (hn : ∀ p q, a.datum = .num p → b.datum = .num q → Rounded E F (p * q) r.datum) :
    Delivers E F (exactMul a.datum b.datum) r.datum := by
  cases h : mulSpecial a.datum b.datum with
  | some d =>
    rw [exactMul, h, Option.getD_some]
    exact delivers_self hE hF (hs d h)
  | none =>
    obtain ⟨p, q, ha, hb⟩ := mulSpecial_none h
    rw [exactMul, h, Option.getD_none, ha, hb]
    change if p * q = 0 then _ else _
    rw [if_neg (mul_ne_zero (fp_num_ne_zero ha) (fp_num_ne_zero hb))]
    exact hn p q ha hb

theorem exactDiv_delivers {E F EA FA EB FB : ℕ} (hE : 1 ≤ E) (hF : 1 ≤ F) {a : Fp EA FA} {b : Fp EB FB} {r : Fp E F}
    (hs : ∀ d, divSpecial a.datum b.datum = some d → r.datum = d)
    (hn : ∀ p q, a.datum = .num p → b.datum = .num q → Rounded E F (p / q) r.datum) :
    Delivers E F (exactDiv a.datum b.datum) r.datum := by
  cases h : divSpecial a.datum b.datum with
  | some d =>
    rw [exactDiv, h, Option.getD_some]
    exact delivers_self hE hF (hs d h)
  | none =>
    obtain ⟨p, q, ha, hb⟩ := (C22_divSpecial_domain _ _).mp h
    rw [exactDiv, h, Option.getD_none, ha, hb]
    change if p / q = 0 then _ else _
    rw [if_neg (div_ne_zero (fp_num_ne_zero ha) (fp_num_ne_zero hb))]
    exact hn p q ha hb

theorem exactAdd_delivers {E F EA FA EB FB : ℕ} (hE : 1 ≤ E) (hF : 1 ≤ F) {a : Fp EA FA} {b : Fp EB FB} {r : Fp E F}
    (hs : ∀ d, addSpecial a.datum b.datum = some d → r.datum = d)
    (hn : ∀ p q, a.datum = .num p → b.datum = .num q → AddsTo E F p q r.datum) :
    Delivers E F (exactAdd a.datum b.datum) r.datum := by
  cases h : addSpecial a.datum b.datum with
  | some d =>
    rw [exactAdd, h, Option.getD_some]
    exact delivers_self hE hF (hs d h)
  | none =>
    obtain ⟨p, q, ha, hb⟩ := (C17_addSpecial_domain _ _).mp h
    rw [exactAdd, h, Option.getD_none, ha, hb]
    exact hn p q ha hb

/-- Everything from the power of two above the format on is rounded to infinity. -/
theorem rounded_overflow {E F : ℕ} {v : ℚ} {d : Datum} (h : Rounded E F v d)
    (hv : (2 : ℚ) ^ ((2 : ℤ) ^ E - bias E) ≤ |v|) : d = .inf (decide (v < 0)) := by
  obtain ⟨m, e, hn, hd⟩ := h
  have hsig := hn.1
  rw [hd, rangeCheck]
  have hm : (2 : ℚ) ^ ((2 : ℤ) ^ E - bias E) ≤ m * 2 ^ e := by
    by_contra hc
    push Not at hc
    have h1 := hn.2.1 (2 ^ F) ((2 : ℤ) ^ E - bias E - F) ⟨by simp, by rw [pow_succ]; have : 0 < 2 ^ F := by positivity
                                                                      omega⟩
    have h2 : ((2 ^ F : ℕ) : ℚ) * 2 ^ ((2 : ℤ) ^ E - bias E - F) = 2 ^ ((2 : ℤ) ^ E - bias E) := by
      push_cast
      rw [← zpow_natCast, ← zpow_add₀ (by norm_num)]; congr 1; ring
    rw [h2, abs_of_nonneg (show 0 ≤ |v| - m * 2 ^ e by linarith),
      abs_of_nonneg (show 0 ≤ |v| - 2 ^ ((2 : ℤ) ^ E - bias E) by linarith)] at h1
    linarith
  have h3 : (m : ℚ) * 2 ^ e < 2 ^ (e + F + 1) := by
    have h4 : (m : ℚ) < 2 ^ (F + 1) := by exact_mod_cast hsig.2
    have h5 : (2 : ℚ) ^ (e + F + 1) = 2 ^ (F + 1) * 2 ^ e := by
      rw [← zpow_natCast, ← zpow_add₀ (by norm_num)]; congr 1; push_cast; ring
    rw [h5]
    exact mul_lt_mul_of_pos_right h4 (by positivity)
  have h6 : (2 : ℤ) ^ E - bias E < e + F + 1 := (zpow_lt_zpow_iff_right₀ (by norm_num : (1 : ℚ) < 2)).mp (lt_of_le_of_lt hm h3)
  have hp : (0 : ℤ) < 2 ^ E := by positivity
  rw [if_neg (by omega), if_pos (by omega)]

end Thls
