import Verif.Props.SoftFloat
import Verif.Proofs.SoftLoops

/-! # Property C65: the sign of a sum -/

namespace Thls
open Spec

theorem soft_sum_sign {f : SoftFmt} (ok : f.Ok) {a b z : ℕ} {p q : ℚ} (ha : a < 2 ^ f.W) (hb : b < 2 ^ f.W)
    (hp : wordDatum f.E f.F a = .num p) (hq : wordDatum f.E f.F b = .num q)
    (h : IeeeSum f.E f.F (wordDatum f.E f.F a) (wordDatum f.E f.F b) (wordDatum f.E f.F z)) :
    (p + q = 0 ∧ wordDatum f.E f.F z = .zero false) ∨
    (0 < p + q ∧ (wordDatum f.E f.F z = .inf false ∨ ∃ w, 0 < w ∧ wordDatum f.E f.F z = .num w)) ∨
    (p + q < 0 ∧ (wordDatum f.E f.F z = .inf true ∨ ∃ w, w < 0 ∧ wordDatum f.E f.F z = .num w)) := by
  by_cases h0 : p + q = 0
  · left
    rw [hp, hq] at h
    simp only [IeeeSum, if_pos h0] at h
    exact ⟨h0, h⟩
  right
  by_cases hs : |p + q| < 2 * 2 ^ (1 - bias f.E)
  · have := SoftFmt.sum_tiny_exact ok ha hb hp hq hs h
    rw [if_neg h0] at this
    rcases lt_or_gt_of_ne h0 with c | c
    · exact Or.inr ⟨c, Or.inr ⟨_, c, this⟩⟩
    · exact Or.inl ⟨c, Or.inr ⟨_, c, this⟩⟩
  · push Not at hs
    rw [hp, hq] at h
    simp only [IeeeSum, if_neg h0] at h
    obtain ⟨m, e, hn, hd⟩ := h
    have hmin : ieeeMin f.E ≤ |p + q| := by
      have : (0 : ℚ) < 2 ^ (1 - bias f.E) := two_zpow_pos _
      show (2 : ℚ) ^ (1 - bias f.E) ≤ _
      linarith
    have he := (abs_le.mp (gradual_err_normal hmin hn)).2
    have hu : uro f.F < 1 := by unfold uro; exact zpow_lt_one_of_neg₀ (by norm_num) (by omega)
    have hpos : 0 < (m : ℚ) * 2 ^ e := by
      have := abs_pos.mpr h0
      nlinarith
    have hm : m ≠ 0 := by rintro rfl; simp at hpos
    rw [if_neg hm] at hd
    rcases lt_or_gt_of_ne h0 with c | c
    · refine Or.inr ⟨c, ?_⟩
      by_cases hl : ieeeLimit f.E ≤ m * 2 ^ e
      · rw [if_pos hl, decide_eq_true c] at hd; exact Or.inl hd
      · rw [if_neg hl, if_pos c] at hd; exact Or.inr ⟨_, by linarith, hd⟩
    · refine Or.inl ⟨c, ?_⟩
      by_cases hl : ieeeLimit f.E ≤ m * 2 ^ e
      · rw [if_pos hl, decide_eq_false (not_lt.mpr c.le)] at hd; exact Or.inl hd
      · rw [if_neg hl, if_neg (not_lt.mpr c.le)] at hd; exact Or.inr ⟨_, by linarith, hd⟩

/-- **C65, the sign of a sum.** The sum of two numbers with `float32_t` is a zero exactly if the exact sum is, and has its sign otherwise:
the sign of a difference decides the order, which is not so without denormals (C97). -/
theorem C65_soft_sum_sign32 {fast a b r : ℕ} {p q : ℚ} (hfast : 32 ≤ fast) (ha : a < 2 ^ 32) (hb : b < 2 ^ 32)
    (hp : wordDatum 8 23 a = .num p) (hq : wordDatum 8 23 b = .num q) (hr : f32Add fast a b = some r) :
    (p + q = 0 ∧ wordDatum 8 23 r = .zero false) ∨
    (0 < p + q ∧ (wordDatum 8 23 r = .inf false ∨ ∃ w, 0 < w ∧ wordDatum 8 23 r = .num w)) ∨
    (p + q < 0 ∧ (wordDatum 8 23 r = .inf true ∨ ∃ w, w < 0 ∧ wordDatum 8 23 r = .num w)) := by
  obtain ⟨z, g1, -, g2⟩ := C61_soft_add32 hfast ha hb
  obtain rfl := Option.some.inj (g1.symm.trans hr)
  exact soft_sum_sign (soft32_ok hfast) ha hb hp hq g2

/-- **C65, the sign of a sum**, `float64_t`. -/
theorem C65_soft_sum_sign64 {fast a b r : ℕ} {p q : ℚ} (hfast : 64 ≤ fast) (ha : a < 2 ^ 64) (hb : b < 2 ^ 64)
    (hp : wordDatum 11 52 a = .num p) (hq : wordDatum 11 52 b = .num q) (hr : f64Add fast a b = some r) :
    (p + q = 0 ∧ wordDatum 11 52 r = .zero false) ∨
    (0 < p + q ∧ (wordDatum 11 52 r = .inf false ∨ ∃ w, 0 < w ∧ wordDatum 11 52 r = .num w)) ∨
    (p + q < 0 ∧ (wordDatum 11 52 r = .inf true ∨ ∃ w, w < 0 ∧ wordDatum 11 52 r = .num w)) := by
  obtain ⟨z, g1, -, g2⟩ := C61_soft_add64 hfast ha hb
  obtain rfl := Option.some.inj (g1.symm.trans hr)
  exact soft_sum_sign (soft64_ok hfast) ha hb hp hq g2

/-- The two smallest normal numbers: their difference is a denormal number, not a zero. -/
example : ∃ r p q, f32Add 64 0x00800001 0x80800000 = some r ∧ wordDatum 8 23 0x00800001 = .num p ∧ wordDatum 8 23 0x80800000 = .num q ∧
    0 < p + q :=
  ⟨1, (2 ^ 23 + 1) * 2 ^ (-149 : ℤ), -(2 ^ 23 * 2 ^ (-149 : ℤ)), by decide +kernel, by decide +kernel, by decide +kernel, by decide +kernel⟩

end Thls
