import Verif.Proofs.SoftDiv
import Verif.Proofs.SoftCmp

/-! # The IEEE 754 specification determines the result; rounding is monotone -/

namespace Thls
open Spec

theorem nearestG_lt_false {E F m m' : ℕ} {e e' : ℤ} {x : ℚ} (hF : 1 ≤ F) (h : NearestGradual E F x m e) (h' : NearestGradual E F x m' e')
    (hlt : (m : ℚ) * 2 ^ e < m' * 2 ^ e') : False := by
  obtain ⟨g, n, b, t⟩ := h
  obtain ⟨g', n', b', t'⟩ := h'
  have heq : |x - m * 2 ^ e| = |x - m' * 2 ^ e'| := le_antisymm (b _ _ g') (b' _ _ g)
  have ev := t _ _ g' heq hlt.ne'
  have ev' := t' _ _ g heq.symm hlt.ne
  have hm : m + 1 < 2 ^ (F + 1) := by
    rcases Nat.lt_or_ge (m + 1) (2 ^ (F + 1)) with h | h
    · exact h
    · have e1 : m + 1 = 2 ^ (F + 1) := by have := g.1; omega
      have : 2 ^ (F + 1) % 2 = 0 := by rw [pow_succ]; omega
      rw [Nat.even_iff] at ev
      omega
  have hb := b (m + 1) e ⟨hm, g.2⟩
  have p := two_zpow_pos e
  have p' := two_zpow_pos e'
  push_cast at hb
  have hx : x = (m * 2 ^ e + m' * 2 ^ e') / 2 := by
    rcases abs_eq_abs.1 heq with h | h
    · linarith
    · linarith
  have hle : (m' : ℚ) * 2 ^ e' ≤ (m + 1) * 2 ^ e := by
    rw [abs_of_pos (by linarith)] at hb
    by_contra hc
    push Not at hc
    have h0 : |x - (m + 1) * 2 ^ e| < x - m * 2 ^ e := by
      rw [abs_lt]
      constructor <;> linarith
    linarith
  rcases lt_trichotomy e' e with hee | rfl | hee
  · have hne : e ≠ leastExp E F := by have := g'.2; omega
    have hmF : 2 ^ F ≤ m := n.resolve_right hne
    have : (m' : ℚ) * 2 ^ e' < m * 2 ^ e := by
      obtain ⟨k, rfl⟩ : ∃ k : ℕ, e = e' + 1 + k := ⟨(e - e' - 1).toNat, by omega⟩
      rw [zpow_add₀ (by norm_num), zpow_add₀ (by norm_num), zpow_one, zpow_natCast]
      have h1 : (1 : ℚ) ≤ 2 ^ k := one_le_pow₀ (by norm_num)
      have h2 : (m' : ℚ) < 2 ^ (F + 1) := by exact_mod_cast g'.1
      have h3 : (2 : ℚ) ^ F ≤ m := by exact_mod_cast hmF
      calc (m' : ℚ) * 2 ^ e' < 2 ^ (F + 1) * 2 ^ e' := by gcongr
        _ = 2 ^ F * (2 ^ e' * 2 * 1) := by rw [pow_succ]; ring
        _ ≤ m * (2 ^ e' * 2 * 2 ^ k) := by gcongr
    linarith
  · have h1 : (m : ℚ) < m' := lt_of_mul_lt_mul_right hlt p.le
    have h2 : (m' : ℚ) ≤ m + 1 := le_of_mul_le_mul_right hle p
    have h1' : m < m' := by exact_mod_cast h1
    have h2' : m' ≤ m + 1 := by exact_mod_cast h2
    rw [Nat.even_iff] at ev ev'
    omega
  · have hne : e' ≠ leastExp E F := by have := g.2; omega
    have hmF : 2 ^ F ≤ m' := n'.resolve_right hne
    have : ((m : ℚ) + 1) * 2 ^ e < m' * 2 ^ e' := by
      obtain ⟨k, rfl⟩ : ∃ k : ℕ, e' = e + 1 + k := ⟨(e' - e - 1).toNat, by omega⟩
      rw [zpow_add₀ (by norm_num), zpow_add₀ (by norm_num), zpow_one, zpow_natCast]
      have h1 : (1 : ℚ) ≤ 2 ^ k := one_le_pow₀ (by norm_num)
      have h2 : (m : ℚ) + 1 < 2 ^ (F + 1) := by exact_mod_cast hm
      have h3 : (2 : ℚ) ^ F ≤ m' := by exact_mod_cast hmF
      calc ((m : ℚ) + 1) * 2 ^ e < 2 ^ (F + 1) * 2 ^ e := by gcongr
        _ = 2 ^ F * (2 ^ e * 2 * 1) := by rw [pow_succ]; ring
        _ ≤ m' * (2 ^ e * 2 * 2 ^ k) := by gcongr
    linarith

/-- Rounding to nearest is monotone. -/
theorem nearestG_mono {E F m m' : ℕ} {e e' : ℤ} {x x' : ℚ} (hF : 1 ≤ F) (h : NearestGradual E F x m e) (h' : NearestGradual E F x' m' e')
    (hx : x ≤ x') : (m : ℚ) * 2 ^ e ≤ m' * 2 ^ e' := by
  by_contra hc
  push Not at hc
  rcases hx.eq_or_lt with rfl | hlt
  · exact nearestG_lt_false hF h' h hc
  · have h1 := h.2.2.1 _ _ h'.1
    have h2 := h'.2.2.1 _ _ h.1
    have a1 := abs_le_abs_iff_sq h1
    have a2 := abs_le_abs_iff_sq h2
    nlinarith
where
  abs_le_abs_iff_sq {a b : ℚ} (h : |a| ≤ |b|) : a * a ≤ b * b := by
    have := sq_le_sq.2 h
    nlinarith

theorem nearestG_unique {E F m m' : ℕ} {e e' : ℤ} {x : ℚ} (hF : 1 ≤ F) (h : NearestGradual E F x m e) (h' : NearestGradual E F x m' e') :
    (m : ℚ) * 2 ^ e = m' * 2 ^ e' :=
  le_antisymm (nearestG_mono hF h h' le_rfl) (nearestG_mono hF h' h le_rfl)

theorem zero_iff_value (m : ℕ) (e : ℤ) : m = 0 ↔ (m : ℚ) * 2 ^ e = 0 := by
  rw [mul_eq_zero, or_iff_left (two_zpow_pos e).ne', Nat.cast_eq_zero]

/-- The rounded value is determined by the rational. -/
theorem roundedG_unique {E F : ℕ} {q : ℚ} {d d' : Datum} (hF : 1 ≤ F) (h : RoundedGradual E F q d) (h' : RoundedGradual E F q d') : d = d' := by
  obtain ⟨m, e, hn, rfl⟩ := h
  obtain ⟨m', e', hn', rfl⟩ := h'
  have hv := nearestG_unique hF hn hn'
  simp only [zero_iff_value m e, zero_iff_value m' e', hv]

theorem ieeeSum_unique {E F : ℕ} {x y d d' : Datum} (hF : 1 ≤ F) (h : IeeeSum E F x y d) (h' : IeeeSum E F x y d') : d = d' := by
  cases x <;> cases y <;> simp only [IeeeSum] at h h'
  all_goals first
    | exact Option.some.inj (h.symm.trans h')
    | skip
  split_ifs at h h'
  · rw [h, h']
  · exact roundedG_unique hF h h'

theorem ieeeProduct_unique {E F : ℕ} {x y d d' : Datum} (hF : 1 ≤ F) (h : IeeeProduct E F x y d) (h' : IeeeProduct E F x y d') : d = d' := by
  cases x <;> cases y <;> simp only [IeeeProduct] at h h'
  all_goals first
    | exact Option.some.inj (h.symm.trans h')
    | exact roundedG_unique hF h h'

theorem ieeeQuotient_unique {E F : ℕ} {x y d d' : Datum} (hF : 1 ≤ F) (h : IeeeQuotient E F x y d) (h' : IeeeQuotient E F x y d') : d = d' := by
  cases x <;> cases y <;> simp only [IeeeQuotient] at h h'
  all_goals first
    | exact Option.some.inj (h.symm.trans h')
    | exact roundedG_unique hF h h'

namespace SoftFmt
variable {f : SoftFmt}

/-- A word that is not a NaN is determined by its datum. -/
theorem datum_inj (ok : f.Ok) {a b : ℕ} (ha : a < 2 ^ f.W) (hb : b < 2 ^ f.W) (h : wordDatum f.E f.F a = wordDatum f.E f.F b)
    (hn : wordDatum f.E f.F a ≠ .nan) : a = b := by
  have wa := word_split ha
  have wb := word_split hb
  have key : f.sign a = f.sign b ∧ a % 2 ^ (f.W - 1) = b % 2 ^ (f.W - 1) → a = b := by
    rintro ⟨h1, h2⟩
    rw [h1, h2] at wa
    exact wa.trans wb.symm
  have hmm : f.exp a = f.exp b → f.frac a = f.frac b → a % 2 ^ (f.W - 1) = b % 2 ^ (f.W - 1) := by
    intro h1 h2
    rw [mag_mod, mag_mod, h1, h2]
  rcases kind ok ha with ⟨h1, d⟩ | ⟨h1, hf, d⟩ | ⟨h1, hf, d⟩ | ⟨h1, h0, d⟩
  · exact absurd d hn
  · rcases kind ok hb with ⟨h1', d'⟩ | ⟨h1', hf', d'⟩ | ⟨h1', hf', d'⟩ | ⟨h1', h0', d'⟩
    · rw [d, d'] at h; cases h
    · rw [d, d'] at h
      injection h with h
      exact key ⟨h, hmm (h1.trans h1'.symm) (hf.trans hf'.symm)⟩
    · rw [d, d'] at h; cases h
    · rw [d, d'] at h; cases h
  · rcases kind ok hb with ⟨h1', d'⟩ | ⟨h1', hf', d'⟩ | ⟨h1', hf', d'⟩ | ⟨h1', h0', d'⟩
    · rw [d, d'] at h; cases h
    · rw [d, d'] at h; cases h
    · rw [d, d'] at h
      injection h with h
      exact key ⟨h, hmm (h1.trans h1'.symm) (hf.trans hf'.symm)⟩
    · rw [d, d'] at h; cases h
  · rcases kind ok hb with ⟨h1', d'⟩ | ⟨h1', hf', d'⟩ | ⟨h1', hf', d'⟩ | ⟨h1', h0', d'⟩
    · rw [d, d'] at h; cases h
    · rw [d, d'] at h; cases h
    · rw [d, d'] at h; cases h
    · rw [d, d'] at h
      injection h with h
      have p := mag_pos (f := f) h0
      have p' := mag_pos (f := f) h0'
      have hs : f.sign a = f.sign b := by
        cases ea : f.sign a <;> cases eb : f.sign b <;> rw [ea, eb] at h <;> simp only [sg] at h <;>
          first | rfl | (exfalso; norm_num at h; linarith)
      refine key ⟨hs, ?_⟩
      rw [hs] at h
      exact (mag_eq_iff a b).1 (mul_left_cancel₀ (sg_ne _) h)

end SoftFmt
end Thls
