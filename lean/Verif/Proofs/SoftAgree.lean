import Verif.SpecAgree
import Mathlib.Algebra.Order.Archimedean.Basic
import Verif.Proofs.SoftExact
import Verif.Proofs.Ieee
import Verif.Props.IeeeOps

/-! # Rounding with and without denormals (helpers for C71) -/

namespace Thls
open Spec

/-- A non-zero gradual number is a full-width significand with some exponent. -/
theorem gradual_sig {E F m : ℕ} {e : ℤ} (h : IsGradual E F m e) (h0 : m ≠ 0) :
    ∃ (m' : ℕ) (e' : ℤ), IsSig (F + 1) m' ∧ (m' : ℚ) * 2 ^ e' = m * 2 ^ e := by
  obtain ⟨h1, -⟩ := h
  have hl : m.log2 ≤ F := by
    have := Nat.log2_self_le h0
    by_contra hc
    have : 2 ^ (F + 1) ≤ 2 ^ m.log2 := Nat.pow_le_pow_right (by norm_num) (by omega)
    omega
  refine ⟨m * 2 ^ (F - m.log2), e - (F - m.log2 : ℕ), ⟨?_, ?_⟩, ?_⟩
  · have := Nat.log2_self_le h0
    calc 2 ^ (F + 1 - 1) = 2 ^ m.log2 * 2 ^ (F - m.log2) := by rw [← pow_add]; congr 1; omega
      _ ≤ _ := Nat.mul_le_mul_right _ this
  · have := @Nat.lt_log2_self m
    calc m * 2 ^ (F - m.log2) < 2 ^ (m.log2 + 1) * 2 ^ (F - m.log2) := Nat.mul_lt_mul_of_pos_right this (by positivity)
      _ = _ := by rw [← pow_add]; congr 1; omega
  · push_cast
    rw [mul_assoc, ← zpow_natCast, ← zpow_add₀ (by norm_num)]
    congr 2; omega

/-- There are arbitrarily small full-width numbers. -/
theorem small_sig (F : ℕ) {x : ℚ} (hx : 0 < x) : ∃ e : ℤ, ((2 ^ F : ℕ) : ℚ) * 2 ^ e ≤ x := by
  obtain ⟨n, hn⟩ := exists_pow_lt_of_lt_one hx (by norm_num : (1 / 2 : ℚ) < 1)
  refine ⟨-(F : ℤ) - n, ?_⟩
  have : ((2 ^ F : ℕ) : ℚ) * 2 ^ (-(F : ℤ) - n) = (1 / 2) ^ n := by
    push_cast
    rw [← zpow_natCast, ← zpow_add₀ (by norm_num), show ((F : ℤ) + (-(F : ℤ) - n)) = -(n : ℤ) by ring, zpow_neg, zpow_natCast]
    rw [one_div, inv_pow]
  rw [this]; exact hn.le

/-- Rounding to a full-width significand within the exponent range is also rounding with gradual underflow. -/
theorem nearest_gradual {E F m : ℕ} {e : ℤ} {x : ℚ} (hx : 0 < x) (h : NearestEven (F + 1) x m e) (he : leastExp E F ≤ e) :
    NearestGradual E F x m e := by
  obtain ⟨hs, h1, h2⟩ := h
  have hs' := hs
  obtain ⟨hs1, hs2⟩ := hs'
  have hz : |x - m * 2 ^ e| < x := by
    obtain ⟨e', he'⟩ := small_sig F hx
    have := h1 (2 ^ F) e' ⟨by simp, Nat.pow_lt_pow_right (by norm_num) (by omega)⟩
    have hp : (0 : ℚ) < ((2 ^ F : ℕ) : ℚ) * 2 ^ e' := by positivity
    rw [abs_of_nonneg (by linarith : (0 : ℚ) ≤ x - ((2 ^ F : ℕ) : ℚ) * 2 ^ e')] at this
    linarith
  refine ⟨⟨hs2, he⟩, Or.inl (by simpa using hs1), ?_, ?_⟩
  · intro m' e' hg
    by_cases h0 : m' = 0
    · subst h0; simp only [Nat.cast_zero, zero_mul, sub_zero]; rw [abs_of_pos hx]; exact hz.le
    · obtain ⟨m'', e'', hs'', hv⟩ := gradual_sig hg h0
      rw [← hv]; exact h1 _ _ hs''
  · intro m' e' hg heq hne
    by_cases h0 : m' = 0
    · exfalso
      subst h0; simp only [Nat.cast_zero, zero_mul, sub_zero] at heq; rw [abs_of_pos hx] at heq
      exact hz.ne heq
    · obtain ⟨m'', e'', hs'', hv⟩ := gradual_sig hg h0
      rw [← hv] at heq hne
      exact h2 _ _ hs'' heq hne

theorem leastExp_min (E F : ℕ) : ((2 : ℚ) ^ F) * 2 ^ leastExp E F = ieeeMin E := by
  unfold leastExp ieeeMin
  rw [← zpow_natCast, ← zpow_add₀ (by norm_num)]
  congr 1; ring

/-- The result without denormals is the one with denormals, or a zero for a number below the least normal one. -/
theorem rounded_gradual_or {E F : ℕ} {q : ℚ} {d : Datum} (hq : q ≠ 0) (h : IeeeRounded E F q d) :
    RoundedGradual E F q d ∨ (d = .zero (decide (q < 0)) ∧ |q| < ieeeMin E) := by
  obtain ⟨m, e, hn, rfl⟩ := h
  have hx : 0 < |q| := abs_pos.2 hq
  obtain ⟨hs, h1, h2⟩ := id hn
  obtain ⟨hs1, hs2⟩ := id hs
  simp only [Nat.add_sub_cancel] at hs1
  have hm0 : m ≠ 0 := by have : 0 < 2 ^ F := by positivity
                         omega
  have hpos : (0 : ℚ) < m * 2 ^ e := by
    have : (0 : ℚ) < m := by exact_mod_cast Nat.pos_of_ne_zero hm0
    positivity
  have habs : |(if q < 0 then (-1 : ℚ) else 1) * ((m : ℚ) * 2 ^ e)| = m * 2 ^ e := by
    split_ifs
    · rw [neg_one_mul, abs_neg, abs_of_pos hpos]
    · rw [one_mul, abs_of_pos hpos]
  have hneg : ((if q < 0 then (-1 : ℚ) else 1) * ((m : ℚ) * 2 ^ e) < 0) ↔ q < 0 := by
    split_ifs with hc <;> simp only [hc, iff_true, iff_false] <;> linarith
  by_cases he : leastExp E F ≤ e
  · left
    refine ⟨m, e, nearest_gradual hx hn he, ?_⟩
    have hge : ieeeMin E ≤ m * 2 ^ e := by
      rw [← leastExp_min E F]
      have a1 : (2 : ℚ) ^ F ≤ m := by exact_mod_cast hs1
      have a2 : (2 : ℚ) ^ leastExp E F ≤ 2 ^ e := zpow_le_zpow_right₀ (by norm_num) he
      exact mul_le_mul a1 a2 (by positivity) (by positivity)
    rw [if_neg hm0]
    simp only [ieeeRange, habs, hneg]
    rw [if_neg (not_lt.2 hge)]
  · right
    have hlt : (m : ℚ) * 2 ^ e < ieeeMin E := by
      rw [← leastExp_min E F]
      have a1 : (m : ℚ) < 2 ^ (F + 1) := by exact_mod_cast hs2
      have a2 : (2 : ℚ) ^ (e + 1) ≤ 2 ^ leastExp E F := zpow_le_zpow_right₀ (by norm_num) (by omega)
      have a3 : (0 : ℚ) < 2 ^ e := by positivity
      rw [two_zpow_succ] at a2
      have a4 : (0 : ℚ) < 2 ^ F := by positivity
      rw [pow_succ] at a1
      calc (m : ℚ) * 2 ^ e < 2 ^ F * 2 * 2 ^ e := by gcongr
        _ = 2 ^ F * (2 * 2 ^ e) := by ring
        _ ≤ _ := by gcongr
    constructor
    · simp only [ieeeRange, habs, hneg]
      rw [if_pos hlt]
    · by_contra hc
      have hc' := not_lt.1 hc
      have := h1 (2 ^ F) (leastExp E F) ⟨by simp, Nat.pow_lt_pow_right (by norm_num) (by omega)⟩
      push_cast at this
      rw [leastExp_min] at this
      generalize |q| = x at this hc'
      rw [abs_of_nonneg (by linarith), abs_of_nonneg (by linarith)] at this
      linarith

/-- Rounding with gradual underflow does not pass the least normal number. -/
theorem gradual_le_min {E F m : ℕ} {e : ℤ} {x : ℚ} (hx : 0 < x) (hlt : x < ieeeMin E) (h : NearestGradual E F x m e) :
    (m : ℚ) * 2 ^ e ≤ ieeeMin E := by
  obtain ⟨-, -, h1, -⟩ := h
  by_contra hc
  push Not at hc
  have := h1 (2 ^ F) (leastExp E F) ⟨Nat.pow_lt_pow_right (by norm_num) (by omega), le_refl _⟩
  push_cast at this
  rw [leastExp_min, abs_of_neg (by linarith), abs_of_neg (by linarith)] at this
  linarith

theorem ieeeMin_lt_limit {E : ℕ} (hE : 2 ≤ E) : ieeeMin E < ieeeLimit E := by
  unfold ieeeMin ieeeLimit
  refine zpow_lt_zpow_right₀ (by norm_num) ?_
  have : (2 : ℤ) ^ 1 ≤ 2 ^ (E - 1) := pow_le_pow_right₀ (by norm_num) (by omega)
  unfold bias; linarith

/-- The rounded results of the two kinds of arithmetic, as data. -/
theorem rounded_agree {E F : ℕ} {q : ℚ} {d d' : Datum} (hE : 2 ≤ E) (hF : 1 ≤ F) (hq : q ≠ 0) (h : IeeeRounded E F q d)
    (h' : RoundedGradual E F q d') :
    d = d' ∨ ∃ p : ℚ, d' = .num p ∧ |p| ≤ ieeeMin E ∧ d = .zero (decide (p < 0)) := by
  rcases rounded_gradual_or hq h with h1 | ⟨h1, h2⟩
  · exact Or.inl (roundedG_unique hF h1 h')
  · obtain ⟨m, e, hn, rfl⟩ := h'
    have hle := gradual_le_min (abs_pos.2 hq) h2 hn
    by_cases h0 : m = 0
    · rw [if_pos h0]; exact Or.inl h1
    · right
      rw [if_neg h0, if_neg (not_le.2 (lt_of_le_of_lt hle (ieeeMin_lt_limit hE)))]
      have hpos : (0 : ℚ) < m * 2 ^ e := by
        have : (0 : ℚ) < m := by exact_mod_cast Nat.pos_of_ne_zero h0
        positivity
      refine ⟨_, rfl, ?_, ?_⟩
      · split_ifs
        · rw [neg_one_mul, abs_neg, abs_of_pos hpos]; exact hle
        · rw [one_mul, abs_of_pos hpos]; exact hle
      · rw [h1]
        congr 1
        refine decide_eq_decide.2 ?_
        split_ifs with hc <;> simp only [hc, true_iff, false_iff] <;> linarith

theorem ieee_wordDatum {E F : ℕ} (hE : 1 ≤ E) (hF : 1 ≤ F) (x : Ieee E F) : x.datum = wordDatum E F x.bits := by
  unfold Ieee.datum wordDatum
  have hl := x.isLt
  congr 1
  · unfold Ieee.sign getBits
    rw [Nat.mod_eq_of_lt]
    rw [show E + F + 1 - (E + F) = 1 by omega, Nat.div_lt_iff_lt_mul (by positivity), ← pow_add, show 1 + (E + F) = 1 + E + F by ring]
    exact hl
  · unfold Ieee.exp getBits
    rw [show E + F - 1 + 1 - F = E by omega]
  · unfold Ieee.frac getBits
    rw [show F - 1 + 1 - 0 = F by omega, pow_zero, Nat.div_one]

theorem flushWord_lt {E F w : ℕ} (hw : w < 2 ^ (1 + E + F)) : flushWord E F w < 2 ^ (1 + E + F) := by
  unfold flushWord
  split_ifs
  · exact lt_of_le_of_lt (Nat.div_mul_le_self _ _) hw
  · exact hw

theorem flushWord_datum {E F : ℕ} (hE : 1 ≤ E) (hF : 1 ≤ F) (x : Ieee E F) :
    wordDatum E F (flushWord E F x.bits) = ieeeRange E x.datum := by
  have hexp : x.exp = x.bits / 2 ^ F % 2 ^ E := by
    unfold Ieee.exp getBits
    rw [show E + F - 1 + 1 - F = E by omega]
  have hsign : x.sign = x.bits / 2 ^ (E + F) := by
    unfold Ieee.sign getBits
    rw [Nat.mod_eq_of_lt]
    rw [show E + F + 1 - (E + F) = 1 by omega, Nat.div_lt_iff_lt_mul (by positivity), ← pow_add, show 1 + (E + F) = 1 + E + F by ring]
    exact x.isLt
  rw [ieee_flushed hE hF]
  unfold flushWord
  rw [← hexp, ← hsign]
  by_cases h0 : x.exp = 0
  · rw [if_pos h0, if_pos h0]
    unfold wordDatum
    have e1 : x.sign * 2 ^ (E + F) / 2 ^ (E + F) = x.sign := Nat.mul_div_cancel _ (by positivity)
    have e2 : x.sign * 2 ^ (E + F) / 2 ^ F % 2 ^ E = 0 := by
      rw [pow_add, ← mul_assoc, Nat.mul_div_cancel _ (by positivity), Nat.mul_mod_left]
    have e3 : x.sign * 2 ^ (E + F) % 2 ^ F = 0 := by rw [pow_add, ← mul_assoc, Nat.mul_mod_left]
    rw [e1, e2, e3]
    simp [ieeeDenote]
  · rw [if_neg h0, if_neg h0, ← ieee_wordDatum hE hF]
    unfold Ieee.datum ieeeDenote
    rw [if_neg h0]

namespace SoftFmt
variable {f : SoftFmt}

theorem agree_word (ok : f.Ok) {r : Ieee f.E f.F} {z : ℕ} (hz : z < 2 ^ f.W)
    (h : r.datum = wordDatum f.E f.F z ∨ ∃ p : ℚ, wordDatum f.E f.F z = .num p ∧ |p| ≤ ieeeMin f.E ∧ r.datum = .zero (decide (p < 0))) :
    SameUpToFlush f.E f.F r.bits z := by
  have hE : 1 ≤ f.E := by have := ok.hE; omega
  have hF : 1 ≤ f.F := by have := ok.hF; have := ok.hE; omega
  rw [ieee_wordDatum hE hF] at h
  rcases h with h | h
  · by_cases hn : wordDatum f.E f.F r.bits = .nan
    · exact Or.inr (Or.inl ⟨hn, h ▸ hn⟩)
    · refine Or.inl (datum_inj ok ?_ hz h hn)
      have := r.isLt
      rwa [show f.W = 1 + f.E + f.F by unfold W; omega]
  · exact Or.inr (Or.inr h)

theorem add_agree (ok : f.Ok) (hd : DualFormat f.E f.F) (hfmt : f.F ≤ 2 ^ (f.E + 1)) (a b : Ieee f.E f.F) :
    ∃ r z, IeeeOps.add a b = some r ∧ f.add (flushWord f.E f.F a.bits) (flushWord f.E f.F b.bits) = some z ∧
      SameUpToFlush f.E f.F r.bits z := by
  have hE2 : 2 ≤ f.E := by have := ok.hE; omega
  have hE : 1 ≤ f.E := by omega
  have hF : 1 ≤ f.F := by have := ok.hF; omega
  have hW : f.W = 1 + f.E + f.F := by unfold W; omega
  obtain ⟨z, z1, z2, z3⟩ := add_ieee ok (hW ▸ flushWord_lt a.isLt) (hW ▸ flushWord_lt b.isLt)
  rw [flushWord_datum hE hF, flushWord_datum hE hF] at z3
  suffices hs : ∃ r, IeeeOps.add a b = some r ∧ (r.datum = wordDatum f.E f.F z ∨
      ∃ p : ℚ, wordDatum f.E f.F z = .num p ∧ |p| ≤ ieeeMin f.E ∧ r.datum = .zero (decide (p < 0))) by
    obtain ⟨r, h1, h2⟩ := hs
    exact ⟨r, z, h1, z1, agree_word ok z2 h2⟩
  cases hs : addSpecial (ieeeRange f.E a.datum) (ieeeRange f.E b.datum) with
  | some d =>
    obtain ⟨r, h1, h2⟩ := C29_add_special_partial hE2 hF hd a b d hs
    refine ⟨r, h1, Or.inl ?_⟩
    unfold IeeeSum at z3
    split at z3
    · rename_i p q e1 e2; rw [e1, e2] at hs; cases hs
    · rw [hs] at z3; rw [h2]; exact Option.some.inj z3
  | none =>
    obtain ⟨p, q, e1, e2⟩ : ∃ p q, ieeeRange f.E a.datum = .num p ∧ ieeeRange f.E b.datum = .num q := by
      revert hs
      generalize ieeeRange f.E a.datum = x; generalize ieeeRange f.E b.datum = y
      intro hs
      rcases x with _ | s | s | p <;> rcases y with _ | t | t | q <;> simp [addSpecial] at hs
      exact ⟨p, q, rfl, rfl⟩
    obtain ⟨r, h1, h2⟩ := C29_add_partial hE2 hF hd hfmt a b p q e1 e2
    refine ⟨r, h1, ?_⟩
    rw [e1, e2] at z3
    simp only [IeeeSum] at z3
    by_cases h0 : p + q = 0
    · rw [if_pos h0] at h2 z3; rw [h2, z3]; exact Or.inl rfl
    · rw [if_neg h0] at h2 z3
      exact rounded_agree hE2 hF h0 h2 z3

theorem ieeeRange_num_ne {E : ℕ} {d : Datum} {p : ℚ} (h : ieeeRange E d = .num p) : p ≠ 0 := by
  rcases d with _ | s | s | q <;> simp only [ieeeRange] at h <;> try cases h
  split_ifs at h with h1 h2
  injection h with h
  rintro rfl
  rw [h, abs_zero] at h1
  exact h1 (by unfold ieeeMin; positivity)

theorem mul_agree (ok : f.Ok) {prod : ℕ → ℕ → Option ℕ} (hp : ProdOk f prod) (a b : Ieee f.E f.F) :
    ∃ r z, IeeeOps.mul a b = some r ∧ f.mulWith prod (flushWord f.E f.F a.bits) (flushWord f.E f.F b.bits) = some z ∧
      SameUpToFlush f.E f.F r.bits z := by
  have hE2 : 2 ≤ f.E := by have := ok.hE; omega
  have hE : 1 ≤ f.E := by omega
  have hF : 1 ≤ f.F := by have := ok.hF; omega
  have hW : f.W = 1 + f.E + f.F := by unfold W; omega
  obtain ⟨z, z1, z2, z3⟩ := mul_ieee ok hp (hW ▸ flushWord_lt a.isLt) (hW ▸ flushWord_lt b.isLt)
  rw [flushWord_datum hE hF, flushWord_datum hE hF] at z3
  suffices hs : ∃ r, IeeeOps.mul a b = some r ∧ (r.datum = wordDatum f.E f.F z ∨
      ∃ p : ℚ, wordDatum f.E f.F z = .num p ∧ |p| ≤ ieeeMin f.E ∧ r.datum = .zero (decide (p < 0))) by
    obtain ⟨r, h1, h2⟩ := hs
    exact ⟨r, z, h1, z1, agree_word ok z2 h2⟩
  cases hs : mulSpecial (ieeeRange f.E a.datum) (ieeeRange f.E b.datum) with
  | some d =>
    obtain ⟨r, h1, h2⟩ := C29_mul_special hE2 hF a b d hs
    refine ⟨r, h1, Or.inl ?_⟩
    unfold IeeeProduct at z3
    split at z3
    · rename_i p q e1 e2; rw [e1, e2] at hs; cases hs
    · rw [hs] at z3; rw [h2]; exact Option.some.inj z3
  | none =>
    obtain ⟨p, q, e1, e2⟩ : ∃ p q, ieeeRange f.E a.datum = .num p ∧ ieeeRange f.E b.datum = .num q := by
      revert hs
      generalize ieeeRange f.E a.datum = x; generalize ieeeRange f.E b.datum = y
      intro hs
      rcases x with _ | s | s | p <;> rcases y with _ | t | t | q <;> simp [mulSpecial] at hs
      exact ⟨p, q, rfl, rfl⟩
    obtain ⟨r, h1, h2⟩ := C29_mul hE2 hF a b p q e1 e2
    refine ⟨r, h1, ?_⟩
    rw [e1, e2] at z3
    exact rounded_agree hE2 hF (mul_ne_zero (ieeeRange_num_ne e1) (ieeeRange_num_ne e2)) h2 z3

theorem div_agree (ok : f.Ok) {quot : ℕ → ℕ → Bool × ℕ} (hp : QuotOk f quot) (a b : Ieee f.E f.F) :
    ∃ z, f.divWith quot (flushWord f.E f.F a.bits) (flushWord f.E f.F b.bits) = some z ∧
      SameUpToFlush f.E f.F (IeeeOps.div a b).bits z := by
  have hE2 : 2 ≤ f.E := by have := ok.hE; omega
  have hE : 1 ≤ f.E := by omega
  have hF : 1 ≤ f.F := by have := ok.hF; omega
  have hW : f.W = 1 + f.E + f.F := by unfold W; omega
  obtain ⟨z, z1, z2, z3⟩ := div_ieee ok hp (hW ▸ flushWord_lt a.isLt) (hW ▸ flushWord_lt b.isLt)
  rw [flushWord_datum hE hF, flushWord_datum hE hF] at z3
  refine ⟨z, z1, agree_word ok z2 ?_⟩
  cases hs : divSpecial (ieeeRange f.E a.datum) (ieeeRange f.E b.datum) with
  | some d =>
    have h2 := C29_div_special hE2 hF a b d hs
    refine Or.inl ?_
    unfold IeeeQuotient at z3
    split at z3
    · rename_i p q e1 e2; rw [e1, e2] at hs; cases hs
    · rw [hs] at z3; rw [h2]; exact Option.some.inj z3
  | none =>
    obtain ⟨p, q, e1, e2⟩ : ∃ p q, ieeeRange f.E a.datum = .num p ∧ ieeeRange f.E b.datum = .num q := by
      revert hs
      generalize ieeeRange f.E a.datum = x; generalize ieeeRange f.E b.datum = y
      intro hs
      rcases x with _ | s | s | p <;> rcases y with _ | t | t | q <;> simp [divSpecial] at hs
      exact ⟨p, q, rfl, rfl⟩
    rw [e1, e2] at z3
    exact rounded_agree hE2 hF (div_ne_zero (ieeeRange_num_ne e1) (ieeeRange_num_ne e2)) (C29_div hE2 hF a b p q e1 e2) z3

end SoftFmt
end Thls
