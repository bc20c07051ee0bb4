import Verif.Props.Ieee

/-! # Property C29: the IEEE arithmetic policy built on the flopoco operators

Operands are IEEE words; their denormals count as zeros (`ieeeRange`). -/

namespace Thls
open Spec

theorem mulSame_total {E F : ℕ} (hE : 1 ≤ E) (x y : Fp E F) : ∃ r : Fp E F, mulV1 E F x y = some r := by
  have h1 : biasN E < 2 ^ (E + 2) := by
    have := two_pow_pred hE
    have h2 : 2 ^ (E + 2) = 4 * 2 ^ E := by rw [pow_add]; ring
    have h3 : biasN E ≤ 2 ^ (E - 1) := by unfold biasN; exact Nat.sub_le _ _
    have h4 : 0 < 2 ^ (E - 1) := by positivity
    omega
  unfold mulV1
  dsimp only
  rw [if_neg (not_le.mpr h1)]
  by_cases h : 1 + F ≥ F + F + 2
  · rw [if_pos h, if_neg (lt_irrefl _)]; exact ⟨_, rfl⟩
  · rw [if_neg h, if_neg (by simp)]; exact ⟨_, rfl⟩

theorem mulSpecial_range {E : ℕ} {a b d : Datum} (h : mulSpecial (ieeeRange E a) (ieeeRange E b) = some d) :
    ieeeRange E d = d := by
  revert h
  generalize ieeeRange E a = a'; generalize ieeeRange E b = b'
  intro h
  rcases a' with _ | s | s | p <;> rcases b' with _ | t | t | q <;> simp [mulSpecial] at h <;> subst h <;> rfl

theorem divSpecial_range {E : ℕ} {a b d : Datum} (h : divSpecial (ieeeRange E a) (ieeeRange E b) = some d) :
    ieeeRange E d = d := by
  revert h
  generalize ieeeRange E a = a'; generalize ieeeRange E b = b'
  intro h
  rcases a' with _ | s | s | p <;> rcases b' with _ | t | t | q <;> simp [divSpecial] at h <;> subst h <;> rfl

theorem addSpecial_range {E : ℕ} {a b d : Datum} (h : addSpecial (ieeeRange E a) (ieeeRange E b) = some d) :
    ieeeRange E d = d := by
  have ha := ieeeRange_idem E a
  have hb := ieeeRange_idem E b
  revert h ha hb
  generalize ieeeRange E a = a'; generalize ieeeRange E b = b'
  intro h ha hb
  rcases a' with _ | s | s | p <;> rcases b' with _ | t | t | q <;> simp [addSpecial] at h <;> subst h
  all_goals first | rfl | exact ha | exact hb | (split_ifs <;> rfl)

/-- **C29, products.** For every IEEE format the product of two words with normal values is defined and is the
real product rounded to nearest even, with results below the normal range flushed to zero. -/
theorem C29_mul {E F : ℕ} (hE : 2 ≤ E) (hF : 1 ≤ F) (a b : Ieee E F) (va vb : ℚ)
    (ha : ieeeRange E a.datum = .num va) (hb : ieeeRange E b.datum = .num vb) :
    ∃ r, IeeeOps.mul a b = some r ∧ IeeeRounded E F (va * vb) r.datum := by
  obtain ⟨r, h1, h2⟩ := C10_mul_correctly_rounded hE hF hF hF (by omega) (ieeeToFlopoco a) (ieeeToFlopoco b) va vb
    (by rw [ieeeToFlopoco_datum (by omega) hF, ha]) (by rw [ieeeToFlopoco_datum (by omega) hF, hb])
  refine ⟨flopocoToIeee r, by unfold IeeeOps.mul; rw [h1]; rfl, ?_⟩
  rw [flopocoToIeee_datum hE hF]
  exact ieee_range_of_rounded (by omega) h2

/-- **C29, products of special values.** -/
theorem C29_mul_special {E F : ℕ} (hE : 2 ≤ E) (hF : 1 ≤ F) (a b : Ieee E F) (d : Datum)
    (hd : mulSpecial (ieeeRange E a.datum) (ieeeRange E b.datum) = some d) :
    ∃ r, IeeeOps.mul a b = some r ∧ r.datum = d := by
  obtain ⟨r, h1⟩ := mulSame_total (by omega : 1 ≤ E) (ieeeToFlopoco a) (ieeeToFlopoco b)
  refine ⟨flopocoToIeee r, by unfold IeeeOps.mul; rw [h1]; rfl, ?_⟩
  rw [flopocoToIeee_datum hE hF, C12_mul_exceptions (by omega) hF (by omega) _ _ r h1 d ?_]
  · exact mulSpecial_range hd
  · rw [ieeeToFlopoco_datum (by omega) hF, ieeeToFlopoco_datum (by omega) hF]; exact hd

/-- **C29, sums (partial).** Missing: the formats in which the adder asserts (C19). In the formats the dual-path adder supports the sum of two words with normal values is defined
and is the real sum rounded to nearest even (`+0` if it vanishes), with results below the normal range
flushed to zero. -/
theorem C29_add_partial {E F : ℕ} (hE : 2 ≤ E) (hF : 1 ≤ F) (hok : DualFormat E F) (hfmt : F ≤ 2 ^ (E + 1))
    (a b : Ieee E F) (va vb : ℚ)
    (ha : ieeeRange E a.datum = .num va) (hb : ieeeRange E b.datum = .num vb) :
    ∃ r, IeeeOps.add a b = some r ∧
      if va + vb = 0 then r.datum = .zero false else IeeeRounded E F (va + vb) r.datum := by
  obtain ⟨r, h1, h2, h3⟩ := AddDual.addSame_num hE hF hok (by rw [pow_succ] at hfmt; omega)
    (x := ieeeToFlopoco a) (y := ieeeToFlopoco b) (vx := va) (vy := vb)
    (by rw [ieeeToFlopoco_datum (by omega) hF, ha]) (by rw [ieeeToFlopoco_datum (by omega) hF, hb])
  refine ⟨flopocoToIeee r, by unfold IeeeOps.add; rw [h1]; rfl, ?_⟩
  rw [flopocoToIeee_datum hE hF]
  by_cases h0 : va + vb = 0
  · rw [if_pos h0, h2 h0]; rfl
  · rw [if_neg h0]; exact ieee_range_of_rounded (by omega) (h3 h0)

/-- **C29, sums of special values (partial:** same formats as above**).** -/
theorem C29_add_special_partial {E F : ℕ} (hE : 2 ≤ E) (hF : 1 ≤ F) (hok : DualFormat E F) (a b : Ieee E F) (d : Datum)
    (hd : addSpecial (ieeeRange E a.datum) (ieeeRange E b.datum) = some d) :
    ∃ r, IeeeOps.add a b = some r ∧ r.datum = d := by
  obtain ⟨r, h1, h2⟩ := AddDual.addSame_special hE hF hok (x := ieeeToFlopoco a) (y := ieeeToFlopoco b) (d := d)
    (by rw [ieeeToFlopoco_datum (by omega) hF, ieeeToFlopoco_datum (by omega) hF]; exact hd)
  refine ⟨flopocoToIeee r, by unfold IeeeOps.add; rw [h1]; rfl, ?_⟩
  rw [flopocoToIeee_datum hE hF, h2]
  exact addSpecial_range hd

/-- **C29, quotients.** -/
theorem C29_div {E F : ℕ} (hE : 2 ≤ E) (hF : 1 ≤ F) (a b : Ieee E F) (va vb : ℚ)
    (ha : ieeeRange E a.datum = .num va) (hb : ieeeRange E b.datum = .num vb) :
    IeeeRounded E F (va / vb) (IeeeOps.div a b).datum := by
  unfold IeeeOps.div
  rw [flopocoToIeee_datum hE hF]
  refine ieee_range_of_rounded (by omega)
    (C20_div_correctly_rounded hE (by omega) hF (by omega) hF ⟨le_rfl, le_rfl⟩ ⟨le_rfl, le_rfl⟩ _ _ va vb ?_ ?_)
  · rw [ieeeToFlopoco_datum (by omega) hF, ha]
  · rw [ieeeToFlopoco_datum (by omega) hF, hb]

/-- **C29, quotients of special values.** -/
theorem C29_div_special {E F : ℕ} (hE : 2 ≤ E) (hF : 1 ≤ F) (a b : Ieee E F) (d : Datum)
    (hd : divSpecial (ieeeRange E a.datum) (ieeeRange E b.datum) = some d) :
    (IeeeOps.div a b).datum = d := by
  unfold IeeeOps.div
  rw [flopocoToIeee_datum hE hF, C22_div_exceptions (by omega) hF (by omega) hF ⟨le_rfl, le_rfl⟩ ⟨le_rfl, le_rfl⟩ _ _ d ?_]
  · exact divSpecial_range hd
  · rw [ieeeToFlopoco_datum (by omega) hF, ieeeToFlopoco_datum (by omega) hF]; exact hd

/-- **C29, comparisons.** For words that are not NaN the six comparisons agree with the order of the extended
reals (the two zeros and all denormals being equal); with a NaN operand only `!=` holds. -/
theorem C29_comparisons {E F : ℕ} (hE : 2 ≤ E) (hF : 1 ≤ F) (a b : Ieee E F) :
    (a.datum ≠ .nan → b.datum ≠ .nan →
      (IeeeOps.lt a b = true ↔ (ieeeRange E a.datum).Lt (ieeeRange E b.datum)) ∧
      (IeeeOps.le a b = true ↔ (ieeeRange E a.datum).Lt (ieeeRange E b.datum) ∨ (ieeeRange E a.datum).RealEq (ieeeRange E b.datum)) ∧
      (IeeeOps.gt a b = true ↔ (ieeeRange E b.datum).Lt (ieeeRange E a.datum)) ∧
      (IeeeOps.ge a b = true ↔ (ieeeRange E b.datum).Lt (ieeeRange E a.datum) ∨ (ieeeRange E a.datum).RealEq (ieeeRange E b.datum)) ∧
      (IeeeOps.eq a b = true ↔ (ieeeRange E a.datum).RealEq (ieeeRange E b.datum)) ∧
      (IeeeOps.ne a b = true ↔ ¬ (ieeeRange E a.datum).RealEq (ieeeRange E b.datum))) ∧
    (a.datum = .nan ∨ b.datum = .nan →
      IeeeOps.lt a b = false ∧ IeeeOps.le a b = false ∧ IeeeOps.gt a b = false ∧ IeeeOps.ge a b = false ∧
      IeeeOps.eq a b = false ∧ IeeeOps.ne a b = true) := by
  have hE1 : 1 ≤ E := by omega
  have hr : ∀ d : Datum, ieeeRange E d = .nan ↔ d = .nan := by
    intro d; cases d <;> simp [ieeeRange]
    split_ifs <;> simp
  constructor
  · intro ha hb
    have := C25_comparisons_real_order_partial hE1 hF hE1 hF (ieeeToFlopoco a) (ieeeToFlopoco b)
      (by rw [ieeeToFlopoco_datum hE1 hF, ne_eq, hr]; exact ha) (by rw [ieeeToFlopoco_datum hE1 hF, ne_eq, hr]; exact hb) ?_
    · unfold ComparesLikeReals at this
      rw [ieeeToFlopoco_datum hE1 hF, ieeeToFlopoco_datum hE1 hF] at this
      exact this
    · have hi : ∀ (c : Ieee E F) s, (ieeeToFlopoco c).datum = .inf s → c.exp = 2 ^ E - 1 ∧ c.frac = 0 := by
        intro c s h
        rw [ieeeToFlopoco_datum hE1 hF, ieee_flushed hE1 hF] at h
        split_ifs at h with h1 h2 h3 <;> exact ⟨h2, h3⟩
      intro s h1 h2
      obtain ⟨-, -, e1, f1⟩ := ieeeToFlopoco_fields hE1 hF a
      obtain ⟨-, -, e2, f2⟩ := ieeeToFlopoco_fields hE1 hF b
      obtain ⟨p1, p2⟩ := hi a s h1
      obtain ⟨q1, q2⟩ := hi b s h2
      rw [e1, f1, e2, f2, p1, p2, q1, q2]
      simp
  · intro h
    refine C25_comparisons_nan hE1 hF hE1 hF (ieeeToFlopoco a) (ieeeToFlopoco b) ?_
    rw [ieeeToFlopoco_datum hE1 hF, ieeeToFlopoco_datum hE1 hF, hr, hr]
    exact h

/-- The hypotheses are met: 1.5 and -1.25 are normal IEEE words, and the format passes the adder's conditions. -/
example : ieeeRange 5 (Ieee.mk3 5 10 0 15 512).datum = .num (3 / 2) ∧
    ieeeRange 5 (Ieee.mk3 5 10 1 15 256).datum = .num (-5 / 4) ∧ DualFormat 5 10 ∧ 10 < 2 ^ (5 + 1) := by
  refine ⟨?_, ?_, ?_, by norm_num⟩
  · rw [Ieee.mk3_datum (by decide) (by decide) (by decide) (by decide) (by decide)]
    norm_num [ieeeDenote, ieeeRange, ieeeMin, ieeeLimit, bias, abs_of_pos]
  · rw [Ieee.mk3_datum (by decide) (by decide) (by decide) (by decide) (by decide)]
    norm_num [ieeeDenote, ieeeRange, ieeeMin, ieeeLimit, bias, abs_of_neg]
  · intro k hk
    exfalso
    have h1 : 3 < k := by by_contra h; have : 2 ^ k ≤ 2 ^ 3 := Nat.pow_le_pow_right (by norm_num) (by omega); omega
    have h2 : 2 ^ 4 ≤ 2 ^ k := Nat.pow_le_pow_right (by norm_num) (by omega)
    omega

example : IeeeOps.add (Ieee.mk3 5 10 0 15 512) (Ieee.mk3 5 10 1 15 256) = some (Ieee.mk3 5 10 0 13 0) := by decide +kernel
example : IeeeOps.mul (Ieee.mk3 5 10 0 15 512) (Ieee.mk3 5 10 1 15 256) = some (Ieee.mk3 5 10 1 15 896) := by decide +kernel

end Thls
