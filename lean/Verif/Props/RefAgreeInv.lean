import Verif.Proofs.RefAgree
import Verif.Props.Inv

/-! # Property C54: `inv_faithful` against `ref_inv_faithful` -/

namespace Thls
open Spec Inv

theorem pow_isSig (F : ℕ) : IsSig (F + 1) (2 ^ F) := by
  refine ⟨by simp, ?_⟩
  rw [pow_succ 2]
  have : 0 < 2 ^ F := by positivity
  omega

/-- A significand of a value in the range of the format is in the range. -/
theorem sig_in_range {E F m : ℕ} {e : ℤ} (hm : IsSig (F + 1) m) (hlo : (2 : ℚ) ^ (-bias E) ≤ m * 2 ^ e)
    (hhi : (m : ℚ) * 2 ^ e < 2 ^ ((2 : ℤ) ^ E - bias E)) : 0 ≤ e + F + bias E ∧ e + F + bias E < 2 ^ E := by
  have h1 : (m : ℚ) < 2 ^ (F + 1) := by exact_mod_cast hm.2
  have h2 : (2 : ℚ) ^ F ≤ m := by have := hm.1; rw [Nat.add_sub_cancel] at this; exact_mod_cast this
  have hp : (0 : ℚ) < 2 ^ e := two_zpow_pos e
  have h3 : (2 : ℚ) ^ (e + F + 1) = 2 ^ (F + 1) * 2 ^ e := by
    rw [← zpow_natCast, ← zpow_add₀ (by norm_num)]; congr 1; push_cast; ring
  have h4 : (2 : ℚ) ^ (e + F) = 2 ^ F * 2 ^ e := by
    rw [← zpow_natCast, ← zpow_add₀ (by norm_num)]; congr 1; ring
  have h5 : (2 : ℚ) ^ (-bias E) < 2 ^ (e + F + 1) := by
    rw [h3]; exact lt_of_le_of_lt hlo (mul_lt_mul_of_pos_right h1 hp)
  have h6 : (2 : ℚ) ^ (e + F) < 2 ^ ((2 : ℤ) ^ E - bias E) := by
    rw [h4]; exact lt_of_le_of_lt (mul_le_mul_of_nonneg_right h2 hp.le) hhi
  have h7 := (zpow_lt_zpow_iff_right₀ (by norm_num : (1 : ℚ) < 2)).mp h5
  have h8 := (zpow_lt_zpow_iff_right₀ (by norm_num : (1 : ℚ) < 2)).mp h6
  omega

/-- A faithful result inside the range is one of the two directed roundings. -/
theorem faithful_directed {E F : ℕ} {x q : ℚ} {d1 d2 : Datum} (hf : Faithful E F x (.num q))
    (hlo : (2 : ℚ) ^ (-bias E) ≤ |x|) (hhi : |x| < 2 ^ ((2 : ℤ) ^ E - bias E))
    (h1 : DeliversDirected E F false (.num x) d1) (h2 : DeliversDirected E F true (.num x) d2) :
    d1 = .num q ∨ d2 = .num q := by
  obtain ⟨q', hq', hrep, hbet⟩ := hf
  obtain ⟨rfl, hq0, hsg⟩ : q = q' ∧ q' ≠ 0 ∧ (q' < 0 ↔ x < 0) := by
    rcases hq' with ⟨h, h0, hs⟩ | ⟨h, -⟩
    · exact ⟨Datum.num.inj h, h0, hs⟩
    · simp at h
  have hx0 : x ≠ 0 := by
    intro h; rw [h, abs_zero] at hlo
    exact absurd hlo (not_le.mpr (two_zpow_pos _))
  -- the toward-zero and away-from-zero roundings
  have hdir : ∃ da db, (d1 = da ∧ d2 = db ∨ d1 = db ∧ d2 = da) ∧
      (∃ (m : ℕ) (e : ℤ), IsSig (F + 1) m ∧ da = rangeCheck E F (decide (x < 0)) m e ∧ (m : ℚ) * 2 ^ e ≤ |x| ∧
        ∀ (m' : ℕ) (e' : ℤ), IsSig (F + 1) m' → (m' : ℚ) * 2 ^ e' ≤ |x| → (m' : ℚ) * 2 ^ e' ≤ m * 2 ^ e) ∧
      (∃ (m : ℕ) (e : ℤ), IsSig (F + 1) m ∧ db = rangeCheck E F (decide (x < 0)) m e ∧ |x| ≤ (m : ℚ) * 2 ^ e ∧
        ∀ (m' : ℕ) (e' : ℤ), IsSig (F + 1) m' → |x| ≤ (m' : ℚ) * 2 ^ e' → (m : ℚ) * 2 ^ e ≤ m' * 2 ^ e') := by
    obtain ⟨m1, e1, s1, r1, k1⟩ := h1
    obtain ⟨m2, e2, s2, r2, k2⟩ := h2
    by_cases hneg : x < 0
    · rw [if_neg (by simp [hneg])] at k1
      rw [if_pos (by simp [hneg])] at k2
      exact ⟨d2, d1, Or.inr ⟨rfl, rfl⟩, ⟨m2, e2, s2, r2, k2⟩, ⟨m1, e1, s1, r1, k1⟩⟩
    · rw [if_pos (by simp [hneg])] at k1
      rw [if_neg (by simp [hneg])] at k2
      exact ⟨d1, d2, Or.inl ⟨rfl, rfl⟩, ⟨m1, e1, s1, r1, k1⟩, ⟨m2, e2, s2, r2, k2⟩⟩
  obtain ⟨da, db, hab, ⟨ma, ea, sa, ra, la, ma'⟩, ⟨mb, eb, sb, rb, lb, mb'⟩⟩ := hdir
  obtain ⟨mq, eq, sq, hq1, hq2, hqv⟩ := hrep.resolve_left hq0
  have min_sig : IsSig (F + 1) (2 ^ F) := pow_isSig F
  have min_val : ((2 ^ F : ℕ) : ℚ) * 2 ^ (-bias E - F) = 2 ^ (-bias E) := by
    push_cast; rw [← zpow_natCast, ← zpow_add₀ (by norm_num)]; congr 1; ring
  -- a representable magnitude with the sign of x
  have key : ∀ (m : ℕ) (e : ℤ), IsSig (F + 1) m → (2 : ℚ) ^ (-bias E) ≤ m * 2 ^ e → (m : ℚ) * 2 ^ e < 2 ^ ((2 : ℤ) ^ E - bias E) →
      (|q| = m * 2 ^ e → rangeCheck E F (decide (x < 0)) m e = .num q) ∧
      ¬ (|q| < m * 2 ^ e ∧ (m : ℚ) * 2 ^ e ≤ |x|) ∧ ¬ (|x| ≤ m * 2 ^ e ∧ (m : ℚ) * 2 ^ e < |q|) := by
    intro m e hs h3 h4
    obtain ⟨i1, i2⟩ := sig_in_range hs h3 h4
    have hpos : (0 : ℚ) < m * 2 ^ e := lt_of_lt_of_le (two_zpow_pos _) h3
    refine ⟨?_, ?_⟩
    · intro hqe
      rw [rangeCheck, if_neg (by omega), if_neg (by omega), ← hqe]
      by_cases hneg : x < 0
      · simp only [hneg, decide_true, if_true]; rw [abs_of_neg (hsg.mpr hneg)]; simp
      · have : 0 ≤ q := not_lt.mp (fun h => hneg (hsg.mp h))
        simp only [hneg, decide_false, if_false, Bool.false_eq_true]; rw [abs_of_nonneg this]; simp
    · by_cases hneg : x < 0
      · have b := hbet (-(m * 2 ^ e)) (Or.inr ⟨m, e, hs, i1, i2, by rw [abs_neg, abs_of_pos hpos]⟩)
        rw [abs_of_neg (hsg.mpr hneg), abs_of_neg hneg]
        constructor
        · rintro ⟨u1, u2⟩; exact b.2 ⟨by linarith, by linarith⟩
        · rintro ⟨u1, u2⟩; exact b.1 ⟨by linarith, by linarith⟩
      · have hq' : 0 ≤ q := not_lt.mp (fun h => hneg (hsg.mp h))
        have b := hbet (m * 2 ^ e) (Or.inr ⟨m, e, hs, i1, i2, by rw [abs_of_pos hpos]⟩)
        rw [abs_of_nonneg hq', abs_of_nonneg (not_lt.mp hneg)]
        constructor
        · rintro ⟨u1, u2⟩; exact b.1 ⟨by linarith, by linarith⟩
        · rintro ⟨u1, u2⟩; exact b.2 ⟨by linarith, by linarith⟩
  have hqlt : |q| < 2 ^ ((2 : ℤ) ^ E - bias E) := by
    rw [hqv]
    have h1 : (mq : ℚ) < 2 ^ (F + 1) := by exact_mod_cast sq.2
    calc (mq : ℚ) * 2 ^ eq < 2 ^ (F + 1) * 2 ^ eq := mul_lt_mul_of_pos_right h1 (two_zpow_pos _)
      _ = 2 ^ (eq + F + 1) := by rw [← zpow_natCast, ← zpow_add₀ (by norm_num)]; congr 1; push_cast; ring
      _ ≤ _ := zpow_le_zpow_right₀ (by norm_num) (by omega)
  have hfin : da = .num q ∨ db = .num q := by
    rcases le_or_gt |q| |x| with hle | hgt
    · left
      have g1 := ma' (2 ^ F) (-bias E - F) min_sig (by rw [min_val]; exact hlo)
      rw [min_val] at g1
      obtain ⟨k1, k2, -⟩ := key ma ea sa g1 (lt_of_le_of_lt la hhi)
      rw [ra]
      apply k1
      have g2 := ma' mq eq sq (by rw [← hqv]; exact hle)
      rw [← hqv] at g2
      rcases lt_or_eq_of_le g2 with h | h
      · exact absurd ⟨h, la⟩ k2
      · exact h
    · right
      have g2 := mb' mq eq sq (by rw [← hqv]; exact hgt.le)
      rw [← hqv] at g2
      obtain ⟨k1, -, k3⟩ := key mb eb sb (le_trans hlo lb) (lt_of_le_of_lt g2 hqlt)
      rw [rb]
      apply k1
      rcases lt_or_eq_of_le g2 with h | h
      · exact absurd ⟨lb, h⟩ k3
      · exact h.symm
  rcases hab with ⟨rfl, rfl⟩ | ⟨rfl, rfl⟩
  · exact hfin
  · exact hfin.symm

/-- Both directed roundings of a value at most half the smallest number are zero. -/
theorem directed_tiny {E F : ℕ} {x : ℚ} {d : Datum} (up : Bool) (hx0 : x ≠ 0) (hx : |x| ≤ 2 ^ (-bias E - 1))
    (h : DeliversDirected E F up (.num x) d) : d = .zero (decide (x < 0)) := by
  obtain ⟨m, e, hs, hd, hk⟩ := h
  have hle : (m : ℚ) * 2 ^ e ≤ 2 ^ (-bias E - 1) := by
    split_ifs at hk
    · exact le_trans hk.1 hx
    · have min_sig : IsSig (F + 1) (2 ^ F) := pow_isSig F
      have min_val : ((2 ^ F : ℕ) : ℚ) * 2 ^ (-bias E - 1 - F) = 2 ^ (-bias E - 1) := by
        push_cast; rw [← zpow_natCast, ← zpow_add₀ (by norm_num)]; congr 1; ring
      have := hk.2 (2 ^ F) (-bias E - 1 - F) min_sig (by rw [min_val]; exact hx)
      rwa [min_val] at this
  have h2 : (2 : ℚ) ^ F ≤ m := by have := hs.1; rw [Nat.add_sub_cancel] at this; exact_mod_cast this
  have h4 : (2 : ℚ) ^ (e + F) ≤ 2 ^ (-bias E - 1) := by
    rw [show (2 : ℚ) ^ (e + F) = 2 ^ F * 2 ^ e by
      rw [← zpow_natCast, ← zpow_add₀ (by norm_num)]; congr 1; ring]
    exact le_trans (mul_le_mul_of_nonneg_right h2 (two_zpow_pos e).le) hle
  have h5 := (zpow_le_zpow_iff_right₀ (by norm_num : (1 : ℚ) < 2)).mp h4
  rw [hd, rangeCheck, if_pos (by omega)]

/-- **C54.** `inv_faithful` returns one of the two values of `ref_inv_faithful`, for every encoding except numbers of magnitude
strictly between `2^bias` and `2^(bias+1)`. Missing: those (`C30_faithful_wrap_wrong`). -/
theorem C54_inv_faithful_agrees_partial {E FY FR : ℕ} (hE : 2 ≤ E) (y : Fp E FY) (z : Fp E FR)
    (hz : tableNewtonFp FR y = some z)
    (hv : ∀ v, y.datum = .num v → |v| ≤ 2 ^ bias E ∨ 2 ^ (bias E + 1) ≤ |v|) :
    ∃ r1 r2, refInvFaithful E FR y = (some r1, some r2) ∧ (z.equals r1 = true ∨ z.equals r2 = true) := by
  obtain ⟨h7, h62, h8, hS⟩ := tableNewtonFp_some hz
  obtain ⟨r1, r2, hr, d1, d2⟩ := C53_ref_inv_faithful (ER := E) (FR := FR) (by omega) (by omega) y
  refine ⟨r1, r2, hr, ?_⟩
  rw [C07_equals_iff_same_datum (by omega) (by omega), C07_equals_iff_same_datum (by omega) (by omega)]
  obtain ⟨e1, e2, e3⟩ := C30_faithful_exceptions (by omega) y z hz
  cases hd : y.datum with
  | nan =>
    rw [hd] at d1
    left; rw [e3 hd]; exact Eq.symm d1
  | inf s =>
    rw [hd] at d1
    left; rw [e2 s hd]
    cases s <;> exact Eq.symm d1
  | zero s =>
    rw [hd] at d1
    left; rw [e1 s hd]
    cases s <;> exact Eq.symm d1
  | num v =>
    have hv0 := fp_num_ne_zero hd
    have hva := abs_pos.mpr hv0
    rw [hd] at d1 d2
    change DeliversDirected E FR false (.num (1 / v)) r1.datum at d1
    change DeliversDirected E FR true (.num (1 / v)) r2.datum at d2
    obtain ⟨hb1, hb2⟩ := bias_bounds hE
    obtain ⟨g1, g2, -⟩ := mag_bounds (by omega : 1 ≤ FY) hd
    have hexp := y.exp_lt (by omega : 1 ≤ E)
    have hexp' : (y.exp : ℤ) < 2 ^ E := by exact_mod_cast hexp
    have habs : |1 / v| = 1 / |v| := by rw [abs_div, abs_one]
    rcases hv v hd with h | h
    · have hf := C30_faithful_partial hE y z v hz hd (Or.inl h)
      have hlo : (2 : ℚ) ^ (-bias E) ≤ |1 / v| := by
        rw [habs, zpow_neg, ← one_div]
        exact one_div_le_one_div_of_le hva h
      have hhi : |1 / v| < 2 ^ ((2 : ℤ) ^ E - bias E) := by
        have k1 : (2 : ℚ) ^ (-bias E) ≤ |v| := le_trans (zpow_le_zpow_right₀ (by norm_num) (by omega)) g1
        have k2 : 1 / |v| ≤ 2 ^ bias E := by
          rw [show (2 : ℚ) ^ bias E = 1 / 2 ^ (-bias E) by rw [zpow_neg, one_div, inv_inv]]
          exact one_div_le_one_div_of_le (two_zpow_pos _) k1
        rw [habs]
        exact lt_of_le_of_lt k2 (zpow_lt_zpow_right₀ (by norm_num) (by omega))
      have hq : ∃ q, z.datum = .num q := by
        obtain ⟨q, hq, -, hbet⟩ := hf
        rcases hq with ⟨h', -⟩ | ⟨-, h0⟩
        · exact ⟨q, h'⟩
        · exfalso
          subst h0
          have min_sig : IsSig (FR + 1) (2 ^ FR) := pow_isSig FR
          have min_val : ((2 ^ FR : ℕ) : ℚ) * 2 ^ (-bias E - FR) = 2 ^ (-bias E) := by
            push_cast; rw [← zpow_natCast, ← zpow_add₀ (by norm_num)]; congr 1; ring
          have hp := two_zpow_pos (-bias E)
          have hr0 : Representable E FR ((2 : ℚ) ^ (-bias E)) :=
            Or.inr ⟨2 ^ FR, -bias E - FR, min_sig, by omega, by omega, by rw [min_val, abs_of_pos hp]⟩
          rcases lt_or_gt_of_ne (one_div_ne_zero hv0) with hn | hn
          · rw [abs_of_neg hn] at hlo
            exact (hbet _ (representable_neg hr0)).2 ⟨by linarith, by linarith⟩
          · rw [abs_of_pos hn] at hlo
            exact (hbet _ hr0).1 ⟨hp, hlo⟩
      obtain ⟨q, hq⟩ := hq
      rw [hq] at hf ⊢
      rcases faithful_directed hf hlo hhi d1 d2 with k | k
      · left; exact k.symm
      · right; exact k.symm
    · left
      have hsm : |1 / v| ≤ 2 ^ (-bias E - 1) := by
        rw [habs, show -bias E - 1 = -(bias E + 1) by ring, zpow_neg, ← one_div]
        exact one_div_le_one_div_of_le (two_zpow_pos _) h
      rw [directed_tiny false (one_div_ne_zero hv0) hsm d1]
      obtain ⟨r, hr, -, -⟩ := tableNewtonFp_eq (by omega) y h7 h62 h8 hS
      rw [hz] at hr
      injection hr with hr
      rw [hr, result_datum (by omega) (by omega) y _ (exp_sel_lt baseExp_lt)]
      have he := exp_of_large hE (by omega) hd h
      have hf1 := (datum_num_iff.mp hd).1
      have hfl : resultFlags E y.flags y.exp = 0 := by
        unfold resultFlags; rw [hf1]; simp [he]
      rw [hfl]
      have hsg : (y.sign = 1) ↔ 1 / v < 0 := by
        rw [one_div_neg]
        obtain ⟨-, rfl⟩ := datum_num_iff.mp hd
        have := sig_scaled_pos FY y.frac ((y.exp : ℤ) - bias E - FY)
        by_cases hs : y.sign = 1
        · simp only [hs, if_true, true_iff]; linarith
        · simp only [hs, if_false, false_iff, not_lt]; linarith
      simp only [denote, hsg]

/-- The reciprocal of 1.5 in half precision is the lower of the two reference values. -/
example : tableNewtonFp 10 (Fp.mk4 5 10 1 0 15 512) = some (Fp.mk4 5 10 1 0 14 341) ∧
    (∀ v, (Fp.mk4 5 10 1 0 15 512).datum = .num v → |v| ≤ 2 ^ bias 5 ∨ 2 ^ (bias 5 + 1) ≤ |v|) := by
  refine ⟨by decide +kernel, ?_⟩
  intro v hv
  rw [Fp.mk4_datum (by decide) (by decide) (by decide) (by decide) (by decide) (by decide)] at hv
  left
  norm_num [denote, bias, zpow_neg] at hv ⊢
  rw [← hv]; norm_num

end Thls
