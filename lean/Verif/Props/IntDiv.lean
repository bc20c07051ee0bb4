import Verif.Props.RoundInt
import Verif.Props.Thresholds
import Verif.Proofs.SoftDiv

/-! # Property C116: integer quotients from rounded quotients -/

namespace Thls
open Spec

variable {E F : ℕ}

/-- A relative error of `u` does not take the quotient of two integers, the dividend below `1/u`, across or onto an integer. -/
theorem quotient_between {u w : ℚ} {a b : ℤ} (hu : 0 < u) (ha : u * |(a : ℚ)| < 1) (hb : b ≠ 0) (hw : |w - (a : ℚ) / b| ≤ u * |(a : ℚ) / b|) (hd : ¬ b ∣ a) :
    ∃ q : ℤ, (q : ℚ) < (a : ℚ) / b ∧ (a : ℚ) / b < q + 1 ∧ (q : ℚ) < w ∧ w < q + 1 := by
  obtain ⟨a', b', hb', hab, habs, hd'⟩ : ∃ a' b' : ℤ, 0 < b' ∧ (a : ℚ) / b = (a' : ℚ) / b' ∧ |(a' : ℚ)| = |(a : ℚ)| ∧ ¬ b' ∣ a' := by
    rcases lt_or_gt_of_ne hb with h | h
    · refine ⟨-a, -b, by omega, by push_cast; rw [neg_div_neg_eq], by push_cast; rw [abs_neg], ?_⟩
      rwa [neg_dvd, dvd_neg]
    · exact ⟨a, b, h, rfl, rfl, hd⟩
  rw [hab] at hw ⊢
  have hbq : (0 : ℚ) < b' := by exact_mod_cast hb'
  have hr1 := Int.emod_add_mul_ediv a' b'
  have hr2 := Int.emod_nonneg a' hb'.ne'
  have hr3 := Int.emod_lt_of_pos a' hb'
  have hr0 : a' % b' ≠ 0 := fun h => hd' (Int.dvd_of_emod_eq_zero h)
  have l1 : a' / b' * b' + 1 ≤ a' := by linarith [mul_comm (a' / b') b', show 1 ≤ a' % b' by omega]
  have l2 : a' ≤ (a' / b' + 1) * b' - 1 := by linarith [mul_comm (a' / b') b', show a' % b' ≤ b' - 1 by omega]
  have q1 : (((a' / b' : ℤ) : ℚ)) + 1 / b' ≤ (a' : ℚ) / b' := by
    rw [le_div_iff₀ hbq, add_mul, div_mul_cancel₀ _ hbq.ne']; exact_mod_cast l1
  have q2 : (a' : ℚ) / b' ≤ ((a' / b' : ℤ) : ℚ) + 1 - 1 / b' := by
    rw [div_le_iff₀ hbq, sub_mul, div_mul_cancel₀ _ hbq.ne']; exact_mod_cast l2
  have he : u * |(a' : ℚ) / b'| < 1 / b' := by
    rw [abs_div, abs_of_pos hbq, habs, ← mul_div_assoc]
    exact div_lt_div_of_pos_right ha hbq
  have h1 : (0 : ℚ) < 1 / b' := by positivity
  have hw' := abs_le.mp hw
  exact ⟨a' / b', by linarith, by linarith, by linarith, by linarith⟩

/-- The same in terms of rounding to integers. -/
theorem quotient_floor {u w : ℚ} {a b : ℤ} (hu : 0 < u) (ha : u * |(a : ℚ)| < 1) (hb : b ≠ 0) (hw : |w - (a : ℚ) / b| ≤ u * |(a : ℚ) / b|)
    (hx : b ∣ a → w = (a : ℚ) / b) :
    ⌊w⌋ = ⌊(a : ℚ) / b⌋ ∧ ⌈w⌉ = ⌈(a : ℚ) / b⌉ ∧ ((∃ n : ℤ, w = n) ↔ b ∣ a) := by
  have hbq : (b : ℚ) ≠ 0 := by exact_mod_cast hb
  by_cases hd : b ∣ a
  · rw [hx hd]
    obtain ⟨c, rfl⟩ := hd
    exact ⟨rfl, rfl, ⟨fun _ => ⟨c, rfl⟩, fun _ => ⟨c, by push_cast; field_simp⟩⟩⟩
  · obtain ⟨q, h1, h2, h3, h4⟩ := quotient_between hu ha hb hw hd
    have f1 : ⌊w⌋ = q := Int.floor_eq_iff.mpr ⟨h3.le, h4⟩
    have f2 : ⌊(a : ℚ) / b⌋ = q := Int.floor_eq_iff.mpr ⟨h1.le, h2⟩
    have c1 : ⌈w⌉ = q + 1 := Int.ceil_eq_iff.mpr ⟨by push_cast; linarith, by push_cast; linarith⟩
    have c2 : ⌈(a : ℚ) / b⌉ = q + 1 := Int.ceil_eq_iff.mpr ⟨by push_cast; linarith, by push_cast; linarith⟩
    refine ⟨f1.trans f2.symm, c1.trans c2.symm, ⟨fun ⟨n, hn⟩ => ?_, fun h => absurd h hd⟩⟩
    rw [hn] at h3 h4
    have k1 : q < n := by exact_mod_cast h3
    have k2 : n < q + 1 := by exact_mod_cast h4
    omega

theorem uro_int {F : ℕ} {a : ℤ} (ha : |a| < 2 ^ (F + 1)) : uro F * |(a : ℚ)| < 1 := by
  have h1 : |(a : ℚ)| < 2 ^ (F + 1) := by exact_mod_cast ha
  have h2 : uro F * 2 ^ (F + 1) = 1 := by
    unfold uro
    rw [← zpow_natCast, ← zpow_add₀ (by norm_num), show -(F : ℤ) - 1 + ((F + 1 : ℕ) : ℤ) = 0 by push_cast; ring, zpow_zero]
  have := mul_lt_mul_of_pos_left h1 (uro_pos F)
  linarith

/-- The magnitude of a quotient of such integers. -/
theorem quotient_magnitude {F : ℕ} {a b : ℤ} (ha0 : a ≠ 0) (ha : |a| < 2 ^ (F + 1)) (hb0 : b ≠ 0) (hb : |b| ≤ 2 ^ (F + 1)) :
    (2 : ℚ) ^ (-(F : ℤ) - 1) ≤ |(a : ℚ) / b| ∧ |(a : ℚ) / b| < 2 ^ (F + 1) := by
  have h1 : (1 : ℚ) ≤ |(a : ℚ)| := by exact_mod_cast Int.one_le_abs ha0
  have h2 : (1 : ℚ) ≤ |(b : ℚ)| := by exact_mod_cast Int.one_le_abs hb0
  have h3 : |(a : ℚ)| < 2 ^ (F + 1) := by exact_mod_cast ha
  have h4 : |(b : ℚ)| ≤ 2 ^ (F + 1) := by exact_mod_cast hb
  have h5 : (0 : ℚ) < |(b : ℚ)| := by linarith
  rw [abs_div]
  constructor
  · rw [show -(F : ℤ) - 1 = -((F + 1 : ℕ) : ℤ) by push_cast; ring, zpow_neg, zpow_natCast, ← one_div]
    exact div_le_div₀ (by linarith) h1 h5 h4
  · rw [div_lt_iff₀ h5]
    nlinarith

/-- **C116.** Let `x` stand for the integer `a`, `|a| < 2^(F+1)`, and `y` for the integer `b`, `0 < |b| ≤ 2^(F+1)`. The rounded quotient
`div(x, y)` is finite and rounds down and up to the same integers as the exact quotient; it is an integer exactly if `b` divides `a`. -/
theorem C116_integer_quotient (hE : 2 ≤ E) (hF : 1 ≤ F) (hbias : F + 1 ≤ bias E) (x y : Fp E F) (a b : ℤ) (hx : x.datum.fin = some (a : ℚ))
    (hy : y.datum.fin = some (b : ℚ)) (ha : |a| < 2 ^ (F + 1)) (hb0 : b ≠ 0) (hb : |b| ≤ 2 ^ (F + 1)) :
    ∃ w, (divV1 E F x y).datum.fin = some w ∧ ⌊w⌋ = ⌊(a : ℚ) / b⌋ ∧ ⌈w⌉ = ⌈(a : ℚ) / b⌉ ∧ ((∃ n : ℤ, w = n) ↔ b ∣ a) := by
  have hbq : (b : ℚ) ≠ 0 := by exact_mod_cast hb0
  have hR := div_fin hE hF x y hx hy hbq
  have hex : b ∣ a → (divV1 E F x y).datum.fin = some ((a : ℚ) / b) := by
    rintro ⟨c, rfl⟩
    have hc : ((b * c : ℤ) : ℚ) / b = (c : ℚ) * 2 ^ (0 : ℤ) := by push_cast; field_simp
    rw [hc] at hR ⊢
    refine rounded0_multiple (by omega) hR ?_ (by omega) (by omega)
    have h1 : 1 ≤ |b| := Int.one_le_abs hb0
    rw [abs_mul] at ha
    nlinarith [abs_nonneg c]
  by_cases ha0 : a = 0
  · subst ha0
    refine ⟨_, hex (dvd_zero b), rfl, rfl, ⟨fun _ => dvd_zero b, fun _ => ⟨0, by simp⟩⟩⟩
  · obtain ⟨m1, m2⟩ := quotient_magnitude ha0 ha hb0 hb
    have hmax : |(a : ℚ) / b| ≤ maxFin E F := by
      refine m2.le.trans ?_
      unfold maxFin
      have h1 : (2 : ℚ) ^ (F + 1) ≤ 2 ^ (bias E + 1) := by
        rw [← zpow_natCast]; exact zpow_le_zpow_right₀ (by norm_num) (by push_cast; omega)
      have h3 : (2 : ℚ) ^ (bias E + 1) = 2 ^ F * 2 ^ (bias E + 1 - F) := by
        rw [← zpow_natCast, ← zpow_add₀ (by norm_num)]; congr 1; ring
      have h4 : (2 : ℚ) ^ F ≤ ((2 ^ (F + 1) - 1 : ℕ) : ℚ) := by
        have : 2 ^ F ≤ 2 ^ (F + 1) - 1 := by
          have : 0 < 2 ^ F := by positivity
          rw [pow_succ]; omega
        exact_mod_cast this
      exact h1.trans (h3.le.trans (mul_le_mul_of_nonneg_right h4 (two_zpow_pos _).le))
    obtain ⟨w, hw⟩ := rounded0_finite (by omega) hR hmax
    have ho := rounded0_outcome hF hR
    have hnz : ¬ |(a : ℚ) / b| < underflowAt E F := by
      rw [not_lt]
      refine le_trans ?_ ((zpow_le_zpow_right₀ (by norm_num) (by omega : -bias E ≤ -(F : ℤ) - 1)).trans m1)
      unfold underflowAt
      have h1 := two_zpow_pos (-bias E)
      have h2 := two_zpow_pos (-(F : ℤ) - 2)
      nlinarith
    have hnum : (divV1 E F x y).datum = .num w := by
      rcases SoftFmt.fin_cases hw with ⟨s, h, -⟩ | h
      · exact absurd (ho.underflow.mp ⟨s, h⟩) hnz
      · exact h
    refine ⟨w, hw, quotient_floor (uro_pos F) (uro_int ha) hb0 (ho.error w hnum).1 fun hd => ?_⟩
    exact Option.some.inj (hw.symm.trans (hex hd))

theorem soft_integer_quotient {f : SoftFmt} (ok : f.Ok) {quot : ℕ → ℕ → Bool × ℕ} (hq : f.QuotOk quot) (hbias : f.F + 2 ≤ bias f.E) {x y : ℕ}
    {a b : ℤ} (wx : x < 2 ^ f.W) (wy : y < 2 ^ f.W) (hx : wordFin f.E f.F x = some (a : ℚ)) (hy : wordFin f.E f.F y = some (b : ℚ))
    (ha : |a| < 2 ^ (f.F + 1)) (hb0 : b ≠ 0) (hb : |b| ≤ 2 ^ (f.F + 1)) :
    ∃ r w, f.divWith quot x y = some r ∧ wordFin f.E f.F r = some w ∧ ⌊w⌋ = ⌊(a : ℚ) / b⌋ ∧ ⌈w⌉ = ⌈(a : ℚ) / b⌉ ∧
      ((∃ n : ℤ, w = n) ↔ b ∣ a) := by
  have hE : 2 ≤ f.E := by have := ok.hE; omega
  have hbq : (b : ℚ) ≠ 0 := by exact_mod_cast hb0
  obtain ⟨r, hr, wr, hR⟩ := SoftFmt.div_ieee ok hq wx wy
  have dy : wordDatum f.E f.F y = .num b := by
    rcases SoftFmt.fin_cases hy with ⟨-, -, h⟩ | h
    · exact absurd h hbq
    · exact h
  rcases SoftFmt.fin_cases hx with ⟨t, dx, h0⟩ | dx
  · have ha0 : a = 0 := by exact_mod_cast h0
    subst ha0
    rw [dx, dy] at hR
    have h1 := Option.some.inj hR
    refine ⟨r, 0, hr, by unfold wordFin; rw [← h1]; rfl, by simp, by simp, ⟨fun _ => dvd_zero b, fun _ => ⟨0, by simp⟩⟩⟩
  · rw [dx, dy] at hR
    have hR : RoundedGradual f.E f.F ((a : ℚ) / b) (wordDatum f.E f.F r) := hR
    have ha0 : a ≠ 0 := by
      rintro rfl
      have := SoftFmt.num_word_ne ok wx dx
      simp at this
    obtain ⟨m1, m2⟩ := quotient_magnitude ha0 ha hb0 hb
    have hex : b ∣ a → wordFin f.E f.F r = some ((a : ℚ) / b) := by
      rintro ⟨c, rfl⟩
      have hc : ((b * c : ℤ) : ℚ) / b = (c : ℚ) * 2 ^ (0 : ℤ) := by push_cast; field_simp
      rw [hc] at hR ⊢
      have hc0 : c ≠ 0 := by rintro rfl; simp at ha0
      unfold wordFin
      rw [roundedG_multiple hc0 hR ?_ (by unfold leastExp; omega) (by omega)]
      · rfl
      · have h1 : 1 ≤ |b| := Int.one_le_abs hb0
        rw [abs_mul] at ha
        nlinarith [abs_nonneg c]
    have hmax : |(a : ℚ) / b| ≤ ieeeMax f.E f.F := by
      refine m2.le.trans ?_
      unfold ieeeMax
      have h1 : (2 : ℚ) ^ (f.F + 1) ≤ 2 ^ (bias f.E) := by
        rw [← zpow_natCast]; exact zpow_le_zpow_right₀ (by norm_num) (by push_cast; omega)
      have h3 : (2 : ℚ) ^ (bias f.E) = 2 ^ f.F * 2 ^ (bias f.E - f.F) := by
        rw [← zpow_natCast, ← zpow_add₀ (by norm_num)]; congr 1; ring
      have h4 : (2 : ℚ) ^ f.F ≤ ((2 ^ (f.F + 1) - 1 : ℕ) : ℚ) := by
        have : 2 ^ f.F ≤ 2 ^ (f.F + 1) - 1 := by
          have : 0 < 2 ^ f.F := by positivity
          rw [pow_succ]; omega
        exact_mod_cast this
      exact h1.trans (h3.le.trans (mul_le_mul_of_nonneg_right h4 (two_zpow_pos _).le))
    obtain ⟨w, hw⟩ := roundedG_finite hE hR hmax
    have hmin : ieeeMin f.E ≤ |(a : ℚ) / b| := (zpow_le_zpow_right₀ (by norm_num) (by omega)).trans m1
    refine ⟨r, w, hr, hw, quotient_floor (uro_pos f.F) (uro_int ha) hb0 (roundedG_err_normal hmin hR hw) fun hd => ?_⟩
    exact Option.some.inj (hw.symm.trans (hex hd))

/-- **C116, `float32_t`.** -/
theorem C116_soft_integer_quotient32 {fast : ℕ} (hfast : 32 ≤ fast) (x y : ℕ) (a b : ℤ) (wx : x < 2 ^ 32) (wy : y < 2 ^ 32)
    (hx : wordFin 8 23 x = some (a : ℚ)) (hy : wordFin 8 23 y = some (b : ℚ)) (ha : |a| < 2 ^ 24) (hb0 : b ≠ 0) (hb : |b| ≤ 2 ^ 24) :
    ∃ r w, f32Div fast x y = some r ∧ wordFin 8 23 r = some w ∧ ⌊w⌋ = ⌊(a : ℚ) / b⌋ ∧ ⌈w⌉ = ⌈(a : ℚ) / b⌉ ∧ ((∃ n : ℤ, w = n) ↔ b ∣ a) :=
  soft_integer_quotient (soft32_ok hfast) (quotOk32 fast) (show ((23 : ℕ) : ℤ) + 2 ≤ bias 8 by decide +kernel) wx wy hx hy ha hb0 hb

/-- **C116, `float64_t`.** -/
theorem C116_soft_integer_quotient64 {fast : ℕ} (hfast : 64 ≤ fast) (x y : ℕ) (a b : ℤ) (wx : x < 2 ^ 64) (wy : y < 2 ^ 64)
    (hx : wordFin 11 52 x = some (a : ℚ)) (hy : wordFin 11 52 y = some (b : ℚ)) (ha : |a| < 2 ^ 53) (hb0 : b ≠ 0) (hb : |b| ≤ 2 ^ 53) :
    ∃ r w, f64Div fast x y = some r ∧ wordFin 11 52 r = some w ∧ ⌊w⌋ = ⌊(a : ℚ) / b⌋ ∧ ⌈w⌉ = ⌈(a : ℚ) / b⌉ ∧ ((∃ n : ℤ, w = n) ↔ b ∣ a) :=
  soft_integer_quotient (soft64_ok hfast) (quotOk64 fast) (show ((52 : ℕ) : ℤ) + 2 ≤ bias 11 by decide +kernel) wx wy hx hy ha hb0 hb

/-- **C116, the bound matters.** In single precision, `25165826 / 8388609` is less than 3, but the rounded quotient is 3: the dividend is a
number of the format, but not below `2^24`. -/
theorem C116_bound_matters : ∃ x y : Fp 8 23, x.datum.fin = some 25165826 ∧ y.datum.fin = some 8388609 ∧
    (divV1 8 23 x y).datum.fin = some 3 ∧ (25165826 : ℚ) / 8388609 < 3 :=
  ⟨Fp.mk4 8 23 1 0 151 (2 ^ 22 + 1), Fp.mk4 8 23 1 0 150 1, by decide +kernel, by decide +kernel, by decide +kernel, by norm_num⟩

/-- `-7 / 2` meets the hypotheses. -/
example : ∃ w, (divV1 8 23 (Fp.mk4 8 23 1 1 129 (3 * 2 ^ 21)) (Fp.mk4 8 23 1 0 128 0)).datum.fin = some w ∧ ⌊w⌋ = ⌊((-7 : ℤ) : ℚ) / (2 : ℤ)⌋ := by
  obtain ⟨w, h1, h2, -⟩ := C116_integer_quotient (E := 8) (F := 23) (by norm_num) (by norm_num) (by decide +kernel)
    (Fp.mk4 8 23 1 1 129 (3 * 2 ^ 21)) (Fp.mk4 8 23 1 0 128 0) (-7) 2 (by decide +kernel) (by decide +kernel) (by norm_num) (by norm_num) (by norm_num)
  exact ⟨w, h1, h2⟩

example : ∃ r w, f32Div 64 0xc0e00000 0x40000000 = some r ∧ wordFin 8 23 r = some w ∧ ⌈w⌉ = ⌈((-7 : ℤ) : ℚ) / (2 : ℤ)⌉ := by
  obtain ⟨r, w, h1, h2, -, h3, -⟩ := C116_soft_integer_quotient32 (fast := 64) (by norm_num) 0xc0e00000 0x40000000 (-7) 2 (by norm_num) (by norm_num)
    (by decide +kernel) (by decide +kernel) (by norm_num) (by norm_num) (by norm_num)
  exact ⟨r, w, h1, h2, h3⟩

end Thls
