import Verif.Props.NarrowSameExp

/-! # Quotients of short significands stay away from the next power of two (lemmas) -/

namespace Thls
open Spec

variable {E F G : ℕ}

/-- The greatest number with `F+1` significant bits below `2^-bias`. -/
def subMax (E F : ℕ) : ℚ := ((2 ^ (F + 1) - 1 : ℕ) : ℚ) * 2 ^ (-bias E - F - 1)

theorem subMax_sig (F : ℕ) : IsSig (F + 1) (2 ^ (F + 1) - 1) := by
  have : 0 < 2 ^ F := by positivity
  constructor
  · rw [Nat.add_sub_cancel, pow_succ]; omega
  · have : 0 < 2 ^ (F + 1) := by positivity
    omega

theorem subMax_lt (E F : ℕ) : subMax E F < 2 ^ (-bias E) := by
  have := sig_upper (subMax_sig F) (-bias E - F - 1)
  rwa [show -bias E - F - 1 + F + 1 = -bias E by ring] at this

theorem subMax_eq (E F : ℕ) : subMax E F = (1 - 1 / 2 ^ (F + 1)) * 2 ^ (-bias E) := by
  unfold subMax
  rw [Nat.cast_sub Nat.one_le_two_pow, show -bias E - F - 1 = -bias E - ((F + 1 : ℕ) : ℤ) by push_cast; ring, zpow_sub₀ (by norm_num), zpow_natCast]
  push_cast
  field_simp

/-- A quotient below `2^-bias` is at most that number. -/
theorem quotient_below {x y : ℚ} {mx my : ℕ} {kx ky : ℤ} (hx : |x| = mx * 2 ^ kx) (hy : |y| = my * 2 ^ ky) (hmx : IsSig (F + 1) mx)
    (hmy : IsSig (F + 1) my) (hq : |x / y| < 2 ^ (-bias E)) : |x / y| ≤ subMax E F := by
  have hm1 : (mx : ℚ) ≤ 2 ^ (F + 1) - 1 := by
    have : mx + 1 ≤ 2 ^ (F + 1) := hmx.2
    have : ((mx + 1 : ℕ) : ℚ) ≤ 2 ^ (F + 1) := by exact_mod_cast this
    push_cast at this; linarith
  have hm2 : (2 : ℚ) ^ F ≤ my := by exact_mod_cast hmy.1
  have hm3 : (my : ℚ) ≤ 2 ^ (F + 1) := by exact_mod_cast hmy.2.le
  have hp : (0 : ℚ) < 2 ^ F := by positivity
  have hmy0 : (0 : ℚ) < my := by linarith
  have hK := two_zpow_pos (-bias E)
  have e : |x / y| = (mx : ℚ) / my * 2 ^ (kx - ky) := by
    rw [abs_div, hx, hy, zpow_sub₀ (by norm_num)]; field_simp
  rw [e] at hq ⊢
  rw [subMax_eq]
  rcases le_or_gt (-bias E) (kx - ky) with h | h
  · obtain ⟨j, hj⟩ : ∃ j : ℕ, kx - ky = -bias E + j := ⟨(kx - ky + bias E).toNat, by omega⟩
    rw [hj, zpow_add₀ (by norm_num), zpow_natCast, mul_comm ((2 : ℚ) ^ (-bias E)), ← mul_assoc] at hq ⊢
    apply mul_le_mul_of_nonneg_right _ hK.le
    have h1 : (mx : ℚ) / my * 2 ^ j < 1 := by
      by_contra hc
      push Not at hc
      have := mul_le_mul_of_nonneg_right hc hK.le
      linarith
    rw [div_mul_eq_mul_div, div_lt_one hmy0] at h1
    have h2 : mx * 2 ^ j + 1 ≤ my := by exact_mod_cast h1
    have h3 : (mx : ℚ) * 2 ^ j + 1 ≤ my := by exact_mod_cast h2
    rw [div_mul_eq_mul_div, div_le_iff₀ hmy0]
    have h4 : 1 / 2 ^ (F + 1) * (my : ℚ) ≤ 1 := by
      rw [one_div_mul_eq_div, div_le_one (by positivity)]; exact hm3
    linarith
  · have h1 : (2 : ℚ) ^ (kx - ky) ≤ 2 ^ (-bias E - 1) := zpow_le_zpow_right₀ (by norm_num) (by omega)
    have h2 : (mx : ℚ) / my ≤ (2 ^ (F + 1) - 1) / 2 ^ F := div_le_div₀ (by rw [pow_succ]; nlinarith [one_le_pow₀ (M₀ := ℚ) (a := 2) (n := F) (by norm_num)]) hm1 hp hm2
    calc (mx : ℚ) / my * 2 ^ (kx - ky) ≤ (mx : ℚ) / my * 2 ^ (-bias E - 1) := mul_le_mul_of_nonneg_left h1 (by positivity)
      _ ≤ (2 ^ (F + 1) - 1) / 2 ^ F * 2 ^ (-bias E - 1) := mul_le_mul_of_nonneg_right h2 (two_zpow_pos _).le
      _ = _ := by
        rw [zpow_sub₀ (by norm_num), zpow_one, pow_succ]
        field_simp

/-- Such a number is flushed to zero in every format with at least as many fraction bits. -/
theorem subMax_flush (hFG : F ≤ G) {q : ℚ} {d : Datum} (hq : |q| ≤ subMax E F) (h : Rounded E G q d) : d = .zero (decide (q < 0)) := by
  obtain ⟨m, e, hm, rfl⟩ := h
  obtain ⟨hs, hv⟩ := sig_widen hFG (subMax_sig F) (-bias E - F - 1)
  have h1 := nearest_mono (by omega) hq hm (nearest_self (by omega) hs hv.symm)
  rw [hv] at h1
  have h2 : ¬ (2 : ℚ) ^ (-bias E) ≤ m * 2 ^ e := not_le.mpr (lt_of_le_of_lt h1 (subMax_lt E F))
  rw [sig_ge_iff hm.1] at h2
  unfold rangeCheck
  rw [if_pos (by omega)]

/-- And rounding it twice does no harm. -/
theorem subMax_not_twice (hFG : F < G) {q : ℚ} (hq : |q| ≤ subMax E F) : ¬ RoundsTwice E F G q := by
  rintro ⟨m, e, hm, h1, -, -, h4⟩
  have hu := two_zpow_pos e
  have hle : |q| ≤ m * 2 ^ e := by
    refine hq.trans ?_
    by_contra hc
    push Not at hc
    have := sig_gap (by omega) hm (subMax_sig F) hc
    exact absurd (lt_of_le_of_lt (h1.trans this) (subMax_lt E F)) (lt_irrefl _)
  have h5 : (2 : ℚ) ^ (e + F - G) < 2 ^ e := zpow_lt_zpow_right₀ (by norm_num) (by omega)
  have h6 : 2 ^ e / 2 ≤ abs (|q| - ((m : ℚ) + 1 / 2) * 2 ^ e) := by
    rw [abs_sub_comm]
    refine le_trans ?_ (le_abs_self _)
    linarith
  rcases h4 with h4 | ⟨h4, -⟩ <;> linarith

/-- Widening the fraction shifts it. -/
theorem convert_up_frac (hE : 1 ≤ E) (hF : 1 ≤ F) (hFG : F ≤ G) (x : Fp E F) :
    (convert E G x).frac = x.frac * 2 ^ (G - F) := by
  have hf := x.frac_lt hF
  have h1 : x.frac * 2 ^ (G - F) < 2 ^ G := by
    calc x.frac * 2 ^ (G - F) < 2 ^ F * 2 ^ (G - F) := Nat.mul_lt_mul_of_pos_right hf (by positivity)
      _ = 2 ^ G := by rw [← pow_add]; congr 1; omega
  have he := x.exp_lt hE
  unfold convert
  dsimp only
  rw [convertFrac_up hFG]
  have hc : convertExp E E x.flags x.exp false = (x.flags, x.exp) := by simp [convertExp, addW, Nat.mod_eq_of_lt he]
  rw [hc]
  exact Fp.mk4_frac x.flags_lt x.sign_lt he h1 (by omega)

theorem quot_gap_below {P mx my : ℕ} (h : mx < my) (hm : mx ≤ 2 * P + 1) : 4 * (P + 1) * mx ≤ 2 * (2 * P + 1) * my := by
  obtain ⟨d, rfl⟩ := Nat.exists_eq_add_of_lt h
  have h1 : 2 * mx ≤ (4 * P + 2) * (d + 1) := by
    calc 2 * mx ≤ (4 * P + 2) * 1 := by omega
      _ ≤ _ := Nat.mul_le_mul_left _ (by omega)
  calc 4 * (P + 1) * mx = (4 * P + 2) * mx + 2 * mx := by ring
    _ ≤ (4 * P + 2) * mx + (4 * P + 2) * (d + 1) := by omega
    _ = _ := by ring

theorem quot_gap_above {P mx my : ℕ} (h : P + 1 ≤ my) (hm : mx ≤ 2 * P + 1) : 4 * (P + 1) * mx ≤ 2 * (2 * P + 1) * 2 * my := by
  calc 4 * (P + 1) * mx ≤ 4 * my * (2 * P + 1) := Nat.mul_le_mul (by omega) hm
    _ = _ := by ring

/-- The fraction field of a quotient of fractions with trailing zeros, whatever the flags. -/
theorem div_frac_le (hE : 2 ≤ E) (hF : 1 ≤ F) (hFG : F < G) {X Y : Fp E G} {a b : ℕ} (ha : a < 2 ^ F) (hb : b < 2 ^ F)
    (hX : X.frac = a * 2 ^ (G - F)) (hY : Y.frac = b * 2 ^ (G - F)) : (divSame srtFull1 X Y).frac ≤ 2 ^ G - 2 ^ (G - F) := by
  have hG : 1 ≤ G := by omega
  have hXf := X.frac_lt hG
  have hYf := Y.frac_lt hG
  have hS := Div.divSig_eq hG (fX := 2 ^ G + X.frac) (D := 2 ^ G + Y.frac) (by rw [pow_succ]; omega) (by omega)
    (by rw [pow_succ]; omega)
  unfold divSame
  dsimp only
  simp only [opadHi1]
  rw [hS]
  have hP : 2 ^ G = 2 ^ F * 2 ^ (G - F) := by rw [← pow_add]; congr 1; omega
  have hp : 0 < 2 ^ F := by positivity
  have hs : 0 < 2 ^ (G - F) := by positivity
  obtain ⟨mx, hmx⟩ : ∃ mx, mx = 2 ^ F + a := ⟨_, rfl⟩
  obtain ⟨my, hmy⟩ : ∃ my, my = 2 ^ F + b := ⟨_, rfl⟩
  have eX : 2 ^ G + X.frac = mx * 2 ^ (G - F) := by rw [hX, hP, hmx]; ring
  have eY : 2 ^ G + Y.frac = my * 2 ^ (G - F) := by rw [hY, hP, hmy]; ring
  have hX2 : 2 ^ G + X.frac < 2 * 2 ^ G := by omega
  have hX1 : 2 ^ G ≤ 2 ^ G + X.frac := by omega
  have hD2 : 2 ^ G + Y.frac < 2 * 2 ^ G := by omega
  have hD1 : 2 ^ G ≤ 2 ^ G + Y.frac := by omega
  generalize 2 ^ G + X.frac = N at *
  generalize 2 ^ G + Y.frac = D at *
  have hGp : 0 < 2 ^ G := by positivity
  have hDpos : 0 < D := by omega
  have hA1 : 2 ^ (G + 1) ≤ 2 ^ (G + 2) * N / D := by
    rw [Nat.le_div_iff_mul_le hDpos]
    calc 2 ^ (G + 1) * D ≤ 2 ^ (G + 1) * (2 * 2 ^ G) := Nat.mul_le_mul_left _ hD2.le
      _ = 2 ^ (G + 2) * 2 ^ G := by ring
      _ ≤ _ := Nat.mul_le_mul_left _ hX1
  have hA2 : 2 ^ (G + 2) * N / D < 2 ^ (G + 3) := by
    rw [Nat.div_lt_iff_lt_mul hDpos]
    calc 2 ^ (G + 2) * N < 2 ^ (G + 2) * (2 * 2 ^ G) := Nat.mul_lt_mul_of_pos_left hX2 (by positivity)
      _ = 2 ^ (G + 3) * 2 ^ G := by ring
      _ ≤ _ := Nat.mul_le_mul_left _ hD1
  have hst : (if D ∣ 2 ^ (G + 2) * N then 0 else 1) < 2 := by split_ifs <;> norm_num
  obtain ⟨f, low, k, r, hf, hA, hlow, hk, g1, g2, g3, g4⟩ := Div.divNorm_spec hG hA1 hA2 hst
  have hk1 : k ≤ 1 := by rw [hk]; exact Bool.toNat_le _
  have hdm := Nat.div_add_mod (2 ^ (G + 2) * N) D
  have hml := Nat.mod_lt (2 ^ (G + 2) * N) hDpos
  -- the exact quotient is at most the bound
  have hB : 2 ^ (G + 2) * N ≤ 2 * (2 ^ G + (2 ^ G - 2 ^ (G - F))) * 2 ^ k * D := by
    have e1 : 2 ^ G + (2 ^ G - 2 ^ (G - F)) = (2 * 2 ^ F - 1) * 2 ^ (G - F) := by
      rw [Nat.sub_mul, one_mul, mul_assoc, ← hP]
      have : 2 ^ (G - F) ≤ 2 ^ G := Nat.pow_le_pow_right (by norm_num) (by omega)
      omega
    have key : 4 * 2 ^ F * mx ≤ 2 * (2 * 2 ^ F - 1) * 2 ^ k * my := by
      obtain ⟨P, hP1⟩ : ∃ P, 2 ^ F = P + 1 := ⟨2 ^ F - 1, by omega⟩
      rw [hP1] at hmx hmy ha hb ⊢
      rw [show 2 * (P + 1) - 1 = 2 * P + 1 by omega]
      interval_cases k
      · have hlt : mx < my := by
          by_contra hc
          push Not at hc
          have h1 : 2 ^ (G + 2) ≤ 2 ^ (G + 2) * N / D := by
            rw [Nat.le_div_iff_mul_le hDpos, eX, eY]
            exact Nat.mul_le_mul_left _ (Nat.mul_le_mul_right _ hc)
          have h2 : 2 ^ (G + 2) = 4 * 2 ^ G := by rw [pow_add]; ring
          have := Bool.toNat_le r
          simp only [pow_zero, mul_one] at hA hlow
          omega
        rw [pow_zero, mul_one]
        exact quot_gap_below hlt (by omega)
      · rw [pow_one]
        exact quot_gap_above (by omega) (by omega)
    rw [e1, eX, eY, show 2 ^ (G + 2) = 4 * (2 ^ F * 2 ^ (G - F)) by rw [← hP, pow_add]; ring]
    calc 4 * (2 ^ F * 2 ^ (G - F)) * (mx * 2 ^ (G - F)) = (4 * 2 ^ F * mx) * (2 ^ (G - F) * 2 ^ (G - F)) := by ring
      _ ≤ (2 * (2 * 2 ^ F - 1) * 2 ^ k * my) * (2 ^ (G - F) * 2 ^ (G - F)) := Nat.mul_le_mul_right _ key
      _ = _ := by ring
  obtain ⟨B, hBd⟩ : ∃ B, B = 2 ^ G - 2 ^ (G - F) := ⟨_, rfl⟩
  rw [← hBd] at hB ⊢
  -- so the rounded fraction is, too
  obtain ⟨rd, hrd⟩ : ∃ rd, rd = (getBit 1 (divNorm G (2 * (2 ^ (G + 2) * N / D) + if D ∣ 2 ^ (G + 2) * N then 0 else 1)) &&
    (getBit 2 (divNorm G (2 * (2 ^ (G + 2) * N / D) + if D ∣ 2 ^ (G + 2) * N then 0 else 1)) ||
      getBit 0 (divNorm G (2 * (2 ^ (G + 2) * N / D) + if D ∣ 2 ^ (G + 2) * N then 0 else 1)))) := ⟨_, rfl⟩
  have hfr : f + rd.toNat ≤ B := by
    rcases Nat.lt_or_ge f B with h | h
    · have := Bool.toNat_le rd
      omega
    · have hkp : 0 < 2 ^ k := by positivity
      have hAle : 2 ^ (G + 2) * N / D ≤ 2 * (2 ^ G + B) * 2 ^ k := by
        apply Nat.div_le_of_le_mul
        rw [mul_comm D]; exact hB
      have h1 : 2 * (2 ^ G + f) + r.toNat ≤ 2 * (2 ^ G + B) := by
        by_contra hc
        push Not at hc
        have := Nat.mul_le_mul_right (2 ^ k) (Nat.succ_le_of_lt hc)
        rw [Nat.succ_mul] at this
        omega
      have hr0 : r = false := by
        cases r
        · rfl
        · simp only [Bool.toNat_true] at h1; omega
      rw [hrd, g2, hr0, Bool.false_and, Bool.toNat_false]
      omega
  unfold divPack
  dsimp only
  rw [← hrd, g1, ofBits_concat]
  generalize divExp E X.exp Y.exp _ = ep
  have hBG : B < 2 ^ G := by omega
  have hmod : addW (E + G + 2) (concat G ep f) rd.toNat % 2 ^ G = f + rd.toNat := by
    unfold addW concat
    rw [Nat.mod_mod_of_dvd _ (pow_dvd_pow 2 (by omega)), show ep * 2 ^ G + f + rd.toNat = f + rd.toNat + ep * 2 ^ G by ring,
      Nat.add_mul_mod_self_right, Nat.mod_eq_of_lt (by omega)]
  generalize addW (E + G + 2) (concat G ep f) rd.toNat = T at *
  have hlow2 : getBits (E + G - 1) 0 T % 2 ^ G = T % 2 ^ G := by
    unfold getBits
    rw [show E + G - 1 + 1 - 0 = E + G by omega, pow_zero, Nat.div_one, Nat.mod_mod_of_dvd _ (pow_dvd_pow 2 (by omega))]
  have hlt : getBits (E + G - 1) 0 T / 2 ^ G < 2 ^ E := by
    rw [Nat.div_lt_iff_lt_mul (by positivity), ← pow_add]
    have := getBits_lt (E + G - 1) 0 T
    rwa [show E + G - 1 + 1 - 0 = E + G by omega] at this
  rw [hlow2, hmod]
  rw [Fp.mk4_frac ?_ (Nat.mod_lt _ (by norm_num)) hlt (by omega) hG]
  · exact hfr
  · split_ifs
    · unfold divRange; split_ifs <;> norm_num
    · exact Div.divExc_lt _ _

end Thls
