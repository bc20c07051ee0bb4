import Verif.Props.NarrowSameExp

/-! # Property C24: narrowing only the fraction of a difference or quotient

The dual-path adder and the divider, like the multiplier, leave the low bits of the exponent and the fraction in a result it flushes to zero. -/

namespace Thls
open Spec

variable {E F G : ℕ}

/-- The fields of the difference of the least number of the second binade and the second least number. -/
theorem dual_flushed (hE : 2 ≤ E) (hG : 1 ≤ G) :
    AddDual.addSame (Fp.mk4 E G 1 0 1 0) (Fp.mk4 E G 1 1 0 1) = some (Fp.mk4 E G 0 0 (2 ^ E - 1) (2 ^ G - 2)) := by
  have hEp : 4 ≤ 2 ^ E := by
    calc 4 = 2 ^ 2 := by norm_num
      _ ≤ 2 ^ E := Nat.pow_le_pow_right (by norm_num) hE
  have hGp : 2 ≤ 2 ^ G := by
    calc 2 = 2 ^ 1 := by norm_num
      _ ≤ 2 ^ G := Nat.pow_le_pow_right (by norm_num) hG
  obtain ⟨X, hX⟩ : ∃ X, X = Fp.mk4 E G 1 0 1 0 := ⟨_, rfl⟩
  obtain ⟨Y, hY⟩ : ∃ Y, Y = Fp.mk4 E G 1 1 0 1 := ⟨_, rfl⟩
  have xf : X.flags = 1 := by rw [hX]; exact Fp.mk4_flags (by norm_num) (by norm_num) (by omega) (by omega)
  have xs : X.sign = 0 := by rw [hX]; exact Fp.mk4_sign (by norm_num) (by norm_num) (by omega) (by omega)
  have xe : X.exp = 1 := by rw [hX]; exact Fp.mk4_exp (by norm_num) (by norm_num) (by omega) (by omega) (by omega)
  have xr : X.frac = 0 := by rw [hX]; exact Fp.mk4_frac (by norm_num) (by norm_num) (by omega) (by omega) (by omega)
  have yf : Y.flags = 1 := by rw [hY]; exact Fp.mk4_flags (by norm_num) (by norm_num) (by omega) (by omega)
  have ys : Y.sign = 1 := by rw [hY]; exact Fp.mk4_sign (by norm_num) (by norm_num) (by omega) (by omega)
  have ye : Y.exp = 0 := by rw [hY]; exact Fp.mk4_exp (by norm_num) (by norm_num) (by omega) (by omega) (by omega)
  have yr : Y.frac = 1 := by rw [hY]; exact Fp.mk4_frac (by norm_num) (by norm_num) (by omega) (by omega) (by omega)
  rw [← hX, ← hY]
  have hcore : AddDual.addSame X Y = AddDual.core X Y := by
    rcases AddDual.addSame_ordered (by omega) X Y with ⟨h, -, -⟩ | ⟨-, -, h⟩
    · exact h
    · have := h (by rw [xf, yf]); omega
  have hd : subW E X.exp Y.exp = 1 := by rw [AddSingle.subW_of_le (by omega) (by omega)]; omega
  have hok : AddDual.ShiftFits E G 1 := by
    by_contra h
    have := (AddDual.not_shiftFits (by omega) (by omega)).mp h
    omega
  obtain ⟨hsv, -⟩ := AddDual.shiftVal_spec (d := 1) (by omega) hok (by omega)
  have hm : opadHi1 G Y.frac < 2 ^ (G + 1) := (AddSingle.sig_isSig (show Y.frac < 2 ^ G by omega)).2
  have hal := addAlign_spec (F := G) (pad := AddDual.pad1 G) hm hsv
  have hcd := AddDual.closeDiff_spec (F := G) (fx := X.frac) (fy := Y.frac) (b := true) (by omega) (by omega) rfl rfl
  have e1 : 2 ^ (G + 2) = 4 * 2 ^ G := by rw [pow_add]; ring
  have e0 : 2 ^ (G + 2 - 1) = 2 * 2 ^ G := by rw [show G + 2 - 1 = G + 1 by omega, pow_succ]; ring
  have hlt : ¬ 2 * (2 ^ G + X.frac) < 2 ^ G + Y.frac := by omega
  rw [if_pos rfl, if_neg hlt, decide_eq_false hlt] at hcd
  have hD : 2 * (2 ^ G + X.frac) - (2 ^ G + Y.frac) = 2 ^ G - 1 := by omega
  rw [hD] at hcd
  obtain ⟨c, hc1, hc2, hc3, hc4, hc5⟩ := lzoc_norm (WD := G + 2) (x := 2 ^ G - 1) (by omega) (by omega) (by omega)
  have hc : c = 2 := by
    rcases Nat.lt_trichotomy c 2 with h | h | h
    · have : 2 ^ c ≤ 2 ^ 1 := Nat.pow_le_pow_right (by norm_num) (by omega)
      have := Nat.mul_le_mul_left (2 ^ G - 1) this
      omega
    · exact h
    · have : 2 ^ 3 ≤ 2 ^ c := Nat.pow_le_pow_right (by norm_num) h
      have := Nat.mul_le_mul_left (2 ^ G - 1) this
      omega
  subst hc
  have hclose : getBits (E - 1) 1 1 = 0 := by unfold getBits; simp
  rw [hcore]
  unfold AddDual.core
  dsimp only
  rw [hd, show getBit 0 1 = true from rfl, hcd, hal]
  simp only [hc1]
  simp only [hclose, if_true, xs, ys, show ((0 : ℕ) != 1) = true from rfl, Bool.true_and, Bool.and_false, Bool.toNat_false, Nat.add_zero,
    Nat.zero_mod, ite_self, decide_eq_false hc5, xe]
  congr 1
  have hcr : AddDual.closeRound E G 1 ((2 ^ G - 1) * 2 ^ 2) 2 = (concat G (4 * 2 ^ E - 1) (2 ^ G - 2), false) := by
    unfold AddDual.closeRound
    have h1 : subW (E + 2) 1 2 = 4 * 2 ^ E - 1 := by
      unfold subW
      rw [show 2 ^ (E + 2) = 4 * 2 ^ E by rw [pow_add]; ring, Nat.mod_eq_of_lt (by omega)]; omega
    have h2 : getBits G 1 ((2 ^ G - 1) * 2 ^ 2) = 2 ^ G - 2 := by
      unfold getBits
      rw [Nat.add_sub_cancel, pow_one, show (2 ^ G - 1) * 2 ^ 2 / 2 = (2 ^ G - 2) + 2 ^ G by omega, Nat.add_mod_right, Nat.mod_eq_of_lt (by omega)]
    have h3 : getBit 0 ((2 ^ G - 1) * 2 ^ 2) = false := by
      unfold getBit
      rw [pow_zero, Nat.div_one, show (2 ^ G - 1) * 2 ^ 2 % 2 = 0 by omega]; rfl
    rw [h1, h2, h3]; rfl
  rw [hcr]
  unfold AddDual.pack
  dsimp only
  have hEG : 2 ^ (E + G) = 2 ^ E * 2 ^ G := pow_add _ _ _
  have hp : 2 ^ (E + G + 2) = 4 * (2 ^ E * 2 ^ G) := by rw [pow_add, pow_add]; ring
  have hEGp : 2 ^ G ≤ 2 ^ E * 2 ^ G := Nat.le_mul_of_pos_left _ (by positivity)
  have hT : concat G (4 * 2 ^ E - 1) (2 ^ G - 2) = 4 * (2 ^ E * 2 ^ G) - 2 := by
    unfold concat
    rw [Nat.sub_mul, mul_assoc]; omega
  have hadd : addW (E + G + 2) (4 * (2 ^ E * 2 ^ G) - 2) false.toNat = 4 * (2 ^ E * 2 ^ G) - 2 := by
    unfold addW; simp only [Bool.toNat_false, Nat.add_zero]; exact Nat.mod_eq_of_lt (by omega)
  have hP : 4 ≤ 2 ^ E * 2 ^ G := by nlinarith
  have htop : getBits (E + G + 1) (E + G) (4 * (2 ^ E * 2 ^ G) - 2) = 3 := by
    rw [getBits_top (by rw [show E + G + 1 + 1 = E + G + 2 by ring]; omega) (by omega), hEG, Nat.div_eq_iff (by positivity)]
    omega
  have hlow : getBits (E + G - 1) 0 (4 * (2 ^ E * 2 ^ G) - 2) = 2 ^ E * 2 ^ G - 2 := by
    unfold getBits
    rw [show E + G - 1 + 1 - 0 = E + G by omega, pow_zero, Nat.div_one, hEG,
      show 4 * (2 ^ E * 2 ^ G) - 2 = (2 ^ E * 2 ^ G - 2) + 3 * (2 ^ E * 2 ^ G) by omega, Nat.add_mul_mod_self_right, Nat.mod_eq_of_lt (by omega)]
  rw [hT, hadd, htop, hlow]
  simp only [xf, yf, AddDual.concat_two, Nat.reduceMul, Nat.reduceAdd, if_true]
  simp only [show ¬ (3 : ℕ) = 1 by norm_num, show (3 : ℕ) = 2 ∨ True by simp, if_false, if_true]
  unfold Fp.mk4
  have hl : concat G (2 ^ E - 1) (2 ^ G - 2) = 2 ^ E * 2 ^ G - 2 := by
    unfold concat
    rw [Nat.sub_mul, one_mul]; omega
  rw [hl]
  congr 1
  unfold concat; simp

/-- **C24 is false of differences.** In every format two numbers have a difference that the dual-path adder flushes to zero and that
becomes `+inf` when converted to a format with the same exponent width and a fraction shorter by two bits or more. -/
theorem C24_difference_narrowed_wrong (hE : 2 ≤ E) (hF : 1 ≤ F) (hFG : F + 2 ≤ G) :
    ∃ x y z : Fp E G, ∃ vx vy : ℚ, x.datum = .num vx ∧ y.datum = .num vy ∧ 0 < vx + vy ∧ vx + vy < 2 ^ (-bias E) ∧
      AddDual.addSame x y = some z ∧ z.datum = .zero false ∧ (convert E F z).datum = .inf false := by
  have hEp : 4 ≤ 2 ^ E := by
    calc 4 = 2 ^ 2 := by norm_num
      _ ≤ 2 ^ E := Nat.pow_le_pow_right (by norm_num) hE
  have hGp : 8 ≤ 2 ^ G := by
    calc 8 = 2 ^ 3 := by norm_num
      _ ≤ 2 ^ G := Nat.pow_le_pow_right (by norm_num) (by omega)
  have h2 : 2 ≤ 2 ^ (G - F - 1) := by
    calc 2 = 2 ^ 1 := by norm_num
      _ ≤ _ := Nat.pow_le_pow_right (by norm_num) (by omega)
  obtain ⟨h0, h1⟩ := convert_zero_inf (E := E) (F := F) (G := G) (by omega) hF (by omega) (f := 2 ^ G - 2) (by omega) (by omega)
  have hx : (Fp.mk4 E G 1 0 1 0).datum = .num (2 * 2 ^ (-bias E)) := by
    rw [Fp.mk4_datum (by norm_num) (by norm_num) (by omega) (by omega) (by omega) (by omega)]
    simp only [denote]
    congr 1
    rw [if_neg (by norm_num), one_mul, show ((1 : ℕ) : ℤ) - bias E - G = -bias E + 1 - G by push_cast; ring, zpow_sub₀ (by norm_num),
      zpow_add₀ (by norm_num), zpow_natCast]
    push_cast
    field_simp
    ring
  have hy : (Fp.mk4 E G 1 1 0 1).datum = .num (-((1 + 1 / 2 ^ G) * 2 ^ (-bias E))) := by
    rw [Fp.mk4_datum (by norm_num) (by norm_num) (by omega) (by omega) (by omega) (by omega)]
    simp only [denote]
    congr 1
    rw [if_pos trivial, show ((0 : ℕ) : ℤ) - bias E - G = -bias E - G by push_cast; ring, zpow_sub₀ (by norm_num), zpow_natCast]
    push_cast
    field_simp
  have hu := two_zpow_pos (-bias E)
  have hg : (0 : ℚ) < 1 / 2 ^ G := by positivity
  have hg1 : (1 : ℚ) / 2 ^ G < 1 := by
    rw [div_lt_one (by positivity)]; exact_mod_cast (by omega : 1 < 2 ^ G)
  exact ⟨_, _, _, _, _, hx, hy, by nlinarith, by nlinarith, dual_flushed hE (by omega), h0, h1⟩

/-- From double-length fractions to single precision. -/
example : (AddDual.addSame (Fp.mk4 8 47 1 0 1 0) (Fp.mk4 8 47 1 1 0 1)).map (fun z => (z.datum, (convert 8 23 z).datum)) =
    some (.zero false, .inf false) := by decide +kernel

/-- The fields of half the greatest number of the lowest binade. -/
theorem div_flushed (hE : 2 ≤ E) (hG : 1 ≤ G) :
    divV1 E G (Fp.mk4 E G 1 0 0 (2 ^ G - 1)) (Fp.mk4 E G 1 0 (biasN E + 1) 0) = Fp.mk4 E G 0 0 (2 ^ E - 1) (2 ^ G - 1) := by
  have hEp : 4 ≤ 2 ^ E := by
    calc 4 = 2 ^ 2 := by norm_num
      _ ≤ 2 ^ E := Nat.pow_le_pow_right (by norm_num) hE
  have hGp : 2 ≤ 2 ^ G := by
    calc 2 = 2 ^ 1 := by norm_num
      _ ≤ 2 ^ G := Nat.pow_le_pow_right (by norm_num) hG
  have hb := two_bias (show 1 ≤ E by omega)
  have hbn := pow_bias (E := E)
  have hb1 : biasN E + 1 < 2 ^ E := by
    have : ((biasN E + 1 : ℕ) : ℤ) < 2 ^ E := by push_cast; omega
    exact_mod_cast this
  obtain ⟨X, hX⟩ : ∃ X, X = Fp.mk4 E G 1 0 0 (2 ^ G - 1) := ⟨_, rfl⟩
  obtain ⟨Y, hY⟩ : ∃ Y, Y = Fp.mk4 E G 1 0 (biasN E + 1) 0 := ⟨_, rfl⟩
  have xf : X.flags = 1 := by rw [hX]; exact Fp.mk4_flags (by norm_num) (by norm_num) (by omega) (by omega)
  have xs : X.sign = 0 := by rw [hX]; exact Fp.mk4_sign (by norm_num) (by norm_num) (by omega) (by omega)
  have xe : X.exp = 0 := by rw [hX]; exact Fp.mk4_exp (by norm_num) (by norm_num) (by omega) (by omega) (by omega)
  have xr : X.frac = 2 ^ G - 1 := by rw [hX]; exact Fp.mk4_frac (by norm_num) (by norm_num) (by omega) (by omega) (by omega)
  have yf : Y.flags = 1 := by rw [hY]; exact Fp.mk4_flags (by norm_num) (by norm_num) (by omega) (by omega)
  have ys : Y.sign = 0 := by rw [hY]; exact Fp.mk4_sign (by norm_num) (by norm_num) (by omega) (by omega)
  have ye : Y.exp = biasN E + 1 := by rw [hY]; exact Fp.mk4_exp (by norm_num) (by norm_num) (by omega) (by omega) (by omega)
  have yr : Y.frac = 0 := by rw [hY]; exact Fp.mk4_frac (by norm_num) (by norm_num) (by omega) (by omega) (by omega)
  rw [← hX, ← hY]
  unfold divV1
  have pX : promote E G X = X := by
    unfold promote
    rw [xf, xs, xe, xr, hX]; simp [promoteExp, promoteFrac, concat]
  have pY : promote E G Y = Y := by
    unfold promote
    rw [yf, ys, ye, yr, hY]; simp [promoteExp, promoteFrac, concat]
  rw [pX, pY]
  unfold divSame
  dsimp only
  have hS := Div.divSig_eq hG (fX := 2 ^ G + X.frac) (D := 2 ^ G + Y.frac) (by rw [pow_succ]; omega) (by omega)
    (by rw [pow_succ]; omega)
  have e4 : 2 ^ (G + 2) = 4 * 2 ^ G := by rw [pow_add]; ring
  have hN : 2 ^ (G + 2) * (2 ^ G + X.frac) = 4 * (2 ^ G + X.frac) * 2 ^ G := by rw [e4]; ring
  rw [hN, yr, Nat.add_zero, Nat.mul_div_cancel _ (by positivity), if_pos ⟨_, mul_comm _ _⟩, Nat.add_zero, xr] at hS
  have hS' : divSig srtFull1 G (opadHi1 G X.frac) (opadHi1 G Y.frac) = 16 * 2 ^ G - 8 := by
    simp only [opadHi1, xr, yr, Nat.add_zero]
    rw [hS]; omega
  have e16 : 2 ^ (G + 3 + 1) = 16 * 2 ^ G := by rw [show G + 3 + 1 = G + 4 by ring, pow_add]; ring
  have e8 : 2 ^ (G + 3) = 8 * 2 ^ G := by rw [pow_add]; ring
  have hbit : getBit (G + 3) (16 * 2 ^ G - 8) = true := by
    rw [getBit_top (by rw [e16]; omega), e8]
    simp only [decide_eq_true_eq]
    omega
  have hnorm : divNorm G (16 * 2 ^ G - 8) = 4 * (2 ^ G - 1) := by
    unfold divNorm
    rw [hbit, if_pos rfl]
    have h1 : getBits (G + 2) 2 (16 * 2 ^ G - 8) = 2 * 2 ^ G - 2 := by
      unfold getBits
      rw [show G + 2 + 1 - 2 = G + 1 by omega, show (16 * 2 ^ G - 8) / 2 ^ 2 = (2 * 2 ^ G - 2) + 2 ^ (G + 1) by rw [pow_succ]; omega,
        Nat.add_mod_right, Nat.mod_eq_of_lt (by rw [pow_succ]; omega)]
    have h2 : getBit 1 (16 * 2 ^ G - 8) = false := by
      unfold getBit
      rw [pow_one, show (16 * 2 ^ G - 8) / 2 % 2 = 0 by omega]; rfl
    have h3 : getBit 0 (16 * 2 ^ G - 8) = false := by
      unfold getBit
      rw [pow_zero, Nat.div_one, show (16 * 2 ^ G - 8) % 2 = 0 by omega]; rfl
    rw [h1, h2, h3]
    unfold concat; simp; omega
  have hexp : divExp E X.exp Y.exp true = 4 * 2 ^ E - 1 := by
    have h := Div.divExp_cast (ex := X.exp) (ey := Y.exp) hE (by rw [ye]; exact hb1) true
    have e : (2 : ℤ) ^ (E + 2) = 4 * 2 ^ E := by rw [pow_add]; ring
    have hp : (4 : ℤ) ≤ 2 ^ E := by exact_mod_cast hEp
    rw [xe, ye, e, show ((0 : ℕ) : ℤ) - ((biasN E + 1 : ℕ) : ℤ) + bias E - 1 + ((true.toNat : ℕ) : ℤ) = (4 * 2 ^ E - 1) + (4 * 2 ^ E) * (-1) by
      simp only [Bool.toNat_true]; push_cast; omega, Int.add_mul_emod_self_left, Int.emod_eq_of_lt (by omega) (by omega)] at h
    rw [xe, ye]
    have : ((4 * 2 ^ E - 1 : ℕ) : ℤ) = 4 * 2 ^ E - 1 := by rw [Nat.cast_sub (by omega)]; push_cast; ring
    omega
  rw [hS', hbit, hnorm, hexp, xf, yf, xs, ys, Div.divExc_normal]
  unfold divPack
  dsimp only
  have hEG : 2 ^ (E + G) = 2 ^ E * 2 ^ G := pow_add _ _ _
  have hp : 2 ^ (E + G + 2) = 4 * (2 ^ E * 2 ^ G) := by rw [pow_add, pow_add]; ring
  have hEGp : 2 ^ G ≤ 2 ^ E * 2 ^ G := Nat.le_mul_of_pos_left _ (by positivity)
  have hP : 4 ≤ 2 ^ E * 2 ^ G := by nlinarith
  have hf : getBits (G + 1) 2 (4 * (2 ^ G - 1)) = 2 ^ G - 1 := by
    unfold getBits
    rw [show G + 1 + 1 - 2 = G by omega, show 4 * (2 ^ G - 1) / 2 ^ 2 = 2 ^ G - 1 by omega, Nat.mod_eq_of_lt (by omega)]
  have hr : getBit 1 (4 * (2 ^ G - 1)) = false := by
    unfold getBit
    rw [pow_one, show 4 * (2 ^ G - 1) / 2 % 2 = 0 by omega]; rfl
  have hT : concat G (4 * 2 ^ E - 1) (2 ^ G - 1) = 4 * (2 ^ E * 2 ^ G) - 1 := by
    unfold concat
    rw [Nat.sub_mul, mul_assoc]; omega
  have hadd : addW (E + G + 2) (4 * (2 ^ E * 2 ^ G) - 1) false.toNat = 4 * (2 ^ E * 2 ^ G) - 1 := by
    unfold addW; simp only [Bool.toNat_false, Nat.add_zero]; exact Nat.mod_eq_of_lt (by omega)
  have htop : getBits (E + G + 1) (E + G) (4 * (2 ^ E * 2 ^ G) - 1) = 3 := by
    rw [getBits_top (by rw [show E + G + 1 + 1 = E + G + 2 by ring]; omega) (by omega), hEG, Nat.div_eq_iff (by positivity)]
    omega
  have hlow : getBits (E + G - 1) 0 (4 * (2 ^ E * 2 ^ G) - 1) = 2 ^ E * 2 ^ G - 1 := by
    unfold getBits
    rw [show E + G - 1 + 1 - 0 = E + G by omega, pow_zero, Nat.div_one, hEG,
      show 4 * (2 ^ E * 2 ^ G) - 1 = (2 ^ E * 2 ^ G - 1) + 3 * (2 ^ E * 2 ^ G) by omega, Nat.add_mul_mod_self_right, Nat.mod_eq_of_lt (by omega)]
  rw [hf, hr, Bool.false_and, hT, hadd, htop, hlow, if_pos rfl, show divRange 3 = 0 from rfl]
  unfold Fp.mk4
  have hl : concat G (2 ^ E - 1) (2 ^ G - 1) = 2 ^ E * 2 ^ G - 1 := by
    unfold concat
    rw [Nat.sub_mul, one_mul]; omega
  rw [hl]
  congr 1
  unfold concat; simp

/-- **C24 is false of quotients.** In every format with at least two exponent bits, halving the greatest number below twice the least
positive one gives a zero, and converting this zero to any shorter fraction at the same exponent width gives `+inf`. -/
theorem C24_quotient_narrowed_wrong (hE : 2 ≤ E) (hF : 1 ≤ F) (hFG : F < G) :
    ∃ x y : Fp E G, ∃ vx : ℚ, x.datum = .num vx ∧ y.datum = .num 2 ∧ 0 < vx ∧ vx < 2 * 2 ^ (-bias E) ∧
      (divV1 E G x y).datum = .zero false ∧ (convert E F (divV1 E G x y)).datum = .inf false := by
  have hEp : 4 ≤ 2 ^ E := by
    calc 4 = 2 ^ 2 := by norm_num
      _ ≤ 2 ^ E := Nat.pow_le_pow_right (by norm_num) hE
  have hGp : 0 < 2 ^ G := by positivity
  have h2 : 0 < 2 ^ (G - F - 1) := by positivity
  have hb := two_bias (show 1 ≤ E by omega)
  have hbn := pow_bias (E := E)
  have hb1 : biasN E + 1 < 2 ^ E := by
    have : ((biasN E + 1 : ℕ) : ℤ) < 2 ^ E := by
      have : (4 : ℤ) ≤ 2 ^ E := by exact_mod_cast hEp
      push_cast; omega
    exact_mod_cast this
  obtain ⟨h0, h1⟩ := convert_zero_inf (E := E) (F := F) (G := G) (by omega) hF hFG (f := 2 ^ G - 1) (by omega) (by omega)
  have hx : (Fp.mk4 E G 1 0 0 (2 ^ G - 1)).datum = .num ((2 - 1 / 2 ^ G) * 2 ^ (-bias E)) := by
    rw [Fp.mk4_datum (by norm_num) (by norm_num) (by omega) (by omega) (by omega) (by omega)]
    simp only [denote]
    congr 1
    rw [if_neg (by norm_num), one_mul, show ((0 : ℕ) : ℤ) - bias E - G = -bias E - G by push_cast; ring, zpow_sub₀ (by norm_num), zpow_natCast,
      show 2 ^ G + (2 ^ G - 1) = 2 * 2 ^ G - 1 by omega, Nat.cast_sub (by omega)]
    push_cast
    field_simp
  have hy : (Fp.mk4 E G 1 0 (biasN E + 1) 0).datum = .num 2 := by
    rw [Fp.mk4_datum (by norm_num) (by norm_num) (by omega) (by omega) (by omega) (by omega)]
    simp only [denote]
    congr 1
    rw [if_neg (by norm_num), one_mul, show ((biasN E + 1 : ℕ) : ℤ) - bias E - G = 1 - G by push_cast; omega, zpow_sub₀ (by norm_num), zpow_natCast]
    push_cast
    field_simp
    norm_num
  have hu := two_zpow_pos (-bias E)
  have hg : (0 : ℚ) < 1 / 2 ^ G := by positivity
  have hg1 : (1 : ℚ) / 2 ^ G ≤ 1 := by
    rw [div_le_one (by positivity)]; exact_mod_cast Nat.one_le_two_pow
  rw [← div_flushed hE (by omega)] at h0 h1
  exact ⟨_, _, _, hx, hy, by nlinarith, by nlinarith, h0, h1⟩

/-- From double-length fractions to single precision. -/
example : (divV1 8 47 (Fp.mk4 8 47 1 0 0 (2 ^ 47 - 1)) (Fp.mk4 8 47 1 0 128 0)).datum = .zero false ∧
    (convert 8 23 (divV1 8 47 (Fp.mk4 8 47 1 0 0 (2 ^ 47 - 1)) (Fp.mk4 8 47 1 0 128 0))).datum = .inf false := by decide +kernel

end Thls
