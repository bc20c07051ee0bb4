import Verif.Props.NarrowDifference

/-! # Property C24: narrowing only the fraction of a difference, single-path adder -/

namespace Thls
open Spec

variable {E F G : ℕ}

/-- The fields the single-path adder leaves in the difference of the least number of the second binade and the second least number. -/
theorem single_flushed (hE : 2 ≤ E) (hG : 1 ≤ G) (hfmt : G + 3 < 2 ^ E) (hfmt2 : G + 3 ≠ 2 ^ (E - 1)) :
    AddSingle.addSame (Fp.mk4 E G 1 0 1 0) (Fp.mk4 E G 1 1 0 1) = some (Fp.mk4 E G 0 0 (2 ^ E - 1) (2 ^ G - 2)) := by
  have hEp : 4 ≤ 2 ^ E := by
    calc 4 = 2 ^ 2 := by norm_num
      _ ≤ 2 ^ E := Nat.pow_le_pow_right (by norm_num) hE
  have hGp : 2 ≤ 2 ^ G := by
    calc 2 = 2 ^ 1 := by norm_num
      _ ≤ 2 ^ G := Nat.pow_le_pow_right (by norm_num) hG
  obtain ⟨X, hX⟩ : ∃ X, X = Fp.mk4 E G 1 0 1 0 := ⟨_, rfl⟩
  obtain ⟨Y, hY⟩ : ∃ Y, Y = Fp.mk4 E G 1 1 0 1 := ⟨_, rfl⟩
  have xf : X.flags = 1 := by rw [hX]; exact Fp.mk4_flags (by norm_num) (by norm_num) (by omega) (by omega)
  have xs : X.sign = 0 := by rw [hX]; exact Fp.mk4_sign (by norm_num) (by norm_num) (by omega) (by omega)
  have xe : X.exp = 1 := by rw [hX]; exact Fp.mk4_exp (by norm_num) (by norm_num) (by omega) (by omega) (by omega)
  have xr : X.frac = 0 := by rw [hX]; exact Fp.mk4_frac (by norm_num) (by norm_num) (by omega) (by omega) (by omega)
  have yf : Y.flags = 1 := by rw [hY]; exact Fp.mk4_flags (by norm_num) (by norm_num) (by omega) (by omega)
  have ys : Y.sign = 1 := by rw [hY]; exact Fp.mk4_sign (by norm_num) (by norm_num) (by omega) (by omega)
  have ye : Y.exp = 0 := by rw [hY]; exact Fp.mk4_exp (by norm_num) (by norm_num) (by omega) (by omega) (by omega)
  have yr : Y.frac = 1 := by rw [hY]; exact Fp.mk4_frac (by norm_num) (by norm_num) (by omega) (by omega) (by omega)
  rw [← hX, ← hY]
  have hcore : AddSingle.addSame X Y = AddSingle.core AddSingle.roundBit (lzoc? (G + 5) (intlog2 (G + 5))) X Y := by
    rcases AddSingle.addSame_orders (by omega) hG X Y with ⟨h, -⟩ | ⟨-, -, h⟩
    · exact h
    · have := (AddSingle.ordered_exp hG (h (by rw [xf, yf]))).1
      omega
  have hd : subW (E + 1) X.exp Y.exp = 1 := by rw [AddSingle.subW_of_le (by omega) (by rw [pow_succ]; omega)]; omega
  obtain ⟨s, hs, -⟩ := AddSingle.shiftVal_some (F := G) 1 (show 1 ≤ E by omega) hfmt hfmt2
  have hs1 : s = 1 := by
    rcases AddSingle.shiftVal_cases hfmt (by omega) hs with ⟨h, -⟩ | ⟨-, h, -⟩
    · exact h
    · omega
  subst hs1
  have hm : opadHi1 G Y.frac < 2 ^ (G + 1) := (AddSingle.sig_isSig (show Y.frac < 2 ^ G by omega)).2
  have hop : opadHi1 G Y.frac = 2 ^ G + 1 := by simp [opadHi1, concat, yr]
  have hal := addAlign_spec (F := G) (pad := 0) (s := 1) hm (by omega)
  have hy2 : 4 * opadHi1 G Y.frac / 2 ^ 1 = 2 * 2 ^ G + 2 := by rw [hop, pow_one]; omega
  have hst : opadHi1 G Y.frac * 2 ^ (G + 3) / 2 ^ 1 % 2 ^ (G + 1) = 0 := by
    rw [show opadHi1 G Y.frac * 2 ^ (G + 3) = opadHi1 G Y.frac * 2 * 2 ^ (G + 1) * 2 ^ 1 by rw [pow_add, pow_add]; ring,
      Nat.mul_div_cancel _ (by norm_num), Nat.mul_mod_left]
  rw [hy2, hst, show decide ((0 : ℕ) ≠ 0) = false from rfl] at hal
  have e3 : 2 ^ (G + 3) = 8 * 2 ^ G := by rw [pow_add]; ring
  have hfar := AddSingle.addFar_eq (F := G) (fx := X.frac) (Y := 2 * 2 ^ G + 2) (st := false) (eq := false) (by omega) (by omega)
    (by intro _; rw [xr]; simp; omega)
  have hsum : AddSingle.sumNat false (2 ^ G + X.frac) (2 * 2 ^ G + 2) false = 2 * 2 ^ G - 2 := by
    unfold AddSingle.sumNat
    rw [xr]; simp; omega
  rw [hsum, Bool.not_false] at hfar
  have e4 : 2 ^ (G + 5 - 1) = 16 * 2 ^ G := by rw [show G + 5 - 1 = G + 4 by omega, pow_add]; ring
  have e5 : 2 ^ (G + 5) = 32 * 2 ^ G := by rw [pow_add]; ring
  obtain ⟨c, hc1, hc2, hc3, hc4, hc5⟩ := lzoc_norm (WD := G + 5) (x := 4 * 2 ^ G - 4) (by omega) (by omega) (by omega)
  have hc : c = 3 := by
    rcases Nat.lt_trichotomy c 3 with h | h | h
    · have : 2 ^ c ≤ 2 ^ 2 := Nat.pow_le_pow_right (by norm_num) (by omega)
      have := Nat.mul_le_mul_left (4 * 2 ^ G - 4) this
      omega
    · exact h
    · have : 2 ^ 4 ≤ 2 ^ c := Nat.pow_le_pow_right (by norm_num) h
      have := Nat.mul_le_mul_left (4 * 2 ^ G - 4) this
      omega
  subst hc
  have hT : AddSingle.roundedExpFrac AddSingle.roundBit E G 1 ((4 * 2 ^ G - 4) * 2 ^ 3) 3 = 8 * (2 ^ E * 2 ^ G) - 3 := by
    unfold AddSingle.roundedExpFrac
    have h1 : subW (E + 2) (addW (E + 2) 1 1) 3 = 4 * 2 ^ E - 1 := by
      unfold addW subW
      rw [show 2 ^ (E + 2) = 4 * 2 ^ E by rw [pow_add]; ring, Nat.mod_eq_of_lt (show 1 + 1 < 4 * 2 ^ E by omega), Nat.mod_eq_of_lt (by omega)]
      omega
    have h2 : getBits (G + 3) 3 ((4 * 2 ^ G - 4) * 2 ^ 3) = 2 * 2 ^ G - 4 := by
      unfold getBits
      rw [Nat.mul_div_cancel _ (by norm_num), show G + 3 + 1 - 3 = G + 1 by omega, pow_succ,
        show 4 * 2 ^ G - 4 = 2 * 2 ^ G - 4 + 2 ^ G * 2 by omega, Nat.add_mod_right, Nat.mod_eq_of_lt (by omega)]
    have hb : ∀ k, k ≤ 4 → getBit k ((4 * 2 ^ G - 4) * 2 ^ 3) = false := by
      intro k hk
      unfold getBit
      rw [show (4 * 2 ^ G - 4) * 2 ^ 3 = (2 ^ G - 1) * 2 ^ (4 - k) * 2 * 2 ^ k by
        rw [mul_assoc, ← pow_succ', mul_assoc, ← pow_add, show 4 - k + (k + 1) = 5 by omega]; omega, Nat.mul_div_cancel _ (by positivity)]
      simp
    rw [h1, h2]
    simp only [hb 4 le_rfl, hb 3 (by omega), hb 2 (by omega), hb 1 (by omega), hb 0 (by omega)]
    have hr : AddSingle.roundBit false false false (false || false) = true := rfl
    rw [hr, Bool.toNat_true]
    unfold addW concat
    have hEG : 4 * 2 ≤ 2 ^ E * 2 ^ G := Nat.mul_le_mul hEp hGp
    have h3 : (4 * 2 ^ E - 1) * 2 ^ (G + 1) = 8 * (2 ^ E * 2 ^ G) - 2 * 2 ^ G := by
      rw [Nat.sub_mul, pow_succ]
      rw [show 4 * 2 ^ E * (2 ^ G * 2) = 8 * (2 ^ E * 2 ^ G) by ring]; omega
    have h4 : 2 ^ (E + G + 3) = 8 * (2 ^ E * 2 ^ G) := by rw [pow_add, pow_add]; ring
    have h5 : 4 * 2 ^ G ≤ 2 ^ E * 2 ^ G := Nat.mul_le_mul_right _ hEp
    rw [h3, h4, Nat.mod_eq_of_lt (by omega)]
    omega
  rw [hcore]
  unfold AddSingle.core
  dsimp only
  rw [hd, hs]
  dsimp only
  rw [if_neg (by rw [yf]; norm_num), hal]
  dsimp only
  rw [xs, ys, show ((0 : ℕ) != 1) = true from rfl, hfar]
  have hcc : concat 1 (2 * 2 ^ G - 2) false.toNat = 4 * 2 ^ G - 4 := by unfold concat; simp; omega
  rw [hcc, hc1]
  dsimp only
  rw [xe, hT, decide_eq_false hc5, xf, yf]
  congr 1
  have hEG : 4 * 2 ≤ 2 ^ E * 2 ^ G := Nat.mul_le_mul hEp hGp
  have hEG' : 2 ^ (E + G) = 2 ^ E * 2 ^ G := pow_add _ _ _
  have h4 : 2 ^ (E + G + 3) = 8 * (2 ^ E * 2 ^ G) := by rw [pow_add, pow_add]; ring
  obtain ⟨p1, p2, p3, -⟩ := AddSingle.pack_fields (E := E) (F := G) (T := 8 * (2 ^ E * 2 ^ G) - 3) (by omega)
  have ht : (8 * (2 ^ E * 2 ^ G) - 3) / 2 = 4 * (2 ^ E * 2 ^ G) - 2 := by omega
  have q1 : (4 * (2 ^ E * 2 ^ G) - 2) / 2 ^ (E + G) = 3 := by
    rw [hEG', Nat.div_eq_iff (by positivity)]; omega
  have q2 : (4 * (2 ^ E * 2 ^ G) - 2) % 2 ^ G = 2 ^ G - 2 := by
    rw [show 4 * (2 ^ E * 2 ^ G) - 2 = 2 ^ G - 2 + (4 * 2 ^ E - 1) * 2 ^ G by
      rw [Nat.sub_mul, mul_assoc, one_mul]
      have h5 : 4 * 2 ^ G ≤ 2 ^ E * 2 ^ G := Nat.mul_le_mul_right _ hEp
      omega, Nat.add_mul_mod_self_right, Nat.mod_eq_of_lt (by omega)]
  have q3 : (4 * (2 ^ E * 2 ^ G) - 2) / 2 ^ G % 2 ^ E = 2 ^ E - 1 := by
    rw [show 4 * (2 ^ E * 2 ^ G) - 2 = 2 ^ G - 2 + (4 * 2 ^ E - 1) * 2 ^ G by
      rw [Nat.sub_mul, mul_assoc, one_mul]
      have h5 : 4 * 2 ^ G ≤ 2 ^ E * 2 ^ G := Nat.mul_le_mul_right _ hEp
      omega, Nat.add_mul_div_right _ _ (by positivity), Nat.div_eq_of_lt (show 2 ^ G - 2 < 2 ^ G by omega), Nat.zero_add,
      show 4 * 2 ^ E - 1 = 2 ^ E - 1 + 3 * 2 ^ E by omega, Nat.add_mul_mod_self_right, Nat.mod_eq_of_lt (by omega)]
  rw [ht] at p1 p2 p3
  rw [q1] at p1
  rw [q2] at p2
  rw [q3] at p3
  unfold AddSingle.pack
  dsimp only
  rw [p1, p2, p3]
  rfl

/-- **C24 is false of differences, single-path adder.** In every format in which the adder never fails an assertion two numbers have a difference
that it flushes to zero and that becomes `+inf` when converted to a format with the same exponent width and a fraction shorter by two bits or more. -/
theorem C24_single_difference_narrowed_wrong (hE : 2 ≤ E) (hF : 1 ≤ F) (hFG : F + 2 ≤ G) (hfmt : G + 3 < 2 ^ E) (hfmt2 : G + 3 ≠ 2 ^ (E - 1)) :
    ∃ x y z : Fp E G, ∃ vx vy : ℚ, x.datum = .num vx ∧ y.datum = .num vy ∧ 0 < vx + vy ∧ vx + vy < 2 ^ (-bias E) ∧
      AddSingle.addSame x y = some z ∧ z.datum = .zero false ∧ (convert E F z).datum = .inf false := by
  have hEp : 4 ≤ 2 ^ E := by
    calc 4 = 2 ^ 2 := by norm_num
      _ ≤ 2 ^ E := Nat.pow_le_pow_right (by norm_num) hE
  have hGp : 8 ≤ 2 ^ G := by
    calc 8 = 2 ^ 3 := by norm_num
      _ ≤ 2 ^ G := Nat.pow_le_pow_right (by norm_num) (by omega)
  have h2 : 2 ≤ 2 ^ (G - F - 1) := by
    calc 2 = 2 ^ 1 := by norm_num
      _ ≤ _ := Nat.pow_le_pow_right (by norm_num) (by omega)
  obtain ⟨h0, h1⟩ := convert_zero_inf (E := E) (F := F) (G := G) (by omega) hF (by omega) (f := 2 ^ G - 2) (by omega) (by omega)
  have hx : (Fp.mk4 E G 1 0 1 0).datum = .num (2 * 2 ^ (-bias E)) := by
    rw [Fp.mk4_datum (by norm_num) (by norm_num) (by omega) (by omega) (by omega) (by omega)]
    simp only [denote]
    congr 1
    rw [if_neg (by norm_num), one_mul, show ((1 : ℕ) : ℤ) - bias E - G = -bias E + 1 - G by push_cast; ring, zpow_sub₀ (by norm_num),
      zpow_add₀ (by norm_num), zpow_natCast]
    push_cast
    field_simp
    ring
  have hy : (Fp.mk4 E G 1 1 0 1).datum = .num (-((1 + 1 / 2 ^ G) * 2 ^ (-bias E))) := by
    rw [Fp.mk4_datum (by norm_num) (by norm_num) (by omega) (by omega) (by omega) (by omega)]
    simp only [denote]
    congr 1
    rw [if_pos trivial, show ((0 : ℕ) : ℤ) - bias E - G = -bias E - G by push_cast; ring, zpow_sub₀ (by norm_num), zpow_natCast]
    push_cast
    field_simp
  have hu := two_zpow_pos (-bias E)
  have hg : (0 : ℚ) < 1 / 2 ^ G := by positivity
  have hg1 : (1 : ℚ) / 2 ^ G < 1 := by
    rw [div_lt_one (by positivity)]; exact_mod_cast (by omega : 1 < 2 ^ G)
  exact ⟨_, _, _, _, _, hx, hy, by nlinarith, by nlinarith, single_flushed hE (by omega) hfmt hfmt2, h0, h1⟩

/-- From double-length fractions to single precision. -/
example : (23 + 2 ≤ 47) ∧ 47 + 3 < 2 ^ 8 ∧ 47 + 3 ≠ 2 ^ (8 - 1) := by decide

end Thls
