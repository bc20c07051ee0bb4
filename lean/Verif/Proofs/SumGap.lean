import Verif.Proofs.QuotientGap

/-! # The bits of a flushed difference of short significands (lemmas) -/

namespace Thls
open Spec

variable {E F G : ℕ}

namespace AddDual

/-- Fraction and flags of a packed sum of two normal numbers. -/
theorem pack_fields (hE : 1 ≤ E) (hG : 1 ≤ G) {X Y : Fp E G} (hX : X.flags = 1) (hY : Y.flags = 1) {rs pre : ℕ} {up z : Bool} (hs : rs < 2) :
    (pack E G X Y rs pre up z).frac = (pre + up.toNat) % 2 ^ G ∧
      ((pack E G X Y rs pre up z).flags = 0 → z = false → pre + up.toNat < 2 * 2 ^ (E + G) → False) := by
  have hEG : 2 ^ (E + G + 2) = 4 * 2 ^ (E + G) := by rw [pow_add]; ring
  have hp : 0 < 2 ^ (E + G) := by positivity
  unfold pack
  dsimp only
  obtain ⟨T, hT⟩ : ∃ T, T = addW (E + G + 2) pre up.toNat := ⟨_, rfl⟩
  rw [← hT]
  have hTm : T % 2 ^ G = (pre + up.toNat) % 2 ^ G := by
    rw [hT]; unfold addW; exact Nat.mod_mod_of_dvd _ (pow_dvd_pow 2 (by omega))
  have hlow : getBits (E + G - 1) 0 T % 2 ^ G = T % 2 ^ G := by
    unfold getBits
    rw [show E + G - 1 + 1 - 0 = E + G by omega, pow_zero, Nat.div_one, Nat.mod_mod_of_dvd _ (pow_dvd_pow 2 (by omega))]
  have hlt : getBits (E + G - 1) 0 T / 2 ^ G < 2 ^ E := by
    rw [Nat.div_lt_iff_lt_mul (by positivity), ← pow_add]
    have := getBits_lt (E + G - 1) 0 T
    rwa [show E + G - 1 + 1 - 0 = E + G by omega] at this
  simp only [hX, hY, concat_two, Nat.reduceMul, Nat.reduceAdd, if_true]
  rw [ofBits_concat]
  have hfl : (if getBits (E + G + 1) (E + G) T = 1 then concat 1 (!z).toNat 0
      else if getBits (E + G + 1) (E + G) T = 2 ∨ getBits (E + G + 1) (E + G) T = 3 then 0 else (!z).toNat) < 4 := by
    split_ifs <;> cases z <;> simp [concat]
  constructor
  · rw [Fp.mk4_frac hfl hs hlt (Nat.mod_lt _ (by positivity)) hG, hlow, hTm]
  · intro h0 hz hsm
    have hTe : T = pre + up.toNat := by rw [hT]; unfold addW; exact Nat.mod_eq_of_lt (by omega)
    have htop : getBits (E + G + 1) (E + G) T < 2 := by
      rw [getBits_top (by rw [show E + G + 1 + 1 = E + G + 2 by ring]; omega) (by omega), Nat.div_lt_iff_lt_mul hp]
      omega
    rw [Fp.mk4_flags hfl hs hlt (Nat.mod_lt _ (by positivity)), hz] at h0
    generalize getBits (E + G + 1) (E + G) T = u at *
    interval_cases u <;> simp [concat] at h0

/-- The fraction of a sum with an operand that is not normal. -/
theorem pack_other_frac (hE : 1 ≤ E) (hG : 1 ≤ G) {X Y : Fp E G} (h : ¬ (X.flags = 1 ∧ Y.flags = 1)) {rs pre : ℕ} {up z : Bool} :
    (pack E G X Y rs pre up z).frac = X.frac := by
  have hXf := X.flags_lt
  have hYf := Y.flags_lt
  have hXs := X.sign_lt
  have h5 : ¬ concat 2 X.flags Y.flags = 5 := by rw [concat_two]; omega
  unfold pack
  dsimp only
  rw [if_neg h5, if_neg h5, if_neg h5, ofBits_concat]
  have hef : X.expFrac / 2 ^ G < 2 ^ E := by rw [Fp.expFrac_div hE hG]; exact X.exp_lt hE
  rw [Fp.mk4_frac ?_ ?_ hef (Nat.mod_lt _ (by positivity)) hG, Fp.expFrac_mod hE hG]
  · split_ifs
    · cases (X.sign != Y.sign) <;> simp [concat]
    · norm_num
    · exact hXf
  · split_ifs <;> omega

/-- A difference in the close path that is flushed keeps the trailing zeros of its operands. -/
theorem close_frac (hE : 2 ≤ E) (hF : 1 ≤ F) (hFG : F < G) {X Y w : Fp E G} (hX : X.flags = 1) (hY : Y.flags = 1)
    (hs : X.sign ≠ Y.sign) (h1 : Y.exp ≤ X.exp) (h2 : X.exp ≤ Y.exp + 1) (hfx : 2 ^ (G - F) ∣ X.frac) (hfy : 2 ^ (G - F) ∣ Y.frac)
    (hw : core X Y = some w) (h0 : w.flags = 0) : 2 ^ (G - F) ∣ w.frac := by
  have hG : 1 ≤ G := by omega
  have hXf := X.frac_lt hG
  have hYf := Y.frac_lt hG
  have hXe := X.exp_lt (show 1 ≤ E by omega)
  have hXs := X.sign_lt
  have hd : subW E X.exp Y.exp = X.exp - Y.exp := AddSingle.subW_of_le h1 hXe
  have hE4 : 4 ≤ 2 ^ E := by
    calc 4 = 2 ^ 2 := by norm_num
      _ ≤ 2 ^ E := Nat.pow_le_pow_right (by norm_num) hE
  have hok : ShiftFits E G (X.exp - Y.exp) := by
    by_contra h
    have := (not_shiftFits (by omega) (by omega)).mp h
    omega
  obtain ⟨hsv, -⟩ := shiftVal_spec (d := X.exp - Y.exp) (by omega) hok (by omega)
  have hm : opadHi1 G Y.frac < 2 ^ (G + 1) := (AddSingle.sig_isSig hYf).2
  have hal := addAlign_spec (F := G) (pad := pad1 G) hm hsv
  have hclose : getBits (E - 1) 1 (X.exp - Y.exp) = 0 := by
    unfold getBits
    rw [show (X.exp - Y.exp) / 2 ^ 1 = 0 by norm_num; omega]; simp
  obtain ⟨M, hM⟩ : ∃ M, M = 2 * (2 ^ G + X.frac) := ⟨_, rfl⟩
  obtain ⟨W, hW⟩ : ∃ W, W = if getBit 0 (X.exp - Y.exp) then 2 ^ G + Y.frac else 2 * (2 ^ G + Y.frac) := ⟨_, rfl⟩
  have hcd := closeDiff_spec (b := getBit 0 (X.exp - Y.exp)) hXf hYf hM hW
  have hes : (X.sign != Y.sign) = true := by simpa using hs
  have e2 : 2 ^ (G + 2) = 4 * 2 ^ G := by rw [pow_add]; ring
  have hsG : 2 ^ (G - F) ∣ 2 ^ G := pow_dvd_pow 2 (by omega)
  have hdM : 2 ^ (G - F) ∣ M := by rw [hM]; exact Dvd.dvd.mul_left (Nat.dvd_add hsG hfx) _
  have hdW : 2 ^ (G - F) ∣ W := by
    rw [hW]; split
    · exact Nat.dvd_add hsG hfy
    · exact Dvd.dvd.mul_left (Nat.dvd_add hsG hfy) _
  have hMl : M < 2 ^ (G + 2) := by omega
  have hWl : W < 2 ^ (G + 2) := by rw [hW]; split <;> omega
  have hdD : 2 ^ (G - F) ∣ (if M < W then W - M else M - W) := by
    split
    · exact Nat.dvd_sub hdW hdM
    · exact Nat.dvd_sub hdM hdW
  have hDl : (if M < W then W - M else M - W) < 2 ^ (G + 2) := by split <;> omega
  unfold core at hw
  dsimp only at hw
  rw [hd, hcd, hal] at hw
  simp only [hclose, if_true, hes, Bool.true_and] at hw
  generalize (if M < W then W - M else M - W) = D at *
  by_cases hD : D = 0
  · rw [hD, lzoc_zero _ (intlog2_le_two_mul (by omega))] at hw
    simp only [decide_true, if_true, Option.some.injEq] at hw
    rw [← hw, (pack_fields (by omega) hG hX hY (by norm_num)).1]
    unfold closeRound concat getBits getBit
    simp
  · obtain ⟨c, hc1, hc2, hc3, hc4, hc5⟩ := lzoc_norm (WD := G + 2) (by omega) hDl hD
    rw [hc1] at hw
    simp only [Option.some.injEq, decide_eq_false hD, Bool.false_eq_true, if_false, decide_eq_false hc5] at hw
    have hrs : (X.sign + (decide (M < W)).toNat) % 2 < 2 := Nat.mod_lt _ (by norm_num)
    obtain ⟨p1, p2⟩ := pack_fields (E := E) (G := G) (X := X) (Y := Y) (by omega) hG hX hY (pre := (closeRound E G X.exp (D * 2 ^ c) c).1)
      (up := (closeRound E G X.exp (D * 2 ^ c) c).2) (z := false) hrs
    rw [hw] at p1 p2
    rcases Nat.eq_zero_or_pos c with hc | hc
    · exfalso
      refine p2 h0 rfl ?_
      unfold closeRound
      have hu : (getBit 0 (D * 2 ^ c) && getBit 1 (D * 2 ^ c)).toNat ≤ 1 := Bool.toNat_le _
      have hsb : subW (E + 2) X.exp c = X.exp := by
        rw [hc, AddSingle.subW_of_le (by omega) (by rw [pow_add]; omega), Nat.sub_zero]
      have hgb : getBits G 1 (D * 2 ^ c) < 2 ^ G := by
        have := getBits_lt G 1 (D * 2 ^ c)
        rwa [Nat.add_sub_cancel] at this
      dsimp only
      rw [hsb]
      unfold concat
      have : (X.exp + 1) * 2 ^ G ≤ 2 ^ E * 2 ^ G := Nat.mul_le_mul_right _ (by omega)
      rw [pow_add]
      have h3 : 0 < 2 ^ E * 2 ^ G := by positivity
      nlinarith
    · obtain ⟨c', rfl⟩ : ∃ c', c = c' + 1 := ⟨c - 1, by omega⟩
      rw [p1]
      unfold closeRound
      have hS : D * 2 ^ (c' + 1) = 2 * (D * 2 ^ c') := by rw [pow_succ]; ring
      have hbit : getBit 0 (D * 2 ^ (c' + 1)) = false := by
        unfold getBit
        rw [hS, pow_zero, Nat.div_one, Nat.mul_mod_right]; rfl
      have hgb : getBits G 1 (D * 2 ^ (c' + 1)) = D * 2 ^ c' % 2 ^ G := by
        unfold getBits
        rw [hS, Nat.add_sub_cancel, pow_one, Nat.mul_div_cancel_left _ (by norm_num)]
      dsimp only
      rw [hbit, hgb, Bool.false_and, Bool.toNat_false, Nat.add_zero]
      unfold concat
      rw [Nat.mul_add_mod_self_right, Nat.mod_mod]
      exact (Nat.dvd_mod_iff hsG).mpr (Dvd.dvd.mul_right hdD _)

/-- In the far path the sum does not underflow. -/
theorem far_ge (hF : 1 ≤ F) {X Y : Fp E F} {vx vy : ℚ} (hX : X.datum = .num vx) (hY : Y.datum = .num vy)
    (h2 : X.sign = Y.sign ∨ Y.exp + 2 ≤ X.exp) : (2 : ℚ) ^ (-bias E) ≤ |vx + vy| := by
  obtain ⟨x1, x2, x3⟩ := num_bounds hF hX
  obtain ⟨y1, y2, y3⟩ := num_bounds hF hY
  rcases h2 with h | h
  · have hge : |vx| ≤ |vx + vy| := by
      have hxs := X.sign_lt
      by_cases hs : X.sign = 0
      · have a := x3.mpr hs
        have b := y3.mpr (by omega)
        rw [abs_of_pos a, abs_of_pos (by linarith)]; linarith
      · have a : vx ≤ 0 := not_lt.1 fun hh => hs (x3.mp hh)
        have b : vy ≤ 0 := not_lt.1 fun hh => hs (h ▸ y3.mp hh)
        rw [abs_of_nonpos a, abs_of_nonpos (by linarith)]; linarith
    refine le_trans ?_ (le_trans x1 hge)
    exact zpow_le_zpow_right₀ (by norm_num) (by omega)
  · have h3 : |vx| - |vy| ≤ |vx + vy| := by
      have := abs_sub_abs_le_abs_sub vx (-vy)
      rwa [abs_neg, sub_neg_eq_add] at this
    have h4 : (2 : ℚ) ^ ((Y.exp : ℤ) - bias E + 1) ≤ 2 ^ ((X.exp : ℤ) - bias E - 1) := zpow_le_zpow_right₀ (by norm_num) (by omega)
    have h5 : (2 : ℚ) ^ ((X.exp : ℤ) - bias E) = 2 * 2 ^ ((X.exp : ℤ) - bias E - 1) := by
      rw [show (X.exp : ℤ) - bias E = ((X.exp : ℤ) - bias E - 1) + 1 by ring, two_zpow_succ,
        show (X.exp : ℤ) - bias E - 1 + 1 - 1 = (X.exp : ℤ) - bias E - 1 by ring]
    have h6 : (2 : ℚ) ^ (-bias E) ≤ 2 ^ ((X.exp : ℤ) - bias E - 1) := zpow_le_zpow_right₀ (by norm_num) (by omega)
    linarith

end AddDual

/-- A sum of two numbers of a format below its range is at most the greatest `F+1`-bit number there. -/
theorem sum_below {X Y : Fp E F} {vx vy : ℚ} (hX : X.datum = .num vx) (hY : Y.datum = .num vy) (hq : |vx + vy| < 2 ^ (-bias E)) :
    |vx + vy| ≤ subMax E F := by
  obtain ⟨-, rfl⟩ := datum_num_iff.mp hX
  obtain ⟨-, rfl⟩ := datum_num_iff.mp hY
  have key : ∀ e : ℕ, (2 : ℚ) ^ ((e : ℤ) - bias E - F) = ((2 ^ e : ℕ) : ℚ) * 2 ^ (-bias E - F) := by
    intro e
    rw [show (e : ℤ) - bias E - F = (e : ℤ) + (-bias E - F) by ring, zpow_add₀ (by norm_num), zpow_natCast]; push_cast; ring
  obtain ⟨k, hk⟩ : ∃ k : ℤ, (if X.sign = 1 then (-1 : ℚ) else 1) * (((2 ^ F + X.frac : ℕ) : ℚ) * 2 ^ ((X.exp : ℤ) - bias E - F)) +
      (if Y.sign = 1 then (-1 : ℚ) else 1) * (((2 ^ F + Y.frac : ℕ) : ℚ) * 2 ^ ((Y.exp : ℤ) - bias E - F)) = (k : ℚ) * 2 ^ (-bias E - F) := by
    rw [key, key]
    refine ⟨(if X.sign = 1 then (-1 : ℤ) else 1) * (((2 ^ F + X.frac) * 2 ^ X.exp : ℕ) : ℤ) +
      (if Y.sign = 1 then (-1 : ℤ) else 1) * (((2 ^ F + Y.frac) * 2 ^ Y.exp : ℕ) : ℤ), ?_⟩
    split_ifs <;> push_cast <;> ring
  rw [hk] at hq ⊢
  have hu := two_zpow_pos (-bias E - F)
  rw [abs_mul, abs_of_pos hu] at hq ⊢
  have e1 : (2 : ℚ) ^ (-bias E) = 2 ^ F * 2 ^ (-bias E - F) := by
    rw [zpow_sub₀ (by norm_num), zpow_natCast]; field_simp
  rw [e1] at hq
  have h1 : |(k : ℚ)| < 2 ^ F := lt_of_mul_lt_mul_right hq hu.le
  have h2 : |k| < 2 ^ F := by rw [← Int.cast_abs] at h1; exact_mod_cast h1
  have h3 : |(k : ℚ)| ≤ 2 ^ F - 1 := by
    rw [← Int.cast_abs]
    have : |k| ≤ 2 ^ F - 1 := by omega
    exact_mod_cast this
  rw [subMax_eq, e1]
  have h4 := mul_le_mul_of_nonneg_right h3 hu.le
  refine h4.trans ?_
  rw [← mul_assoc]
  apply mul_le_mul_of_nonneg_right _ hu.le
  rw [pow_succ, sub_mul, one_mul, one_div_mul_eq_div]
  have : (2 : ℚ) ^ F / (2 ^ F * 2) = 1 / 2 := by field_simp
  rw [this]; linarith

end Thls
