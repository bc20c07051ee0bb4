import Verif.Props.Narrow
import Verif.Props.Exact
import Verif.Proofs.DoubleRoundSame

/-! # Properties C24 and C96: narrowing only the fraction of a product

The bits of the exponent and fraction fields of a zero mean nothing, but the multiplier fills them, and the conversion to a shorter fraction at equal
exponent width rounds them. -/

namespace Thls
open Spec

variable {E F G : ℕ}

/-- The fields of a product whose exponent is one below the range and whose significand fits. -/
theorem mulV1_below (hE : 2 ≤ E) (hG : 1 ≤ G) (x y : Fp E G) {f : ℕ} (hP : (2 ^ G + x.frac) * (2 ^ G + y.frac) = 2 ^ (2 * G) + 2 ^ G * f)
    (hf : f < 2 ^ G) (he : x.exp + y.exp + 1 = biasN E) :
    mulV1 E G x y = some (Fp.mk4 E G (mulFinalExc (mulExc x.flags y.flags) 0) ((x.sign + y.sign) % 2) (2 ^ E - 1) f) := by
  have hbl := biasN_lt (E := E)
  have hE4 : 2 ^ (E + 2) = 4 * 2 ^ E := by ring
  have hEp : 0 < 2 ^ E := by positivity
  have hGp : 0 < 2 ^ G := by positivity
  have hGG : 2 ^ (2 * G) = 2 ^ G * 2 ^ G := by rw [two_mul, pow_add]
  have hPl : 2 ^ (2 * G) + 2 ^ G * f < 2 ^ (2 * G + 1) := by
    have : 2 ^ G * f < 2 ^ G * 2 ^ G := Nat.mul_lt_mul_of_pos_left hf hGp
    rw [pow_succ]; omega
  have hop : ∀ z : Fp E G, opadHi1 G z.frac = 2 ^ G + z.frac := by intro z; simp [opadHi1, concat]
  have hnorm : getBit (G + 1 + G + 1 - 1) (2 ^ (2 * G) + 2 ^ G * f) = false := by
    unfold getBit
    rw [show G + 1 + G + 1 - 1 = 2 * G + 1 by omega, Nat.div_eq_of_lt hPl]; rfl
  have hexp : mulExp E E x.exp y.exp false = 2 ^ (E + 2) - 1 := by
    unfold mulExp addW subW
    simp only [Bool.toNat_false, Nat.add_zero, Nat.mod_mod]
    rw [Nat.mod_eq_of_lt (show x.exp + y.exp < 2 ^ (E + 2) by omega)]
    rw [Nat.mod_eq_of_lt (by omega)]; omega
  have hext : mulSigExt (G + 1 + G + 1) false (2 ^ (2 * G) + 2 ^ G * f) = f * 2 ^ (G + 2) := by
    unfold mulSigExt concat
    rw [if_neg (by simp), getBits_zero_eq_mod, show G + 1 + G + 1 - 3 + 1 = 2 * G by omega, Nat.add_mod_left,
      Nat.mod_eq_of_lt (by rw [hGG]; exact Nat.mul_lt_mul_of_pos_left hf hGp)]
    rw [pow_add]; ring
  unfold mulV1
  dsimp only
  rw [if_neg (by omega), if_neg (by omega), if_neg (by simp), hop, hop, hP, hnorm, hexp, hext]
  congr 1
  unfold mulRound
  have g1 : getBits (G + 1 + G + 1 - 1) (G + 1 + G + 1 - G) (f * 2 ^ (G + 2)) = f := by
    rw [getBits_top (by
      rw [show G + 1 + G + 1 - 1 + 1 = G + (G + 2) by omega, pow_add (m := G) (n := G + 2)]
      exact Nat.mul_lt_mul_of_pos_right hf (by positivity)) (by omega), show G + 1 + G + 1 - G = G + 2 by omega,
      Nat.mul_div_cancel _ (by positivity)]
  have g2 : getBit (G + 1 + G + 1 - 1 - G) (f * 2 ^ (G + 2)) = false := by
    unfold getBit
    rw [show G + 1 + G + 1 - 1 - G = G + 1 by omega, show f * 2 ^ (G + 2) = 2 * f * 2 ^ (G + 1) by ring, Nat.mul_div_cancel _ (by positivity)]
    simp
  rw [g1, g2]
  have hsum : (2 ^ (E + 2) - 1) * 2 ^ G + f < 2 ^ (2 + E + G) := by
    rw [show 2 + E + G = (E + 2) + G by omega, pow_add (n := G), Nat.sub_mul, Nat.one_mul]
    have : 2 ^ G ≤ 2 ^ (E + 2) * 2 ^ G := Nat.le_mul_of_pos_left _ (by positivity)
    omega
  have hadd : addW (2 + E + G) (concat G (2 ^ (E + 2) - 1) f) 0 = (2 ^ (E + 2) - 1) * 2 ^ G + f := by
    unfold addW concat
    rw [Nat.add_zero, Nat.mod_eq_of_lt hsum]
  have hval : (2 ^ (E + 2) - 1) * 2 ^ G + f = 3 * 2 ^ (E + G) + ((2 ^ E - 1) * 2 ^ G + f) := by
    rw [hE4, pow_add, show 4 * 2 ^ E - 1 = 3 * 2 ^ E + (2 ^ E - 1) by omega]; ring
  have hlow : (2 ^ E - 1) * 2 ^ G + f < 2 ^ (E + G) := by
    rw [pow_add, Nat.sub_mul, Nat.one_mul]
    have : 2 ^ G ≤ 2 ^ E * 2 ^ G := Nat.le_mul_of_pos_left _ hEp
    omega
  simp only [Bool.false_and, Bool.toNat_false, hadd]
  have g3 : getBits (E + G + 1) (E + G) ((2 ^ (E + 2) - 1) * 2 ^ G + f) = 3 := by
    rw [getBits_top (by rw [show E + G + 1 + 1 = 2 + E + G by omega]; exact hsum) (by omega), hval, Nat.add_comm,
      Nat.add_mul_div_right _ _ (by positivity), Nat.div_eq_of_lt hlow, Nat.zero_add]
  have g4 : getBits (E + G - 1) 0 ((2 ^ (E + 2) - 1) * 2 ^ G + f) = (2 ^ E - 1) * 2 ^ G + f := by
    rw [getBits_zero_eq_mod, show E + G - 1 + 1 = E + G by omega, hval, Nat.add_comm, Nat.add_mul_mod_self_right, Nat.mod_eq_of_lt hlow]
  rw [g3, g4, ofBits_concat]
  congr 1
  · rw [Nat.add_comm, Nat.add_mul_div_right _ _ hGp, Nat.div_eq_of_lt hf, Nat.zero_add]
  · rw [Nat.add_comm, Nat.add_mul_mod_self_right, Nat.mod_eq_of_lt hf]

/-- A zero whose fields round up over the top becomes an infinity. -/
theorem convert_zero_inf (hE : 1 ≤ E) (hF : 1 ≤ F) (hFG : F < G) {f : ℕ} (hf : f < 2 ^ G) (hc : 2 ^ G - 2 ^ (G - F - 1) ≤ f) :
    (Fp.mk4 E G 0 0 (2 ^ E - 1) f).datum = .zero false ∧ (convert E F (Fp.mk4 E G 0 0 (2 ^ E - 1) f)).datum = .inf false := by
  have hEp : 0 < 2 ^ E := by positivity
  have h0 : (Fp.mk4 E G 0 0 (2 ^ E - 1) f).datum = .zero false := by
    rw [Fp.mk4_datum (by norm_num) (by norm_num) (by omega) hf hE (by omega)]; rfl
  have he : (Fp.mk4 E G 0 0 (2 ^ E - 1) f).exp = 2 ^ E - 1 := Fp.mk4_exp (by norm_num) (by norm_num) (by omega) hf hE
  have hfr : (Fp.mk4 E G 0 0 (2 ^ E - 1) f).frac = f := Fp.mk4_frac (by norm_num) (by norm_num) (by omega) hf (by omega)
  have hfl : (Fp.mk4 E G 0 0 (2 ^ E - 1) f).flags = 0 := Fp.mk4_flags (by norm_num) (by norm_num) (by omega) hf
  have hsg : (Fp.mk4 E G 0 0 (2 ^ E - 1) f).sign = 0 := Fp.mk4_sign (by norm_num) (by norm_num) (by omega) hf
  refine ⟨h0, ?_⟩
  have hne := C24_convert_special_iff (ER := E) (FR := F) hE hF hE (show 1 ≤ G by omega) (Fp.mk4 E G 0 0 (2 ^ E - 1) f)
    (by intro v; rw [h0]; simp)
  have hw : (convertFrac F G (Fp.mk4 E G 0 0 (2 ^ E - 1) f).frac).2 = true := by
    by_contra hw
    refine hne.mp (convert_special hE hF hE (by omega) _ (by rw [hfl]; decide) fun _ h => absurd h hw).1 ⟨?_, rfl, hFG, he, by rw [hfr]; exact hc⟩
    intro s; rw [h0]; simp
  unfold convert
  dsimp only
  rw [hw]
  have h1 : (convertExp E E (Fp.mk4 E G 0 0 (2 ^ E - 1) f).flags (Fp.mk4 E G 0 0 (2 ^ E - 1) f).exp true).1 = 2 := by simp [convertExp, he, ones]
  have h2 : (convertExp E E (Fp.mk4 E G 0 0 (2 ^ E - 1) f).flags (Fp.mk4 E G 0 0 (2 ^ E - 1) f).exp true).2 < 2 ^ E := by simp [convertExp, addW_lt]
  rw [Fp.mk4_datum (by rw [h1]; decide) (Fp.sign_lt _) h2 (convertFrac_down hF hFG (by rw [hfr]; exact hf)).1 hE hF, h1, hsg]
  rfl

theorem biasN_half (hE : 2 ≤ E) : 1 ≤ biasN E := by
  unfold biasN
  have : 2 ^ 1 ≤ 2 ^ (E - 1) := Nat.pow_le_pow_right (by norm_num) (by omega)
  omega

theorem mulV1_below_mk (hE : 2 ≤ E) (hG : 1 ≤ G) {fl e e' a b f : ℕ} (hfl : fl < 2) (he : e + e' + 1 = biasN E) (ha : a < 2 ^ G) (hb : b < 2 ^ G)
    (hf : f < 2 ^ G) (hP : (2 ^ G + a) * (2 ^ G + b) = 2 ^ (2 * G) + 2 ^ G * f) :
    mulV1 E G (Fp.mk4 E G fl 0 e a) (Fp.mk4 E G 1 0 e' b) = some (Fp.mk4 E G 0 0 (2 ^ E - 1) f) := by
  have hbl := biasN_lt (E := E)
  have h1 : e < 2 ^ E := by omega
  have h2 : e' < 2 ^ E := by omega
  rw [mulV1_below hE hG _ _ (f := f) (by rw [Fp.mk4_frac (by omega) (by norm_num) h1 ha hG, Fp.mk4_frac (by norm_num) (by norm_num) h2 hb hG, hP]) hf
    (by rw [Fp.mk4_exp (by omega) (by norm_num) h1 ha (by omega), Fp.mk4_exp (by norm_num) (by norm_num) h2 hb (by omega), he]),
    Fp.mk4_flags (by omega) (by norm_num) h1 ha, Fp.mk4_flags (by norm_num) (by norm_num) h2 hb, Fp.mk4_sign (by omega) (by norm_num) h1 ha,
    Fp.mk4_sign (by norm_num) (by norm_num) h2 hb]
  have : mulFinalExc (mulExc fl 1) 0 = 0 := by
    have : fl = 0 ∨ fl = 1 := by omega
    rcases this with rfl | rfl <;> rfl
  rw [this]

/-- **C24, products that become infinities.** In every format, `+0` times a number just below one is a zero, and so is the least positive number times
it; but converted to any shorter fraction at the same exponent width, both products are infinities. -/
theorem C24_product_narrowed_wrong (hE : 2 ≤ E) (hF : 1 ≤ F) (hFG : F < G) :
    ∃ z x y w w' : Fp E G, z.datum = .zero false ∧ x.datum = .num (2 ^ (-bias E)) ∧ y.datum = .num (1 - 2 ^ (-(G : ℤ) - 1)) ∧
      mulV1 E G z y = some w ∧ w.datum = .zero false ∧ (convert E F w).datum = .inf false ∧
      mulV1 E G x y = some w' ∧ w'.datum = .zero false ∧ (convert E F w').datum = .inf false := by
  have hbl := biasN_lt (E := E)
  have hbp := biasN_half hE
  have hGp : 0 < 2 ^ G := by positivity
  have hEp : 0 < 2 ^ E := by positivity
  have hbb : (biasN E : ℤ) = bias E := pow_bias
  obtain ⟨h0, h1⟩ := convert_zero_inf (E := E) (F := F) (G := G) (by omega) hF hFG (f := 2 ^ G - 1) (by omega)
    (by have : 0 < 2 ^ (G - F - 1) := by positivity
        omega)
  have hP : (2 ^ G + 0) * (2 ^ G + (2 ^ G - 1)) = 2 ^ (2 * G) + 2 ^ G * (2 ^ G - 1) := by rw [two_mul, pow_add]; ring
  refine ⟨Fp.mk4 E G 0 0 0 0, Fp.mk4 E G 1 0 0 0, Fp.mk4 E G 1 0 (biasN E - 1) (2 ^ G - 1), _, _, ?_, ?_, ?_,
    mulV1_below_mk hE (by omega) (by norm_num) (by omega) hGp (by omega) (by omega) hP, h0, h1,
    mulV1_below_mk hE (by omega) (by norm_num) (by omega) hGp (by omega) (by omega) hP, h0, h1⟩
  · rw [Fp.mk4_datum (by norm_num) (by norm_num) hEp hGp (by omega) (by omega)]; rfl
  · rw [mk4_num (by omega) (by omega) hEp hGp]; simp
  · rw [mk4_num (by omega) (by omega) (by omega) (by omega)]
    congr 1
    have : ((biasN E - 1 : ℕ) : ℤ) - bias E = -1 := by rw [← hbb]; omega
    have h2 : (2 : ℚ) ^ (-(G : ℤ) - 1) = 1 / (2 ^ G * 2) := by
      rw [zpow_sub₀ (by norm_num), zpow_one, zpow_neg, zpow_natCast]; field_simp
    rw [this, h2, Nat.cast_sub (by omega)]
    push_cast
    have : (2 : ℚ) ^ G ≠ 0 := by positivity
    field_simp
    ring

/-- Format (8,47) and its narrowing to (8,23): `0 * (1 - 2^-48)` becomes infinity. -/
example : ((mulV1 8 47 (Fp.mk4 8 47 0 0 0 0) (Fp.mk4 8 47 1 0 126 (2 ^ 47 - 1))).map fun w => (w.datum, (convert 8 23 w).datum)) =
    some (.zero false, .inf false) := by decide +kernel

theorem convert_up_mk (hE : 1 ≤ E) (hF : 1 ≤ F) (hFG : F ≤ G) {e f : ℕ} (he : e < 2 ^ E) (hf : f < 2 ^ F) :
    convert E G (Fp.mk4 E F 1 0 e f) = Fp.mk4 E G 1 0 e (f * 2 ^ (G - F)) := by
  unfold convert
  dsimp only
  rw [Fp.mk4_frac (by norm_num) (by norm_num) he hf hF, Fp.mk4_exp (by norm_num) (by norm_num) he hf hE,
    Fp.mk4_flags (by norm_num) (by norm_num) he hf, Fp.mk4_sign (by norm_num) (by norm_num) he hf, convertFrac_up hFG]
  simp [convertExp, addW, Nat.mod_eq_of_lt he]

/-- **C96, equal exponent widths.** With only a longer fraction for the intermediate result (twice as long or longer, or one bit short of that), computing there and narrowing goes
wrong in every format: there are two positive numbers whose product is rounded to the least positive number, whereas the detour flushes it to zero and
then turns that zero into an infinity. -/
theorem C96_mul_same_exponent_wrong (hE : 2 ≤ E) (hF : 2 ≤ F) (hG : 2 * F ≤ G + 1) :
    ∃ (x y r : Fp E F) (w : Fp E G) (vx vy : ℚ), x.datum = .num vx ∧ y.datum = .num vy ∧ 0 < vx ∧ 0 < vy ∧
      mulV1 E F x y = some r ∧ r.datum = .num (2 ^ (-bias E)) ∧
      mulV1 E G (convert E G x) (convert E G y) = some w ∧ w.datum = .zero false ∧ (convert E F w).datum = .inf false := by
  have hbl := biasN_lt (E := E)
  have hbp := biasN_half hE
  have hEp : 0 < 2 ^ E := by positivity
  have hF4 : 2 ^ 2 ≤ 2 ^ F := Nat.pow_le_pow_right (by norm_num) hF
  have hbb : (biasN E : ℤ) = bias E := pow_bias
  have hx := mk4_num (E := E) (F := F) (e := 0) (f := 2 ^ F - 2) (by omega) (by omega) hEp (by omega)
  have hy := mk4_num (E := E) (F := F) (e := biasN E - 1) (f := 1) (by omega) (by omega) (by omega) (by omega)
  obtain ⟨r, hr, hR⟩ := C10_mul_correctly_rounded (wFR := F) hE (by omega) (by omega) (by omega) (by omega) _ _ _ _ hx hy
  have hval : (1 + ((2 ^ F - 2 : ℕ) : ℚ) / 2 ^ F) * 2 ^ (((0 : ℕ) : ℤ) - bias E) * ((1 + ((1 : ℕ) : ℚ) / 2 ^ F) * 2 ^ (((biasN E - 1 : ℕ) : ℤ) - bias E)) =
      2 ^ (-bias E) * (1 - 1 / 2 ^ (2 * F)) := by
    have e1 : ((biasN E - 1 : ℕ) : ℤ) - bias E = -1 := by rw [← hbb]; omega
    rw [e1, Nat.cast_sub (by omega), two_mul, pow_add]
    push_cast
    rw [zero_sub]
    have : (2 : ℚ) ^ F ≠ 0 := by positivity
    field_simp
    ring
  rw [hval] at hR
  have hb0 := two_zpow_pos (-bias E)
  have hr' : r.datum = .num (2 ^ (-bias E)) := by
    have hq : (0 : ℚ) < 1 / 2 ^ (2 * F) := by positivity
    have hq4 : (1 : ℚ) / 2 ^ (2 * F) ≤ 1 / (4 * 2 ^ F) := by
      rw [two_mul, pow_add]
      have : ((2 ^ 2 : ℕ) : ℚ) ≤ ((2 ^ F : ℕ) : ℚ) := by exact_mod_cast hF4
      push_cast at this
      apply one_div_le_one_div_of_le (by positivity)
      exact mul_le_mul_of_nonneg_right (by linarith) (by positivity)
    have hFn : IsSig (F + 1) (2 ^ F) := ⟨by simp, by rw [pow_succ]; omega⟩
    have hFm : IsSig (F + 1) (2 ^ (F + 1) - 1) := ⟨by rw [Nat.add_sub_cancel, pow_succ]; omega, by
      have : 0 < 2 ^ (F + 1) := by positivity
      omega⟩
    have hc : ((2 ^ (F + 1) - 1 : ℕ) : ℚ) = 2 * 2 ^ F - 1 := by
      rw [Nat.cast_sub (Nat.one_le_two_pow)]; push_cast; ring
    have hu : (2 : ℚ) ^ (-bias E) = 2 * 2 ^ F * 2 ^ (-bias E - F - 1) := by
      rw [zpow_sub₀ (by norm_num), zpow_sub₀ (by norm_num), zpow_natCast, zpow_one]; field_simp
    have hu2 : (2 : ℚ) ^ (-bias E) = 2 ^ F * 2 ^ (-bias E - F) := by
      rw [zpow_sub₀ (by norm_num), zpow_natCast]; field_simp
    have hup := two_zpow_pos (-bias E - F - 1)
    have hpos : (0 : ℚ) < 2 ^ (-bias E) * (1 - 1 / 2 ^ (2 * F)) := by
      apply mul_pos hb0
      have : (1 : ℚ) / (4 * 2 ^ F) < 1 := by
        rw [div_lt_one (by positivity)]
        have : (1 : ℚ) ≤ 2 ^ F := one_le_pow₀ (by norm_num)
        linarith
      linarith
    have hlow : ((2 : ℚ) * 2 ^ F - 1 + 1 / 2) * 2 ^ (-bias E - F - 1) ≤ 2 ^ (-bias E) * (1 - 1 / 2 ^ (2 * F)) := by
      have e5 : (2 : ℚ) ^ (-bias E) * (1 / (4 * 2 ^ F)) = 1 / 2 * 2 ^ (-bias E - F - 1) := by
        rw [hu]; field_simp; norm_num
      have := mul_le_mul_of_nonneg_left hq4 hb0.le
      rw [mul_sub, mul_one]
      nlinarith
    have hnear : NearestEven (F + 1) (abs ((2 : ℚ) ^ (-bias E) * (1 - 1 / 2 ^ (2 * F)))) (2 ^ F) (-bias E - F) := by
      rw [abs_of_pos hpos]
      have hev : Even (2 ^ F) := (Nat.even_pow.mpr ⟨even_two, by omega⟩)
      have hodd : ¬ Even (2 ^ (F + 1) - 1) := by
        rw [Nat.not_even_iff_odd]; exact Nat.Even.sub_odd Nat.one_le_two_pow (Nat.even_pow.mpr ⟨even_two, by omega⟩) odd_one
      refine (nearest_pick (m := 2 ^ (F + 1) - 1) (n := 2 ^ F) (e := -bias E - F - 1) (e' := -bias E - F) (by omega) hFm hFn ?_ ?_ ?_ ?_).2 ?_
      · rw [hc]; push_cast; rw [← hu2, hu]; ring
      · exact ⟨fun _ => hodd, fun _ => hev⟩
      · rw [hc]; linarith
      · rw [hc, sub_add_cancel, ← hu]
        have := mul_pos hb0 hq
        linarith
      · rw [hc]
        rcases hlow.lt_or_eq with h | h
        · exact Or.inl h
        · exact Or.inr ⟨h.symm, hodd⟩
    obtain ⟨m, e, hn, hd⟩ := hR
    refine rounded_unique ⟨m, e, hn, hd⟩ ⟨_, _, hnear, ?_⟩
    unfold rangeCheck
    rw [if_neg (by omega), if_neg (by
      have : (0 : ℤ) < 2 ^ E := by positivity
      omega), decide_eq_false (not_lt.mpr hpos.le)]
    simp only [Bool.false_eq_true, if_false, one_mul]
    congr 1
    push_cast
    exact hu2
  obtain ⟨k, hk'⟩ : ∃ k, G + 1 = 2 * F + k := ⟨G + 1 - 2 * F, by omega⟩
  have hFG : F < G := by omega
  have hk : 0 < 2 ^ k := by positivity
  have hGk : 2 ^ k < 2 ^ G := Nat.pow_lt_pow_right (by norm_num) (by omega)
  obtain ⟨h0, h1⟩ := convert_zero_inf (E := E) (F := F) (G := G) (by omega) (by omega) hFG (f := 2 ^ G - 2 ^ k) (by omega)
    (by have : 2 ^ k ≤ 2 ^ (G - F - 1) := Nat.pow_le_pow_right (by norm_num) (by omega)
        omega)
  refine ⟨_, _, r, _, _, _, hx, hy, by positivity, by positivity, hr, hr', ?_, h0, h1⟩
  rw [convert_up_mk (by omega) (by omega) (by omega) hEp (by omega), convert_up_mk (by omega) (by omega) (by omega) (by omega) (by omega)]
  have hSp : 0 < 2 ^ (G - F) := by positivity
  have hprod : 2 ^ G = 2 ^ F * 2 ^ (G - F) := by rw [← pow_add]; congr 1; omega
  refine mulV1_below_mk hE (by omega) (by norm_num) (by omega) ?_ ?_ (by omega) ?_
  · rw [hprod]; exact Nat.mul_lt_mul_of_pos_right (by omega) hSp
  · rw [hprod]; exact Nat.mul_lt_mul_of_pos_right (by omega) hSp
  · obtain ⟨P, hP⟩ : ∃ P, 2 ^ F = P + 2 := ⟨2 ^ F - 2, by omega⟩
    have e1 : 2 ^ F * 2 ^ k = 2 * 2 ^ (G - F) := by rw [← pow_add, ← pow_succ']; congr 1; omega
    have e4 : 2 ^ (2 * G) = 2 ^ G * 2 ^ G := by rw [two_mul, pow_add]
    have e5 : 2 ^ G * (2 ^ G - 2 ^ k) + 2 ^ (G - F) * (2 ^ F * 2 ^ k) = 2 ^ G * 2 ^ G := by
      rw [← mul_assoc, mul_comm (2 ^ (G - F)) (2 ^ F), ← hprod, ← mul_add, Nat.sub_add_cancel hGk.le]
    rw [e1] at e5
    rw [e4]
    suffices h : (2 ^ G + (2 ^ F - 2) * 2 ^ (G - F)) * (2 ^ G + 1 * 2 ^ (G - F)) + 2 ^ (G - F) * (2 * 2 ^ (G - F)) = 2 ^ G * 2 ^ G + 2 ^ G * 2 ^ G by
      omega
    rw [hprod, hP, Nat.add_sub_cancel]
    ring

/-! ## Away from underflow -/

/-- Narrowing the fraction of a correctly rounded result that does not underflow. -/
theorem narrow_same_iff (hE : 1 ≤ E) (hF : 1 ≤ F) (hFG : F < G) {q : ℚ} (hq : (2 : ℚ) ^ (-bias E) ≤ |q|) {w : Fp E G} {r : Fp E F}
    (hw : Rounded E G q w.datum) (hr : Rounded E F q r.datum) : (convert E F w).equals r = true ↔ ¬ RoundsTwice E F G q := by
  have hinf : (∀ v, w.datum ≠ .num v) → ∃ s, w.datum = .inf s := by
    intro hn
    obtain ⟨m, e, hm, hd⟩ := hw
    have hlo : -bias E ≤ e + G := by
      have h1 := nearest_mono (p := G + 1) (by omega) hq (nearest_self (p := G + 1) (m := 2 ^ G) (e := -bias E - G) (t := 2 ^ (-bias E)) (by omega)
        ⟨le_of_eq (by simp), Nat.pow_lt_pow_right (by norm_num) (by omega)⟩ (by
          push_cast [zpow_sub₀ (show (2 : ℚ) ≠ 0 by norm_num)]; rw [zpow_natCast]; field_simp)) hm
      refine (sig_ge_iff hm.1 _ _).mp (le_trans (le_of_eq ?_) h1)
      push_cast [zpow_sub₀ (show (2 : ℚ) ≠ 0 by norm_num)]; rw [zpow_natCast]; field_simp
    unfold rangeCheck at hd
    rw [if_neg (by omega)] at hd
    by_cases h2 : 2 ^ E ≤ e + G + bias E
    · rw [if_pos h2] at hd; exact ⟨_, hd⟩
    · rw [if_neg h2] at hd; exact absurd hd (hn _)
  rw [C07_equals_iff_same_datum hE hF, ← double_round_same_exp hE hF hFG hq hw (d := (convert E F w).datum)
    (fun v hv => convert_rounded hE hF (by omega) (by omega) _ v hv)
    (fun h => (C24_convert_special_iff hE hF (by omega) (by omega) _ h).mpr (fun ⟨h1, _⟩ => by
      obtain ⟨s, hs⟩ := hinf h
      exact h1 s hs))]
  exact ⟨fun h => by rw [h]; exact hr, fun h => rounded_unique h hr⟩

/-- **C96, equal exponent widths, multiplication.** If the exact product is not below the least positive number, only double rounding matters. -/
theorem C96_mul_same_exponent_iff (hE : 2 ≤ E) (hF : 1 ≤ F) (hFG : F < G) (x y : Fp E F) (vx vy : ℚ)
    (hx : x.datum = .num vx) (hy : y.datum = .num vy) (hq : (2 : ℚ) ^ (-bias E) ≤ |vx * vy|) :
    ∃ w r, mulV1 E G (convert E G x) (convert E G y) = some w ∧ mulV1 E F x y = some r ∧
      ((convert E F w).equals r = true ↔ ¬ RoundsTwice E F G (vx * vy)) := by
  obtain ⟨r, hr, h1⟩ := C10_mul_correctly_rounded hE hF hF hF (by omega) x y vx vy hx hy
  obtain ⟨w, hw, h2⟩ := C10_mul_correctly_rounded (wFR := G) (by omega) (by omega) (by omega) (by omega) (by omega)
    (convert E G x) (convert E G y) vx vy (by rw [C23_convert_widen_exact (by omega) hF le_rfl hFG.le, hx])
    (by rw [C23_convert_widen_exact (by omega) hF le_rfl hFG.le, hy])
  exact ⟨w, r, hw, hr, narrow_same_iff (by omega) hF hFG hq h2 h1⟩

/-- **C96, equal exponent widths, multiplication.** With twice the fraction bits and one more nothing goes wrong away from underflow. -/
theorem C96_mul_same_exponent (hE : 2 ≤ E) (hF : 1 ≤ F) (hG : 2 * F + 1 ≤ G) (x y : Fp E F) (vx vy : ℚ)
    (hx : x.datum = .num vx) (hy : y.datum = .num vy) (hq : (2 : ℚ) ^ (-bias E) ≤ |vx * vy|) :
    ∃ w r, mulV1 E G (convert E G x) (convert E G y) = some w ∧ mulV1 E F x y = some r ∧ (convert E F w).equals r = true := by
  obtain ⟨w, r, hw, hr, h⟩ := C96_mul_same_exponent_iff hE hF (show F < G by omega) x y vx vy hx hy hq
  obtain ⟨mx, kx, hmx, ex⟩ := num_sig hF hx
  obtain ⟨my, ky, hmy, ey⟩ := num_sig hF hy
  exact ⟨w, r, hw, hr, h.mpr (mul_not_twice hG ex ey hmx hmy)⟩

/-- **C96, equal exponent widths, division.** -/
theorem C96_div_same_exponent_iff (hE : 2 ≤ E) (hF : 1 ≤ F) (hFG : F < G) (x y : Fp E F) (vx vy : ℚ)
    (hx : x.datum = .num vx) (hy : y.datum = .num vy) (hq : (2 : ℚ) ^ (-bias E) ≤ |vx / vy|) :
    (convert E F (divV1 E G (convert E G x) (convert E G y))).equals (divV1 E F x y) = true ↔ ¬ RoundsTwice E F G (vx / vy) := by
  refine narrow_same_iff (by omega) hF hFG hq ?_ ?_
  · exact C20_div_correctly_rounded (by omega) (by omega) (by omega) (by omega) (by omega) (by omega) (by omega) _ _ vx vy
      (by rw [C23_convert_widen_exact (by omega) hF le_rfl hFG.le, hx]) (by rw [C23_convert_widen_exact (by omega) hF le_rfl hFG.le, hy])
  · exact C20_div_correctly_rounded (by omega) (by omega) (by omega) (by omega) (by omega) (by omega) (by omega) x y vx vy hx hy

/-- **C96, equal exponent widths, addition.** -/
theorem C96_add_same_exponent_iff (hA : AdderFormat E F) (hA' : AdderFormat E G) (hFG : F < G) (x y : Fp E F)
    (vx vy : ℚ) (hx : x.datum = .num vx) (hy : y.datum = .num vy) (hq : (2 : ℚ) ^ (-bias E) ≤ |vx + vy|) :
    ∃ w r, AddDual.addSame (convert E G x) (convert E G y) = some w ∧ AddDual.addSame x y = some r ∧
      ((convert E F w).equals r = true ↔ ¬ RoundsTwice E F G (vx + vy)) := by
  obtain ⟨h1, h2, h3, h4⟩ := id hA
  obtain ⟨r, hr, r0, r1⟩ := adder_num hA hx hy
  obtain ⟨w, hw, w0, w1⟩ := adder_num hA' (x := convert E G x) (y := convert E G y)
    (by rw [C23_convert_widen_exact (by omega) h2 le_rfl hFG.le, hx]) (by rw [C23_convert_widen_exact (by omega) h2 le_rfl hFG.le, hy])
  have hz : vx + vy ≠ 0 := by
    intro hz
    rw [hz, abs_zero] at hq
    exact absurd (two_zpow_pos (-bias E)) (not_lt.mpr hq)
  exact ⟨w, r, hw, hr, narrow_same_iff (by omega) h2 hFG hq (w1 hz) (r1 hz)⟩

/-- One and one, in single precision, meet the hypotheses. -/
example : (Fp.mk4 8 23 1 0 127 0).datum = .num 1 ∧ (2 : ℚ) ^ (-bias 8) ≤ |(1 : ℚ) * 1| ∧ (2 : ℚ) ^ (-bias 8) ≤ |(1 : ℚ) / 1| ∧
    (2 : ℚ) ^ (-bias 8) ≤ |(1 : ℚ) + 1| := by
  refine ⟨by decide +kernel, ?_, ?_, ?_⟩ <;> norm_num [bias]

end Thls
