import Verif.Proofs.Order
import Verif.Model.Convert

/-! # Lemmas on promotion and conversion -/

namespace Thls
open Spec

theorem biasN_mono {a b : ℕ} (h : a ≤ b) : biasN a ≤ biasN b := by
  unfold biasN
  have : 2 ^ (a - 1) ≤ 2 ^ (b - 1) := Nat.pow_le_pow_right (by norm_num) (by omega)
  omega

theorem two_pow_pred {E : ℕ} (h : 1 ≤ E) : 2 ^ E = 2 * 2 ^ (E - 1) := by
  conv_lhs => rw [show E = (E - 1) + 1 by omega, pow_succ]
  ring

theorem promoteExp_eq {dE sE e : ℕ} (hs : 1 ≤ sE) (h : sE ≤ dE) (he : e < 2 ^ sE) :
    promoteExp dE sE e = e + (biasN dE - biasN sE) ∧ promoteExp dE sE e < 2 ^ dE := by
  unfold promoteExp
  split_ifs with heq
  · subst heq; simp [he]
  · have h1 : 2 ^ sE ≤ 2 ^ (dE - 1) := Nat.pow_le_pow_right (by norm_num) (by omega)
    have h2 := two_pow_pred (show 1 ≤ dE by omega)
    have h3 : e + (biasN dE - biasN sE) < 2 ^ dE := by
      have : biasN dE < 2 ^ (dE - 1) := by unfold biasN; have : 0 < 2 ^ (dE - 1) := by positivity
                                           omega
      omega
    have : addW dE (concat sE 0 e) (biasN dE - biasN sE) = e + (biasN dE - biasN sE) := by
      unfold addW concat; rw [Nat.zero_mul, Nat.zero_add, Nat.mod_eq_of_lt h3]
    rw [this]; exact ⟨rfl, h3⟩

theorem promoteFrac_lt {dF sF f : ℕ} (h : sF ≤ dF) (hf : f < 2 ^ sF) : promoteFrac dF sF f < 2 ^ dF := by
  unfold promoteFrac
  have := concat_lt (w := dF - sF) (b := 0) hf (by positivity)
  rwa [show sF + (dF - sF) = dF by omega] at this

section
variable {dE dF sE sF : ℕ} (hsE : 1 ≤ sE) (hsF : 1 ≤ sF) (hE : sE ≤ dE) (hF : sF ≤ dF) (x : Fp sE sF)
include hsE hsF hE hF

theorem promote_fields : (promote dE dF x).flags = x.flags ∧ (promote dE dF x).sign = x.sign ∧
    (promote dE dF x).exp = x.exp + (biasN dE - biasN sE) ∧ (promote dE dF x).frac = x.frac * 2 ^ (dF - sF) := by
  obtain ⟨h1, h2⟩ := promoteExp_eq hsE hE (x.exp_lt hsE)
  have h3 := promoteFrac_lt hF (x.frac_lt hsF)
  have a := x.flags_lt
  have b := x.sign_lt
  unfold promote
  rw [Fp.mk4_flags a b h2 h3, Fp.mk4_sign a b h2 h3, Fp.mk4_exp a b h2 h3 (by omega), Fp.mk4_frac a b h2 h3 (by omega), h1]
  exact ⟨rfl, rfl, rfl, by unfold promoteFrac concat; rfl⟩

theorem promote_datum : (promote dE dF x).datum = x.datum := by
  obtain ⟨h1, h2, h3, h4⟩ := promote_fields hsE hsF hE hF x
  have hb := biasN_mono hE
  unfold Fp.datum
  rw [h1, h2, h3, h4]
  rcases flags_cases x with h | h | h | h <;> rw [h] <;> simp only [denote]
  congr 2
  rw [← pow_bias, ← pow_bias]
  have e1 : ((2 ^ dF + x.frac * 2 ^ (dF - sF) : ℕ) : ℚ) = ((2 ^ sF + x.frac : ℕ) : ℚ) * 2 ^ (dF - sF) := by
    have : 2 ^ dF + x.frac * 2 ^ (dF - sF) = (2 ^ sF + x.frac) * 2 ^ (dF - sF) := by
      rw [Nat.add_mul, ← pow_add, show sF + (dF - sF) = dF by omega]
    exact_mod_cast this
  rw [e1, mul_assoc, ← zpow_natCast, ← zpow_add₀ (by norm_num)]
  congr 2
  push_cast [hb, hF]
  ring

end

/-- The fraction part of the conversion: splitting off the carry. -/
theorem convertFrac_down {FR FX f : ℕ} (hR : 1 ≤ FR) (h : FR < FX) (hf : f < 2 ^ FX) :
    let k := FX - FR - 1
    let keep := f / 2 ^ (k + 1)
    let up := getBit k f && (decide (f % 2 ^ k ≠ 0) || decide (keep % 2 = 1))
    (convertFrac FR FX f).1 < 2 ^ FR ∧
    keep + up.toNat = (convertFrac FR FX f).2.toNat * 2 ^ FR + (convertFrac FR FX f).1 := by
  intro k keep up
  have hk : FX - FR = k + 1 := by omega
  have hkeep : getBits (FX - 1) (FX - FR) f = keep := by
    rw [getBits_top (by rwa [show FX - 1 + 1 = FX by omega]) (by omega), hk]
  have hkl : keep < 2 ^ FR := by
    show f / 2 ^ (k + 1) < 2 ^ FR
    rw [Nat.div_lt_iff_lt_mul (by positivity), ← pow_add]
    refine hf.trans_eq (by congr 1; omega)
  have hdrop : getBits (FX - FR - 1) 0 f = (getBit k f).toNat * 2 ^ k + f % 2 ^ k := by
    rw [getBits_zero_eq_mod, show FX - FR - 1 + 1 = k + 1 by omega]
    have := split_word f k
    have h2 := Nat.div_add_mod f (2 ^ (k + 1))
    have h3 := Nat.mul_comm (2 ^ (k + 1)) (f / 2 ^ (k + 1))
    omega
  have hlow : f % 2 ^ k < 2 ^ k := Nat.mod_lt _ (by positivity)
  have hup : (decide ((getBit k f).toNat * 2 ^ k + f % 2 ^ k > concat k 1 0) ||
      (decide ((getBit k f).toNat * 2 ^ k + f % 2 ^ k = concat k 1 0) && getBit 0 keep)) = up := by
    show _ = (getBit k f && (decide (f % 2 ^ k ≠ 0) || decide (keep % 2 = 1)))
    have hb : getBit 0 keep = decide (keep % 2 = 1) := by unfold getBit; simp
    rw [hb]
    unfold concat
    cases getBit k f
    · simp; omega
    · by_cases h0 : f % 2 ^ k = 0
      · simp [h0]
      · simp [h0]; omega
  have hdef : convertFrac FR FX f = (addW FR keep up.toNat, up && decide (keep = ones FR)) := by
    unfold convertFrac
    rw [if_neg (by omega), if_neg (by omega)]
    dsimp only
    rw [hkeep, hdrop, show FX - FR - 1 = k from rfl, hup]
  rw [hdef]
  dsimp only
  refine ⟨addW_lt _ _ _, ?_⟩
  have : ones FR + 1 = 2 ^ FR := by unfold ones; have : 0 < 2 ^ FR := by positivity
                                    omega
  unfold addW
  cases up
  · simp [Nat.mod_eq_of_lt hkl]
  · by_cases h1 : keep = ones FR
    · simp [h1, this]
    · simp [h1]
      rw [Nat.mod_eq_of_lt (by omega)]

theorem convertFrac_up {FR FX f : ℕ} (h : FX ≤ FR) : convertFrac FR FX f = (f * 2 ^ (FR - FX), false) := by
  unfold convertFrac
  split_ifs with h1 h2
  · rfl
  · subst h2; simp
  · omega

/-- The exponent part of the conversion of a normal number: it decodes the biased exponent `be`. -/
theorem convertExp_spec {ER EX e : ℕ} (hR : 1 ≤ ER) (hX : 1 ≤ EX) (wrap : Bool) (he : e < 2 ^ EX) {be : ℤ}
    (hbe : be = (e : ℤ) - bias EX + bias ER + wrap.toNat) :
    (convertExp ER EX 1 e wrap).2 < 2 ^ ER ∧
    (convertExp ER EX 1 e wrap).1 = (if be < 0 then 0 else if 2 ^ ER ≤ be then 2 else 1) ∧
    (0 ≤ be → be < 2 ^ ER → ((convertExp ER EX 1 e wrap).2 : ℤ) = be) := by
  have hw : wrap.toNat ≤ 1 := by cases wrap <;> simp
  have pR := two_pow_pred hR
  have pX := two_pow_pred hX
  have bR : bias ER = ((2 ^ (ER - 1) : ℕ) : ℤ) - 1 := by unfold bias; push_cast; rfl
  have bX : bias EX = ((2 ^ (EX - 1) : ℕ) : ℤ) - 1 := by unfold bias; push_cast; rfl
  have cR : (2 : ℤ) ^ ER = ((2 ^ ER : ℕ) : ℤ) := by push_cast; rfl
  have p0 : 0 < 2 ^ (ER - 1) := by positivity
  have q0 : 0 < 2 ^ (EX - 1) := by positivity
  unfold convertExp
  obtain h1 | h2 | h12 : ER > EX ∨ ER = EX ∨ ER < EX := by omega
  · -- widening
    rw [if_pos h1]
    have h3 : 2 ^ EX ≤ 2 ^ (ER - 1) := Nat.pow_le_pow_right (by norm_num) (by omega)
    have h4 : addW ER e (2 ^ (ER - 1) - 2 ^ (EX - 1)) = e + (2 ^ (ER - 1) - 2 ^ (EX - 1)) :=
      Nat.mod_eq_of_lt (by omega)
    have h5 : addW ER (e + (2 ^ (ER - 1) - 2 ^ (EX - 1))) wrap.toNat = e + (2 ^ (ER - 1) - 2 ^ (EX - 1)) + wrap.toNat :=
      Nat.mod_eq_of_lt (by omega)
    dsimp only
    rw [h4, h5]
    refine ⟨by omega, ?_, by omega⟩
    rw [if_neg (by omega), if_neg (by omega)]
  · rw [if_neg (by omega), if_pos h2]
    subst h2
    dsimp only
    have ho : ones ER = 2 ^ ER - 1 := rfl
    cases wrap
    · have h5 : addW ER e 0 = e := Nat.mod_eq_of_lt he
      simp only [Bool.toNat_false] at *
      rw [h5]
      have n1 : ¬ be < 0 := by omega
      have n2 : ¬ 2 ^ ER ≤ be := by omega
      refine ⟨he, ?_, by omega⟩
      rw [if_neg n1, if_neg n2]; simp
    · refine ⟨addW_lt _ _ _, ?_, ?_⟩
      · simp only [Bool.toNat_true] at *
        have n1 : ¬ be < 0 := by omega
        rw [if_neg n1]
        by_cases hh : e = ones ER
        · have n2 : 2 ^ ER ≤ be := by omega
          rw [if_pos n2]; simp [hh]
        · have n2 : ¬ 2 ^ ER ≤ be := by omega
          rw [if_neg n2]; simp [hh]
      · simp only [Bool.toNat_true] at *
        intro _ hlt
        have h5 : addW ER e 1 = e + 1 := Nat.mod_eq_of_lt (by omega)
        rw [h5]; omega
  · rw [if_neg (by omega), if_neg (by omega)]
    have h3 : 2 ^ ER ≤ 2 ^ (EX - 1) := Nat.pow_le_pow_right (by norm_num) (by omega)
    dsimp only
    refine ⟨?_, ?_, ?_⟩
    · have := getBits_lt (ER - 1) 0 (subW EX (addW EX e wrap.toNat) (2 ^ (EX - 1) - 2 ^ (ER - 1)))
      rwa [show ER - 1 + 1 - 0 = ER by omega] at this
    · by_cases hov : e + wrap.toNat = 2 ^ EX
      · have hwr : wrap = true := by cases wrap <;> simp at *; omega
        subst hwr
        simp only [Bool.toNat_true] at *
        have : addW EX e 1 = 0 := by unfold addW; rw [hov, Nat.mod_self]
        have n1 : ¬ be < 0 := by omega
        have n2 : 2 ^ ER ≤ be := by omega
        rw [if_neg n1, if_pos n2]
        simp [this]
      · have h5 : addW EX e wrap.toNat = e + wrap.toNat := Nat.mod_eq_of_lt (by omega)
        rw [h5]
        have h6 : (decide (e + wrap.toNat = 0) && wrap) = false := by cases wrap <;> simp
        rw [h6]
        simp only [Bool.not_false, Bool.true_and, Bool.false_or, decide_eq_true_eq, if_true]
        have i1 : be < 0 ↔ e + wrap.toNat < 2 ^ (EX - 1) - 2 ^ (ER - 1) := by omega
        have i2 : 2 ^ ER ≤ be ↔ e + wrap.toNat > 2 ^ (EX - 1) - 2 ^ (ER - 1) + 2 ^ ER - 1 := by omega
        simp only [i1, i2]
    · intro ha hb
      have h5 : addW EX e wrap.toNat = e + wrap.toNat := Nat.mod_eq_of_lt (by omega)
      have h6 : ((subW EX (e + wrap.toNat) (2 ^ (EX - 1) - 2 ^ (ER - 1)) : ℕ) : ℤ) = be := by
        rw [cast_subW (by omega), Int.emod_eq_of_lt]
        · push_cast [show 2 ^ (ER - 1) ≤ 2 ^ (EX - 1) by omega]; push_cast at bR bX; omega
        · push_cast [show 2 ^ (ER - 1) ≤ 2 ^ (EX - 1) by omega]; push_cast at bR bX; omega
        · push_cast [show 2 ^ (ER - 1) ≤ 2 ^ (EX - 1) by omega]; push_cast at bR bX pX
          have : (e : ℤ) < 2 ^ EX := by exact_mod_cast he
          have : (2 : ℤ) ^ ER ≤ 2 ^ EX := by
            have : 2 ^ ER ≤ 2 ^ EX := Nat.pow_le_pow_right (by norm_num) (by omega)
            exact_mod_cast this
          omega
      rw [h5, getBits_zero_eq_mod, Nat.mod_eq_of_lt, h6]
      rw [show ER - 1 + 1 = ER by omega]
      have : ((subW EX (e + wrap.toNat) (2 ^ (EX - 1) - 2 ^ (ER - 1)) : ℕ) : ℤ) < ((2 ^ ER : ℕ) : ℤ) := by
        rw [h6]; omega
      exact_mod_cast this

theorem denote_packed {E F s e f fl : ℕ} {be : ℤ} (hf : f < 2 ^ F)
    (hfl : fl = (if be < 0 then 0 else if 2 ^ E ≤ be then 2 else 1))
    (hev : 0 ≤ be → be < 2 ^ E → (e : ℤ) = be) :
    denote E F fl s e f = packedDatum E F (decide (s = 1)) (be * 2 ^ F + f) := by
  rw [← rangeCheck_packed hf, rangeCheck, hfl, show be - bias E - F + F + bias E = be by ring]
  by_cases h1 : be < 0
  · rw [if_pos h1, if_pos h1]; rfl
  rw [if_neg h1, if_neg h1]
  by_cases h2 : 2 ^ E ≤ be
  · rw [if_pos h2, if_pos h2]; rfl
  rw [if_neg h2, if_neg h2]
  simp only [denote, decide_eq_true_eq]
  rw [hev (by omega) (by omega)]

/-- Conversion of a normal number is correctly rounded. -/
theorem convert_rounded {ER FR EX FX : ℕ} (hER : 1 ≤ ER) (hFR : 1 ≤ FR) (hEX : 1 ≤ EX) (hFX : 1 ≤ FX)
    (x : Fp EX FX) (v : ℚ) (hx : x.datum = .num v) : Rounded ER FR v (convert ER FR x).datum := by
  obtain ⟨fx, hv⟩ := datum_num_iff.mp hx
  have hpos := sig_scaled_pos FX x.frac ((x.exp : ℤ) - bias EX - FX)
  have habs : |v| = ((2 ^ FX + x.frac : ℕ) : ℚ) * 2 ^ ((x.exp : ℤ) - bias EX - FX) := by rw [hv, abs_signed hpos]
  have hneg : decide (v < 0) = decide (x.sign = 1) := by
    rw [decide_eq_decide, hv]; exact signed_neg hpos
  have he := x.exp_lt hEX
  have hf := x.frac_lt hFX
  have hs := x.sign_lt
  unfold convert
  dsimp only
  rw [fx]
  by_cases hF : FX ≤ FR
  · -- no rounding
    rw [convertFrac_up hF]
    dsimp only
    obtain ⟨h1, h2, h3⟩ := convertExp_spec hER hEX false he rfl
    have hfr : x.frac * 2 ^ (FR - FX) < 2 ^ FR := by
      have := promoteFrac_lt hF hf
      simpa [promoteFrac, concat] using this
    rw [Fp.mk4_datum (by rw [h2]; split_ifs <;> decide) hs h1 hfr hER hFR, denote_packed hfr h2 h3, ← hneg]
    have key := rounded_of_int (E := ER) (q := v) (N := (2 ^ FX + x.frac) * 2 ^ (FR - FX) * 2) (low := 0) (k := 0)
      (r := false) (be := (x.exp : ℤ) - bias EX + bias ER) (g := (x.exp : ℤ) - bias EX - FR - 1) hFR hfr ?_ ?_
      (by simp) (by push_cast; ring)
    · simpa using key
    · rw [habs]
      have : (2 : ℚ) ^ ((x.exp : ℤ) - bias EX - FX) = 2 ^ (FR - FX) * 2 * 2 ^ ((x.exp : ℤ) - bias EX - FR - 1) := by
        rw [← pow_succ, ← zpow_natCast, ← zpow_add₀ (by norm_num)]
        congr 1; push_cast [hF]; ring
      rw [this]; push_cast; ring
    · have : 2 ^ FR = 2 ^ FX * 2 ^ (FR - FX) := by rw [← pow_add]; congr 1; omega
      rw [this]; simp; ring
  · -- rounding
    have hF' : FR < FX := by omega
    obtain ⟨hlt, hsum⟩ := convertFrac_down hFR hF' hf
    generalize hc : convertFrac FR FX x.frac = c at *
    obtain ⟨fr, wrap⟩ := c
    dsimp only at *
    obtain ⟨h1, h2, h3⟩ := convertExp_spec hER hEX wrap he rfl
    rw [Fp.mk4_datum (by rw [h2]; split_ifs <;> decide) hs h1 hlt hER hFR, denote_packed hlt h2 h3, ← hneg]
    obtain ⟨k, hk⟩ : ∃ k, FX - FR = k + 1 := ⟨FX - FR - 1, by omega⟩
    rw [show FX - FR - 1 = k by omega] at hsum
    obtain ⟨g1, g2⟩ := split_fraction (G := x.frac) (k := k) (F := FR) (by rwa [show k + 1 + FR = FX by omega])
    rw [show k + 1 + FR = FX by omega] at g2
    have key := rounded_of_int (E := ER) (q := v) (be := (x.exp : ℤ) - bias EX + bias ER) hFR g1 habs g2
      (Nat.mod_lt _ (by positivity)) (by push_cast [show (FX : ℤ) = FR + (k + 1) by omega]; ring)
    convert key using 2
    have hcast : ((x.frac / 2 ^ (k + 1) : ℕ) : ℤ) +
        (if (getBit k x.frac && (decide (x.frac % 2 ^ k ≠ 0) || decide (x.frac / 2 ^ (k + 1) % 2 = 1))) = true then 1 else 0)
        = (wrap.toNat : ℤ) * 2 ^ FR + fr := by
      rw [show (if (getBit k x.frac && (decide (x.frac % 2 ^ k ≠ 0) || decide (x.frac / 2 ^ (k + 1) % 2 = 1))) = true
        then (1 : ℤ) else 0) = ((getBit k x.frac && (decide (x.frac % 2 ^ k ≠ 0) ||
          decide (x.frac / 2 ^ (k + 1) % 2 = 1))).toNat : ℤ) by
          cases (getBit k x.frac && (decide (x.frac % 2 ^ k ≠ 0) || decide (x.frac / 2 ^ (k + 1) % 2 = 1))) <;> rfl]
      exact_mod_cast hsum
    linear_combination -hcast

/-- Conversion of a zero, infinity or NaN keeps it, unless exponent widths are equal and the don't-care bits
make the fraction and exponent wrap. -/
theorem convert_special {ER FR EX FX : ℕ} (hER : 1 ≤ ER) (hFR : 1 ≤ FR) (hEX : 1 ≤ EX) (hFX : 1 ≤ FX)
    (x : Fp EX FX) (hx : x.flags ≠ 1)
    (hw : ER = EX → (convertFrac FR FX x.frac).2 = true → x.exp ≠ 2 ^ EX - 1) :
    (convert ER FR x).datum = x.datum ∧ (convert ER FR x).frac = (convertFrac FR FX x.frac).1 := by
  have he := x.exp_lt hEX
  have hf := x.frac_lt hFX
  have hs := x.sign_lt
  have hfl := x.flags_lt
  have hlt : (convertFrac FR FX x.frac).1 < 2 ^ FR := by
    by_cases hF : FX ≤ FR
    · rw [convertFrac_up hF]
      have := promoteFrac_lt hF hf
      simpa [promoteFrac, concat] using this
    · exact (convertFrac_down hFR (by omega) hf).1
  unfold convert
  dsimp only
  generalize convertFrac FR FX x.frac = c at *
  obtain ⟨fr, wrap⟩ := c
  dsimp only at *
  have h1 : (convertExp ER EX x.flags x.exp wrap).1 = x.flags := by
    unfold convertExp
    obtain h1 | h2 | h12 : ER > EX ∨ ER = EX ∨ ER < EX := by omega
    · rw [if_pos h1]
    · rw [if_neg (by omega), if_pos h2]
      dsimp only
      rw [if_neg]
      simp only [Bool.and_eq_true, decide_eq_true_eq, not_and]
      intro hwt hones
      apply hw h2 hwt
      rw [hones, h2]; rfl
    · rw [if_neg (by omega), if_neg (by omega)]
      dsimp only
      rw [if_neg hx]
  have h2 : (convertExp ER EX x.flags x.exp wrap).2 < 2 ^ ER := by
    unfold convertExp
    obtain h1 | h2 | h12 : ER > EX ∨ ER = EX ∨ ER < EX := by omega
    · rw [if_pos h1]; exact addW_lt _ _ _
    · rw [if_neg (by omega), if_pos h2]; exact addW_lt _ _ _
    · rw [if_neg (by omega), if_neg (by omega)]
      dsimp only
      have := getBits_lt (ER - 1) 0 (subW EX (addW EX x.exp wrap.toNat) (2 ^ (EX - 1) - 2 ^ (ER - 1)))
      rwa [show ER - 1 + 1 - 0 = ER by omega] at this
  refine ⟨?_, Fp.mk4_frac (by rw [h1]; exact hfl) hs h2 hlt hFR⟩
  rw [Fp.mk4_datum (by rw [h1]; exact hfl) hs h2 hlt hER hFR, h1]
  unfold Fp.datum
  rcases flags_cases x with h | h | h | h
  · rw [h]; rfl
  · exact absurd h hx
  · rw [h]; rfl
  · rw [h]; rfl

theorem convertFrac_wrap {FR FX f : ℕ} (hX : 1 ≤ FX) (hf : f < 2 ^ FX) (h : (convertFrac FR FX f).2 = true) :
    FR < FX ∧ f / 2 ^ (FX - FR) = 2 ^ FR - 1 := by
  by_cases hF : FX ≤ FR
  · rw [convertFrac_up hF] at h; simp at h
  · refine ⟨by omega, ?_⟩
    unfold convertFrac at h
    rw [if_neg (by omega), if_neg (by omega)] at h
    simp only [Bool.and_eq_true, decide_eq_true_eq] at h
    have := h.2
    rwa [getBits_top (by rwa [show FX - 1 + 1 = FX by omega]) (by omega)] at this

theorem convertFrac_padded {FR FX f : ℕ} (h : FR ≤ FX) :
    (convertFrac FR FX (f * 2 ^ (FX - FR))).2 = false := by
  unfold convertFrac
  split_ifs with h1 h2
  · rfl
  · rfl
  · dsimp only
    have : getBits (FX - FR - 1) 0 (f * 2 ^ (FX - FR)) = 0 := by
      rw [getBits_zero_eq_mod, show FX - FR - 1 + 1 = FX - FR by omega, Nat.mul_mod_left]
    rw [this]
    have hp : 0 < 2 ^ (FX - FR - 1) := by positivity
    simp [concat]
    intro h; omega

/-- A value already representable is its own rounding. -/
theorem rounded_self {E F : ℕ} (hF : 1 ≤ F) (hE : 1 ≤ E) (x : Fp E F) (v : ℚ) (hx : x.datum = .num v) :
    Rounded E F v x.datum := by
  obtain ⟨fx, hv⟩ := datum_num_iff.mp hx
  have hpos := sig_scaled_pos F x.frac ((x.exp : ℤ) - bias E - F)
  have habs : |v| = ((2 ^ F + x.frac : ℕ) : ℚ) * 2 ^ ((x.exp : ℤ) - bias E - F) := by rw [hv, abs_signed hpos]
  have hneg : decide (v < 0) = decide (x.sign = 1) := by
    rw [decide_eq_decide, hv]; exact signed_neg hpos
  have he : (x.exp : ℤ) < 2 ^ E := by exact_mod_cast x.exp_lt hE
  have key := rounded_of_int (E := E) (q := v) (N := (2 ^ F + x.frac) * 2) (low := 0) (k := 0)
      (r := false) (be := (x.exp : ℤ)) (g := (x.exp : ℤ) - bias E - F - 1) hF (x.frac_lt hF) ?_ ?_
      (by simp) (by push_cast; ring)
  · have h2 : x.datum = packedDatum E F (decide (v < 0)) ((x.exp : ℤ) * 2 ^ F + x.frac) := by
      rw [hneg, ← denote_packed (e := x.exp) (x.frac_lt hF) (fl := 1) (by rw [if_neg (by omega), if_neg (by omega)]) (fun _ _ => rfl)]
      unfold Fp.datum; rw [fx]
    rw [h2]
    simpa using key
  · rw [habs, two_zpow_pred]; push_cast; ring
  · simp; ring

/-! ## Ordering -/

section
variable {E F : ℕ} (hE : 1 ≤ E) (hF : 1 ≤ F) (a b : Fp E F)
include hE hF

theorem realEq_iff (ha : a.flags ≠ 3) (hb : b.flags ≠ 3) : a.datum.RealEq b.datum ↔ a.rkey = b.rkey := by
  have hsx := a.sign_lt
  have hsy := b.sign_lt
  have hxe : (a.expFrac : ℤ) < 2 ^ (E + F) := by exact_mod_cast a.expFrac_lt (by omega)
  have hye : (b.expFrac : ℤ) < 2 ^ (E + F) := by exact_mod_cast b.expFrac_lt (by omega)
  have hpow : (0 : ℤ) < 2 ^ (E + F) := by positivity
  by_cases hz : a.flags = 0 ∧ b.flags = 0
  · rw [datum_flags0 a hz.1, datum_flags0 b hz.2]
    simp [Datum.RealEq, Fp.rkey, hz.1, hz.2]
  · have h1 : a.datum.RealEq b.datum ↔ a.datum = b.datum := by
      rcases flags_cases a with fa | fa | fa | fa <;> rcases flags_cases b with fb | fb | fb | fb <;>
        first | exact absurd fa ha | exact absurd fb hb | (exfalso; omega) | skip
      all_goals
        (first | rw [datum_flags0 a fa] | rw [datum_normal a fa] | rw [datum_flags2 a fa])
        (first | rw [datum_flags0 b fb] | rw [datum_normal b fb] | rw [datum_flags2 b fb])
        simp [Datum.RealEq]
    rw [h1, Fp.datum_inj hE hF]
    unfold Fp.rkey
    rcases flags_cases a with fx | fx | fx | fx <;> rcases flags_cases b with fy | fy | fy | fy <;>
      first | exact absurd fx ha | exact absurd fy hb | (exfalso; omega) | skip
    all_goals
      simp only [fx, fy]
      obtain sx | sx : a.sign = 0 ∨ a.sign = 1 := by omega
    all_goals
      obtain sy | sy : b.sign = 0 ∨ b.sign = 1 := by omega
    all_goals simp [sx, sy]
    all_goals omega

theorem cmpN_iff (ha : a.flags ≠ 3) (hb : b.flags ≠ 3)
    (hinf : a.flags = 2 → b.flags = 2 → a.sign = b.sign → a.expFrac = b.expFrac) :
    (Ord.ltN a b = true ↔ a.rkey < b.rkey) ∧ (Ord.leN a b = true ↔ a.rkey ≤ b.rkey) ∧
    (Ord.gtN a b = true ↔ b.rkey < a.rkey) ∧ (Ord.geN a b = true ↔ b.rkey ≤ a.rkey) ∧
    (Ord.equalN a b = true ↔ a.rkey = b.rkey) ∧ (Ord.notEqualN a b = true ↔ a.rkey ≠ b.rkey) := by
  have hsx := a.sign_lt
  have hsy := b.sign_lt
  have hxe : a.expFrac < 2 ^ (E + F) := a.expFrac_lt (by omega)
  have hye : b.expFrac < 2 ^ (E + F) := b.expFrac_lt (by omega)
  have hP : (2 : ℤ) ^ (E + F) = ((2 ^ (E + F) : ℕ) : ℤ) := by push_cast; rfl
  unfold Ord.ltN Ord.leN Ord.gtN Ord.geN Ord.equalN Ord.notEqualN Fp.rkey Fp.flagsExpFrac concat
  rw [hP]
  generalize 2 ^ (E + F) = P at *
  rcases flags_cases a with fx | fx | fx | fx <;> rcases flags_cases b with fy | fy | fy | fy <;>
    first | exact absurd fx ha | exact absurd fy hb | skip
  all_goals
    simp only [Fp.isNan, Fp.isZero, Fp.isNegative, Fp.isPositive, fx, fy] at *
    obtain sx | sx : a.sign = 0 ∨ a.sign = 1 := by omega
  all_goals
    obtain sy | sy : b.sign = 0 ∨ b.sign = 1 := by omega
  all_goals simp [sx, sy] at *
  all_goals omega

end

end Thls
