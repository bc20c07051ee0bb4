import Verif.Proofs.Convert
import Verif.Proofs.Compare
import Verif.Model.Mul
import Verif.Model.Limits

/-! # Properties C23-C27: conversion, comparison and negation -/

namespace Thls
open Spec

/-! ## C23: widening -/

/-- **C23.** `promote` to a format at least as wide in both fields keeps the datum, for every encoding. -/
theorem C23_promote_exact {ER FR EX FX : ℕ} (hEX : 1 ≤ EX) (hFX : 1 ≤ FX) (hE : EX ≤ ER) (hF : FX ≤ FR)
    (x : Fp EX FX) : (promote ER FR x).datum = x.datum := promote_datum hEX hFX hE hF x

example : promote 6 5 (Fp.mk4 4 3 1 1 9 5) = Fp.mk4 6 5 1 1 33 20 := by decide

/-- **C23.** `convert` to a format at least as wide in both fields keeps the datum, for every encoding. -/
theorem C23_convert_widen_exact {ER FR EX FX : ℕ} (hEX : 1 ≤ EX) (hFX : 1 ≤ FX) (hE : EX ≤ ER) (hF : FX ≤ FR)
    (x : Fp EX FX) : (convert ER FR x).datum = x.datum := by
  by_cases h : x.flags = 1
  · have hd := datum_normal x h
    have h1 := convert_rounded (ER := ER) (FR := FR) (by omega) (by omega) hEX hFX x _ hd
    have h2 := promote_datum hEX hFX hE hF x
    have h3 := rounded_self (by omega) (by omega) (promote ER FR x) _ (h2.trans hd)
    rw [rounded_unique h1 h3, h2]
  · exact (convert_special (by omega) (by omega) hEX hFX x h
      (fun _ h => by rw [convertFrac_up hF] at h; simp at h)).1

example : convert 6 5 (Fp.mk4 4 3 1 1 9 5) = Fp.mk4 6 5 1 1 33 20 := by decide

/-- **C23.** Widening and converting back is the identity on data, for every encoding. -/
theorem C23_convert_round_trip {ER FR EX FX : ℕ} (hEX : 1 ≤ EX) (hFX : 1 ≤ FX) (hE : EX ≤ ER) (hF : FX ≤ FR)
    (x : Fp EX FX) : (convert EX FX (convert ER FR x)).datum = x.datum := by
  have hw := C23_convert_widen_exact hEX hFX hE hF x
  by_cases h : x.flags = 1
  · have hd := datum_normal x h
    have h1 := convert_rounded (ER := EX) (FR := FX) hEX hFX (by omega) (by omega) (convert ER FR x) _ (hw.trans hd)
    have h3 := rounded_self hFX hEX x _ hd
    rw [rounded_unique h1 h3]
  · have hfl : (convert ER FR x).flags ≠ 1 := by
      intro h'
      rw [datum_normal _ h'] at hw
      exact h (datum_num_iff.mp hw.symm).1
    have hfr : (convert ER FR x).frac = x.frac * 2 ^ (FR - FX) := by
      rw [(convert_special (by omega) (by omega) hEX hFX x h
        (fun _ h => by rw [convertFrac_up hF] at h; simp at h)).2, convertFrac_up hF]
    rw [(convert_special hEX hFX (by omega) (by omega) _ hfl ?_).1, hw]
    intro _ h'
    rw [hfr, convertFrac_padded hF] at h'
    simp at h'

/-! ## C24: narrowing -/

/-- **C24.** Conversion of a normal number to any format is correctly rounded (nearest, ties to even), with
underflow to zero and overflow to infinity. -/
theorem C24_convert_correctly_rounded {ER FR EX FX : ℕ} (hER : 1 ≤ ER) (hFR : 1 ≤ FR) (hEX : 1 ≤ EX) (hFX : 1 ≤ FX)
    (x : Fp EX FX) (v : ℚ) (hx : x.datum = .num v) : Rounded ER FR v (convert ER FR x).datum :=
  convert_rounded hER hFR hEX hFX x v hx

/-- A tie that goes up to even and carries into the exponent: 1.1111 becomes 10.00. -/
example : convert 4 2 (Fp.mk4 4 3 1 0 7 7) = Fp.mk4 4 2 1 0 8 0 := by decide
example : (Fp.mk4 4 3 1 0 7 7).datum = .num (15 / 8) := by
  rw [Fp.mk4_datum (by decide) (by decide) (by decide) (by decide) (by decide) (by decide)]
  norm_num [denote, bias]

/-- **C24 (partial).** Zeros, infinities and NaN keep their datum, unless the exponent widths are equal, the
fraction is narrowed, and the don't-care bits that are kept are all ones.
Missing: that case, in which the code is wrong (`C24_convert_special_wrong`). -/
theorem C24_convert_special_partial {ER FR EX FX : ℕ} (hER : 1 ≤ ER) (hFR : 1 ≤ FR) (hEX : 1 ≤ EX) (hFX : 1 ≤ FX)
    (x : Fp EX FX) (hx : ∀ v, x.datum ≠ .num v)
    (hw : ER = EX → FR < FX → x.exp ≠ 2 ^ EX - 1 ∨ x.frac / 2 ^ (FX - FR) ≠ 2 ^ FR - 1) :
    (convert ER FR x).datum = x.datum := by
  have hx' : x.flags ≠ 1 := fun h => hx _ (datum_normal x h)
  refine (convert_special hER hFR hEX hFX x hx' ?_).1
  intro h1 h2 h3
  obtain ⟨a, b⟩ := convertFrac_wrap hFX (x.frac_lt hFX) h2
  rcases hw h1 a with h | h
  · exact h h3
  · exact h b

example : (∀ v, (Limits.posZero 5 6).datum ≠ .num v) ∧ (convert 4 3 (Limits.posZero 5 6)).datum = .zero false := by
  constructor
  · intro v; rw [datum_flags0 _ (by decide)]; simp
  · decide +kernel

/-- **C24, the part that fails.** Whenever the fraction is narrowed at equal exponent width, there are zeros
and NaNs that become infinities. -/
theorem C24_convert_special_wrong {E FR FX : ℕ} (hE : 1 ≤ E) (hFR : 1 ≤ FR) (h : FR < FX) :
    ∃ z n : Fp E FX, z.datum = .zero false ∧ (convert E FR z).datum = .inf false ∧
      n.datum = .nan ∧ (convert E FR n).datum = .inf false := by
  have oE : ones E < 2 ^ E := by unfold ones; have : 0 < 2 ^ E := by positivity
                                 omega
  have oF : ones FX < 2 ^ FX := by unfold ones; have : 0 < 2 ^ FX := by positivity
                                   omega
  have hkeep : ones FX / 2 ^ (FX - FR - 1 + 1) = 2 ^ FR - 1 := by
    rw [show FX - FR - 1 + 1 = FX - FR by omega]
    unfold ones
    have h1 : 2 ^ FX = 2 ^ (FX - FR) * 2 ^ FR := by rw [← pow_add]; congr 1; omega
    have hp : 0 < 2 ^ (FX - FR) := by positivity
    have hp' : 0 < 2 ^ FR := by positivity
    have h3 : 2 ^ FX - 1 = 2 ^ (FX - FR) * (2 ^ FR - 1) + (2 ^ (FX - FR) - 1) := by
      rw [h1, Nat.mul_sub, Nat.mul_one]
      have : 2 ^ (FX - FR) ≤ 2 ^ (FX - FR) * 2 ^ FR := Nat.le_mul_of_pos_right _ hp'
      omega
    rw [h3, Nat.mul_add_div hp, Nat.div_eq_of_lt (by omega), Nat.add_zero]
  have hbit : getBit (FX - FR - 1) (ones FX) = true := by
    unfold getBit ones
    rw [decide_eq_true_eq]
    have h1 : 2 ^ FX = 2 ^ (FX - FR - 1) * 2 ^ (FR + 1) := by rw [← pow_add]; congr 1; omega
    have hp : 0 < 2 ^ (FX - FR - 1) := by positivity
    have hp' : 0 < 2 ^ (FR + 1) := by positivity
    have h3 : 2 ^ FX - 1 = 2 ^ (FX - FR - 1) * (2 ^ (FR + 1) - 1) + (2 ^ (FX - FR - 1) - 1) := by
      rw [h1, Nat.mul_sub, Nat.mul_one]
      have : 2 ^ (FX - FR - 1) ≤ 2 ^ (FX - FR - 1) * 2 ^ (FR + 1) := Nat.le_mul_of_pos_right _ hp'
      omega
    rw [h3, Nat.mul_add_div hp, Nat.div_eq_of_lt (by omega), Nat.add_zero, pow_succ]
    have : 0 < 2 ^ FR := by positivity
    omega
  have hodd : (2 ^ FR - 1) % 2 = 1 := by
    have := two_pow_pred hFR
    have : 0 < 2 ^ (FR - 1) := by positivity
    omega
  have hc : (convertFrac FR FX (ones FX)).2 = true ∧ (convertFrac FR FX (ones FX)).1 < 2 ^ FR := by
    obtain ⟨h1, h2⟩ := convertFrac_down hFR h oF
    refine ⟨?_, h1⟩
    rw [hkeep, hbit, hodd] at h2
    simp only [decide_true, Bool.or_true, Bool.and_true, Bool.toNat_true] at h2
    have : 0 < 2 ^ FR := by positivity
    cases hcc : (convertFrac FR FX (ones FX)).2
    · rw [hcc] at h2; simp at h2; omega
    · rfl
  have hconv : ∀ fl, fl < 4 → (convert E FR (Fp.mk4 E FX fl 0 (ones E) (ones FX))).datum = .inf false := by
    intro fl hfl
    unfold convert
    dsimp only
    rw [Fp.mk4_frac hfl (by decide) oE oF (by omega), Fp.mk4_exp hfl (by decide) oE oF hE,
      Fp.mk4_sign hfl (by decide) oE oF, hc.1]
    have h1 : (convertExp E E (Fp.mk4 E FX fl 0 (ones E) (ones FX)).flags (ones E) true).1 = 2 := by
      simp [convertExp]
    have h2 : (convertExp E E (Fp.mk4 E FX fl 0 (ones E) (ones FX)).flags (ones E) true).2 < 2 ^ E := by
      simp [convertExp, addW_lt]
    rw [Fp.mk4_datum (by rw [h1]; decide) (by decide) h2 hc.2 hE hFR, h1]
    rfl
  refine ⟨Fp.mk4 E FX 0 0 (ones E) (ones FX), Fp.mk4 E FX 3 0 (ones E) (ones FX), ?_, hconv 0 (by decide), ?_,
    hconv 3 (by decide)⟩
  · rw [Fp.mk4_datum (by decide) (by decide) oE oF hE (by omega)]; rfl
  · rw [Fp.mk4_datum (by decide) (by decide) oE oF hE (by omega)]; rfl

/-- The failure is reachable from ordinary operations: 0 times a number computed by `mul` is a zero whose
narrowing conversion is an infinity. -/
example : ∃ z : Fp 4 4, mulV1 4 4 (Limits.posZero 4 4) (Fp.mk4 4 4 1 0 5 15) = some z ∧ z.datum = .zero false := by
  refine ⟨_, rfl, ?_⟩
  decide +kernel

/-! ## C25: comparisons and the real order -/

/-- The comparison functions agree with the order of the extended reals on `a` and `b`. -/
def ComparesLikeReals {EA FA EB FB : ℕ} (a : Fp EA FA) (b : Fp EB FB) : Prop :=
  (Ord.lessThan a b = true ↔ a.datum.Lt b.datum) ∧
  (Ord.lessThanEqual a b = true ↔ a.datum.Lt b.datum ∨ a.datum.RealEq b.datum) ∧
  (Ord.greaterThan a b = true ↔ b.datum.Lt a.datum) ∧
  (Ord.greaterThanEqual a b = true ↔ b.datum.Lt a.datum ∨ a.datum.RealEq b.datum) ∧
  (Ord.equal a b = true ↔ a.datum.RealEq b.datum) ∧
  (Ord.notEqual a b = true ↔ ¬ a.datum.RealEq b.datum)

/-- **C25 (partial).** All six comparisons of non-NaN operands, possibly of different formats, agree with the
order of the extended reals, unless both operands are the same infinity and their don't-care bits differ
(read as exponent and fraction). Missing: that case, in which the code is wrong
(`C25_infinities_unequal`, `C25_infinities_unequal_mixed`). -/
theorem C25_comparisons_real_order_partial {EA FA EB FB : ℕ} (hEA : 1 ≤ EA) (hFA : 1 ≤ FA) (hEB : 1 ≤ EB) (hFB : 1 ≤ FB)
    (a : Fp EA FA) (b : Fp EB FB) (ha : a.datum ≠ .nan) (hb : b.datum ≠ .nan)
    (hinf : ∀ s, a.datum = .inf s → b.datum = .inf s →
      (a.exp : ℤ) - bias EA = b.exp - bias EB ∧ a.frac * 2 ^ FB = b.frac * 2 ^ FA) :
    ComparesLikeReals a b := by
  have dA := promote_datum hEA hFA (le_max_left EA EB) (le_max_left FA FB) a
  have dB := promote_datum hEB hFB (le_max_right EA EB) (le_max_right FA FB) b
  obtain ⟨fa, sa, ea, ra⟩ := promote_fields hEA hFA (le_max_left EA EB) (le_max_left FA FB) a
  obtain ⟨fb, sb, eb, rb⟩ := promote_fields hEB hFB (le_max_right EA EB) (le_max_right FA FB) b
  have hE : 1 ≤ max EA EB := le_trans hEA (le_max_left _ _)
  have hF : 1 ≤ max FA FB := le_trans hFA (le_max_left _ _)
  have ha' : a.flags ≠ 3 := fun h => ha (datum_flags3 a h)
  have hb' : b.flags ≠ 3 := fun h => hb (datum_flags3 b h)
  have b1 := biasN_mono (le_max_left EA EB)
  have b2 := biasN_mono (le_max_right EA EB)
  have hinf' : (promote (max EA EB) (max FA FB) a).flags = 2 → (promote (max EA EB) (max FA FB) b).flags = 2 →
      (promote (max EA EB) (max FA FB) a).sign = (promote (max EA EB) (max FA FB) b).sign →
      (promote (max EA EB) (max FA FB) a).expFrac = (promote (max EA EB) (max FA FB) b).expFrac := by
    intro h1 h2 h3
    rw [fa] at h1
    rw [fb] at h2
    rw [sa, sb] at h3
    obtain ⟨i1, i2⟩ := hinf (decide (a.sign = 1)) (datum_flags2 a h1) (by rw [datum_flags2 b h2, h3])
    rw [← pow_bias, ← pow_bias] at i1
    rw [Fp.expFrac_eq hE hF, Fp.expFrac_eq hE hF, ea, eb, ra, rb]
    congr 1
    · omega
    · rcases le_total FA FB with h | h
      · rw [max_eq_right h, Nat.sub_self, pow_zero, Nat.mul_one]
        have : 2 ^ FB = 2 ^ (FB - FA) * 2 ^ FA := by rw [← pow_add]; congr 1; omega
        rw [this, ← Nat.mul_assoc] at i2
        exact Nat.eq_of_mul_eq_mul_right (by positivity) i2
      · rw [max_eq_left h, Nat.sub_self, pow_zero, Nat.mul_one]
        have : 2 ^ FA = 2 ^ (FA - FB) * 2 ^ FB := by rw [← pow_add]; congr 1; omega
        rw [this, ← Nat.mul_assoc] at i2
        exact Nat.eq_of_mul_eq_mul_right (by positivity) i2
  have ha2 : (promote (max EA EB) (max FA FB) a).flags ≠ 3 := by rw [fa]; exact ha'
  have hb2 : (promote (max EA EB) (max FA FB) b).flags ≠ 3 := by rw [fb]; exact hb'
  obtain ⟨c1, c2, c3, c4, c5, c6⟩ := cmpN_iff hE hF _ _ ha2 hb2 hinf'
  have l1 := Fp.lt_iff hE hF _ _ ha2 hb2
  have l2 := Fp.lt_iff hE hF _ _ hb2 ha2
  have l3 := realEq_iff hE hF _ _ ha2 hb2
  rw [dA, dB] at l1 l2 l3
  unfold ComparesLikeReals Ord.lessThan Ord.lessThanEqual Ord.greaterThan Ord.greaterThanEqual Ord.equal Ord.notEqual
  rw [c1, c2, c3, c4, c5, c6, l1, l2, l3]
  refine ⟨Iff.rfl, ?_, Iff.rfl, ?_, Iff.rfl, Iff.rfl⟩ <;> omega

/-- Mixed formats: 1.5 in (4,3) against 1.25 in (5,6). -/
example : let a := Fp.mk4 4 3 1 0 7 4; let b := Fp.mk4 5 6 1 0 15 16
    (a.datum ≠ .nan ∧ b.datum ≠ .nan ∧ ∀ s, a.datum ≠ .inf s) ∧ Ord.lessThan a b = false ∧ Ord.lessThan b a = true := by
  refine ⟨⟨?_, ?_, ?_⟩, by decide, by decide⟩
  · rw [datum_normal _ (by decide)]; simp
  · rw [datum_normal _ (by decide)]; simp
  · intro s; rw [datum_normal _ (by decide)]; simp

/-- **C25.** With a NaN operand every comparison is false except `not_equal`, which is true. -/
theorem C25_comparisons_nan {EA FA EB FB : ℕ} (hEA : 1 ≤ EA) (hFA : 1 ≤ FA) (hEB : 1 ≤ EB) (hFB : 1 ≤ FB)
    (a : Fp EA FA) (b : Fp EB FB) (h : a.datum = .nan ∨ b.datum = .nan) :
    Ord.lessThan a b = false ∧ Ord.lessThanEqual a b = false ∧ Ord.greaterThan a b = false ∧
    Ord.greaterThanEqual a b = false ∧ Ord.equal a b = false ∧ Ord.notEqual a b = true := by
  obtain ⟨fa, -⟩ := promote_fields hEA hFA (le_max_left EA EB) (le_max_left FA FB) a
  obtain ⟨fb, -⟩ := promote_fields hEB hFB (le_max_right EA EB) (le_max_right FA FB) b
  have nanflag : ∀ {E F : ℕ} (x : Fp E F), x.datum = .nan → x.flags = 3 := by
    intro E F x hx
    rcases flags_cases x with f | f | f | f
    · rw [datum_flags0 x f] at hx; cases hx
    · rw [datum_normal x f] at hx; cases hx
    · rw [datum_flags2 x f] at hx; cases hx
    · exact f
  have hn : ((promote (max EA EB) (max FA FB) a).isNan || (promote (max EA EB) (max FA FB) b).isNan) = true := by
    unfold Fp.isNan
    rw [fa, fb]
    rcases h with h | h
    · simp [nanflag a h]
    · simp [nanflag b h]
  unfold Ord.lessThan Ord.lessThanEqual Ord.greaterThan Ord.greaterThanEqual Ord.equal Ord.notEqual
    Ord.ltN Ord.leN Ord.gtN Ord.geN Ord.equalN Ord.notEqualN
  rw [hn]
  simp

example : (Limits.quietNaN 4 3).datum = .nan := by decide +kernel

/-- **C25, the part that fails.** In every format with the same exponent and fraction widths there are two
encodings of +infinity that `equal` distinguishes and `less_than` orders. -/
theorem C25_infinities_unequal {E F : ℕ} (hE : 1 ≤ E) (hF : 1 ≤ F) :
    ∃ a b : Fp E F, a.datum = .inf false ∧ b.datum = .inf false ∧ a.equals b = true ∧
      Ord.equal a b = false ∧ Ord.lessThan a b = true := by
  have pE : 0 < 2 ^ E := by positivity
  have pF : 0 < 2 ^ F := by positivity
  have p1 : 1 < 2 ^ F := Nat.one_lt_two_pow (by omega)
  refine ⟨Fp.mk4 E F 2 0 0 0, Fp.mk4 E F 2 0 0 1, ?_, ?_, ?_, ?_, ?_⟩
  · rw [Fp.mk4_datum (by decide) (by decide) pE pF hE hF]; rfl
  · rw [Fp.mk4_datum (by decide) (by decide) pE p1 hE hF]; rfl
  · simp [Fp.equals, Fp.isNan, Fp.isNormal, Fp.mk4_flags (E := E) (F := F) (fl := 2) (s := 0) (by decide) (by decide) pE pF,
      Fp.mk4_flags (E := E) (F := F) (fl := 2) (s := 0) (by decide) (by decide) pE p1,
      Fp.mk4_sign (E := E) (F := F) (fl := 2) (s := 0) (by decide) (by decide) pE pF,
      Fp.mk4_sign (E := E) (F := F) (fl := 2) (s := 0) (by decide) (by decide) pE p1]
  all_goals
    have hp : ∀ x : Fp E F, promote (max E E) (max F F) x = promote (max E E) (max F F) x := fun _ => rfl
    obtain ⟨fa, sa, ea, ra⟩ := promote_fields hE hF (le_max_left E E) (le_max_left F F) (Fp.mk4 E F 2 0 0 0)
    obtain ⟨fb, sb, eb, rb⟩ := promote_fields hE hF (le_max_left E E) (le_max_left F F) (Fp.mk4 E F 2 0 0 1)
    rw [Fp.mk4_flags (by decide) (by decide) pE pF] at fa
    rw [Fp.mk4_flags (by decide) (by decide) pE p1] at fb
    rw [Fp.mk4_sign (by decide) (by decide) pE pF] at sa
    rw [Fp.mk4_sign (by decide) (by decide) pE p1] at sb
    rw [Fp.mk4_exp (by decide) (by decide) pE pF hE] at ea
    rw [Fp.mk4_exp (by decide) (by decide) pE p1 hE] at eb
    rw [Fp.mk4_frac (by decide) (by decide) pE pF hF] at ra
    rw [Fp.mk4_frac (by decide) (by decide) pE p1 hF] at rb
    have hE' : 1 ≤ max E E := by simpa using hE
    have hF' : 1 ≤ max F F := by simpa using hF
    have xa := Fp.expFrac_eq hE' hF' (promote (max E E) (max F F) (Fp.mk4 E F 2 0 0 0))
    have xb := Fp.expFrac_eq hE' hF' (promote (max E E) (max F F) (Fp.mk4 E F 2 0 0 1))
    rw [ea, ra] at xa
    rw [eb, rb] at xb
    simp only [concat, max_self, Nat.sub_self, pow_zero, Nat.zero_mul, Nat.add_zero, Nat.zero_add, Nat.mul_one] at xa xb
  · unfold Ord.equal Ord.equalN Fp.isNan Fp.isZero
    rw [fa, fb, sa, sb]
    simp only [max_self] at *
    simp [xa, xb]
  · unfold Ord.lessThan Ord.ltN Fp.isNan Fp.isZero Fp.isNegative Fp.flagsExpFrac
    rw [fa, fb, sa, sb]
    simp only [max_self] at *
    simp [xa, xb, concat]

/-- The same failure with encodings produced by the library: two overflowing-operand products. -/
example : ∃ a b : Fp 4 3, mulV1 4 3 (Limits.infinity 4 3) (Fp.mk4 4 3 1 0 7 0) = some a ∧
    mulV1 4 3 (Limits.infinity 4 3) (Fp.mk4 4 3 1 0 7 4) = some b ∧ Ord.equal a b = false := by
  refine ⟨_, _, rfl, rfl, ?_⟩
  decide +kernel

/-- **C25, the part that fails.** Even the canonical infinities of two formats whose exponent widths differ
compare unequal. -/
theorem C25_infinities_unequal_mixed {EA FA EB FB : ℕ} (hEA : 1 ≤ EA) (hFA : 1 ≤ FA) (hFB : 1 ≤ FB)
    (h : EA < EB) : Ord.equal (Limits.infinity EA FA) (Limits.infinity EB FB) = false := by
  have hE : 1 ≤ max EA EB := le_trans hEA (le_max_left _ _)
  have hF : 1 ≤ max FA FB := le_trans hFA (le_max_left _ _)
  have inf_fields : ∀ {E F : ℕ}, 1 ≤ E → 1 ≤ F → (Limits.infinity E F).flags = 2 ∧ (Limits.infinity E F).sign = 0 ∧
      (Limits.infinity E F).exp = 0 ∧ (Limits.infinity E F).frac = 0 := by
    intro E F hE hF
    obtain ⟨a, b, c⟩ := Fp.mk3_fields (E := E) (F := F) (fs := 4) (e := 0) (f := 0) hE (by decide)
      (by positivity) (by positivity)
    rw [Nat.zero_mul, Nat.add_zero, Fp.expFrac_zero_iff hE hF] at c
    exact ⟨a, b, c⟩
  obtain ⟨fa, sa, ea, ra⟩ := promote_fields hEA hFA (le_max_left EA EB) (le_max_left FA FB) (Limits.infinity EA FA)
  obtain ⟨fb, sb, eb, rb⟩ := promote_fields (show 1 ≤ EB by omega) hFB (le_max_right EA EB) (le_max_right FA FB)
    (Limits.infinity EB FB)
  obtain ⟨a1, a2, a3, a4⟩ := inf_fields hEA hFA
  obtain ⟨b1, b2, b3, b4⟩ := inf_fields (show 1 ≤ EB by omega) hFB
  rw [a3] at ea
  rw [b3, max_eq_right h.le, Nat.sub_self] at eb
  have hlt : biasN EA < biasN EB := by
    unfold biasN
    have : 2 ^ (EA - 1) < 2 ^ (EB - 1) := Nat.pow_lt_pow_right (by norm_num) (by omega)
    have : 0 < 2 ^ (EA - 1) := by positivity
    omega
  have hne : (promote (max EA EB) (max FA FB) (Limits.infinity EA FA)).expFrac ≠
      (promote (max EA EB) (max FA FB) (Limits.infinity EB FB)).expFrac := by
    intro hc
    have h2 : (promote (max EA EB) (max FA FB) (Limits.infinity EA FA)).exp
        = (promote (max EA EB) (max FA FB) (Limits.infinity EB FB)).exp := by
      rw [← Fp.expFrac_div hE hF, hc, Fp.expFrac_div hE hF]
    rw [max_eq_right h.le] at h2 ea
    rw [ea, eb] at h2
    omega
  unfold Ord.equal Ord.equalN Fp.isNan Fp.isZero
  rw [fa, fb, sa, sb, a1, b1, a2, b2]
  simp [hne]

/-! ## C26: the comparisons form a consistent order

These hold for every encoding, in mixed formats, including infinities with unusual don't-care bits. -/

section
variable {EA FA EB FB EC FC : ℕ} (hEA : 1 ≤ EA) (hFA : 1 ≤ FA) (hEB : 1 ≤ EB) (hFB : 1 ≤ FB)
  (hEC : 1 ≤ EC) (hFC : 1 ≤ FC) (a : Fp EA FA) (b : Fp EB FB) (c : Fp EC FC)

include hEA hFA in
/-- **C26.** `less_than` is irreflexive. -/
theorem C26_irreflexive : Ord.lessThan a a = false := by
  by_cases h : a.flags = 3
  · exact (cmp_nan hEA hFA hEA hFA a a (Or.inl h)).1
  · rw [← Bool.not_eq_true, (cmp_lex hEA hFA hEA hFA a a h h).1]
    exact lt_irrefl _

include hEA hFA hEB hFB hEC hFC in
/-- **C26.** `less_than`, `less_than_equal` and `equal` are transitive, across formats. -/
theorem C26_transitive :
    (Ord.lessThan a b = true → Ord.lessThan b c = true → Ord.lessThan a c = true) ∧
    (Ord.lessThanEqual a b = true → Ord.lessThanEqual b c = true → Ord.lessThanEqual a c = true) ∧
    (Ord.equal a b = true → Ord.equal b c = true → Ord.equal a c = true) := by
  by_cases h1 : a.flags = 3
  · have := cmp_nan hEA hFA hEB hFB a b (Or.inl h1); simp [this]
  by_cases h2 : b.flags = 3
  · have := cmp_nan hEA hFA hEB hFB a b (Or.inr h2); simp [this]
  by_cases h3 : c.flags = 3
  · have := cmp_nan hEB hFB hEC hFC b c (Or.inr h3); simp [this]
  obtain ⟨p1, p2, -, -, p3, -⟩ := cmp_lex hEA hFA hEB hFB a b h1 h2
  obtain ⟨q1, q2, -, -, q3, -⟩ := cmp_lex hEB hFB hEC hFC b c h2 h3
  obtain ⟨r1, r2, -, -, r3, -⟩ := cmp_lex hEA hFA hEC hFC a c h1 h3
  rw [p1, p2, p3, q1, q2, q3, r1, r2, r3]
  exact ⟨lt_trans, le_trans, Eq.trans⟩

include hEA hFA hEB hFB in
/-- **C26.** For operands that are not NaN exactly one of `less_than`, `equal`, `greater_than` holds. -/
theorem C26_trichotomy (ha : a.datum ≠ .nan) (hb : b.datum ≠ .nan) :
    (Ord.lessThan a b, Ord.equal a b, Ord.greaterThan a b) ∈
      [(true, false, false), (false, true, false), (false, false, true)] := by
  obtain ⟨p1, -, p2, -, p3, -⟩ := cmp_lex hEA hFA hEB hFB a b (mt (datum_nan_iff a).mpr ha) (mt (datum_nan_iff b).mpr hb)
  rcases lt_trichotomy a.lexKey b.lexKey with h | h | h
  · rw [p1.mpr h, Bool.eq_false_iff.mpr (mt p2.mp (lt_asymm h)), Bool.eq_false_iff.mpr (mt p3.mp h.ne)]; simp
  · rw [p3.mpr h, Bool.eq_false_iff.mpr (mt p2.mp h.not_gt), Bool.eq_false_iff.mpr (mt p1.mp h.not_lt)]; simp
  · rw [p2.mpr h, Bool.eq_false_iff.mpr (mt p1.mp (lt_asymm h)), Bool.eq_false_iff.mpr (mt p3.mp h.ne')]; simp

include hEA hFA hEB hFB in
/-- **C26.** `less_than_equal` is `less_than` or `equal`; `greater_than` and `greater_than_equal` mirror
`less_than` and `less_than_equal`; `equal` is symmetric; `not_equal` is the negation of `equal`. -/
theorem C26_derived :
    Ord.lessThanEqual a b = (Ord.lessThan a b || Ord.equal a b) ∧
    Ord.greaterThan a b = Ord.lessThan b a ∧
    Ord.greaterThanEqual a b = Ord.lessThanEqual b a ∧
    Ord.equal a b = Ord.equal b a ∧
    Ord.notEqual a b = !Ord.equal a b := by
  by_cases h1 : a.flags = 3
  · have := cmp_nan hEA hFA hEB hFB a b (Or.inl h1)
    have := cmp_nan hEB hFB hEA hFA b a (Or.inr h1)
    simp [*]
  by_cases h2 : b.flags = 3
  · have := cmp_nan hEA hFA hEB hFB a b (Or.inr h2)
    have := cmp_nan hEB hFB hEA hFA b a (Or.inl h2)
    simp [*]
  obtain ⟨p1, p2, p3, p4, p5, p6⟩ := cmp_lex hEA hFA hEB hFB a b h1 h2
  obtain ⟨q1, q2, q3, q4, q5, q6⟩ := cmp_lex hEB hFB hEA hFA b a h2 h1
  refine ⟨Bool.eq_iff_iff.mpr ?_, Bool.eq_iff_iff.mpr ?_, Bool.eq_iff_iff.mpr ?_, Bool.eq_iff_iff.mpr ?_,
    Bool.eq_iff_iff.mpr ?_⟩
  · rw [Bool.or_eq_true, p1, p2, p5]; exact le_iff_lt_or_eq
  · rw [p3, q1]
  · rw [p4, q2]
  · rw [p5, q5]; exact eq_comm
  · rw [Bool.not_eq_true', Bool.eq_false_iff, p6, ne_eq, ne_eq, p5]

end

/-- A chain through three formats. -/
example : Ord.lessThan (Fp.mk4 4 3 1 1 7 4) (Fp.mk4 5 6 0 1 15 16) = true ∧
    Ord.lessThan (Fp.mk4 5 6 0 1 15 16) (Fp.mk4 3 8 1 0 0 0) = true := by decide

/-! ## C27: negation -/

theorem flipSign_fields {E F : ℕ} (hE : 1 ≤ E) (hF : 1 ≤ F) (x : Fp E F) :
    (flipSign x).flags = x.flags ∧ (flipSign x).sign = 1 - x.sign ∧ (flipSign x).exp = x.exp ∧
    (flipSign x).frac = x.frac := by
  have hs := x.sign_lt
  have hn : notW 1 x.sign = 1 - x.sign := by
    obtain h | h : x.sign = 0 ∨ x.sign = 1 := by omega
    all_goals rw [h]; rfl
  have a := x.flags_lt
  have b : notW 1 x.sign < 2 := by omega
  have c := x.exp_lt hE
  have d := x.frac_lt hF
  unfold flipSign
  rw [Fp.mk4_flags a b c d, Fp.mk4_sign a b c d, Fp.mk4_exp a b c d hE, Fp.mk4_frac a b c d hF, hn]
  exact ⟨rfl, rfl, rfl, rfl⟩

theorem flipSign_datum {E F : ℕ} (hE : 1 ≤ E) (hF : 1 ≤ F) (x : Fp E F) : (flipSign x).datum = x.datum.neg := by
  obtain ⟨a, b, c, d⟩ := flipSign_fields hE hF x
  have hs := x.sign_lt
  unfold Fp.datum
  rw [a, b, c, d]
  obtain h | h : x.sign = 0 ∨ x.sign = 1 := by omega
  all_goals rcases flags_cases x with f | f | f | f <;> rw [h, f] <;> simp [denote, Datum.neg]

theorem convert_same {E F : ℕ} (x : Fp E F) : convert E F x = Fp.mk4 E F x.flags x.sign (addW E x.exp 0) x.frac := by
  have h1 : convertFrac F F x.frac = (x.frac, false) := by
    unfold convertFrac; rw [if_neg (by omega), if_pos rfl]
  have h2 : convertExp E E x.flags x.exp false = (x.flags, addW E x.exp 0) := by
    unfold convertExp; rw [if_neg (by omega), if_pos rfl]; rfl
  unfold convert
  rw [h1]
  dsimp only
  rw [h2]

/-- **C27.** `neg` in the operand's own format negates the datum of every encoding. -/
theorem C27_neg_datum {E F : ℕ} (hE : 1 ≤ E) (hF : 1 ≤ F) (x : Fp E F) : (negV1 E F x).datum = x.datum.neg := by
  unfold negV1
  rw [C23_convert_widen_exact hE hF le_rfl le_rfl, flipSign_datum hE hF]

/-- **C27.** `neg` twice returns the identical encoding, don't-care bits included. -/
theorem C27_neg_involutive {E F : ℕ} (hE : 1 ≤ E) (hF : 1 ≤ F) (x : Fp E F) : negV1 E F (negV1 E F x) = x := by
  have hid : ∀ y : Fp E F, convert E F y = y := by
    intro y
    rw [convert_same]
    have : addW E y.exp 0 = y.exp := by unfold addW; exact Nat.mod_eq_of_lt (y.exp_lt hE)
    rw [this, Fp.mk4_eta hE hF]
  unfold negV1
  rw [hid, hid]
  obtain ⟨a, b, c, d⟩ := flipSign_fields hE hF x
  obtain ⟨a', b', c', d'⟩ := flipSign_fields hE hF (flipSign x)
  have hs := x.sign_lt
  exact Fp.ext_fields hE hF (by rw [a', a]) (by rw [b', b]; omega) (by rw [c', c]) (by rw [d', d])

/-- **C27.** Into another format, `neg` of a number is the correctly rounded negated value. -/
theorem C27_neg_rounded {ER FR EX FX : ℕ} (hER : 1 ≤ ER) (hFR : 1 ≤ FR) (hEX : 1 ≤ EX) (hFX : 1 ≤ FX)
    (x : Fp EX FX) (v : ℚ) (hx : x.datum = .num v) : Rounded ER FR (-v) (negV1 ER FR x).datum := by
  refine convert_rounded hER hFR hEX hFX _ _ ?_
  rw [flipSign_datum hEX hFX, hx]
  rfl

example : negV1 4 3 (Fp.mk4 4 3 1 0 7 4) = Fp.mk4 4 3 1 1 7 4 ∧ negV1 3 2 (Fp.mk4 4 3 1 0 7 5) = Fp.mk4 3 2 1 1 3 2 := by
  decide

end Thls
