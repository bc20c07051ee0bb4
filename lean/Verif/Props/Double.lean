import Verif.Proofs.Double
import Verif.Props.Flopoco

/-! # C55, C56: exchange with C++ `double` -/

namespace Thls
open Spec

/-! ## From `double` -/

/-- The data of the packings of `fp_flopoco(double)`. -/
theorem mk4_data {E F s e f : ℕ} (hE : 1 ≤ E) (hF : 1 ≤ F) (hs : s < 2) (he : e < 2 ^ E) (hf : f < 2 ^ F) :
    (Fp.mk4 E F 0 s e f).datum = .zero (decide (s = 1)) ∧ (Fp.mk4 E F 2 s e f).datum = .inf (decide (s = 1)) ∧
      (Fp.mk4 E F 3 s e f).datum = .nan ∧
      (Fp.mk4 E F 1 s e f).datum = .num ((if s = 1 then -1 else 1) * (((2 ^ F + f : ℕ) : ℚ) * 2 ^ ((e : ℤ) - bias E - F))) := by
  refine ⟨?_, ?_, ?_, ?_⟩ <;> rw [Fp.mk4_datum (by decide) hs he hf hE hF] <;> rfl

theorem dblNegative_lt (x : Ieee 11 52) : (dblNegative x).toNat < 2 := by cases dblNegative x <;> simp

theorem dbl_sign {s : ℕ} {p : ℚ} (hp : 0 < p) : decide ((if s = 1 then (-1 : ℚ) else 1) * p < 0) = decide (s = 1) := by
  by_cases h : s = 1
  · rw [if_pos h]; simp only [h, decide_true, decide_eq_true_eq]; linarith
  · rw [if_neg h]; simp only [h, decide_false, decide_eq_false_iff_not, not_lt]; linarith

theorem dbl_abs {s : ℕ} {p : ℚ} (hp : 0 < p) : |(if s = 1 then (-1 : ℚ) else 1) * p| = p := by
  by_cases h : s = 1
  · rw [if_pos h, neg_one_mul, abs_neg, abs_of_pos hp]
  · rw [if_neg h, one_mul, abs_of_pos hp]

/-- A number: denormal or normal. -/
theorem dbl_num_cases {x : Ieee 11 52} {v : ℚ} (hx : x.datum = .num v) :
    (x.exp = 0 ∧ x.frac ≠ 0 ∧ v = (if x.sign = 1 then -1 else 1) * ((x.frac : ℚ) * 2 ^ (1 - bias 11 - (52 : ℕ)))) ∨
      (x.exp ≠ 0 ∧ x.exp ≠ ones 11 ∧
        v = (if x.sign = 1 then -1 else 1) * (((2 ^ 52 + x.frac : ℕ) : ℚ) * 2 ^ ((x.exp : ℤ) - bias 11 - (52 : ℕ)))) := by
  unfold Ieee.datum ieeeDenote at hx
  by_cases h0 : x.exp = 0
  · rw [if_pos h0] at hx
    by_cases hf : x.frac = 0
    · rw [if_pos hf] at hx; cases hx
    · rw [if_neg hf, Datum.num.injEq] at hx
      exact Or.inl ⟨h0, hf, hx.symm⟩
  · rw [if_neg h0] at hx
    by_cases h1 : x.exp = ones 11
    · have h1' : x.exp = 2 ^ 11 - 1 := h1
      rw [if_pos h1'] at hx
      split_ifs at hx
    · have h1' : ¬ x.exp = 2 ^ 11 - 1 := h1
      rw [if_neg h1', Datum.num.injEq] at hx
      exact Or.inr ⟨h0, h1, hx.symm⟩

theorem dblNegative_num {x : Ieee 11 52} {v : ℚ} (hx : x.datum = .num v) : decide ((dblNegative x).toNat = 1) = decide (v < 0) := by
  have hs := x.sign_lt
  rcases dbl_num_cases hx with ⟨h0, hf, hv⟩ | ⟨h0, h1, hv⟩
  · have hp : (0 : ℚ) < (x.frac : ℚ) * 2 ^ (1 - bias 11 - (52 : ℕ)) := mul_pos (by exact_mod_cast Nat.pos_of_ne_zero hf) (two_zpow_pos _)
    rw [hv, dbl_sign hp]
    unfold dblNegative Ieee.isNan
    rw [h0]
    have : (0 == ones 11) = false := by decide
    rcases Nat.lt_succ_iff_lt_or_eq.mp hs with h | h
    · simp [show x.sign = 0 by omega]
    · simp [h, hf, this]
  · have hp : (0 : ℚ) < ((2 ^ 52 + x.frac : ℕ) : ℚ) * 2 ^ ((x.exp : ℤ) - bias 11 - (52 : ℕ)) :=
      mul_pos (by positivity) (two_zpow_pos _)
    rw [hv, dbl_sign hp]
    unfold dblNegative Ieee.isNan
    have : (x.exp == ones 11) = false := by
      rw [beq_eq_false_iff_ne]; exact h1
    rcases Nat.lt_succ_iff_lt_or_eq.mp hs with h | h
    · simp [show x.sign = 0 by omega]
    · simp [h, h0, this]

/-- A normal double. -/
theorem dbl_normal {x : Ieee 11 52} {v : ℚ} (hx : x.datum = .num v) (hv : (2 : ℚ) ^ (-1022 : ℤ) ≤ |v|) :
    x.exp ≠ 0 ∧ x.exp ≠ ones 11 ∧ |v| = ((2 ^ 52 + x.frac : ℕ) : ℚ) * 2 ^ ((x.exp : ℤ) - 1023 - 52) := by
  have hb : bias 11 = 1023 := by norm_num [bias]
  have hfl := x.frac_lt (by norm_num)
  rcases dbl_num_cases hx with ⟨h0, hf, hv'⟩ | ⟨h0, h1, hv'⟩
  · exfalso
    have hp : (0 : ℚ) < (x.frac : ℚ) * 2 ^ (1 - bias 11 - (52 : ℕ)) := mul_pos (by exact_mod_cast Nat.pos_of_ne_zero hf) (two_zpow_pos _)
    rw [hv', dbl_abs hp, hb] at hv
    have e1 : (2 : ℚ) ^ (-1022 : ℤ) = 2 ^ 52 * 2 ^ (1 - 1023 - ((52 : ℕ) : ℤ)) := by
      rw [← zpow_natCast (2 : ℚ) 52, ← zpow_add₀ (by norm_num)]; norm_num
    rw [e1] at hv
    have := le_of_mul_le_mul_right hv (two_zpow_pos _)
    have hfq : (x.frac : ℚ) < 2 ^ 52 := by exact_mod_cast hfl
    linarith
  · refine ⟨h0, h1, ?_⟩
    rw [hv', dbl_abs (mul_pos (by positivity) (two_zpow_pos _)), hb]
    norm_num

/-- C55: the value of a `double` read into the format `(E, F)`: NaN stays NaN; a normal number is rounded towards zero and range-checked;
a denormal gives a zero of its sign; and a zero gives +0. For E at most 10 the denormal case is the truncated value too.
Partial: infinities become NaN (`C55_from_double_infinity`), and the sign of -0 is lost. -/
theorem C55_from_double_partial {E F : ℕ} (hE : 1 ≤ E) (hF : 1 ≤ F) (hF64 : F ≤ 64) (x : Ieee 11 52) :
    ∃ r : Fp E F, ofDouble E F x = some r ∧
      (x.datum = .nan → r.datum = .nan) ∧
      (∀ s, x.datum = .zero s → r.datum = .zero false) ∧
      (∀ v, x.datum = .num v → (2 : ℚ) ^ (-1022 : ℤ) ≤ |v| → Truncated E F v r.datum) ∧
      (∀ v, x.datum = .num v → |v| < (2 : ℚ) ^ (-1022 : ℤ) → r.datum = .zero (decide (v < 0))) := by
  have pE : 0 < 2 ^ E := by positivity
  have pF : 0 < 2 ^ F := by positivity
  have hb : bias 11 = 1023 := by norm_num [bias]
  have hs := dblNegative_lt x
  have hfl := x.frac_lt (by norm_num)
  obtain ⟨d0, d2, d3, _⟩ := mk4_data (s := (dblNegative x).toNat) hE hF hs pE pF
  obtain ⟨b1, b2⟩ := two_bias hE
  by_cases hx1 : x.exp = ones 11
  · refine ⟨_, by rw [ofDouble]; exact if_pos hx1, fun _ => d3, ?_, ?_, ?_⟩
    · intro s h
      unfold Ieee.datum ieeeDenote at h
      have : (2 : ℕ) ^ 11 - 1 = ones 11 := rfl
      rw [hx1, this, if_neg (by decide), if_pos rfl] at h
      split_ifs at h
    · intro v h
      exfalso
      unfold Ieee.datum ieeeDenote at h
      have : (2 : ℕ) ^ 11 - 1 = ones 11 := rfl
      rw [hx1, this, if_neg (by decide), if_pos rfl] at h
      split_ifs at h
    · intro v h
      exfalso
      unfold Ieee.datum ieeeDenote at h
      have : (2 : ℕ) ^ 11 - 1 = ones 11 := rfl
      rw [hx1, this, if_neg (by decide), if_pos rfl] at h
      split_ifs at h
  · by_cases hx0 : x.exp = 0
    · refine ⟨_, by rw [ofDouble]; simp only; rw [if_neg hx1, if_pos hx0], ?_, ?_, ?_, ?_⟩
      · intro h
        unfold Ieee.datum ieeeDenote at h
        rw [if_pos hx0] at h
        split_ifs at h
      · intro s h
        rw [d0]
        congr 1
        unfold Ieee.datum ieeeDenote at h
        rw [if_pos hx0] at h
        split_ifs at h with hf
        unfold dblNegative
        simp [hx0, hf]
      · intro v h hv
        exact absurd hx0 (dbl_normal h hv).1
      · intro v h _
        rw [d0, dblNegative_num h]
    · have hval : x.datum = .num ((if x.sign = 1 then -1 else 1) * (((2 ^ 52 + x.frac : ℕ) : ℚ) * 2 ^ ((x.exp : ℤ) - bias 11 - (52 : ℕ)))) := by
        unfold Ieee.datum ieeeDenote
        have hx1' : ¬ x.exp = 2 ^ 11 - 1 := hx1
        rw [if_neg hx0, if_neg hx1']
      have hge : ∀ v, x.datum = .num v → (2 : ℚ) ^ (-1022 : ℤ) ≤ |v| := by
        intro v h
        rw [hval] at h
        simp only [Datum.num.injEq] at h
        rw [← h, dbl_abs (mul_pos (by positivity) (two_zpow_pos _)), hb]
        refine le_trans ?_ (sig_bounds hfl ((x.exp : ℤ) - 1023)).1
        exact zpow_le_zpow_right₀ (by norm_num) (by omega)
      obtain ⟨hc, hrd⟩ := cut_roundDown (F := F) hfl ((x.exp : ℤ) - 1023)
      have hcase : ∃ r : Fp E F, ofDouble E F x = some r ∧ ∀ v, x.datum = .num v → Truncated E F v r.datum := by
        rw [ofDouble]
        simp only
        rw [if_neg hx1, if_neg hx0]
        have hmain : ∀ v (d : Datum), x.datum = .num v →
            d = rangeCheck E F (decide (v < 0)) (2 ^ F + x.frac * 2 ^ F / 2 ^ 52) ((x.exp : ℤ) - 1023 - F) → Truncated E F v d := by
          intro v d hv hd
          refine ⟨_, _, ?_, hd⟩
          rw [(dbl_normal hv (hge v hv)).2.2]
          exact hrd
        by_cases c1 : (x.exp : ℤ) - 1023 < 0 - (biasN E : ℤ)
        · rw [if_pos c1]
          refine ⟨_, rfl, fun v hv => hmain v _ hv ?_⟩
          rw [d0, dblNegative_num hv]
          rw [pow_bias] at c1
          unfold rangeCheck
          rw [if_pos (by omega)]
        · rw [if_neg c1]
          by_cases c2 : (x.exp : ℤ) - 1023 > 0 + (biasN E : ℤ) + 1
          · rw [if_pos c2]
            refine ⟨_, rfl, fun v hv => hmain v _ hv ?_⟩
            rw [d2, dblNegative_num hv]
            rw [pow_bias] at c1 c2
            unfold rangeCheck
            rw [if_neg (by omega), if_pos (by omega)]
          · have c3 : ¬ 2 ^ 64 ≤ x.frac * 2 ^ F / 2 ^ 52 := by
              have : 2 ^ F ≤ 2 ^ 64 := Nat.pow_le_pow_right (by norm_num) hF64
              omega
            rw [if_neg c2, if_neg c3]
            refine ⟨_, rfl, fun v hv => hmain v _ hv ?_⟩
            rw [pow_bias] at c1 c2 ⊢
            have he : ((x.exp : ℤ) - 1023 + bias E).toNat < 2 ^ E := by
              have : ((((x.exp : ℤ) - 1023 + bias E).toNat : ℕ) : ℤ) < ((2 ^ E : ℕ) : ℤ) := by push_cast; omega
              exact_mod_cast this
            obtain ⟨_, _, _, d1⟩ := mk4_data (s := (dblNegative x).toNat) hE hF hs he hc
            rw [d1]
            unfold rangeCheck
            rw [if_neg (show ¬ ((x.exp : ℤ) - 1023 - F + F + bias E < 0) by omega),
              if_neg (show ¬ (2 ^ E ≤ (x.exp : ℤ) - 1023 - F + F + bias E) by omega)]
            have hsg := dblNegative_num hv
            have hsg' : ((dblNegative x).toNat = 1) ↔ (decide (v < 0) = true) := by rw [← hsg]; simp
            simp only [hsg']
            rw [show ((((x.exp : ℤ) - 1023 + bias E).toNat : ℕ) : ℤ) - bias E - F = (x.exp : ℤ) - 1023 - F by omega]
      obtain ⟨r, hr, ht⟩ := hcase
      refine ⟨r, hr, ?_, ?_, fun v hv _ => ht v hv, ?_⟩
      · intro h; rw [hval] at h; cases h
      · intro s h; rw [hval] at h; cases h
      · intro v hv hlt
        exact absurd (hge v hv) (not_le.mpr hlt)

/-- A double of each of the kinds of `C55_from_double_partial`, into format (8, 10): 1.4142…, 2^-1074, -0. -/
example : (∃ v, (Ieee.mk3 11 52 0 1023 0x6a09e667f3bcd).datum = .num v ∧ (2 : ℚ) ^ (-1022 : ℤ) ≤ |v|) ∧
    ofDouble 8 10 (Ieee.mk3 11 52 0 1023 0x6a09e667f3bcd) = some (Fp.mk4 8 10 1 0 127 424) ∧
    ofDouble 8 10 (Ieee.mk3 11 52 1 0 1) = some (Fp.mk4 8 10 0 1 0 0) ∧
    ofDouble 8 10 (Ieee.mk3 11 52 1 0 0) = some (Fp.mk4 8 10 0 0 0 0) := by
  refine ⟨⟨_, Ieee.mk3_datum (by norm_num) (by norm_num) (by norm_num) (by norm_num) (by norm_num), ?_⟩, by decide +kernel, by decide +kernel,
    by decide +kernel⟩
  rw [show bias 11 = 1023 by norm_num [bias]]
  rw [if_neg (by norm_num), one_mul, abs_of_pos (mul_pos (by positivity) (two_zpow_pos _))]
  refine le_trans ?_ (sig_bounds (F := 52) (f := 0x6a09e667f3bcd) (by norm_num) ((1023 : ℕ) - 1023 : ℤ)).1
  exact zpow_le_zpow_right₀ (by norm_num) (by norm_num)

/-- C55, where it fails: an infinite `double`, of either sign, is read as NaN in every format. -/
theorem C55_from_double_infinity {E F : ℕ} (hE : 1 ≤ E) (hF : 1 ≤ F) (x : Ieee 11 52) (s : Bool) (hx : x.datum = .inf s) :
    ∃ r : Fp E F, ofDouble E F x = some r ∧ r.datum = .nan := by
  have hx1 : x.exp = ones 11 := by
    unfold Ieee.datum ieeeDenote at hx
    split_ifs at hx with h0 hf h1 hf
    exact h1
  refine ⟨_, by rw [ofDouble]; exact if_pos hx1, ?_⟩
  exact (mk4_data hE hF (dblNegative_lt x) (by positivity) (by positivity)).2.2.1

example : (IeeeLimits.negInfinity 11 52).datum = .inf true := by decide +kernel

/-! ## To `double` -/

/-- C56: `to_double_approx` rounds every number of every format to the nearest double, ties to even, with gradual underflow and overflow
to infinity, and keeps zeros, infinities and NaN. -/
theorem C56_to_double_approx {E F : ℕ} (x : Fp E F) :
    (∀ v, x.datum = .num v → RoundedBinary64 v (toDoubleApprox x).datum) ∧
      ((∀ v, x.datum ≠ .num v) → (toDoubleApprox x).datum = x.datum) := by
  have hm := C47_to_mpfr_exact x
  unfold toDoubleApprox
  rw [← hm]
  have hq : (IeeeLimits.quietNaN 11 52).datum = .nan := by decide +kernel
  have hi0 : (IeeeLimits.infinity 11 52).datum = .inf false := by decide +kernel
  have hi1 : (IeeeLimits.negInfinity 11 52).datum = .inf true := by decide +kernel
  have hz0 : (IeeeLimits.posZero 11 52).datum = .zero false := by decide +kernel
  have hz1 : (IeeeLimits.negZero 11 52).datum = .zero true := by decide +kernel
  cases h : toMpfr x with
  | nan => exact ⟨fun v hv => (by cases hv), fun _ => hq⟩
  | inf s => cases s
             · exact ⟨fun v hv => (by cases hv), fun _ => hi0⟩
             · exact ⟨fun v hv => (by cases hv), fun _ => hi1⟩
  | zero s => cases s
              · exact ⟨fun v hv => (by cases hv), fun _ => hz0⟩
              · exact ⟨fun v hv => (by cases hv), fun _ => hz1⟩
  | num s m e =>
    refine ⟨fun v hv => ?_, fun hne => absurd rfl (hne _)⟩
    have hm0 : 0 < m := by
      unfold toMpfr at h
      simp only at h
      split_ifs at h
      simp only [Mpfr.num.injEq] at h
      have : 0 < 2 ^ F := by positivity
      omega
    have := dblRound_rounded hm0 s e
    simp only [Mpfr.datum, Datum.num.injEq] at hv
    rw [← hv]
    exact this

/-- The numbers of a small format are doubles. -/
theorem small_is_binary64 {E F : ℕ} (hE : 1 ≤ E) (hE' : E ≤ 10) (hF : 1 ≤ F) (hF' : F ≤ 52) (x : Fp E F) {v : ℚ} (hx : x.datum = .num v) :
    v ≠ 0 ∧ |v| < (2 : ℚ) ^ (1024 : ℤ) ∧ (2 : ℚ) ^ (-1022 : ℤ) ≤ |v| ∧
      IsBinary64 (2 ^ F + x.frac) ((x.exp : ℤ) - bias E - F) ∧ |v| = ((2 ^ F + x.frac : ℕ) : ℚ) * 2 ^ ((x.exp : ℤ) - bias E - F) := by
  obtain ⟨_, rfl⟩ := datum_num_iff.mp hx
  have hf := x.frac_lt hF
  have he := x.exp_lt hE
  have hp : (0 : ℚ) < ((2 ^ F + x.frac : ℕ) : ℚ) * 2 ^ ((x.exp : ℤ) - bias E - F) := mul_pos (by positivity) (two_zpow_pos _)
  obtain ⟨s1, s2⟩ := sig_bounds hf ((x.exp : ℤ) - bias E)
  have h512 : bias E ≤ 511 ∧ 0 ≤ bias E := by
    refine ⟨?_, (two_bias hE).2⟩
    have : (2 : ℤ) ^ (E - 1) ≤ 2 ^ 9 := pow_le_pow_right₀ (by norm_num) (by omega)
    unfold bias
    norm_num at this
    omega
  have he' : x.exp < 2 ^ 10 := lt_of_lt_of_le he (Nat.pow_le_pow_right (by norm_num) hE')
  rw [dbl_abs hp]
  refine ⟨?_, ?_, ?_, ⟨?_, ?_⟩, rfl⟩
  · intro h0
    have := dbl_abs (s := x.sign) hp
    rw [h0, abs_zero] at this
    linarith
  · exact lt_of_lt_of_le s2 (zpow_le_zpow_right₀ (by norm_num) (by omega))
  · exact le_trans (zpow_le_zpow_right₀ (by norm_num) (by omega)) s1
  · have h1 : 2 ^ F ≤ 2 ^ 52 := Nat.pow_le_pow_right (by norm_num) hF'
    omega
  · omega

/-- C56: for formats of at most 10 exponent and 52 fraction bits `to_double_approx` is exact. -/
theorem C56_to_double_approx_exact {E F : ℕ} (hE : 1 ≤ E) (hE' : E ≤ 10) (hF : 1 ≤ F) (hF' : F ≤ 52) (x : Fp E F) :
    (toDoubleApprox x).datum = x.datum := by
  obtain ⟨h1, h2⟩ := C56_to_double_approx x
  cases hd : x.datum with
  | num v =>
    obtain ⟨v0, vlt, _, hb, hv⟩ := small_is_binary64 hE hE' hF hF' x hd
    exact rounded64_self v0 hb hv vlt (h1 v hd)
  | nan => rw [h2 (by rw [hd]; exact fun v h => by cases h), hd]
  | inf s => rw [h2 (by rw [hd]; exact fun v h => by cases h), hd]
  | zero s => rw [h2 (by rw [hd]; exact fun v h => by cases h), hd]

/-- The double -1.5 from format (8, 23), and a number of format (12, 60) beyond the doubles. -/
example : (toDoubleApprox (Fp.mk4 8 23 1 1 127 (2 ^ 22))) = Ieee.mk3 11 52 1 1023 (2 ^ 51) ∧
    (toDoubleApprox (Fp.mk4 12 60 1 0 4000 1)) = IeeeLimits.infinity 11 52 ∧
    (toDoubleApprox (Fp.mk4 12 60 1 0 2047 (2 ^ 7 + 1))) = Ieee.mk3 11 52 0 1023 1 := by decide +kernel

theorem u64_small {u : ℕ} (h : u < 2 ^ 53) : u64ToDouble u = (u, 0) := if_pos h

/-- The flags seen by `to_double`. -/
theorem toDouble_num {E F : ℕ} (hE : E ≤ 11) (hF : F ≤ 52) {x : Fp E F} (fx : x.flags = 1) :
    toDouble x = some (dblRound false
      (u64ToDouble (if x.isNegative then (2 ^ 64 - concat F 1 x.frac) % 2 ^ 64 else concat F 1 x.frac)).1
      ((u64ToDouble (if x.isNegative then (2 ^ 64 - concat F 1 x.frac) % 2 ^ 64 else concat F 1 x.frac)).2 + ((x.exp : ℤ) - biasN E - F))) := by
  have h1 : x.isZero = false := by simp [Fp.isZero, fx]
  have h2 : x.isNormal = true := by simp [Fp.isNormal, fx]
  rw [toDouble, if_neg (by omega), h1, if_neg (by decide), h2, if_pos rfl]

/-- C56: `to_double` on zeros, infinities, NaN and positive numbers: the nearest double. Partial: negative numbers are wrong
(`C56_to_double_negative_wrong`). -/
theorem C56_to_double_partial {E F : ℕ} (hE : 1 ≤ E) (hE' : E ≤ 11) (hF : 1 ≤ F) (hF' : F ≤ 52) (x : Fp E F) :
    ∃ r, toDouble x = some r ∧ (∀ v, x.datum = .num v → 0 < v → RoundedBinary64 v r.datum) ∧
      ((∀ v, x.datum ≠ .num v) → r.datum = x.datum) := by
  have hs := x.sign_lt
  have hq : (IeeeLimits.quietNaN 11 52).datum = .nan := by decide +kernel
  have hi0 : (IeeeLimits.infinity 11 52).datum = .inf false := by decide +kernel
  have hi1 : (IeeeLimits.negInfinity 11 52).datum = .inf true := by decide +kernel
  have hz0 : (IeeeLimits.posZero 11 52).datum = .zero false := by decide +kernel
  have hz1 : (IeeeLimits.negZero 11 52).datum = .zero true := by decide +kernel
  rcases flags_cases x with fx | fx | fx | fx
  · have h1 : x.isZero = true := by simp [Fp.isZero, fx]
    rw [datum_flags0 x fx]
    refine ⟨_, by rw [toDouble, if_neg (by omega), h1, if_pos rfl], fun v hv => (by cases hv), fun _ => ?_⟩
    rcases Nat.lt_succ_iff_lt_or_eq.mp hs with h | h
    · simp [Fp.isNegative, show x.sign = 0 by omega, hz0]
    · simp [Fp.isNegative, h, hz1]
  · refine ⟨_, toDouble_num hE' hF' fx, ?_, ?_⟩
    · intro v hv hv0
      obtain ⟨_, hv'⟩ := datum_num_iff.mp hv
      have hp : (0 : ℚ) < ((2 ^ F + x.frac : ℕ) : ℚ) * 2 ^ ((x.exp : ℤ) - bias E - F) := mul_pos (by positivity) (two_zpow_pos _)
      have hsg : x.sign = 0 := by
        rcases Nat.lt_succ_iff_lt_or_eq.mp hs with h | h
        · omega
        · rw [h, if_pos rfl] at hv'; linarith
      have hneg : x.isNegative = false := by simp [Fp.isNegative, hsg]
      have hf := x.frac_lt hF
      have hk : concat F 1 x.frac = 2 ^ F + x.frac := by unfold concat; ring
      have h52 : 2 ^ F ≤ 2 ^ 52 := Nat.pow_le_pow_right (by norm_num) hF'
      rw [hneg, hk]
      simp only [Bool.false_eq_true, if_false]
      rw [u64_small (by omega)]
      have hr := dblRound_rounded (k := 2 ^ F + x.frac) (by have : 0 < 2 ^ F := by positivity
                                                            omega) false (0 + ((x.exp : ℤ) - biasN E - F))
      rw [hsg, if_neg (by decide)] at hv'
      rw [hv', ← pow_bias]
      simpa using hr
    · intro hne
      exact absurd (datum_normal x fx) (hne _)
  · have h1 : x.isZero = false := by simp [Fp.isZero, fx]
    have h2 : x.isNormal = false := by simp [Fp.isNormal, fx]
    have h3 : x.isInf = true := by simp [Fp.isInf, fx]
    rw [datum_flags2 x fx]
    refine ⟨_, by rw [toDouble, if_neg (by omega), h1, if_neg (by decide), h2, if_neg (by decide), h3, if_pos rfl], fun v hv => (by cases hv), fun _ => ?_⟩
    rcases Nat.lt_succ_iff_lt_or_eq.mp hs with h | h
    · simp [Fp.isNegative, show x.sign = 0 by omega, hi0]
    · simp [Fp.isNegative, h, hi1]
  · have h1 : x.isZero = false := by simp [Fp.isZero, fx]
    have h2 : x.isNormal = false := by simp [Fp.isNormal, fx]
    have h3 : x.isInf = false := by simp [Fp.isInf, fx]
    rw [datum_flags3 x fx]
    exact ⟨_, by rw [toDouble, if_neg (by omega), h1, if_neg (by decide), h2, if_neg (by decide), h3, if_neg (by decide)],
      fun v hv => (by cases hv), fun _ => hq⟩

example : (Fp.mk4 8 23 1 0 127 (2 ^ 22)).datum = .num (3 / 2) ∧ toDouble (Fp.mk4 8 23 1 0 127 (2 ^ 22)) = some (Ieee.mk3 11 52 0 1023 (2 ^ 51)) := by
  constructor
  · rw [(mk4_data (by norm_num) (by norm_num) (by norm_num) (by norm_num) (by norm_num)).2.2.2]
    norm_num [bias]
  · decide +kernel

/-- C56, where it fails: `to_double` of every negative number of every format it accepts is a positive double of at least twice the magnitude,
or +infinity. -/
theorem C56_to_double_negative_wrong {E F : ℕ} (hE : 1 ≤ E) (hE' : E ≤ 11) (hF : 1 ≤ F) (hF' : F ≤ 52) (x : Fp E F) (v : ℚ)
    (hx : x.datum = .num v) (hv : v < 0) :
    ∃ r, toDouble x = some r ∧ (r.datum = .inf false ∨ ∃ q, r.datum = .num q ∧ 2 * |v| ≤ q) := by
  obtain ⟨fx, hv'⟩ := datum_num_iff.mp hx
  have hs := x.sign_lt
  have hp : (0 : ℚ) < ((2 ^ F + x.frac : ℕ) : ℚ) * 2 ^ ((x.exp : ℤ) - bias E - F) := mul_pos (by positivity) (two_zpow_pos _)
  have hsg : x.sign = 1 := by
    by_contra h
    rw [if_neg h] at hv'; linarith
  have hneg : x.isNegative = true := by simp [Fp.isNegative, hsg]
  have hf := x.frac_lt hF
  have he := x.exp_lt hE
  have hk : concat F 1 x.frac = 2 ^ F + x.frac := by unfold concat; ring
  have h52 : 2 ^ F ≤ 2 ^ 52 := Nat.pow_le_pow_right (by norm_num) hF'
  have habs : |v| = ((2 ^ F + x.frac : ℕ) : ℚ) * 2 ^ ((x.exp : ℤ) - bias E - F) := by rw [hv']; exact dbl_abs hp
  refine ⟨_, toDouble_num hE' hF' fx, ?_⟩
  rw [hneg, hk, if_pos rfl]
  obtain ⟨k, hkd⟩ : ∃ k, k = 2 ^ F + x.frac := ⟨_, rfl⟩
  rw [← hkd] at habs ⊢
  have hk0 : 0 < k := by have : 0 < 2 ^ F := by positivity
                         omega
  have hk1 : k < 2 ^ 53 := by omega
  have hmod : (2 ^ 64 - k) % 2 ^ 64 = 2 ^ 64 - k := by omega
  have hlog : Nat.log2 (2 ^ 64 - k) = 63 := by
    rw [Nat.log2_eq_iff (by omega)]; omega
  have hu : u64ToDouble (2 ^ 64 - k) = (roundShift (2 ^ 64 - k) 11, 11) := by
    unfold u64ToDouble
    rw [if_neg (by omega), hlog]
    rfl
  rw [hmod, hu]
  simp only
  obtain ⟨m, hm⟩ : ∃ m, m = roundShift (2 ^ 64 - k) 11 := ⟨_, rfl⟩
  have hm1 : 2 ^ 52 ≤ m := by
    rcases roundShift_spec (2 ^ 64 - k) 11 with h | h <;> omega
  rw [← hm, pow_bias]
  have hb : bias E ≤ 1023 ∧ 0 ≤ bias E := by
    refine ⟨?_, (two_bias hE).2⟩
    have : (2 : ℤ) ^ (E - 1) ≤ 2 ^ 10 := pow_le_pow_right₀ (by norm_num) (by omega)
    unfold bias
    norm_num at this
    omega
  have hr := dblRound_rounded (k := m) (by omega) false (11 + ((x.exp : ℤ) - bias E - F))
  simp only [Bool.false_eq_true, if_false, one_mul] at hr
  obtain ⟨m', e', hn, hd⟩ := hr
  have hmq : (2 : ℚ) ^ 52 ≤ m := by exact_mod_cast hm1
  have hkq : (k : ℚ) ≤ 2 ^ 53 := by exact_mod_cast hk1.le
  have hw := two_zpow_pos ((x.exp : ℤ) - bias E - F)
  have hsp : (2 : ℚ) ^ (11 + ((x.exp : ℤ) - bias E - F)) = 2 ^ 11 * 2 ^ ((x.exp : ℤ) - bias E - F) := by
    rw [zpow_add₀ (by norm_num)]; norm_num
  have hpos : 0 < (m : ℚ) * 2 ^ (11 + ((x.exp : ℤ) - bias E - F)) := mul_pos (by linarith) (two_zpow_pos _)
  rw [abs_of_pos hpos] at hn
  have hge : 2 * |v| ≤ (m' : ℚ) * 2 ^ e' := by
    have e1 : 2 * |v| = (k : ℚ) * 2 ^ ((x.exp : ℤ) - bias E - F + 1) := by rw [habs, two_zpow_succ]; ring
    rw [e1]
    refine nearest64_ge hn ⟨hk1, by omega⟩ ?_
    rw [two_zpow_succ, hsp, ← mul_assoc, ← mul_assoc]
    refine mul_le_mul_of_nonneg_right ?_ hw.le
    linarith
  have hm'0 : m' ≠ 0 := by
    rintro rfl
    simp only [Nat.cast_zero, zero_mul] at hge
    have : 0 < |v| := by rw [habs]; positivity
    linarith
  have hnn : ¬ (m : ℚ) * 2 ^ (11 + ((x.exp : ℤ) - bias E - F)) < 0 := not_lt.mpr hpos.le
  rw [hd, if_neg hm'0]
  simp only [hnn, decide_false, if_false, one_mul]
  split_ifs with ho
  · exact Or.inl rfl
  · exact Or.inr ⟨_, rfl, hge⟩

/-- `to_double` of -1 in format (8, 23) is 2^41 - 1. -/
example : (Fp.mk4 8 23 1 1 127 0).datum = .num (-1) ∧ toDouble (Fp.mk4 8 23 1 1 127 0) = some (Ieee.mk3 11 52 0 (1023 + 40) (2 ^ 52 - 2 ^ 12)) := by
  constructor
  · rw [(mk4_data (by norm_num) (by norm_num) (by norm_num) (by norm_num) (by norm_num)).2.2.2]
    norm_num [bias]
  · decide +kernel

/-! ## Round trip -/

/-- A number of the format is its own truncation. -/
theorem truncated_self {E F : ℕ} (hE : 1 ≤ E) (hF : 1 ≤ F) (x : Fp E F) {v : ℚ} (hx : x.datum = .num v) {d : Datum} (h : Truncated E F v d) :
    d = .num v := by
  obtain ⟨fx, hv⟩ := datum_num_iff.mp hx
  obtain ⟨m, e, ⟨hs, hle, hmax⟩, hd⟩ := h
  have hf := x.frac_lt hF
  have he := x.exp_lt hE
  have hp : (0 : ℚ) < ((2 ^ F + x.frac : ℕ) : ℚ) * 2 ^ ((x.exp : ℤ) - bias E - F) := mul_pos (by positivity) (two_zpow_pos _)
  have habs : |v| = ((2 ^ F + x.frac : ℕ) : ℚ) * 2 ^ ((x.exp : ℤ) - bias E - F) := by rw [hv]; exact dbl_abs hp
  have hsx : IsSig (F + 1) (2 ^ F + x.frac) := ⟨by simp, by rw [pow_succ]; omega⟩
  have h1 := hmax _ _ hsx habs.ge
  rw [habs] at hle
  obtain ⟨rfl, rfl⟩ := sig_unique (by omega) hs hsx (le_antisymm hle h1)
  rw [hd]
  have heq : (x.exp : ℤ) < 2 ^ E := by exact_mod_cast he
  unfold rangeCheck
  rw [if_neg (by omega), if_neg (by omega), hv, dbl_sign hp]
  congr 2
  by_cases h : x.sign = 1 <;> simp [h]

/-- C55: a number of a format of at most 10 exponent and 52 fraction bits written with `to_double_approx` and read back is the same number. -/
theorem C55_double_round_trip {E F : ℕ} (hE : 1 ≤ E) (hE' : E ≤ 10) (hF : 1 ≤ F) (hF' : F ≤ 52) (x : Fp E F) (v : ℚ) (hx : x.datum = .num v) :
    ∃ r : Fp E F, ofDouble E F (toDoubleApprox x) = some r ∧ r.equals x = true := by
  obtain ⟨r, hr, _, _, hn, _⟩ := C55_from_double_partial (E := E) (F := F) hE hF (by omega) (toDoubleApprox x)
  have hd := C56_to_double_approx_exact hE hE' hF hF' x
  rw [hx] at hd
  refine ⟨r, hr, ?_⟩
  rw [C07_equals_iff_same_datum hE hF, hx]
  exact truncated_self hE hF x hx (hn v hd (small_is_binary64 hE hE' hF hF' x hx).2.2.1)

/-- C55: the same with `to_double`, for positive numbers. -/
theorem C55_to_double_round_trip_partial {E F : ℕ} (hE : 1 ≤ E) (hE' : E ≤ 10) (hF : 1 ≤ F) (hF' : F ≤ 52) (x : Fp E F) (v : ℚ)
    (hx : x.datum = .num v) (hv : 0 < v) :
    ∃ d r, toDouble x = some d ∧ ofDouble E F d = some r ∧ r.equals x = true := by
  obtain ⟨d, hd, h1, _⟩ := C56_to_double_partial hE (by omega) hF hF' x
  obtain ⟨v0, vlt, vge, hb, hva⟩ := small_is_binary64 hE hE' hF hF' x hx
  have hdd := rounded64_self v0 hb hva vlt (h1 v hx hv)
  obtain ⟨r, hr, _, _, hn, _⟩ := C55_from_double_partial (E := E) (F := F) hE hF (by omega) d
  refine ⟨d, r, hd, hr, ?_⟩
  rw [C07_equals_iff_same_datum hE hF, hx]
  exact truncated_self hE hF x hx (hn v hdd vge)

example : ofDouble 5 10 (toDoubleApprox (Fp.mk4 5 10 1 1 31 1023)) = some (Fp.mk4 5 10 1 1 31 1023) ∧
    (toDouble (Fp.mk4 5 10 1 0 0 1)).bind (ofDouble 5 10) = some (Fp.mk4 5 10 1 0 0 1) := by decide +kernel

end Thls
