import Verif.Props.Thresholds
import Verif.Props.PolicyAsserts
import Verif.Proofs.SoftLoops
import Verif.Proofs.SoftUnique
import Verif.Props.SoftFloat

/-! # Property C101 for the IEEE types

The normal numbers of an IEEE format `(E, F)` have magnitudes from `2^(1-bias)` to just below `2^(bias+1)`. -/

namespace Thls
open Spec

variable {E F : ℕ}

/-- From this magnitude on a rounded IEEE result is an infinity. -/
def ieeeOverflowAt (E F : ℕ) : ℚ := 2 ^ (bias E + 1) * (1 - 2 ^ (-(F : ℤ) - 2))

/-- Below this magnitude a rounded result of the IEEE type without denormals is a zero. -/
def ieeeUnderflowAt (E F : ℕ) : ℚ := 2 ^ (1 - bias E) * (1 - 2 ^ (-(F : ℤ) - 2))

theorem ieeeRounded_outcome (hE : 2 ≤ E) (hF : 1 ≤ F) {q : ℚ} (hq : q ≠ 0) {d : Datum} (h : IeeeRounded E F q d) :
    Outcome (ieeeOverflowAt E F) (ieeeUnderflowAt E F) (uro F) q d := by
  obtain ⟨m, e, hn, rfl⟩ := h
  have he := nearest_err (abs_pos.mpr hq) hn
  have hpos : 0 < (m : ℚ) * 2 ^ e := by
    have := sig_lower hn.1 e
    have := two_zpow_pos (e + F)
    linarith
  obtain ⟨t, ht⟩ : ∃ t, t = (m : ℚ) * 2 ^ e := ⟨_, rfl⟩
  have habs : |(if q < 0 then (-1 : ℚ) else 1) * t| = t := by
    rw [abs_mul, show |(if q < 0 then (-1 : ℚ) else 1)| = 1 by split_ifs <;> norm_num, one_mul, abs_of_pos (ht ▸ hpos)]
  have hneg : ((if q < 0 then (-1 : ℚ) else 1) * t < 0) ↔ q < 0 := by
    rw [← ht] at hpos
    split_ifs with h
    · simp [h, hpos]
    · simp only [h, iff_false, one_mul]; linarith
  have hhi : ieeeLimit E ≤ t ↔ ieeeOverflowAt E F ≤ |q| := by
    rw [ht]; exact (sig_ge_iff hn.1 e _).trans (nearest_reaches_two_pow hF hn _)
  have hlo : t < ieeeMin E ↔ |q| < ieeeUnderflowAt E F := by
    rw [← not_le, ← not_le, not_iff_not, ht]; exact (sig_ge_iff hn.1 e _).trans (nearest_reaches_two_pow hF hn _)
  have hml : ieeeMin E < ieeeLimit E := by
    obtain ⟨b1, b2⟩ := two_bias (show 1 ≤ E by omega)
    have : (2 : ℤ) ^ 2 ≤ 2 ^ E := pow_le_pow_right₀ (by norm_num) hE
    exact zpow_lt_zpow_right₀ (by norm_num) (by omega)
  rw [← ht] at he hpos ⊢
  have hd : ieeeRange E (.num ((if q < 0 then -1 else 1) * t)) =
      if t < ieeeMin E then .zero (decide (q < 0)) else if ieeeLimit E ≤ t then .inf (decide (q < 0))
        else .num ((if q < 0 then -1 else 1) * t) := by
    unfold ieeeRange
    dsimp only
    rw [habs, show decide ((if q < 0 then (-1 : ℚ) else 1) * t < 0) = decide (q < 0) from decide_eq_decide.2 hneg]
  rw [hd]
  refine ⟨?_, ?_, ?_, ?_, fun _ => ?_, ?_⟩
  · split_ifs <;> simp
  · rw [← hhi]; split_ifs with h1 h2
    · simp; linarith
    · simp [h2]
    · simp; linarith
  · rw [← hlo]; split_ifs with h1 h2 <;> simp [h1]
  · intro s; split_ifs <;> simp <;> exact fun h => h.symm
  · intro s; split_ifs <;> simp <;> exact fun h => h.symm
  · intro v hv
    have hv' : v = (if q < 0 then -1 else 1) * t := by
      split_ifs at hv <;> simp_all
    rw [hv', gradual_signed]
    refine ⟨he, ?_⟩
    split_ifs with h
    · nlinarith
    · have : 0 < q := lt_of_le_of_ne (not_lt.1 h) (Ne.symm hq)
      positivity

theorem zero_outcome (hF : 1 ≤ F) {s : Bool} : Outcome (ieeeOverflowAt E F) (ieeeUnderflowAt E F) (uro F) 0 (ieeeRange E (.zero s)) := by
  have o := mul_pos (two_zpow_pos (bias E + 1)) (overflow_pos hF)
  have u := mul_pos (two_zpow_pos (1 - bias E)) (overflow_pos hF)
  change Outcome _ _ _ 0 (.zero s)
  refine ⟨by simp, ?_, ?_, by simp, by simp, by simp⟩
  · rw [abs_zero]; simp only [reduceCtorEq, exists_false, false_iff, not_le]; exact o
  · rw [abs_zero]; simp only [Datum.zero.injEq, exists_eq', true_iff]; exact u

/-- **C101, products of the IEEE type without denormals.** -/
theorem C101_ieee_mul (hE : 2 ≤ E) (hF : 1 ≤ F) (a b : Ieee E F) (va vb : ℚ)
    (ha : ieeeRange E a.datum = .num va) (hb : ieeeRange E b.datum = .num vb) :
    ∃ r, IeeeOps.mul a b = some r ∧ Outcome (ieeeOverflowAt E F) (ieeeUnderflowAt E F) (uro F) (va * vb) r.datum := by
  obtain ⟨r, hr, h⟩ := C29_mul hE hF a b va vb ha hb
  exact ⟨r, hr, ieeeRounded_outcome hE hF (mul_ne_zero (SoftFmt.ieeeRange_num_ne ha) (SoftFmt.ieeeRange_num_ne hb)) h⟩

/-- **C101, quotients of the IEEE type without denormals.** -/
theorem C101_ieee_div (hE : 2 ≤ E) (hF : 1 ≤ F) (a b : Ieee E F) (va vb : ℚ)
    (ha : ieeeRange E a.datum = .num va) (hb : ieeeRange E b.datum = .num vb) :
    Outcome (ieeeOverflowAt E F) (ieeeUnderflowAt E F) (uro F) (va / vb) (IeeeOps.div a b).datum :=
  ieeeRounded_outcome hE hF (div_ne_zero (SoftFmt.ieeeRange_num_ne ha) (SoftFmt.ieeeRange_num_ne hb)) (C29_div hE hF a b va vb ha hb)

/-- **C101, sums of the IEEE type without denormals**, whenever the adder returns. -/
theorem C101_ieee_add (hE : 2 ≤ E) (hF : 1 ≤ F) (hfmt : F ≤ 2 ^ (E + 1)) (a b r : Ieee E F) (va vb : ℚ)
    (ha : ieeeRange E a.datum = .num va) (hb : ieeeRange E b.datum = .num vb) (hr : IeeeOps.add a b = some r) :
    Outcome (ieeeOverflowAt E F) (ieeeUnderflowAt E F) (uro F) (va + vb) r.datum := by
  unfold IeeeOps.add at hr
  obtain ⟨t, ht, rfl⟩ := Option.map_eq_some_iff.mp hr
  have d1 : (ieeeToFlopoco a).datum = .num va := by rw [ieeeToFlopoco_datum (by omega) hF, ha]
  have d2 : (ieeeToFlopoco b).datum = .num vb := by rw [ieeeToFlopoco_datum (by omega) hF, hb]
  obtain ⟨g1, g2, -⟩ := AddDual.addSame_sharp hE hF d1 d2 ht
  rw [flopocoToIeee_datum hE hF]
  by_cases h0 : va + vb = 0
  · rw [g1 h0, h0]
    exact zero_outcome hF
  · refine ieeeRounded_outcome hE hF h0 (ieee_range_of_rounded (by omega) (g2 h0 ?_))
    refine le_trans (zpow_le_zpow_right₀ (by norm_num) ?_) (AddDual.sum_ge d1 d2 h0)
    have : (F : ℤ) ≤ 2 * 2 ^ E := by rw [pow_succ] at hfmt; exact_mod_cast (by omega : F ≤ 2 * 2 ^ E)
    omega

/-- In single precision: the greatest number plus half a unit in the last place overflows, the product of the least number and one less than
half a unit below one is flushed to zero. -/
example : (IeeeOps.add (Ieee.mk3 8 23 0 254 (2 ^ 23 - 1)) (Ieee.mk3 8 23 0 230 0)).map Ieee.bits = some 0x7F800000 ∧
    (IeeeOps.add (Ieee.mk3 8 23 0 254 (2 ^ 23 - 1)) (Ieee.mk3 8 23 0 229 0)).map Ieee.bits = some 0x7F7FFFFF ∧
    (IeeeOps.mul (Ieee.mk3 8 23 0 1 0) (Ieee.mk3 8 23 0 126 (2 ^ 23 - 1))).map Ieee.bits = some 0 := by
  decide +kernel

/-- What may be known in advance of an IEEE 754 result `d` whose real result is `q`: it is an infinity exactly from `hi` on and a zero exactly up
to half the least denormal `2h`; otherwise it is a number, on the same side of zero, within a relative error of `u` where `q` is normal and
within `h` where it is smaller. -/
structure GradualOutcome (hi lo u h q : ℚ) (d : Datum) : Prop where
  not_nan : d ≠ .nan
  overflow : (∃ s, d = .inf s) ↔ hi ≤ |q|
  underflow : (∃ s, d = .zero s) ↔ |q| ≤ h
  sign_inf : ∀ s, d = .inf s → s = decide (q < 0)
  sign_zero : q ≠ 0 → ∀ s, d = .zero s → s = decide (q < 0)
  error_normal : ∀ v, d = .num v → lo ≤ |q| → |v - q| ≤ u * |q|
  error_denormal : ∀ v, d = .num v → |q| < lo → |v - q| ≤ h
  sign : ∀ v, d = .num v → 0 < v * q

theorem ieeeRounded_exists (hF : 1 ≤ F) {q : ℚ} (hq : q ≠ 0) : ∃ d, IeeeRounded E F q d := by
  obtain ⟨m, e, h⟩ := nearest_exists (p := F + 1) (by omega) (abs_pos.2 hq)
  exact ⟨_, m, e, h, rfl⟩

theorem gradual_zero_iff {x : ℚ} {m : ℕ} {e : ℤ} (hx : 0 < x) (h : NearestGradual E F x m e) : m = 0 ↔ x ≤ halfDenorm E F := by
  obtain ⟨⟨g1, g2⟩, -, hn, hev⟩ := h
  have hw := two_zpow_pos (leastExp E F)
  have he := two_zpow_pos e
  have hh : halfDenorm E F = 2 ^ leastExp E F / 2 := two_zpow_pred _
  have h1 : IsGradual E F 1 (leastExp E F) := ⟨Nat.one_lt_two_pow (by omega), le_rfl⟩
  have h0 : IsGradual E F 0 (leastExp E F) := ⟨by positivity, le_rfl⟩
  rw [hh]
  constructor
  · rintro rfl
    have := hn 1 _ h1
    simp only [Nat.cast_zero, zero_mul, sub_zero, Nat.cast_one, one_mul] at this
    rw [abs_of_pos hx] at this
    rcases abs_cases (x - 2 ^ leastExp E F) with ⟨a, b⟩ | ⟨a, b⟩ <;> rw [a] at this <;> linarith
  · intro hle
    by_contra hm
    have hee : (2 : ℚ) ^ leastExp E F ≤ 2 ^ e := zpow_le_zpow_right₀ (by norm_num) g2
    have hm1 : (1 : ℚ) ≤ m := by exact_mod_cast Nat.one_le_iff_ne_zero.2 hm
    have hv : (2 : ℚ) ^ leastExp E F ≤ m * 2 ^ e := by nlinarith
    have := hn 0 _ h0
    simp only [Nat.cast_zero, zero_mul, sub_zero] at this
    rw [abs_of_pos hx, abs_sub_comm, abs_of_nonneg (by linarith)] at this
    have heq : (m : ℚ) * 2 ^ e = 2 ^ leastExp E F := by linarith
    have hev := hev 0 _ h0 (by
      simp only [Nat.cast_zero, zero_mul, sub_zero]
      rw [abs_of_pos hx, abs_sub_comm, abs_of_nonneg (by linarith)]; linarith) (by
      simp only [Nat.cast_zero, zero_mul]; rw [heq]; exact hw.ne)
    have hm2 : (2 : ℚ) ≤ m := by
      obtain ⟨k, rfl⟩ := hev
      exact_mod_cast (by omega : 2 ≤ k + k)
    nlinarith

theorem roundedG_outcome (hE : 2 ≤ E) (hF : 1 ≤ F) {q : ℚ} (hq : q ≠ 0) {d : Datum} (h : RoundedGradual E F q d) :
    GradualOutcome (ieeeOverflowAt E F) (ieeeMin E) (uro F) (halfDenorm E F) q d := by
  have hx := abs_pos.2 hq
  obtain ⟨b1, b2⟩ := two_bias (show 1 ≤ E by omega)
  have hb4 : (2 : ℤ) ^ 2 ≤ 2 ^ E := pow_le_pow_right₀ (by norm_num) hE
  have hml : ieeeMin E < ieeeLimit E := zpow_lt_zpow_right₀ (by norm_num) (by omega)
  have hmo : ieeeMin E < ieeeOverflowAt E F := by
    unfold ieeeOverflowAt ieeeMin
    have h1 : (2 : ℚ) ^ (1 - bias E) < 2 ^ (bias E) := zpow_lt_zpow_right₀ (by norm_num) (by omega)
    have h2 : (2 : ℚ) ^ (-(F : ℤ) - 2) ≤ 2 ^ (-1 : ℤ) := zpow_le_zpow_right₀ (by norm_num) (by omega)
    have h3 : (2 : ℚ) ^ (bias E + 1) = 2 ^ bias E * 2 := by rw [zpow_add_one₀ (by norm_num)]
    have h4 := two_zpow_pos (bias E)
    rw [h3]
    norm_num at h2
    nlinarith
  obtain ⟨m, e, hn, hd⟩ := id h
  have hzero := gradual_zero_iff hx hn
  have hinf : (∃ s, d = .inf s) ↔ ieeeOverflowAt E F ≤ |q| := by
    by_cases hlow : |q| < ieeeMin E
    · have := gradual_le_min hx hlow hn
      constructor
      · rintro ⟨s, rfl⟩
        exfalso
        split_ifs at hd
        linarith
      · intro h'; linarith
    · obtain ⟨d', hd'⟩ := ieeeRounded_exists (E := E) hF hq
      rcases rounded_gradual_or hq hd' with h1 | ⟨-, h1⟩
      · rw [roundedG_unique hF h h1]
        exact (ieeeRounded_outcome hE hF hq hd').overflow
      · exact absurd h1 hlow
  refine ⟨?_, hinf, ?_, ?_, fun _ => ?_, ?_, ?_, ?_⟩
  · rw [hd]; split_ifs <;> simp
  · rw [← hzero, hd]; split_ifs with h1 h2 <;> simp [h1]
  · rw [hd]; intro s; split_ifs <;> simp <;> exact fun h => h.symm
  · rw [hd]; intro s; split_ifs <;> simp <;> exact fun h => h.symm
  · intro v hv hlo
    exact roundedG_err_normal hlo h (by rw [hv]; rfl)
  · intro v hv hlo
    obtain ⟨m', e', hn', he'⟩ := roundedG_fin h (s := v) (by rw [hv]; rfl)
    rw [he']
    exact gradual_err_tiny hx hlo hn'
  · intro v hv
    rw [hd] at hv
    split_ifs at hv with h1 h2 h3
    all_goals injection hv with hv; subst hv
    all_goals have hm : (0 : ℚ) < m := by exact_mod_cast Nat.pos_of_ne_zero h1
    all_goals have hp := mul_pos hm (two_zpow_pos e)
    · nlinarith
    · have : 0 < q := lt_of_le_of_ne (not_lt.1 h3) (Ne.symm hq)
      positivity

/-- The outcome of an operation of the software types. -/
abbrev SoftOutcome (E F : ℕ) : ℚ → Datum → Prop := GradualOutcome (ieeeOverflowAt E F) (ieeeMin E) (uro F) (halfDenorm E F)

theorem sumG_outcome (hE : 2 ≤ E) (hF : 1 ≤ F) {p q : ℚ} {d : Datum} (h : IeeeSum E F (.num p) (.num q) d) : SoftOutcome E F (p + q) d := by
  change if p + q = 0 then _ else _ at h
  by_cases h0 : p + q = 0
  · rw [if_pos h0] at h
    rw [h0, h]
    have o : 0 < ieeeOverflowAt E F := mul_pos (two_zpow_pos (bias E + 1)) (overflow_pos hF)
    refine ⟨by simp, ?_, ?_, by simp, by simp, by simp, by simp, by simp⟩
    · rw [abs_zero]; simp only [reduceCtorEq, exists_false, false_iff, not_le]; exact o
    · rw [abs_zero]; simp only [Datum.zero.injEq, exists_eq', true_iff]; exact (halfDenorm_pos E F).le
  · rw [if_neg h0] at h
    exact roundedG_outcome hE hF h0 h

theorem halfDenorm_lt (E F : ℕ) : halfDenorm E F < 2 * 2 ^ (1 - bias E) := by
  have h1 : (2 : ℚ) ^ (leastExp E F - 1) ≤ 2 ^ (1 - bias E) := zpow_le_zpow_right₀ (by norm_num) (by unfold leastExp; omega)
  have := two_zpow_pos (1 - bias E)
  unfold halfDenorm
  linarith

theorem word_num_ne {w : ℕ} {v : ℚ} (h : wordDatum E F w = .num v) : v ≠ 0 := by
  unfold wordDatum ieeeDenote at h
  have sg : ∀ c : Prop, [Decidable c] → (if c then (-1 : ℚ) else 1) ≠ 0 := by intro c _; split_ifs <;> norm_num
  by_cases h1 : w / 2 ^ F % 2 ^ E = 0
  · rw [if_pos h1] at h
    by_cases h2 : w % 2 ^ F = 0
    · rw [if_pos h2] at h; cases h
    · rw [if_neg h2] at h
      injection h with h
      rw [← h]
      exact mul_ne_zero (sg _) (mul_ne_zero (by exact_mod_cast h2) (two_zpow_pos _).ne')
  · rw [if_neg h1] at h
    by_cases h2 : w / 2 ^ F % 2 ^ E = 2 ^ E - 1
    · rw [if_pos h2] at h; split_ifs at h
    · rw [if_neg h2] at h
      injection h with h
      rw [← h]
      exact mul_ne_zero (sg _) (mul_ne_zero (by positivity) (two_zpow_pos _).ne')

/-- **C101, software single precision.** -/
theorem C101_soft32 {fast a b : ℕ} (hfast : 32 ≤ fast) (ha : a < 2 ^ 32) (hb : b < 2 ^ 32) {p q : ℚ} (hp : wordDatum 8 23 a = .num p)
    (hq : wordDatum 8 23 b = .num q) :
    (∃ z, f32Add fast a b = some z ∧ SoftOutcome 8 23 (p + q) (wordDatum 8 23 z)) ∧
    (∃ z, f32Mul fast a b = some z ∧ SoftOutcome 8 23 (p * q) (wordDatum 8 23 z)) ∧
    (∃ z, f32Div fast a b = some z ∧ SoftOutcome 8 23 (p / q) (wordDatum 8 23 z)) := by
  have p0 : p ≠ 0 := word_num_ne hp
  have q0 : q ≠ 0 := word_num_ne hq
  obtain ⟨z1, h1, -, k1⟩ := C61_soft_add32 hfast ha hb
  obtain ⟨z2, h2, -, k2⟩ := C62_soft_mul32 hfast ha hb
  obtain ⟨z3, h3, -, k3⟩ := C63_soft_div32 hfast ha hb
  rw [hp, hq] at k1 k2 k3
  exact ⟨⟨z1, h1, sumG_outcome (by norm_num) (by norm_num) k1⟩,
    ⟨z2, h2, roundedG_outcome (by norm_num) (by norm_num) (mul_ne_zero p0 q0) k2⟩,
    ⟨z3, h3, roundedG_outcome (by norm_num) (by norm_num) (div_ne_zero p0 q0) k3⟩⟩

/-- **C101, software double precision.** -/
theorem C101_soft64 {fast a b : ℕ} (hfast : 64 ≤ fast) (ha : a < 2 ^ 64) (hb : b < 2 ^ 64) {p q : ℚ} (hp : wordDatum 11 52 a = .num p)
    (hq : wordDatum 11 52 b = .num q) :
    (∃ z, f64Add fast a b = some z ∧ SoftOutcome 11 52 (p + q) (wordDatum 11 52 z)) ∧
    (∃ z, f64Mul fast a b = some z ∧ SoftOutcome 11 52 (p * q) (wordDatum 11 52 z)) ∧
    (∃ z, f64Div fast a b = some z ∧ SoftOutcome 11 52 (p / q) (wordDatum 11 52 z)) := by
  have p0 : p ≠ 0 := word_num_ne hp
  have q0 : q ≠ 0 := word_num_ne hq
  obtain ⟨z1, h1, -, k1⟩ := C61_soft_add64 hfast ha hb
  obtain ⟨z2, h2, -, k2⟩ := C62_soft_mul64 hfast ha hb
  obtain ⟨z3, h3, -, k3⟩ := C63_soft_div64 hfast ha hb
  rw [hp, hq] at k1 k2 k3
  exact ⟨⟨z1, h1, sumG_outcome (by norm_num) (by norm_num) k1⟩,
    ⟨z2, h2, roundedG_outcome (by norm_num) (by norm_num) (mul_ne_zero p0 q0) k2⟩,
    ⟨z3, h3, roundedG_outcome (by norm_num) (by norm_num) (div_ne_zero p0 q0) k3⟩⟩

/-- **C101.** With gradual underflow a sum of numbers is zero only if it is exactly zero. -/
theorem C101_soft_sum_zero_iff32 {fast a b z : ℕ} (hfast : 32 ≤ fast) (ha : a < 2 ^ 32) (hb : b < 2 ^ 32) {p q : ℚ}
    (hp : wordDatum 8 23 a = .num p) (hq : wordDatum 8 23 b = .num q) (hz : f32Add fast a b = some z) :
    (∃ s, wordDatum 8 23 z = .zero s) ↔ p + q = 0 := by
  obtain ⟨z', hz', o⟩ := (C101_soft32 hfast ha hb hp hq).1
  obtain rfl : z' = z := Option.some.inj (hz'.symm.trans hz)
  constructor
  · rintro ⟨s, hs⟩
    have h1 := o.underflow.1 ⟨s, hs⟩
    have h2 := C65_soft_tiny_sum_exact32 hfast ha hb hp hq (lt_of_le_of_lt h1 (halfDenorm_lt _ _)) hz
    rw [hs] at h2
    split_ifs at h2 with h0
    exact h0
  · intro h0
    rw [o.underflow, h0, abs_zero]
    exact (halfDenorm_pos 8 23).le

/-- **C101.** The same in double precision. -/
theorem C101_soft_sum_zero_iff64 {fast a b z : ℕ} (hfast : 64 ≤ fast) (ha : a < 2 ^ 64) (hb : b < 2 ^ 64) {p q : ℚ}
    (hp : wordDatum 11 52 a = .num p) (hq : wordDatum 11 52 b = .num q) (hz : f64Add fast a b = some z) :
    (∃ s, wordDatum 11 52 z = .zero s) ↔ p + q = 0 := by
  obtain ⟨z', hz', o⟩ := (C101_soft64 hfast ha hb hp hq).1
  obtain rfl : z' = z := Option.some.inj (hz'.symm.trans hz)
  constructor
  · rintro ⟨s, hs⟩
    have h1 := o.underflow.1 ⟨s, hs⟩
    have h2 := C65_soft_tiny_sum_exact64 hfast ha hb hp hq (lt_of_le_of_lt h1 (halfDenorm_lt _ _)) hz
    rw [hs] at h2
    split_ifs at h2 with h0
    exact h0
  · intro h0
    rw [o.underflow, h0, abs_zero]
    exact (halfDenorm_pos 11 52).le

/-- Half the least denormal of single precision is rounded to zero, three quarters of it are not; the greatest number plus half a unit in the
last place overflows. -/
example : f32Mul 64 0x00000001 0x3F000000 = some 0 ∧ f32Mul 64 0x00000001 0x3F400000 = some 1 ∧
    f32Add 64 0x7F7FFFFF 0x73000000 = some 0x7F800000 ∧ f32Add 64 0x7F7FFFFF 0x72FFFFFF = some 0x7F7FFFFF ∧
    wordDatum 8 23 0x00000001 = .num (2 ^ (-149 : ℤ)) := by
  refine ⟨by decide +kernel, by decide +kernel, by decide +kernel, by decide +kernel, ?_⟩
  norm_num [wordDatum, ieeeDenote, bias]

end Thls
