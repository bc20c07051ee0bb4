import Verif.Proofs.DivBack
import Verif.Props.Narrow
import Verif.Props.IntegerOps
import Verif.Props.IeeeOps
import Verif.Props.SoftAgree
import Verif.Props.Scaling
import Verif.Props.ThresholdsIeee
import Verif.Proofs.SoftExact
import Verif.Props.SoftFloat

/-! # Property C102: dividing by a sum of two powers of two and multiplying back

The divisor is a number of the format of the form `±(2^i + 2^j)`: ±2, ±3, ±4, ±5, ±6, ±8, ±9, ±10, …, ±1.5, ±0.75, …. The dividend is a
number of the format whose last bit is not used: `n * 2^k` with `|n| < 2^F`, for instance any integer below `2^F`. -/

namespace Thls
open Spec

variable {E F : ℕ}

/-- `v` is the sum of two powers of two, or its negation. -/
def TwoPowers (v : ℚ) : Prop := ∃ i j : ℤ, |v| = 2 ^ i + 2 ^ j

/-- `v` is an integer of fewer than `F+1` bits times a power of two. -/
def LastBitFree (F : ℕ) (v : ℚ) : Prop := ∃ n k : ℤ, |n| < 2 ^ F ∧ v = n * 2 ^ k

theorem back_sign {x y : ℚ} {w : ℚ} (hy : y ≠ 0) (hw : 0 < w) : ((if x / y < 0 then (-1 : ℚ) else 1) * w * y < 0 ↔ x < 0) ∨ x = 0 := by
  by_cases h0 : x = 0
  · exact Or.inr h0
  left
  rcases lt_or_gt_of_ne hy with h | h <;> rcases lt_or_gt_of_ne h0 with g | g
  · have h1 : ¬ x / y < 0 := not_lt.mpr (div_nonneg_of_nonpos g.le h.le)
    rw [if_neg h1, one_mul]
    exact ⟨fun _ => g, fun _ => mul_neg_of_pos_of_neg hw h⟩
  · have h1 : x / y < 0 := div_neg_of_pos_of_neg g h
    rw [if_pos h1]
    refine ⟨fun h2 => ?_, fun h2 => absurd h2 (not_lt.mpr g.le)⟩
    have := mul_pos_of_neg_of_neg (show -1 * w < 0 by linarith) h
    linarith
  · have h1 : x / y < 0 := div_neg_of_neg_of_pos g h
    rw [if_pos h1]
    exact ⟨fun _ => g, fun _ => mul_neg_of_neg_of_pos (by linarith) h⟩
  · have h1 : ¬ x / y < 0 := not_lt.mpr (div_pos g h).le
    rw [if_neg h1, one_mul]
    refine ⟨fun h2 => ?_, fun h2 => absurd h2 (not_lt.mpr g.le)⟩
    have := mul_pos hw h
    linarith

/-- The quotient `q` with unbounded exponent: the product `q * y` rounds to the significand of `x`, with the sign of `x`. -/
theorem back_core {A m B : ℕ} {s t e : ℤ} {x y : ℚ} (hF : 1 ≤ F) (hA : IsSig (F + 1) A) (hx : |x| = A * 2 ^ s) (hl : LastBitFree F x)
    (hB : IsSig (F + 1) B) (hyB : |y| = B * 2 ^ t) (hy : TwoPowers y) (hn : NearestEven (F + 1) |x / y| m e) :
    NearestEven (F + 1) |(if x / y < 0 then (-1 : ℚ) else 1) * ((m : ℚ) * 2 ^ e) * y| A s ∧
      ((if x / y < 0 then (-1 : ℚ) else 1) * ((m : ℚ) * 2 ^ e) * y < 0 ↔ x < 0) := by
  obtain ⟨n, k, hn1, hn2⟩ := hl
  obtain ⟨i, j, hij⟩ := hy
  have hw : 0 < (m : ℚ) * 2 ^ e := by
    have := sig_lower hn.1 e
    have := two_zpow_pos (e + F)
    linarith
  have hy0 : y ≠ 0 := by
    rintro rfl
    rw [abs_zero] at hij
    have := two_zpow_pos i
    have := two_zpow_pos j
    linarith
  have hx0 : x ≠ 0 := by
    rintro rfl
    rw [abs_zero] at hx
    have := sig_lower hA s
    have := two_zpow_pos (s + F)
    linarith
  constructor
  · have h1 : |(if x / y < 0 then (-1 : ℚ) else 1) * ((m : ℚ) * 2 ^ e) * y| = (m : ℚ) * 2 ^ e * |y| := by
      rw [abs_mul, abs_mul, abs_of_pos hw]
      split <;> simp
    rw [h1]
    exact back_magnitude hF hA hx hn1 hn2 hB hyB hij hn
  · exact (back_sign hy0 hw).resolve_right hx0

theorem rangeCheck_num {m : ℕ} {e : ℤ} {b : Bool} {q : ℚ} (h : rangeCheck E F b m e = .num q) : q = (if b then -1 else 1) * ((m : ℚ) * 2 ^ e) := by
  unfold rangeCheck at h
  split_ifs at h with h1 h2 h3 <;> injection h with h <;> rw [← h]
  · rw [if_pos h3]
  · rw [if_neg h3]

/-- **C102.** If the rounded quotient `x / y` is a number (it neither overflows nor underflows), multiplying it by `y` gives `x` again. -/
theorem C102_divide_multiply_back (hE : 2 ≤ E) (hF : 1 ≤ F) (x y : Fp E F) (vx vy : ℚ) (hx : x.datum = .num vx) (hy : y.datum = .num vy)
    (hl : LastBitFree F vx) (ht : TwoPowers vy) {vq : ℚ} (hq : (divV1 E F x y).datum = .num vq) :
    ∃ r : Fp E F, mulV1 E F (divV1 E F x y) y = some r ∧ r.datum = .num vx := by
  obtain ⟨r, hr⟩ := mulNarrow_total (E := E) (FR := F) (by omega) (by omega) (divV1 E F x y) y
  refine ⟨r, hr, ?_⟩
  have hx0 := num_ne_zero hx
  have hy0 := num_ne_zero hy
  have hq0 := num_ne_zero hq
  have h1 := div_fin hE hF x y (vx := vx) (vy := vy) (by rw [hx]; rfl) (by rw [hy]; rfl) hy0
  have h2 := mul_fin hE hF hF hF (by omega) (divV1 E F x y) y (a := vq) (b := vy) (by rw [hq]; rfl) (by rw [hy]; rfl) hr
  unfold Rounded0 at h1 h2
  rw [if_neg (div_ne_zero hx0 hy0)] at h1
  rw [if_neg (mul_ne_zero hq0 hy0)] at h2
  obtain ⟨A, s, hA, hxs⟩ := num_sig hF hx
  obtain ⟨B, t, hB, hyB⟩ := num_sig hF hy
  obtain ⟨m, e, hn, hd⟩ := h1
  rw [hq] at hd
  have hv := rangeCheck_num hd.symm
  simp only [decide_eq_true_eq] at hv
  obtain ⟨c1, c2⟩ := back_core hF hA hxs hl hB hyB ht hn
  rw [← hv] at c1 c2
  obtain ⟨m', e', hn', hd'⟩ := h2
  obtain ⟨rfl, rfl⟩ := nearest_unique (by omega) hn' c1
  obtain ⟨m'', e'', hn'', hd''⟩ := rounded_self hF (by omega) x vx hx
  obtain ⟨rfl, rfl⟩ := nearest_unique (by omega) hn'' (nearest_self (by omega) hA hxs)
  rw [hd', ← hx, hd'']
  congr 1
  exact decide_eq_decide.mpr c2

theorem ieeeRange_num {E : ℕ} {v q : ℚ} (h : ieeeRange E (.num v) = .num q) : v = q := by
  unfold ieeeRange at h
  dsimp only at h
  split_ifs at h
  injection h

/-- **C102, IEEE types.** The same for the operators `/` and `*` of the IEEE types. -/
theorem C102_ieee_divide_multiply_back (hE : 2 ≤ E) (hF : 1 ≤ F) (a b : Ieee E F) (va vb : ℚ) (ha : ieeeRange E a.datum = .num va)
    (hb : ieeeRange E b.datum = .num vb) (hl : LastBitFree F va) (ht : TwoPowers vb) {vq : ℚ} (hq : (IeeeOps.div a b).datum = .num vq) :
    ∃ r, IeeeOps.mul (IeeeOps.div a b) b = some r ∧ r.datum = .num va := by
  have h1 := C29_div hE hF a b va vb ha hb
  obtain ⟨m, e, hn, hd⟩ := h1
  rw [hq] at hd
  have hv := ieeeRange_num hd.symm
  obtain ⟨A, s, hA, hxs⟩ := num_sig hF (x := ieeeToFlopoco a) (v := va) (by rw [ieeeToFlopoco_datum (by omega) hF, ha])
  obtain ⟨B, t, hB, hyB⟩ := num_sig hF (x := ieeeToFlopoco b) (v := vb) (by rw [ieeeToFlopoco_datum (by omega) hF, hb])
  obtain ⟨c1, c2⟩ := back_core hF hA hxs hl hB hyB ht hn
  rw [hv] at c1 c2
  obtain ⟨r, hr, m', e', hn', hd'⟩ := C29_mul hE hF (IeeeOps.div a b) b vq vb (by rw [hq, hd, ieeeRange_idem]) hb
  refine ⟨r, hr, ?_⟩
  obtain ⟨rfl, rfl⟩ := nearest_unique (by omega) hn' c1
  rw [hd', ← hxs, if_congr c2 rfl rfl]
  have : (if va < 0 then (-1 : ℚ) else 1) * |va| = va := by
    split
    · rename_i h; rw [abs_of_neg h]; ring
    · rename_i h; rw [abs_of_nonneg (not_lt.mp h)]; ring
  rw [this, ← ha, ieeeRange_idem]

/-- Gradual underflow: numbers of the format, the exact quotient and the dividend not below the least normal number. -/
theorem back_gradual {A B : ℕ} {s t : ℤ} {x y q : ℚ} (hF : 1 ≤ F) (hx0 : x ≠ 0) (hA : IsSig (F + 1) A) (hx : |x| = A * 2 ^ s) (hl : LastBitFree F x)
    (hB : IsSig (F + 1) B) (hyB : |y| = B * 2 ^ t) (hy0 : y ≠ 0) (hy : TwoPowers y) (hmin : ieeeMin E ≤ |x|) (hlim : |x| < ieeeLimit E)
    (hqm : ieeeMin E ≤ |x / y|) (hq : RoundedGradual E F (x / y) (.num q)) : q * y ≠ 0 ∧ RoundedGradual E F (q * y) (.num x) := by
  obtain ⟨d, hd⟩ := ieeeRounded_exists (E := E) hF (div_ne_zero hx0 hy0)
  have hd' : d = .num q := by
    rcases rounded_gradual_or (div_ne_zero hx0 hy0) hd with h | h
    · exact roundedG_unique hF h hq
    · exact absurd h.2 (not_lt.mpr hqm)
  obtain ⟨m, e, hn, hv⟩ := hd
  rw [hd'] at hv
  have hv := ieeeRange_num hv.symm
  obtain ⟨c1, c2⟩ := back_core hF hA hx hl hB hyB hy hn
  rw [hv] at c1 c2
  have hq0 : q * y ≠ 0 := by
    intro h0
    rw [h0] at c1 c2
    have hlow := sig_lower hA s
    have hp := two_zpow_pos (s + F)
    have h1 := c1.2.1 A (s - 1) hA
    rw [zpow_sub_one₀ (by norm_num), abs_zero, zero_sub, zero_sub, abs_neg, abs_neg, abs_of_pos (by linarith), abs_of_pos] at h1
    · linarith
    · rw [← mul_assoc]; linarith
  refine ⟨hq0, ?_⟩
  have hI : IeeeRounded E F (q * y) (.num x) := by
    refine ⟨A, s, c1, ?_⟩
    have : (if x < 0 then (-1 : ℚ) else 1) * |x| = x := by
      split
      · rename_i h; rw [abs_of_neg h]; ring
      · rename_i h; rw [abs_of_nonneg (not_lt.mp h)]; ring
    rw [← hx, if_congr c2 rfl rfl, this]
    unfold ieeeRange
    dsimp only
    rw [if_neg (not_lt.mpr hmin), if_neg (not_le.mpr hlim)]
  rcases rounded_gradual_or hq0 hI with h | h
  · exact h
  · cases h.1

theorem word_sig {f : SoftFmt} (ok : f.Ok) {w : ℕ} (hw : w < 2 ^ f.W) {v : ℚ} (hv : wordDatum f.E f.F w = .num v) :
    v ≠ 0 ∧ |v| < ieeeLimit f.E ∧ ∃ (m : ℕ) (e : ℤ), IsSig (f.F + 1) m ∧ |v| = m * 2 ^ e := by
  have h0 := SoftFmt.num_word_ne ok hw hv
  obtain ⟨n, t, h1, h2, h3⟩ := SoftFmt.num_form ok hw hv
  refine ⟨h0, h3, ?_⟩
  have hn : n.natAbs ≠ 0 := by
    intro h
    rw [Int.natAbs_eq_zero.mp h] at h1
    exact h0 (by rw [h1]; simp)
  obtain ⟨m, e, h4, h5⟩ := gradual_sig (E := f.E) (F := f.F) (e := (t : ℤ) + leastExp f.E f.F) ⟨h2, by omega⟩ hn
  refine ⟨m, e, h4, ?_⟩
  rw [h5, h1, abs_mul, abs_of_pos (two_zpow_pos _), Nat.cast_natAbs]
  push_cast
  rfl

/-- **C102, host types.** The same for the SoftFloat operators behind the host float types, when the dividend and the exact quotient are not
below the least normal number and the rounded quotient is not an infinity. -/
theorem soft_back {f : SoftFmt} (ok : f.Ok) {prod : ℕ → ℕ → Option ℕ} (hp : SoftFmt.ProdOk f prod) {quot : ℕ → ℕ → Bool × ℕ} (hd : SoftFmt.QuotOk f quot)
    {a b : ℕ} {x y : ℚ} (ha : a < 2 ^ f.W) (hb : b < 2 ^ f.W) (hx : wordDatum f.E f.F a = .num x) (hy : wordDatum f.E f.F b = .num y)
    (hl : LastBitFree f.F x) (ht : TwoPowers y) (hmin : ieeeMin f.E ≤ |x|) (hqm : ieeeMin f.E ≤ |x / y|) (hlim : |x / y| ≤ ieeeMax f.E f.F) :
    ∃ q, f.divWith quot a b = some q ∧ f.mulWith prod q b = some a := by
  obtain ⟨x0, xl, A, s, hA, hA'⟩ := word_sig ok ha hx
  obtain ⟨y0, -, B, t, hB, hB'⟩ := word_sig ok hb hy
  have hF : 1 ≤ f.F := by have := ok.hF; have := ok.hE; omega
  have hE : 2 ≤ f.E := by have := ok.hF; have := ok.hE; omega
  obtain ⟨q, h1, h2, h3⟩ := SoftFmt.div_ieee ok hd ha hb
  refine ⟨q, h1, ?_⟩
  rw [hx, hy] at h3
  change RoundedGradual f.E f.F (x / y) _ at h3
  obtain ⟨v, hv⟩ := roundedG_finite hE h3 hlim
  have hqv : wordDatum f.E f.F q = .num v := by
    cases dq : wordDatum f.E f.F q with
    | nan => rw [dq] at hv; cases hv
    | inf s => rw [dq] at hv; cases hv
    | num w => rw [dq] at hv; injection hv with hv; rw [hv]
    | zero s =>
      exfalso
      rw [dq] at h3
      have := roundedG_err_normal hqm h3 (s := 0) rfl
      rw [zero_sub, abs_neg] at this
      have hu : uro f.F < 1 := by
        unfold uro
        exact zpow_lt_one_of_neg₀ (by norm_num) (by omega)
      have hpos : 0 < |x / y| := abs_pos.mpr (div_ne_zero x0 y0)
      nlinarith
  rw [hqv] at h3
  obtain ⟨-, h4⟩ := back_gradual hF x0 hA hA' hl hB hB' y0 ht hmin xl hqm h3
  refine SoftFmt.mul_eq_of ok hp h2 hb ha (by rw [hx]; exact fun h => by cases h) ?_
  rw [hqv, hy, hx]
  exact h4

/-- **C102, `float32_t`.** -/
theorem C102_soft_divide_multiply_back32 {fast a b : ℕ} {x y : ℚ} (hfast : 32 ≤ fast) (ha : a < 2 ^ 32) (hb : b < 2 ^ 32)
    (hx : wordDatum 8 23 a = .num x) (hy : wordDatum 8 23 b = .num y) (hl : LastBitFree 23 x) (ht : TwoPowers y)
    (hmin : ieeeMin 8 ≤ |x|) (hqm : ieeeMin 8 ≤ |x / y|) (hlim : |x / y| ≤ ieeeMax 8 23) :
    ∃ q, f32Div fast a b = some q ∧ f32Mul fast q b = some a :=
  soft_back (soft32_ok hfast) (prodOk32 fast) (quotOk32 fast) ha hb hx hy hl ht hmin hqm hlim

/-- **C102, `float64_t`.** -/
theorem C102_soft_divide_multiply_back64 {fast a b : ℕ} {x y : ℚ} (hfast : 64 ≤ fast) (ha : a < 2 ^ 64) (hb : b < 2 ^ 64)
    (hx : wordDatum 11 52 a = .num x) (hy : wordDatum 11 52 b = .num y) (hl : LastBitFree 52 x) (ht : TwoPowers y)
    (hmin : ieeeMin 11 ≤ |x|) (hqm : ieeeMin 11 ≤ |x / y|) (hlim : |x / y| ≤ ieeeMax 11 52) :
    ∃ q, f64Div fast a b = some q ∧ f64Mul fast q b = some a :=
  soft_back (soft64_ok hfast) (prodOk64 fast) (quotOk64 fast) ha hb hx hy hl ht hmin hqm hlim

/-! ## The hypotheses are met, and are needed -/

/-- Dividing the word of `n` in `fp_flopoco<8,23>` by that of `d` and multiplying back gives the word again. -/
def backGood (x y : Fp 8 23) : Bool := (mulV1 8 23 (divV1 8 23 x y) y).any fun r => r.bits == x.bits

/-- `10000000 / 3 * 3 = 10000000`, `1 / 3 * 3 = 1`, `-7 / 10 * 10 = -7`. -/
example : backGood (Fp.mk4 8 23 1 0 150 (10000000 - 2 ^ 23)) (Fp.mk4 8 23 1 0 128 (2 ^ 22)) = true ∧
    backGood (Fp.mk4 8 23 1 0 127 0) (Fp.mk4 8 23 1 0 128 (2 ^ 22)) = true ∧
    backGood (Fp.mk4 8 23 1 1 129 (6 * 2 ^ 20)) (Fp.mk4 8 23 1 0 130 (2 ^ 21)) = true := by decide +kernel

example : TwoPowers 3 ∧ TwoPowers (-10) ∧ TwoPowers 2 ∧ TwoPowers (3 / 4) :=
  ⟨⟨0, 1, by norm_num⟩, ⟨3, 1, by norm_num⟩, ⟨0, 0, by norm_num⟩, ⟨-1, -2, by norm_num [abs_of_pos]⟩⟩

example : LastBitFree 23 8388607 ∧ LastBitFree 23 16777214 := ⟨⟨8388607, 0, by norm_num, by norm_num⟩, ⟨8388607, 1, by norm_num, by norm_num⟩⟩

/-- **C102, the last bit.** With the last bit used the claim is false: `14819003 / 3 * 3` is `14819002`. -/
theorem C102_last_bit_needed : ∃ x y : Fp 8 23, x.datum = .num 14819003 ∧ y.datum = .num 3 ∧
    ∃ r : Fp 8 23, mulV1 8 23 (divV1 8 23 x y) y = some r ∧ r.datum = .num 14819002 := by
  refine ⟨Fp.mk4 8 23 1 0 150 6430395, Fp.mk4 8 23 1 0 128 4194304, ?_, ?_, Fp.mk4 8 23 1 0 150 6430394, by decide +kernel, ?_⟩ <;>
    rw [mk4_num (by decide) (by decide) (by decide) (by decide)] <;> norm_num [bias]

/-- **C102, the divisor.** For another divisor the claim is false: `16196062 / 7 * 7` is `16196063`. -/
theorem C102_two_powers_needed : ∃ x y : Fp 8 23, x.datum = .num 16196062 ∧ y.datum = .num 7 ∧ LastBitFree 23 16196062 ∧
    ∃ r : Fp 8 23, mulV1 8 23 (divV1 8 23 x y) y = some r ∧ r.datum = .num 16196063 := by
  refine ⟨Fp.mk4 8 23 1 0 150 7807454, Fp.mk4 8 23 1 0 129 6291456, ?_, ?_, ⟨8098031, 1, by norm_num, by norm_num⟩,
    Fp.mk4 8 23 1 0 150 7807455, by decide +kernel, ?_⟩ <;>
    rw [mk4_num (by decide) (by decide) (by decide) (by decide)] <;> norm_num [bias]

end Thls
