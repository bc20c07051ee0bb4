import Verif.Props.IntegerOps

/-! # Property C100: scaling by powers of two commutes with the operations

The biased exponent of a number `v` is in range when `2^(-bias) ≤ |v| < 2^(2^E - bias)`. -/

namespace Thls
open Spec

variable {E F : ℕ}

/-- The magnitude is in the range of the ordinary numbers of the format. -/
def InRange (E : ℕ) (v : ℚ) : Prop := (2 : ℚ) ^ (-bias E) ≤ |v| ∧ |v| < 2 ^ ((2 : ℤ) ^ E - bias E)

theorem nearest_scale {p m : ℕ} {e : ℤ} {x : ℚ} (j : ℤ) (h : NearestEven p x m e) : NearestEven p (x * 2 ^ j) m (e + j) := by
  have hj := two_zpow_pos j
  have key : ∀ (n : ℕ) (i : ℤ), |x * 2 ^ j - n * 2 ^ (i + j)| = |x - n * 2 ^ i| * 2 ^ j := by
    intro n i
    rw [zpow_add₀ (by norm_num), ← mul_assoc, ← sub_mul, abs_mul, abs_of_pos hj]
  have key2 : ∀ (n : ℕ) (i : ℤ), |x * 2 ^ j - n * 2 ^ i| = |x - n * 2 ^ (i - j)| * 2 ^ j := by
    intro n i
    rw [← key, sub_add_cancel]
  obtain ⟨h1, h2, h3⟩ := h
  refine ⟨h1, fun n i hn => ?_, fun n i hn he hne => ?_⟩
  · rw [key, key2]
    exact mul_le_mul_of_nonneg_right (h2 n (i - j) hn) hj.le
  · rw [key, key2] at he
    refine h3 n (i - j) hn (mul_right_cancel₀ hj.ne' he) fun hc => hne ?_
    rw [zpow_add₀ (by norm_num), ← mul_assoc, ← hc, mul_assoc, ← zpow_add₀ (by norm_num), sub_add_cancel]

/-- Roundings of a number and of its multiple by `2^j`. -/
theorem rounded_scale {q v : ℚ} {d : Datum} (j : ℤ) (h : Rounded E F q (.num v)) (h' : Rounded E F (q * 2 ^ j) d) (hr : InRange E (v * 2 ^ j)) :
    d = .num (v * 2 ^ j) := by
  have hj := two_zpow_pos j
  obtain ⟨m, e, hn, hd⟩ := h
  have hn' : NearestEven (F + 1) |q * 2 ^ j| m (e + j) := by
    rw [abs_mul, abs_of_pos hj]; exact nearest_scale j hn
  have hs : decide (q * 2 ^ j < 0) = decide (q < 0) :=
    decide_eq_decide.mpr ⟨fun h => by by_contra hc; exact not_lt.mpr (mul_nonneg (not_lt.mp hc) hj.le) h, fun h => mul_neg_of_neg_of_pos h hj⟩
  have hd' := rounded_unique h' ⟨m, e + j, hn', rfl⟩
  have hv : v = (if decide (q < 0) then -1 else 1) * ((m : ℚ) * 2 ^ e) := by
    unfold rangeCheck at hd
    split_ifs at hd <;> simp_all
  have habs : |v * 2 ^ j| = m * 2 ^ (e + j) := by
    rw [hv, abs_mul, abs_mul, abs_of_pos hj, abs_of_nonneg (show (0 : ℚ) ≤ m * 2 ^ e by positivity), zpow_add₀ (by norm_num)]
    split_ifs <;> simp <;> ring
  obtain ⟨r1, r2⟩ := hr
  rw [habs] at r1 r2
  rw [sig_ge_iff hn.1] at r1
  rw [← not_le, sig_ge_iff hn.1] at r2
  rw [hd', hs]
  unfold rangeCheck
  rw [if_neg (by omega), if_neg (by omega), hv, zpow_add₀ (by norm_num)]
  congr 1; ring

theorem rounded0_scale {q v : ℚ} {d d' : Datum} (j : ℤ) (h : Rounded0 E F q d) (h' : Rounded0 E F (q * 2 ^ j) d') (hd : d = .num v)
    (hr : InRange E (v * 2 ^ j)) : d' = .num (v * 2 ^ j) := by
  have hj := two_zpow_pos j
  unfold Rounded0 at h h'
  by_cases hq : q = 0
  · rw [if_pos hq] at h; obtain ⟨s, hs⟩ := h; rw [hs] at hd; cases hd
  · rw [if_neg hq] at h
    rw [if_neg (mul_ne_zero hq hj.ne')] at h'
    rw [hd] at h
    exact rounded_scale j h h' hr

/-- **C100, sums.** Multiply both operands by `2^j`: the sum is multiplied by `2^j` too, unless it leaves the range of the format. -/
theorem C100_add (hA : AdderFormat E F) (j : ℤ) (x y x' y' : Fp E F) (vx vy : ℚ) (hx : x.datum.fin = some vx) (hy : y.datum.fin = some vy)
    (hx' : x'.datum.fin = some (vx * 2 ^ j)) (hy' : y'.datum.fin = some (vy * 2 ^ j)) :
    ∃ r r', AddDual.addSame x y = some r ∧ AddDual.addSame x' y' = some r' ∧
      ∀ v, r.datum = .num v → InRange E (v * 2 ^ j) → r'.datum = .num (v * 2 ^ j) := by
  obtain ⟨r, hr, h⟩ := adder_fin hA hx hy
  obtain ⟨r', hr', h'⟩ := adder_fin hA hx' hy'
  rw [← add_mul] at h'
  exact ⟨r, r', hr, hr', fun v hv hR => rounded0_scale j h h' hv hR⟩

theorem clamp_scale (j : ℤ) {a b : ℚ} : ClampCase F (a * 2 ^ j) (b * 2 ^ j) ↔ ClampCase F a b := by
  have hj := two_zpow_pos j
  have e : ∀ i : ℤ, (2 : ℚ) ^ (i + j) = 2 ^ i * 2 ^ j := fun i => zpow_add₀ (by norm_num) _ _
  unfold ClampCase
  have h1 : a * 2 ^ j * (b * 2 ^ j) < 0 ↔ a * b < 0 := by
    rw [show a * 2 ^ j * (b * 2 ^ j) = (a * b) * (2 ^ j * 2 ^ j) by ring]
    have := mul_pos hj hj
    exact ⟨fun h => by by_contra hc; exact not_lt.mpr (mul_nonneg (not_lt.mp hc) this.le) h, fun h => mul_neg_of_neg_of_pos h this⟩
  rw [h1]
  refine and_congr_right fun _ => ⟨?_, ?_⟩
  · rintro ⟨k, h2, h3, h4⟩
    rw [abs_mul, abs_of_pos hj] at h2 h3 h4
    refine ⟨k - j, mul_right_cancel₀ hj.ne' ?_, lt_of_mul_lt_mul_right ?_ hj.le, lt_of_mul_lt_mul_right ?_ hj.le⟩
    · rw [h2, ← e]; congr 1; ring
    · rw [← e, show k - j - (F : ℤ) - 2 + j = k - F - 2 by ring]; exact h3
    · rw [← e, show k - j - (F : ℤ) - 1 + j = k - F - 1 by ring]; exact h4
  · rintro ⟨k, h2, h3, h4⟩
    refine ⟨k + j, ?_, ?_, ?_⟩ <;> rw [abs_mul, abs_of_pos hj]
    · rw [h2, e]
    · rw [show k + j - F - 2 = (k - F - 2) + j by ring, e]; exact mul_lt_mul_of_pos_right h3 hj
    · rw [show k + j - F - 1 = (k - F - 1) + j by ring, e]; exact mul_lt_mul_of_pos_right h4 hj

/-- **C100, sums, the single-path adder.** The same holds of `add_single`, wrongly rounded sums (C15) included. -/
theorem C100_add_single (hE : 2 ≤ E) (hF : 1 ≤ F) (h1 : F + 3 < 2 ^ E) (h2 : F + 3 ≠ 2 ^ (E - 1)) (j : ℤ) (x y x' y' : Fp E F) (vx vy : ℚ)
    (hx : x.datum.fin = some vx) (hy : y.datum.fin = some vy) (hx' : x'.datum.fin = some (vx * 2 ^ j)) (hy' : y'.datum.fin = some (vy * 2 ^ j)) :
    ∃ r r', AddSingle.addSame x y = some r ∧ AddSingle.addSame x' y' = some r' ∧
      ∀ v, r.datum = .num v → InRange E (v * 2 ^ j) → r'.datum = .num (v * 2 ^ j) := by
  obtain ⟨r, hr⟩ := (single_adder hE hF h1 h2).total x y
  obtain ⟨r', hr'⟩ := (single_adder hE hF h1 h2).total x' y'
  obtain ⟨h, he, hR⟩ := single_effective (AddSingle.lzoc_normalises _) hE hF h1 h2 (hr ▸ AddSingle.addSame_orders (by omega) hF x y) hx hy
  obtain ⟨h', he', hR'⟩ := single_effective (AddSingle.lzoc_normalises _) hE hF h1 h2 (hr' ▸ AddSingle.addSame_orders (by omega) hF x' y') hx' hy'
  refine ⟨r, r', hr, hr', fun v hv hrange => ?_⟩
  have key : h' = h * 2 ^ j := by
    unfold EffectiveSum at he he'
    rw [clamp_scale, clamp_scale] at he'
    have hexcl : ClampCase F vx vy → ¬ ClampCase F vy vx := by
      rintro ⟨-, k, a1, -, a3⟩ ⟨-, i, b1, -, b3⟩
      rw [b1] at a3; rw [a1] at b3
      have := (zpow_lt_zpow_iff_right₀ (a := (2 : ℚ)) (by norm_num)).mp a3
      have := (zpow_lt_zpow_iff_right₀ (a := (2 : ℚ)) (by norm_num)).mp b3
      omega
    rcases he with ⟨c1, c2, rfl⟩ | ⟨c1, c2, rfl⟩ | ⟨c1, c2, rfl⟩ <;> rcases he' with ⟨d1, d2, rfl⟩ | ⟨d1, d2, rfl⟩ | ⟨d1, d2, rfl⟩
    · ring
    · exact absurd d2 (hexcl c2)
    · exact absurd ⟨c1, c2⟩ d1
    · exact absurd c2 (hexcl d2)
    · ring
    · exact absurd ⟨c1, c2⟩ d2
    · exact absurd ⟨d1, d2⟩ c1
    · exact absurd ⟨d1, d2⟩ c2
    · ring
  rw [key] at hR'
  exact rounded0_scale j hR hR' hv hrange

/-- **C100, products.** Multiply the operands by `2^i` and `2^j`: the product is multiplied by `2^(i+j)`, unless it leaves the range. -/
theorem C100_mul {FR FX FY : ℕ} (hE : 2 ≤ E) (hR : 1 ≤ FR) (hX : 1 ≤ FX) (hY : 1 ≤ FY) (hpath : FR ≤ FX + FY) (i j : ℤ) (x x' : Fp E FX)
    (y y' : Fp E FY) (vx vy : ℚ) (hx : x.datum.fin = some vx) (hy : y.datum.fin = some vy) (hx' : x'.datum.fin = some (vx * 2 ^ i))
    (hy' : y'.datum.fin = some (vy * 2 ^ j)) :
    ∃ r r' : Fp E FR, mulV1 E FR x y = some r ∧ mulV1 E FR x' y' = some r' ∧
      ∀ v, r.datum = .num v → InRange E (v * 2 ^ (i + j)) → r'.datum = .num (v * 2 ^ (i + j)) := by
  obtain ⟨r, hr⟩ := mulNarrow_total (FR := FR) (by omega) hpath x y
  obtain ⟨r', hr'⟩ := mulNarrow_total (FR := FR) (by omega) hpath x' y'
  have h := mul_fin hE hR hX hY hpath x y hx hy hr
  have h' := mul_fin hE hR hX hY hpath x' y' hx' hy' hr'
  rw [show vx * 2 ^ i * (vy * 2 ^ j) = vx * vy * 2 ^ (i + j) by rw [zpow_add₀ (by norm_num)]; ring] at h'
  exact ⟨r, r', hr, hr', fun v hv hR => rounded0_scale _ h h' hv hR⟩

theorem fin_num {x : Fp E F} {v : ℚ} (hx : x.datum.fin = some v) (hv : v ≠ 0) : x.datum = .num v := by
  revert hx
  rcases x.datum with _ | s | s | w <;> simp only [Datum.fin, Option.some.injEq, reduceCtorEq, false_imp_iff]
  · exact fun h => absurd h.symm hv
  · rintro rfl; rfl

theorem div_fin (hE : 2 ≤ E) (hF : 1 ≤ F) (x y : Fp E F) {vx vy : ℚ} (hx : x.datum.fin = some vx) (hy : y.datum.fin = some vy) (hn : vy ≠ 0) :
    Rounded0 E F (vx / vy) (divV1 E F x y).datum := by
  have hyn := fin_num hy hn
  unfold Rounded0
  cases dx : x.datum with
  | nan => rw [dx] at hx; cases hx
  | inf s => rw [dx] at hx; cases hx
  | zero s =>
    rw [dx] at hx; injection hx with hx
    rw [if_pos (by rw [← hx, zero_div])]
    exact ⟨_, C22_div_exceptions (by omega) hF (by omega) hF ⟨le_rfl, le_rfl⟩ ⟨le_rfl, le_rfl⟩ x y _ (by rw [dx, hyn]; rfl)⟩
  | num v =>
    rw [dx] at hx; injection hx with hx
    rw [if_neg (div_ne_zero (by rw [← hx]; exact num_ne_zero dx) hn), ← hx]
    exact C20_div_correctly_rounded hE (by omega) hF (by omega) hF ⟨le_rfl, le_rfl⟩ ⟨le_rfl, le_rfl⟩ x y v _ dx hyn

/-- **C100, quotients.** Multiply dividend and divisor by `2^i` and `2^j`: the quotient is multiplied by `2^(i-j)`, unless it leaves the range. -/
theorem C100_div (hE : 2 ≤ E) (hF : 1 ≤ F) (i j : ℤ) (x y x' y' : Fp E F) (vx vy : ℚ) (hx : x.datum.fin = some vx) (hy : y.datum.fin = some vy)
    (hn : vy ≠ 0) (hx' : x'.datum.fin = some (vx * 2 ^ i)) (hy' : y'.datum.fin = some (vy * 2 ^ j)) (v : ℚ) (hv : (divV1 E F x y).datum = .num v)
    (hR : InRange E (v * 2 ^ (i - j))) : (divV1 E F x' y').datum = .num (v * 2 ^ (i - j)) := by
  have hj := two_zpow_pos j
  have h := div_fin hE hF x y hx hy hn
  have h' := div_fin hE hF x' y' hx' hy' (mul_ne_zero hn hj.ne')
  rw [show vx * 2 ^ i / (vy * 2 ^ j) = vx / vy * 2 ^ (i - j) by rw [zpow_sub₀ (by norm_num)]; field_simp] at h'
  exact rounded0_scale _ h h' hv hR

/-- **C100, conversions.** Converting a number multiplied by `2^j` gives the converted number multiplied by `2^j`, unless it leaves the range. -/
theorem C100_convert {ER FR EX FX : ℕ} (hER : 1 ≤ ER) (hFR : 1 ≤ FR) (hEX : 1 ≤ EX) (hFX : 1 ≤ FX) (h : ER ≠ EX ∨ FX ≤ FR) (j : ℤ)
    (x x' : Fp EX FX) (vx : ℚ) (hx : x.datum.fin = some vx) (hx' : x'.datum.fin = some (vx * 2 ^ j)) (v : ℚ)
    (hv : (convert ER FR x).datum = .num v) (hR : InRange ER (v * 2 ^ j)) : (convert ER FR x').datum = .num (v * 2 ^ j) :=
  rounded0_scale j (convert_fin hER hFR hEX hFX h x hx) (convert_fin hER hFR hEX hFX h x' hx') hv hR

/-- **C100, fused multiply-add.** Multiply two factors by `2^i` and `2^j` and the addend by `2^(i+j)`: the result is multiplied by `2^(i+j)`, twice rounded
results (C31) included, unless it leaves the range. -/
theorem C100_fma (hE : 2 ≤ E) (hF : 1 ≤ F) (hok : DualFormat (E + 2) (2 * F + 2)) (hfmt : 2 * F + 2 ≤ 2 ^ (E + 3)) (i j : ℤ)
    (x y z x' y' z' : Fp E F) (vx vy vz : ℚ) (hx : x.datum = .num vx) (hy : y.datum = .num vy) (hz : z.datum = .num vz)
    (hx' : x'.datum = .num (vx * 2 ^ i)) (hy' : y'.datum = .num (vy * 2 ^ j)) (hz' : z'.datum = .num (vz * 2 ^ (i + j))) :
    ∃ r r' : Fp E F, fma E F x y z = some r ∧ fma E F x' y' z' = some r' ∧
      ∀ v, r.datum = .num v → InRange E (v * 2 ^ (i + j)) → r'.datum = .num (v * 2 ^ (i + j)) := by
  have hfE : fmaE E E E = E + 2 := by unfold fmaE; rw [if_pos (by simp)]; simp
  have hfF : fmaF F F F = 2 * F + 2 := by unfold fmaF; rw [max_eq_left (by omega)]; omega
  have hok' : DualFormat (fmaE E E E) (fmaF F F F) := by rw [hfE, hfF]; exact hok
  have hfmt' : fmaF F F F ≤ 2 ^ (fmaE E E E + 1) := by rw [hfE, hfF]; exact hfmt
  obtain ⟨s, hs, hsum⟩ := C31_fma_intermediate_partial (by omega) hF (by omega) hF (by omega) hF hok' hfmt' x y z vx vy vz hx hy hz
  obtain ⟨s', hs', hsum'⟩ := C31_fma_intermediate_partial (by omega) hF (by omega) hF (by omega) hF hok' hfmt' x' y' z' _ _ _ hx' hy' hz'
  refine ⟨convert E F s, convert E F s', by unfold fma; rw [hs]; rfl, by unfold fma; rw [hs']; rfl, fun v hv hR => ?_⟩
  have hj := two_zpow_pos (i + j)
  have hvv : vx * 2 ^ i * (vy * 2 ^ j) + vz * 2 ^ (i + j) = (vx * vy + vz) * 2 ^ (i + j) := by rw [zpow_add₀ (by norm_num)]; ring
  unfold AddsTo at hsum hsum'
  rw [hvv] at hsum'
  -- the sum is an ordinary number
  obtain ⟨w, hw⟩ : ∃ w, s.datum = .num w := by
    by_contra hc
    rw [C24_convert_special_partial (by omega) hF (by omega) (by omega) s (fun w hw => hc ⟨w, hw⟩) (fun h => absurd h (by omega))] at hv
    exact hc ⟨v, hv⟩
  have hq : vx * vy + vz ≠ 0 := by
    intro h; rw [if_pos h, hw] at hsum; cases hsum
  rw [if_neg hq, hw] at hsum
  rw [if_neg (mul_ne_zero hq hj.ne')] at hsum'
  have hc := convert_rounded (ER := E) (FR := F) (by omega) hF (by omega) (by omega) s w hw
  rw [hv] at hc
  -- its multiple is in the range of the intermediate format
  have hin : InRange (fmaE E E E) (w * 2 ^ (i + j)) := by
    obtain ⟨m, e, hn, hd⟩ := id hc
    have herr := nearest_err (abs_pos.mpr (num_ne_zero hw)) hn
    have hvm : |v| = m * 2 ^ e := by
      unfold rangeCheck at hd
      split_ifs at hd <;> injection hd with hd <;>
        rw [hd, abs_mul, abs_of_nonneg (show (0 : ℚ) ≤ m * 2 ^ e by positivity)] <;> simp
    have hur : uro F ≤ 1 / 4 := by
      unfold uro
      calc (2 : ℚ) ^ (-(F : ℤ) - 1) ≤ 2 ^ (-2 : ℤ) := zpow_le_zpow_right₀ (by norm_num) (by omega)
        _ = 1 / 4 := by norm_num
    rw [← hvm, abs_le] at herr
    have h2 : uro F * |w| ≤ 1 / 4 * |w| := mul_le_mul_of_nonneg_right hur (abs_nonneg _)
    have hw0 := abs_nonneg w
    have l1 : |v| ≤ 2 * |w| := by linarith [herr.2]
    have l2 : |w| ≤ 2 * |v| := by linarith [herr.1]
    obtain ⟨r1, r2⟩ := hR
    rw [abs_mul, abs_of_pos hj] at r1 r2
    have m1 := mul_le_mul_of_nonneg_right l1 hj.le
    have m2 := mul_le_mul_of_nonneg_right l2 hj.le
    have hp : (1 : ℤ) ≤ 2 ^ (E - 1) := one_le_pow₀ (by norm_num)
    have hb2 : bias (E + 2) = 4 * bias E + 3 := by
      unfold bias
      rw [show E + 2 - 1 = (E - 1) + 2 by omega, pow_add]; ring
    have hb1 : (2 : ℤ) ^ E = 2 * bias E + 2 := by
      unfold bias
      conv_lhs => rw [show E = (E - 1) + 1 by omega, pow_succ]
      ring
    have hb0 : 0 ≤ bias E := by unfold bias; omega
    unfold InRange
    rw [hfE, hb2, pow_add, hb1, abs_mul, abs_of_pos hj]
    constructor
    · have : (2 : ℚ) ^ (-(4 * bias E + 3)) ≤ 2 ^ (-bias E - 1) := zpow_le_zpow_right₀ (by norm_num) (by omega)
      have h3 : (2 : ℚ) ^ (-bias E - 1) = 2 ^ (-bias E) / 2 := by rw [zpow_sub₀ (by norm_num)]; norm_num
      linarith
    · have : (2 : ℚ) ^ ((2 : ℤ) ^ E - bias E + 1) ≤ 2 ^ ((2 * bias E + 2) * 2 ^ 2 - (4 * bias E + 3)) :=
        zpow_le_zpow_right₀ (by norm_num) (by omega)
      have h3 : (2 : ℚ) ^ ((2 : ℤ) ^ E - bias E + 1) = 2 ^ ((2 : ℤ) ^ E - bias E) * 2 := by rw [zpow_add₀ (by norm_num)]; norm_num
      linarith
  have hw' := rounded_scale (i + j) hsum hsum' hin
  exact rounded_scale (i + j) hc (convert_rounded (by omega) hF (by omega) (by omega) s' _ hw') hR

/-- **C100, multiplying by a power of two.** Multiplying by `±2^j` only changes the exponent and the sign: the product is exact unless it leaves the
range of the format, and dividing by `±2^j` likewise. -/
theorem C100_power_of_two (hE : 2 ≤ E) (hF : 1 ≤ F) (x p : Fp E F) (vx : ℚ) (hx : x.datum.fin = some vx) (s j : ℤ) (hs : s = 1 ∨ s = -1)
    (hp : p.datum = .num (s * 2 ^ j)) :
    (vx * 2 ^ j = 0 ∨ InRange E (vx * 2 ^ j) → ∃ r, mulV1 E F x p = some r ∧ r.datum.fin = some (s * (vx * 2 ^ j))) ∧
    (vx * 2 ^ (-j) = 0 ∨ InRange E (vx * 2 ^ (-j)) → (divV1 E F x p).datum.fin = some (s * (vx * 2 ^ (-j)))) := by
  have main : ∀ (i : ℤ) (d : Datum), Rounded0 E F (s * (vx * 2 ^ i)) d → vx * 2 ^ i = 0 ∨ InRange E (vx * 2 ^ i) →
      d.fin = some (s * (vx * 2 ^ i)) := by
    intro i d hd h
    have hi := two_zpow_pos i
    unfold Rounded0 at hd
    by_cases h0 : vx = 0
    · subst h0
      rw [if_pos (by simp)] at hd
      obtain ⟨t, rfl⟩ := hd
      simp [Datum.fin]
    · have hq : vx * 2 ^ i ≠ 0 := mul_ne_zero h0 hi.ne'
      replace h := h.resolve_left hq
      have hsq : (s : ℚ) * (vx * 2 ^ i) ≠ 0 := mul_ne_zero (by rcases hs with rfl | rfl <;> norm_num) hq
      rw [if_neg hsq] at hd
      -- `±vx` is a number of the format
      have hself : Rounded E F (s * vx) (.num (s * vx)) := by
        rcases hs with rfl | rfl
        · simpa using (fin_num hx h0) ▸ rounded_self hF (by omega) x vx (fin_num hx h0)
        · have hneg := C27_neg_datum (E := E) (by omega) hF x
          rw [fin_num hx h0] at hneg
          have := rounded_self hF (by omega) (negV1 E F x) (-vx) hneg
          rw [hneg] at this
          simpa [Datum.neg] using this
      have := rounded_scale i hself (d := d) (by rwa [mul_assoc]) (by
        rcases hs with rfl | rfl
        · simpa using h
        · unfold InRange at h ⊢; simpa [abs_mul] using h)
      rw [this, mul_assoc]; rfl
  have hsq : (s : ℚ) * s = 1 := by rcases hs with rfl | rfl <;> norm_num
  have hj := two_zpow_pos j
  constructor
  · intro h
    obtain ⟨r, hr⟩ := mulNarrow_total (FR := F) (by omega) (by omega) x p
    refine ⟨r, hr, main j _ ?_ h⟩
    have := mul_fin hE hF hF hF (by omega) x p hx (show p.datum.fin = some ((s : ℚ) * 2 ^ j) by rw [hp]; rfl) hr
    rwa [show vx * (s * 2 ^ j) = s * (vx * 2 ^ j) by ring] at this
  · intro h
    refine main (-j) _ ?_ h
    have := div_fin hE hF x p hx (show p.datum.fin = some ((s : ℚ) * 2 ^ j) by rw [hp]; rfl) (num_ne_zero hp)
    rwa [show vx / (s * 2 ^ j) = s * (vx * 2 ^ (-j)) by
      rw [zpow_neg]
      have hs0 : (s : ℚ) ≠ 0 := by rcases hs with rfl | rfl <;> norm_num
      field_simp
      linear_combination (-vx) * hsq] at this

/-- Format (5,2): `1.25 + 0.875 = 2.125` rounds to 2; a quarter of each gives a quarter of that. `1.75 * 1.75` rounds to 3, `-0.875 * 3.5` to `-3`. -/
example : AddDual.addSame (Fp.mk4 5 2 1 0 15 1) (Fp.mk4 5 2 1 0 14 3) = some (Fp.mk4 5 2 1 0 16 0) ∧
    AddDual.addSame (Fp.mk4 5 2 1 0 13 1) (Fp.mk4 5 2 1 0 12 3) = some (Fp.mk4 5 2 1 0 14 0) ∧
    mulV1 5 2 (Fp.mk4 5 2 1 0 15 3) (Fp.mk4 5 2 1 0 15 3) = some (Fp.mk4 5 2 1 0 16 2) ∧
    mulV1 5 2 (Fp.mk4 5 2 1 1 14 3) (Fp.mk4 5 2 1 0 16 3) = some (Fp.mk4 5 2 1 1 16 2) := by
  decide +kernel

/-- The hypotheses are met together: `1.25 + 0.875` scaled by a quarter, `1.75 / 1.25` scaled by `2` and by `8`, and a fused `1.5 * 1.5 - 2` scaled by `2 ^ 3`. -/
example : ∃ r r' : Fp 5 2, AddDual.addSame (Fp.mk4 5 2 1 0 15 1) (Fp.mk4 5 2 1 0 14 3) = some r ∧
    AddDual.addSame (Fp.mk4 5 2 1 0 13 1) (Fp.mk4 5 2 1 0 12 3) = some r' ∧
    ∀ v, r.datum = .num v → InRange 5 (v * 2 ^ (-2 : ℤ)) → r'.datum = .num (v * 2 ^ (-2 : ℤ)) := by
  refine C100_add ⟨by decide, by decide, ?_, by decide⟩ (-2) _ _ _ _ (5 / 4) (7 / 8) ?_ ?_ ?_ ?_
  · intro k hk
    have : k < 3 := (Nat.pow_lt_pow_iff_right (a := 2) (by decide)).1 (by omega)
    interval_cases k <;> simp at hk
  all_goals
    rw [mk4_num (by decide) (by decide) (by decide) (by decide)]
    norm_num [bias, Datum.fin]

example : (divV1 5 2 (Fp.mk4 5 2 1 0 16 3) (Fp.mk4 5 2 1 0 18 1)).datum = .num (3 / 2 * 2 ^ (1 - 3 : ℤ)) := by
  refine C100_div (by decide) (by decide) 1 3 (Fp.mk4 5 2 1 0 15 3) (Fp.mk4 5 2 1 0 15 1) _ _ (7 / 4) (5 / 4) ?_ ?_
    (by norm_num) ?_ ?_ (3 / 2) (by decide +kernel) ?_
  all_goals first
    | (rw [mk4_num (by decide) (by decide) (by decide) (by decide)]; norm_num [bias, Datum.fin])
    | (norm_num [InRange, bias])

/-- And for the fused operation in single precision: `1.5 * (1 + 2 ^ (-23)) + 2`, its operands scaled by `2`, `4` and `8`. -/
example : ∃ r r' : Fp 8 23, fma 8 23 (Fp.mk4 8 23 1 0 127 (2 ^ 22)) (Fp.mk4 8 23 1 0 127 1) (Fp.mk4 8 23 1 0 128 0) = some r ∧
    fma 8 23 (Fp.mk4 8 23 1 0 128 (2 ^ 22)) (Fp.mk4 8 23 1 0 129 1) (Fp.mk4 8 23 1 0 131 0) = some r' ∧
    ∀ v, r.datum = .num v → InRange 8 (v * 2 ^ (1 + 2 : ℤ)) → r'.datum = .num (v * 2 ^ (1 + 2 : ℤ)) := by
  refine C100_fma (by decide) (by decide) ?_ (by decide) 1 2 _ _ _ _ _ _ (3 / 2) (1 + 1 / 2 ^ 23) 2 ?_ ?_ ?_ ?_ ?_ ?_
  · intro k hk
    have : k < 6 := (Nat.pow_lt_pow_iff_right (a := 2) (by decide)).1 (by omega)
    interval_cases k <;> simp at hk
  all_goals
    rw [mk4_num (by decide) (by decide) (by decide) (by decide)]
    norm_num [bias]

end Thls
