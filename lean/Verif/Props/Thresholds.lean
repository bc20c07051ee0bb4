import Verif.Props.Scaling
import Verif.Props.FmaSharp

/-! # Property C101: when results overflow, when they are flushed to zero, and how far off they are otherwise

The numbers of a format `(E, F)` have magnitudes from `2^(-bias)` to just below `2^(2^E - bias)`. A result is an infinity exactly from half
a unit in the last place below `2^(2^E - bias)` on, and a zero exactly below half a unit in the last place under `2^(-bias)`. -/

namespace Thls
open Spec

variable {E F : ℕ}

/-- From this magnitude on a rounded result is an infinity. -/
def overflowAt (E F : ℕ) : ℚ := 2 ^ ((2 : ℤ) ^ E - bias E) * (1 - 2 ^ (-(F : ℤ) - 2))

/-- Below this magnitude a rounded result is a zero. -/
def underflowAt (E F : ℕ) : ℚ := 2 ^ (-bias E) * (1 - 2 ^ (-(F : ℤ) - 2))

/-- What may be known in advance of the result `d` of an operation whose real result is `q`: it is an infinity exactly from `hi` on, a zero
exactly below `lo`, with the sign of `q`, and a number within a relative error of `u`, on the same side of zero, otherwise. -/
structure Outcome (hi lo u q : ℚ) (d : Datum) : Prop where
  not_nan : d ≠ .nan
  overflow : (∃ s, d = .inf s) ↔ hi ≤ |q|
  underflow : (∃ s, d = .zero s) ↔ |q| < lo
  sign_inf : ∀ s, d = .inf s → s = decide (q < 0)
  sign_zero : q ≠ 0 → ∀ s, d = .zero s → s = decide (q < 0)
  error : ∀ v, d = .num v → |v - q| ≤ u * |q| ∧ 0 < v * q

/-- A rounded magnitude reaches the `p`-bit number `n·2^j`, `n` even, exactly from the midpoint between it and its predecessor on. -/
theorem nearest_attains {p m n k : ℕ} {e j i : ℤ} {x : ℚ} (hp : 1 ≤ p) (h : NearestEven p x m e) (hk : IsSig p k) (hn : IsSig p n)
    (hU : (n : ℚ) * 2 ^ j = ((k : ℚ) + 1) * 2 ^ i) (hev : Even n) : (n : ℚ) * 2 ^ j ≤ m * 2 ^ e ↔ ((k : ℚ) + 1) * 2 ^ i - 2 ^ i / 2 ≤ x := by
  have hu := two_zpow_pos i
  constructor
  · intro hle
    by_contra hc
    push Not at hc
    have h1 := h.2.1 k i hk
    rw [abs_sub_comm, abs_of_nonneg (by linarith)] at h1
    rcases abs_cases (x - k * 2 ^ i) with ⟨a, b⟩ | ⟨a, b⟩ <;> rw [a] at h1 <;> nlinarith
  · intro hx
    exact nearest_mono hp hx (nearest_up (x := ((k : ℚ) + 1) * 2 ^ i - 2 ^ i / 2) hp hk hn hU (by linarith) (by linarith) fun _ => hev) h

/-- A rounded magnitude reaches `2^K` exactly from `2^K (1 - 2^(-F-2))` on. -/
theorem nearest_reaches_two_pow {m : ℕ} {e : ℤ} {x : ℚ} (hF : 1 ≤ F) (h : NearestEven (F + 1) x m e) (K : ℤ) :
    K ≤ e + F ↔ 2 ^ K * (1 - 2 ^ (-(F : ℤ) - 2)) ≤ x := by
  have hp : 1 ≤ 2 ^ (F + 1) := Nat.one_le_two_pow
  have e1 : (2 : ℚ) ^ K = (2 ^ F : ℕ) * 2 ^ (K - F) := by
    push_cast; rw [← zpow_natCast, ← zpow_add₀ (by norm_num)]; congr 1; ring
  have e2 : (2 : ℚ) ^ K = (((2 ^ (F + 1) - 1 : ℕ) : ℚ) + 1) * 2 ^ (K - F - 1) := by
    rw [Nat.cast_sub hp]; push_cast; rw [sub_add_cancel, ← zpow_natCast, ← zpow_add₀ (by norm_num)]; congr 1; push_cast; ring
  have e3 : (2 : ℚ) ^ (K - F - 1) / 2 = 2 ^ K * 2 ^ (-(F : ℤ) - 2) := by
    rw [div_eq_mul_inv, ← zpow_sub_one₀ (by norm_num), ← zpow_add₀ (by norm_num)]; congr 1; ring
  rw [← sig_ge_iff h.1, e1, nearest_attains (by omega) h (k := 2 ^ (F + 1) - 1) (i := K - F - 1) ⟨?_, ?_⟩ ⟨?_, ?_⟩ (by rw [← e1, ← e2]) ?_]
  · rw [← e2, e3, ← e1, mul_one_sub]
  · rw [Nat.add_sub_cancel, pow_succ] at *; have := Nat.one_le_two_pow (n := F); omega
  · omega
  · simp
  · exact Nat.pow_lt_pow_right (by norm_num) (by omega)
  · exact (Nat.even_pow.mpr ⟨even_two, by omega⟩)

theorem rangeCheck_cases (E F : ℕ) (neg : Bool) (m : ℕ) (e : ℤ) :
    ((∃ s, rangeCheck E F neg m e = .inf s) ↔ 2 ^ E - bias E ≤ e + F) ∧ ((∃ s, rangeCheck E F neg m e = .zero s) ↔ ¬ -bias E ≤ e + F) := by
  have : (0 : ℤ) < 2 ^ E := by positivity
  unfold rangeCheck
  split_ifs with h1 h2
  · simp; omega
  · simp; omega
  · simp; omega

theorem overflow_pos (hF : 1 ≤ F) : 0 < (1 : ℚ) - 2 ^ (-(F : ℤ) - 2) := by
  have : (2 : ℚ) ^ (-(F : ℤ) - 2) < 2 ^ (0 : ℤ) := zpow_lt_zpow_right₀ (by norm_num) (by omega)
  rw [zpow_zero] at this
  linarith

theorem rounded_outcome (hF : 1 ≤ F) {q : ℚ} (hq : q ≠ 0) {d : Datum} (h : Rounded E F q d) :
    Outcome (overflowAt E F) (underflowAt E F) (uro F) q d := by
  obtain ⟨m, e, hn, rfl⟩ := h
  have he := nearest_err (abs_pos.mpr hq) hn
  have hpos : 0 < (m : ℚ) * 2 ^ e := by
    have := sig_lower hn.1 e
    have := two_zpow_pos (e + F)
    linarith
  refine ⟨?_, ?_, ?_, ?_, fun _ => ?_, ?_⟩
  · unfold rangeCheck; split_ifs <;> simp
  · rw [(rangeCheck_cases E F _ m e).1, nearest_reaches_two_pow hF hn]; rfl
  · rw [(rangeCheck_cases E F _ m e).2, nearest_reaches_two_pow hF hn, not_le]; rfl
  · intro s; unfold rangeCheck; split_ifs <;> simp <;> exact fun h => h.symm
  · intro s; unfold rangeCheck; split_ifs <;> simp <;> exact fun h => h.symm
  · intro v hv
    have hv' : v = (if decide (q < 0) then -1 else 1) * ((m : ℚ) * 2 ^ e) := by
      unfold rangeCheck at hv
      split_ifs at hv <;> simp_all
    rcases lt_or_gt_of_ne hq with h | h
    · rw [if_pos (by simpa using h)] at hv'
      rw [abs_of_neg h] at he ⊢
      refine ⟨?_, by rw [hv']; nlinarith⟩
      rw [hv', show -1 * ((m : ℚ) * 2 ^ e) - q = -q - m * 2 ^ e by ring]
      exact he
    · rw [if_neg (by simpa using h.le)] at hv'
      rw [abs_of_pos h] at he ⊢
      refine ⟨?_, by rw [hv']; nlinarith⟩
      rw [hv', one_mul, abs_sub_comm]
      exact he

theorem rounded0_outcome (hF : 1 ≤ F) {q : ℚ} {d : Datum} (h : Rounded0 E F q d) :
    Outcome (overflowAt E F) (underflowAt E F) (uro F) q d := by
  unfold Rounded0 at h
  by_cases hq : q = 0
  · rw [if_pos hq] at h
    obtain ⟨s, rfl⟩ := h
    have o := mul_pos (two_zpow_pos (2 ^ E - bias E)) (overflow_pos hF)
    have u := mul_pos (two_zpow_pos (-bias E)) (overflow_pos hF)
    subst hq
    refine ⟨by simp, ?_, ?_, by simp, by simp, by simp⟩
    · rw [abs_zero]; simp only [reduceCtorEq, exists_false, false_iff, not_le]; exact o
    · rw [abs_zero]; simp only [Datum.zero.injEq, exists_eq', true_iff]; exact u
  · rw [if_neg hq] at h
    exact rounded_outcome hF hq h

/-- **C101, sums.** Whether a sum of numbers or zeros overflows or is flushed to zero is decided by the exact sum alone. -/
theorem C101_add (hA : AdderFormat E F) (x y : Fp E F) (vx vy : ℚ) (hx : x.datum.fin = some vx) (hy : y.datum.fin = some vy) :
    ∃ r, AddDual.addSame x y = some r ∧ Outcome (overflowAt E F) (underflowAt E F) (uro F) (vx + vy) r.datum := by
  obtain ⟨r, hr, h⟩ := adder_fin hA hx hy
  exact ⟨r, hr, rounded0_outcome hA.2.1 h⟩

/-- **C101, sums, all formats in which the adder's shift is wide enough**, the asserting ones included: whenever it returns. -/
theorem C101_add_returned (hE : 2 ≤ E) (hF : 1 ≤ F) (hfmt : F ≤ 2 ^ (E + 1)) (x y r : Fp E F) (vx vy : ℚ) (hx : x.datum.fin = some vx)
    (hy : y.datum.fin = some vy) (hr : AddDual.addSame x y = some r) :
    Outcome (overflowAt E F) (underflowAt E F) (uro F) (vx + vy) r.datum :=
  rounded0_outcome hF (add_fin_returned hE hF hfmt x y hx hy hr)

/-- **C101, products**, up to the width of the exact product. -/
theorem C101_mul {FR FX FY : ℕ} (hE : 2 ≤ E) (hR : 1 ≤ FR) (hX : 1 ≤ FX) (hY : 1 ≤ FY) (hpath : FR ≤ FX + FY) (x : Fp E FX) (y : Fp E FY)
    (vx vy : ℚ) (hx : x.datum.fin = some vx) (hy : y.datum.fin = some vy) :
    ∃ r : Fp E FR, mulV1 E FR x y = some r ∧ Outcome (overflowAt E FR) (underflowAt E FR) (uro FR) (vx * vy) r.datum := by
  obtain ⟨r, hr⟩ := mulNarrow_total (FR := FR) (by omega) hpath x y
  exact ⟨r, hr, rounded0_outcome hR (mul_fin hE hR hX hY hpath x y hx hy hr)⟩

/-- **C101, quotients** by a number other than zero. -/
theorem C101_div (hE : 2 ≤ E) (hF : 1 ≤ F) (x y : Fp E F) (vx vy : ℚ) (hx : x.datum.fin = some vx) (hy : y.datum.fin = some vy) (hn : vy ≠ 0) :
    Outcome (overflowAt E F) (underflowAt E F) (uro F) (vx / vy) (divV1 E F x y).datum :=
  rounded0_outcome hF (div_fin hE hF x y hx hy hn)

/-- **C101, conversions** of a number. -/
theorem C101_convert {ER FR EX FX : ℕ} (hER : 1 ≤ ER) (hFR : 1 ≤ FR) (hEX : 1 ≤ EX) (hFX : 1 ≤ FX) (x : Fp EX FX) (v : ℚ) (hx : x.datum = .num v) :
    Outcome (overflowAt ER FR) (underflowAt ER FR) (uro FR) v (convert ER FR x).datum :=
  rounded_outcome hFR (num_ne_zero hx) (convert_rounded hER hFR hEX hFX x v hx)

/-- The magnitude `2^K (1 - 2^(-F-2))` is reached by the rounding to `G + 1` bits, `G ≥ F + 2`, exactly from `2^(K-G-2)` below it on. -/
theorem nearest_reaches_half {G m : ℕ} {e : ℤ} {x : ℚ} (hG : F + 2 ≤ G) (h : NearestEven (G + 1) x m e) (K : ℤ) :
    2 ^ K * (1 - 2 ^ (-(F : ℤ) - 2)) ≤ (m : ℚ) * 2 ^ e ↔ 2 ^ K * (1 - 2 ^ (-(F : ℤ) - 2) - 2 ^ (-(G : ℤ) - 2)) ≤ x := by
  obtain ⟨c, rfl⟩ := Nat.exists_eq_add_of_le hG
  have p1 : 2 ^ (F + 2 + c + 1) = 2 ^ (F + 2) * 2 ^ (c + 1) := by rw [← pow_add]; congr 1
  have p2 : 2 ^ (F + 2 + c) = 2 ^ (F + 1) * 2 ^ (c + 1) := by rw [← pow_add]; congr 1; ring
  have p3 : 2 ^ (F + 2) = 2 * 2 ^ (F + 1) := by rw [pow_succ]; ring
  have hc1 : 2 ≤ 2 ^ (c + 1) := by rw [pow_succ]; have := Nat.one_le_two_pow (n := c); omega
  have hF1 : 2 ≤ 2 ^ (F + 1) := by rw [pow_succ]; have := Nat.one_le_two_pow (n := F); omega
  have hle : 2 ^ (c + 1) + 2 ^ (c + 1) ≤ 2 ^ (F + 1) * 2 ^ (c + 1) := by nlinarith
  have hn : 2 ^ (c + 1) + 1 ≤ 2 ^ (F + 2 + c + 1) := by rw [p1, p3]; nlinarith
  have hn0 : 2 ^ (c + 1) ≤ 2 ^ (F + 2 + c + 1) := by omega
  have z : ∀ a b : ℤ, (2 : ℚ) ^ a * 2 ^ b = 2 ^ (a + b) := fun a b => (zpow_add₀ (by norm_num) a b).symm
  have e1 : (2 : ℚ) ^ K * (1 - 2 ^ (-(F : ℤ) - 2)) = ((2 ^ (F + 2 + c + 1) - 2 ^ (c + 1) : ℕ) : ℚ) * 2 ^ (K - (F + 2 + c : ℕ) - 1) := by
    rw [Nat.cast_sub hn0]; push_cast
    rw [mul_one_sub, sub_mul, z, ← zpow_natCast, ← zpow_natCast, z, z]
    congr 2 <;> push_cast <;> ring
  have e2 : ((2 ^ (F + 2 + c + 1) - 2 ^ (c + 1) : ℕ) : ℚ) = ((2 ^ (F + 2 + c + 1) - 2 ^ (c + 1) - 1 : ℕ) : ℚ) + 1 := by
    rw [Nat.cast_sub (show 1 ≤ 2 ^ (F + 2 + c + 1) - 2 ^ (c + 1) by omega)]; push_cast; ring
  have e3 : (2 : ℚ) ^ (K - (F + 2 + c : ℕ) - 1) / 2 = 2 ^ K * 2 ^ (-((F + 2 + c : ℕ) : ℤ) - 2) := by
    rw [div_eq_mul_inv, ← zpow_sub_one₀ (by norm_num), z]; congr 1; ring
  rw [e1, nearest_attains (by omega) h (k := 2 ^ (F + 2 + c + 1) - 2 ^ (c + 1) - 1) (i := K - (F + 2 + c : ℕ) - 1) ⟨?_, ?_⟩ ⟨?_, ?_⟩ (by rw [← e2]) ?_]
  · rw [← e2, ← e1, e3]
    refine iff_of_eq (congrArg (· ≤ x) ?_)
    ring
  · rw [Nat.add_sub_cancel, p1, p2, p3]
    have : 2 * 2 ^ (F + 1) * 2 ^ (c + 1) = 2 ^ (F + 1) * 2 ^ (c + 1) + 2 ^ (F + 1) * 2 ^ (c + 1) := by ring
    omega
  · omega
  · rw [Nat.add_sub_cancel, p1, p2, p3]
    have : 2 * 2 ^ (F + 1) * 2 ^ (c + 1) = 2 ^ (F + 1) * 2 ^ (c + 1) + 2 ^ (F + 1) * 2 ^ (c + 1) := by ring
    omega
  · omega
  · exact (Nat.even_sub hn0).mpr (iff_of_true (Nat.even_pow.mpr ⟨even_two, by omega⟩) (Nat.even_pow.mpr ⟨even_two, by omega⟩))

/-- Rounding twice, first to `G ≥ F + 2` fraction bits and a wider exponent: the two thresholds move down by half a unit of the first rounding. -/
theorem double_outcome {E' G : ℕ} (hE : 1 ≤ E) (hF : 1 ≤ F) (hEE : E < E') (hG : F + 2 ≤ G) {q : ℚ} (hq : q ≠ 0) {d' d : Datum}
    (h1 : Rounded E' G q d') (hd : ∀ w, d' = .num w → Rounded E F w d) (hd2 : (∀ w, d' ≠ .num w) → d = d') :
    Outcome (2 ^ ((2 : ℤ) ^ E - bias E) * (1 - 2 ^ (-(F : ℤ) - 2) - 2 ^ (-(G : ℤ) - 2)))
      (2 ^ (-bias E) * (1 - 2 ^ (-(F : ℤ) - 2) - 2 ^ (-(G : ℤ) - 2))) (uro F + uro G + uro F * uro G) q d := by
  have o1 := rounded_outcome (by omega : 1 ≤ G) hq h1
  obtain ⟨hb1, hb2⟩ := two_bias hE
  obtain ⟨hb3, hb4⟩ := two_bias (show 1 ≤ E' by omega)
  have hbw : 2 * bias E + 1 ≤ bias E' := by
    rw [← bias_succ hE]; exact bias_mono (by omega)
  have hEp : (0 : ℤ) < 2 ^ E := by positivity
  obtain ⟨M, k, hM, hd'⟩ := id h1
  have f1 : (2 : ℚ) ^ (-(F : ℤ) - 2) ≤ 2 ^ (-3 : ℤ) := zpow_le_zpow_right₀ (by norm_num) (by omega)
  have f2 : (2 : ℚ) ^ (-(G : ℤ) - 2) ≤ 2 ^ (-3 : ℤ) := zpow_le_zpow_right₀ (by norm_num) (by omega)
  have f3 : (2 : ℚ) ^ (-3 : ℤ) = 1 / 8 := by norm_num
  have lowlt : (2 : ℚ) ^ (-bias E) * (1 - 2 ^ (-(F : ℤ) - 2) - 2 ^ (-(G : ℤ) - 2)) <
      2 ^ ((2 : ℤ) ^ E - bias E) * (1 - 2 ^ (-(F : ℤ) - 2) - 2 ^ (-(G : ℤ) - 2)) :=
    mul_lt_mul_of_pos_right (zpow_lt_zpow_right₀ (by norm_num) (by omega)) (by rw [f3] at f1 f2; linarith)
  cases hcase : d' with
  | nan => exact absurd hcase o1.not_nan
  | inf s =>
    have hd3 := hd2 (by rw [hcase]; simp)
    rw [hcase] at hd3
    have hover := o1.overflow.mp ⟨s, hcase⟩
    have hge : (2 : ℚ) ^ ((2 : ℤ) ^ E - bias E) * (1 - 2 ^ (-(F : ℤ) - 2) - 2 ^ (-(G : ℤ) - 2)) ≤ |q| := by
      refine le_trans ?_ hover
      unfold overflowAt
      have g1 : (2 : ℚ) ^ ((2 : ℤ) ^ E - bias E + 1) ≤ 2 ^ ((2 : ℤ) ^ E' - bias E') := zpow_le_zpow_right₀ (by norm_num) (by omega)
      rw [zpow_add₀ (by norm_num), zpow_one] at g1
      have g2 := two_zpow_pos ((2 : ℤ) ^ E - bias E)
      have g3 := two_zpow_pos (-(F : ℤ) - 2)
      rw [f3] at f1 f2
      nlinarith
    subst hd3
    exact ⟨by simp, iff_of_true ⟨s, rfl⟩ hge, iff_of_false (by simp) (not_lt.mpr (le_trans lowlt.le hge)),
      fun t ht => o1.sign_inf t (by rw [hcase, ht]), by simp, by simp⟩
  | zero s =>
    have hd3 := hd2 (by rw [hcase]; simp)
    rw [hcase] at hd3
    have hunder := o1.underflow.mp ⟨s, hcase⟩
    have hlt : |q| < (2 : ℚ) ^ (-bias E) * (1 - 2 ^ (-(F : ℤ) - 2) - 2 ^ (-(G : ℤ) - 2)) := by
      refine lt_of_lt_of_le hunder ?_
      unfold underflowAt
      have g1 : (2 : ℚ) ^ (-bias E' + 1) ≤ 2 ^ (-bias E) := zpow_le_zpow_right₀ (by norm_num) (by omega)
      rw [zpow_add₀ (by norm_num), zpow_one] at g1
      have g2 := two_zpow_pos (-bias E')
      have g3 := two_zpow_pos (-(F : ℤ) - 2)
      have g4 := two_zpow_pos (-(G : ℤ) - 2)
      rw [f3] at f1 f2
      nlinarith
    subst hd3
    exact ⟨by simp, iff_of_false (by simp) (not_le.mpr (lt_trans hlt lowlt)), iff_of_true ⟨s, rfl⟩ hlt, by simp,
      fun hq0 t ht => o1.sign_zero hq0 t (by rw [hcase, ht]), by simp⟩
  | num w =>
    have hr := hd w hcase
    obtain ⟨we, ws⟩ := o1.error w hcase
    have hw0 : w ≠ 0 := by rintro rfl; simp at ws
    have o2 := rounded_outcome hF hw0 hr
    have hwabs : |w| = M * 2 ^ k := by
      have hw' : w = (if decide (q < 0) then -1 else 1) * ((M : ℚ) * 2 ^ k) := by
        rw [hcase] at hd'
        unfold rangeCheck at hd'
        split_ifs at hd' <;> simp_all
      rw [hw', abs_mul, abs_of_nonneg (show (0 : ℚ) ≤ M * 2 ^ k by positivity)]
      split_ifs <;> simp
    have hsg : decide (w < 0) = decide (q < 0) := by
      rw [decide_eq_decide]
      constructor <;> intro h <;> nlinarith
    refine ⟨o2.not_nan, ?_, ?_, fun s hs => (o2.sign_inf s hs).trans hsg, fun _ s hs => (o2.sign_zero hw0 s hs).trans hsg, fun v hv => ?_⟩
    · rw [o2.overflow, hwabs]; exact nearest_reaches_half hG hM _
    · rw [o2.underflow, hwabs, ← not_le, ← not_le]; exact not_congr (nearest_reaches_half hG hM _)
    · obtain ⟨ve, vs⟩ := o2.error v hv
      have u1 : 0 < uro F := two_zpow_pos _
      have u2 : 0 < uro G := two_zpow_pos _
      have hw1 : |w| ≤ |q| + |w - q| := by
        have := abs_add_le q (w - q); rwa [add_sub_cancel] at this
      refine ⟨?_, ?_⟩
      · have t : |v - q| ≤ |v - w| + |w - q| := abs_sub_le v w q
        nlinarith [mul_le_mul_of_nonneg_left (hw1.trans (add_le_add_right we _)) u1.le]
      · have h3 := mul_pos vs ws
        have h4 : 0 < w * w := mul_self_pos.mpr hw0
        by_contra hc
        push Not at hc
        nlinarith [mul_nonneg_of_nonpos_of_nonpos hc (neg_nonpos.mpr h4.le)]

section
variable {wER wFR wEX wFX wEY wFY wEZ wFZ : ℕ} (hER : 1 ≤ wER) (hFR : 1 ≤ wFR) (hEX : 1 ≤ wEX) (hFX : 1 ≤ wFX)
  (hEY : 1 ≤ wEY) (hFY : 1 ≤ wFY) (hEZ : 1 ≤ wEZ) (hFZ : 1 ≤ wFZ) (hRE : wER < fmaE wEX wEY wEZ)
  (hok : DualFormat (fmaE wEX wEY wEZ) (fmaF wFX wFY wFZ)) (hfmt : fmaF wFX wFY wFZ ≤ 2 ^ (fmaE wEX wEY wEZ + 1))
include hER hFR hEX hFX hEY hFY hEZ hFZ hRE hok hfmt

/-- **C101, `fma`.** It rounds twice, which moves both thresholds down by half a unit of its intermediate format: the sum of a product and
a number that a single rounding would leave finite is an infinity when it is that close, and one that would be flushed to zero survives. -/
theorem C101_fma (hRF : wFR + 2 ≤ fmaF wFX wFY wFZ) (x : Fp wEX wFX) (y : Fp wEY wFY) (z : Fp wEZ wFZ) (vx vy vz : ℚ)
    (hx : x.datum = .num vx) (hy : y.datum = .num vy) (hz : z.datum = .num vz) (h0 : vx * vy + vz ≠ 0) :
    ∃ r : Fp wER wFR, fma wER wFR x y z = some r ∧
      Outcome (2 ^ ((2 : ℤ) ^ wER - bias wER) * (1 - 2 ^ (-(wFR : ℤ) - 2) - 2 ^ (-(fmaF wFX wFY wFZ : ℤ) - 2)))
        (2 ^ (-bias wER) * (1 - 2 ^ (-(wFR : ℤ) - 2) - 2 ^ (-(fmaF wFX wFY wFZ : ℤ) - 2)))
        (uro wFR + uro (fmaF wFX wFY wFZ) + uro wFR * uro (fmaF wFX wFY wFZ)) (vx * vy + vz) r.datum := by
  obtain ⟨s, hs, hsum⟩ := C31_fma_intermediate_partial hEX hFX hEY hFY hEZ hFZ hok hfmt x y z vx vy vz hx hy hz
  unfold AddsTo at hsum
  rw [if_neg h0] at hsum
  exact ⟨convert wER wFR s, by unfold fma; rw [hs]; rfl, double_outcome hER hFR hRE hRF h0 hsum
    (fun w hw => convert_rounded hER hFR (by omega) (by omega) s w hw)
    (fun h => C24_convert_special_partial hER hFR (by omega) (by omega) s h (fun h => absurd h (by omega)))⟩

end

/-- The largest finite number of the format lies below the overflow threshold and the smallest above the underflow threshold, so that
every number is its own rounding. -/
theorem C101_numbers_between (hE : 1 ≤ E) (hF : 1 ≤ F) (x : Fp E F) (v : ℚ) (hx : x.datum = .num v) : underflowAt E F < |v| ∧ |v| < overflowAt E F := by
  have o := C101_convert hE hF hE hF x v hx
  rw [C23_convert_widen_exact hE hF le_rfl le_rfl, hx] at o
  exact ⟨lt_of_lt_of_le (by
      have hz := two_zpow_pos (-bias E)
      have h2 := two_zpow_pos (-(F : ℤ) - 2)
      unfold underflowAt; nlinarith) (num_range hE hF hx).1,
    not_le.mp fun h => by obtain ⟨s, hs⟩ := o.overflow.mpr h; cases hs⟩

/-- The hypotheses are met: in the format `(5, 2)` the product `(15/16)·2^(-15)` is exactly the underflow threshold and survives as
`2^(-15)`; the product `(29/32)·2^(-15)` is below it and is flushed. -/
example : (Fp.mk4 5 4 1 0 14 14).datum = .num (15 / 16) ∧ (Fp.mk4 5 4 1 0 0 0).datum = .num (1 / 2 ^ 15) ∧ underflowAt 5 2 = 15 / 16 * (1 / 2 ^ 15) ∧
    mulV1 5 2 (Fp.mk4 5 4 1 0 14 14) (Fp.mk4 5 4 1 0 0 0) = some (Fp.mk4 5 2 1 0 0 0) ∧
    (mulV1 5 2 (Fp.mk4 5 4 1 0 14 13) (Fp.mk4 5 4 1 0 0 0)).map Fp.isZero = some true := by
  refine ⟨?_, ?_, ?_, by decide +kernel, by decide +kernel⟩
  · rw [mk4_num (by decide) (by decide) (by decide) (by decide)]; norm_num [bias]
  · rw [mk4_num (by decide) (by decide) (by decide) (by decide)]; norm_num [bias]
  · norm_num [underflowAt, bias]

/-- The thresholds of the format of `float`. -/
example : overflowAt 8 23 = 2 ^ (129 : ℤ) * (1 - 2 ^ (-25 : ℤ)) ∧ underflowAt 8 23 = 2 ^ (-127 : ℤ) * (1 - 2 ^ (-25 : ℤ)) := by
  refine ⟨?_, ?_⟩ <;> simp [overflowAt, underflowAt, bias]

/-- The hypotheses are met together, by the single-precision quotient `1 / 3`. -/
example : Outcome (overflowAt 8 23) (underflowAt 8 23) (uro 23) (1 / 3)
    (divV1 8 23 (Fp.mk4 8 23 1 0 127 0) (Fp.mk4 8 23 1 0 128 (2 ^ 22))).datum := by
  refine C101_div (by decide) (by decide) _ _ 1 3 ?_ ?_ (by norm_num)
  all_goals
    rw [mk4_num (by decide) (by decide) (by decide) (by decide)]
    norm_num [bias, Datum.fin]

end Thls
