import Verif.Proofs.Narrow
import Verif.Props.FmaSharp
import Verif.Props.Mul
import Verif.Props.Div
import Verif.Props.Add
import Mathlib.Tactic.IntervalCases

/-! # Property C96: computing in a wider format and narrowing the result

The operands of a format are converted to a format wider in both fields, the operation is done there, and its result is converted back.
`RoundsTwice` says of a real number when rounding it to the wide format first changes its rounding to the narrow one. -/

namespace Thls
open Spec

variable {E F E' G : ℕ}

/-- The significand of a number. -/
theorem num_sig (hF : 1 ≤ F) {x : Fp E F} {v : ℚ} (hx : x.datum = .num v) : ∃ (m : ℕ) (k : ℤ), IsSig (F + 1) m ∧ |v| = m * 2 ^ k := by
  obtain ⟨-, rfl⟩ := datum_num_iff.mp hx
  refine ⟨2 ^ F + x.frac, (x.exp : ℤ) - bias E - F, AddSingle.sig_isSig (x.frac_lt hF), ?_⟩
  rw [abs_mul, abs_of_nonneg (show (0 : ℚ) ≤ ((2 ^ F + x.frac : ℕ) : ℚ) * 2 ^ ((x.exp : ℤ) - bias E - F) by positivity)]
  split <;> simp

/-- Narrowing the rounded result. -/
theorem narrow_iff (hE : 1 ≤ E) (hF : 1 ≤ F) (hEE : E < E') (hFG : F < G) {q : ℚ} (hq : q ≠ 0) {w : Fp E' G} {r : Fp E F}
    (hw : Rounded E' G q w.datum) (hr : Rounded E F q r.datum) : (convert E F w).equals r = true ↔ ¬ RoundsTwice E F G q := by
  rw [C07_equals_iff_same_datum hE hF, ← double_round_iff hE hF hEE hFG hq hw (d := (convert E F w).datum)
    (fun v hv => convert_rounded hE hF (by omega) (by omega) _ v hv)
    (fun h => C24_convert_special_partial hE hF (by omega) (by omega) _ h (fun h => absurd h (by omega)))]
  exact ⟨fun h => by rw [h]; exact hr, fun h => rounded_unique h hr⟩

/-- Narrowing a zero, an infinity or a NaN, or a number of the narrow format. -/
theorem narrow_same (hE : 1 ≤ E) (hF : 1 ≤ F) (hEE : E < E') (hFG : F < G) {w : Fp E' G} {r : Fp E F}
    (h : w.datum = r.datum) : (convert E F w).equals r = true := by
  rw [C07_equals_iff_same_datum hE hF]
  by_cases hn : ∃ v, w.datum = .num v
  · obtain ⟨v, hv⟩ := hn
    have h1 := convert_rounded hE hF (by omega) (by omega) w v hv
    exact rounded_unique h1 (rounded_self hF hE r v (h ▸ hv))
  · rw [C24_convert_special_partial hE hF (by omega) (by omega) w (fun v hv => hn ⟨v, hv⟩) (fun h => absurd h (by omega)), h]

/-! ## Multiplication -/

/-- In one format the multiplier always returns. -/
theorem mulV1_returns (hE : 1 ≤ E) (hF : 1 ≤ F) (x y : Fp E F) : ∃ r, mulV1 E F x y = some r := by
  unfold mulV1
  have h1 : ¬ 2 ^ (E + 2) ≤ biasN E := by
    have := biasN_lt (E := E)
    have : 2 ^ E ≤ 2 ^ (E + 2) := Nat.pow_le_pow_right (by norm_num) (by omega)
    omega
  dsimp only
  rw [if_neg h1, if_neg (by omega), if_neg (by simp)]
  exact ⟨_, rfl⟩

/-- **C96, multiplication, for each pair of numbers.** Both ways return, and they agree exactly if the product is not next to a midpoint of
the narrow format in the way described by `RoundsTwice`. -/
theorem C96_mul_narrow_operands_iff (hE : 2 ≤ E) (hF : 1 ≤ F) (hEE : E < E') (hFG : F < G) (x y : Fp E F) (vx vy : ℚ)
    (hx : x.datum = .num vx) (hy : y.datum = .num vy) :
    ∃ w r, mulV1 E' G (convert E' G x) (convert E' G y) = some w ∧ mulV1 E F x y = some r ∧
      ((convert E F w).equals r = true ↔ ¬ RoundsTwice E F G (vx * vy)) := by
  obtain ⟨r, hr, h1⟩ := C10_mul_correctly_rounded hE hF hF hF (by omega) x y vx vy hx hy
  obtain ⟨w, hw, h2⟩ := C10_mul_correctly_rounded (wFR := G) (by omega) (by omega) (by omega) (by omega) (by omega)
    (convert E' G x) (convert E' G y) vx vy (by rw [C23_convert_widen_exact (by omega) hF hEE.le hFG.le, hx])
    (by rw [C23_convert_widen_exact (by omega) hF hEE.le hFG.le, hy])
  exact ⟨w, r, hw, hr, narrow_iff (by omega) hF hEE hFG (mul_ne_zero (num_ne_zero hx) (num_ne_zero hy)) h2 h1⟩

/-- Zeros, infinities and NaN. -/
theorem mul_narrow_special (hE : 2 ≤ E) (hF : 1 ≤ F) (hEE : E < E') (hFG : F < G) (x y : Fp E F) (d : Datum)
    (hd : mulSpecial x.datum y.datum = some d) :
    ∃ w r, mulV1 E' G (convert E' G x) (convert E' G y) = some w ∧ mulV1 E F x y = some r ∧ (convert E F w).equals r = true := by
  obtain ⟨r, hr⟩ := mulV1_returns (by omega) hF x y
  obtain ⟨w, hw⟩ := mulV1_returns (by omega) (by omega) (convert E' G x) (convert E' G y)
  refine ⟨w, r, hw, hr, narrow_same (by omega) hF hEE hFG ?_⟩
  rw [C12_mul_exceptions (by omega) hF (by omega) x y r hr d hd]
  refine C12_mul_exceptions (by omega) (by omega) (by omega) _ _ w hw d ?_
  rw [C23_convert_widen_exact (by omega) hF hEE.le hFG.le, C23_convert_widen_exact (by omega) hF hEE.le hFG.le, hd]

/-- With one or two fraction bits no product is affected. -/
theorem small_mul_not_twice (hF : 1 ≤ F) (hF2 : F ≤ 2) (hFG : F < G) {x y : ℚ} {mx my : ℕ} {kx ky : ℤ} (hx : |x| = mx * 2 ^ kx)
    (hy : |y| = my * 2 ^ ky) (hmx : IsSig (F + 1) mx) (hmy : IsSig (F + 1) my) : ¬ RoundsTwice E F G (x * y) := by
  by_cases hG : 2 * F + 1 ≤ G
  · exact mul_not_twice hG hx hy hmx hmy
  rintro ⟨m, e, hm, -, -, h3, h4⟩
  have hq : |x * y| = (mx * my : ℕ) * 2 ^ (kx + ky) := by
    rw [abs_mul, hx, hy, zpow_add₀ (by norm_num)]; push_cast; ring
  rw [hq] at h3 h4
  obtain ⟨j, hj⟩ : ∃ j, e = j + (kx + ky) := ⟨e - (kx + ky), by omega⟩
  have hp := two_zpow_pos (kx + ky)
  have he : (2 : ℚ) ^ e = 2 ^ j * 2 ^ (kx + ky) := by rw [hj, zpow_add₀ (by norm_num)]
  have hu : (2 : ℚ) ^ (e + F - G) = 2 ^ (j + F - G) * 2 ^ (kx + ky) := by
    rw [← zpow_add₀ (by norm_num)]; congr 1; omega
  rw [he] at h3 h4
  rw [hu] at h4
  generalize hP : mx * my = P at h3 h4
  have hfac : ∀ a : ℚ, (P : ℚ) * 2 ^ (kx + ky) - a * (2 ^ j * 2 ^ (kx + ky)) = (P - a * 2 ^ j) * 2 ^ (kx + ky) := fun a => by ring
  rw [hfac, abs_mul, abs_of_pos hp, mul_div_right_comm, mul_lt_mul_iff_left₀ hp, mul_left_inj' (ne_of_gt hp)] at h4
  rw [← mul_assoc, mul_lt_mul_iff_left₀ hp, mul_lt_mul_iff_left₀ hp] at h3
  obtain ⟨hx1, hx2⟩ := hmx
  obtain ⟨hy1, hy2⟩ := hmy
  obtain ⟨hm1, hm2⟩ := hm
  have hjp := two_zpow_pos j
  -- the distance is small
  have hs : (2 : ℚ) ^ (j + F - G) ≤ 2 ^ j / 2 := by
    rw [← two_zpow_pred]; exact zpow_le_zpow_right₀ (by norm_num) (by omega)
  have hle : abs ((P : ℚ) - (m + 1 / 2) * 2 ^ j) ≤ 2 ^ j / 4 := by
    rcases h4 with h | ⟨h, -⟩ <;> linarith
  rw [abs_le] at hle
  have hm1q : (2 : ℚ) ≤ m := by
    have : 2 ≤ m := le_trans (by rw [Nat.add_sub_cancel]; exact Nat.pow_le_pow_right (by norm_num) hF (n := 2)) hm1
    exact_mod_cast this
  have hm2q : (m : ℚ) ≤ 7 := by
    have : m < 2 ^ 3 := lt_of_lt_of_le hm2 (Nat.pow_le_pow_right (by norm_num) (by omega))
    have : m ≤ 7 := by omega
    exact_mod_cast this
  have hPlo : (4 : ℚ) ≤ P := by
    have h1 : 2 ≤ mx := le_trans (by rw [Nat.add_sub_cancel]; exact Nat.pow_le_pow_right (by norm_num) hF (n := 2)) hx1
    have h2 : 2 ≤ my := le_trans (by rw [Nat.add_sub_cancel]; exact Nat.pow_le_pow_right (by norm_num) hF (n := 2)) hy1
    have : 4 ≤ P := by rw [← hP]; nlinarith
    exact_mod_cast this
  have hPhi : (P : ℚ) ≤ 49 := by
    have h1 : mx < 2 ^ 3 := lt_of_lt_of_le hx2 (Nat.pow_le_pow_right (by norm_num) (by omega))
    have h2 : my < 2 ^ 3 := lt_of_lt_of_le hy2 (Nat.pow_le_pow_right (by norm_num) (by omega))
    have : P ≤ 49 := by rw [← hP]; exact Nat.mul_le_mul (by omega : mx ≤ 7) (by omega : my ≤ 7)
    exact_mod_cast this
  have hj5 : j < 5 := by
    by_contra hc
    have : (2 : ℚ) ^ (5 : ℤ) ≤ 2 ^ j := zpow_le_zpow_right₀ (by norm_num) (by omega)
    norm_num at this
    nlinarith
  have hj0 : -2 < j := by
    by_contra hc
    have : (2 : ℚ) ^ j ≤ 2 ^ (-2 : ℤ) := zpow_le_zpow_right₀ (by norm_num) (by omega)
    norm_num at this
    nlinarith
  clear hu he hj hq hx hy hfac hs
  obtain rfl | rfl : F = 1 ∨ F = 2 := by omega
  · obtain rfl : G = 2 := by omega
    clear hm1q hm2q hPlo hPhi hle hjp
    norm_num at hx1 hx2 hy1 hy2 hm1 hm2
    interval_cases mx <;> interval_cases my <;> simp only [Nat.reduceMul] at hP <;> subst hP <;>
      interval_cases m <;> interval_cases j <;> (revert h3 h4; norm_num [abs_lt, abs_eq, Nat.even_iff, zpow_neg])
  · obtain rfl | rfl : G = 3 ∨ G = 4 := by omega
    all_goals
      clear hm1q hm2q hPlo hPhi hle hjp
      norm_num at hx1 hx2 hy1 hy2 hm1 hm2
      interval_cases mx <;> interval_cases my <;> simp only [Nat.reduceMul] at hP <;> subst hP <;>
        interval_cases m <;> interval_cases j <;> (revert h3 h4; norm_num [abs_lt, abs_eq, Nat.even_iff, zpow_neg])

/-- A square next to a midpoint, just above it. -/
theorem square_twice {v t : ℚ} {m : ℕ} (hE : 2 ≤ E) (hFG : F < G) (hG : G ≤ 2 * F) (hF : 2 ≤ F) (hm : IsSig (F + 1) m) (hev : Even m)
    (ht : t = ((m : ℚ) + 1 / 2) * 2 ^ (1 - (F : ℤ))) (hv : v * v = t + 2 ^ (-(2 * F : ℤ))) : RoundsTwice E F G (v * v) := by
  have hb : 1 ≤ bias E := by
    have : (2 : ℤ) ^ 1 ≤ 2 ^ (E - 1) := pow_le_pow_right₀ (by norm_num) (by omega)
    unfold bias; linarith
  have hb2 := (two_bias (show 1 ≤ E by omega)).1
  have hlow : (2 : ℚ) ^ (1 - (F : ℤ) + F) ≤ m * 2 ^ (1 - (F : ℤ)) := sig_lower hm _
  have hp := two_zpow_pos (1 - (F : ℤ))
  have hq := two_zpow_pos (-(2 * F : ℤ))
  refine ⟨m, 1 - F, hm, ?_, ?_, ?_, ?_⟩
  · have : (2 : ℚ) ^ (-bias E) ≤ 2 ^ (1 - (F : ℤ) + F) := zpow_le_zpow_right₀ (by norm_num) (by omega)
    nlinarith
  · have h1 : (m : ℚ) < 2 ^ ((F : ℤ) + 1) := by
      have : (m : ℚ) < ((2 ^ (F + 1) : ℕ) : ℚ) := by exact_mod_cast hm.2
      rw [← Nat.cast_succ, zpow_natCast]; push_cast at this; exact this
    have h2 : (m : ℚ) * 2 ^ (1 - (F : ℤ)) < 2 ^ ((F : ℤ) + 1) * 2 ^ (1 - (F : ℤ)) := by nlinarith
    rw [← zpow_add₀ (by norm_num)] at h2
    have h3 : (2 : ℚ) ^ ((F : ℤ) + 1 + (1 - (F : ℤ))) ≤ 2 ^ ((2 : ℤ) ^ E - bias E) := zpow_le_zpow_right₀ (by norm_num) (by omega)
    linarith
  · rw [if_pos hev, abs_of_nonneg (mul_self_nonneg v), hv, ht]; linarith
  · rw [abs_of_nonneg (mul_self_nonneg v), hv, ← ht, add_sub_cancel_left, abs_of_pos hq, ← two_zpow_pred,
      show 1 - (F : ℤ) + F - G - 1 = -G by ring]
    rcases lt_or_eq_of_le hG with h | h
    · exact Or.inl (zpow_lt_zpow_right₀ (by norm_num) (by omega))
    · exact Or.inr ⟨by rw [h]; push_cast; rfl, by omega⟩

/-- The witness: the square of `1.5 - 2^-F` lies `2^(-2F)` above a midpoint; for `F = 3` take the square of `13/8`. -/
theorem mul_twice (hE : 2 ≤ E) (hF : 3 ≤ F) (hFG : F < G) (hG : G ≤ 2 * F) :
    ∃ x : Fp E F, ∃ v, x.datum = .num v ∧ 1 ≤ v ∧ RoundsTwice E F G (v * v) := by
  by_cases hf3 : F = 3
  · subst hf3
    refine ⟨Fp.mk4 E 3 1 0 (biasN E) 5, _, mk4_num (by omega) (by omega) biasN_lt (by norm_num), ?_⟩
    rw [pow_bias, sub_self, zpow_zero, mul_one]
    refine ⟨by norm_num, ?_⟩
    exact square_twice hE hFG hG (by omega) (m := 10) ⟨by norm_num, by norm_num⟩ (by decide) rfl (by norm_num)
  obtain ⟨f, rfl⟩ : ∃ f, F = f + 4 := ⟨F - 4, by omega⟩
  have hpN : 0 < 2 ^ f := by positivity
  refine ⟨Fp.mk4 E (f + 4) 1 0 (biasN E) (8 * 2 ^ f - 1), _, mk4_num (by omega) (by omega) biasN_lt ?_, ?_⟩
  · rw [pow_add]; omega
  have hfr : ((8 * 2 ^ f - 1 : ℕ) : ℚ) = 8 * 2 ^ f - 1 := by
    rw [Nat.cast_sub (by omega)]; push_cast; rfl
  have hm : ((18 * 2 ^ f - 2 : ℕ) : ℚ) = 18 * 2 ^ f - 2 := by
    rw [Nat.cast_sub (by omega)]; push_cast; rfl
  rw [pow_bias, sub_self, zpow_zero, mul_one]
  refine ⟨le_add_of_nonneg_right (by positivity), ?_⟩
  rw [hfr]
  refine square_twice hE hFG hG (by omega) (m := 18 * 2 ^ f - 2) ⟨?_, ?_⟩ ⟨9 * 2 ^ f - 1, by omega⟩ rfl ?_
  · rw [Nat.add_sub_cancel, pow_add]; omega
  · rw [pow_add, pow_add]; omega
  · have hp : (0 : ℚ) < 2 ^ f := by positivity
    have e1 : (2 : ℚ) ^ (1 - ((f + 4 : ℕ) : ℤ)) = 1 / (8 * 2 ^ f) := by
      rw [show 1 - ((f + 4 : ℕ) : ℤ) = -((f + 3 : ℕ) : ℤ) by push_cast; ring, zpow_neg, zpow_natCast, pow_add]
      norm_num; ring
    have e2 : (2 : ℚ) ^ (-(2 * (f + 4 : ℕ) : ℤ)) = 1 / (256 * 2 ^ f * 2 ^ f) := by
      rw [show -(2 * ((f + 4 : ℕ) : ℤ)) = -((2 * (f + 4) : ℕ) : ℤ) by push_cast; ring, zpow_neg, zpow_natCast, two_mul, pow_add, pow_add]
      norm_num; ring
    rw [e1, e2, hm, pow_add]
    field_simp
    ring

/-- **C96, multiplication, for all operands.** The result computed in the wide format and narrowed is the directly computed one for all
operands, zeros, infinities and NaN included, exactly if the wide format has at least `2F+1` fraction bits, or `F` is 1 or 2. -/
theorem C96_mul_narrow_iff (hE : 2 ≤ E) (hF : 1 ≤ F) (hEE : E < E') (hFG : F < G) :
    (∀ x y : Fp E F, ∃ w r, mulV1 E' G (convert E' G x) (convert E' G y) = some w ∧ mulV1 E F x y = some r ∧
      (convert E F w).equals r = true) ↔ 2 * F + 1 ≤ G ∨ F ≤ 2 := by
  constructor
  · intro h
    by_contra hc
    obtain ⟨x, v, hx, -, ht⟩ := mul_twice hE (show 3 ≤ F by omega) hFG (by omega)
    obtain ⟨w, r, hw, hr, he⟩ := h x x
    obtain ⟨w', r', hw', hr', hi⟩ := C96_mul_narrow_operands_iff hE hF hEE hFG x x v v hx hx
    rw [hw] at hw'; rw [hr] at hr'
    cases hw'; cases hr'
    exact hi.mp he ht
  · intro h x y
    cases hd : mulSpecial x.datum y.datum with
    | some d => exact mul_narrow_special hE hF hEE hFG x y d hd
    | none =>
      obtain ⟨vx, vy, hx, hy⟩ : ∃ p q, x.datum = .num p ∧ y.datum = .num q := by
        revert hd
        cases x.datum <;> cases y.datum <;> simp [mulSpecial]
      obtain ⟨w, r, hw, hr, hi⟩ := C96_mul_narrow_operands_iff hE hF hEE hFG x y vx vy hx hy
      refine ⟨w, r, hw, hr, hi.mpr ?_⟩
      obtain ⟨mx, kx, hmx, hax⟩ := num_sig hF hx
      obtain ⟨my, ky, hmy, hay⟩ := num_sig hF hy
      rcases h with h | h
      · exact mul_not_twice h hax hay hmx hmy
      · exact small_mul_not_twice hF h hFG hax hay hmx hmy

/-- Single precision by way of double precision is covered, half precision by way of single precision too. -/
example : 2 * 23 + 1 ≤ 52 ∧ 8 < 11 ∧ 2 * 10 + 1 ≤ 23 ∧ 5 < 8 := by decide

/-! ## Division -/

/-- **C96, division, for each pair of numbers.** -/
theorem C96_div_narrow_operands_iff (hE : 2 ≤ E) (hF : 1 ≤ F) (hEE : E < E') (hFG : F < G) (x y : Fp E F) (vx vy : ℚ)
    (hx : x.datum = .num vx) (hy : y.datum = .num vy) :
    (convert E F (divV1 E' G (convert E' G x) (convert E' G y))).equals (divV1 E F x y) = true ↔ ¬ RoundsTwice E F G (vx / vy) := by
  refine narrow_iff (by omega) hF hEE hFG (div_ne_zero (num_ne_zero hx) (num_ne_zero hy)) ?_ ?_
  · exact C20_div_correctly_rounded (by omega) (by omega) (by omega) (by omega) (by omega) (by omega) (by omega) _ _ vx vy
      (by rw [C23_convert_widen_exact (by omega) hF hEE.le hFG.le, hx]) (by rw [C23_convert_widen_exact (by omega) hF hEE.le hFG.le, hy])
  · exact C20_div_correctly_rounded (by omega) (by omega) (by omega) (by omega) (by omega) (by omega) (by omega) x y vx vy hx hy

/-- The witness: one divided by the largest number below two lies just above a midpoint. -/
theorem div_twice (hE : 2 ≤ E) (hF : 1 ≤ F) (hFG : F < G) (hG : G ≤ 2 * F) :
    ∃ x y : Fp E F, ∃ vx vy, x.datum = .num vx ∧ y.datum = .num vy ∧ RoundsTwice E F G (vx / vy) := by
  have hb : 1 ≤ bias E := by
    have : (2 : ℤ) ^ 1 ≤ 2 ^ (E - 1) := pow_le_pow_right₀ (by norm_num) (by omega)
    unfold bias; linarith
  have hb2 := (two_bias (show 1 ≤ E by omega)).1
  have hpN : 0 < 2 ^ F := by positivity
  refine ⟨Fp.mk4 E F 1 0 (biasN E) 0, Fp.mk4 E F 1 0 (biasN E) (2 ^ F - 1), _, _, mk4_num (by omega) hF biasN_lt hpN,
    mk4_num (by omega) hF biasN_lt (by omega), ?_⟩
  have hfr : ((2 ^ F - 1 : ℕ) : ℚ) = 2 ^ F - 1 := by
    rw [Nat.cast_sub (by omega)]; push_cast; rfl
  rw [pow_bias, sub_self, zpow_zero, mul_one, mul_one, hfr]
  have hp : (2 : ℚ) ≤ 2 ^ F := by
    calc (2 : ℚ) = 2 ^ 1 := by norm_num
      _ ≤ 2 ^ F := pow_le_pow_right₀ (by norm_num) hF
  have e1 : (2 : ℚ) ^ (-(F : ℤ) - 1) = 1 / (2 * 2 ^ F) := by
    rw [show -(F : ℤ) - 1 = -((F + 1 : ℕ) : ℤ) by push_cast; ring, zpow_neg, zpow_natCast, pow_succ, mul_comm, one_div]
  have hq : (1 + ((0 : ℕ) : ℚ) / 2 ^ F) / (1 + (2 ^ F - 1) / 2 ^ F) = 2 ^ F / (2 * 2 ^ F - 1) := by
    field_simp; push_cast; ring
  rw [hq]
  have hpos : (0 : ℚ) < 2 ^ F / (2 * 2 ^ F - 1) := div_pos (by linarith) (by linarith)
  have hdiff : (2 : ℚ) ^ F / (2 * 2 ^ F - 1) - (((2 ^ F : ℕ) : ℚ) + 1 / 2) * (1 / (2 * 2 ^ F)) = 1 / (4 * 2 ^ F * (2 * 2 ^ F - 1)) := by
    push_cast
    generalize (2 : ℚ) ^ F = P at hp
    have h1 : 2 * P - 1 ≠ 0 := by intro h; linarith
    have h2 : P ≠ 0 := by intro h; linarith
    obtain ⟨Q, hQ⟩ : ∃ Q, Q = 2 * P - 1 := ⟨_, rfl⟩
    rw [← hQ] at h1 ⊢
    field_simp
    rw [hQ]; ring
  have hdp : (0 : ℚ) < 1 / (4 * 2 ^ F * (2 * 2 ^ F - 1)) := by
    apply div_pos one_pos; nlinarith
  refine ⟨2 ^ F, -F - 1, ⟨by simp, by rw [pow_succ]; omega⟩, ?_, ?_, ?_, ?_⟩
  · rw [e1]
    have : (2 : ℚ) ^ (-bias E) ≤ 2 ^ (-1 : ℤ) := zpow_le_zpow_right₀ (by norm_num) (by omega)
    refine this.trans ?_
    push_cast
    rw [mul_one_div, le_div_iff₀ (by linarith)]
    norm_num
    linarith
  · rw [e1]
    have : (2 : ℚ) ^ (0 : ℤ) ≤ 2 ^ ((2 : ℤ) ^ E - bias E) := zpow_le_zpow_right₀ (by norm_num) (by omega)
    refine lt_of_lt_of_le ?_ this
    push_cast
    rw [mul_one_div, div_lt_iff₀ (by linarith)]
    norm_num
  · rw [if_pos ((Nat.even_pow).mpr ⟨by decide, by omega⟩), abs_of_pos hpos, e1]
    linarith
  · left
    rw [abs_of_pos hpos, e1, hdiff, abs_of_pos hdp, ← two_zpow_pred]
    have h1 : (2 : ℚ) ^ (-(2 * F + 2 : ℕ) : ℤ) ≤ 2 ^ (-(F : ℤ) - 1 + F - G - 1) := zpow_le_zpow_right₀ (by norm_num) (by push_cast; omega)
    refine lt_of_lt_of_le ?_ h1
    rw [zpow_neg, zpow_natCast, ← one_div, pow_add, mul_comm 2 F, pow_mul]
    apply one_div_lt_one_div_of_lt
    · nlinarith
    · nlinarith

/-- **C96, division, for all operands.** The result computed in the wide format and narrowed is the directly computed one for all
operands, zeros, infinities and NaN included, exactly if the wide format has at least `2F+1` fraction bits. -/
theorem C96_div_narrow_iff (hE : 2 ≤ E) (hF : 1 ≤ F) (hEE : E < E') (hFG : F < G) :
    (∀ x y : Fp E F, (convert E F (divV1 E' G (convert E' G x) (convert E' G y))).equals (divV1 E F x y) = true) ↔ 2 * F + 1 ≤ G := by
  constructor
  · intro h
    by_contra hc
    obtain ⟨x, y, vx, vy, hx, hy, ht⟩ := div_twice hE hF hFG (show G ≤ 2 * F by omega)
    exact (C96_div_narrow_operands_iff hE hF hEE hFG x y vx vy hx hy).mp (h x y) ht
  · intro h x y
    cases hd : divSpecial x.datum y.datum with
    | some d =>
      refine narrow_same (by omega) hF hEE hFG ?_
      rw [C22_div_exceptions (by omega) hF (by omega) hF (by omega) (by omega) x y d hd]
      refine C22_div_exceptions (by omega) (by omega) (by omega) (by omega) (by omega) (by omega) _ _ d ?_
      rw [C23_convert_widen_exact (by omega) hF hEE.le hFG.le, C23_convert_widen_exact (by omega) hF hEE.le hFG.le, hd]
    | none =>
      obtain ⟨vx, vy, hx, hy⟩ := (C22_divSpecial_domain _ _).mp hd
      obtain ⟨mx, kx, hmx, hax⟩ := num_sig hF hx
      obtain ⟨my, ky, hmy, hay⟩ := num_sig hF hy
      exact (C96_div_narrow_operands_iff hE hF hEE hFG x y vx vy hx hy).mpr (div_not_twice h hax hay hmx hmy)

/-! ## Addition -/

/-- The dual-path adder is right for all operands of such a format (C14, C19). -/
def AdderFormat (E F : ℕ) : Prop := 3 < E ∧ 1 ≤ F ∧ DualFormat E F ∧ F ≤ 2 ^ (E + 1)

theorem adder_num (h : AdderFormat E F) {x y : Fp E F} {vx vy : ℚ} (hx : x.datum = .num vx) (hy : y.datum = .num vy) :
    ∃ r, AddDual.addSame x y = some r ∧ (vx + vy = 0 → r.datum = .zero false) ∧ (vx + vy ≠ 0 → Rounded E F (vx + vy) r.datum) := by
  obtain ⟨h1, h2, h3, h4⟩ := h
  exact AddDual.addSame_num (by omega) h2 h3 (by rw [pow_succ] at h4; omega) hx hy

/-- **C96, addition, for each pair of numbers.** -/
theorem C96_add_narrow_operands_iff (hA : AdderFormat E F) (hA' : AdderFormat E' G) (hEE : E < E') (hFG : F < G) (x y : Fp E F)
    (vx vy : ℚ) (hx : x.datum = .num vx) (hy : y.datum = .num vy) :
    ∃ w r, AddDual.addSame (convert E' G x) (convert E' G y) = some w ∧ AddDual.addSame x y = some r ∧
      ((convert E F w).equals r = true ↔ ¬ RoundsTwice E F G (vx + vy)) := by
  obtain ⟨h1, h2, h3, h4⟩ := id hA
  obtain ⟨r, hr, r0, r1⟩ := adder_num hA hx hy
  obtain ⟨w, hw, w0, w1⟩ := adder_num hA' (x := convert E' G x) (y := convert E' G y)
    (by rw [C23_convert_widen_exact (by omega) h2 hEE.le hFG.le, hx]) (by rw [C23_convert_widen_exact (by omega) h2 hEE.le hFG.le, hy])
  refine ⟨w, r, hw, hr, ?_⟩
  by_cases hz : vx + vy = 0
  · have : ¬ RoundsTwice E F G (vx + vy) := fits_not_twice (n := 0) (k := 0) hFG (by rw [hz]; simp) (by positivity)
    exact iff_of_true (narrow_same (by omega) h2 hEE hFG (by rw [w0 hz, r0 hz])) this
  · exact narrow_iff (by omega) h2 hEE hFG hz (w1 hz) (r1 hz)

/-- The witness: to `1 + 2^-F` add the largest number below half a unit in the last place. -/
theorem add_twice (hF : 1 ≤ F) (hE : 1 ≤ E) (hb : (F : ℤ) + 2 ≤ bias E) (hFG : F < G) (hG : G ≤ 2 * F + 1) :
    ∃ x y : Fp E F, ∃ vx vy, x.datum = .num vx ∧ y.datum = .num vy ∧ RoundsTwice E F G (vx + vy) := by
  have hb2 := (two_bias (show 1 ≤ E by omega)).1
  have hpN : 2 ≤ 2 ^ F := by
    calc 2 = 2 ^ 1 := by norm_num
      _ ≤ 2 ^ F := Nat.pow_le_pow_right (by norm_num) hF
  have hbn : F + 2 ≤ biasN E := by have := pow_bias (E := E); omega
  have hlt := biasN_lt (E := E)
  refine ⟨Fp.mk4 E F 1 0 (biasN E) 1, Fp.mk4 E F 1 0 (biasN E - (F + 2)) (2 ^ F - 1), _, _, mk4_num (by omega) hF biasN_lt (by omega),
    mk4_num (by omega) hF (by omega) (by omega), ?_⟩
  have hfr : ((2 ^ F - 1 : ℕ) : ℚ) = 2 ^ F - 1 := by
    rw [Nat.cast_sub (by omega)]; push_cast; rfl
  have hex : (((biasN E - (F + 2) : ℕ) : ℤ)) - bias E = -((F + 2 : ℕ) : ℤ) := by
    have := pow_bias (E := E); omega
  rw [pow_bias, sub_self, zpow_zero, mul_one, hfr, hex]
  have hp : (2 : ℚ) ≤ 2 ^ F := by exact_mod_cast hpN
  have e1 : (2 : ℚ) ^ (-(F : ℤ)) = 1 / 2 ^ F := by rw [zpow_neg, zpow_natCast, one_div]
  have e2 : (2 : ℚ) ^ (-((F + 2 : ℕ) : ℤ)) = 1 / (4 * 2 ^ F) := by
    rw [zpow_neg, zpow_natCast, pow_add, ← one_div]; norm_num; ring
  have e3 : (2 : ℚ) ^ (-((2 * F + 2 : ℕ) : ℤ)) = 1 / (4 * 2 ^ F * 2 ^ F) := by
    rw [zpow_neg, zpow_natCast, pow_add, two_mul, pow_add, ← one_div]; norm_num; ring
  have hs : 1 + ((1 : ℕ) : ℚ) / 2 ^ F + (1 + (2 ^ F - 1) / 2 ^ F) * 2 ^ (-((F + 2 : ℕ) : ℤ)) =
      (((2 ^ F + 1 : ℕ) : ℚ) + 1 / 2) * 2 ^ (-(F : ℤ)) - 2 ^ (-((2 * F + 2 : ℕ) : ℤ)) := by
    rw [e1, e2, e3]; push_cast; field_simp; ring
  have hpos : (0 : ℚ) < (((2 ^ F + 1 : ℕ) : ℚ) + 1 / 2) * 2 ^ (-(F : ℤ)) - 2 ^ (-((2 * F + 2 : ℕ) : ℤ)) := by
    rw [← hs]
    have := two_zpow_pos (-((F + 2 : ℕ) : ℤ))
    have h0 : (0 : ℚ) < 2 ^ F := by positivity
    have h1 : (0 : ℚ) ≤ (2 ^ F - 1) / 2 ^ F := div_nonneg (by linarith) h0.le
    positivity
  rw [hs]
  have hd := two_zpow_pos (-((2 * F + 2 : ℕ) : ℤ))
  refine ⟨2 ^ F + 1, -F, ⟨by simp, by rw [pow_succ]; omega⟩, ?_, ?_, ?_, ?_⟩
  · rw [e1]
    have : (2 : ℚ) ^ (-bias E) ≤ 2 ^ (0 : ℤ) := zpow_le_zpow_right₀ (by norm_num) (by omega)
    refine this.trans ?_
    push_cast
    rw [mul_one_div, le_div_iff₀ (by linarith)]
    norm_num
    linarith
  · rw [e1]
    have : (2 : ℚ) ^ (1 : ℤ) ≤ 2 ^ ((2 : ℤ) ^ E - bias E) := zpow_le_zpow_right₀ (by norm_num) (by omega)
    refine lt_of_lt_of_le ?_ this
    push_cast
    rw [mul_one_div, div_lt_iff₀ (by linarith)]
    norm_num
    linarith
  · rw [if_neg (by rw [Nat.even_add_one, Nat.even_pow]; simp; omega), abs_of_pos hpos]
    linarith
  · rw [abs_of_pos hpos, sub_right_comm, sub_self, zero_sub, abs_neg, abs_of_pos hd, ← two_zpow_pred]
    rcases lt_or_eq_of_le hG with h | h
    · exact Or.inl (zpow_lt_zpow_right₀ (by norm_num) (by push_cast; omega))
    · exact Or.inr ⟨by rw [h]; congr 1; push_cast; ring, by omega⟩

/-- **C96, addition, the sufficient condition without a condition on the exponent range.** -/
theorem C96_add_narrow (hA : AdderFormat E F) (hA' : AdderFormat E' G) (hEE : E < E') (hG : 2 * F + 2 ≤ G) (x y : Fp E F) :
    ∃ w r, AddDual.addSame (convert E' G x) (convert E' G y) = some w ∧ AddDual.addSame x y = some r ∧
      (convert E F w).equals r = true := by
  obtain ⟨h1, h2, h3, h4⟩ := id hA
  obtain ⟨h1', h2', h3', h4'⟩ := id hA'
  have hFG : F < G := by omega
  cases hd : addSpecial x.datum y.datum with
  | some d =>
    obtain ⟨r, hr, hrd⟩ := AddDual.addSame_special (by omega) h2 h3 hd
    obtain ⟨w, hw, hwd⟩ := AddDual.addSame_special (x := convert E' G x) (y := convert E' G y) (d := d) (by omega) h2' h3' (by
      rw [C23_convert_widen_exact (by omega) h2 hEE.le hFG.le, C23_convert_widen_exact (by omega) h2 hEE.le hFG.le, hd])
    exact ⟨w, r, hw, hr, narrow_same (by omega) h2 hEE hFG (by rw [hwd, hrd])⟩
  | none =>
    obtain ⟨vx, vy, hx, hy⟩ := (C17_addSpecial_domain _ _).mp hd
    obtain ⟨w, r, hw, hr, hi⟩ := C96_add_narrow_operands_iff hA hA' hEE hFG x y vx vy hx hy
    refine ⟨w, r, hw, hr, hi.mpr ?_⟩
    obtain ⟨mx, kx, hmx, hax⟩ := num_sig h2 hx
    obtain ⟨my, ky, hmy, hay⟩ := num_sig h2 hy
    exact add_not_twice hG hax hay hmx hmy

/-- **C96, addition, for all operands.** The sum computed in the wide format and narrowed is the directly computed one for all operands,
zeros, infinities and NaN included, exactly if the wide format has at least `2F+2` fraction bits (in formats that can hold `2^(-F-2)`). -/
theorem C96_add_narrow_iff (hA : AdderFormat E F) (hA' : AdderFormat E' G) (hEE : E < E') (hFG : F < G) (hb : (F : ℤ) + 2 ≤ bias E) :
    (∀ x y : Fp E F, ∃ w r, AddDual.addSame (convert E' G x) (convert E' G y) = some w ∧ AddDual.addSame x y = some r ∧
      (convert E F w).equals r = true) ↔ 2 * F + 2 ≤ G := by
  obtain ⟨h1, h2, h3, h4⟩ := id hA
  constructor
  · intro h
    by_contra hc
    obtain ⟨x, y, vx, vy, hx, hy, ht⟩ := add_twice h2 (by omega) hb hFG (show G ≤ 2 * F + 1 by omega)
    obtain ⟨w, r, hw, hr, he⟩ := h x y
    obtain ⟨w', r', hw', hr', hi⟩ := C96_add_narrow_operands_iff hA hA' hEE hFG x y vx vy hx hy
    rw [hw] at hw'; rw [hr] at hr'
    cases hw'; cases hr'
    exact hi.mp he ht
  · exact fun h => C96_add_narrow hA hA' hEE h

/-- In the formats (5,3) and (6,5), which have fewer than `2F+1` fraction bits, one divided by 15/8 differs: the nearest number of the
format (5,3) to 8/15 is 9/16, but by way of (6,5) the result is 1/2. -/
example : (divV1 5 3 (Fp.mk4 5 3 1 0 15 0) (Fp.mk4 5 3 1 0 15 7)).datum = .num (9 / 16) ∧
    (convert 5 3 (divV1 6 5 (convert 6 5 (Fp.mk4 5 3 1 0 15 0)) (convert 6 5 (Fp.mk4 5 3 1 0 15 7)))).datum = .num (1 / 2) := by
  decide +kernel

/-- The hypotheses are met together, by `1.125 * 1.875` through a format with five fraction bits. -/
example : ∃ w r : _, mulV1 6 5 (convert 6 5 (Fp.mk4 5 3 1 0 15 1)) (convert 6 5 (Fp.mk4 5 3 1 0 15 7)) = some w ∧
    mulV1 5 3 (Fp.mk4 5 3 1 0 15 1) (Fp.mk4 5 3 1 0 15 7) = some r ∧
    ((convert 5 3 w).equals r = true ↔ ¬ RoundsTwice 5 3 5 (9 / 8 * (15 / 8))) := by
  refine C96_mul_narrow_operands_iff (by decide) (by decide) (by decide) (by decide) _ _ _ _ ?_ ?_
  all_goals
    rw [mk4_num (by decide) (by decide) (by decide) (by decide)]
    norm_num [bias]

end Thls
