import Verif.Proofs.Fma
import Verif.Props.Algebra

/-! # Property C31: fused multiply-add -/

namespace Thls
open Spec

/-- The IEEE 754 table for `x*y+z` when a NaN, infinity or zero is involved: the product by `mulSpecial` (the real
product for two numbers), then the sum by `addSpecial`; `none` when the product and the addend are numbers. -/
def fmaSpecial (a b c : Datum) : Option Datum :=
  match mulSpecial a b, a, b with
  | some d, _, _ => addSpecial d c
  | none, .num p, .num q => addSpecial (.num (p * q)) c
  | none, _, _ => none

theorem fmaE_bounds (wEX wEY wEZ : ℕ) :
    max wEX wEY + 2 ≤ fmaE wEX wEY wEZ ∧ wEZ < fmaE wEX wEY wEZ := by
  unfold fmaE; split_ifs <;> omega

theorem mulWide_total {wE wFX wFY wFR : ℕ} (hE : 1 ≤ wE) (h : wFX + wFY + 1 ≤ wFR) (x : Fp wE wFX) (y : Fp wE wFY) :
    ∃ r : Fp wE wFR, mulV1 wE wFR x y = some r := by
  have h1 : biasN wE < 2 ^ (wE + 2) := by
    have := two_pow_pred hE
    have h2 : 2 ^ (wE + 2) = 4 * 2 ^ wE := by rw [pow_add]; ring
    have h3 : biasN wE ≤ 2 ^ (wE - 1) := by unfold biasN; exact Nat.sub_le _ _
    have h4 : 0 < 2 ^ (wE - 1) := by positivity
    omega
  unfold mulV1
  dsimp only
  rw [if_neg (not_le.mpr h1), if_pos (by omega), if_neg (lt_irrefl _)]
  exact ⟨_, rfl⟩

section
variable {wEX wFX wEY wFY wEZ wFZ : ℕ} (hEX : 1 ≤ wEX) (hFX : 1 ≤ wFX) (hEY : 1 ≤ wEY) (hFY : 1 ≤ wFY)
  (hEZ : 1 ≤ wEZ) (hFZ : 1 ≤ wFZ)
include hEX hFX hEY hFY

/-- The product inside `fma` is exact: neither rounded, nor out of range. -/
theorem fma_product_exact (x : Fp wEX wFX) (y : Fp wEY wFY) (vx vy : ℚ) (hx : x.datum = .num vx) (hy : y.datum = .num vy) :
    ∃ r : Fp (max wEX wEY + 2) (wFX + wFY + 2), mulV1 (max wEX wEY + 2) (wFX + wFY + 2)
      (convert (max wEX wEY + 2) wFX x) (convert (max wEX wEY + 2) wFY y) = some r ∧ r.datum = .num (vx * vy) := by
  obtain ⟨lx, ux⟩ := num_range hEX hFX hx
  obtain ⟨ly, uy⟩ := num_range hEY hFY hy
  have hm : 1 ≤ max wEX wEY := le_trans hEX (le_max_left _ _)
  have b1 := bias_succ hm
  have b2 := bias_succ (show 1 ≤ max wEX wEY + 1 by omega)
  rw [show max wEX wEY + 1 + 1 = max wEX wEY + 2 by ring] at b2
  have b3 := (two_bias hm).2
  have b4 := bias_mono (le_max_left wEX wEY)
  have b5 := bias_mono (le_max_right wEX wEY)
  have b6 := (two_bias (show 1 ≤ max wEX wEY + 2 by omega)).1
  obtain ⟨r, h1, h2⟩ := C11_mul_wide_exact_partial (show 2 ≤ max wEX wEY + 2 by omega) hFX hFY (show wFX + wFY + 1 ≤ wFX + wFY + 2 by omega)
    (convert (max wEX wEY + 2) wFX x) (convert (max wEX wEY + 2) wFY y) vx vy
    (by rw [C23_convert_widen_exact hEX hFX (by omega) le_rfl, hx]) (by rw [C23_convert_widen_exact hEY hFY (by omega) le_rfl, hy])
    (by
      rw [abs_mul]
      calc (2 : ℚ) ^ (-bias (max wEX wEY + 2)) ≤ 2 ^ (-bias wEX + -bias wEY) := zpow_le_zpow_right₀ (by norm_num) (by omega)
        _ = 2 ^ (-bias wEX) * 2 ^ (-bias wEY) := zpow_add₀ (by norm_num) _ _
        _ ≤ |vx| * |vy| := mul_le_mul lx ly (two_zpow_pos _).le (abs_nonneg _))
  refine ⟨r, h1, ?_⟩
  rw [h2, if_pos]
  rw [abs_mul, b6]
  calc |vx| * |vy| < 2 ^ (bias wEX + 2) * 2 ^ (bias wEY + 2) :=
        mul_lt_mul'' ux uy (abs_nonneg _) (abs_nonneg _)
    _ = 2 ^ (bias wEX + 2 + (bias wEY + 2)) := (zpow_add₀ (by norm_num) _ _).symm
    _ ≤ _ := zpow_le_zpow_right₀ (by norm_num) (by omega)

include hEZ hFZ

/-- **C31, the product is never rounded (partial).** For every combination of formats the sum inside
`fma(x,y,z)` is defined and is the real number `x*y+z` rounded once, to the intermediate format, whose fraction holds
at least the whole product and the whole addend. Missing: the intermediate formats in which the adder asserts
(C19). -/
theorem C31_fma_intermediate_partial (hok : DualFormat (fmaE wEX wEY wEZ) (fmaF wFX wFY wFZ))
    (hfmt : fmaF wFX wFY wFZ ≤ 2 ^ (fmaE wEX wEY wEZ + 1)) (x : Fp wEX wFX) (y : Fp wEY wFY) (z : Fp wEZ wFZ) (vx vy vz : ℚ)
    (hx : x.datum = .num vx) (hy : y.datum = .num vy) (hz : z.datum = .num vz) :
    ∃ s, fmaSum x y z = some s ∧ AddsTo (fmaE wEX wEY wEZ) (fmaF wFX wFY wFZ) (vx * vy) vz s.datum := by
  obtain ⟨hE1, hE2⟩ := fmaE_bounds wEX wEY wEZ
  have hF1 : wFX + wFY + 2 ≤ fmaF wFX wFY wFZ := le_max_left _ _
  have hF2 : wFZ ≤ fmaF wFX wFY wFZ := le_max_right _ _
  have hm : 1 ≤ max wEX wEY := le_trans hEX (le_max_left _ _)
  obtain ⟨xy, h1, h2⟩ := fma_product_exact hEX hFX hEY hFY x y vx vy hx hy
  obtain ⟨s, h3, h4, h5⟩ := AddDual.addSame_num (by omega) (by omega) hok (by rw [pow_succ] at hfmt; omega)
    (x := convert (fmaE wEX wEY wEZ) (fmaF wFX wFY wFZ) xy) (y := convert (fmaE wEX wEY wEZ) (fmaF wFX wFY wFZ) z)
    (vx := vx * vy) (vy := vz)
    (by rw [C23_convert_widen_exact (by omega) (by omega) hE1 hF1, h2])
    (by rw [C23_convert_widen_exact hEZ hFZ hE2.le hF2, hz])
  refine ⟨s, by unfold fmaSum; rw [h1]; exact h3, ?_⟩
  unfold AddsTo
  split_ifs with h
  · exact h4 h
  · exact h5 h

/-- **C31, within one ulp (partial).** When the result format is no wider than the intermediate one, `fma` is
defined on normal numbers and its result passes `within_1ulp` against the correctly rounded `x*y+z`, which
exists. Missing: the intermediate formats in which the adder asserts (C19), and result formats wider than the
intermediate one. -/
theorem C31_fma_within_1ulp_partial {wER wFR : ℕ} (hER : 1 ≤ wER) (hFR : 1 ≤ wFR)
    (hRE : wER < fmaE wEX wEY wEZ) (hRF : wFR ≤ fmaF wFX wFY wFZ)
    (hok : DualFormat (fmaE wEX wEY wEZ) (fmaF wFX wFY wFZ))
    (hfmt : fmaF wFX wFY wFZ ≤ 2 ^ (fmaE wEX wEY wEZ + 1)) (x : Fp wEX wFX) (y : Fp wEY wFY) (z : Fp wEZ wFZ) (vx vy vz : ℚ)
    (hx : x.datum = .num vx) (hy : y.datum = .num vy) (hz : z.datum = .num vz) :
    ∃ r : Fp wER wFR, fma wER wFR x y z = some r ∧
      (∃ c : Fp wER wFR, AddsTo wER wFR (vx * vy) vz c.datum) ∧
      ∀ c : Fp wER wFR, AddsTo wER wFR (vx * vy) vz c.datum → r.within1ulp c = true := by
  obtain ⟨s, hs, hsum⟩ := C31_fma_intermediate_partial hEX hFX hEY hFY hEZ hFZ hok hfmt x y z vx vy vz hx hy hz
  have hE2 := (fmaE_bounds wEX wEY wEZ).1
  have hm : 1 ≤ max wEX wEY := le_trans hEX (le_max_left _ _)
  have hF1 : wFX + wFY + 2 ≤ fmaF wFX wFY wFZ := le_max_left _ _
  have hr1 : ∀ w, s.datum = .num w → Rounded wER wFR w (convert wER wFR s).datum :=
    fun w hw => convert_rounded hER hFR (by omega) (by omega) s w hw
  have hr2 : (∀ w, s.datum ≠ .num w) → (convert wER wFR s).datum = s.datum :=
    fun h => C24_convert_special_partial hER hFR (by omega) (by omega) s h (fun h => absurd h (by omega))
  have nn : ∀ {E F : ℕ} {q : ℚ} {d : Datum}, Rounded E F q d → d ≠ .nan := by
    rintro E F q d ⟨m, e, -, rfl⟩
    unfold rangeCheck; split_ifs <;> simp
  refine ⟨convert wER wFR s, by unfold fma; rw [hs]; rfl, ?_, ?_⟩
  · unfold AddsTo
    by_cases h0 : vx * vy + vz = 0
    · refine ⟨Fp.mk4 wER wFR 0 0 0 0, ?_⟩
      rw [if_pos h0, Fp.mk4_datum (by decide) (by decide) (by positivity) (by positivity) hER hFR]
      rfl
    · obtain ⟨d, hd⟩ := rounded_exists (E := wER) hFR h0
      obtain ⟨c, hc⟩ := rounded_word hER hFR hd
      exact ⟨c, by rw [if_neg h0, hc]; exact hd⟩
  · intro c hc
    unfold AddsTo at hsum hc
    by_cases h0 : vx * vy + vz = 0
    · rw [if_pos h0] at hsum hc
      have h1 := hr2 (by intro w; rw [hsum]; simp)
      rw [hsum] at h1
      rw [C49_within_1ulp hER hFR _ _ (by rw [h1]; simp) (by rw [hc]; simp), h1, hc]
      rintro ⟨y, ⟨a, b⟩ | ⟨a, b⟩⟩ <;>
        exact not_lt_of_le (show (Datum.zero false).Le (.zero false) from Or.inr trivial) (lt_of_lt_le a (Or.inl b))
    · rw [if_neg h0] at hsum hc
      have hrn : (convert wER wFR s).datum ≠ .nan := by
        by_cases h : ∃ w, s.datum = .num w
        · obtain ⟨w, hw⟩ := h
          exact nn (hr1 w hw)
        · rw [hr2 (fun w hw => h ⟨w, hw⟩)]; exact nn hsum
      rw [C49_within_1ulp hER hFR _ _ hrn (nn hc)]
      rintro ⟨y, hy⟩
      exact double_round hER hFR hRE hRF h0 hsum hc hr1 hr2 y hy.symm

/-- **C31, exact sums.** When `x*y+z` is a number of the intermediate format the result is correctly rounded. -/
theorem C31_fma_correct_if_sum_fits {wER wFR : ℕ} (hER : 1 ≤ wER) (hFR : 1 ≤ wFR)
    (hok : DualFormat (fmaE wEX wEY wEZ) (fmaF wFX wFY wFZ))
    (hfmt : fmaF wFX wFY wFZ ≤ 2 ^ (fmaE wEX wEY wEZ + 1)) (x : Fp wEX wFX) (y : Fp wEY wFY) (z : Fp wEZ wFZ) (vx vy vz : ℚ)
    (hx : x.datum = .num vx) (hy : y.datum = .num vy) (hz : z.datum = .num vz)
    (hfit : ∃ t : Fp (fmaE wEX wEY wEZ) (fmaF wFX wFY wFZ), t.datum = .num (vx * vy + vz)) :
    ∃ r : Fp wER wFR, fma wER wFR x y z = some r ∧ Rounded wER wFR (vx * vy + vz) r.datum := by
  obtain ⟨s, hs, hsum⟩ := C31_fma_intermediate_partial hEX hFX hEY hFY hEZ hFZ hok hfmt x y z vx vy vz hx hy hz
  have hE2 := (fmaE_bounds wEX wEY wEZ).1
  have hF1 : wFX + wFY + 2 ≤ fmaF wFX wFY wFZ := le_max_left _ _
  obtain ⟨t, ht⟩ := hfit
  unfold AddsTo at hsum
  rw [if_neg (num_ne_zero ht)] at hsum
  have hd := rounded_unique hsum (rounded_self (by omega) (by omega) t _ ht)
  refine ⟨convert wER wFR s, by unfold fma; rw [hs]; rfl, ?_⟩
  exact convert_rounded hER hFR (by omega) (by omega) s _ (by rw [hd, ht])

/-- **C31, special values (partial).** With a NaN, an infinity or a zero involved the result follows the IEEE 754
table; a numeric entry of the table is rounded once to the result format. Missing: the intermediate formats in
which the adder asserts (C19), and result exponents as wide as the intermediate one (C24). -/
theorem C31_fma_exceptions_partial {wER wFR : ℕ} (hER : 1 ≤ wER) (hFR : 1 ≤ wFR) (hRE : wER < fmaE wEX wEY wEZ)
    (hok : DualFormat (fmaE wEX wEY wEZ) (fmaF wFX wFY wFZ)) (x : Fp wEX wFX) (y : Fp wEY wFY) (z : Fp wEZ wFZ) (d : Datum)
    (hd : fmaSpecial x.datum y.datum z.datum = some d) :
    ∃ r : Fp wER wFR, fma wER wFR x y z = some r ∧ (∀ w, d = .num w → Rounded wER wFR w r.datum) ∧
      ((∀ w, d ≠ .num w) → r.datum = d) := by
  obtain ⟨hE1, hE2⟩ := fmaE_bounds wEX wEY wEZ
  have hF1 : wFX + wFY + 2 ≤ fmaF wFX wFY wFZ := le_max_left _ _
  have hF2 : wFZ ≤ fmaF wFX wFY wFZ := le_max_right _ _
  have hm : 1 ≤ max wEX wEY := le_trans hEX (le_max_left _ _)
  have hprod : ∃ (xy : Fp (max wEX wEY + 2) (wFX + wFY + 2)), mulV1 (max wEX wEY + 2) (wFX + wFY + 2)
      (convert (max wEX wEY + 2) wFX x) (convert (max wEX wEY + 2) wFY y) = some xy ∧ addSpecial xy.datum z.datum = some d := by
    cases hsp : mulSpecial x.datum y.datum with
    | some e =>
      obtain ⟨r, hr⟩ := mulWide_total (show 1 ≤ max wEX wEY + 2 by omega) (show wFX + wFY + 1 ≤ wFX + wFY + 2 by omega)
        (convert (max wEX wEY + 2) wFX x) (convert (max wEX wEY + 2) wFY y)
      refine ⟨r, hr, ?_⟩
      rw [C12_mul_exceptions (by omega) (by omega) (by omega) _ _ r hr e
        (by rw [C23_convert_widen_exact hEX hFX (by omega) le_rfl, C23_convert_widen_exact hEY hFY (by omega) le_rfl]; exact hsp)]
      unfold fmaSpecial at hd
      rw [hsp] at hd
      exact hd
    | none =>
      obtain ⟨p, q, hp, hq⟩ : ∃ p q, x.datum = .num p ∧ y.datum = .num q := by
        revert hsp
        rcases x.datum with _ | s | s | p <;> rcases y.datum with _ | t | t | q <;> simp [mulSpecial]
      obtain ⟨r, h1, h2⟩ := fma_product_exact hEX hFX hEY hFY x y p q hp hq
      refine ⟨r, h1, ?_⟩
      rw [h2]
      rw [hp, hq] at hd
      exact hd
  obtain ⟨xy, h1, h2⟩ := hprod
  obtain ⟨s, h3, h4⟩ := AddDual.addSame_special (by omega) (by omega) hok
    (x := convert (fmaE wEX wEY wEZ) (fmaF wFX wFY wFZ) xy) (y := convert (fmaE wEX wEY wEZ) (fmaF wFX wFY wFZ) z) (d := d)
    (by rw [C23_convert_widen_exact (by omega) (by omega) hE1 hF1, C23_convert_widen_exact hEZ hFZ hE2.le hF2]; exact h2)
  refine ⟨convert wER wFR s, by unfold fma fmaSum; rw [h1]; simp [h3], ?_, ?_⟩
  · intro w hw
    exact convert_rounded hER hFR (by omega) (by omega) s w (by rw [h4, hw])
  · intro h
    rw [C24_convert_special_partial hER hFR (by omega) (by omega) s (by rw [h4]; exact h) (fun h => absurd h (by omega)), h4]
end

/-- The table is a total description: it is undefined only for three ordinary numbers. -/
theorem C31_fmaSpecial_domain (a b c : Datum) : fmaSpecial a b c = none ↔ ∃ p q r, a = .num p ∧ b = .num q ∧ c = .num r := by
  rcases a with _ | s | s | p <;> rcases b with _ | t | t | q <;> rcases c with _ | u | u | r <;>
    simp [fmaSpecial, mulSpecial, addSpecial]

/-- Single and half precision meet the format hypotheses; `1.5 * 1.25 + 1.5 = 3.375` in half precision. -/
example : fmaE 8 8 8 = 10 ∧ fmaF 23 23 23 = 48 ∧ DualFormat (fmaE 8 8 8) (fmaF 23 23 23) ∧
    fmaF 23 23 23 < 2 ^ (fmaE 8 8 8 + 1) := by
  refine ⟨rfl, rfl, ?_, by norm_num [fmaE, fmaF]⟩
  intro k hk
  exfalso
  rw [show fmaF 23 23 23 + 3 = 51 from rfl] at hk
  have h1 : 5 < k := by
    by_contra h
    have : 2 ^ k ≤ 2 ^ 5 := Nat.pow_le_pow_right (by norm_num) (by omega)
    omega
  have h2 : 2 ^ 6 ≤ 2 ^ k := Nat.pow_le_pow_right (by norm_num) h1
  omega

example : fma 5 10 (Fp.mk4 5 10 1 0 15 512) (Fp.mk4 5 10 1 0 15 256) (Fp.mk4 5 10 1 0 15 512) =
    some (Fp.mk4 5 10 1 0 16 704) := by decide +kernel

/-- **C31, where it is not correctly rounded.** In every format with at least two fraction bits and
`F + 2 ≤ bias` (half, single and double precision among them) some `fma` result differs from the correctly
rounded value, because the sum is rounded twice. -/
theorem C31_fma_double_rounding {E F : ℕ} (hE : 1 ≤ E) (hF : 2 ≤ F) (hb : (F : ℤ) + 2 ≤ bias E)
    (hok : DualFormat (fmaE E E E) (fmaF F F F)) (hfmt : fmaF F F F ≤ 2 ^ (fmaE E E E + 1)) :
    ∃ (x y z r : Fp E F) (vx vy vz : ℚ), x.datum = .num vx ∧ y.datum = .num vy ∧ z.datum = .num vz ∧
      fma E F x y z = some r ∧ ¬ AddsTo E F (vx * vy) vz r.datum := by
  have hF1 : 1 ≤ F := by omega
  have hbn : (biasN E : ℤ) = bias E := pow_bias
  have hbE : biasN E < 2 ^ E := biasN_lt
  have hA : 4 ≤ 2 ^ F := by
    calc 4 = 2 ^ 2 := rfl
      _ ≤ 2 ^ F := Nat.pow_le_pow_right (by norm_num) hF
  obtain ⟨a, ha⟩ : ∃ a : ℕ, a = 2 ^ F := ⟨_, rfl⟩
  have haq : (2 : ℚ) ^ F = a := by rw [ha]; push_cast; rfl
  have a4 : (4 : ℚ) ≤ a := by rw [ha]; exact_mod_cast hA
  have hx : (Fp.mk4 E F 1 0 (biasN E) 1).datum = .num (1 + 1 / (a : ℚ)) := by
    rw [mk4_num hE hF1 hbE (by omega), haq, hbn]; simp
  have hy : (Fp.mk4 E F 1 0 (biasN E - (F + 2)) (2 ^ F - 2)).datum = .num (((a : ℚ) - 1) / (2 * a ^ 2)) := by
    rw [mk4_num hE hF1 (by omega) (by omega), haq, show ((biasN E - (F + 2) : ℕ) : ℤ) - bias E = -((F + 2 : ℕ) : ℤ) by omega,
      zpow_neg, zpow_natCast, pow_add, haq, Nat.cast_sub (by omega)]
    congr 1
    push_cast
    rw [haq]
    field_simp
    ring
  refine ⟨Fp.mk4 E F 1 0 (biasN E) 1, Fp.mk4 E F 1 0 (biasN E - (F + 2)) (2 ^ F - 2),
    Fp.mk4 E F 1 0 (biasN E) 1, ?_⟩
  obtain ⟨s, hs, hsum⟩ := C31_fma_intermediate_partial hE hF1 hE hF1 hE hF1 hok hfmt _ _ _ _ _ _ hx hy hx
  set q : ℚ := (1 + 1 / (a : ℚ)) * (((a : ℚ) - 1) / (2 * a ^ 2)) + (1 + 1 / a) with hq
  have hqv : q = 1 + 3 / (2 * a) - 1 / (2 * a ^ 3) := by rw [hq]; field_simp; ring
  have hq0 : 0 < q := by
    have h1 : (0 : ℚ) ≤ ((a : ℚ) - 1) / (2 * a ^ 2) := div_nonneg (by linarith) (by positivity)
    have h2 : (0 : ℚ) < 1 + 1 / (a : ℚ) := by positivity
    rw [hq]; positivity
  unfold AddsTo at hsum
  rw [if_neg hq0.ne'] at hsum
  have eF : fmaF F F F = 2 * F + 2 := by unfold fmaF; omega
  have e1 : (2 : ℚ) ^ (-(F : ℤ)) = 1 / a := by rw [zpow_neg, zpow_natCast, haq, one_div]
  have e2 : (2 : ℚ) ^ (-((2 * F + 2 : ℕ) : ℤ)) = 1 / (4 * a ^ 2) := by
    rw [zpow_neg, zpow_natCast, pow_add, mul_comm 2 F, pow_mul, haq, one_div]; congr 1; ring
  have hna : 2 ^ (2 * F + 2) = 4 * a ^ 2 := by rw [ha, pow_add, mul_comm 2 F, pow_mul]; ring
  have na4 : 4 ≤ a := by omega
  -- the first rounding goes to the midpoint
  have n1 : NearestEven (fmaF F F F + 1) |q| (4 * a ^ 2 + 6 * a) (-((2 * F + 2 : ℕ) : ℤ)) := by
    rw [abs_of_pos hq0, eF]
    have sg : 6 * a + 1 < 4 * a ^ 2 := by nlinarith
    refine nearest_up (m := 4 * a ^ 2 + 6 * a - 1) (e := -((2 * F + 2 : ℕ) : ℤ)) (by omega) ⟨?_, ?_⟩ ⟨?_, ?_⟩ ?_ ?_ ?_ ?_
    · rw [Nat.add_sub_cancel, hna]; omega
    · rw [pow_succ 2, hna]; omega
    · rw [Nat.add_sub_cancel, hna]; omega
    · rw [pow_succ 2, hna]; omega
    · rw [Nat.cast_sub (by omega)]; push_cast; ring
    · rw [Nat.cast_sub (by omega), e2, hqv]; push_cast
      have : (4 * (a : ℚ) ^ 2 + 6 * a - 1 + 1) * (1 / (4 * a ^ 2)) = 1 + 3 / (2 * a) := by field_simp; ring
      rw [this]
      have : (0 : ℚ) < 1 / (2 * a ^ 3) := by positivity
      linarith
    · rw [Nat.cast_sub (by omega), e2, hqv]; push_cast
      have : (4 * (a : ℚ) ^ 2 + 6 * a - 1 + 1) * (1 / (4 * a ^ 2)) = 1 + 3 / (2 * a) := by field_simp; ring
      rw [this]
      have h3 : 1 / (2 * (a : ℚ) ^ 3) ≤ 1 / (8 * a ^ 2) := one_div_le_one_div_of_le (by positivity) (by nlinarith [sq_nonneg (a : ℚ)])
      have h4 : 1 / (4 * (a : ℚ) ^ 2) / 2 = 1 / (8 * a ^ 2) := by field_simp; norm_num
      linarith
    · intro _
      rw [Nat.even_add]; simp [Nat.even_mul, parity_simps]
  have hwide : s.datum = .num (1 + 3 / (2 * a)) := by
    refine rounded_unique hsum ⟨_, _, n1, ?_⟩
    have hE2 := (fmaE_bounds E E E).1
    obtain ⟨w1, w2⟩ := two_bias (show 1 ≤ fmaE E E E by omega)
    unfold rangeCheck
    rw [eF, if_neg (by push_cast; omega), if_neg (by push_cast; omega), e2]
    have hn : decide (q < 0) = false := by simp [hq0.le]
    rw [← hq, hn]
    simp only [Bool.false_eq_true, if_false, one_mul]
    congr 1
    push_cast
    field_simp
    ring
  have hT : (0 : ℚ) < 1 + 3 / (2 * a) := by positivity
  obtain ⟨w1, w2⟩ := two_bias hE
  have sgn2 : IsSig (F + 1) (a + 2) := ⟨by rw [Nat.add_sub_cancel]; omega, by rw [pow_succ]; omega⟩
  have sgn1 : IsSig (F + 1) (a + 1) := ⟨by rw [Nat.add_sub_cancel]; omega, by rw [pow_succ]; omega⟩
  have hev : Even a := by rw [ha, Nat.even_pow]; exact ⟨by decide, by omega⟩
  -- the second rounding is a tie and goes up
  have n2 : NearestEven (F + 1) |1 + 3 / (2 * (a : ℚ))| (a + 2) (-(F : ℤ)) := by
    rw [abs_of_pos hT]
    refine nearest_up (m := a + 1) (e := -(F : ℤ)) (by omega) sgn1 sgn2 (by push_cast; ring) ?_ ?_ ?_
    · rw [e1]; push_cast
      have : ((a : ℚ) + 1 + 1) * (1 / a) = 1 + 2 / a := by field_simp; ring
      rw [this]
      have : 3 / (2 * (a : ℚ)) ≤ 2 / a := by rw [div_le_div_iff₀ (by positivity) (by positivity)]; nlinarith
      linarith
    · rw [e1]; push_cast
      have : ((a : ℚ) + 1 + 1) * (1 / a) - (1 + 3 / (2 * a)) = 1 / a / 2 := by field_simp; ring
      rw [this]
    · intro _; rw [Nat.even_add]; simp [hev]
  have hres : (convert E F s).datum = .num (1 + 2 / a) := by
    refine rounded_unique (convert_rounded hE hF1 (by have := (fmaE_bounds E E E).1; omega) (by omega) s _ hwide) ⟨_, _, n2, ?_⟩
    unfold rangeCheck
    rw [if_neg (by omega), if_neg (by omega), e1]
    simp only [not_lt.mpr hT.le, decide_false, Bool.false_eq_true, if_false, one_mul]
    congr 1
    push_cast
    field_simp
  -- the correct rounding goes down
  have n3 : NearestEven (F + 1) |q| (a + 1) (-(F : ℤ)) := by
    rw [abs_of_pos hq0]
    have v1 : q - ((a + 1 : ℕ) : ℚ) * 2 ^ (-(F : ℤ)) = 1 / (2 * a) - 1 / (2 * a ^ 3) := by
      rw [hqv, e1]; push_cast; field_simp; ring
    have v2 : 1 / (2 * (a : ℚ) ^ 3) ≤ 1 / (2 * a) := one_div_le_one_div_of_le (by positivity) (by nlinarith [sq_nonneg (a : ℚ), sq_nonneg ((a : ℚ) - 1), mul_pos (show (0 : ℚ) < a by linarith) (show (0 : ℚ) < a by linarith)])
    have v3 : (0 : ℚ) < 1 / (2 * a ^ 3) := by positivity
    have v4 : 1 / (a : ℚ) / 2 = 1 / (2 * a) := by field_simp
    refine nearest_down (by omega) sgn1 (by linarith) ?_ ?_
    · rw [v1, e1]; linarith
    · intro h; exfalso; rw [v1, e1] at h; linarith
  refine ⟨convert E F s, _, _, _, hx, hy, hx, by unfold fma; rw [hs]; rfl, ?_⟩
  intro hbad
  unfold AddsTo at hbad
  rw [← hq, if_neg hq0.ne', hres] at hbad
  have hc := rounded_unique hbad ⟨_, _, n3, rfl⟩
  unfold rangeCheck at hc
  rw [if_neg (by omega), if_neg (by omega), e1] at hc
  simp only [not_lt.mpr hq0.le, decide_false, Bool.false_eq_true, if_false, one_mul] at hc
  injection hc with hc
  push_cast at hc
  have : (1 : ℚ) + 2 / a - ((a : ℚ) + 1) * (1 / a) = 1 / a := by field_simp; ring
  have h0 : (0 : ℚ) < 1 / a := by positivity
  linarith

-- Half precision: (1 + 2^-10) * y + (1 + 2^-10) is just below a midpoint and is rounded up.
example : fma 5 10 (Fp.mk4 5 10 1 0 15 1) (Fp.mk4 5 10 1 0 3 1022) (Fp.mk4 5 10 1 0 15 1) =
    some (Fp.mk4 5 10 1 0 15 2) ∧ (10 : ℤ) + 2 ≤ bias 5 ∧ (23 : ℤ) + 2 ≤ bias 8 := by
  refine ⟨by decide +kernel, by decide, by decide⟩

end Thls
