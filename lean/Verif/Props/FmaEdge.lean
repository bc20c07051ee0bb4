import Verif.Props.MonoMore

/-! # Property C31 in intermediate formats in which the adder can assert -/

namespace Thls
open Spec

theorem log_abs_num {E F : ℕ} (hF : 1 ≤ F) {x : Fp E F} {v : ℚ} (hx : x.datum = .num v) : Int.log 2 |v| = (x.exp : ℤ) - bias E := by
  obtain ⟨h1, h2⟩ := num_exp_bounds hF hx
  have h0 : 0 < |v| := lt_of_lt_of_le (two_zpow_pos _) h1
  have k1 := (Int.zpow_le_iff_le_log (b := 2) (by norm_num) h0).mp (by exact_mod_cast h1)
  have k2 := (Int.lt_zpow_iff_log_lt (b := 2) (by norm_num) h0).mp (by exact_mod_cast h2)
  omega

section
variable {wER wFR wEX wFX wEY wFY wEZ wFZ : ℕ} (hER : 1 ≤ wER) (hFR : 1 ≤ wFR) (hEX : 1 ≤ wEX) (hFX : 1 ≤ wFX)
  (hEY : 1 ≤ wEY) (hFY : 1 ≤ wFY) (hEZ : 1 ≤ wEZ) (hFZ : 1 ≤ wFZ)
include hEX hFX hEY hFY hEZ hFZ

/-- **C31, exactly when `fma` asserts.** For three normal numbers `fma` fails an assertion exactly if the intermediate format is one in
which the alignment shift can overrun (`F+3` a power of two below `2^E` other than 8, 16, 32) and the binary exponents of the product and
the addend differ by `2F+4` or `2F+5`. -/
theorem C31_fma_asserts_iff (hE : 3 < fmaE wEX wEY wEZ) (x : Fp wEX wFX) (y : Fp wEY wFY) (z : Fp wEZ wFZ) (vx vy vz : ℚ)
    (hx : x.datum = .num vx) (hy : y.datum = .num vy) (hz : z.datum = .num vz) :
    fma wER wFR x y z = none ↔
      (∃ k < fmaE wEX wEY wEZ, fmaF wFX wFY wFZ + 3 = 2 ^ k ∧ k ≠ 3 ∧ k ≠ 4 ∧ k ≠ 5) ∧
      (abs (Int.log 2 |vx * vy| - Int.log 2 |vz|) = 2 * fmaF wFX wFY wFZ + 4 ∨
        abs (Int.log 2 |vx * vy| - Int.log 2 |vz|) = 2 * fmaF wFX wFY wFZ + 5) := by
  obtain ⟨hE1, hE2⟩ := fmaE_bounds wEX wEY wEZ
  have hF1 : wFX + wFY + 2 ≤ fmaF wFX wFY wFZ := le_max_left _ _
  have hF2 : wFZ ≤ fmaF wFX wFY wFZ := le_max_right _ _
  obtain ⟨xy, h1, h2⟩ := fma_product_exact hEX hFX hEY hFY x y vx vy hx hy
  have ha : (convert (fmaE wEX wEY wEZ) (fmaF wFX wFY wFZ) xy).datum = .num (vx * vy) := by
    rw [C23_convert_widen_exact (by omega) (by omega) hE1 hF1, h2]
  have hb : (convert (fmaE wEX wEY wEZ) (fmaF wFX wFY wFZ) z).datum = .num vz := by
    rw [C23_convert_widen_exact hEZ hFZ hE2.le hF2, hz]
  unfold fma fmaSum
  rw [h1, Option.bind_some, Option.map_eq_none_iff, C19_add_dual_asserts_iff hE (by omega) _ _ _ _ ha hb,
    log_abs_num (by omega) ha, log_abs_num (by omega) hb, sub_sub_sub_cancel_right]
  refine and_congr ?_ Iff.rfl
  unfold DualFormat AddDual.ShiftOk
  push Not
  constructor
  · rintro ⟨k, hk, h3, h4, h5, h6⟩
    refine ⟨k, h3, hk, ?_, ?_, ?_⟩ <;> rintro rfl <;> omega
  · rintro ⟨k, h3, hk, h4, h5, h6⟩
    refine ⟨k, hk, h3, ?_, ?_, ?_⟩ <;> intro h <;> rw [h] at hk
    · exact h4 (Nat.pow_right_injective le_rfl (show 2 ^ k = 2 ^ 3 by omega))
    · exact h5 (Nat.pow_right_injective le_rfl (show 2 ^ k = 2 ^ 4 by omega))
    · exact h6 (Nat.pow_right_injective le_rfl (show 2 ^ k = 2 ^ 5 by omega))

/-- The sum inside a returned `fma` of numbers is correctly rounded to the intermediate format. -/
theorem fma_returned_sum (hfmt : fmaF wFX wFY wFZ ≤ 2 ^ (fmaE wEX wEY wEZ + 1)) (x : Fp wEX wFX) (y : Fp wEY wFY) (z : Fp wEZ wFZ)
    (vx vy vz : ℚ) (hx : x.datum = .num vx) (hy : y.datum = .num vy) (hz : z.datum = .num vz) {r : Fp wER wFR}
    (hr : fma wER wFR x y z = some r) : ∃ s : Fp (fmaE wEX wEY wEZ) (fmaF wFX wFY wFZ), convert wER wFR s = r ∧
      AddsTo (fmaE wEX wEY wEZ) (fmaF wFX wFY wFZ) (vx * vy) vz s.datum := by
  obtain ⟨hE1, hE2⟩ := fmaE_bounds wEX wEY wEZ
  have hF1 : wFX + wFY + 2 ≤ fmaF wFX wFY wFZ := le_max_left _ _
  have hF2 : wFZ ≤ fmaF wFX wFY wFZ := le_max_right _ _
  obtain ⟨xy, h1, h2⟩ := fma_product_exact hEX hFX hEY hFY x y vx vy hx hy
  have ha : (convert (fmaE wEX wEY wEZ) (fmaF wFX wFY wFZ) xy).datum = .num (vx * vy) := by
    rw [C23_convert_widen_exact (by omega) (by omega) hE1 hF1, h2]
  have hb : (convert (fmaE wEX wEY wEZ) (fmaF wFX wFY wFZ) z).datum = .num vz := by
    rw [C23_convert_widen_exact hEZ hFZ hE2.le hF2, hz]
  unfold fma fmaSum at hr
  rw [h1, Option.bind_some] at hr
  obtain ⟨s, hs, rfl⟩ := Option.map_eq_some_iff.mp hr
  refine ⟨s, rfl, ?_⟩
  have h3 := add_fin_returned (by omega) (by omega) hfmt _ _ (by rw [ha]; rfl) (by rw [hb]; rfl) hs
  unfold AddsTo
  split_ifs with h0
  · exact (AddDual.addSame_sharp (by omega) (by omega) ha hb hs).1 h0
  · unfold Rounded0 at h3
    rwa [if_neg h0] at h3

include hER hFR

/-- **C31, exactly when a returned result is right**, in every intermediate format with `F ≤ 2^(E+1)`, also those in which the adder can
assert. -/
theorem C31_fma_returned_iff (hRE : wER < fmaE wEX wEY wEZ) (hRF : wFR < fmaF wFX wFY wFZ)
    (hfmt : fmaF wFX wFY wFZ ≤ 2 ^ (fmaE wEX wEY wEZ + 1)) (x : Fp wEX wFX) (y : Fp wEY wFY) (z : Fp wEZ wFZ)
    (vx vy vz : ℚ) (hx : x.datum = .num vx) (hy : y.datum = .num vy) (hz : z.datum = .num vz) (r : Fp wER wFR)
    (hr : fma wER wFR x y z = some r) :
    AddsTo wER wFR (vx * vy) vz r.datum ↔ ¬ RoundsTwice wER wFR (fmaF wFX wFY wFZ) (vx * vy + vz) := by
  obtain ⟨s, rfl, hsum⟩ := fma_returned_sum hEX hFX hEY hFY hEZ hFZ hfmt x y z vx vy vz hx hy hz hr
  have hE2 := (fmaE_bounds wEX wEY wEZ).1
  have hF1 : wFX + wFY + 2 ≤ fmaF wFX wFY wFZ := le_max_left _ _
  have hr1 : ∀ w, s.datum = .num w → Rounded wER wFR w (convert wER wFR s).datum :=
    fun w hw => convert_rounded hER hFR (by omega) (by omega) s w hw
  have hr2 : (∀ w, s.datum ≠ .num w) → (convert wER wFR s).datum = s.datum :=
    fun h => C24_convert_special_partial hER hFR (by omega) (by omega) s h (fun h => absurd h (by omega))
  unfold AddsTo at hsum ⊢
  by_cases h0 : vx * vy + vz = 0
  · rw [if_pos h0] at hsum ⊢
    refine ⟨fun _ => ?_, fun _ => by rw [hr2 (by rw [hsum]; simp), hsum]⟩
    rintro ⟨m, e, hm, h1, h2, h3, h4⟩
    have hu := two_zpow_pos e
    have hm0 : (1 : ℚ) ≤ m := by
      have h5 : 1 ≤ m := le_trans Nat.one_le_two_pow hm.1
      exact_mod_cast h5
    have hsm : (2 : ℚ) ^ (e + wFR - fmaF wFX wFY wFZ) ≤ 2 ^ e := zpow_le_zpow_right₀ (by norm_num) (by omega)
    rw [h0, abs_zero, zero_sub, abs_neg, abs_of_pos (by positivity)] at h4
    rcases h4 with h | ⟨h, -⟩ <;> nlinarith
  · rw [if_neg h0] at hsum ⊢
    exact double_round_iff hER hFR hRE hRF h0 hsum hr1 hr2

/-- **C31, special values, whenever a result is returned**: the IEEE 754 table, a numeric entry rounded once. -/
theorem C31_fma_returned_special (hRE : wER ≠ fmaE wEX wEY wEZ ∨ fmaF wFX wFY wFZ ≤ wFR) (x : Fp wEX wFX) (y : Fp wEY wFY)
    (z : Fp wEZ wFZ) (d : Datum) (hd : fmaSpecial x.datum y.datum z.datum = some d) (r : Fp wER wFR)
    (hr : fma wER wFR x y z = some r) :
    (∀ w, d = .num w → Rounded wER wFR w r.datum) ∧ ((∀ w, d ≠ .num w) → r.datum = d) := by
  obtain ⟨hE1, hE2⟩ := fmaE_bounds wEX wEY wEZ
  have hF1 : wFX + wFY + 2 ≤ fmaF wFX wFY wFZ := le_max_left _ _
  have hF2 : wFZ ≤ fmaF wFX wFY wFZ := le_max_right _ _
  obtain ⟨xy, h1, h2⟩ := fma_product_datum hEX hFX hEY hFY x y
  unfold fma fmaSum at hr
  rw [h1, Option.bind_some] at hr
  obtain ⟨s, hs, rfl⟩ := Option.map_eq_some_iff.mp hr
  have hsp : addSpecial (exactProduct x.datum y.datum) z.datum = some d := by
    rw [← hd]
    unfold exactProduct fmaSpecial
    rcases x.datum with _ | s | s | p <;> rcases y.datum with _ | t | t | q <;> rfl
  have hsd : s.datum = d := AddDual.addSame_special_some (by omega) (by omega) (d := d) (by
    rw [C23_convert_widen_exact (by omega) (by omega) hE1 hF1, h2, C23_convert_widen_exact hEZ hFZ hE2.le hF2]; exact hsp) hs
  refine ⟨fun w hw => convert_rounded hER hFR (by omega) (by omega) s w (by rw [hsd, hw]), fun hn => ?_⟩
  rw [convert_keeps hER hFR (by omega) (by omega) hRE s (by rw [hsd]; exact hn), hsd]

/-- **C54, `fma` against `ref_fma`, whenever `fma` returns**, in every intermediate format with `F ≤ 2^(E+1)`: the results are equal
exactly unless the operands are three normal numbers whose `x*y+z` is next to a midpoint in the way described by `RoundsTwice`. -/
theorem C54_fma_agrees_returned_iff (hRE : wER < fmaE wEX wEY wEZ) (hRF : wFR < fmaF wFX wFY wFZ)
    (hfmt : fmaF wFX wFY wFZ ≤ 2 ^ (fmaE wEX wEY wEZ + 1)) (x : Fp wEX wFX) (y : Fp wEY wFY) (z : Fp wEZ wFZ) (r : Fp wER wFR)
    (hr : fma wER wFR x y z = some r) :
    ∃ r' : Fp wER wFR, refFma wER wFR x y z = some r' ∧
      (r.equals r' = true ↔ ¬ ∃ vx vy vz, x.datum = .num vx ∧ y.datum = .num vy ∧ z.datum = .num vz ∧
        RoundsTwice wER wFR (fmaF wFX wFY wFZ) (vx * vy + vz)) := by
  cases hs : fmaSpecial x.datum y.datum z.datum with
  | some d =>
    obtain ⟨r', hr', hd'⟩ := C53_ref_fma (ER := wER) (FR := wFR) hER hFR x y z
    obtain ⟨h1, h2⟩ := C31_fma_returned_special hER hFR hEX hFX hEY hFY hEZ hFZ (Or.inl hRE.ne) x y z d hs r hr
    refine ⟨r', hr', ?_⟩
    have hdel : Delivers wER wFR (exactFma x.datum y.datum z.datum) r.datum := by
      rw [exactFma_special hs]
      cases d with
      | num w =>
        have hw : w ≠ 0 := by
          revert hs
          rcases hx : x.datum with _ | s | s | p <;> rcases hy : y.datum with _ | t | t | q <;>
            rcases hz : z.datum with _ | u | u | v <;>
            simp only [fmaSpecial, mulSpecial, addSpecial] <;> intro h <;> (try split_ifs at h) <;>
            simp only [Option.some.injEq, Datum.num.injEq, reduceCtorEq] at h
          all_goals (rw [← h])
          all_goals first | exact fp_num_ne_zero hz | exact mul_ne_zero (fp_num_ne_zero hx) (fp_num_ne_zero hy)
        change if w = 0 then _ else _
        rw [if_neg hw]
        exact h1 w rfl
      | _ => exact h2 (by simp)
    refine ⟨fun _ => ?_, fun _ => delivers_equals hER hFR hdel hd'⟩
    rintro ⟨vx, vy, vz, hx, hy, hz, -⟩
    have := (C31_fmaSpecial_domain _ _ _).mpr ⟨vx, vy, vz, hx, hy, hz⟩
    rw [this] at hs
    cases hs
  | none =>
    obtain ⟨p, q, v, hx, hy, hz⟩ := (C31_fmaSpecial_domain _ _ _).mp hs
    have hiff := C31_fma_returned_iff hER hFR hEX hFX hEY hFY hEZ hFZ hRE hRF hfmt x y z p q v hx hy hz r hr
    obtain ⟨r', hr', hd'⟩ := C53_ref_fma (ER := wER) (FR := wFR) hER hFR x y z
    refine ⟨r', hr', ?_⟩
    have hval : (¬ ∃ vx vy vz, x.datum = .num vx ∧ y.datum = .num vy ∧ z.datum = .num vz ∧
        RoundsTwice wER wFR (fmaF wFX wFY wFZ) (vx * vy + vz)) ↔ AddsTo wER wFR (p * q) v r.datum := by
      rw [hiff]
      refine not_congr ⟨?_, fun h => ⟨p, q, v, hx, hy, hz, h⟩⟩
      rintro ⟨vx, vy, vz, a, b, c, h⟩
      rw [hx] at a; rw [hy] at b; rw [hz] at c
      injection a with a; injection b with b; injection c with c
      rwa [a, b, c]
    rw [hval]
    rw [hx, hy, hz, exactFma_num] at hd'
    change AddsTo wER wFR (p * q) v r'.datum at hd'
    constructor
    · intro h
      rw [C07_equals_iff_same_datum hER hFR] at h
      rw [h]; exact hd'
    · intro h
      rw [C07_equals_iff_same_datum hER hFR]
      unfold AddsTo at h hd'
      split_ifs at h hd'
      · rw [h, hd']
      · exact rounded_unique h hd'
end

/-- An intermediate format of 61 fraction bits: two operands of 29 and 30 fraction bits give an assertion failure for one addend, and a
result for another. -/
example : fmaF 29 30 29 + 3 = 2 ^ 6 ∧ 6 < fmaE 8 8 8 ∧
    fma 8 29 (Fp.mk4 8 29 1 0 190 0) (Fp.mk4 8 30 1 0 190 0) (Fp.mk4 8 29 1 0 127 0) = none ∧
    fma 8 29 (Fp.mk4 8 29 1 0 190 0) (Fp.mk4 8 30 1 0 127 0) (Fp.mk4 8 29 1 0 127 0) = some (Fp.mk4 8 29 1 0 190 0) := by
  decide +kernel

end Thls
