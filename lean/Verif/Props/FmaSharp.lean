import Verif.Proofs.DoubleRound
import Verif.Props.Fma
import Verif.Props.RefAgreeFma
import Verif.Props.Exact

/-! # Properties C31, C54 and C91: exactly when rounding twice shows -/

namespace Thls
open Spec

/-- Rounding twice with the same number of fraction bits is rounding once. -/
theorem double_round_same {E F E' : ℕ} (hE : 1 ≤ E) (hF : 1 ≤ F) (hEE : E < E') {q : ℚ} (hq : q ≠ 0) {d' d : Datum}
    (h1 : Rounded E' F q d') (hd : ∀ w, d' = .num w → Rounded E F w d) (hd2 : (∀ w, d' ≠ .num w) → d = d') :
    Rounded E F q d := by
  obtain ⟨M, k, hM, rfl⟩ := h1
  obtain ⟨hb1, hb2⟩ := two_bias hE
  obtain ⟨hb3, hb4⟩ := two_bias (show 1 ≤ E' by omega)
  have hbw : 2 * bias E + 1 ≤ bias E' := by
    rw [← bias_succ hE]; exact bias_mono (by omega)
  have hM0 : 0 < (M : ℚ) * 2 ^ k := by
    have := sig_lower hM.1 k
    have := two_zpow_pos (k + F)
    linarith
  by_cases hz : k + F + bias E' < 0
  · refine ⟨M, k, hM, ?_⟩
    rw [hd2 (by intro w; unfold rangeCheck; rw [if_pos hz]; simp)]
    unfold rangeCheck; rw [if_pos hz, if_pos (by omega)]
  by_cases hi : 2 ^ E' ≤ k + F + bias E'
  · refine ⟨M, k, hM, ?_⟩
    rw [hd2 (by intro w; unfold rangeCheck; rw [if_neg hz, if_pos hi]; simp)]
    unfold rangeCheck; rw [if_neg hz, if_pos hi, if_neg (by omega), if_pos (by omega)]
  · have hr := hd _ (show rangeCheck E' F (decide (q < 0)) M k = .num ((if decide (q < 0) then -1 else 1) * ((M : ℚ) * 2 ^ k)) by
      unfold rangeCheck; rw [if_neg hz, if_neg hi])
    refine ⟨M, k, hM, rounded_unique hr ⟨M, k, nearest_self (by omega) hM.1 ?_, ?_⟩⟩
    · split_ifs <;> simp [abs_mul]
    · congr 1
      by_cases h : q < 0
      · simp only [h, decide_true, if_true]
        symm; rw [decide_eq_true_iff]; linarith
      · simp only [h, decide_false, Bool.false_eq_true, if_false]
        symm; rw [decide_eq_false_iff_not]; linarith

section
variable {wER wFR wEX wFX wEY wFY wEZ wFZ : ℕ} (hER : 1 ≤ wER) (hFR : 1 ≤ wFR) (hEX : 1 ≤ wEX) (hFX : 1 ≤ wFX)
  (hEY : 1 ≤ wEY) (hFY : 1 ≤ wFY) (hEZ : 1 ≤ wEZ) (hFZ : 1 ≤ wFZ) (hRE : wER < fmaE wEX wEY wEZ)
  (hok : DualFormat (fmaE wEX wEY wEZ) (fmaF wFX wFY wFZ)) (hfmt : fmaF wFX wFY wFZ ≤ 2 ^ (fmaE wEX wEY wEZ + 1))
include hER hFR hEX hFX hEY hFY hEZ hFZ hRE hok hfmt

/-- **C31, exactly when `fma` is right.** For three normal numbers and a result format narrower than the intermediate one, `fma`
returns a value, and that value is `x*y+z` rounded once exactly when `x*y+z` is not next to a midpoint in the way described by
`RoundsTwice`. -/
theorem C31_fma_correct_iff (hRF : wFR < fmaF wFX wFY wFZ) (x : Fp wEX wFX) (y : Fp wEY wFY) (z : Fp wEZ wFZ) (vx vy vz : ℚ)
    (hx : x.datum = .num vx) (hy : y.datum = .num vy) (hz : z.datum = .num vz) :
    ∃ r : Fp wER wFR, fma wER wFR x y z = some r ∧
      (AddsTo wER wFR (vx * vy) vz r.datum ↔ ¬ RoundsTwice wER wFR (fmaF wFX wFY wFZ) (vx * vy + vz)) := by
  obtain ⟨s, hs, hsum⟩ := C31_fma_intermediate_partial hEX hFX hEY hFY hEZ hFZ hok hfmt x y z vx vy vz hx hy hz
  have hE2 := (fmaE_bounds wEX wEY wEZ).1
  have hF1 : wFX + wFY + 2 ≤ fmaF wFX wFY wFZ := le_max_left _ _
  have hr1 : ∀ w, s.datum = .num w → Rounded wER wFR w (convert wER wFR s).datum :=
    fun w hw => convert_rounded hER hFR (by omega) (by omega) s w hw
  have hr2 : (∀ w, s.datum ≠ .num w) → (convert wER wFR s).datum = s.datum :=
    fun h => C24_convert_special_partial hER hFR (by omega) (by omega) s h (fun h => absurd h (by omega))
  refine ⟨convert wER wFR s, by unfold fma; rw [hs]; rfl, ?_⟩
  unfold AddsTo at hsum ⊢
  by_cases h0 : vx * vy + vz = 0
  · rw [if_pos h0] at hsum ⊢
    refine ⟨fun _ => ?_, fun _ => by rw [hr2 (by rw [hsum]; simp), hsum]⟩
    rintro ⟨m, e, hm, h1, h2, h3, h4⟩
    have hu := two_zpow_pos e
    have hm0 : (1 : ℚ) ≤ m := by
      have h5 : 1 ≤ m := le_trans Nat.one_le_two_pow hm.1
      exact_mod_cast h5
    have hsm : (2 : ℚ) ^ (e + wFR - fmaF wFX wFY wFZ) ≤ 2 ^ e := zpow_le_zpow_right₀ (by norm_num) (by omega)
    rw [h0, abs_zero, zero_sub, abs_neg, abs_of_pos (by positivity)] at h4
    rcases h4 with h | ⟨h, -⟩ <;> nlinarith
  · rw [if_neg h0] at hsum ⊢
    exact double_round_iff hER hFR hRE hRF h0 hsum hr1 hr2

/-- **C31.** With as many fraction bits in the result as in the intermediate sum `fma` is correctly rounded. -/
theorem C31_fma_correct_full_fraction (hRF : wFR = fmaF wFX wFY wFZ) (x : Fp wEX wFX) (y : Fp wEY wFY) (z : Fp wEZ wFZ) (vx vy vz : ℚ)
    (hx : x.datum = .num vx) (hy : y.datum = .num vy) (hz : z.datum = .num vz) :
    ∃ r : Fp wER wFR, fma wER wFR x y z = some r ∧ AddsTo wER wFR (vx * vy) vz r.datum := by
  obtain ⟨s, hs, hsum⟩ := C31_fma_intermediate_partial hEX hFX hEY hFY hEZ hFZ hok hfmt x y z vx vy vz hx hy hz
  have hE2 := (fmaE_bounds wEX wEY wEZ).1
  have hF1 : wFX + wFY + 2 ≤ fmaF wFX wFY wFZ := le_max_left _ _
  have hr1 : ∀ w, s.datum = .num w → Rounded wER wFR w (convert wER wFR s).datum :=
    fun w hw => convert_rounded hER hFR (by omega) (by omega) s w hw
  have hr2 : (∀ w, s.datum ≠ .num w) → (convert wER wFR s).datum = s.datum :=
    fun h => C24_convert_special_partial hER hFR (by omega) (by omega) s h (fun h => absurd h (by omega))
  refine ⟨convert wER wFR s, by unfold fma; rw [hs]; rfl, ?_⟩
  unfold AddsTo at hsum ⊢
  by_cases h0 : vx * vy + vz = 0
  · rw [if_pos h0] at hsum ⊢
    rw [hr2 (by rw [hsum]; simp), hsum]
  · rw [if_neg h0] at hsum ⊢
    generalize s.datum = d at hsum hr1 hr2
    rw [← hRF] at hsum
    exact double_round_same hER hFR hRE h0 hsum hr1 hr2

/-- **C54, `fma` against `ref_fma`, exactly.** For every triple of encodings both return, and the results are equal exactly
unless the operands are three normal numbers whose `x*y+z` is next to a midpoint in the way described by `RoundsTwice`. -/
theorem C54_fma_agrees_iff (hRF : wFR < fmaF wFX wFY wFZ) (x : Fp wEX wFX) (y : Fp wEY wFY) (z : Fp wEZ wFZ) :
    ∃ r r' : Fp wER wFR, fma wER wFR x y z = some r ∧ refFma wER wFR x y z = some r' ∧
      (r.equals r' = true ↔ ¬ ∃ vx vy vz, x.datum = .num vx ∧ y.datum = .num vy ∧ z.datum = .num vz ∧
        RoundsTwice wER wFR (fmaF wFX wFY wFZ) (vx * vy + vz)) := by
  cases hs : fmaSpecial x.datum y.datum z.datum with
  | some d =>
    obtain ⟨r', hr', hd'⟩ := C53_ref_fma (ER := wER) (FR := wFR) hER hFR x y z
    obtain ⟨r, hr, h1, h2⟩ := C31_fma_exceptions_partial (wER := wER) (wFR := wFR) hEX hFX hEY hFY hEZ hFZ hER hFR
      hRE hok x y z d hs
    refine ⟨r, r', hr, hr', ?_⟩
    have hdel : Delivers wER wFR (exactFma x.datum y.datum z.datum) r.datum := by
      rw [exactFma_special hs]
      cases d with
      | num w =>
        have hw : w ≠ 0 := by
          revert hs
          rcases hx : x.datum with _ | s | s | p <;> rcases hy : y.datum with _ | t | t | q <;>
            rcases hz : z.datum with _ | u | u | v <;>
            simp only [fmaSpecial, mulSpecial, addSpecial] <;> intro h <;> (try split_ifs at h) <;>
            simp only [Option.some.injEq, Datum.num.injEq, reduceCtorEq] at h
          all_goals (rw [← h])
          all_goals first | exact fp_num_ne_zero hz | exact mul_ne_zero (fp_num_ne_zero hx) (fp_num_ne_zero hy)
        change if w = 0 then _ else _
        rw [if_neg hw]
        exact h1 w rfl
      | _ => exact h2 (by simp)
    refine ⟨fun _ => ?_, fun _ => delivers_equals hER hFR hdel hd'⟩
    rintro ⟨vx, vy, vz, hx, hy, hz, -⟩
    have := (C31_fmaSpecial_domain _ _ _).mpr ⟨vx, vy, vz, hx, hy, hz⟩
    rw [this] at hs
    cases hs
  | none =>
    obtain ⟨p, q, v, hx, hy, hz⟩ := (C31_fmaSpecial_domain _ _ _).mp hs
    obtain ⟨r, hr, hiff⟩ := C31_fma_correct_iff hER hFR hEX hFX hEY hFY hEZ hFZ hRE hok hfmt hRF x y z p q v hx hy hz
    obtain ⟨r', hr', hd'⟩ := C53_ref_fma (ER := wER) (FR := wFR) hER hFR x y z
    refine ⟨r, r', hr, hr', ?_⟩
    have hval : (¬ ∃ vx vy vz, x.datum = .num vx ∧ y.datum = .num vy ∧ z.datum = .num vz ∧
        RoundsTwice wER wFR (fmaF wFX wFY wFZ) (vx * vy + vz)) ↔ AddsTo wER wFR (p * q) v r.datum := by
      rw [hiff]
      refine not_congr ⟨?_, fun h => ⟨p, q, v, hx, hy, hz, h⟩⟩
      rintro ⟨vx, vy, vz, a, b, c, h⟩
      rw [hx] at a; rw [hy] at b; rw [hz] at c
      injection a with a; injection b with b; injection c with c
      rwa [a, b, c]
    rw [hval]
    rw [hx, hy, hz, exactFma_num] at hd'
    change AddsTo wER wFR (p * q) v r'.datum at hd'
    constructor
    · intro h
      rw [C07_equals_iff_same_datum hER hFR] at h
      rw [h]; exact hd'
    · intro h
      rw [C07_equals_iff_same_datum hER hFR]
      unfold AddsTo at h hd'
      split_ifs at h hd'
      · rw [h, hd']
      · exact rounded_unique h hd'
end

/-- In half precision the operands of the example in `Props/Fma.lean` give a sum just below the midpoint above an odd significand. -/
example : RoundsTwice 5 10 (fmaF 10 10 10)
    ((1 + 1 / 1024) * (1023 / 2097152) + (1 + 1 / 1024)) ∧ 10 < fmaF 10 10 10 ∧ 5 < fmaE 5 5 5 := by
  refine ⟨⟨1025, -10, ⟨by norm_num, by norm_num⟩, ?_, ?_, ?_, ?_⟩, by decide, by decide⟩
  · norm_num [bias]
  · norm_num [bias]
  · rw [if_neg (by decide), abs_of_pos (by norm_num)]; norm_num
  · left
    rw [abs_of_pos (show (0 : ℚ) < (1 + 1 / 1024) * (1023 / 2097152) + (1 + 1 / 1024) by norm_num)]
    norm_num [fmaF, abs_lt]

/-! ## C91: conversion in two steps -/

/-- **C91, exactly when a detour shows.** A normal number is converted to a format and on to one narrower in both fields. The outcome
is that of the direct conversion exactly when the number is not next to a midpoint in the way described by `RoundsTwice`. -/
theorem C91_convert_chain_iff {E F E' G EX FX : ℕ} (hE : 1 ≤ E) (hF : 1 ≤ F) (hEE : E < E') (hFG : F < G) (hEX : 1 ≤ EX) (hFX : 1 ≤ FX)
    (x : Fp EX FX) (v : ℚ) (hx : x.datum = .num v) :
    (convert E F (convert E' G x)).equals (convert E F x) = true ↔ ¬ RoundsTwice E F G v := by
  have h1 := convert_rounded (ER := E') (FR := G) (by omega) (by omega) hEX hFX x v hx
  have h2 := convert_rounded hE hF hEX hFX x v hx
  rw [C07_equals_iff_same_datum hE hF, ← double_round_iff hE hF hEE hFG (num_ne_zero hx) h1
    (d := (convert E F (convert E' G x)).datum)
    (fun w hw => convert_rounded hE hF (by omega) (by omega) _ w hw)
    (fun h => C24_convert_special_partial hE hF (by omega) (by omega) _ h (fun h => absurd h (by omega)))]
  exact ⟨fun h => by rw [h]; exact h2, fun h => rounded_unique h h2⟩

/-- **C91.** A detour that keeps at least the fraction bits of the number, or exactly those of the result, and more exponent bits than
the result never shows. -/
theorem C91_convert_chain_same {E F E' G EX FX : ℕ} (hE : 1 ≤ E) (hF : 1 ≤ F) (hEE : E < E') (hEX : 1 ≤ EX) (hFX : 1 ≤ FX)
    (h : (FX ≤ G ∧ EX ≤ E') ∨ F = G) (x : Fp EX FX) (v : ℚ) (hx : x.datum = .num v) :
    (convert E F (convert E' G x)).equals (convert E F x) = true := by
  have h2 := convert_rounded hE hF hEX hFX x v hx
  rw [C07_equals_iff_same_datum hE hF]
  rcases h with ⟨ha, hb⟩ | rfl
  · have hw := C23_convert_widen_exact hEX hFX hb ha x
    exact rounded_unique (convert_rounded hE hF (by omega) (by omega) _ v (by rw [hw, hx])) h2
  · have h1 := convert_rounded (ER := E') (FR := F) (by omega) (by omega) hEX hFX x v hx
    exact rounded_unique (double_round_same hE hF hEE (num_ne_zero hx) h1
      (fun w hw => convert_rounded hE hF (by omega) (by omega) _ w hw)
      (fun h => C24_convert_special_partial hE hF (by omega) (by omega) _ h (fun h => absurd h (by omega)))) h2

/-- A zero, an infinity or a NaN is kept or becomes an infinity. -/
theorem convert_special_or {ER FR EX FX : ℕ} (hER : 1 ≤ ER) (hFR : 1 ≤ FR) (hEX : 1 ≤ EX) (hFX : 1 ≤ FX) (x : Fp EX FX)
    (hx : ∀ v, x.datum ≠ .num v) : (convert ER FR x).datum = x.datum ∨ ∃ s, (convert ER FR x).datum = .inf s := by
  have hf := x.frac_lt hFX
  have hx' : x.flags ≠ 1 := fun h => hx _ (datum_normal x h)
  by_cases hw : ER = EX ∧ (convertFrac FR FX x.frac).2 = true ∧ x.exp = 2 ^ EX - 1
  · obtain ⟨rfl, hc, he⟩ := hw
    have hlt := (convertFrac_wrap hFX hf hc).1
    refine Or.inr ⟨decide (x.sign = 1), ?_⟩
    unfold convert
    dsimp only
    rw [hc]
    have h1 : (convertExp ER ER x.flags x.exp true).1 = 2 := by simp [convertExp, he, ones]
    have h2 : (convertExp ER ER x.flags x.exp true).2 < 2 ^ ER := by simp [convertExp, addW_lt]
    rw [Fp.mk4_datum (by rw [h1]; decide) x.sign_lt h2 (convertFrac_down hFR hlt hf).1 hER hFR, h1]
    rfl
  · exact Or.inl (convert_special hER hFR hEX hFX x hx' fun h1 h2 h3 => hw ⟨h1, h2, h3⟩).1

/-- **C91, zeros, infinities and NaN, exactly.** The detour agrees with the direct conversion exactly unless the value is a zero or
a NaN whose meaningless exponent field is all ones and whose meaningless fraction rounds up over the top in a conversion that keeps
the exponent width: the first step, or the direct conversion. -/
theorem C91_convert_chain_special_iff {E F E' G EX FX : ℕ} (hE : 1 ≤ E) (hF : 1 ≤ F) (hG : 1 ≤ G) (hEE : E < E') (hEX : 1 ≤ EX)
    (hFX : 1 ≤ FX) (x : Fp EX FX) (hx : ∀ v, x.datum ≠ .num v) :
    (convert E F (convert E' G x)).equals (convert E F x) = true ↔
      ¬ ((∀ s, x.datum ≠ .inf s) ∧ x.exp = 2 ^ EX - 1 ∧
        ((E' = EX ∧ G < FX ∧ 2 ^ FX - 2 ^ (FX - G - 1) ≤ x.frac) ∨ (E = EX ∧ F < FX ∧ 2 ^ FX - 2 ^ (FX - F - 1) ≤ x.frac))) := by
  have a := C24_convert_special_iff (ER := E') (FR := G) (by omega) hG hEX hFX x hx
  have b := C24_convert_special_iff hE hF hEX hFX x hx
  have hnn : ∀ v, (convert E' G x).datum ≠ .num v := by
    intro v h
    rcases convert_special_or (ER := E') (FR := G) (by omega) hG hEX hFX x hx with h' | ⟨s, h'⟩
    · exact hx v (by rw [← h', h])
    · rw [h] at h'; cases h'
  have c := C24_convert_special_partial hE hF (by omega) hG (convert E' G x) hnn (fun h => absurd h (by omega))
  rw [C07_equals_iff_same_datum hE hF, c]
  have key : (convert E' G x).datum = (convert E F x).datum ↔
      (convert E' G x).datum = x.datum ∧ (convert E F x).datum = x.datum := by
    refine ⟨fun h => ?_, fun h => h.1.trans h.2.symm⟩
    by_cases h1 : E' = EX
    · have h2 := b.mpr (fun h3 => absurd h3.2.1 (by omega))
      exact ⟨h.trans h2, h2⟩
    · have h2 := a.mpr (fun h3 => h1 h3.2.1)
      exact ⟨h2, h.symm.trans h2⟩
  rw [key, a, b]
  clear key a b c hnn
  generalize (∀ s, x.datum ≠ .inf s) = P1
  generalize (x.exp = 2 ^ EX - 1) = P2
  generalize (2 ^ FX - 2 ^ (FX - G - 1) ≤ x.frac) = P3
  generalize (2 ^ FX - 2 ^ (FX - F - 1) ≤ x.frac) = P4
  generalize (G < FX) = P5
  generalize (F < FX) = P6
  generalize (E' = EX) = P7
  generalize (E = EX) = P8
  clear hx x hE hF hG hEE hEX hFX
  tauto

/-- **C91, where it does show.** Whenever the intermediate fraction is strictly between the other two, and the number has at least
three fraction bits more than the result, some number is converted differently by the detour. -/
theorem C91_convert_chain_differs {E F E' G EX FX : ℕ} (hE : 1 ≤ E) (hF : 1 ≤ F) (hEE : E < E') (hFG : F < G) (hGX : G < FX)
    (h3 : F + 3 ≤ FX) (hEX : 1 ≤ EX) :
    ∃ x : Fp EX FX, (convert E F (convert E' G x)).equals (convert E F x) = false := by
  have hbn : (biasN EX : ℤ) = bias EX := pow_bias
  obtain ⟨k, rfl⟩ : ∃ k, FX = F + 1 + k := ⟨FX - F - 1, by omega⟩
  have hlt : 2 ^ k + 1 < 2 ^ (F + 1 + k) := by
    rw [pow_add, pow_succ]
    have h4 : 1 ≤ 2 ^ F := Nat.one_le_two_pow
    have h5 : 4 ≤ 2 ^ k := by
      calc 4 = 2 ^ 2 := rfl
        _ ≤ 2 ^ k := Nat.pow_le_pow_right (by norm_num) (by omega)
    nlinarith
  have hd : (Fp.mk4 EX (F + 1 + k) 1 0 (biasN EX) (2 ^ k + 1)).datum = .num (1 + 1 / 2 * 2 ^ (-(F : ℤ)) + 2 ^ (-(F + 1 + k : ℤ))) := by
    rw [mk4_num hEX (by omega) biasN_lt hlt, hbn]
    congr 1
    rw [sub_self, zpow_zero, show (-(F + 1 + k : ℤ)) = -((F + 1 + k : ℕ) : ℤ) by push_cast; ring, zpow_neg, zpow_neg, zpow_natCast, zpow_natCast]
    push_cast
    rw [pow_add, pow_add]
    have h4 : (2 : ℚ) ^ F ≠ 0 := by positivity
    have h5 : (2 : ℚ) ^ k ≠ 0 := by positivity
    field_simp
    try ring
  refine ⟨_, Bool.eq_false_iff.mpr fun h => (C91_convert_chain_iff hE hF hEE hFG hEX (by omega) _ _ hd).mp h ?_⟩
  obtain ⟨b1, b2⟩ := two_bias hE
  have p1 := two_zpow_pos (-(F : ℤ))
  have p2 := two_zpow_pos (-(F + 1 + k : ℤ))
  have hmid : (((2 ^ F : ℕ) : ℚ) + 1 / 2) * 2 ^ (-(F : ℤ)) = 1 + 1 / 2 * 2 ^ (-(F : ℤ)) := by
    rw [add_mul]; congr 1
    push_cast
    rw [← zpow_natCast, ← zpow_add₀ (by norm_num)]; simp
  have hone : ((2 ^ F : ℕ) : ℚ) * 2 ^ (-(F : ℤ)) = 1 := by
    push_cast
    rw [← zpow_natCast, ← zpow_add₀ (by norm_num)]; simp
  refine ⟨2 ^ F, -(F : ℤ), ⟨by simp, by rw [pow_succ]; have : 0 < 2 ^ F := by positivity
                                        omega⟩, ?_, ?_, ?_, ?_⟩
  · rw [add_mul, hone]
    have : (2 : ℚ) ^ (-bias E) ≤ 2 ^ (0 : ℤ) := zpow_le_zpow_right₀ (by norm_num) (by omega)
    rw [zpow_zero] at this
    linarith
  · rw [hone]
    exact one_lt_zpow₀ (by norm_num) (by omega)
  · rw [if_pos (by rw [Nat.even_pow]; exact ⟨even_two, by omega⟩), hmid, abs_of_pos (by linarith)]
    linarith
  · rw [hmid, abs_of_pos (show (0 : ℚ) < 1 + 1 / 2 * 2 ^ (-(F : ℤ)) + 2 ^ (-(F + 1 + k : ℤ)) by linarith), add_sub_cancel_left, abs_of_pos p2,
      ← two_zpow_pred, show -(F : ℤ) + F - G - 1 = -(G + 1 : ℤ) by ring]
    rcases lt_or_eq_of_le (show G + 1 ≤ F + 1 + k by omega) with h4 | h4
    · left
      exact zpow_lt_zpow_right₀ (by norm_num) (by omega)
    · right
      refine ⟨?_, by omega⟩
      congr 1
      omega

/-- Double precision through single to half precision, and a small instance. -/
example : (5 < 8 ∧ 10 < 23 ∧ 23 < 52 ∧ 10 + 3 ≤ 52) ∧
    (convert 3 2 (convert 4 4 (Fp.mk4 5 6 1 0 15 9))).equals (convert 3 2 (Fp.mk4 5 6 1 0 15 9)) = false ∧
    (convert 3 2 (convert 4 4 (Fp.mk4 5 6 1 0 15 11))).equals (convert 3 2 (Fp.mk4 5 6 1 0 15 11)) = true := by
  refine ⟨by decide, by decide +kernel, by decide +kernel⟩

-- A zero of (4,6) with all don't-care bits set becomes an infinity on the way through (4,4).
example : (convert 3 2 (convert 4 4 (Fp.mk4 4 6 0 0 15 63))).equals (convert 3 2 (Fp.mk4 4 6 0 0 15 63)) = false ∧
    (convert 3 2 (convert 4 4 (Fp.mk4 4 6 0 0 14 63))).equals (convert 3 2 (Fp.mk4 4 6 0 0 14 63)) = true := by
  refine ⟨by decide +kernel, by decide +kernel⟩

end Thls
