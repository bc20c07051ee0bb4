import Verif.Proofs.RefAgree
import Verif.Props.Fma

/-! # Property C54: `fma` against `ref_fma` -/

namespace Thls
open Spec

/-- The exceptional entries of the exact result are those of the table used for `fma`. -/
theorem exactFma_special {a b c d : Datum} (h : fmaSpecial a b c = some d) : exactFma a b c = d := by
  revert h
  rcases a with _ | s | s | p <;> rcases b with _ | t | t | q <;> rcases c with _ | u | u | r <;>
    simp only [fmaSpecial, exactFma, exactMul, exactAdd, mulSpecial, addSpecial, Option.getD_some, Option.getD_none,
      Option.some.injEq, reduceCtorEq, false_implies, imp_self] <;> (try (intro h; rw [← h])) <;> (try split_ifs) <;>
    simp_all [exactAdd, addSpecial, Datum.isNeg, Datum.val]

theorem exactFma_num {p q r : ℚ} : exactFma (.num p) (.num q) (.num r) = .num (p * q + r) := rfl

/-- **C54.** `fma` agrees with `ref_fma` on every triple of encodings for which `x*y+z` is zero, exceptional, or fits the
intermediate format. Missing: sums that do not fit, on which they can differ (`C54_fma_disagrees`); intermediate formats in which
the adder is not correctly rounded (C14); result exponents as wide as the intermediate one. -/
theorem C54_fma_agrees_partial {wER wFR wEX wFX wEY wFY wEZ wFZ : ℕ} (hER : 2 ≤ wER) (hFR : 1 ≤ wFR)
    (hEX : 1 ≤ wEX) (hFX : 1 ≤ wFX) (hEY : 1 ≤ wEY) (hFY : 1 ≤ wFY) (hEZ : 1 ≤ wEZ) (hFZ : 1 ≤ wFZ)
    (hRE : wER < fmaE wEX wEY wEZ) (hok : DualFormat (fmaE wEX wEY wEZ) (fmaF wFX wFY wFZ))
    (hfmt : fmaF wFX wFY wFZ ≤ 2 ^ (fmaE wEX wEY wEZ + 1)) (x : Fp wEX wFX) (y : Fp wEY wFY) (z : Fp wEZ wFZ)
    (hfit : ∀ vx vy vz, x.datum = .num vx → y.datum = .num vy → z.datum = .num vz → vx * vy + vz ≠ 0 →
      ∃ t : Fp (fmaE wEX wEY wEZ) (fmaF wFX wFY wFZ), t.datum = .num (vx * vy + vz)) :
    ∃ r r' : Fp wER wFR, fma wER wFR x y z = some r ∧ refFma wER wFR x y z = some r' ∧ r.equals r' = true := by
  obtain ⟨r', hr', hd'⟩ := C53_ref_fma (ER := wER) (FR := wFR) (by omega) hFR x y z
  suffices h : ∃ r : Fp wER wFR, fma wER wFR x y z = some r ∧
      Delivers wER wFR (exactFma x.datum y.datum z.datum) r.datum by
    obtain ⟨r, hr, hd⟩ := h
    exact ⟨r, r', hr, hr', delivers_equals (by omega) hFR hd hd'⟩
  cases hs : fmaSpecial x.datum y.datum z.datum with
  | some d =>
    obtain ⟨r, hr, h1, h2⟩ := C31_fma_exceptions_partial (wER := wER) (wFR := wFR) hEX hFX hEY hFY hEZ hFZ (by omega) hFR
      hRE hok x y z d hs
    refine ⟨r, hr, ?_⟩
    rw [exactFma_special hs]
    cases d with
    | num w =>
      have hw : w ≠ 0 := by
        revert hs
        rcases hx : x.datum with _ | s | s | p <;> rcases hy : y.datum with _ | t | t | q <;>
          rcases hz : z.datum with _ | u | u | v <;>
          simp only [fmaSpecial, mulSpecial, addSpecial] <;> intro h <;> (try split_ifs at h) <;>
          simp only [Option.some.injEq, Datum.num.injEq, reduceCtorEq] at h
        all_goals (rw [← h])
        all_goals first | exact fp_num_ne_zero hz | exact mul_ne_zero (fp_num_ne_zero hx) (fp_num_ne_zero hy)
      change if w = 0 then _ else _
      rw [if_neg hw]
      exact h1 w rfl
    | _ => exact h2 (by simp)
  | none =>
    obtain ⟨p, q, v, hx, hy, hz⟩ := (C31_fmaSpecial_domain _ _ _).mp hs
    rw [hx, hy, hz, exactFma_num]
    by_cases h0 : p * q + v = 0
    · obtain ⟨s, hs, hsum⟩ := C31_fma_intermediate_partial hEX hFX hEY hFY hEZ hFZ hok hfmt x y z p q v hx hy hz
      unfold AddsTo at hsum
      rw [if_pos h0] at hsum
      have hF1 : wFX + wFY + 2 ≤ fmaF wFX wFY wFZ := le_max_left _ _
      refine ⟨convert wER wFR s, by unfold fma; rw [hs]; rfl, ?_⟩
      change if p * q + v = 0 then _ else _
      rw [if_pos h0, C24_convert_special_partial (by omega) hFR (by omega) (by omega) s (by rw [hsum]; simp)
        (fun h => absurd h (by omega)), hsum]
    · obtain ⟨r, hr, hd⟩ := C31_fma_correct_if_sum_fits (wER := wER) (wFR := wFR) hEX hFX hEY hFY hEZ hFZ (by omega) hFR hok
        hfmt x y z p q v hx hy hz (hfit p q v hx hy hz h0)
      refine ⟨r, hr, ?_⟩
      change if p * q + v = 0 then _ else _
      rw [if_neg h0]
      exact hd

/-- **C54, a part that fails.** In every format with at least two fraction bits and `F + 2 ≤ bias` there are operands on which
`fma` and `ref_fma` return different values. -/
theorem C54_fma_disagrees {E F : ℕ} (hE : 2 ≤ E) (hF : 2 ≤ F) (hb : (F : ℤ) + 2 ≤ bias E)
    (hok : DualFormat (fmaE E E E) (fmaF F F F)) (hfmt : fmaF F F F ≤ 2 ^ (fmaE E E E + 1)) :
    ∃ x y z r r' : Fp E F, fma E F x y z = some r ∧ refFma E F x y z = some r' ∧ r.equals r' = false := by
  obtain ⟨x, y, z, r, vx, vy, vz, hx, hy, hz, hr, hn⟩ := C31_fma_double_rounding (by omega) hF hb hok hfmt
  obtain ⟨r', hr', hd'⟩ := C53_ref_fma (ER := E) (FR := F) (by omega) (by omega) x y z
  refine ⟨x, y, z, r, r', hr, hr', ?_⟩
  rw [Bool.eq_false_iff, ne_eq, C07_equals_iff_same_datum (by omega) (by omega)]
  intro h
  rw [← h, hx, hy, hz, exactFma_num] at hd'
  exact hn hd'

/-- Single precision meets the hypotheses of both. -/
example : (23 : ℤ) + 2 ≤ bias 8 ∧ 8 < fmaE 8 8 8 ∧ fmaF 23 23 23 < 2 ^ (fmaE 8 8 8 + 1) := by
  norm_num [fmaE, fmaF, bias]

end Thls
