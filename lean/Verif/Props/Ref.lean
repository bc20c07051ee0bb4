import Verif.Proofs.RefDirected
import Verif.Proofs.Pack

/-! # Property C53: the MPFR reference functions are correctly rounded -/

namespace Thls
open Spec

/-- **C53.** `ref_mul`, for every pair of operands in any formats and every result format. -/
theorem C53_ref_mul {ER FR EA FA EB FB : ℕ} (hE : 1 ≤ ER) (hF : 1 ≤ FR) (a : Fp EA FA) (b : Fp EB FB) :
    ∃ r : Fp ER FR, refMul ER FR a b = some r ∧ Delivers ER FR (exactMul a.datum b.datum) r.datum := by
  have h := Mpfr.mul_exact (FR + 1) (toMpfr_ok a) (toMpfr_ok b)
  rw [C47_to_mpfr_exact, C47_to_mpfr_exact] at h
  exact ofMpfr_delivers hE hF h.1 h.2

/-- The number read back from a converted MPFR number is that number. -/
theorem ofMpfr_value {E F : ℕ} (hE : 1 ≤ E) (hF : 1 ≤ F) {m : Mpfr} {r : Fp E F} {w : ℚ}
    (hs : ∀ s k e, m = .num s k e → IsSig (F + 1) k) (h : ofMpfr E F true m = some r) (hr : r.datum = .num w) :
    m.value = w := by
  cases m with
  | num s k e =>
    have h' := C47_of_mpfr hE hF true s e (hs s k e rfl)
    rw [if_pos (Or.inr rfl)] at h'
    obtain ⟨y, hy, hd⟩ := h'
    rw [h] at hy
    rw [← Option.some.inj hy, hr, rangeCheck] at hd
    split_ifs at hd <;> (rw [Datum.num.inj hd, Mpfr.value]; simp_all)
  | nan =>
    obtain ⟨y, hy, hd⟩ := ofMpfr_nan (E := E) (F := F) (by omega) hF
    rw [h] at hy; rw [← Option.some.inj hy, hr] at hd; simp at hd
  | inf s =>
    obtain ⟨y, hy, hd⟩ := ofMpfr_inf (E := E) (F := F) (by omega) hF s
    rw [h] at hy; rw [← Option.some.inj hy, hr] at hd; simp at hd
  | zero s =>
    obtain ⟨y, hy, hd⟩ := ofMpfr_zero (E := E) (F := F) (by omega) hF s
    rw [h] at hy; rw [← Option.some.inj hy, hr] at hd; simp at hd

/-- **C53.** `ref_add`: the check at its end never fails. -/
theorem C53_ref_add {ER FR EA FA EB FB : ℕ} (hE : 1 ≤ ER) (hF : 1 ≤ FR) (a : Fp EA FA) (b : Fp EB FB) :
    ∃ r : Fp ER FR, refAdd ER FR a b = some r ∧ Delivers ER FR (exactAdd a.datum b.datum) r.datum := by
  have h := Mpfr.add_exact (FR + 1) (toMpfr_ok a) (toMpfr_ok b)
  rw [C47_to_mpfr_exact, C47_to_mpfr_exact] at h
  obtain ⟨r, hr, hd⟩ := ofMpfr_delivers hE hF h.1 h.2
  refine ⟨r, ?_, hd⟩
  rw [refAdd, hr, Option.bind_some, refAddCheck]
  split
  · rfl
  · rename_i hn
    have hf : r.flags = 1 := by
      rcases flags_cases r with f | f | f | f
      · simp [Fp.isZero, f] at hn
      · exact f
      · simp [Fp.isInf, f] at hn
      · simp [Fp.isNan, f] at hn
    have hnum := datum_normal r hf
    rw [if_pos]
    rw [Mpfr.value_eq ((C47_to_mpfr_exact r).trans hnum)]
    refine ofMpfr_value hE hF ?_ hr hnum
    intro s k e hm
    cases hx : exactAdd a.datum b.datum with
    | num w =>
      have := h.2 w hx
      rw [hm, Mpfr.rndn] at this
      split at this
      · simp at this
      · rename_i hw
        rw [(Mpfr.num.inj this).2.1]
        exact (Mpfr.rndnPos_spec (p := FR + 1) (by omega) (abs_pos.mpr hw)).1
    | _ =>
      have := h.1 (by rw [hx]; simp)
      rw [hx, hm] at this
      simp [Mpfr.datum] at this

/-- **C53.** `ref_div`. -/
theorem C53_ref_div {ER FR EA FA EB FB : ℕ} (hE : 1 ≤ ER) (hF : 1 ≤ FR) (a : Fp EA FA) (b : Fp EB FB) :
    ∃ r : Fp ER FR, refDiv ER FR a b = some r ∧ Delivers ER FR (exactDiv a.datum b.datum) r.datum := by
  have h := Mpfr.div_exact (FR + 1) (toMpfr_ok a) (toMpfr_ok b)
  rw [C47_to_mpfr_exact, C47_to_mpfr_exact] at h
  exact ofMpfr_delivers hE hF h.1 h.2

/-- **C53.** `ref_fma`: a single rounding. -/
theorem C53_ref_fma {ER FR EA FA EB FB EC FC : ℕ} (hE : 1 ≤ ER) (hF : 1 ≤ FR) (a : Fp EA FA) (b : Fp EB FB) (c : Fp EC FC) :
    ∃ r : Fp ER FR, refFma ER FR a b c = some r ∧ Delivers ER FR (exactFma a.datum b.datum c.datum) r.datum := by
  have h := Mpfr.fma_exact (FR + 1) (toMpfr_ok a) (toMpfr_ok b) (toMpfr_ok c)
  rw [C47_to_mpfr_exact, C47_to_mpfr_exact, C47_to_mpfr_exact] at h
  exact ofMpfr_delivers hE hF h.1 h.2

/-- **C53.** `ref_inv`, `ref_neg`, `ref_convert`, `ref_square` and `ref_ldexp_const`. -/
theorem C53_ref_unary {ER FR EA FA : ℕ} (hE : 1 ≤ ER) (hF : 1 ≤ FR) (a : Fp EA FA) (k : ℤ) :
    (∃ r : Fp ER FR, refInv ER FR a = some r ∧ Delivers ER FR (exactDiv (.num 1) a.datum) r.datum) ∧
    (∃ r : Fp ER FR, refNeg ER FR a = some r ∧ Delivers ER FR a.datum.neg r.datum) ∧
    (∃ r : Fp ER FR, refConvert ER FR a = some r ∧ Delivers ER FR a.datum r.datum) ∧
    (∃ r : Fp ER FR, refSquare ER FR a = some r ∧ Delivers ER FR (exactMul a.datum a.datum) r.datum) ∧
    (∃ r : Fp ER FR, refLdexp ER FR k a = some r ∧ Delivers ER FR (exactScale k a.datum) r.datum) := by
  refine ⟨?_, ?_, ?_, ?_, ?_⟩
  · have h := Mpfr.div_exact (FR + 1) (x := Mpfr.one) (by simp [Mpfr.one, Mpfr.Ok]) (toMpfr_ok a)
    rw [C47_to_mpfr_exact, show Mpfr.one.datum = .num 1 by simp [Mpfr.one, Mpfr.datum]] at h
    exact ofMpfr_delivers hE hF h.1 h.2
  · have h := Mpfr.negate_exact (FR + 1) (toMpfr a)
    rw [C47_to_mpfr_exact] at h
    exact ofMpfr_delivers hE hF h.1 h.2
  · have h := Mpfr.set_exact (FR + 1) (toMpfr a)
    rw [C47_to_mpfr_exact] at h
    exact ofMpfr_delivers hE hF h.1 h.2
  · have h := Mpfr.mul_exact (FR + 1) (toMpfr_ok a) (toMpfr_ok a)
    rw [C47_to_mpfr_exact] at h
    exact ofMpfr_delivers hE hF h.1 h.2
  · have h := Mpfr.mul2si_exact (FR + 1) k (toMpfr a)
    rw [C47_to_mpfr_exact] at h
    exact ofMpfr_delivers hE hF h.1 h.2

/-- **C53.** `ref_inv_faithful`: the reciprocal rounded down and the reciprocal rounded up. -/
theorem C53_ref_inv_faithful {ER FR EA FA : ℕ} (hE : 1 ≤ ER) (hF : 1 ≤ FR) (a : Fp EA FA) :
    ∃ r1 r2 : Fp ER FR, refInvFaithful ER FR a = (some r1, some r2) ∧
      DeliversDirected ER FR false (exactDiv (.num 1) a.datum) r1.datum ∧
      DeliversDirected ER FR true (exactDiv (.num 1) a.datum) r2.datum := by
  obtain ⟨r1, h1, d1⟩ := refInvFaithful_delivers (ER := ER) (FR := FR) hE hF a false
  obtain ⟨r2, h2, d2⟩ := refInvFaithful_delivers (ER := ER) (FR := FR) hE hF a true
  exact ⟨r1, r2, by rw [refInvFaithful, h1, h2], d1, d2⟩

/-- The formats of the hypotheses exist, and an operand that needs rounding: `1.625 * 1.625` in three fraction bits
is delivered as `2.75`. -/
example : (2 ≤ 4 ∧ 1 ≤ 3) ∧ (Fp.mk4 4 3 1 0 7 5).datum = .num (13 / 8) ∧
    exactMul (.num (13 / 8)) (.num (13 / 8)) = .num (169 / 64) ∧ exactAdd (.num 3) (.num (-3)) = .num 0 ∧
    exactAdd (.inf true) (.inf false) = .nan ∧ exactFma (.zero true) (.inf false) (.num 1) = .nan := by
  refine ⟨by decide, ?_, ?_, ?_, rfl, rfl⟩
  · rw [Fp.mk4_datum (by decide) (by decide) (by decide) (by decide) (by decide) (by decide)]
    norm_num [denote, bias]
  · simp only [exactMul, mulSpecial, Option.getD_none, Datum.val]; norm_num
  · simp only [exactAdd, addSpecial, Option.getD_none, Datum.val]; norm_num

end Thls
