import Verif.Proofs.DotRef
import Verif.Props.SoftFloat
import Verif.Model.SoftLoops

/-! # C72, C73, C75: the host arithmetic the references rest on

The tests and references compute in `double`, in MPFR and with `f32_div`. Here the parts of them that the theorems about the references do not
reach - zeros, infinities, NaNs, overflow - are stated for all operands. -/

namespace Thls
open Spec

theorem dblValue_num {x : Ieee 11 52} {u : ℚ} (h : x.datum = .num u) :
    ∃ s m e, dblValue x = .num s m e ∧ 0 < m ∧ u = (if s then -1 else 1) * ((m : ℚ) * 2 ^ e) := by
  have hd := dblValue_datum x
  rw [h] at hd
  have hok : ∀ s m e, dblValue x = .num s m e → 0 < m := by
    intro s m e
    unfold dblValue
    simp only
    split_ifs <;> intro hh <;> simp at hh <;> omega
  cases hv : dblValue x with
  | nan => rw [hv] at hd; simp [Mpfr.datum] at hd
  | inf s => rw [hv] at hd; simp [Mpfr.datum] at hd
  | zero s => rw [hv] at hd; simp [Mpfr.datum] at hd
  | num s m e =>
    refine ⟨s, m, e, rfl, hok _ _ _ hv, ?_⟩
    rw [hv] at hd
    simp only [Mpfr.datum, Datum.num.injEq] at hd
    rw [← hd]

theorem dblOf_special : (dblOf .nan).datum = .nan ∧ (∀ s, (dblOf (.inf s)).datum = .inf s) ∧ ∀ s, (dblOf (.zero s)).datum = .zero s := by
  refine ⟨?_, ?_, ?_⟩ <;> decide +kernel

theorem dblValue_nan_iff {x : Ieee 11 52} : dblValue x = .nan ↔ x.datum = .nan := by
  rw [← dblValue_datum]
  cases dblValue x <;> simp [Mpfr.datum]

/-- **C75.** `x + y` of two doubles, as the references use it, is the IEEE 754 sum for all operands: NaNs, infinities and zeros as in
`addSpecial`; two numbers give the exact sum rounded to nearest, and a positive zero if they cancel. -/
theorem C75_double_add (x y : Ieee 11 52) :
    (∀ d, addSpecial x.datum y.datum = some d → (dblAdd x y).datum = d) ∧
    ∀ u v, x.datum = .num u → y.datum = .num v →
      if u + v = 0 then (dblAdd x y).datum = .zero false else RoundedBinary64 (u + v) (dblAdd x y).datum := by
  obtain ⟨n0, i0, z0⟩ := dblOf_special
  constructor
  · intro d hd
    have hx := dblValue_datum x
    have hy := dblValue_datum y
    cases h1 : dblValue x <;> cases h2 : dblValue y <;> rw [h1] at hx <;> rw [h2] at hy <;> simp only [Mpfr.datum] at hx hy <;>
      rw [← hx, ← hy] at hd <;> simp only [addSpecial, Option.some.injEq, reduceCtorEq] at hd <;> subst hd <;> unfold dblAdd <;> rw [h1, h2] <;>
      simp only [Mpfr.add, n0, i0, z0]
    · split_ifs <;> simp only [n0, i0]
    · rw [← hy]
    · rw [← hx]
  · intro u v hu hv
    obtain ⟨s, m, e, h1, hm, e1⟩ := dblValue_num hu
    obtain ⟨s', m', e', h2, hm', e2⟩ := dblValue_num hv
    have ha : dblAdd x y = dblSum s m e s' m' e' := by unfold dblAdd; rw [h1, h2]
    rw [ha]
    unfold dblSum
    simp only
    set k : ℤ := (if s then -1 else 1) * (m * 2 ^ (e - min e e').toNat) + (if s' then -1 else 1) * (m' * 2 ^ (e' - min e e').toNat) with hk
    have hsum : u + v = (k : ℚ) * 2 ^ min e e' := by
      have p1 : (2 : ℚ) ^ e = 2 ^ (e - min e e').toNat * 2 ^ min e e' := by
        rw [← zpow_natCast, ← zpow_add₀ (by norm_num)]; congr 1; omega
      have p2 : (2 : ℚ) ^ e' = 2 ^ (e' - min e e').toNat * 2 ^ min e e' := by
        rw [← zpow_natCast, ← zpow_add₀ (by norm_num)]; congr 1; omega
      rw [e1, e2, hk, p1, p2]
      cases s <;> cases s' <;> push_cast <;> simp <;> ring
    have hp : (0 : ℚ) < 2 ^ min e e' := by positivity
    by_cases k0 : k = 0
    · rw [if_pos k0, hsum, k0]
      simp only [Int.cast_zero, zero_mul, if_true]
      exact z0 false
    · have k0q : (k : ℚ) ≠ 0 := by exact_mod_cast k0
      have hne : u + v ≠ 0 := by rw [hsum]; exact mul_ne_zero k0q hp.ne'
      rw [if_neg k0, if_neg hne]
      have hr := dblRound_rounded (Int.natAbs_pos.2 k0) (decide (k < 0)) (min e e')
      have hq : (if decide (k < 0) = true then (-1 : ℚ) else 1) * ((k.natAbs : ℚ) * 2 ^ min e e') = u + v := by
        rw [hsum]
        have hab : (k.natAbs : ℚ) = |(k : ℚ)| := by
          rw [Nat.cast_natAbs, Int.cast_abs]
        rw [hab]
        by_cases kn : k < 0
        · have knq : (k : ℚ) < 0 := by exact_mod_cast kn
          simp only [kn, decide_true, if_true, abs_of_neg knq]; ring
        · have knq : (0 : ℚ) ≤ k := by exact_mod_cast not_lt.1 kn
          simp only [kn, decide_false, Bool.false_eq_true, if_false, abs_of_nonneg knq]; ring
      rw [hq] at hr
      exact hr

/-- **C75.** `x * y` of two doubles, as the references use it, is the IEEE 754 product for all operands. -/
theorem C75_double_mul (x y : Ieee 11 52) :
    (∀ d, mulSpecial x.datum y.datum = some d → (dblMul x y).datum = d) ∧
    ∀ u v, x.datum = .num u → y.datum = .num v → RoundedBinary64 (u * v) (dblMul x y).datum := by
  obtain ⟨n0, i0, z0⟩ := dblOf_special
  constructor
  · intro d hd
    have hneg : ∀ w : Ieee 11 52, (dblValue w).datum.isNeg = (dblValue w).neg := by
      intro w
      cases h : dblValue w with
      | num s m e =>
        have h0 : 0 < m := by
          obtain ⟨s1, m1, e1, h', h2, -⟩ := dblValue_num (x := w) (by rw [← dblValue_datum, h]; rfl)
          rw [h] at h'; cases h'; exact h2
        have hp : (0 : ℚ) < (m : ℚ) * 2 ^ e := by positivity
        cases s
        · simpa [Mpfr.datum, Datum.isNeg, Mpfr.neg] using hp.le
        · simpa [Mpfr.datum, Datum.isNeg, Mpfr.neg] using hp
      | _ => simp [Mpfr.datum, Datum.isNeg, Mpfr.neg]
    have gx := hneg x
    have gy := hneg y
    rw [← dblValue_datum x, ← dblValue_datum y] at hd
    cases h1 : dblValue x <;> cases h2 : dblValue y <;> rw [h1] at hd gx <;> rw [h2] at hd gy <;> simp only [Mpfr.datum] at hd gx gy <;>
      simp only [mulSpecial, Option.some.injEq, reduceCtorEq] at hd <;> subst hd <;> unfold dblMul <;> rw [h1, h2] <;>
      simp only [Mpfr.mul, n0, i0, z0, gx, gy]
  · intro u v hu hv
    obtain ⟨s, m, e, h1, hm, e1⟩ := dblValue_num hu
    obtain ⟨s', m', e', h2, hm', e2⟩ := dblValue_num hv
    have ha : dblMul x y = dblRound (s != s') (m * m') (e + e') := by unfold dblMul; rw [h1, h2]
    rw [ha]
    have hr := dblRound_rounded (Nat.mul_pos hm hm') (s != s') (e + e')
    have hq : (if (s != s') = true then (-1 : ℚ) else 1) * (((m * m' : ℕ) : ℚ) * 2 ^ (e + e')) = u * v := by
      rw [e1, e2, zpow_add₀ (by norm_num)]
      cases s <;> cases s' <;> push_cast <;> simp <;> ring
    rw [hq] at hr
    exact hr

/-- **C75.** `x != y` of two doubles, on which the tests of `dot4_pos_rndd` decide, is true if either is a NaN, and otherwise if the values
differ; zeros of either sign are the same value. -/
theorem C75_double_ne (x y : Ieee 11 52) :
    dblNe x y = true ↔ x.datum = .nan ∨ y.datum = .nan ∨ ¬ x.datum.RealEq y.datum := by
  by_cases hx : x.datum = .nan
  · have h := dblValue_nan_iff.2 hx
    simp [dblNe, h, hx]
  · by_cases hy : y.datum = .nan
    · have h := dblValue_nan_iff.2 hy
      have : dblNe x y = true := by
        unfold dblNe
        rw [h]
        cases dblValue x <;> rfl
      simp [this, hy]
    · have := dblNe_spec x y hx hy
      simp only [hx, hy, false_or, ← this, Bool.not_eq_false]

/-- The hypotheses are met: a number and a zero, numbers that cancel, opposite infinities; a NaN is different from itself. -/
example : addSpecial (dblOf (.num false 3 (-1))).datum (dblOf (.zero true)).datum = some (.num (3 / 2)) ∧
    (dblAdd (dblOf (.num false 3 (-1))) (dblOf (.num true 3 (-1)))).datum = .zero false ∧
    (dblAdd (dblOf (.inf true)) (dblOf (.inf false))).datum = .nan ∧
    dblNe (dblOf .nan) (dblOf .nan) = true ∧ dblNe (dblOf (.zero true)) (dblOf (.zero false)) = false := by
  decide +kernel

/-- **C72.** `thls::div` of `fp_softfloat32` is the IEEE 754 quotient for all operands. -/
theorem C72_soft_div {fast a b : ℕ} (hfast : 32 ≤ fast) (ha : a < 2 ^ 32) (hb : b < 2 ^ 32) :
    ∃ z, softDiv32 fast a b = some z ∧ z < 2 ^ 32 ∧ IeeeQuotient 8 23 (wordDatum 8 23 a) (wordDatum 8 23 b) (wordDatum 8 23 z) :=
  C63_soft_div32 hfast ha hb

example : softDiv32 64 0x3F800000 0x40400000 = some 0x3EAAAAAB ∧ softDiv32 64 0x40400000 0x3F800000 = some 0x40400000 := by
  decide +kernel

theorem subnormalize_inf {emin t : ℤ} {x : Mpfr} {s : Bool} (h : Mpfr.subnormalize emin t x = .inf s) : x = .inf s := by
  cases x with
  | num s' m e => simp only [Mpfr.subnormalize] at h; split_ifs at h
  | _ => simpa [Mpfr.subnormalize] using h

/-- **C73.** When a reference of numbers overflows, the value it returns has the sign that MPFR's ternary value has: the infinite result
is above the exact one if it is positive, below it if it is negative. Single and double precision, all three operations. -/
theorem C73_ternary_overflow {a b : Mpfr} {p q : ℚ} (ha : a.datum = .num p) (hb : b.datum = .num q) {s : Bool} {t : ℤ}
    (h : Native.refMulSingle 24 a b = some (.inf s, t) ∨ Native.refAddSingle 24 a b = some (.inf s, t) ∨
      Native.refDivSingle 24 a b = some (.inf s, t) ∨ Native.refMulDouble 53 a b = some (.inf s, t) ∨
      Native.refAddDouble 53 a b = some (.inf s, t) ∨ Native.refDivDouble 53 a b = some (.inf s, t)) :
    t = if s then -1 else 1 := by
  cases a <;> simp only [Mpfr.datum, reduceCtorEq] at ha
  cases b <;> simp only [Mpfr.datum, reduceCtorEq] at hb
  rcases h with h | h | h | h | h | h <;>
    simp only [Native.refMulSingle, Native.refAddSingle, Native.refDivSingle, Native.refMulDouble, Native.refAddDouble, Native.refDivDouble,
      Native.refWith, ne_eq, not_true, if_false, Mpfr.mulT, Mpfr.addT, Mpfr.divT, Mpfr.roundT, Option.some.injEq, Prod.mk.injEq] at h <;>
    · obtain ⟨h1, h2⟩ := h
      have h3 := subnormalize_inf h1
      rw [h3] at h2
      rw [← h2]; rfl

example : Native.refMulSingle 24 (.num true 1 127) (.num false 1 1) = some (.inf true, -1) := by decide +kernel

end Thls
