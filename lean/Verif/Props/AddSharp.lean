import Verif.Props.Add
import Verif.Proofs.RefAgree

/-! # Property C14, C17, C18, C19: the dual-path adder, exactly

For which formats and for which operands the dual-path adder asserts, and for which it is correctly rounded. -/

namespace Thls
open Spec

/-- Everything below half of the least power of two of the format is rounded to zero. -/
theorem rounded_underflow {E F : ℕ} {v : ℚ} {d : Datum} (h : Rounded E F v d) (hv : |v| < (2 : ℚ) ^ (-bias E - 1)) :
    d = .zero (decide (v < 0)) := by
  obtain ⟨m, e, hn, hd⟩ := h
  have hsig := hn.1
  rw [hd, rangeCheck]
  have hm : (m : ℚ) * 2 ^ e ≤ 2 ^ (-bias E - 1) := by
    by_contra hc
    push Not at hc
    have h1 := hn.2.1 (2 ^ F) (-bias E - 1 - F) ⟨by simp, by rw [pow_succ]; have := Nat.pos_of_neZero (2 ^ F); omega⟩
    have h2 : ((2 ^ F : ℕ) : ℚ) * 2 ^ (-bias E - 1 - F) = 2 ^ (-bias E - 1) := by
      push_cast
      rw [← zpow_natCast, ← zpow_add₀ (by norm_num)]; congr 1; ring
    rw [h2, abs_of_nonpos (show |v| - m * 2 ^ e ≤ 0 by linarith),
      abs_of_nonpos (show |v| - 2 ^ (-bias E - 1) ≤ 0 by linarith)] at h1
    linarith
  have h3 : (2 : ℚ) ^ (e + F) ≤ (m : ℚ) * 2 ^ e := by
    have h4 : (2 : ℚ) ^ F ≤ m := by exact_mod_cast hsig.1
    rw [show e + F = (F : ℤ) + e by ring, zpow_add₀ (by norm_num), zpow_natCast]
    exact mul_le_mul_of_nonneg_right h4 (by positivity)
  have h6 : e + F ≤ -bias E - 1 := (zpow_le_zpow_iff_right₀ (by norm_num : (1 : ℚ) < 2)).mp (le_trans h3 hm)
  rw [if_pos (by omega)]

/-- **C19, C14.** For which numbers the dual-path adder fails an assertion: only in formats that are not
`DualFormat`, and there exactly when the exponents differ by `2F+4` or `2F+5`. -/
theorem C19_add_dual_asserts_iff {E F : ℕ} (hE : 3 < E) (hF : 1 ≤ F) (x y : Fp E F) (vx vy : ℚ) (hx : x.datum = .num vx)
    (hy : y.datum = .num vy) : AddDual.addSame x y = none ↔ ¬ DualFormat E F ∧
      (|(x.exp : ℤ) - y.exp| = 2 * F + 4 ∨ |(x.exp : ℤ) - y.exp| = 2 * F + 5) := by
  have h1 := (datum_num_iff.mp hx).1
  have h2 := (datum_num_iff.mp hy).1
  rw [AddDual.addSame_none (by omega) hF (by omega)]
  have habs : |(x.exp : ℤ) - y.exp| = ((x.exp - y.exp + (y.exp - x.exp) : ℕ) : ℤ) := by
    rcases le_total x.exp y.exp with h | h
    · rw [abs_of_nonpos (by omega)]; omega
    · rw [abs_of_nonneg (by omega)]; omega
  rw [habs]
  constructor
  · rintro ⟨a, b | b⟩
    · exact ⟨a, Or.inl (by omega)⟩
    · exact ⟨a, Or.inr (by omega)⟩
  · rintro ⟨a, b | b⟩
    · exact ⟨a, Or.inl (by omega)⟩
    · exact ⟨a, Or.inr (by omega)⟩

/-- In the format (8,61), which is not a `DualFormat`, exponents 126 apart assert and exponents 125 or 128 apart do not. -/
example : AddDual.addSame (Fp.mk4 8 61 1 0 126 0) (Fp.mk4 8 61 1 0 0 0) = none ∧
    AddDual.addSame (Fp.mk4 8 61 1 0 127 0) (Fp.mk4 8 61 1 0 0 0) = none ∧
    (AddDual.addSame (Fp.mk4 8 61 1 0 125 0) (Fp.mk4 8 61 1 0 0 0)).isSome = true ∧
    (AddDual.addSame (Fp.mk4 8 61 1 0 128 0) (Fp.mk4 8 61 1 0 0 0)).isSome = true := by
  decide +kernel

theorem addsTo_sharp {E F : ℕ} (hE : 3 < E) (hF : 1 ≤ F) (hfit : F + 2 < 2 ^ (E + 2)) {x y r : Fp E F} {vx vy : ℚ}
    (hx : x.datum = .num vx) (hy : y.datum = .num vy) (hr : AddDual.addSame x y = some r) :
    AddsTo E F vx vy r.datum ↔ vx + vy = 0 ∨ (2 : ℚ) ^ (-bias E - 2 ^ (E + 1)) ≤ |vx + vy| := by
  obtain ⟨h0, h1, h2⟩ := AddDual.addSame_sharp (by omega) hF hx hy hr
  rw [show -bias E - 2 ^ (E + 1) = -bias E - 2 * 2 ^ E by rw [pow_succ]; ring]
  unfold AddsTo
  by_cases hz : vx + vy = 0
  · rw [if_pos hz]
    exact ⟨fun _ => Or.inl hz, fun _ => h0 hz⟩
  · rw [if_neg hz]
    constructor
    · intro h
      right
      by_contra hc
      push Not at hc
      have hp : (0 : ℤ) < 2 ^ E := by positivity
      refine (h2 hz hfit hc).1 _ (rounded_underflow h (lt_of_lt_of_le hc ?_))
      exact zpow_le_zpow_right₀ (by norm_num) (by omega)
    · rintro (h | h)
      · exact absurd h hz
      · exact h1 hz h

/-- **C14, exactly.** Whenever `add` (the dual-path adder) returns, for operands of any two formats for which the
code compiles (`F + 2 < 2^(E+2)`, the count of leading zeros must fit the exponent): the result is the correctly
rounded sum of the two numbers if and only if the sum is zero or at least `2^(1 - 2^(E-1) - 2^(E+1))`. -/
theorem C14_add_correct_operands_iff {wEX wFX wEY wFY : ℕ} (hEX : 1 ≤ wEX) (hFX : 1 ≤ wFX) (hEY : 1 ≤ wEY) (hFY : 1 ≤ wFY)
    (hE : 3 < max wEX wEY) (hfit : max wFX wFY + 2 < 2 ^ (max wEX wEY + 2)) (x : Fp wEX wFX) (y : Fp wEY wFY)
    (r : Fp (max wEX wEY) (max wFX wFY)) (vx vy : ℚ) (hx : x.datum = .num vx) (hy : y.datum = .num vy)
    (hr : AddDual.add x y = some r) :
    AddsTo (max wEX wEY) (max wFX wFY) vx vy r.datum ↔
      vx + vy = 0 ∨ (2 : ℚ) ^ (-bias (max wEX wEY) - 2 ^ (max wEX wEY + 1)) ≤ |vx + vy| :=
  addsTo_sharp hE (by omega) hfit (by rw [promote_datum hEX hFX (by omega) (by omega), hx])
    (by rw [promote_datum hEY hFY (by omega) (by omega), hy]) hr

/-- In the format (4,40) the difference of adjacent numbers is right from the exponent field 8 on and wrong below. -/
example : (AddDual.addSame (Fp.mk4 4 40 1 0 8 1) (Fp.mk4 4 40 1 1 8 0)).map Fp.flags = some 0 ∧
    (AddDual.addSame (Fp.mk4 4 40 1 0 7 1) (Fp.mk4 4 40 1 1 7 0)).map Fp.flags = some 2 := by
  decide +kernel

/-- **C14, exactly.** The formats in which the dual-path adder always returns and always rounds correctly: `F + 3`
is not a power of two below `2^E` other than 8, 16, 32, and `F ≤ 2^(E+1)`. -/
theorem C14_add_correct_format_iff {E F : ℕ} (hE : 3 < E) (hF : 1 ≤ F) (hfit : F + 2 < 2 ^ (E + 2)) :
    (∀ (x y : Fp E F) (vx vy : ℚ), x.datum = .num vx → y.datum = .num vy →
      ∃ r, AddDual.addSame x y = some r ∧ AddsTo E F vx vy r.datum) ↔ DualFormat E F ∧ F ≤ 2 ^ (E + 1) := by
  have h1E : 1 ≤ E := by omega
  have hpE : 0 < 2 ^ E := by positivity
  have hpF : 2 ≤ 2 ^ F := by
    calc 2 = 2 ^ 1 := rfl
      _ ≤ 2 ^ F := Nat.pow_le_pow_right (by norm_num) hF
  constructor
  · intro H
    constructor
    · by_contra hbad
      have hbad' := hbad
      unfold DualFormat AddDual.ShiftOk at hbad'
      push Not at hbad'
      obtain ⟨k, hk, hkE, -⟩ := hbad'
      have hlt : 2 * F + 4 < 2 ^ E := by
        have : 2 ^ (k + 1) ≤ 2 ^ E := Nat.pow_le_pow_right (by norm_num) (by omega)
        rw [pow_succ] at this; omega
      have hx : (Fp.mk4 E F 1 0 (2 * F + 4) 0).datum = denote E F 1 0 (2 * F + 4) 0 :=
        Fp.mk4_datum (by norm_num) (by norm_num) hlt (by omega) h1E hF
      have hy : (Fp.mk4 E F 1 0 0 0).datum = denote E F 1 0 0 0 :=
        Fp.mk4_datum (by norm_num) (by norm_num) hpE (by omega) h1E hF
      obtain ⟨r, hr, -⟩ := H _ _ _ _ hx hy
      have hn := (C19_add_dual_asserts_iff hE hF _ _ _ _ hx hy).mpr ⟨hbad, Or.inl (by
        rw [Fp.mk4_exp (by norm_num) (by norm_num) hlt (by omega) h1E, Fp.mk4_exp (by norm_num) (by norm_num) hpE (by omega) h1E]
        rw [abs_of_nonneg (by omega)]; push_cast; ring)⟩
      rw [hn] at hr
      cases hr
    · by_contra hbig
      push Not at hbig
      have hx : (Fp.mk4 E F 1 0 0 1).datum = denote E F 1 0 0 1 := Fp.mk4_datum (by norm_num) (by norm_num) hpE (by omega) h1E hF
      have hy : (Fp.mk4 E F 1 1 0 0).datum = denote E F 1 1 0 0 := Fp.mk4_datum (by norm_num) (by norm_num) hpE (by omega) h1E hF
      obtain ⟨r, hr, h⟩ := H _ _ _ _ hx hy
      have hsum : (if (0 : ℕ) = 1 then (-1 : ℚ) else 1) * (((2 ^ F + 1 : ℕ) : ℚ) * 2 ^ (((0 : ℕ) : ℤ) - bias E - F)) +
          (if (1 : ℕ) = 1 then (-1 : ℚ) else 1) * (((2 ^ F + 0 : ℕ) : ℚ) * 2 ^ (((0 : ℕ) : ℤ) - bias E - F)) = 2 ^ (-bias E - F) := by
        rw [if_neg (by norm_num), if_pos rfl, show ((0 : ℕ) : ℤ) - bias E - F = -bias E - F by push_cast; ring]
        push_cast; ring
      have := (addsTo_sharp hE hF hfit hx hy hr).mp h
      rw [hsum, abs_of_pos (by positivity)] at this
      rcases this with h0 | h0
      · exact absurd h0 (by positivity)
      · have h1 := (zpow_le_zpow_iff_right₀ (by norm_num : (1 : ℚ) < 2)).mp h0
        have h2 : (2 : ℤ) ^ (E + 1) < F := by exact_mod_cast hbig
        omega
  · rintro ⟨hok, hw⟩ x y vx vy hx hy
    obtain ⟨r, hr, h1, h2⟩ := AddDual.addSame_num (by omega) hF hok (by rw [pow_succ] at hw; omega) hx hy
    refine ⟨r, hr, ?_⟩
    unfold AddsTo
    split
    · exact h1 ‹_›
    · exact h2 ‹_›

/-- Both sides occur among the formats that compile. -/
example : (32 ≤ 2 ^ (4 + 1) ∧ 32 + 2 < 2 ^ (4 + 2)) ∧ ¬ 33 ≤ 2 ^ (4 + 1) ∧ 33 + 2 < 2 ^ (4 + 2) := by norm_num

/-- **C17, exactly.** Whenever the dual-path adder returns and an operand is zero, infinite or NaN, in any format, the
result is the one of the table. -/
theorem C17_add_dual_exceptions_returned {wEX wFX wEY wFY : ℕ} (hEX : 1 ≤ wEX) (hFX : 1 ≤ wFX) (hEY : 1 ≤ wEY)
    (hFY : 1 ≤ wFY) (hE : 3 < max wEX wEY) (x : Fp wEX wFX) (y : Fp wEY wFY) (r : Fp (max wEX wEY) (max wFX wFY)) (d : Datum)
    (hd : addSpecial x.datum y.datum = some d) (hr : AddDual.add x y = some r) : r.datum = d := by
  refine AddDual.addSame_special_some (by omega) (by omega) ?_ hr
  rw [promote_datum hEX hFX (by omega) (by omega), promote_datum hEY hFY (by omega) (by omega), hd]

/-- **C18.** The dual-path adder is commutative in every format with `F ≤ 2^(E+1)`, assertion failures included: either
both orders fail or both return the same datum. -/
theorem C18_add_dual_commutative_all {E F : ℕ} (hE : 3 < E) (hF : 1 ≤ F) (hw : F ≤ 2 ^ (E + 1)) (x y : Fp E F) :
    (AddDual.addSame x y).map Fp.datum = (AddDual.addSame y x).map Fp.datum := by
  have hsome : ∀ a b : Fp E F, a.flags = b.flags → a.exp = b.exp → ∃ r, AddDual.addSame a b = some r := by
    intro a b h1 h2
    refine Option.ne_none_iff_exists'.mp fun hc => ?_
    have := (AddDual.addSame_none (by omega) hF h1).mp hc
    omega
  by_cases heq : x.flags = y.flags ∧ x.exp = y.exp
  · obtain ⟨r, hr⟩ := hsome x y heq.1 heq.2
    obtain ⟨r', hr'⟩ := hsome y x heq.1.symm heq.2.symm
    rw [hr, hr']
    simp only [Option.map_some, Option.some.injEq]
    rcases h : addSpecial x.datum y.datum with _ | d
    · obtain ⟨p, q, hp, hq⟩ := (C17_addSpecial_domain _ _).mp h
      obtain ⟨a0, a1, -⟩ := AddDual.addSame_sharp (by omega) hF hp hq hr
      obtain ⟨b0, b1, -⟩ := AddDual.addSame_sharp (by omega) hF hq hp hr'
      by_cases hz : p + q = 0
      · rw [a0 hz, b0 (by rw [add_comm]; exact hz)]
      · have hge := AddDual.sum_ge hp hq hz
        have hth : (2 : ℚ) ^ (-bias E - 2 * 2 ^ E) ≤ |p + q| := by
          refine le_trans (zpow_le_zpow_right₀ (by norm_num) ?_) hge
          have : (F : ℤ) ≤ 2 * 2 ^ E := by rw [pow_succ] at hw; exact_mod_cast (by omega : F ≤ 2 * 2 ^ E)
          omega
        have h1 := a1 hz hth
        rw [add_comm q p] at b1
        exact rounded_unique h1 (b1 hz hth)
    · rw [AddDual.addSame_special_some (by omega) hF h hr,
        AddDual.addSame_special_some (by omega) hF (by rwa [AddSingle.addSpecial_comm]) hr']
  · have : AddDual.addSame x y = AddDual.addSame y x := by
      rcases AddDual.addSame_ordered (show 1 ≤ E by omega) x y with ⟨h, a, b⟩ | ⟨h, a, b⟩ <;>
      rcases AddDual.addSame_ordered (show 1 ≤ E by omega) y x with ⟨h', a', b'⟩ | ⟨h', a', b'⟩
      · exact absurd ⟨by omega, by have := b (by omega); have := b' (by omega); omega⟩ heq
      · rw [h, h']
      · rw [h, h']
      · exact absurd ⟨by omega, by have := b (by omega); have := b' (by omega); omega⟩ heq
    rw [this]

/-- In the format (8,61) both orders assert. -/
example : AddDual.addSame (Fp.mk4 8 61 1 0 126 0) (Fp.mk4 8 61 1 0 0 0) = none ∧
    AddDual.addSame (Fp.mk4 8 61 1 0 0 0) (Fp.mk4 8 61 1 0 126 0) = none ∧ (61 ≤ 2 ^ (8 + 1)) := by
  decide +kernel

end Thls
