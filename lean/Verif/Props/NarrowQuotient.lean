import Verif.Proofs.QuotientGap

/-! # Property C96: dividing with a longer fraction at the same exponent width

Unlike products, quotients survive: a quotient of two `F+1`-bit significands is never so close below a power of two that its meaningless bits round up. -/

namespace Thls
open Spec

variable {E F G : ℕ}

/-- The bits of a quotient of widened operands never round up over the top. -/
theorem div_widened_frac (hE : 2 ≤ E) (hF : 1 ≤ F) (hFG : F < G) (x y : Fp E F) :
    (divV1 E G (convert E G x) (convert E G y)).frac ≤ 2 ^ G - 2 ^ (G - F) := by
  unfold divV1
  have hp : ∀ z : Fp E F, (promote E G (convert E G z)).frac = z.frac * 2 ^ (G - F) := by
    intro z
    rw [(promote_fields (by omega) (by omega) le_rfl le_rfl (convert E G z)).2.2.2, Nat.sub_self, pow_zero, mul_one,
      convert_up_frac (by omega) hF hFG.le]
  exact div_frac_le hE hF hFG (x.frac_lt hF) (y.frac_lt hF) (hp x) (hp y)

/-- Zeros, infinities and NaNs of the division are kept by the conversion. -/
theorem div_widened_special (hE : 2 ≤ E) (hF : 1 ≤ F) (hFG : F < G) (x y : Fp E F)
    (h : ∀ v, (divV1 E G (convert E G x) (convert E G y)).datum ≠ .num v) :
    (convert E F (divV1 E G (convert E G x) (convert E G y))).datum = (divV1 E G (convert E G x) (convert E G y)).datum := by
  refine (C24_convert_special_iff (by omega) hF (by omega) (by omega) _ h).mpr ?_
  rintro ⟨-, -, -, -, hc⟩
  have h1 := div_widened_frac hE hF hFG x y
  have h2 : 2 ^ (G - F) = 2 * 2 ^ (G - F - 1) := by rw [← pow_succ']; congr 1; omega
  have h3 : 0 < 2 ^ (G - F - 1) := by positivity
  have h4 : 2 ^ (G - F) ≤ 2 ^ G := Nat.pow_le_pow_right (by norm_num) (by omega)
  omega

/-- **C96, division at the same exponent width, for each pair of numbers.** No condition on the size of the quotient is needed. -/
theorem C96_div_same_exponent_operands_iff (hE : 2 ≤ E) (hF : 1 ≤ F) (hFG : F < G) (x y : Fp E F) (vx vy : ℚ)
    (hx : x.datum = .num vx) (hy : y.datum = .num vy) :
    (convert E F (divV1 E G (convert E G x) (convert E G y))).equals (divV1 E F x y) = true ↔ ¬ RoundsTwice E F G (vx / vy) := by
  rcases le_or_gt ((2 : ℚ) ^ (-bias E)) |vx / vy| with hq | hq
  · exact C96_div_same_exponent_iff hE hF hFG x y vx vy hx hy hq
  · obtain ⟨mx, kx, hmx, hax⟩ := num_sig hF hx
    obtain ⟨my, ky, hmy, hay⟩ := num_sig hF hy
    have hs := quotient_below hax hay hmx hmy hq
    refine iff_of_true ?_ (subMax_not_twice hFG hs)
    have h1 := subMax_flush hFG.le hs (C20_div_correctly_rounded (by omega) (by omega) (by omega) (by omega) (by omega) (by omega) (by omega)
      (convert E G x) (convert E G y) vx vy
      (by rw [C23_convert_widen_exact (by omega) hF le_rfl hFG.le, hx]) (by rw [C23_convert_widen_exact (by omega) hF le_rfl hFG.le, hy]))
    have h2 := subMax_flush le_rfl hs (C20_div_correctly_rounded (by omega) (by omega) (by omega) (by omega) (by omega) (by omega) (by omega) x y vx vy hx hy)
    rw [C07_equals_iff_same_datum (by omega) hF, div_widened_special hE hF hFG x y (by intro v; rw [h1]; simp), h1, h2]

/-- **C96, division at the same exponent width, for all operands.** Dividing in a format with the same exponent width and a longer fraction
and narrowing gives the directly computed result for all operands, zeros, infinities and NaN included, exactly if the longer fraction has at
least `2F+1` bits. -/
theorem C96_div_same_exponent_all_iff (hE : 2 ≤ E) (hF : 1 ≤ F) (hFG : F < G) :
    (∀ x y : Fp E F, (convert E F (divV1 E G (convert E G x) (convert E G y))).equals (divV1 E F x y) = true) ↔ 2 * F + 1 ≤ G := by
  constructor
  · intro h
    by_contra hc
    obtain ⟨x, y, vx, vy, hx, hy, ht⟩ := div_twice hE hF hFG (show G ≤ 2 * F by omega)
    exact (C96_div_same_exponent_operands_iff hE hF hFG x y vx vy hx hy).mp (h x y) ht
  · intro h x y
    cases hd : divSpecial x.datum y.datum with
    | some d =>
      have h1 := C22_div_exceptions (wER := E) (wFR := F) (by omega) hF (by omega) hF (by omega) (by omega) x y d hd
      have h2 : (divV1 E G (convert E G x) (convert E G y)).datum = d := by
        refine C22_div_exceptions (by omega) (by omega) (by omega) (by omega) (by omega) (by omega) _ _ d ?_
        rw [C23_convert_widen_exact (by omega) hF le_rfl hFG.le, C23_convert_widen_exact (by omega) hF le_rfl hFG.le, hd]
      have hn : ∀ v, d ≠ .num v := by
        intro v hv
        subst hv
        generalize x.datum = a at hd
        generalize y.datum = b at hd
        cases a <;> cases b <;> simp [divSpecial] at hd
      rw [C07_equals_iff_same_datum (by omega) hF, div_widened_special hE hF hFG x y (by intro v; rw [h2]; exact hn v), h1, h2]
    | none =>
      obtain ⟨vx, vy, hx, hy⟩ := (C22_divSpecial_domain _ _).mp hd
      obtain ⟨mx, kx, hmx, hax⟩ := num_sig hF hx
      obtain ⟨my, ky, hmy, hay⟩ := num_sig hF hy
      exact (C96_div_same_exponent_operands_iff hE hF hFG x y vx vy hx hy).mpr (div_not_twice h hax hay hmx hmy)

/-- Single precision with 47 fraction bits is safe for quotients, with 46 it is not; least positive number divided by three, in particular. -/
example : (2 * 23 + 1 ≤ 47 ∧ ¬ 2 * 23 + 1 ≤ 46) ∧
    (convert 8 23 (divV1 8 47 (convert 8 47 (Fp.mk4 8 23 1 0 0 0)) (convert 8 47 (Fp.mk4 8 23 1 0 128 (2 ^ 22))))).equals
      (divV1 8 23 (Fp.mk4 8 23 1 0 0 0) (Fp.mk4 8 23 1 0 128 (2 ^ 22))) = true := by
  refine ⟨by decide, by decide +kernel⟩

end Thls
