import Verif.Props.Inv
import Verif.Proofs.Ieee
import Verif.Proofs.Fma

/-! # Exactly when the directly tabulated reciprocal is correctly rounded -/

namespace Thls.Inv
open Spec

/-- The reciprocal of the significand `s` lies below the midpoint of two neighbouring numbers of `p` bits in `[1/2,1)`,
by at most `2^-54`: half a unit in the last place of a double in that binade. -/
def JustBelowMidpoint (p : ℕ) (s : ℚ) : Prop :=
  ∃ k : ℕ, Odd k ∧ 1 / s < k / 2 ^ (p + 1) ∧ (k : ℚ) / 2 ^ (p + 1) - 1 / s ≤ 1 / 2 ^ 54

/-- The double quotient lands on the midpoint, and then rounds up. -/
theorem directEntry_tie {LR Ly f k : ℕ} (hLR : LR ≤ 51) (hk : Odd k)
    (h1 : 2 ^ (LR + 1 + Ly) < k * (2 ^ Ly + f))
    (h2 : (k * (2 ^ Ly + f) - 2 ^ (LR + 1 + Ly)) * 2 ^ (53 - LR) ≤ 2 ^ Ly + f) :
    2 * directEntry LR Ly f = k + 1 := by
  obtain ⟨j, rfl⟩ := hk
  obtain ⟨i, hi⟩ := Nat.exists_eq_add_of_le hLR
  unfold directEntry roundDouble divDouble
  have e1 : 53 - LR = i + 2 := by omega
  have e2 : 52 - LR = i + 1 := by omega
  rw [e1] at h2
  rw [e1, e2]
  have e53 : 2 ^ Ly * 2 ^ 53 = 2 ^ (i + 1) * 2 ^ (LR + 1 + Ly) := by
    rw [← pow_add, ← pow_add]; congr 1; omega
  rw [e53]
  have eH : 2 ^ (i + 2) = 2 * 2 ^ (i + 1) := by ring
  rw [eH] at h2 ⊢
  obtain ⟨H2, hH2⟩ : ∃ c, 2 ^ (i + 1) = 2 * c := ⟨2 ^ i, by ring⟩
  have hH0 : 0 < 2 ^ (i + 1) := by positivity
  generalize 2 ^ (i + 1) = H at *
  generalize 2 ^ (LR + 1 + Ly) = N at *
  generalize 2 ^ Ly + f = Y at *
  obtain ⟨δ, hδ⟩ := Nat.exists_eq_add_of_le h1.le
  have hδ0 : 0 < δ := by omega
  rw [hδ, Nat.add_sub_cancel_left] at h2
  have hHδ : 0 < H * δ := Nat.mul_pos hH0 hδ0
  have h2' : 2 * (H * δ) ≤ Y := by
    calc 2 * (H * δ) = δ * (2 * H) := by ring
      _ ≤ Y := h2
  have hY : 0 < Y := by omega
  have hkH : 0 < (2 * j + 1) * H := by positivity
  have hM : H * N = (Y - H * δ) + Y * ((2 * j + 1) * H - 1) := by
    zify [show H * δ ≤ Y by omega, show 1 ≤ (2 * j + 1) * H by omega]
    have : ((2 * j + 1 : ℤ)) * Y = N + δ := by exact_mod_cast hδ
    linear_combination (-(H : ℤ)) * this
  have hq : H * N / Y = (2 * j + 1) * H - 1 := by
    rw [hM, Nat.add_mul_div_left _ _ hY, Nat.div_eq_of_lt (by omega), Nat.zero_add]
  have hr : H * N % Y = Y - H * δ := by
    rw [hM, Nat.add_mul_mod_self_left, Nat.mod_eq_of_lt (by omega)]
  dsimp only
  rw [hq, hr]
  have hodd : ((2 * j + 1) * H - 1) % 2 = 1 := by
    rw [hH2]
    have : (2 * j + 1) * (2 * H2) = 2 * ((2 * j + 1) * H2) := by ring
    rw [hH2] at hkH
    omega
  rw [if_pos (by
    rcases Nat.lt_or_ge Y (2 * (Y - H * δ)) with h | h
    · exact Or.inl h
    · exact Or.inr ⟨by omega, hodd⟩)]
  rw [show (2 * j + 1) * H - 1 + 1 = (2 * j + 1) * H by omega]
  rw [show (2 * j + 1) * H + H = (j + 1) * (2 * H) by ring, Nat.mul_div_cancel _ (by omega)]
  ring

/-- Conversely, an entry above the midpoint comes from there. -/
theorem directEntry_above {LR Ly f : ℕ} (hLR : LR ≤ 51)
    (h : 2 * (2 : ℤ) ^ (LR + Ly) < (2 * (directEntry LR Ly f : ℤ) - 1) * (2 ^ Ly + f)) :
    ((2 * (directEntry LR Ly f : ℤ) - 1) * (2 ^ Ly + f) - 2 * 2 ^ (LR + Ly)) * 2 ^ (53 - LR) ≤ 2 ^ Ly + f := by
  revert h
  unfold directEntry roundDouble
  have hy0 : 0 < 2 ^ Ly + f := by positivity
  obtain ⟨hV1, -⟩ := divDouble_bounds (n := 2 ^ Ly) hy0
  set V := divDouble (2 ^ Ly) (2 ^ Ly + f) with hV
  obtain ⟨k, hk⟩ := Nat.exists_eq_add_of_le hLR
  have e1 : 53 - LR = k + 2 := by omega
  have e2 : 52 - LR = k + 1 := by omega
  rw [e1, e2]
  have eH : 2 ^ (k + 2) = 2 * 2 ^ (k + 1) := by ring
  have eHZ : (2 : ℤ) ^ (k + 2) = 2 * ((2 ^ (k + 1) : ℕ) : ℤ) := by push_cast; ring
  have hdm := Nat.div_mul_le_self (V + 2 ^ (k + 1)) (2 ^ (k + 2))
  have e53 : 2 ^ Ly * 2 ^ 53 = 2 ^ (k + 2) * 2 ^ (LR + Ly) := by
    rw [← pow_add, ← pow_add]; congr 1; omega
  rw [e53] at hV1
  set vr := (V + 2 ^ (k + 1)) / 2 ^ (k + 2) with hvr
  rw [eHZ]
  rw [eH] at hdm hV1
  generalize 2 ^ (k + 1) = H at *
  have hAZ : (vr : ℤ) * (2 * H) ≤ V + H := by exact_mod_cast hdm
  have hV1Z : 2 * ((V : ℤ) * (2 ^ Ly + f)) ≤ 2 * (2 * H * 2 ^ (LR + Ly)) + (2 ^ Ly + f) := by exact_mod_cast hV1
  have hyZ : (0 : ℤ) < 2 ^ Ly + f := by positivity
  clear_value V vr
  generalize hN : (2 : ℤ) ^ (LR + Ly) = N at *
  generalize hY : (2 : ℤ) ^ Ly + f = Y at *
  have hA' := mul_le_mul_of_nonneg_right hAZ hyZ.le
  intro h
  linarith

/-- The two forms of the condition. -/
theorem justBelow_iff {FY FR f : ℕ} (h50 : FR ≤ 50) (hf : f < 2 ^ FY) :
    JustBelowMidpoint (FR + 1) (1 + f / 2 ^ FY) ↔
      2 * (2 : ℤ) ^ (FR + 1 + FY) < (2 * (directEntry (FR + 1) FY f : ℤ) - 1) * (2 ^ FY + f) := by
  have hYQ : (0 : ℚ) < 2 ^ FY + f := by positivity
  have hs : 1 / (1 + (f : ℚ) / 2 ^ FY) = 2 ^ FY / (2 ^ FY + f) := by field_simp
  have hpow : (2 : ℚ) ^ 54 = 2 ^ (FR + 2) * 2 ^ (52 - FR) := by rw [← pow_add]; congr 1; omega
  have hN : 2 * (2 : ℤ) ^ (FR + 1 + FY) = 2 ^ (FR + 1 + 1 + FY) := by ring
  have key : ∀ k : ℕ, (1 / (1 + (f : ℚ) / 2 ^ FY) < k / 2 ^ (FR + 1 + 1) ∧
      (k : ℚ) / 2 ^ (FR + 1 + 1) - 1 / (1 + (f : ℚ) / 2 ^ FY) ≤ 1 / 2 ^ 54) ↔
      2 ^ (FR + 1 + 1 + FY) < k * (2 ^ FY + f) ∧
        (((k * (2 ^ FY + f) : ℕ) : ℤ) - 2 ^ (FR + 1 + 1 + FY)) * 2 ^ (52 - FR) ≤ 2 ^ FY + f := by
    intro k
    rw [hs]
    have a : (2 : ℚ) ^ FY / (2 ^ FY + f) < k / 2 ^ (FR + 1 + 1) ↔ 2 ^ (FR + 1 + 1 + FY) < k * (2 ^ FY + f) := by
      rw [div_lt_div_iff₀ hYQ (by positivity)]
      have : (2 : ℚ) ^ FY * 2 ^ (FR + 1 + 1) = ((2 ^ (FR + 1 + 1 + FY) : ℕ) : ℚ) := by push_cast; ring
      rw [this]
      constructor
      · intro h; exact_mod_cast h
      · intro h; exact_mod_cast h
    have b : (k : ℚ) / 2 ^ (FR + 1 + 1) - 2 ^ FY / (2 ^ FY + f) ≤ 1 / 2 ^ 54 ↔
        (((k * (2 ^ FY + f) : ℕ) : ℤ) - 2 ^ (FR + 1 + 1 + FY)) * 2 ^ (52 - FR) ≤ 2 ^ FY + f := by
      rw [div_sub_div _ _ (by positivity) hYQ.ne', div_le_div_iff₀ (by positivity) (by positivity), hpow]
      have e : ((k : ℚ) * (2 ^ FY + f) - 2 ^ (FR + 1 + 1) * 2 ^ FY) * (2 ^ (FR + 2) * 2 ^ (52 - FR)) =
          2 ^ (FR + 1 + 1) * ((((((k * (2 ^ FY + f) : ℕ) : ℤ) - 2 ^ (FR + 1 + 1 + FY)) * 2 ^ (52 - FR) : ℤ)) : ℚ) := by
        push_cast; ring
      have e' : 1 * ((2 : ℚ) ^ (FR + 1 + 1) * (2 ^ FY + f)) = 2 ^ (FR + 1 + 1) * (((2 ^ FY + f : ℤ)) : ℚ) := by
        push_cast; ring
      rw [e, e', mul_le_mul_iff_right₀ (by positivity)]
      exact_mod_cast Iff.rfl
    rw [a, b]
  unfold JustBelowMidpoint
  rw [hN]
  constructor
  · rintro ⟨k, hk, h1, h2⟩
    obtain ⟨h1, h2⟩ := (key k).mp ⟨h1, h2⟩
    have ht := directEntry_tie (LR := FR + 1) (by omega) hk h1 (by
      zify [h1.le]
      rw [show 53 - (FR + 1) = 52 - FR by omega]
      exact_mod_cast h2)
    have : (2 * (directEntry (FR + 1) FY f : ℤ) - 1) = k := by omega
    rw [this]
    exact_mod_cast h1
  · intro h
    have hpos : 0 < directEntry (FR + 1) FY f := by
      rcases Nat.eq_zero_or_pos (directEntry (FR + 1) FY f) with h0 | h0
      · rw [h0] at h
        have : (0 : ℤ) < 2 ^ (FR + 1 + 1 + FY) := by positivity
        have : (0 : ℤ) ≤ 2 ^ FY + f := by positivity
        push_cast at h
        linarith
      · exact h0
    have h2 := directEntry_above (LR := FR + 1) (by omega) (by rw [hN]; exact h)
    rw [hN, show 53 - (FR + 1) = 52 - FR by omega] at h2
    refine ⟨2 * directEntry (FR + 1) FY f - 1, ⟨directEntry (FR + 1) FY f - 1, by omega⟩, ?_⟩
    rw [key]
    have hc : ((2 * directEntry (FR + 1) FY f - 1 : ℕ) : ℤ) = 2 * (directEntry (FR + 1) FY f : ℤ) - 1 := by omega
    constructor
    · zify; rw [hc]; exact h
    · push_cast; rw [hc]; exact h2

/-- A rounded value can be written as the value of its datum. -/
theorem rounded_num_near {E F n : ℕ} {x q : ℚ} {g : ℤ} (hn : IsSig (F + 1) n) (h : Rounded E F x (.num q)) :
    abs (|x| - |q|) ≤ abs (|x| - n * 2 ^ g) := by
  obtain ⟨m, e, hm, hd⟩ := h
  have hq : |q| = m * 2 ^ e := by
    unfold rangeCheck at hd
    split at hd
    · cases hd
    · split at hd
      · cases hd
      · injection hd with hd
        rw [hd]
        have h0 : (0 : ℚ) ≤ m * 2 ^ e := mul_nonneg (by positivity) (two_zpow_pos e).le
        split
        · rw [neg_one_mul, abs_neg, abs_of_nonneg h0]
        · rw [one_mul, abs_of_nonneg h0]
  rw [hq]
  exact hm.2.1 n g hn

/-- Above the midpoint, the reciprocal is not correctly rounded. -/
theorem direct_not_rounded {E FY FR : ℕ} (hE : 2 ≤ E) (hFY : 1 ≤ FY) (hFY2 : FY ≤ 30) (hFR : 1 ≤ FR)
    (hF : FY ≤ FR + 1) (h50 : FR ≤ 50) (y : Fp E FY) (v : ℚ)
    (hy : y.datum = .num v) (hv : |v| ≤ 2 ^ bias E)
    (hbad : 2 * (2 : ℤ) ^ (FR + 1 + FY) < (2 * (directEntry (FR + 1) FY y.frac : ℤ) - 1) * (2 ^ FY + y.frac)) :
    ∃ z : Fp E FR, directFp FR y = some z ∧ ¬ Rounded E FR (1 / v) z.datum := by
  refine ⟨_, inv_direct_eq hFY hFY2 h50 hF y, ?_⟩
  rw [result_datum (by omega) hFR y _ (exp_sel_lt baseExp_lt), inv_value hy]
  have hf1 := (datum_num_iff.mp hy).1
  have hfr := y.frac_lt hFY
  have hf0 : y.frac ≠ 0 := by
    intro h0
    rw [h0, directEntry_one (by omega)] at hbad
    have e : (2 : ℤ) ^ (FR + 1 + FY) = 2 ^ (FR + 1) * 2 ^ FY := by ring
    have : (0 : ℤ) < 2 ^ FY := by positivity
    rw [e] at hbad
    push_cast at hbad
    nlinarith
  have he3 : y.exp + 3 ≤ 2 ^ E := by
    rcases exp_of_small hE hFY hy hv with h | h
    · exact h
    · exact absurd h.2 hf0
  have hy2 : 2 ^ FY + y.frac < 2 ^ (FY + 1) := by rw [pow_succ 2]; omega
  obtain ⟨hb1, hb2⟩ := bias_bounds hE
  have hyQ : (0 : ℚ) < ((2 ^ FY + y.frac : ℕ) : ℚ) := by
    have : 0 < 2 ^ FY + y.frac := by positivity
    exact_mod_cast this
  set g : ℤ := bias E - y.exp - (FR + 1) with hg
  have hX : (2 : ℚ) ^ (bias E + FY - y.exp) / ((2 ^ FY + y.frac : ℕ) : ℚ) =
      ((2 ^ (FR + 1 + FY) : ℕ) : ℚ) / ((2 ^ FY + y.frac : ℕ) : ℚ) * 2 ^ g := by
    have : (2 : ℚ) ^ (bias E + FY - y.exp) = ((2 ^ (FR + 1 + FY) : ℕ) : ℚ) * 2 ^ g := by
      push_cast
      rw [← zpow_natCast, ← zpow_add₀ (by norm_num)]
      congr 1
      rw [hg]; push_cast; ring
    rw [this]; ring
  rw [hX]
  have hXpos : 0 < ((2 ^ (FR + 1 + FY) : ℕ) : ℚ) / ((2 ^ FY + y.frac : ℕ) : ℚ) * 2 ^ g := by positivity
  have hlt := directEntry_lt (LR := FR + 1) (by omega) hfr hf0 hF
  generalize directEntry (FR + 1) FY y.frac = r at *
  -- the entry is above the reciprocal, so above the bottom of the binade
  have hbadQ : 2 * ((2 ^ (FR + 1 + FY) : ℕ) : ℚ) < (2 * (r : ℚ) - 1) * ((2 ^ FY + y.frac : ℕ) : ℚ) := by
    have h := (Int.cast_lt (R := ℚ)).2 hbad
    push_cast at h ⊢
    exact h
  have ht : 2 * (((2 ^ (FR + 1 + FY) : ℕ) : ℚ) / ((2 ^ FY + y.frac : ℕ) : ℚ)) < 2 * (r : ℚ) - 1 := by
    rw [← mul_div_assoc, div_lt_iff₀ hyQ]; exact hbadQ
  have hbot : (2 ^ FR : ℚ) < ((2 ^ (FR + 1 + FY) : ℕ) : ℚ) / ((2 ^ FY + y.frac : ℕ) : ℚ) := by
    rw [lt_div_iff₀ hyQ]
    have h5 : 2 ^ FR * (2 ^ FY + y.frac) < 2 ^ (FR + 1 + FY) := by
      calc 2 ^ FR * (2 ^ FY + y.frac) < 2 ^ FR * 2 ^ (FY + 1) := Nat.mul_lt_mul_of_pos_left hy2 (by positivity)
        _ = _ := by ring
    exact_mod_cast h5
  generalize ((2 ^ (FR + 1 + FY) : ℕ) : ℚ) / ((2 ^ FY + y.frac : ℕ) : ℚ) = t at *
  have hr1 : 2 ^ FR < r := by
    have h3 : (2 : ℚ) * 2 ^ FR + 1 < 2 * r := by linarith
    have h4 : 2 * 2 ^ FR + 1 < 2 * r := by exact_mod_cast h3
    omega
  have hbit : getBit (FR + 1) r = false := by
    unfold getBit; rw [Nat.div_eq_of_lt hlt]; rfl
  have hmod : r % 2 ^ FR = r - 2 ^ FR := by
    rw [pow_succ 2] at hlt
    rw [Nat.mod_eq_sub_mod hr1.le, Nat.mod_eq_of_lt (by omega)]
  have hne : y.exp ≠ ones E := by unfold ones; omega
  have hfl : resultFlags E y.flags y.exp = 1 := by
    unfold resultFlags; rw [hf1]; simp [hne]
  rw [hbit, hmod, hfl, baseExp_eq he3]
  unfold denote
  simp only [Bool.false_eq_true, if_false]
  rw [show 2 ^ FR + (r - 2 ^ FR) = r by omega]
  intro hR
  have hnear := rounded_num_near (n := r - 1) (g := g) ⟨by rw [Nat.add_sub_cancel]; omega, by omega⟩ hR
  have hexp : ((2 ^ E - 3 - y.exp : ℕ) : ℤ) - bias E - FR = g := by
    rw [Nat.cast_sub (by omega), Nat.cast_sub (by omega), hg]; push_cast; linarith
  rw [hexp, abs_signed hXpos, abs_signed (mul_pos (by exact_mod_cast (by omega : 0 < r)) (two_zpow_pos g))] at hnear
  have hg0 := two_zpow_pos g
  have hc : ((r - 1 : ℕ) : ℚ) = r - 1 := by rw [Nat.cast_sub (by omega)]; norm_num
  rw [hc, ← sub_mul, ← sub_mul, abs_mul, abs_mul, abs_of_pos hg0] at hnear
  have hn2 := le_of_mul_le_mul_right hnear hg0
  rw [abs_of_neg (by linarith)] at hn2
  rcases abs_cases (t - ((r : ℚ) - 1)) with ⟨h, -⟩ | ⟨h, -⟩ <;> rw [h] at hn2 <;> linarith

/-- No reciprocal is itself a midpoint. -/
theorem midpoint_ne {LR Ly f vr : ℕ} (hL1 : 1 ≤ LR) (hf : f < 2 ^ Ly) :
    (2 * (vr : ℤ) - 1) * (2 ^ Ly + f) ≠ 2 * 2 ^ (LR + Ly) := by
  intro h
  rcases Nat.eq_zero_or_pos vr with h0 | h0
  · rw [h0] at h
    have h1 : (0 : ℤ) < 2 * 2 ^ (LR + Ly) := by positivity
    have h2 : (0 : ℤ) < 2 ^ Ly + f := by positivity
    push_cast at h
    linarith
  · have hN : (2 * vr - 1) * (2 ^ Ly + f) = 2 ^ (LR + Ly + 1) := by
      zify [show 1 ≤ 2 * vr by omega]
      rw [h]; ring
    obtain ⟨j, -, hj⟩ := (Nat.dvd_prime_pow Nat.prime_two).mp (⟨_, hN.symm⟩ : 2 * vr - 1 ∣ 2 ^ (LR + Ly + 1))
    have hj0 : j = 0 := by
      by_contra hc
      obtain ⟨i, rfl⟩ := Nat.exists_eq_succ_of_ne_zero hc
      rw [pow_succ] at hj
      omega
    rw [hj0, pow_zero] at hj
    rw [hj, Nat.one_mul] at hN
    have : 2 ^ (Ly + 1 + 1) ≤ 2 ^ (LR + Ly + 1) := Nat.pow_le_pow_right (by norm_num) (by omega)
    have : 2 ^ (Ly + 1 + 1) = 4 * 2 ^ Ly := by ring
    omega

/-- **C30, exactly when `inv_direct` is correctly rounded**, for operands no finer than the result plus one bit: when the
reciprocal is too small for the format, or when the operand is at most `2^bias` and the reciprocal of its
significand is not just below a midpoint. -/
theorem C30_direct_iff {E FY FR : ℕ} (hE : 2 ≤ E) (hFY : 1 ≤ FY) (hFY2 : FY ≤ 30) (hFR : 1 ≤ FR)
    (hF : FY ≤ FR + 1) (h50 : FR ≤ 50) (y : Fp E FY) (v : ℚ) (hy : y.datum = .num v) :
    (∃ z : Fp E FR, directFp FR y = some z ∧ Rounded E FR (1 / v) z.datum) ↔
      2 ^ (bias E + 1) ≤ |v| ∨ (|v| ≤ 2 ^ bias E ∧ ¬ JustBelowMidpoint (FR + 1) (1 + y.frac / 2 ^ FY)) := by
  have hfr := y.frac_lt hFY
  rw [justBelow_iff h50 hfr]
  constructor
  · rintro ⟨z, hz, hR⟩
    by_contra hc
    push Not at hc
    obtain ⟨hc1, hc2⟩ := hc
    rcases le_or_gt |v| (2 ^ bias E) with h | h
    · obtain ⟨z', hz', hn⟩ := direct_not_rounded hE hFY hFY2 hFR hF h50 y v hy h (hc2 h)
      rw [hz] at hz'
      injection hz' with hz'
      exact hn (hz' ▸ hR)
    · obtain ⟨z', q, hz', hq, h1, h2⟩ := C30_direct_wrap_wrong (FR := FR) hE hFY hFY2 hFR h50 y v hy h hc1
      rw [hz] at hz'
      injection hz' with hz'
      subst hz'
      rw [hq] at hR
      have hb := (two_bias (E := E) (by omega)).2
      have hn := rounded_num_near (n := 2 ^ FR) (g := -bias E - FR)
        ⟨by rw [Nat.add_sub_cancel], Nat.pow_lt_pow_right (by norm_num) (by omega)⟩ hR
      have e : ((2 ^ FR : ℕ) : ℚ) * 2 ^ (-bias E - FR : ℤ) = 2 ^ (-bias E) := by
        push_cast
        rw [← zpow_natCast, ← zpow_add₀ (by norm_num)]; congr 1; ring
      have h3 : (2 : ℚ) ^ (-bias E) < 2 ^ (bias E + 1) := zpow_lt_zpow_right₀ (by norm_num) (by omega)
      rw [e] at hn
      generalize |1 / v| = x at *
      generalize |q| = w at *
      rw [abs_of_neg (sub_neg.2 (by linarith)), abs_of_neg (sub_neg.2 (by linarith))] at hn
      linarith
  · intro h
    have hv : |v| ≤ 2 ^ bias E ∨ 2 ^ (bias E + 1) ≤ |v| := by tauto
    by_cases hb : 2 * (2 : ℤ) ^ (FR + 1 + FY) < (2 * (directEntry (FR + 1) FY y.frac : ℤ) - 1) * (2 ^ FY + y.frac)
    · have hl : 2 ^ (bias E + 1) ≤ |v| := by
        rcases h with h | h
        · exact h
        · exact absurd hb h.2
      refine ⟨_, inv_direct_eq hFY hFY2 h50 hF y, ?_⟩
      rw [result_datum (by omega) hFR y _ (exp_sel_lt baseExp_lt)]
      have hf1 := (datum_num_iff.mp hy).1
      have he := exp_of_large hE hFY hy hl
      have hfl : resultFlags E y.flags y.exp = 0 := by
        unfold resultFlags; rw [hf1]; simp [he]
      rw [hfl]
      have hv0 : 0 < |v| := lt_of_lt_of_le (two_zpow_pos _) hl
      have hx0 : 0 < |1 / v| := by rw [abs_div, abs_one]; positivity
      have hx1 : |1 / v| ≤ 2 ^ (-bias E - 1) := by
        rw [abs_div, abs_one, div_le_iff₀ hv0, show (-bias E - 1 : ℤ) = -(bias E + 1) by ring, zpow_neg,
          ← div_eq_inv_mul, le_div_iff₀ (two_zpow_pos _), one_mul]
        exact hl
      obtain ⟨m, e, hm⟩ := nearest_exists (p := FR + 1) (by omega) hx0
      refine ⟨m, e, hm, ?_⟩
      have hn := hm.2.1 (2 ^ FR) (-bias E - 1 - FR)
        ⟨by rw [Nat.add_sub_cancel], Nat.pow_lt_pow_right (by norm_num) (by omega)⟩
      have e1 : ((2 ^ FR : ℕ) : ℚ) * 2 ^ (-bias E - 1 - FR : ℤ) = 2 ^ (-bias E - 1) := by
        push_cast
        rw [← zpow_natCast, ← zpow_add₀ (by norm_num)]; congr 1; ring
      rw [e1, abs_of_nonpos (sub_nonpos.2 hx1)] at hn
      have hle : (m : ℚ) * 2 ^ e ≤ 2 ^ (-bias E - 1) := by
        have := neg_abs_le (|1 / v| - (m : ℚ) * 2 ^ e)
        linarith
      have hm1 : ((2 ^ FR : ℕ) : ℚ) ≤ m := by
        have := hm.1.1
        rw [Nat.add_sub_cancel] at this
        exact_mod_cast this
      have h2 : (2 : ℚ) ^ (FR + e : ℤ) ≤ 2 ^ (-bias E - 1) := by
        rw [zpow_add₀ (by norm_num), zpow_natCast]
        refine le_trans ?_ hle
        push_cast at hm1
        exact mul_le_mul_of_nonneg_right hm1 (two_zpow_pos e).le
      have h3 := (zpow_le_zpow_iff_right₀ (by norm_num : (1 : ℚ) < 2)).mp h2
      have hsg : decide (1 / v < 0) = decide (y.sign = 1) := by
        rw [inv_value hy]
        simp only [decide_eq_decide]
        apply signed_neg
        have : (0 : ℚ) < ((2 ^ FY + y.frac : ℕ) : ℚ) := by
          have : 0 < 2 ^ FY + y.frac := by positivity
          exact_mod_cast this
        exact div_pos (two_zpow_pos _) this
      have h4 : e + FR + bias E < 0 := by linarith
      unfold rangeCheck
      rw [if_pos h4, hsg]
      rfl
    · have hne : (2 * (directEntry (FR + 1) FY y.frac : ℤ) - 1) * (2 ^ FY + y.frac) ≠ 2 * 2 ^ (FR + 1 + FY) := by
        exact midpoint_ne (by omega) hfr
      exact direct_rounded_core hE hFY hFY2 hFR hF h50 y v hy hv (lt_of_le_of_ne (not_lt.mp hb) hne)

/-- The condition is met: the reciprocal of `3` with ten fraction bits is correctly rounded. -/
example : ∃ z : Fp 8 10, directFp 10 (Fp.mk4 8 10 1 0 128 512) = some z ∧ Rounded 8 10 (1 / 3) z.datum := by
  have hn : (Fp.mk4 8 10 1 0 128 512).datum = .num 3 := by
    rw [mk4_num (by decide) (by decide) (by decide) (by decide)]; norm_num [bias]
  refine (C30_direct_iff (by decide) (by decide) (by decide) (by decide) (by decide) (by decide) _ 3 hn).2 (Or.inr ⟨?_, ?_⟩)
  · norm_num [bias]
  · rintro ⟨k, -, h1, h2⟩
    have hf : (Fp.mk4 8 10 1 0 128 512).frac = 512 := by decide +kernel
    rw [hf] at h1 h2
    norm_num at h1 h2
    have h3 : (8192 : ℚ) < 3 * k := by linarith
    have h4 : (8193 : ℚ) ≤ 3 * k := by exact_mod_cast (by exact_mod_cast h3 : 8192 < 3 * k)
    linarith

end Thls.Inv
