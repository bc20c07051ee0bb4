import Verif.Proofs.Inv
import Verif.SpecInv
import Mathlib.Tactic.FieldSimp

/-! # The floating-point level of the reciprocals -/

namespace Thls.Inv
open Spec

/-- Nothing lies between a positive number and a significand whose distance is less than one unit. -/
theorem no_between {E F m : ℕ} {e : ℤ} {X : ℚ} (hm : IsSig (F + 1) m) (hX : 0 < X)
    (h : ((m : ℚ) * 2 ^ e ≤ X ∧ X < ((m : ℚ) + 1) * 2 ^ e) ∨
      ∃ (m' : ℕ) (e' : ℤ), IsSig (F + 1) m' ∧ ((m' : ℚ) + 1) * 2 ^ e' = m * 2 ^ e ∧ (m' : ℚ) * 2 ^ e' < X ∧
        X < m * 2 ^ e) (w : ℚ) (hw : Representable E F w) :
    ¬ ((m : ℚ) * 2 ^ e < w ∧ w ≤ X) ∧ ¬ (X ≤ w ∧ w < m * 2 ^ e) := by
  have hm0 : (0 : ℚ) < m := by
    have : 0 < m := lt_of_lt_of_le (by positivity) hm.1
    exact_mod_cast this
  have hQ : (0 : ℚ) < (m : ℚ) * 2 ^ e := mul_pos hm0 (two_zpow_pos e)
  constructor
  · rintro ⟨h1, h2⟩
    have hw0 : 0 < w := hQ.trans h1
    rcases hw with rfl | ⟨n, g, hn, -, -, hwv⟩
    · exact lt_irrefl _ hw0
    rw [abs_of_pos hw0] at hwv
    rw [hwv] at h1
    have := sig_gap (by omega) hm hn h1
    rw [← hwv] at this
    rcases h with ⟨h3, h4⟩ | ⟨m', e', h3, h4, h5, h6⟩
    · linarith
    · linarith
  · rintro ⟨h1, h2⟩
    have hw0 : 0 < w := lt_of_lt_of_le hX h1
    rcases hw with rfl | ⟨n, g, hn, -, -, hwv⟩
    · exact lt_irrefl _ hw0
    rw [abs_of_pos hw0] at hwv
    rcases h with ⟨h3, h4⟩ | ⟨m', e', h3, h4, h5, h6⟩
    · linarith
    · have h7 : (m' : ℚ) * 2 ^ e' < n * 2 ^ g := by rw [← hwv]; linarith
      have := sig_gap (by omega) h3 hn h7
      rw [← hwv, h4] at this
      linarith

theorem representable_neg {E F : ℕ} {w : ℚ} (h : Representable E F w) : Representable E F (-w) := by
  rcases h with rfl | ⟨m, e, h1, h2, h3, h4⟩
  · left; simp
  · right; exact ⟨m, e, h1, h2, h3, by rw [abs_neg]; exact h4⟩

/-- The number `±m*2^e` is faithful for `±X`. -/
theorem faithful_num {E F m s : ℕ} {e : ℤ} {X : ℚ} (hm : IsSig (F + 1) m) (hX : 0 < X)
    (he : 0 ≤ e + F + bias E) (he' : e + F + bias E < 2 ^ E)
    (h : ((m : ℚ) * 2 ^ e ≤ X ∧ X < ((m : ℚ) + 1) * 2 ^ e) ∨
      ∃ (m' : ℕ) (e' : ℤ), IsSig (F + 1) m' ∧ ((m' : ℚ) + 1) * 2 ^ e' = m * 2 ^ e ∧ (m' : ℚ) * 2 ^ e' < X ∧
        X < m * 2 ^ e) :
    Faithful E F ((if s = 1 then -1 else 1) * X) (.num ((if s = 1 then -1 else 1) * ((m : ℚ) * 2 ^ e))) := by
  have hm0 : (0 : ℚ) < m := by
    have : 0 < m := lt_of_lt_of_le (by positivity) hm.1
    exact_mod_cast this
  have hQ : (0 : ℚ) < (m : ℚ) * 2 ^ e := mul_pos hm0 (two_zpow_pos e)
  refine ⟨_, Or.inl ⟨rfl, ?_, ?_⟩, Or.inr ⟨m, e, hm, he, he', abs_signed hQ⟩, ?_⟩
  · split <;> simp only [neg_mul, one_mul, ne_eq, neg_eq_zero] <;> exact hQ.ne'
  · rw [signed_neg hQ, signed_neg hX]
  · intro w hw
    by_cases hs : s = 1
    · rw [if_pos hs]
      have := no_between (E := E) hm hX h (-w) (representable_neg hw)
      constructor
      · rintro ⟨h1, h2⟩; exact this.2 ⟨by linarith, by linarith⟩
      · rintro ⟨h1, h2⟩; exact this.1 ⟨by linarith, by linarith⟩
    · rw [if_neg hs, one_mul, one_mul]
      exact no_between (E := E) hm hX h w hw

/-- Zero is faithful below the smallest value of the format. -/
theorem faithful_zero {E F s : ℕ} {X : ℚ} (hX : 0 < X) (hX2 : X < 2 ^ (-bias E)) :
    Faithful E F ((if s = 1 then -1 else 1) * X) (.zero (decide (s = 1))) := by
  have key : ∀ w : ℚ, Representable E F w → 0 < |w| → X < |w| := by
    intro w hw h0
    rcases hw with rfl | ⟨m, e, hm, he, -, hwv⟩
    · simp at h0
    rw [hwv]
    refine lt_of_lt_of_le hX2 ?_
    have h1 : (2 : ℚ) ^ (-bias E) ≤ 2 ^ (e + F) := zpow_le_zpow_right₀ (by norm_num) (by linarith)
    have h2 : (2 : ℚ) ^ (e + F) = 2 ^ F * 2 ^ e := by
      rw [zpow_add₀ (by norm_num), zpow_natCast]; ring
    have h3 : (2 : ℚ) ^ F ≤ m := by
      have := hm.1
      rw [Nat.add_sub_cancel] at this
      exact_mod_cast this
    rw [h2] at h1
    exact h1.trans (mul_le_mul_of_nonneg_right h3 (two_zpow_pos e).le)
  refine ⟨0, Or.inr ⟨?_, rfl⟩, Or.inl rfl, ?_⟩
  · congr 1
    simp only [decide_eq_decide]
    exact (signed_neg hX).symm
  · intro w hw
    by_cases hs : s = 1
    · rw [if_pos hs]
      constructor
      · rintro ⟨h1, h2⟩; linarith
      · rintro ⟨h1, h2⟩
        have := key w hw (abs_pos.mpr h2.ne)
        rw [abs_of_neg h2] at this
        linarith
    · rw [if_neg hs, one_mul]
      constructor
      · rintro ⟨h1, h2⟩
        have := key w hw (abs_pos.mpr h1.ne')
        rw [abs_of_pos h1] at this
        linarith
      · rintro ⟨h1, h2⟩; linarith

/-- The reciprocal of a value in terms of its fields. -/
theorem inv_value {E F : ℕ} {y : Fp E F} {v : ℚ} (h : y.datum = .num v) :
    1 / v = (if y.sign = 1 then -1 else 1) * (2 ^ (bias E + F - y.exp) / ((2 ^ F + y.frac : ℕ) : ℚ)) := by
  obtain ⟨-, rfl⟩ := datum_num_iff.mp h
  have h0 : ((2 ^ F + y.frac : ℕ) : ℚ) ≠ 0 := by
    have : 0 < 2 ^ F + y.frac := by positivity
    exact_mod_cast this.ne'
  have e1 : (2 : ℚ) ^ ((y.exp : ℤ) - bias E - F) * 2 ^ (bias E + F - y.exp) = 1 := by
    rw [← zpow_add₀ (by norm_num)]
    have : (y.exp : ℤ) - bias E - F + (bias E + F - y.exp) = 0 := by ring
    rw [this, zpow_zero]
  have e2 : (2 : ℚ) ^ (bias E + F - y.exp) = (2 ^ ((y.exp : ℤ) - bias E - F))⁻¹ :=
    eq_inv_of_mul_eq_one_right e1
  rw [e2]
  have e3 : (2 : ℚ) ^ ((y.exp : ℤ) - bias E - F) ≠ 0 := (two_zpow_pos _).ne'
  split
  · field_simp
  · field_simp

/-- The exponent of the result, when it does not wrap. -/
theorem baseExp_eq {E e : ℕ} (he : e + 3 ≤ 2 ^ E) : baseExp E e = 2 ^ E - 3 - e := by
  unfold baseExp subW ones
  have h1 : 2 ^ E - 1 + (2 ^ E - 2) = 2 ^ E - 3 + 2 ^ E := by omega
  rw [h1, Nat.add_mod_right, Nat.mod_eq_of_lt (by omega : 2 ^ E - 3 < 2 ^ E)]
  have h2 : 2 ^ E - 3 + (2 ^ E - e) = 2 ^ E - 3 - e + 2 ^ E := by omega
  rw [h2, Nat.add_mod_right, Nat.mod_eq_of_lt (by omega)]

/-- The exponent of the result wraps to all ones one step above that. -/
theorem baseExp_wrap {E e : ℕ} (hE : 2 ≤ E) (he : e + 2 = 2 ^ E) : baseExp E e = 2 ^ E - 1 := by
  unfold baseExp subW ones
  have h4 : 4 ≤ 2 ^ E := by
    calc 4 = 2 ^ 2 := rfl
      _ ≤ _ := Nat.pow_le_pow_right (by norm_num) hE
  have h1 : 2 ^ E - 1 + (2 ^ E - 2) = 2 ^ E - 3 + 2 ^ E := by omega
  rw [h1, Nat.add_mod_right, Nat.mod_eq_of_lt (by omega : 2 ^ E - 3 < 2 ^ E)]
  have h2 : 2 ^ E - 3 + (2 ^ E - e) = 2 ^ E - 1 := by omega
  rw [h2, Nat.mod_eq_of_lt (by omega)]

theorem baseExp_lt {E e : ℕ} : baseExp E e < 2 ^ E := subW_lt _ _ _

/-- The bounds on the result of the significand computation. -/
theorem recip_bounds {LR FY y r : ℕ} (hLR : 1 ≤ LR) (hy1 : 2 ^ FY ≤ y) (hy2 : y < 2 ^ (FY + 1))
    (h1 : r * y < 2 ^ (LR + FY) + y) (h2 : 2 ^ (LR + FY) < (r + 1) * y) : 2 ^ (LR - 1) ≤ r ∧ r ≤ 2 ^ LR := by
  obtain ⟨l, rfl⟩ := Nat.exists_eq_add_of_le' hLR
  rw [Nat.add_sub_cancel]
  have hy0 : 0 < y := lt_of_lt_of_le (by positivity) hy1
  constructor
  · have h3 : 2 ^ l * 2 ^ (FY + 1) < (r + 1) * 2 ^ (FY + 1) := by
      calc 2 ^ l * 2 ^ (FY + 1) = 2 ^ (l + 1 + FY) := by ring
        _ < (r + 1) * y := h2
        _ ≤ _ := Nat.mul_le_mul_left _ hy2.le
    have := Nat.lt_of_mul_lt_mul_right h3
    omega
  · have h3 : r * y < (2 ^ (l + 1) + 1) * y := by
      calc r * y < 2 ^ (l + 1 + FY) + y := h1
        _ = 2 ^ (l + 1) * 2 ^ FY + y := by ring
        _ ≤ 2 ^ (l + 1) * y + y := by have := Nat.mul_le_mul_left (2 ^ (l + 1)) hy1; omega
        _ = _ := by ring
    have := Nat.lt_of_mul_lt_mul_right h3
    omega

/-- The normal result with exponent field `2^E-3-e` (plus one when the significand is one) is faithful. -/
theorem faithful_result {E FY FR r s e y : ℕ} (hE : 2 ≤ E) (hy1 : 2 ^ FY ≤ y) (hy2 : y < 2 ^ (FY + 1))
    (h1 : r * y < 2 ^ (FR + 1 + FY) + y) (h2 : 2 ^ (FR + 1 + FY) < (r + 1) * y)
    (he : e + 3 ≤ 2 ^ E ∨ (e + 2 = 2 ^ E ∧ r = 2 ^ (FR + 1))) :
    Faithful E FR ((if s = 1 then -1 else 1) * (2 ^ (bias E + FY - e) / (y : ℚ)))
      (denote E FR 1 s (if getBit (FR + 1) r then addW E (baseExp E e) 1 else baseExp E e) (r % 2 ^ FR)) := by
  obtain ⟨hb1, hb2⟩ := bias_bounds hE
  have hy0 : 0 < y := lt_of_lt_of_le (by positivity) hy1
  have hyQ : (0 : ℚ) < y := by exact_mod_cast hy0
  obtain ⟨hr1, hr2⟩ := recip_bounds (by omega) hy1 hy2 h1 h2
  rw [Nat.add_sub_cancel] at hr1
  -- the exact value in units of the result
  set g : ℤ := bias E - e - (FR + 1) with hg
  have hX : (2 : ℚ) ^ (bias E + FY - e) / (y : ℚ) = ((2 ^ (FR + 1 + FY) : ℕ) : ℚ) / y * 2 ^ g := by
    have : (2 : ℚ) ^ (bias E + FY - e) = ((2 ^ (FR + 1 + FY) : ℕ) : ℚ) * 2 ^ g := by
      push_cast
      rw [← zpow_natCast, ← zpow_add₀ (by norm_num)]
      congr 1
      rw [hg]; push_cast; ring
    rw [this]; ring
  have hg0 := two_zpow_pos g
  set t : ℚ := ((2 ^ (FR + 1 + FY) : ℕ) : ℚ) / y with ht
  have hN : ((2 ^ (FR + 1 + FY) : ℕ) : ℚ) = t * y := by rw [ht]; field_simp
  have hrt1 : (r : ℚ) < t + 1 := by
    have : ((r * y : ℕ) : ℚ) < ((2 ^ (FR + 1 + FY) + y : ℕ) : ℚ) := by exact_mod_cast h1
    rw [Nat.cast_add, hN] at this
    push_cast at this
    have h : (r : ℚ) * y < (t + 1) * y := by linarith
    exact lt_of_mul_lt_mul_right h hyQ.le
  have hrt2 : t < r + 1 := by
    have : ((2 ^ (FR + 1 + FY) : ℕ) : ℚ) < (((r + 1) * y : ℕ) : ℚ) := by exact_mod_cast h2
    rw [hN] at this
    push_cast at this
    exact lt_of_mul_lt_mul_right this hyQ.le
  have ht0 : 0 < t := by rw [ht]; positivity
  rw [hX]
  have hXpos : 0 < t * 2 ^ g := mul_pos ht0 hg0
  have e2FR : 2 ^ (FR + 1) = 2 * 2 ^ FR := by ring
  have hFp : 0 < 2 ^ FR := by positivity
  rcases Nat.lt_or_ge r (2 ^ (FR + 1)) with hlt | hge
  · -- significand below one
    have he3 : e + 3 ≤ 2 ^ E := by
      rcases he with h | h
      · exact h
      · omega
    have hbit : getBit (FR + 1) r = false := by
      unfold getBit; rw [Nat.div_eq_of_lt hlt]; rfl
    have hmod : r % 2 ^ FR = r - 2 ^ FR := by
      rw [Nat.mod_eq_sub_mod hr1, Nat.mod_eq_of_lt (by omega)]
    rw [hbit, hmod, baseExp_eq he3]
    have hd : denote E FR 1 s (if false = true then addW E (2 ^ E - 3 - e) 1 else 2 ^ E - 3 - e) (r - 2 ^ FR) =
        .num ((if s = 1 then -1 else 1) * ((r : ℚ) * 2 ^ g)) := by
      unfold denote
      simp only [Bool.false_eq_true, if_false]
      rw [show 2 ^ FR + (r - 2 ^ FR) = r by omega]
      congr 4
      have : ((2 ^ E - 3 - e : ℕ) : ℤ) = 2 ^ E - 3 - e := by
        rw [Nat.cast_sub (by omega), Nat.cast_sub (by omega)]; push_cast; rfl
      rw [this, hg]; linarith
    rw [hd]
    have hsig : IsSig (FR + 1) r := ⟨by rw [Nat.add_sub_cancel]; exact hr1, hlt⟩
    have hrange : g + FR + bias E = 2 ^ E - 3 - e := by rw [hg]; linarith
    have heZ : (e : ℤ) + 3 ≤ 2 ^ E := by exact_mod_cast he3
    apply faithful_num hsig hXpos
    · rw [hrange]; linarith
    · rw [hrange]; linarith [(by positivity : (0 : ℤ) ≤ e)]
    · rcases le_or_gt ((r : ℚ)) t with h | h
      · left
        exact ⟨mul_le_mul_of_nonneg_right h hg0.le, mul_lt_mul_of_pos_right hrt2 hg0⟩
      · right
        -- the exact value exceeds the bottom of the binade
        have hbot : (2 ^ FR : ℚ) < t := by
          have h5 : 2 ^ FR * y < 2 ^ (FR + 1 + FY) := by
            calc 2 ^ FR * y < 2 ^ FR * 2 ^ (FY + 1) := Nat.mul_lt_mul_of_pos_left hy2 hFp
              _ = _ := by ring
          have : ((2 ^ FR * y : ℕ) : ℚ) < ((2 ^ (FR + 1 + FY) : ℕ) : ℚ) := by exact_mod_cast h5
          rw [hN] at this
          push_cast at this
          exact lt_of_mul_lt_mul_right this hyQ.le
        have hrgt : 2 ^ FR < r := by
          have : (2 ^ FR : ℚ) < r := hbot.trans h
          exact_mod_cast this
        have hc : ((r - 1 : ℕ) : ℚ) = r - 1 := by rw [Nat.cast_sub (by omega)]; norm_num
        refine ⟨r - 1, g, ⟨?_, ?_⟩, ?_, ?_, ?_⟩
        · rw [Nat.add_sub_cancel]; omega
        · omega
        · rw [hc]; ring
        · rw [hc]; exact mul_lt_mul_of_pos_right (by linarith) hg0
        · exact mul_lt_mul_of_pos_right h hg0
  · -- the significand is one
    have hr : r = 2 ^ (FR + 1) := by omega
    have hbit : getBit (FR + 1) r = true := by
      unfold getBit; rw [hr, Nat.div_self (by positivity)]; rfl
    have hmod : r % 2 ^ FR = 0 := by rw [hr, e2FR, Nat.mul_mod_left]
    have he2 : e + 2 ≤ 2 ^ E := by rcases he with h | h <;> omega
    have hexp : addW E (baseExp E e) 1 = 2 ^ E - 2 - e := by
      unfold addW
      rcases he with h | ⟨h, -⟩
      · rw [baseExp_eq h, Nat.mod_eq_of_lt (by omega)]; omega
      · rw [baseExp_wrap hE h]
        have : 2 ^ E - 1 + 1 = 2 ^ E := by omega
        rw [this, Nat.mod_self]; omega
    rw [hbit, hmod, if_pos rfl, hexp]
    have hd : denote E FR 1 s (2 ^ E - 2 - e) 0 =
        .num ((if s = 1 then -1 else 1) * (((2 ^ FR : ℕ) : ℚ) * 2 ^ (g + 1))) := by
      unfold denote
      simp only [Nat.add_zero]
      congr 4
      have : ((2 ^ E - 2 - e : ℕ) : ℤ) = 2 ^ E - 2 - e := by
        rw [Nat.cast_sub (by omega), Nat.cast_sub (by omega)]; push_cast; rfl
      rw [this, hg]; linarith
    rw [hd]
    have hsig : IsSig (FR + 1) (2 ^ FR) := ⟨by rw [Nat.add_sub_cancel], by omega⟩
    have hrange : g + 1 + FR + bias E = 2 ^ E - 2 - e := by rw [hg]; linarith
    have heZ : (e : ℤ) + 2 ≤ 2 ^ E := by exact_mod_cast he2
    have hg1 : (2 : ℚ) ^ (g + 1) = 2 * 2 ^ g := two_zpow_succ g
    have htop : t ≤ 2 * 2 ^ FR := by
      have h5 : 2 ^ (FR + 1 + FY) ≤ 2 * 2 ^ FR * y := by
        calc 2 ^ (FR + 1 + FY) = 2 * 2 ^ FR * 2 ^ FY := by ring
          _ ≤ _ := Nat.mul_le_mul_left _ hy1
      have : ((2 ^ (FR + 1 + FY) : ℕ) : ℚ) ≤ ((2 * 2 ^ FR * y : ℕ) : ℚ) := by exact_mod_cast h5
      rw [hN] at this
      push_cast at this
      exact le_of_mul_le_mul_right this hyQ
    have hrQ : (r : ℚ) = 2 * 2 ^ FR := by rw [hr, e2FR]; push_cast; ring
    apply faithful_num hsig hXpos
    · rw [hrange]; linarith
    · rw [hrange]; linarith [(by positivity : (0 : ℤ) ≤ e)]
    · rcases lt_or_eq_of_le htop with h | h
      · right
        refine ⟨2 * 2 ^ FR - 1, g, ⟨?_, ?_⟩, ?_, ?_, ?_⟩
        · rw [Nat.add_sub_cancel]; omega
        · omega
        · rw [Nat.cast_sub (by omega), hg1]; push_cast; ring
        · rw [Nat.cast_sub (by omega)]; push_cast
          exact mul_lt_mul_of_pos_right (by linarith) hg0
        · rw [hg1]; push_cast
          calc t * 2 ^ g < 2 * 2 ^ FR * 2 ^ g := mul_lt_mul_of_pos_right h hg0
            _ = _ := by ring
      · left
        rw [h, hg1]; push_cast
        constructor
        · apply le_of_eq; ring
        · nlinarith

/-- The magnitude of a value in terms of its exponent field. -/
theorem mag_bounds {E F : ℕ} (hF : 1 ≤ F) {y : Fp E F} {v : ℚ} (h : y.datum = .num v) :
    (2 : ℚ) ^ ((y.exp : ℤ) - bias E) ≤ |v| ∧ |v| < 2 ^ ((y.exp : ℤ) - bias E + 1) ∧
      (|v| ≤ 2 ^ ((y.exp : ℤ) - bias E) → y.frac = 0) := by
  obtain ⟨-, rfl⟩ := datum_num_iff.mp h
  rw [abs_signed (sig_scaled_pos _ _ _)]
  have hf := y.frac_lt hF
  have e1 : (2 : ℚ) ^ ((y.exp : ℤ) - bias E) = 2 ^ F * 2 ^ ((y.exp : ℤ) - bias E - F) := by
    rw [← zpow_natCast, ← zpow_add₀ (by norm_num)]; congr 1; ring
  have hg := two_zpow_pos ((y.exp : ℤ) - bias E - F)
  rw [two_zpow_succ, e1]
  set G : ℚ := 2 ^ ((y.exp : ℤ) - bias E - F) with hG
  have hfQ : (y.frac : ℚ) < 2 ^ F := by exact_mod_cast hf
  have hf0 : (0 : ℚ) ≤ y.frac := by positivity
  push_cast
  refine ⟨by nlinarith, by nlinarith, fun h => ?_⟩
  have : (2 : ℚ) ^ F + y.frac ≤ 2 ^ F := le_of_mul_le_mul_right h hg
  have : (y.frac : ℚ) ≤ 0 := by linarith
  have : y.frac ≤ 0 := by exact_mod_cast this
  omega

theorem exp_of_small {E F : ℕ} (hE : 2 ≤ E) (hF : 1 ≤ F) {y : Fp E F} {v : ℚ} (h : y.datum = .num v)
    (hv : |v| ≤ 2 ^ bias E) : y.exp + 3 ≤ 2 ^ E ∨ (y.exp + 2 = 2 ^ E ∧ y.frac = 0) := by
  obtain ⟨-, hb2⟩ := bias_bounds hE
  obtain ⟨h1, -, h3⟩ := mag_bounds hF h
  have h4 : (y.exp : ℤ) - bias E ≤ bias E := by
    by_contra hc
    have : (2 : ℚ) ^ bias E < 2 ^ ((y.exp : ℤ) - bias E) := zpow_lt_zpow_right₀ (by norm_num) (by omega)
    linarith
  have h5 : (y.exp : ℤ) + 2 ≤ 2 ^ E := by linarith
  have h5' : y.exp + 2 ≤ 2 ^ E := by exact_mod_cast h5
  rcases Nat.lt_or_ge (y.exp + 2) (2 ^ E) with h6 | h6
  · left; omega
  · right
    have h7 : y.exp + 2 = 2 ^ E := by omega
    refine ⟨h7, h3 ?_⟩
    have h8 : (y.exp : ℤ) + 2 = 2 ^ E := by exact_mod_cast h7
    have : (y.exp : ℤ) - bias E = bias E := by linarith
    rw [this]; exact hv

theorem exp_of_large {E F : ℕ} (hE : 2 ≤ E) (hF : 1 ≤ F) {y : Fp E F} {v : ℚ} (h : y.datum = .num v)
    (hv : 2 ^ (bias E + 1) ≤ |v|) : y.exp = ones E := by
  obtain ⟨-, hb2⟩ := bias_bounds hE
  obtain ⟨-, h2, -⟩ := mag_bounds hF h
  have h4 : bias E + 1 < (y.exp : ℤ) - bias E + 1 := by
    by_contra hc
    have : (2 : ℚ) ^ ((y.exp : ℤ) - bias E + 1) ≤ 2 ^ (bias E + 1) := zpow_le_zpow_right₀ (by norm_num) (by omega)
    linarith
  have h5 : (2 : ℤ) ^ E ≤ (y.exp : ℤ) + 1 := by linarith
  have h5' : 2 ^ E ≤ y.exp + 1 := by exact_mod_cast h5
  have := y.exp_lt (by omega : 1 ≤ E)
  unfold ones; omega

theorem exp_of_middle {E F : ℕ} (hE : 2 ≤ E) (hF : 1 ≤ F) {y : Fp E F} {v : ℚ} (h : y.datum = .num v)
    (hv1 : 2 ^ bias E < |v|) (hv2 : |v| < 2 ^ (bias E + 1)) : y.exp + 2 = 2 ^ E ∧ y.frac ≠ 0 := by
  obtain ⟨-, hb2⟩ := bias_bounds hE
  obtain ⟨h1, h2, -⟩ := mag_bounds hF h
  have h4 : bias E < (y.exp : ℤ) - bias E + 1 := by
    by_contra hc
    have : (2 : ℚ) ^ ((y.exp : ℤ) - bias E + 1) ≤ 2 ^ (bias E) := zpow_le_zpow_right₀ (by norm_num) (by omega)
    linarith
  have h5 : (y.exp : ℤ) - bias E < bias E + 1 := by
    by_contra hc
    have : (2 : ℚ) ^ (bias E + 1) ≤ 2 ^ ((y.exp : ℤ) - bias E) := zpow_le_zpow_right₀ (by norm_num) (by omega)
    linarith
  have h6 : (y.exp : ℤ) + 2 = 2 ^ E := by omega
  refine ⟨by exact_mod_cast h6, ?_⟩
  intro hf
  obtain ⟨-, rfl⟩ := datum_num_iff.mp h
  rw [abs_signed (sig_scaled_pos _ _ _), hf] at hv1
  have e1 : ((2 ^ F + 0 : ℕ) : ℚ) * 2 ^ ((y.exp : ℤ) - bias E - F) = 2 ^ bias E := by
    push_cast
    rw [add_zero, ← zpow_natCast, ← zpow_add₀ (by norm_num)]; congr 1; omega
  rw [e1] at hv1
  exact lt_irrefl _ hv1

/-- The datum of the packed result. -/
theorem result_datum {E FY FR r : ℕ} (hE : 1 ≤ E) (hFR : 1 ≤ FR) (y : Fp E FY) (exp : ℕ) (hexp : exp < 2 ^ E) :
    (Fp.mk4 E FR (resultFlags E y.flags y.exp) y.sign exp (r % 2 ^ FR)).datum =
      denote E FR (resultFlags E y.flags y.exp) y.sign exp (r % 2 ^ FR) := by
  refine Fp.mk4_datum ?_ y.sign_lt hexp (Nat.mod_lt _ (by positivity)) hE hFR
  unfold resultFlags
  split
  · norm_num
  · split <;> norm_num
  · norm_num
  · norm_num

/-- The Newton reciprocal of any encoding, in terms of the significand. -/
theorem tableNewtonFp_eq {E FY FR : ℕ} (hFY : 1 ≤ FY) (y : Fp E FY) (h8 : 7 ≤ FR)
    (h63 : FR ≤ 62) (hy8 : 8 ≤ FY) (hS : starterBits (FR + 1) ≤ FY) :
    ∃ r, tableNewtonFp FR y = some (Fp.mk4 E FR (resultFlags E y.flags y.exp) y.sign
        (if getBit (FR + 1) r then addW E (baseExp E y.exp) 1 else baseExp E y.exp) (r % 2 ^ FR)) ∧
      r * (2 ^ FY + y.frac) < 2 ^ (FR + 1 + FY) + (2 ^ FY + y.frac) ∧
      2 ^ (FR + 1 + FY) < (r + 1) * (2 ^ FY + y.frac) := by
  have hf := y.frac_lt hFY
  obtain ⟨r, hr, h1, h2⟩ := tableNewton_spec (LR := FR + 1) (Ly := FY) (y := 2 ^ FY + y.frac) (by omega) (by omega)
    hy8 hS (by omega) (by rw [pow_succ 2]; omega)
  refine ⟨r, ?_, h1, h2⟩
  unfold tableNewtonFp opadHi1
  rw [hr]; rfl

theorem tableNewtonFp_some {E FY FR : ℕ} {y : Fp E FY} {z : Fp E FR} (h : tableNewtonFp FR y = some z) :
    7 ≤ FR ∧ FR ≤ 62 ∧ 8 ≤ FY ∧ starterBits (FR + 1) ≤ FY := by
  unfold tableNewtonFp at h
  obtain ⟨r, hr, -⟩ := Option.map_eq_some_iff.mp h
  have := tableNewton_some hr
  omega

theorem exp_sel_lt {E a : ℕ} {c : Bool} (ha : a < 2 ^ E) : (if c = true then addW E a 1 else a) < 2 ^ E := by
  split
  · exact addW_lt _ _ _
  · exact ha

/-- The zero returned for the largest exponent is faithful. -/
theorem faithful_large {E FY FR s e f ex fr : ℕ} (hE : 2 ≤ E) (he : e = ones E) :
    Faithful E FR ((if s = 1 then -1 else 1) * (2 ^ (bias E + FY - e) / ((2 ^ FY + f : ℕ) : ℚ)))
      (denote E FR 0 s ex fr) := by
  have hy0 : (0 : ℚ) < ((2 ^ FY + f : ℕ) : ℚ) := by
    have : 0 < 2 ^ FY + f := by positivity
    exact_mod_cast this
  apply faithful_zero
  · positivity
  · rw [div_lt_iff₀ hy0]
    obtain ⟨hb1, hb2⟩ := bias_bounds hE
    have heZ : (e : ℤ) = 2 ^ E - 1 := by
      rw [he]; unfold ones
      rw [Nat.cast_sub Nat.one_le_two_pow]; push_cast; rfl
    have e1 : (2 : ℚ) ^ (bias E + FY - e) = 2 ^ (-bias E) * (2 ^ FY / 2) := by
      rw [show (2 : ℚ) ^ FY / 2 = 2 ^ ((FY : ℤ) - 1) by rw [two_zpow_pred, zpow_natCast],
        ← zpow_add₀ (by norm_num)]
      congr 1; rw [heZ]; linarith
    rw [e1]
    apply mul_lt_mul_of_pos_left _ (two_zpow_pos _)
    have h1 : 2 ^ FY ≤ 2 ^ FY + f := by omega
    have : (2 : ℚ) ^ FY ≤ ((2 ^ FY + f : ℕ) : ℚ) := by exact_mod_cast h1
    have : (0 : ℚ) < 2 ^ FY := by positivity
    linarith

end Thls.Inv
