import Verif.Proofs.InvFp

/-! # The directly tabulated reciprocal -/

namespace Thls.Inv
open Spec

/-- The double division is within half a unit. -/
theorem divDouble_bounds {n d : ℕ} (hd : 0 < d) :
    2 * (divDouble n d * d) ≤ 2 * (n * 2 ^ 53) + d ∧ 2 * (n * 2 ^ 53) ≤ 2 * (divDouble n d * d) + d := by
  unfold divDouble
  have h := Nat.div_add_mod (n * 2 ^ 53) d
  have hr := Nat.mod_lt (n * 2 ^ 53) hd
  generalize n * 2 ^ 53 = M at *
  generalize M / d = q at *
  generalize M % d = r at *
  have hc : d * q = q * d := Nat.mul_comm _ _
  dsimp only
  split
  · rw [Nat.add_mul]; omega
  · omega

theorem directEntry_bounds {LR Ly f : ℕ} (hLR : LR ≤ 51) (hf : f < 2 ^ Ly) :
    4 * ((2 * (directEntry LR Ly f : ℤ) - 1) * (2 ^ Ly + f)) ≤ 4 * (2 * 2 ^ (LR + Ly)) + (2 ^ Ly + f) ∧
    2 * (2 : ℤ) ^ (LR + Ly) < (2 * (directEntry LR Ly f : ℤ) + 1) * (2 ^ Ly + f) ∧
    (LR + Ly ≤ 52 → 1 ≤ LR → (2 * (directEntry LR Ly f : ℤ) - 1) * (2 ^ Ly + f) < 2 * 2 ^ (LR + Ly)) := by
  unfold directEntry roundDouble
  have hy0 : 0 < 2 ^ Ly + f := by positivity
  obtain ⟨hV1, hV2⟩ := divDouble_bounds (n := 2 ^ Ly) hy0
  set V := divDouble (2 ^ Ly) (2 ^ Ly + f) with hV
  obtain ⟨k, hk⟩ := Nat.exists_eq_add_of_le hLR
  have e1 : 53 - LR = k + 2 := by omega
  have e2 : 52 - LR = k + 1 := by omega
  rw [e1, e2]
  have eH : 2 ^ (k + 2) = 2 * 2 ^ (k + 1) := by ring
  have hdm := Nat.div_add_mod (V + 2 ^ (k + 1)) (2 ^ (k + 2))
  have hml := Nat.mod_lt (V + 2 ^ (k + 1)) (show 0 < 2 ^ (k + 2) by positivity)
  have e53 : 2 ^ Ly * 2 ^ 53 = 2 ^ (k + 2) * 2 ^ (LR + Ly) := by
    rw [← pow_add, ← pow_add]; congr 1; omega
  rw [e53] at hV1 hV2
  set vr := (V + 2 ^ (k + 1)) / 2 ^ (k + 2) with hvr
  set H := 2 ^ (k + 1) with hH
  have hH2 : 2 ≤ H := by
    calc 2 = 2 ^ 1 := rfl
      _ ≤ _ := Nat.pow_le_pow_right (by norm_num) (by omega)
  rw [eH] at hdm hml hV1 hV2
  have hA : 2 * H * vr ≤ V + H := by omega
  have hB : V + 1 ≤ 2 * H * vr + H := by omega
  have hAZ : (2 : ℤ) * H * vr ≤ V + H := by exact_mod_cast hA
  have hBZ : (V : ℤ) + 1 ≤ 2 * H * vr + H := by exact_mod_cast hB
  have hV1Z : 2 * ((V : ℤ) * (2 ^ Ly + f)) ≤ 2 * (2 * H * 2 ^ (LR + Ly)) + (2 ^ Ly + f) := by exact_mod_cast hV1
  have hV2Z : 2 * (2 * (H : ℤ) * 2 ^ (LR + Ly)) ≤ 2 * (V * (2 ^ Ly + f)) + (2 ^ Ly + f) := by exact_mod_cast hV2
  have hyZ : (0 : ℤ) < 2 ^ Ly + f := by positivity
  have hHZ : (2 : ℤ) ≤ H := by exact_mod_cast hH2
  have hyK : LR + Ly ≤ 52 → (2 : ℤ) ^ Ly + f < 2 * H := by
    intro h
    have h1 : 2 ^ (Ly + 1) ≤ 2 * H := by
      rw [← eH]; exact Nat.pow_le_pow_right (by norm_num) (by omega)
    have h2 : 2 ^ Ly + f < 2 * H := by
      have : 2 ^ (Ly + 1) = 2 * 2 ^ Ly := by ring
      omega
    exact_mod_cast h2
  have hodd : 1 ≤ LR → (2 * (vr : ℤ) - 1) * (2 ^ Ly + f) ≠ 2 * 2 ^ (LR + Ly) := by
    intro hL1 h
    rcases Nat.eq_zero_or_pos vr with h0 | h0
    · rw [h0] at h
      have : (0 : ℤ) < 2 * 2 ^ (LR + Ly) := by positivity
      push_cast at h
      linarith
    · have hN : (2 * vr - 1) * (2 ^ Ly + f) = 2 ^ (LR + Ly + 1) := by
        zify [show 1 ≤ 2 * vr by omega]
        rw [h]; ring
      obtain ⟨j, -, hj⟩ := (Nat.dvd_prime_pow Nat.prime_two).mp (⟨_, hN.symm⟩ : 2 * vr - 1 ∣ 2 ^ (LR + Ly + 1))
      have hj0 : j = 0 := by
        by_contra hc
        obtain ⟨i, rfl⟩ := Nat.exists_eq_succ_of_ne_zero hc
        rw [pow_succ] at hj
        omega
      rw [hj0, pow_zero] at hj
      rw [hj, Nat.one_mul] at hN
      have : 2 ^ (Ly + 1) ≤ 2 ^ (LR + Ly + 1) := Nat.pow_le_pow_right (by norm_num) (by omega)
      have : 2 ^ (Ly + 1) = 2 * 2 ^ Ly := by ring
      omega
  clear_value V vr H
  generalize hN : (2 : ℤ) ^ (LR + Ly) = N at *
  generalize hY : (2 : ℤ) ^ Ly + f = Y at *
  have hA' := mul_le_mul_of_nonneg_right hAZ hyZ.le
  have hB' := mul_le_mul_of_nonneg_right hBZ hyZ.le
  have main : 2 * H * ((2 * (vr : ℤ) - 1) * Y - 2 * N) ≤ Y := by linarith
  refine ⟨?_, ?_, ?_⟩
  · rcases le_or_gt ((2 * (vr : ℤ) - 1) * Y - 2 * N) 0 with h | h
    · linarith
    · nlinarith
  · have h0 : 2 * (H : ℤ) * (2 * N) < 2 * H * ((2 * vr + 1) * Y) := by linarith
    exact lt_of_mul_lt_mul_left h0 (by positivity)
  · intro h52 hL1
    by_contra hc
    push Not at hc
    have h1 : 2 * N < (2 * (vr : ℤ) - 1) * Y := lt_of_le_of_ne hc (hodd hL1).symm
    have h2 := hyK h52
    have h3 : (1 : ℤ) ≤ (2 * (vr : ℤ) - 1) * Y - 2 * N := by linarith
    nlinarith

/-- With operands no finer than the result, the entry is one only for the operand one. -/
theorem directEntry_lt {LR Ly f : ℕ} (hLR : LR ≤ 51) (hf : f < 2 ^ Ly) (hf0 : f ≠ 0) (hw : Ly ≤ LR) :
    directEntry LR Ly f < 2 ^ LR := by
  obtain ⟨h1, -, -⟩ := directEntry_bounds hLR hf
  by_contra hc
  push Not at hc
  have hcZ : (2 : ℤ) ^ LR ≤ directEntry LR Ly f := by exact_mod_cast hc
  have hfZ : (1 : ℤ) ≤ f := by
    have : 1 ≤ f := by omega
    exact_mod_cast this
  have hfl : (f : ℤ) < 2 ^ Ly := by exact_mod_cast hf
  have hP : (2 : ℤ) ^ Ly ≤ 2 ^ LR := pow_le_pow_right₀ (by norm_num) hw
  have h2 : (2 * (2 : ℤ) ^ LR - 1) * (2 ^ Ly + f) ≤ (2 * (directEntry LR Ly f : ℤ) - 1) * (2 ^ Ly + f) :=
    mul_le_mul_of_nonneg_right (by linarith) (by positivity)
  rw [pow_add] at h1
  have h3 : (2 : ℤ) ^ LR ≤ 2 ^ LR * f := le_mul_of_one_le_right (by positivity) hfZ
  have h4 : (1 : ℤ) ≤ 2 ^ Ly := one_le_pow₀ (by norm_num)
  nlinarith

theorem directEntry_one {LR Ly : ℕ} (hLR : LR ≤ 51) : directEntry LR Ly 0 = 2 ^ LR := by
  obtain ⟨h1, h2, -⟩ := directEntry_bounds (Ly := Ly) (f := 0) hLR (by positivity)
  rw [pow_add] at h1 h2
  have hP : (0 : ℤ) < 2 ^ Ly := by positivity
  simp only [Nat.cast_zero, add_zero] at h1 h2
  have h3 : 2 * (2 : ℤ) ^ LR < 2 * (directEntry LR Ly 0 : ℤ) + 1 := by
    have : 2 * (2 : ℤ) ^ LR * 2 ^ Ly < (2 * (directEntry LR Ly 0 : ℤ) + 1) * 2 ^ Ly := by linarith
    exact lt_of_mul_lt_mul_right this hP.le
  have h4 : 4 * (2 * (directEntry LR Ly 0 : ℤ) - 1) ≤ 8 * 2 ^ LR + 1 := by
    have : 4 * (2 * (directEntry LR Ly 0 : ℤ) - 1) * 2 ^ Ly ≤ (8 * 2 ^ LR + 1) * 2 ^ Ly := by linarith
    exact le_of_mul_le_mul_right this hP
  have h5 : (directEntry LR Ly 0 : ℤ) = 2 ^ LR := by omega
  exact_mod_cast h5

/-- The coarse bounds used for faithfulness. -/
theorem directEntry_faithful {LR Ly f : ℕ} (hLR : LR ≤ 51) (hf : f < 2 ^ Ly) :
    directEntry LR Ly f * (2 ^ Ly + f) < 2 ^ (LR + Ly) + (2 ^ Ly + f) ∧
    2 ^ (LR + Ly) < (directEntry LR Ly f + 1) * (2 ^ Ly + f) := by
  obtain ⟨h1, h2, -⟩ := directEntry_bounds hLR hf
  have hy : (0 : ℤ) < 2 ^ Ly + f := by positivity
  constructor
  · zify; linarith
  · zify; linarith

/-- The test of the leading bit of the entry is the test of the fraction. -/
theorem directEntry_bit {LR Ly f : ℕ} (hLR : LR ≤ 51) (hf : f < 2 ^ Ly) (hw : Ly ≤ LR) :
    getBit LR (directEntry LR Ly f) = decide (f = 0) := by
  by_cases h0 : f = 0
  · rw [h0, directEntry_one hLR]
    unfold getBit
    rw [Nat.div_self (by positivity)]; rfl
  · unfold getBit
    rw [Nat.div_eq_of_lt (directEntry_lt hLR hf h0 hw)]
    simp [h0]

/-- The significand is the nearest one. -/
theorem nearest_result {LR FY FR y r : ℕ} (hL : LR = FR + 1) (hy1 : 2 ^ FY ≤ y) (hy2 : y < 2 ^ (FY + 1))
    (h1 : (2 * (r : ℤ) - 1) * y < 2 * 2 ^ (LR + FY)) (h2 : 2 * (2 : ℤ) ^ (LR + FY) < (2 * r + 1) * y)
    (hr : r < 2 ^ LR) (g : ℤ) :
    NearestEven (FR + 1) (((2 ^ (LR + FY) : ℕ) : ℚ) / y * 2 ^ g) r g := by
  subst hL
  have hy0 : 0 < y := lt_of_lt_of_le (by positivity) hy1
  have hyQ : (0 : ℚ) < y := by exact_mod_cast hy0
  have hg0 := two_zpow_pos g
  set t : ℚ := ((2 ^ (FR + 1 + FY) : ℕ) : ℚ) / y with ht
  have hN : ((2 : ℚ) ^ (FR + 1 + FY)) = t * y := by rw [ht]; push_cast; field_simp
  have hrt1 : 2 * (r : ℚ) - 1 < 2 * t := by
    have : (2 * (r : ℚ) - 1) * y < 2 * 2 ^ (FR + 1 + FY) := by exact_mod_cast h1
    rw [hN] at this
    have h : (2 * (r : ℚ) - 1) * y < (2 * t) * y := by linarith
    exact lt_of_mul_lt_mul_right h hyQ.le
  have hrt2 : 2 * t < 2 * r + 1 := by
    have : 2 * (2 : ℚ) ^ (FR + 1 + FY) < (2 * r + 1) * y := by exact_mod_cast h2
    rw [hN] at this
    have h : 2 * t * y < (2 * r + 1) * y := by linarith
    exact lt_of_mul_lt_mul_right h hyQ.le
  have hbot : (2 ^ FR : ℚ) < t := by
    have h5 : 2 ^ FR * y < 2 ^ (FR + 1 + FY) := by
      calc 2 ^ FR * y < 2 ^ FR * 2 ^ (FY + 1) := Nat.mul_lt_mul_of_pos_left hy2 (by positivity)
        _ = _ := by ring
    have : ((2 ^ FR : ℚ)) * y < 2 ^ (FR + 1 + FY) := by exact_mod_cast h5
    rw [hN] at this
    exact lt_of_mul_lt_mul_right this hyQ.le
  have hr1 : 2 ^ FR ≤ r := by
    have h3 : (2 : ℚ) * 2 ^ FR < 2 * r + 1 := by linarith
    have h4 : 2 * 2 ^ FR < 2 * r + 1 := by exact_mod_cast h3
    omega
  have hsig : IsSig (FR + 1) r := ⟨by rw [Nat.add_sub_cancel]; exact hr1, hr⟩
  rcases le_or_gt (r : ℚ) t with h | h
  · apply nearest_down (by omega) hsig
    · exact mul_le_mul_of_nonneg_right h hg0.le
    · nlinarith
    · intro h6
      exfalso
      nlinarith
  · have hrgt : 2 ^ FR < r := by
      have : (2 ^ FR : ℚ) < r := hbot.trans h
      exact_mod_cast this
    have hc : ((r - 1 : ℕ) : ℚ) + 1 = r := by rw [Nat.cast_sub (by omega)]; norm_num
    apply nearest_up (m := r - 1) (e := g) (by omega) ⟨by rw [Nat.add_sub_cancel]; omega, by omega⟩ hsig
    · rw [hc]
    · rw [hc]; exact mul_le_mul_of_nonneg_right h.le hg0.le
    · rw [hc]; nlinarith
    · rw [hc]; intro h6; exfalso; nlinarith

end Thls.Inv
