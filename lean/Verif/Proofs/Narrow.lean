import Verif.Proofs.DoubleRound

/-! # When rounding twice is harmless -/

namespace Thls
open Spec

/-- The distance of a multiple of `2^u` from the midpoint is zero or at least `2^u`. -/
theorem mid_far_of_mult {m : ℕ} {e u n : ℤ} {A : ℚ} (hu : u < e) (hA : A = n * 2 ^ u) (hne : A ≠ ((m : ℚ) + 1 / 2) * 2 ^ e) :
    (2 : ℚ) ^ u ≤ abs (A - ((m : ℚ) + 1 / 2) * 2 ^ e) := by
  obtain ⟨j, hj⟩ := Int.eq_ofNat_of_zero_le (show 0 ≤ e - 1 - u by omega)
  have he : (2 : ℚ) ^ e = 2 * (2 ^ j * 2 ^ u) := by
    rw [← zpow_natCast (2 : ℚ) j, ← hj, ← zpow_add₀ (by norm_num), ← zpow_one_add₀ (by norm_num)]
    congr 1; omega
  have hu := two_zpow_pos u
  have hd : A - ((m : ℚ) + 1 / 2) * 2 ^ e = ((n - (2 * m + 1) * 2 ^ j : ℤ) : ℚ) * 2 ^ u := by
    rw [hA, he]; push_cast; ring
  rw [hd, abs_mul, abs_of_pos hu]
  have hn : (n - (2 * m + 1) * 2 ^ j : ℤ) ≠ 0 := by
    intro h0
    rw [h0] at hd
    apply hne
    have : A - ((m : ℚ) + 1 / 2) * 2 ^ e = 0 := by rw [hd]; simp
    linarith
  have h1 : (1 : ℤ) ≤ |n - (2 * m + 1) * 2 ^ j| := Int.one_le_abs hn
  have h2 : (1 : ℚ) ≤ abs ((n - (2 * m + 1) * 2 ^ j : ℤ) : ℚ) := by exact_mod_cast h1
  nlinarith

/-- What remains of `RoundsTwice` for the proofs below. -/
theorem roundsTwice_elim {E F G : ℕ} {q : ℚ} (h : RoundsTwice E F G q) :
    ∃ (m : ℕ) (e : ℤ), IsSig (F + 1) m ∧ |q| ≠ ((m : ℚ) + 1 / 2) * 2 ^ e ∧
      abs (|q| - ((m : ℚ) + 1 / 2) * 2 ^ e) ≤ 2 ^ (e + F - G) / 2 := by
  obtain ⟨m, e, hm, -, -, h3, h4⟩ := h
  refine ⟨m, e, hm, ?_, ?_⟩
  · split at h3
    · exact ne_of_gt h3
    · exact ne_of_lt h3
  · rcases h4 with h | ⟨h, -⟩ <;> linarith

/-- A multiple of `2^k` is a multiple of every smaller power. -/
theorem mult_of_le {k u : ℤ} (h : u ≤ k) {n : ℤ} {A : ℚ} (hA : A = n * 2 ^ k) : ∃ n' : ℤ, A = n' * 2 ^ u := by
  obtain ⟨j, hj⟩ := Int.eq_ofNat_of_zero_le (show 0 ≤ k - u by omega)
  refine ⟨n * 2 ^ j, ?_⟩
  rw [hA]; push_cast
  rw [mul_assoc, ← zpow_natCast (2 : ℚ) j, ← zpow_add₀ (by norm_num)]
  congr 2; omega

/-- The absolute value of an integer multiple. -/
theorem mult_abs {k n : ℤ} {A : ℚ} (hA : A = n * 2 ^ k) : |A| = (|n| : ℤ) * 2 ^ k := by
  rw [hA, abs_mul, abs_of_pos (two_zpow_pos k)]; push_cast; rfl

/-- No rounding error occurs twice if the number fits the wide format. -/
theorem fits_not_twice {E F G : ℕ} (hFG : F < G) {q : ℚ} {n : ℕ} {k : ℤ} (hq : |q| = n * 2 ^ k) (hn : n < 2 ^ (G + 1)) :
    ¬ RoundsTwice E F G q := by
  intro h
  obtain ⟨m, e, hm, hne, hle⟩ := roundsTwice_elim h
  have hu := two_zpow_pos (e + F - G)
  have hsm : (2 : ℚ) ^ (e + F - G) ≤ 2 ^ e / 2 := by
    rw [← two_zpow_pred]; exact zpow_le_zpow_right₀ (by norm_num) (by omega)
  have hue := two_zpow_pos e
  have hlow : (2 : ℚ) ^ (e + F) ≤ m * 2 ^ e := sig_lower hm e
  have hbig : (2 : ℚ) ^ (e + F) < |q| := by
    have := (abs_le.mp hle).1; nlinarith
  have hk : e + F - G ≤ k := by
    by_contra hc
    have h1 : (n : ℚ) < 2 ^ ((G : ℤ) + 1) := by
      have : (n : ℚ) < ((2 ^ (G + 1) : ℕ) : ℚ) := by exact_mod_cast hn
      rw [← Nat.cast_succ, zpow_natCast]; push_cast at this; exact this
    have h2 : (n : ℚ) * 2 ^ k < 2 ^ ((G : ℤ) + 1) * 2 ^ k := by have := two_zpow_pos k; nlinarith
    rw [← zpow_add₀ (by norm_num)] at h2
    have h3 : (2 : ℚ) ^ ((G : ℤ) + 1 + k) ≤ 2 ^ (e + F) := zpow_le_zpow_right₀ (by norm_num) (by omega)
    rw [hq] at hbig
    linarith
  obtain ⟨n', hn'⟩ := mult_of_le hk (n := (n : ℤ)) (A := |q|) (by rw [hq]; push_cast; rfl)
  have := mid_far_of_mult (by omega) hn' hne
  linarith

/-- A product of two `F+1`-bit numbers is not rounded wrongly by way of `2F+2` bits or more. -/
theorem mul_not_twice {E F G : ℕ} (hG : 2 * F + 1 ≤ G) {x y : ℚ} {mx my : ℕ} {kx ky : ℤ} (hx : |x| = mx * 2 ^ kx)
    (hy : |y| = my * 2 ^ ky) (hmx : IsSig (F + 1) mx) (hmy : IsSig (F + 1) my) : ¬ RoundsTwice E F G (x * y) := by
  refine fits_not_twice (n := mx * my) (k := kx + ky) (by omega) ?_ ?_
  · rw [abs_mul, hx, hy, zpow_add₀ (by norm_num)]; push_cast; ring
  · have h1 : mx * my < 2 ^ (F + 1) * 2 ^ (F + 1) := Nat.mul_lt_mul'' hmx.2 hmy.2
    have h2 : 2 ^ (F + 1) * 2 ^ (F + 1) ≤ 2 ^ (G + 1) := by
      rw [← pow_add]; exact Nat.pow_le_pow_right (by norm_num) (by omega)
    omega

theorem add_not_twice_aux {E F G : ℕ} (hG : 2 * F + 2 ≤ G) {x y : ℚ} {mx my : ℕ} {kx ky : ℤ} (hx : |x| = mx * 2 ^ kx)
    (hy : |y| = my * 2 ^ ky) (hmx : IsSig (F + 1) mx) (hmy : IsSig (F + 1) my) (hk : ky ≤ kx) : ¬ RoundsTwice E F G (x + y) := by
  intro h
  obtain ⟨m, e, hm, hne, hle⟩ := roundsTwice_elim h
  have hu := two_zpow_pos (e + F - G)
  have hue := two_zpow_pos e
  have hlow : (2 : ℚ) ^ (e + F) ≤ m * 2 ^ e := sig_lower hm e
  have hint : ∀ {v : ℚ} {n : ℕ} {k : ℤ}, |v| = n * 2 ^ k → ∃ n' : ℤ, v = n' * 2 ^ k := by
    intro v n k hv
    rcases abs_choice v with h | h
    · exact ⟨n, by rw [← h, hv]; push_cast; rfl⟩
    · exact ⟨-n, by push_cast; linarith [hv, h]⟩
  obtain ⟨nx, hnx⟩ := hint hx
  obtain ⟨ny, hny⟩ := hint hy
  by_cases hky : e + F - G ≤ ky
  · obtain ⟨a, ha⟩ := mult_of_le (hky.trans hk) hnx
    obtain ⟨b, hb⟩ := mult_of_le hky hny
    have hs : x + y = ((a + b : ℤ) : ℚ) * 2 ^ (e + F - G) := by rw [ha, hb]; push_cast; ring
    have := mid_far_of_mult (by omega) (mult_abs hs) hne
    linarith
  · -- the smaller operand is tiny
    have hyl : |y| < 2 ^ (e - 2) := by
      have h1 : (my : ℚ) < 2 ^ ((F : ℤ) + 1) := by
        have : (my : ℚ) < ((2 ^ (F + 1) : ℕ) : ℚ) := by exact_mod_cast hmy.2
        rw [← Nat.cast_succ, zpow_natCast]; push_cast at this; exact this
      have h2 : (my : ℚ) * 2 ^ ky < 2 ^ ((F : ℤ) + 1) * 2 ^ ky := by have := two_zpow_pos ky; nlinarith
      rw [← zpow_add₀ (by norm_num)] at h2
      have h3 : (2 : ℚ) ^ ((F : ℤ) + 1 + ky) ≤ 2 ^ (e - 2) := zpow_le_zpow_right₀ (by norm_num) (by omega)
      rw [hy]; linarith
    have h4 : (2 : ℚ) ^ (e - 2) = 2 ^ e / 4 := by rw [zpow_sub₀ (by norm_num)]; norm_num
    have hsm : (2 : ℚ) ^ (e + F - G) ≤ 2 ^ e / 4 := by
      rw [← h4]; exact zpow_le_zpow_right₀ (by norm_num) (by omega)
    rw [h4] at hyl
    have hxy : abs (|x| - |x + y|) ≤ |y| := by
      have := abs_abs_sub_abs_le_abs_sub x (x + y)
      rwa [show x - (x + y) = -y by ring, abs_neg] at this
    rw [abs_le] at hle hxy
    have hkx : e ≤ kx := by
      by_contra hc
      have h1 : (mx : ℚ) < 2 ^ ((F : ℤ) + 1) := by
        have : (mx : ℚ) < ((2 ^ (F + 1) : ℕ) : ℚ) := by exact_mod_cast hmx.2
        rw [← Nat.cast_succ, zpow_natCast]; push_cast at this; exact this
      have h2 : (mx : ℚ) * 2 ^ kx < 2 ^ ((F : ℤ) + 1) * 2 ^ kx := by have := two_zpow_pos kx; nlinarith
      rw [← zpow_add₀ (by norm_num)] at h2
      have h3 : (2 : ℚ) ^ ((F : ℤ) + 1 + kx) ≤ 2 ^ (e + F) := zpow_le_zpow_right₀ (by norm_num) (by omega)
      rw [← hx] at h2
      linarith
    obtain ⟨a, ha⟩ := mult_of_le hkx hnx
    have hxn : |x| ≠ ((m : ℚ) + 1 / 2) * 2 ^ e := by
      intro hc
      rw [mult_abs ha] at hc
      have h5 := mul_right_cancel₀ (ne_of_gt hue) hc
      have h6 : ((2 * |a| : ℤ) : ℚ) = ((2 * m + 1 : ℤ) : ℚ) := by push_cast; push_cast at h5; linarith
      have h7 : 2 * |a| = 2 * (m : ℤ) + 1 := by exact_mod_cast h6
      omega
    obtain ⟨a', ha'⟩ := mult_of_le (show e - 1 ≤ e by omega) (mult_abs ha)
    have := mid_far_of_mult (m := m) (e := e) (by omega) ha' hxn
    rw [two_zpow_pred] at this
    rcases abs_cases (|x| - ((m : ℚ) + 1 / 2) * 2 ^ e) with ⟨h5, -⟩ | ⟨h5, -⟩ <;> rw [h5] at this <;> linarith

/-- A sum of two `F+1`-bit numbers is not rounded wrongly by way of `2F+3` bits or more. -/
theorem add_not_twice {E F G : ℕ} (hG : 2 * F + 2 ≤ G) {x y : ℚ} {mx my : ℕ} {kx ky : ℤ} (hx : |x| = mx * 2 ^ kx)
    (hy : |y| = my * 2 ^ ky) (hmx : IsSig (F + 1) mx) (hmy : IsSig (F + 1) my) : ¬ RoundsTwice E F G (x + y) := by
  rcases le_total ky kx with h | h
  · exact add_not_twice_aux hG hx hy hmx hmy h
  · rw [add_comm]; exact add_not_twice_aux hG hy hx hmy hmx h

/-- A quotient of two `F+1`-bit numbers is not rounded wrongly by way of `2F+2` bits or more. -/
theorem div_not_twice {E F G : ℕ} (hG : 2 * F + 1 ≤ G) {x y : ℚ} {mx my : ℕ} {kx ky : ℤ} (hx : |x| = mx * 2 ^ kx)
    (hy : |y| = my * 2 ^ ky) (hmx : IsSig (F + 1) mx) (hmy : IsSig (F + 1) my) : ¬ RoundsTwice E F G (x / y) := by
  intro h
  obtain ⟨m, e, hm, hne, hle⟩ := roundsTwice_elim h
  have hue := two_zpow_pos e
  have hlow : (2 : ℚ) ^ (e + F) ≤ m * 2 ^ e := sig_lower hm e
  have hkyp := two_zpow_pos ky
  have hmy0 : (0 : ℚ) < my := by
    have : 0 < my := lt_of_lt_of_le (by positivity) hmy.1
    exact_mod_cast this
  have hy0 : 0 < |y| := by rw [hy]; positivity
  have hq : |x / y| * |y| = |x| := by rw [abs_div]; field_simp
  have hmyu : (my : ℚ) < 2 ^ ((F : ℤ) + 1) := by
    have : (my : ℚ) < ((2 ^ (F + 1) : ℕ) : ℚ) := by exact_mod_cast hmy.2
    rw [← Nat.cast_succ, zpow_natCast]; push_cast at this; exact this
  have hsm : (2 : ℚ) ^ (e + F - G) / 2 ≤ 2 ^ (e - F - 2) := by
    rw [← two_zpow_pred]; exact zpow_le_zpow_right₀ (by norm_num) (by omega)
  have hsm2 : (2 : ℚ) ^ (e - F - 2) ≤ 2 ^ e / 2 := by
    rw [← two_zpow_pred]; exact zpow_le_zpow_right₀ (by norm_num) (by omega)
  generalize |x / y| = A at hq hne hle
  have hA := abs_le.mp hle
  by_cases hkx : e - 1 + ky ≤ kx
  · obtain ⟨a, ha⟩ := mult_of_le hkx (n := (mx : ℤ)) (A := |x|) (by rw [hx]; push_cast; rfl)
    have he1 : (2 : ℚ) ^ (e - 1 + ky) = 2 ^ e / 2 * 2 ^ ky := by rw [zpow_add₀ (by norm_num), two_zpow_pred]
    have hd : (A - ((m : ℚ) + 1 / 2) * 2 ^ e) * |y| = ((a - (2 * m + 1) * my : ℤ) : ℚ) * 2 ^ (e - 1 + ky) := by
      rw [sub_mul, hq, ha, hy, he1]; push_cast; ring
    have hn : (a - (2 * m + 1) * my : ℤ) ≠ 0 := by
      intro h0
      rw [h0] at hd
      simp only [Int.cast_zero, zero_mul, mul_eq_zero] at hd
      rcases hd with hd | hd
      · exact hne (by linarith)
      · linarith
    have h1 : (1 : ℚ) ≤ abs ((a - (2 * m + 1) * my : ℤ) : ℚ) := by
      have h1 : (1 : ℤ) ≤ |a - (2 * m + 1) * my| := Int.one_le_abs hn
      exact_mod_cast h1
    have h2 := congrArg abs hd
    rw [abs_mul, abs_mul, abs_of_pos hy0, abs_of_pos (two_zpow_pos _), he1] at h2
    generalize abs (A - ((m : ℚ) + 1 / 2) * 2 ^ e) = D at h2 hle
    have h3 : 2 ^ e / 2 * 2 ^ ky ≤ D * |y| := by rw [h2]; nlinarith [mul_pos hue hkyp]
    rw [hy, ← mul_assoc] at h3
    have h4 : (2 : ℚ) ^ e / 2 ≤ D * my := le_of_mul_le_mul_right h3 hkyp
    have h5 : D * my ≤ 2 ^ (e - F - 2) * my := mul_le_mul_of_nonneg_right (by linarith) hmy0.le
    have h6 : (2 : ℚ) ^ (e - F - 2) * my < 2 ^ (e - F - 2) * 2 ^ ((F : ℤ) + 1) :=
      mul_lt_mul_of_pos_left hmyu (two_zpow_pos _)
    rw [← zpow_add₀ (by norm_num), show e - F - 2 + ((F : ℤ) + 1) = e - 1 by ring, two_zpow_pred] at h6
    linarith
  · have h1 : (mx : ℚ) < 2 * my := by
      have : mx < 2 * my := by have := hmx.2; have := hmy.1; simp only [pow_succ, Nat.add_sub_cancel] at *; omega
      exact_mod_cast this
    have h2 : |x| < 2 * my * 2 ^ kx := by rw [hx]; have := two_zpow_pos kx; nlinarith
    have h3 : (2 : ℚ) ^ kx ≤ 2 ^ (e - 2 + ky) := zpow_le_zpow_right₀ (by norm_num) (by omega)
    rw [zpow_add₀ (by norm_num)] at h3
    have h4 : |x| < 2 * 2 ^ (e - 2) * |y| := by rw [hy]; nlinarith
    rw [← hq] at h4
    have h5 : A < 2 * 2 ^ (e - 2) := lt_of_mul_lt_mul_right h4 hy0.le
    have h6 : (2 : ℚ) * 2 ^ (e - 2) = 2 ^ e / 2 := by rw [zpow_sub₀ (by norm_num)]; norm_num; ring
    have h7 : (2 : ℚ) ^ e ≤ 2 ^ (e + F) := zpow_le_zpow_right₀ (by norm_num) (by omega)
    linarith

end Thls
