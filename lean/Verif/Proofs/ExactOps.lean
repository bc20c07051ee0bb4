import Verif.Proofs.Narrow
import Verif.Proofs.RoundErr
import Verif.Proofs.Mono

/-! # Sums and products whose rounding is exact -/

namespace Thls
open Spec

/-- `q` fits `F+1` significant bits at or above the bit `2^k`. -/
def Fits (F : ℕ) (k : ℤ) (q : ℚ) : Prop := ∃ n : ℤ, |n| < 2 ^ (F + 1) ∧ q = n * 2 ^ k

/-- A non-zero number that fits has a significand. -/
theorem fits_sig {F : ℕ} {k : ℤ} {q : ℚ} (h : Fits F k q) (hq : q ≠ 0) : ∃ (m : ℕ) (e : ℤ), IsSig (F + 1) m ∧ |q| = m * 2 ^ e := by
  obtain ⟨n, hn, rfl⟩ := h
  obtain ⟨m, e, hm, h1, h2⟩ := sig_floor (p := F + 1) (by omega) (abs_pos.mpr hq)
  refine ⟨m, e, hm, ?_⟩
  rw [abs_mul, abs_of_pos (two_zpow_pos k)] at h1 h2 ⊢
  have hkp := two_zpow_pos k
  have hep := two_zpow_pos e
  have hnq : (abs (n : ℚ)) < 2 ^ ((F : ℤ) + 1) := by
    have : ((|n| : ℤ) : ℚ) < ((2 ^ (F + 1) : ℤ) : ℚ) := by exact_mod_cast hn
    rw [← Nat.cast_succ, zpow_natCast]; push_cast at this; exact this
  have hek : e ≤ k := by
    have l := sig_lower hm e
    have : (2 : ℚ) ^ (e + F) < 2 ^ ((F : ℤ) + 1 + k) := by
      rw [zpow_add₀ (by norm_num) _ k]
      exact lt_of_le_of_lt (l.trans h1) (mul_lt_mul_of_pos_right hnq hkp)
    have := (zpow_lt_zpow_iff_right₀ (a := (2 : ℚ)) (by norm_num)).mp this
    omega
  obtain ⟨j, hj⟩ := Int.eq_ofNat_of_zero_le (show 0 ≤ k - e by omega)
  have hk : (2 : ℚ) ^ k = 2 ^ j * 2 ^ e := by
    rw [← zpow_natCast (2 : ℚ) j, ← zpow_add₀ (by norm_num)]; congr 1; omega
  rw [hk, ← mul_assoc] at h1 h2 ⊢
  have h3 := le_of_mul_le_mul_right h1 hep
  have h4 := lt_of_mul_lt_mul_right h2 hep.le
  have h3' : (m : ℤ) ≤ |n| * 2 ^ j := by exact_mod_cast (show (m : ℚ) ≤ ((|n| * 2 ^ j : ℤ) : ℚ) by push_cast; exact h3)
  have h4' : |n| * 2 ^ j < (m : ℤ) + 1 := by exact_mod_cast (show ((|n| * 2 ^ j : ℤ) : ℚ) < (((m : ℤ) + 1 : ℤ) : ℚ) by push_cast; exact h4)
  have h5 : |n| * 2 ^ j = (m : ℤ) := by omega
  have h6 : ((|n| * 2 ^ j : ℤ) : ℚ) = ((m : ℤ) : ℚ) := by rw [h5]
  push_cast at h6
  rw [h6]

/-- The number nearest to a number that fits is that number. -/
theorem nearest_fits {F m : ℕ} {k e : ℤ} {q : ℚ} (h : Fits F k q) (hq : q ≠ 0) (hn : NearestEven (F + 1) |q| m e) :
    (m : ℚ) * 2 ^ e = |q| := by
  obtain ⟨m', e', hm', hv⟩ := fits_sig h hq
  have hs := nearest_self (t := |q|) (by omega) hm' hv
  have h1 := nearest_mono (by omega) le_rfl hn hs
  have h2 := nearest_mono (by omega) le_rfl hs hn
  rw [hv]; exact le_antisymm h1 h2

/-- Rounding a number that fits changes it only if it is out of range. -/
theorem rounded_fits {E F : ℕ} {k : ℤ} {q : ℚ} {d : Datum} (h : Fits F k q) (hq : q ≠ 0) (hr : Rounded E F q d) :
    d = if |q| < 2 ^ (-bias E) then .zero (decide (q < 0)) else if |q| < 2 ^ ((2 : ℤ) ^ E - bias E) then .num q
      else .inf (decide (q < 0)) := by
  obtain ⟨m, e, hn, rfl⟩ := hr
  have hv := nearest_fits h hq hn
  have h1 : |q| < 2 ^ (-bias E) ↔ e + F + bias E < 0 := by
    rw [← not_le, ← hv, sig_ge_iff hn.1]; omega
  have h2 : |q| < 2 ^ ((2 : ℤ) ^ E - bias E) ↔ e + F + bias E < 2 ^ E := by
    rw [← not_le, ← hv, sig_ge_iff hn.1]; omega
  have h3 : (if decide (q < 0) then (-1 : ℚ) else 1) * (m * 2 ^ e) = q := by
    rw [hv]
    by_cases hc : q < 0
    · simp only [hc, decide_true, if_true, abs_of_neg hc]; ring
    · simp only [hc, decide_false, Bool.false_eq_true, if_false, abs_of_nonneg (not_lt.mp hc)]; ring
  unfold rangeCheck
  by_cases c1 : e + F + bias E < 0
  · rw [if_pos c1, if_pos (h1.mpr c1)]
  · rw [if_neg c1, if_neg (fun h => c1 (h1.mp h))]
    by_cases c2 : e + F + bias E < 2 ^ E
    · rw [if_neg (not_le.mpr c2), if_pos (h2.mpr c2), h3]
    · rw [if_pos (not_lt.mp c2), if_neg (fun h => c2 (h2.mp h))]

/-- The value after rounding a number in range that fits, zero included. -/
theorem rounded0_fits {E F : ℕ} {k : ℤ} {q : ℚ} {d : Datum} (h : Fits F k q) (hk : -bias E ≤ k) (hmax : |q| < 2 ^ ((2 : ℤ) ^ E - bias E))
    (hr : Rounded0 E F q d) : d.fin = some q := by
  unfold Rounded0 at hr
  by_cases hq : q = 0
  · rw [if_pos hq] at hr
    obtain ⟨s, rfl⟩ := hr
    rw [hq]; rfl
  · rw [if_neg hq] at hr
    rw [rounded_fits h hq hr, if_neg, if_pos hmax]
    · rfl
    · obtain ⟨n, -, rfl⟩ := h
      have hn : n ≠ 0 := by rintro rfl; simp at hq
      have h1 : (1 : ℚ) ≤ abs (n : ℚ) := by
        have h1 : (1 : ℤ) ≤ |n| := Int.one_le_abs hn
        exact_mod_cast h1
      rw [abs_mul, abs_of_pos (two_zpow_pos k), not_lt]
      have h2 : (2 : ℚ) ^ (-bias E) ≤ 2 ^ k := zpow_le_zpow_right₀ (by norm_num) hk
      have := two_zpow_pos k
      nlinarith

/-- A multiple of `2^k` below `2^(k+F+1)` fits. -/
theorem fits_of_mult {F : ℕ} {k n : ℤ} {q : ℚ} (h : q = n * 2 ^ k) (hb : |q| < 2 ^ (k + F + 1)) : Fits F k q := by
  refine ⟨n, ?_, h⟩
  rw [h, abs_mul, abs_of_pos (two_zpow_pos k), show k + F + 1 = ((F + 1 : ℕ) : ℤ) + k by push_cast; ring, zpow_add₀ (by norm_num),
    zpow_natCast] at hb
  have := lt_of_mul_lt_mul_right hb (two_zpow_pos k).le
  exact_mod_cast this

/-- A signed number as a multiple of its last bit. -/
theorem signed_mult {v : ℚ} {m : ℕ} {k : ℤ} (h : |v| = m * 2 ^ k) : ∃ n : ℤ, v = n * 2 ^ k := by
  rcases abs_choice v with h' | h'
  · exact ⟨m, by rw [← h', h]; push_cast; rfl⟩
  · exact ⟨-m, by push_cast; linarith [h, h']⟩

/-- A difference that is not larger than either operand fits. -/
theorem sub_fits {F mx my : ℕ} {kx ky : ℤ} {x y : ℚ} (hx : |x| = mx * 2 ^ kx) (hy : |y| = my * 2 ^ ky) (hmx : mx < 2 ^ (F + 1))
    (hmy : my < 2 ^ (F + 1)) (h1 : |x - y| ≤ |x|) (h2 : |x - y| ≤ |y|) : Fits F (min kx ky) (x - y) := by
  have up : ∀ {m : ℕ} {k : ℤ}, m < 2 ^ (F + 1) → (m : ℚ) * 2 ^ k < 2 ^ (k + F + 1) := by
    intro m k hm
    have h1 : (m : ℚ) < 2 ^ (F + 1) := by exact_mod_cast hm
    have h2 := mul_lt_mul_of_pos_right h1 (two_zpow_pos k)
    rwa [← zpow_natCast, ← zpow_add₀ (by norm_num), show ((F + 1 : ℕ) : ℤ) + k = k + F + 1 by push_cast; ring] at h2
  obtain ⟨a, ha⟩ := signed_mult hx
  obtain ⟨b, hb⟩ := signed_mult hy
  obtain ⟨a', ha'⟩ := mult_of_le (min_le_left kx ky) ha
  obtain ⟨b', hb'⟩ := mult_of_le (min_le_right kx ky) hb
  refine fits_of_mult (n := a' - b') (by rw [ha', hb']; push_cast; ring) ?_
  rcases min_choice kx ky with h | h <;> rw [h]
  · exact lt_of_le_of_lt h1 (by rw [hx]; exact up hmx)
  · exact lt_of_le_of_lt h2 (by rw [hy]; exact up hmy)

/-- The error of a rounded sum of a positive number and one not larger than it: the rounded sum less the larger operand fits, and the error is a multiple
of the last bit of the smaller operand and not larger than it. -/
theorem sum_error {F ma mb m : ℕ} {ka kb e : ℤ} {a b : ℚ} (ha0 : 0 < a) (ha : a = ma * 2 ^ ka) (hb : |b| = mb * 2 ^ kb) (hma : IsSig (F + 1) ma)
    (hmb : IsSig (F + 1) mb) (hle : |b| ≤ a) (hq : a + b ≠ 0) (hn : NearestEven (F + 1) (a + b) m e) :
    (∃ k, kb ≤ k ∧ Fits F k (m * 2 ^ e - a)) ∧ |(m : ℚ) * 2 ^ e - a| ≤ a ∧ Fits F kb (a + b - m * 2 ^ e) ∧ |a + b - m * 2 ^ e| ≤ |b| := by
  have haa : |a| = ma * 2 ^ ka := by rw [abs_of_pos ha0, ha]
  have hb1 := (abs_le.mp hle).1
  have hq0 : 0 < a + b := lt_of_le_of_ne (by linarith) (Ne.symm hq)
  have hqa : |a + b| = a + b := abs_of_pos hq0
  obtain ⟨A, hA⟩ := signed_mult haa
  obtain ⟨B, hB⟩ := signed_mult hb
  have lb := sig_lower hmb kb
  have ub := sig_upper hmb kb
  have ua := sig_upper hma ka
  have hk : kb ≤ ka := by
    have : (2 : ℚ) ^ (kb + F) < 2 ^ (ka + F + 1) := by rw [← hb] at lb; rw [← ha] at ua; linarith
    have := (zpow_lt_zpow_iff_right₀ (a := (2 : ℚ)) (by norm_num)).mp this
    omega
  obtain ⟨A', hA'⟩ := mult_of_le hk hA
  have hN : ∃ N, N = (m : ℚ) * 2 ^ e := ⟨_, rfl⟩
  obtain ⟨N, hN⟩ := hN
  have hNp : 0 < N := by rw [hN]; have := sig_lower hn.1 e; have := two_zpow_pos (e + F); linarith
  -- the error is not larger than the smaller operand
  have herr : |a + b - N| ≤ |b| := by
    have := hn.2.1 ma ka hma
    rw [← ha, ← hN, show a + b - a = b by ring] at this
    exact this
  -- a sum that fits is exact
  have hex : ∀ k, Fits F k (a + b) → N = a + b := by
    intro k hf
    rw [hN, ← hqa]
    exact nearest_fits hf hq (by rw [hqa]; exact hn)
  have hmulti : ∃ n : ℤ, N = n * 2 ^ kb := by
    by_cases he : kb ≤ e
    · exact mult_of_le he (n := (m : ℤ)) (by rw [hN]; push_cast; rfl)
    · have hlt : a + b < 2 ^ (kb + F) := by
        by_contra hc
        have hs : IsSig (F + 1) (2 ^ F) := ⟨by simp, Nat.pow_lt_pow_right (by norm_num) (by omega)⟩
        have hv : (2 : ℚ) ^ (kb + F) = ((2 ^ F : ℕ) : ℚ) * 2 ^ kb := by
          rw [add_comm, zpow_add₀ (by norm_num)]; push_cast; rw [zpow_natCast]
        have := nearest_mono (by omega) (not_lt.mp hc) (nearest_self (by omega) hs hv) hn
        rw [← hv] at this
        have u := sig_upper hn.1 e
        have : (2 : ℚ) ^ (e + F + 1) ≤ 2 ^ (kb + F) := zpow_le_zpow_right₀ (by norm_num) (by omega)
        linarith
      have hf : Fits F kb (a + b) := fits_of_mult (n := A' + B) (by rw [hA', hB]; push_cast; ring) (by
        rw [hqa]; exact hlt.trans_le (zpow_le_zpow_right₀ (by norm_num) (by omega)))
      exact ⟨A' + B, by rw [hex kb hf, hA', hB]; push_cast; ring⟩
  obtain ⟨S, hS⟩ := hmulti
  rw [← hN]
  have hfe : Fits F kb (a + b - N) := fits_of_mult (n := A' + B - S) (by rw [hA', hB, hS]; push_cast; ring)
    (lt_of_le_of_lt herr (by rw [hb]; exact ub))
  -- the range of the rounded sum
  have m1 : ∀ j : ℤ, a * 2 ^ j = ma * 2 ^ (ka + j) := by intro j; rw [ha, zpow_add₀ (by norm_num)]; ring
  have hlow : ∀ j : ℤ, a * 2 ^ j ≤ a + b → a * 2 ^ j ≤ N := by
    intro j hj
    have := nearest_mono (by omega) hj (nearest_self (by omega) hma (m1 j)) hn
    rwa [← m1, ← hN] at this
  have hhigh : ∀ j : ℤ, a + b ≤ a * 2 ^ j → N ≤ a * 2 ^ j := by
    intro j hj
    have := nearest_mono (by omega) hj hn (nearest_self (by omega) hma (m1 j))
    rwa [← m1, ← hN] at this
  have l0 := hlow 0; have h0 := hhigh 0; have h1 := hhigh 1; have l1 := hlow (-1)
  rw [zpow_zero, mul_one] at l0 h0
  rw [zpow_one] at h1
  rw [show (2 : ℚ) ^ (-1 : ℤ) = 1 / 2 by norm_num] at l1
  have hNa : |N| = m * 2 ^ e := by rw [abs_of_pos hNp, hN]
  have key : |N - a| ≤ a ∧ (|N - a| ≤ N ∨ N = a + b) := by
    rcases le_or_gt 0 b with c | c
    · rw [abs_of_nonneg c] at hle
      have i1 := l0 (by linarith)
      have i2 := h1 (by linarith)
      rw [abs_of_nonneg (by linarith)]
      exact ⟨by linarith, Or.inl (by linarith)⟩
    · rw [abs_of_neg c] at hle
      have i1 := h0 (by linarith)
      rw [abs_of_nonpos (show N - a ≤ 0 by linarith)]
      refine ⟨by linarith, ?_⟩
      by_cases c2 : a * (1 / 2) ≤ a + b
      · have := l1 c2
        exact Or.inl (by linarith)
      · right
        have hf := sub_fits (F := F) (x := a) (y := -b) haa (by rw [abs_neg]; exact hb) hma.2 hmb.2
          (by rw [sub_neg_eq_add, hqa, abs_of_pos ha0]; linarith) (by rw [sub_neg_eq_add, hqa, abs_neg, abs_of_neg c]; linarith)
        rw [sub_neg_eq_add] at hf
        exact hex _ hf
  refine ⟨?_, key.1, hfe, herr⟩
  rcases key.2 with h | h
  · have hf := sub_fits (F := F) hNa haa hn.1.2 hma.2 (by rw [abs_of_pos hNp]; exact h) (by rw [abs_of_pos ha0]; exact key.1)
    by_cases hmin : kb ≤ min e ka
    · exact ⟨_, hmin, hf⟩
    · refine ⟨kb, le_rfl, fits_of_mult (n := S - A') (by rw [hA', hS]; push_cast; ring) ?_⟩
      obtain ⟨n, hn', hv⟩ := hf
      have hnq : (abs (n : ℚ)) < 2 ^ (F + 1) := by exact_mod_cast hn'
      rw [hv, abs_mul, abs_of_pos (two_zpow_pos _), show kb + F + 1 = ((F + 1 : ℕ) : ℤ) + kb by push_cast; ring, zpow_add₀ (by norm_num),
        zpow_natCast]
      have h3 : (2 : ℚ) ^ (min e ka) ≤ 2 ^ kb := zpow_le_zpow_right₀ (by norm_num) (by omega)
      have := two_zpow_pos (min e ka)
      have := two_zpow_pos kb
      have := abs_nonneg (n : ℚ)
      nlinarith
  · exact ⟨kb, le_rfl, fits_of_mult (n := B) (by rw [h, ← hB]; ring) (by
      rw [h, add_sub_cancel_left, hb]; exact ub)⟩

end Thls
