import Verif.Proofs.ExactOps
import Verif.Proofs.OpTest
import Verif.Rounding

/-! # Dividing by the sum of two powers of two and multiplying back (lemmas) -/

namespace Thls
open Spec

variable {F : ℕ}

/-- What lies within half a unit of an even significand rounds to it; below a power of two the units are half as large. -/
theorem nearest_near {m : ℕ} {e : ℤ} {x : ℚ} (hF : 1 ≤ F) (hm : IsSig (F + 1) m) (hev : Even m) (h : |x - m * 2 ^ e| ≤ 2 ^ e / 2)
    (hb : m = 2 ^ F → |x - m * 2 ^ e| ≤ 2 ^ e / 4) : NearestEven (F + 1) x m e := by
  have hu := two_zpow_pos e
  by_cases hx : (m : ℚ) * 2 ^ e ≤ x
  · rw [abs_of_nonneg (by linarith)] at h
    exact nearest_down (by omega) hm hx h fun _ => hev
  · push Not at hx
    rw [abs_of_neg (by linarith)] at h hb
    have hm1 := hm.1
    rw [Nat.add_sub_cancel] at hm1
    by_cases hq : m = 2 ^ F
    · have hb := hb hq
      have h2 : (2 : ℚ) ^ (e - 1) = 2 ^ e / 2 := by rw [zpow_sub_one₀ (by norm_num)]; ring
      have hp : 1 ≤ 2 ^ (F + 1) := Nat.one_le_two_pow
      have hU : (m : ℚ) * 2 ^ e = (((2 ^ (F + 1) - 1 : ℕ) : ℚ) + 1) * 2 ^ (e - 1) := by
        rw [Nat.cast_sub hp, hq, h2]; push_cast; rw [pow_succ]; ring
      refine nearest_up (x := x) (by omega) (m := 2 ^ (F + 1) - 1) (e := e - 1) ⟨?_, by omega⟩ hm hU ?_ ?_ fun _ => hev
      · rw [Nat.add_sub_cancel, pow_succ]; have := Nat.one_le_two_pow (n := F); omega
      · rw [← hU]; linarith
      · rw [← hU, h2]; linarith
    · have hU : (m : ℚ) * 2 ^ e = (((m - 1 : ℕ) : ℚ) + 1) * 2 ^ e := by
        rw [Nat.cast_sub (by have := Nat.one_le_two_pow (n := F); omega)]; push_cast; ring
      have hm2 := hm.2
      refine nearest_up (x := x) (by omega) (m := m - 1) (e := e) ⟨?_, by omega⟩ hm hU ?_ ?_ fun _ => hev
      · rw [Nat.add_sub_cancel]; omega
      · rw [← hU]; linarith
      · rw [← hU]; linarith

/-- Integer core: the product of the rounded quotient and the divisor is within half a unit of the dividend. -/
theorem back_close {k A m c : ℕ} (hk : k < F) (hc : k ≤ c)
    (h : 2 * |((m * (2 ^ F + 2 ^ k) : ℕ) : ℤ) - ((2 ^ c * A : ℕ) : ℤ)| ≤ 2 ^ F + 2 ^ k) :
    2 * |((m * (2 ^ F + 2 ^ k) : ℕ) : ℤ) - ((2 ^ c * A : ℕ) : ℤ)| ≤ 2 ^ F := by
  obtain ⟨i, rfl⟩ := Nat.exists_eq_add_of_lt hk
  obtain ⟨j, rfl⟩ := Nat.exists_eq_add_of_le hc
  have hp : (0 : ℤ) < 2 ^ k := by positivity
  have e1 : ((m * (2 ^ (k + i + 1) + 2 ^ k) : ℕ) : ℤ) - ((2 ^ (k + j) * A : ℕ) : ℤ) = 2 ^ k * ((m : ℤ) * (2 ^ (i + 1) + 1) - 2 ^ j * A) := by
    push_cast; rw [show k + i + 1 = k + (i + 1) by ring, pow_add, pow_add]; ring
  have e2 : (2 : ℤ) ^ (k + i + 1) = 2 ^ k * (2 * 2 ^ i) := by rw [show k + i + 1 = k + (i + 1) by ring, pow_add, pow_succ (2 : ℤ) i]; ring
  rw [e1, abs_mul, abs_of_pos hp, e2] at h ⊢
  generalize |(m : ℤ) * (2 ^ (i + 1) + 1) - 2 ^ j * A| = t at h ⊢
  have h1 : 2 ^ k * (2 * t) ≤ 2 ^ k * (2 * 2 ^ i + 1) := by linarith
  have h2 := le_of_mul_le_mul_left h1 hp
  have h3 : t ≤ 2 ^ i := by omega
  nlinarith

/-- Above `2^F` units the nearest number is an integral number of units and within half a unit. -/
theorem nearest_units {m : ℕ} {e u : ℤ} {x : ℚ} (hlo : (2 : ℚ) ^ F * 2 ^ u ≤ x) (hhi : x < 2 ^ (F + 1) * 2 ^ u)
    (hn : NearestEven (F + 1) x m e) : ∃ n : ℕ, (m : ℚ) * 2 ^ e = n * 2 ^ u ∧ |x - n * 2 ^ u| ≤ 2 ^ u / 2 := by
  have hu := two_zpow_pos u
  have hF2 : IsSig (F + 1) (2 ^ F) := ⟨by simp, by rw [pow_succ]; have := Nat.one_le_two_pow (n := F); omega⟩
  have hx0 : 0 ≤ x := le_trans (by positivity) hlo
  have hge : ((2 ^ F : ℕ) : ℚ) * 2 ^ u ≤ m * 2 ^ e := by
    by_contra hc
    push Not at hc
    have h1 := hn.2.1 (2 ^ F) u hF2
    push_cast at h1 hc
    rw [abs_of_nonneg (by linarith), abs_of_nonneg (by linarith)] at h1
    linarith
  have heu := sig_exp_le (by omega) hF2 hn.1 hge
  obtain ⟨c, rfl⟩ : ∃ c : ℕ, e = u + c := ⟨(e - u).toNat, by omega⟩
  have hv : (m : ℚ) * 2 ^ (u + (c : ℤ)) = ((m * 2 ^ c : ℕ) : ℚ) * 2 ^ u := by
    rw [zpow_add₀ (by norm_num), zpow_natCast]; push_cast; ring
  refine ⟨m * 2 ^ c, hv, ?_⟩
  rw [← hv]
  have hz : 0 ≤ x / 2 ^ u := by positivity
  have f1 := Nat.floor_le hz
  have f2 := Nat.lt_floor_add_one (x / 2 ^ u)
  have hs : IsSig (F + 1) ⌊x / 2 ^ u⌋₊ := by
    constructor
    · rw [Nat.add_sub_cancel]; exact Nat.le_floor (by rw [le_div_iff₀ hu]; push_cast; exact hlo)
    · rw [Nat.floor_lt hz, div_lt_iff₀ hu]; push_cast; exact hhi
  generalize ⌊x / 2 ^ u⌋₊ = f at f1 f2 hs
  rw [le_div_iff₀ hu] at f1
  rw [div_lt_iff₀ hu] at f2
  obtain ⟨n', e', g1, g2, -, -⟩ := sig_succ (by omega) hs u
  have d1 := hn.2.1 _ u hs
  have d2 := hn.2.1 _ e' g1
  rw [g2] at d2
  rw [abs_of_nonneg (show 0 ≤ x - f * 2 ^ u by linarith)] at d1
  rw [abs_of_nonpos (show x - (f + 1) * 2 ^ u ≤ 0 by linarith)] at d2
  linarith

/-- The rounded quotient of an even significand `A` and `2^F + 2^k`, times the divisor, rounds to the dividend. -/
theorem back_nearest {k A m : ℕ} {s t e : ℤ} (hF : 1 ≤ F) (hk : k < F) (hA : IsSig (F + 1) A) (hev : Even A)
    (hn : NearestEven (F + 1) ((A : ℚ) * 2 ^ s / (((2 ^ F + 2 ^ k : ℕ) : ℚ) * 2 ^ t)) m e) :
    NearestEven (F + 1) ((m : ℚ) * 2 ^ e * (((2 ^ F + 2 ^ k : ℕ) : ℚ) * 2 ^ t)) A s := by
  set N : ℕ := 2 ^ F + 2 ^ k with hN
  have hkF : (2 : ℕ) ^ k < 2 ^ F := Nat.pow_lt_pow_right (by norm_num) hk
  have hk0 : (0 : ℕ) < 2 ^ k := by positivity
  have hA1 := hA.1
  have hA2 := hA.2
  rw [Nat.add_sub_cancel] at hA1
  rw [pow_succ] at hA2
  have hNp : (0 : ℚ) < N := by exact_mod_cast (show 0 < N by omega)
  have ht := two_zpow_pos t
  -- the scale of the quotient
  obtain ⟨c, hcF, hc1, hlo, hhi⟩ : ∃ c : ℕ, F ≤ c ∧ (A = 2 ^ F → c = F + 1) ∧ 2 ^ F * N ≤ 2 ^ c * A ∧ 2 ^ c * A < 2 ^ (F + 1) * N := by
    by_cases hc : N ≤ A
    · refine ⟨F, le_rfl, fun h => by omega, Nat.mul_le_mul_left _ hc, ?_⟩
      rw [pow_succ, mul_assoc]
      exact Nat.mul_lt_mul_of_pos_left (by omega) (by positivity)
    · refine ⟨F + 1, by omega, fun _ => rfl, ?_, Nat.mul_lt_mul_of_pos_left (by omega) (by positivity)⟩
      rw [pow_succ, mul_assoc]
      exact Nat.mul_le_mul_left _ (by omega)
  have hq : (A : ℚ) * 2 ^ s / ((N : ℚ) * 2 ^ t) = ((2 ^ c * A : ℕ) : ℚ) / N * 2 ^ (s - t - c) := by
    rw [zpow_sub₀ (by norm_num), zpow_sub₀ (by norm_num), zpow_natCast]
    push_cast
    field_simp
  rw [hq] at hn
  have hu := two_zpow_pos (s - t - c)
  obtain ⟨n, n1, n2⟩ := nearest_units (F := F) (u := s - t - c)
    (mul_le_mul_of_nonneg_right (by rw [le_div_iff₀ hNp]; exact_mod_cast hlo) hu.le)
    (mul_lt_mul_of_pos_right (by rw [div_lt_iff₀ hNp]; exact_mod_cast hhi) hu) hn
  rw [← sub_mul, abs_mul, abs_of_pos hu] at n2
  have n3 : |((2 ^ c * A : ℕ) : ℚ) / N - n| ≤ 1 / 2 := le_of_mul_le_mul_right (by linarith) hu
  have n4 : 2 * |((n * N : ℕ) : ℚ) - ((2 ^ c * A : ℕ) : ℚ)| ≤ N := by
    have h1 : ((n * N : ℕ) : ℚ) - ((2 ^ c * A : ℕ) : ℚ) = -(((2 ^ c * A : ℕ) : ℚ) / N - n) * N := by
      push_cast; field_simp; ring
    rw [h1, abs_mul, abs_neg, abs_of_pos hNp]
    nlinarith
  have n5 := back_close (F := F) (A := A) (m := n) hk (show k ≤ c by omega) (by rw [← hN]; exact_mod_cast n4)
  rw [← hN] at n5
  have n6 : 2 * |((n * N : ℕ) : ℚ) - ((2 ^ c * A : ℕ) : ℚ)| ≤ 2 ^ F := by exact_mod_cast n5
  -- the distance of the product
  have hsc := two_zpow_pos (s - c)
  have hs : (2 : ℚ) ^ s = 2 ^ c * 2 ^ (s - c) := by
    rw [← zpow_natCast, ← zpow_add₀ (by norm_num)]; congr 1; ring
  have hp : (m : ℚ) * 2 ^ e * ((N : ℚ) * 2 ^ t) - A * 2 ^ s = (((n * N : ℕ) : ℚ) - ((2 ^ c * A : ℕ) : ℚ)) * 2 ^ (s - c) := by
    rw [n1, hs, show s - t - (c : ℤ) = (s - c) - t by ring, zpow_sub₀ (by norm_num) (s - c) t]
    push_cast
    field_simp
  have hd : |(m : ℚ) * 2 ^ e * ((N : ℚ) * 2 ^ t) - A * 2 ^ s| ≤ 2 ^ F / 2 * 2 ^ (s - c) := by
    rw [hp, abs_mul, abs_of_pos hsc]
    exact mul_le_mul_of_nonneg_right (by linarith) hsc.le
  refine nearest_near hF hA hev (hd.trans ?_) fun h => hd.trans ?_
  · rw [hs]
    have : (2 : ℚ) ^ F ≤ 2 ^ c := pow_le_pow_right₀ (by norm_num) hcF
    nlinarith
  · rw [hs, hc1 h, pow_succ]
    apply le_of_eq; ring

/-- A multiple `n * 2^k` with `|n| < 2^F` has an even significand of `F+1` bits. -/
theorem sig_even {A : ℕ} {s k n : ℤ} {x : ℚ} (hA : IsSig (F + 1) A) (hx : |x| = A * 2 ^ s) (hn : |n| < 2 ^ F) (hv : x = n * 2 ^ k) : Even A := by
  have hk := two_zpow_pos k
  have hA1 : ((2 : ℚ) ^ F) ≤ A := by exact_mod_cast hA.1
  have h1 : |x| = ((n.natAbs : ℕ) : ℚ) * 2 ^ k := by
    rw [hv, abs_mul, abs_of_pos hk, Nat.cast_natAbs]; push_cast; rfl
  have h2 : ((n.natAbs : ℕ) : ℚ) < 2 ^ F := by
    rw [Nat.cast_natAbs]; exact_mod_cast hn
  have hs := two_zpow_pos s
  have h3 : (2 : ℚ) ^ F * 2 ^ s < 2 ^ F * 2 ^ k := by
    calc (2 : ℚ) ^ F * 2 ^ s ≤ A * 2 ^ s := mul_le_mul_of_nonneg_right hA1 hs.le
      _ = ((n.natAbs : ℕ) : ℚ) * 2 ^ k := by rw [← hx, h1]
      _ < 2 ^ F * 2 ^ k := mul_lt_mul_of_pos_right h2 hk
  have h4 : (2 : ℚ) ^ s < 2 ^ k := lt_of_mul_lt_mul_left h3 (by positivity)
  have h5 : s < k := (zpow_lt_zpow_iff_right₀ (by norm_num)).mp h4
  obtain ⟨c, rfl⟩ : ∃ c : ℕ, k = s + (c + 1 : ℕ) := ⟨(k - s - 1).toNat, by omega⟩
  rw [hx, zpow_add₀ (by norm_num), zpow_natCast] at h1
  have h6 : (A : ℚ) = ((n.natAbs * 2 ^ (c + 1) : ℕ) : ℚ) := by
    push_cast
    refine mul_right_cancel₀ hs.ne' ?_
    rw [h1]; ring
  have h7 : A = n.natAbs * 2 ^ (c + 1) := by exact_mod_cast h6
  rw [h7, pow_succ]
  exact ⟨n.natAbs * 2 ^ c, by ring⟩

/-- A number of `F+1` bits that is the sum of two powers of two is a power of two, or a multiple of some `2^F + 2^k`. -/
theorem two_powers_sig {B : ℕ} {t i j : ℤ} {y : ℚ} (hB : IsSig (F + 1) B) (hy : |y| = B * 2 ^ t) (hv : |y| = 2 ^ i + 2 ^ j) :
    (∃ l : ℤ, |y| = 2 ^ l) ∨ ∃ k l, k < F ∧ |y| = ((2 ^ F + 2 ^ k : ℕ) : ℚ) * 2 ^ (l : ℤ) := by
  wlog hij : i ≤ j generalizing i j
  · exact this (i := j) (j := i) (by rw [hv, add_comm]) (by omega)
  by_cases he : i = j
  · left
    exact ⟨i + 1, by rw [hv, ← he, zpow_add_one₀ (by norm_num)]; ring⟩
  right
  obtain ⟨d, rfl⟩ : ∃ d : ℕ, j = i + (d + 1 : ℕ) := ⟨(j - i - 1).toNat, by omega⟩
  have hi := two_zpow_pos i
  have h1 : |y| = ((2 ^ (d + 1) + 1 : ℕ) : ℚ) * 2 ^ i := by
    rw [hv, zpow_add₀ (by norm_num), zpow_natCast]; push_cast; ring
  have hd : d + 1 ≤ F := by
    by_contra hc
    have h2 := hB.2
    rw [h1] at hy
    have h3 : 2 ^ (F + 1) ≤ 2 ^ (d + 1) := Nat.pow_le_pow_right (by norm_num) (by omega)
    by_cases ht : t ≤ i
    · obtain ⟨c, rfl⟩ : ∃ c : ℕ, i = t + c := ⟨(i - t).toNat, by omega⟩
      rw [zpow_add₀ (by norm_num), zpow_natCast] at hy
      have h4 : ((2 ^ (d + 1) + 1 : ℕ) : ℚ) * 2 ^ c = B := mul_right_cancel₀ (two_zpow_pos t).ne' (by rw [← hy]; ring)
      have h5 : (2 ^ (d + 1) + 1) * 2 ^ c = B := by exact_mod_cast h4
      have := Nat.one_le_two_pow (n := c)
      nlinarith
    · obtain ⟨c, rfl⟩ : ∃ c : ℕ, t = i + (c + 1 : ℕ) := ⟨(t - i - 1).toNat, by omega⟩
      rw [zpow_add₀ (by norm_num), zpow_natCast] at hy
      have h4 : ((2 ^ (d + 1) + 1 : ℕ) : ℚ) = B * 2 ^ (c + 1) := mul_right_cancel₀ hi.ne' (by rw [hy]; ring)
      have h5 : 2 ^ (d + 1) + 1 = B * 2 ^ (c + 1) := by exact_mod_cast h4
      rw [pow_succ, pow_succ] at h5
      have : (2 ^ d * 2 + 1) % 2 = B * (2 ^ c * 2) % 2 := by rw [h5]
      rw [← mul_assoc] at this
      omega
  refine ⟨F - (d + 1), i - (F - (d + 1) : ℕ), by omega, ?_⟩
  rw [h1, zpow_sub₀ (by norm_num), zpow_natCast]
  have h5 : (2 : ℚ) ^ F = 2 ^ (d + 1) * 2 ^ (F - (d + 1)) := by rw [← pow_add]; congr 1; omega
  push_cast
  rw [h5]
  field_simp

/-- Dividing by a sum of two powers of two, rounding, multiplying back and rounding again: the magnitudes. -/
theorem back_magnitude {A B m : ℕ} {s t e i j k n : ℤ} {x y : ℚ} (hF : 1 ≤ F) (hA : IsSig (F + 1) A) (hx : |x| = A * 2 ^ s)
    (hn : |n| < 2 ^ F) (hxn : x = n * 2 ^ k) (hB : IsSig (F + 1) B) (hyB : |y| = B * 2 ^ t) (hy : |y| = 2 ^ i + 2 ^ j)
    (hq : NearestEven (F + 1) |x / y| m e) : NearestEven (F + 1) ((m : ℚ) * 2 ^ e * |y|) A s := by
  have hev := sig_even hA hx hn hxn
  rw [abs_div, hx] at hq
  rcases two_powers_sig hB hyB hy with ⟨l, hl⟩ | ⟨c, l, hc, hl⟩
  · rw [hl, mul_div_assoc, ← zpow_sub₀ (by norm_num)] at hq
    obtain ⟨rfl, rfl⟩ := nearest_unique (by omega) (nearest_self (by omega) hA rfl) hq
    refine nearest_self (by omega) hA ?_
    rw [hl, mul_assoc, ← zpow_add₀ (by norm_num)]
    congr 2; ring
  · rw [hl] at hq ⊢
    exact back_nearest hF hc hA hev hq

end Thls
