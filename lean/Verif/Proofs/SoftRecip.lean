import Verif.Model.SoftFloat
import Mathlib.Tactic.Linarith
import Mathlib.Tactic.Ring
import Mathlib.Tactic.IntervalCases

/-! # The error of `softfloat_approxRecip32_1` -/

namespace Thls

/-- What is used of the tables: `C - K1 t` bounds the interpolated value from above, `2^31 K0 - K1 t` from below. -/
def RecipSeg (i : ℕ) : Prop :=
  (recipK1.getD i 0 * (2 ^ 31 + i * 2 ^ 27) + (2 ^ 31 * recipK0.getD i 0 + 2047 * recipK1.getD i 0 + 2 ^ 31 - 2 ^ 11)) ^ 2
      < 4 * recipK1.getD i 0 * 2 ^ 78 ∧
  2 ^ 78 ≤ 2 ^ 31 * recipK0.getD i 0 * (2 ^ 31 + i * 2 ^ 27) + 2 ^ 68 ∧
  2 ^ 78 + recipK1.getD i 0 * 2 ^ 27 * (2 ^ 31 + i * 2 ^ 27 + 2 ^ 27) ≤
    2 ^ 31 * recipK0.getD i 0 * (2 ^ 31 + i * 2 ^ 27 + 2 ^ 27) + 2 ^ 68 ∧
  recipK1.getD i 0 * 65535 / 2 ^ 20 ≤ recipK0.getD i 0 ∧ recipK0.getD i 0 < 2 ^ 16 ∧ 0 < recipK1.getD i 0

instance (i : ℕ) : Decidable (RecipSeg i) := by unfold RecipSeg; infer_instance

/-- The sixteen entries of the tables. -/
theorem recipSeg_all {i : ℕ} (h : i < 16) : RecipSeg i := by
  have : ∀ i : Fin 16, RecipSeg i := by decide +kernel
  exact this ⟨i, h⟩

theorem quad_upper {K C b t : ℤ} (hK : 0 < K) (h : (K * b + C) ^ 2 < 4 * K * 2 ^ 78) : (C - K * t) * (b + t) < 2 ^ 78 := by
  have h1 := sq_nonneg (2 * K * t + K * b - C)
  by_contra hc
  push Not at hc
  have h2 : 4 * K * 2 ^ 78 ≤ 4 * K * ((C - K * t) * (b + t)) := Int.mul_le_mul_of_nonneg_left hc (by linarith)
  have h3 : 4 * K * ((C - K * t) * (b + t)) = (K * b + C) ^ 2 - (2 * K * t + K * b - C) ^ 2 := by ring
  linarith

theorem quad_lower {K C b t T m : ℤ} (hK : 0 ≤ K) (ht : 0 ≤ t) (hT : t ≤ T) (hT0 : 0 < T) (h0 : m ≤ C * b) (h1 : m ≤ (C - K * T) * (b + T)) :
    m ≤ (C - K * t) * (b + t) := by
  have e : T * ((C - K * t) * (b + t)) = (T - t) * (C * b) + t * ((C - K * T) * (b + T)) + K * t * (T - t) * T := by ring
  have h2 : (T - t) * m ≤ (T - t) * (C * b) := mul_le_mul_of_nonneg_left h0 (by linarith)
  have h3 : t * m ≤ t * ((C - K * T) * (b + T)) := mul_le_mul_of_nonneg_left h1 ht
  have h4 : 0 ≤ K * t * (T - t) * T := mul_nonneg (mul_nonneg (mul_nonneg hK ht) (by linarith)) hT0.le
  have h5 : T * m ≤ T * ((C - K * t) * (b + t)) := by rw [e]; linarith
  exact le_of_mul_le_mul_left h5 hT0

/-- The first approximation is below `2^47 / a`, by less than a thousandth. -/
theorem recipR0_spec {a : ℕ} (h1 : 2 ^ 31 ≤ a) (h2 : a < 2 ^ 32) :
    recipR0 a * a < 2 ^ 47 ∧ 2 ^ 47 ≤ recipR0 a * a + 2 ^ 37 ∧ recipR0 a < 2 ^ 16 := by
  unfold recipR0
  simp only
  have hi : a / 2 ^ 27 % 16 < 16 := Nat.mod_lt _ (by norm_num)
  have hseg := recipSeg_all hi
  have ha : a = 2 ^ 31 + (a / 2 ^ 27 % 16) * 2 ^ 27 + (a / 2 ^ 11 % 2 ^ 16 * 2 ^ 11 + a % 2 ^ 11) := by omega
  have hu : a % 2 ^ 11 < 2 ^ 11 := Nat.mod_lt _ (by norm_num)
  have he : a / 2 ^ 11 % 2 ^ 16 < 2 ^ 16 := Nat.mod_lt _ (by norm_num)
  generalize a / 2 ^ 27 % 16 = i at *
  generalize a / 2 ^ 11 % 2 ^ 16 = e at *
  generalize a % 2 ^ 11 = u at *
  unfold RecipSeg at hseg
  generalize recipK0.getD i 0 = K0 at *
  generalize recipK1.getD i 0 = K1 at *
  obtain ⟨s1, s2, s3, s4, s5, s6⟩ := hseg
  have hp1 : 2 ^ 20 * (K1 * e / 2 ^ 20) ≤ K1 * e := Nat.mul_div_le _ _
  have hp2 : K1 * e < 2 ^ 20 * (K1 * e / 2 ^ 20 + 1) := Nat.lt_mul_div_succ _ (by norm_num)
  have hpK : K1 * e / 2 ^ 20 ≤ K0 :=
    le_trans (Nat.div_le_div_right (Nat.mul_le_mul_left _ (by omega))) s4
  generalize K1 * e / 2 ^ 20 = p at *
  rw [show K0 + 2 ^ 16 - p = K0 - p + 2 ^ 16 by omega, Nat.add_mod_right, Nat.mod_eq_of_lt (show K0 - p < 2 ^ 16 by omega)]
  obtain ⟨r, rfl⟩ : ∃ r, K0 = p + r := ⟨K0 - p, by omega⟩
  rw [Nat.add_sub_cancel_left]
  have hae : (a : ℤ) = (2 ^ 31 + i * 2 ^ 27) + (e * 2 ^ 11 + u) := by rw [ha]; push_cast; ring
  have s1' : ((K1 : ℤ) * (2 ^ 31 + i * 2 ^ 27) + (2 ^ 31 * (p + r) + 2047 * K1 + 2 ^ 31 - 2 ^ 11)) ^ 2 < 4 * K1 * 2 ^ 78 := by
    have h : 2 ^ 11 ≤ 2 ^ 31 * (p + r) + 2047 * K1 + 2 ^ 31 := by omega
    have := s1
    zify [h] at this
    exact this
  have hp1' : (2 : ℤ) ^ 20 * p ≤ K1 * e := by exact_mod_cast hp1
  have hp2' : (K1 : ℤ) * e < 2 ^ 20 * (p + 1) := by exact_mod_cast hp2
  have hK1u : (K1 : ℤ) * u ≤ K1 * 2047 := mul_le_mul_of_nonneg_left (by omega) (by omega)
  have hK1u0 : (0 : ℤ) ≤ K1 * u := mul_nonneg (by omega) (by omega)
  have hapos : (0 : ℤ) < a := by omega
  refine ⟨?_, ?_, by omega⟩
  · have q := quad_upper (K := K1) (b := 2 ^ 31 + i * 2 ^ 27) (t := e * 2 ^ 11 + u) (by omega) s1'
    rw [← hae] at q
    have h3 : (2 : ℤ) ^ 31 * r ≤ 2 ^ 31 * (p + r) + 2047 * K1 + 2 ^ 31 - 2 ^ 11 - K1 * (e * 2 ^ 11 + u) := by
      have : (K1 : ℤ) * (e * 2 ^ 11 + u) = 2 ^ 11 * (K1 * e) + K1 * u := by ring
      rw [this]; linarith
    have h4 := mul_le_mul_of_nonneg_right h3 hapos.le
    have h5 : (2 : ℤ) ^ 31 * r * a < 2 ^ 78 := lt_of_le_of_lt h4 q
    have h6 : (r : ℤ) * a < 2 ^ 47 := by
      by_contra hc
      push Not at hc
      rw [mul_assoc] at h5
      linarith
    exact_mod_cast h6
  · have s2' : (2 : ℤ) ^ 78 - 2 ^ 68 ≤ 2 ^ 31 * (p + r) * (2 ^ 31 + i * 2 ^ 27) := by
      have : ((2 ^ 78 : ℕ) : ℤ) ≤ ((2 ^ 31 * (p + r) * (2 ^ 31 + i * 2 ^ 27) + 2 ^ 68 : ℕ) : ℤ) := by exact_mod_cast s2
      push_cast at this
      linarith
    have s3' : (2 : ℤ) ^ 78 - 2 ^ 68 ≤ (2 ^ 31 * (p + r) - K1 * 2 ^ 27) * (2 ^ 31 + i * 2 ^ 27 + 2 ^ 27) := by
      have : ((2 ^ 78 + K1 * 2 ^ 27 * (2 ^ 31 + i * 2 ^ 27 + 2 ^ 27) : ℕ) : ℤ) ≤
        ((2 ^ 31 * (p + r) * (2 ^ 31 + i * 2 ^ 27 + 2 ^ 27) + 2 ^ 68 : ℕ) : ℤ) := by exact_mod_cast s3
      push_cast at this
      rw [sub_mul]
      linarith
    have q := quad_lower (K := (K1 : ℤ)) (C := 2 ^ 31 * (p + r)) (b := 2 ^ 31 + i * 2 ^ 27) (t := e * 2 ^ 11 + u) (T := 2 ^ 27)
      (by omega) (by omega) (by omega) (by norm_num) s2' s3'
    rw [← hae] at q
    have h3 : (2 : ℤ) ^ 31 * (p + r) - K1 * (e * 2 ^ 11 + u) ≤ 2 ^ 31 * r := by
      have : (K1 : ℤ) * (e * 2 ^ 11 + u) = 2 ^ 11 * (K1 * e) + K1 * u := by ring
      rw [this]; linarith
    have h4 := mul_le_mul_of_nonneg_right h3 hapos.le
    have h5 : (2 : ℤ) ^ 78 - 2 ^ 68 ≤ 2 ^ 31 * r * a := le_trans q h4
    have h6 : (2 : ℤ) ^ 47 ≤ r * a + 2 ^ 37 := by
      rw [mul_assoc] at h5
      linarith
    exact_mod_cast h6

/-- The refinement, as integers: `s` is the corrected error, `r1` and `r2` the first and the second refinement. -/
theorem recip_refine {a r0 s r1 g sq : ℤ} (ha0 : 2 ^ 31 ≤ a) (ha : a < 2 ^ 32)
    (hs0 : 0 ≤ s) (hs : s < 2 ^ 30) (hd1 : 128 * s + r0 * a < 2 ^ 47) (hd2 : 2 ^ 47 ≤ 128 * (s + 1) + r0 * a)
    (h11 : 2 ^ 24 * r1 ≤ r0 * (2 ^ 40 + s)) (h12 : r0 * (2 ^ 40 + s) < 2 ^ 24 * (r1 + 1)) (h10 : 0 ≤ r1)
    (hq1 : 2 ^ 32 * sq ≤ s * s) (hq2 : s * s < 2 ^ 32 * (sq + 1))
    (hg1 : 2 ^ 48 * g ≤ r1 * sq) (hg2 : r1 * sq < 2 ^ 48 * (g + 1)) :
    (r1 + g) * a < 2 ^ 63 ∧ 2 ^ 63 ≤ (r1 + g) * a + 2 * a + 2 ^ 24 + 2 ^ 16 ∧ r1 * a < 2 ^ 63 := by
  have hss : s * s ≤ 2 ^ 60 := by
    calc s * s ≤ 2 ^ 30 * 2 ^ 30 := mul_le_mul hs.le hs.le hs0 (by norm_num)
      _ = 2 ^ 60 := by norm_num
  have hss0 : 0 ≤ s * s := mul_nonneg hs0 hs0
  have hP : 0 < 2 ^ 40 + s := by linarith
  -- upper bound of r1 * a
  have u1 : 2 ^ 24 * (r1 * a) ≤ r0 * a * (2 ^ 40 + s) := by
    have := mul_le_mul_of_nonneg_right h11 (show 0 ≤ a by linarith)
    linarith
  have u2 : r0 * a * (2 ^ 40 + s) ≤ (2 ^ 47 - 128 * s - 1) * (2 ^ 40 + s) := mul_le_mul_of_nonneg_right (by linarith) hP.le
  have u3 : 2 ^ 17 * (r1 * a) < 2 ^ 80 - s * s := by
    have : (2 ^ 47 - 128 * s - 1) * (2 ^ 40 + s) = 2 ^ 7 * (2 ^ 80 - s * s) - (2 ^ 40 + s) := by ring
    linarith
  -- lower bound of r1 * a
  have l1 : r0 * a * (2 ^ 40 + s) ≤ 2 ^ 24 * (r1 * a) + 2 ^ 24 * a := by
    have := mul_le_mul_of_nonneg_right h12.le (show 0 ≤ a by linarith)
    linarith
  have l2 : (2 ^ 47 - 128 * (s + 1)) * (2 ^ 40 + s) ≤ r0 * a * (2 ^ 40 + s) := mul_le_mul_of_nonneg_right (by linarith) hP.le
  have l3 : 2 ^ 80 - s * s - 2 ^ 40 - s ≤ 2 ^ 17 * (r1 * a) + 2 ^ 17 * a := by
    have : (2 ^ 47 - 128 * (s + 1)) * (2 ^ 40 + s) = 2 ^ 7 * (2 ^ 80 - s * s - 2 ^ 40 - s) := by ring
    linarith
  -- the second refinement
  have g1 : 2 ^ 80 * g ≤ r1 * (s * s) := by
    have := mul_le_mul_of_nonneg_left hq1 h10
    linarith
  have g2 : r1 * (s * s) ≤ 2 ^ 80 * (g + 1) + 2 ^ 32 * r1 := by
    have := mul_le_mul_of_nonneg_left hq2.le h10
    linarith
  have g1a : 2 ^ 80 * (g * a) ≤ r1 * a * (s * s) := by
    have := mul_le_mul_of_nonneg_right g1 (show 0 ≤ a by linarith)
    linarith
  have g2a : r1 * a * (s * s) ≤ 2 ^ 80 * (g * a) + 2 ^ 80 * a + 2 ^ 32 * (r1 * a) := by
    have := mul_le_mul_of_nonneg_right g2 (show 0 ≤ a by linarith)
    linarith
  have hY0 : 0 ≤ r1 * a := mul_nonneg h10 (by linarith)
  have hexp : (r1 + g) * a = r1 * a + g * a := by ring
  rw [hexp]
  generalize r1 * a = Y at *
  generalize g * a = Z at *
  generalize hx : s * s = x at *
  refine ⟨?_, ?_, by linarith⟩
  · have h3 : 2 ^ 17 * Y * (2 ^ 80 + x) < (2 ^ 80 - x) * (2 ^ 80 + x) := mul_lt_mul_of_pos_right u3 (by linarith)
    have h4 : (2 ^ 80 - x) * (2 ^ 80 + x) = 2 ^ 160 - x * x := by ring
    have h5 : 0 ≤ x * x := mul_nonneg hss0 hss0
    have h6 : 2 ^ 17 * Y * (2 ^ 80 + x) = 2 ^ 97 * Y + 2 ^ 17 * (Y * x) := by ring
    have h7 : 2 ^ 97 * (Y + Z) < 2 ^ 160 := by linarith
    linarith
  · have h3 : (2 ^ 80 - x - 2 ^ 40 - s) * (2 ^ 80 + x) ≤ (2 ^ 17 * Y + 2 ^ 17 * a) * (2 ^ 80 + x) := mul_le_mul_of_nonneg_right l3 (by linarith)
    have h4 : (2 ^ 80 - x - 2 ^ 40 - s) * (2 ^ 80 + x) = 2 ^ 160 - x * x - (2 ^ 40 + s) * 2 ^ 80 - (2 ^ 40 + s) * x := by ring
    have h5 : x * x ≤ 2 ^ 120 := by
      calc x * x ≤ 2 ^ 60 * 2 ^ 60 := mul_le_mul hss hss hss0 (by norm_num)
        _ = 2 ^ 120 := by norm_num
    have h6 : (2 ^ 40 + s) * x ≤ (2 ^ 40 + 2 ^ 30) * 2 ^ 60 := mul_le_mul (by linarith) hss hss0 (by norm_num)
    have h7 : (2 ^ 17 * Y + 2 ^ 17 * a) * (2 ^ 80 + x) = 2 ^ 97 * Y + 2 ^ 17 * (Y * x) + 2 ^ 97 * a + 2 ^ 17 * (a * x) := by ring
    have h8 : a * x ≤ 2 ^ 32 * 2 ^ 60 := mul_le_mul ha.le hss hss0 (by norm_num)
    have h9 : (2 : ℤ) ^ 160 ≤ 2 ^ 97 * (Y + Z) + 2 ^ 98 * a + 2 ^ 97 * (2 ^ 24 + 2 ^ 16) := by linarith
    linarith

/-- `r = softfloat_approxRecip32_1(a)` is below `2^63 / a`, by little more than 2. -/
theorem approxRecip_spec {a : ℕ} (h1 : 2 ^ 31 ≤ a) (h2 : a < 2 ^ 32) :
    approxRecip a * a < 2 ^ 63 ∧ 2 ^ 63 ≤ approxRecip a * a + 2 * a + 2 ^ 24 + 2 ^ 16 := by
  obtain ⟨d1, d2, d3⟩ := recipR0_spec h1 h2
  unfold approxRecip
  simp only
  generalize recipR0 a = r0 at *
  generalize hN : r0 * a = N at *
  have hsig : 2 ^ 32 - 1 - N / 2 ^ 7 % 2 ^ 32 = (2 ^ 47 - N - 1) / 2 ^ 7 := by omega
  rw [hsig]
  have hs1 : 2 ^ 7 * ((2 ^ 47 - N - 1) / 2 ^ 7) + N < 2 ^ 47 := by omega
  have hs2 : 2 ^ 47 ≤ 2 ^ 7 * ((2 ^ 47 - N - 1) / 2 ^ 7 + 1) + N := by omega
  have hs3 : (2 ^ 47 - N - 1) / 2 ^ 7 < 2 ^ 30 := by omega
  generalize (2 ^ 47 - N - 1) / 2 ^ 7 = s at *
  have a1 : 2 ^ 24 * (r0 * s / 2 ^ 24) ≤ r0 * s := Nat.mul_div_le _ _
  have a2 : r0 * s < 2 ^ 24 * (r0 * s / 2 ^ 24 + 1) := Nat.lt_mul_div_succ _ (by norm_num)
  generalize r0 * s / 2 ^ 24 = t at *
  have b1 : 2 ^ 32 * (s * s / 2 ^ 32) ≤ s * s := Nat.mul_div_le _ _
  have b2 : s * s < 2 ^ 32 * (s * s / 2 ^ 32 + 1) := Nat.lt_mul_div_succ _ (by norm_num)
  generalize s * s / 2 ^ 32 = sq at *
  have c1 : 2 ^ 48 * ((r0 * 2 ^ 16 + t) * sq / 2 ^ 48) ≤ (r0 * 2 ^ 16 + t) * sq := Nat.mul_div_le _ _
  have c2 : (r0 * 2 ^ 16 + t) * sq < 2 ^ 48 * ((r0 * 2 ^ 16 + t) * sq / 2 ^ 48 + 1) := Nat.lt_mul_div_succ _ (by norm_num)
  have e1 : 2 ^ 24 * (r0 * 2 ^ 16 + t) ≤ r0 * (2 ^ 40 + s) := by
    have : r0 * (2 ^ 40 + s) = 2 ^ 24 * (r0 * 2 ^ 16) + r0 * s := by ring
    omega
  have e2 : r0 * (2 ^ 40 + s) < 2 ^ 24 * (r0 * 2 ^ 16 + t + 1) := by
    have : r0 * (2 ^ 40 + s) = 2 ^ 24 * (r0 * 2 ^ 16) + r0 * s := by ring
    omega
  obtain ⟨r1, hr1⟩ : ∃ r1, r0 * 2 ^ 16 + t = r1 := ⟨_, rfl⟩
  rw [hr1] at c1 c2 e1 e2 ⊢
  have key := recip_refine (a := a) (r0 := r0) (s := s) (r1 := r1) (g := ((r1 * sq / 2 ^ 48 : ℕ) : ℤ)) (sq := sq)
    (by exact_mod_cast h1) (by exact_mod_cast h2) (by omega) (by exact_mod_cast hs3)
    (by rw [← hN] at hs1; exact_mod_cast hs1) (by rw [← hN] at hs2; exact_mod_cast hs2)
    (by exact_mod_cast e1) (by exact_mod_cast e2) (by omega) (by exact_mod_cast b1) (by exact_mod_cast b2)
    (by exact_mod_cast c1) (by exact_mod_cast c2)
  obtain ⟨k1, k2, k3⟩ := key
  have k1' : (r1 + r1 * sq / 2 ^ 48) * a < 2 ^ 63 := by exact_mod_cast k1
  have k2' : 2 ^ 63 ≤ (r1 + r1 * sq / 2 ^ 48) * a + 2 * a + 2 ^ 24 + 2 ^ 16 := by exact_mod_cast k2
  have k3' : r1 * a < 2 ^ 63 := by exact_mod_cast k3
  have lt32 : ∀ x, x * a < 2 ^ 63 → x < 2 ^ 32 := by
    intro x hx
    by_contra hc
    push Not at hc
    have := Nat.mul_le_mul hc h1
    omega
  rw [Nat.mod_eq_of_lt (lt32 r1 k3'), Nat.mod_eq_of_lt (lt32 _ k1')]
  exact ⟨k1', k2'⟩

/-- The bound that the 32-bit division needs. -/
def recipTop (m : ℕ) : Bool := Nat.ble (2 ^ 63) (approxRecip (m * 256) * (m * 256) + 2 ^ 33)

/-- Close to the upper end of the range the bound is checked for every multiple of 256: 33024 values. -/
theorem recipTop_all : ∀ i : Fin 129, ∀ j : Fin 256, recipTop (2 ^ 24 - 1 - (i.val * 256 + j.val)) = true := by
  decide +kernel

theorem approxRecip_mult {m : ℕ} (h1 : 2 ^ 23 ≤ m) (h2 : m < 2 ^ 24) :
    2 ^ 63 ≤ approxRecip (m * 2 ^ 8) * (m * 2 ^ 8) + 2 ^ 33 := by
  by_cases h : m * 2 ^ 8 + 2 ^ 23 + 2 ^ 15 ≤ 2 ^ 32
  · have := (approxRecip_spec (a := m * 2 ^ 8) (by omega) (by omega)).2
    omega
  · obtain ⟨n, hn⟩ : ∃ n, m = 2 ^ 24 - 1 - n := ⟨2 ^ 24 - 1 - m, by omega⟩
    have hn2 : n < 129 * 256 := by omega
    have := recipTop_all ⟨n / 256, by omega⟩ ⟨n % 256, by omega⟩
    simp only at this
    rw [show n / 256 * 256 + n % 256 = n by omega, ← hn] at this
    exact Nat.le_of_ble_eq_true this

end Thls
