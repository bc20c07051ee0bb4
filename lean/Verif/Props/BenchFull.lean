import Verif.Props.Bench

/-! # C58: the parallel dot product with the "full" traits -/

namespace Thls

open Spec

/-- One product of the full traits. -/
theorem full_product {AE AF LF RF : ℕ} (hLF : 1 ≤ LF) (hRF : 1 ≤ RF) (hE : 2 ≤ AE) (hF : 1 ≤ AF) (hpath : AF ≤ LF + RF)
    (x : Fp AE LF) (y : Fp AE RF) {a b : ℚ} (hx : x.datum.fin = some a) (hy : y.datum.fin = some b) :
    ∃ p, mulV1 AE AF x y = some p ∧ (∀ s, p.datum.fin = some s → |s - a * b| ≤ uro AF * |a * b| + minPos AE) ∧
      (|a * b| ≤ maxFin AE AF → ∃ s, p.datum.fin = some s) := by
  obtain ⟨p, hp⟩ := mulV1_total (wFR := AF) x y
  have hm := mul_fin hE hF hLF hRF hpath x y hx hy hp
  exact ⟨p, hp, fun s hs => rounded0_err hm hs, fun hb => rounded0_finite (by omega) hm hb⟩

/-- **C58.** `dot2` of the "full" traits when the factors have the accumulator's exponent width and the accumulator's fraction is no
wider than a product: no precondition is violated, a finite result is within `((1+u)^2 - 1) Σ|a_i b_i| + (3+2u) minPos` of the exact
value, and the result is finite when `(1+u) Σ|a_i b_i| + 2 minPos` is representable. -/
theorem C58_dot2_full_error_partial {AE AF LF RF : ℕ} (hLF : 1 ≤ LF) (hRF : 1 ≤ RF) (hE : 3 < AE) (hF : 1 ≤ AF) (hpath : AF ≤ LF + RF)
    (hok : DualFormat AE AF) (hfmt : AF ≤ 2 ^ (AE + 1)) (p0 p1 : Fp AE LF × Fp AE RF)
    {a0 b0 a1 b1 : ℚ} (hx0 : p0.1.datum.fin = some a0) (hy0 : p0.2.datum.fin = some b0) (hx1 : p1.1.datum.fin = some a1)
    (hy1 : p1.2.datum.fin = some b1) :
    ∃ r, fullDot2 AE AF p0 p1 = some r ∧
      (∀ s, r.datum.fin = some s → |s - (a0 * b0 + a1 * b1)| ≤
        ((1 + uro AF) * (1 + uro AF) - 1) * (|a0 * b0| + |a1 * b1|) + ((1 + uro AF) * (2 * minPos AE) + minPos AE)) ∧
      ((1 + uro AF) * (|a0 * b0| + |a1 * b1|) + 2 * minPos AE ≤ maxFin AE AF → ∃ s, r.datum.fin = some s) := by
  have hA := dual_adder (show 2 ≤ AE by omega) hF hok hfmt
  have hu := uro_pos AF
  have hmp : 0 < minPos AE := two_zpow_pos _
  have k0 := abs_nonneg (a0 * b0)
  have k1 := abs_nonneg (a1 * b1)
  obtain ⟨z0, hz0, e0, f0⟩ := full_product hLF hRF (by omega) hF hpath p0.1 p0.2 hx0 hy0
  obtain ⟨z1, hz1, e1, f1⟩ := full_product hLF hRF (by omega) hF hpath p1.1 p1.2 hx1 hy1
  obtain ⟨r, hr⟩ := hA.total z0 z1
  refine ⟨r, by rw [fullDot2, hz0, Option.bind_some, hz1, Option.bind_some, hr], ?_, ?_⟩
  · intro s hs
    rcases q0 : z0.datum.fin with _ | s0
    · rw [hA.sticky _ _ _ hr (Or.inl q0)] at hs; cases hs
    rcases q1 : z1.datum.fin with _ | s1
    · rw [hA.sticky _ _ _ hr (Or.inr q1)] at hs; cases hs
    exact (hA.node (by linarith) q0 q1 hr (e0 _ q0) (e1 _ q1) le_rfl le_rfl).1 s hs
  · intro hb
    have m0 : 0 ≤ uro AF * (|a0 * b0| + |a1 * b1|) := by positivity
    obtain ⟨s0, q0⟩ := f0 (by linarith)
    obtain ⟨s1, q1⟩ := f1 (by linarith)
    exact (hA.node (by linarith) q0 q1 hr (e0 _ q0) (e1 _ q1) le_rfl le_rfl).2 hb

/-- **C58.** `dot_product_par4` with the "full" traits when the factors have the accumulator's exponent width and the accumulator's
fraction is no wider than a product, for all finite factors: it never violates a precondition; a finite result differs from the exact
dot product by at most `((1+u)^3 - 1) Σ|a_i b_i| + 13 minPos`, `u` the unit roundoff of the accumulator; and it is finite when
`(1+u)^2 Σ|a_i b_i| + 13 minPos` is at most the largest finite number. Wider accumulators assert
(`C58_wider_accumulator_asserts`). -/
theorem C58_par4_full_error_partial {AE AF LF RF : ℕ} (hLF : 1 ≤ LF) (hRF : 1 ≤ RF) (hE : 3 < AE) (hF : 1 ≤ AF) (hpath : AF ≤ LF + RF)
    (hok : DualFormat AE AF) (hfmt : AF ≤ 2 ^ (AE + 1)) (p : Fin 4 → Fp AE LF × Fp AE RF) (a b : Fin 4 → ℚ)
    (hx : ∀ i, (p i).1.datum.fin = some (a i)) (hy : ∀ i, (p i).2.datum.fin = some (b i)) :
    ∃ r, fullPar4 AE AF (p 0) (p 1) (p 2) (p 3) = some r ∧
      (∀ s, r.datum.fin = some s → |s - ∑ i, a i * b i| ≤ ((1 + uro AF) ^ 3 - 1) * (∑ i, |a i * b i|) + 13 * minPos AE) ∧
      ((1 + uro AF) ^ 2 * (∑ i, |a i * b i|) + 13 * minPos AE ≤ maxFin AE AF → ∃ s, r.datum.fin = some s) := by
  have hA := dual_adder (show 2 ≤ AE by omega) hF hok hfmt
  have hu := uro_pos AF
  have hu2 := uro_le AF
  have hmp : 0 < minPos AE := two_zpow_pos _
  obtain ⟨r0, hr0, e0, f0⟩ := C58_dot2_full_error_partial hLF hRF hE hF hpath hok hfmt (p 0) (p 1) (hx 0) (hy 0) (hx 1) (hy 1)
  obtain ⟨r1, hr1, e1, f1⟩ := C58_dot2_full_error_partial hLF hRF hE hF hpath hok hfmt (p 2) (p 3) (hx 2) (hy 2) (hx 3) (hy 3)
  obtain ⟨r, hr⟩ := hA.total r0 r1
  have s1 : ∑ i, a i * b i = (a 0 * b 0 + a 1 * b 1) + (a 2 * b 2 + a 3 * b 3) := by rw [Fin.sum_univ_four]; ring
  have s2 : ∑ i, |a i * b i| = (|a 0 * b 0| + |a 1 * b 1|) + (|a 2 * b 2| + |a 3 * b 3|) := by rw [Fin.sum_univ_four]; ring
  have k0 := abs_nonneg (a 0 * b 0)
  have k1 := abs_nonneg (a 1 * b 1)
  have k2 := abs_nonneg (a 2 * b 2)
  have k3 := abs_nonneg (a 3 * b 3)
  rw [s1, s2]
  have hβ : (1 + uro AF) * (2 * minPos AE) + minPos AE ≤ 4 * minPos AE := by
    have := mul_le_mul_of_nonneg_right hu2 hmp.le
    linarith
  refine ⟨r, by rw [fullPar4, hr0, Option.bind_some, hr1, Option.bind_some, hr], ?_, ?_⟩
  · intro s hs
    rcases q0 : r0.datum.fin with _ | t0
    · rw [hA.sticky _ _ _ hr (Or.inl q0)] at hs; cases hs
    rcases q1 : r1.datum.fin with _ | t1
    · rw [hA.sticky _ _ _ hr (Or.inr q1)] at hs; cases hs
    have := (hA.node hu.le q0 q1 hr (e0 _ q0) (e1 _ q1) (abs_add_le _ _) (abs_add_le _ _)).1 s hs
    have e : (1 + uro AF) * (1 + ((1 + uro AF) * (1 + uro AF) - 1)) = (1 + uro AF) ^ 3 := by ring
    rw [e] at this
    have hc : (1 + uro AF) * (2 * ((1 + uro AF) * (2 * minPos AE) + minPos AE)) ≤ (1 + uro AF) * (2 * (4 * minPos AE)) :=
      mul_le_mul_of_nonneg_left (by linarith) (by linarith)
    have hc2 : (1 + uro AF) * (2 * (4 * minPos AE)) ≤ 12 * minPos AE := by
      have := mul_le_mul_of_nonneg_right hu2 hmp.le
      linarith
    linarith
  · intro hb
    generalize hS : |a 0 * b 0| + |a 1 * b 1| + (|a 2 * b 2| + |a 3 * b 3|) = S at hb
    have hS0 : 0 ≤ S := by linarith
    have e : (1 + uro AF) ^ 2 * S = (1 + uro AF) * S + uro AF * ((1 + uro AF) * S) := by ring
    have g1 : (1 + uro AF) * (|a 0 * b 0| + |a 1 * b 1|) ≤ (1 + uro AF) * S := mul_le_mul_of_nonneg_left (by linarith) (by linarith)
    have g2 : (1 + uro AF) * (|a 2 * b 2| + |a 3 * b 3|) ≤ (1 + uro AF) * S := mul_le_mul_of_nonneg_left (by linarith) (by linarith)
    have g3 : 0 ≤ uro AF * ((1 + uro AF) * S) := by positivity
    obtain ⟨t0, q0⟩ := f0 (by linarith)
    obtain ⟨t1, q1⟩ := f1 (by linarith)
    refine (hA.node hu.le q0 q1 hr (e0 _ q0) (e1 _ q1) (abs_add_le _ _) (abs_add_le _ _)).2 ?_
    rw [hS]
    have e : (1 + ((1 + uro AF) * (1 + uro AF) - 1)) * S = (1 + uro AF) ^ 2 * S := by ring
    rw [e]
    linarith

/-- Single precision factors and accumulator: `1*1 + 1.5*1.5 + 2*1 + 1*1` is 6.25. -/
example : DualFormat 8 23 ∧ 23 ≤ 2 ^ (8 + 1) ∧
    fullPar4 8 23 (Fp.mk4 8 23 1 0 127 0, Fp.mk4 8 23 1 0 127 0) (Fp.mk4 8 23 1 0 127 (2 ^ 22), Fp.mk4 8 23 1 0 127 (2 ^ 22))
      (Fp.mk4 8 23 1 0 128 0, Fp.mk4 8 23 1 0 127 0) (Fp.mk4 8 23 1 0 127 0, Fp.mk4 8 23 1 0 127 0) =
      some (Fp.mk4 8 23 1 0 129 (9 * 2 ^ 19)) := by
  refine ⟨?_, by norm_num, by decide +kernel⟩
  intro k hk
  exfalso
  have : k < 7 := by
    by_contra hc
    have : 2 ^ 7 ≤ 2 ^ k := Nat.pow_le_pow_right (by norm_num) (by omega)
    omega
  interval_cases k <;> omega

end Thls
