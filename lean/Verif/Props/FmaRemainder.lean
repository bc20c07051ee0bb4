import Verif.Props.ExactOps
import Verif.Props.Scaling
import Verif.Props.Thresholds
import Verif.Proofs.SoftLoops
import Verif.SpecFmaUse

/-! # Property C110: the remainder of a division, and differences of products, with fused operations

`fma(neg(q), y, x)` is `x - q*y`. -/

namespace Thls
open Spec

variable {E F : ℕ}

/-- The fused operation on numbers of one format returns the exact result whenever it is a number of the format. -/
theorem fma_exact (hE : 2 ≤ E) (hF : 1 ≤ F) (hok : DualFormat (E + 2) (2 * F + 2)) (hfmt : 2 * F + 2 ≤ 2 ^ (E + 3)) (x y z : Fp E F)
    (vx vy vz : ℚ) (hx : x.datum = .num vx) (hy : y.datum = .num vy) (hz : z.datum = .num vz) {k : ℤ} (hf : Fits F k (vx * vy + vz))
    (hk : -bias E ≤ k) (htop : |vx * vy + vz| < 2 ^ ((2 : ℤ) ^ E - bias E)) :
    ∃ t, fma E F x y z = some t ∧ t.datum.fin = some (vx * vy + vz) := by
  have hfE : fmaE E E E = E + 2 := by unfold fmaE; rw [if_pos (by simp)]; simp
  have hfF : fmaF F F F = 2 * F + 2 := by unfold fmaF; rw [max_eq_left (by omega)]; omega
  obtain ⟨t, ht, hi⟩ := C31_fma_correct_iff (wER := E) (wFR := F) (by omega) hF (by omega) hF (by omega) hF (by omega) hF (by rw [hfE]; omega)
    (by rw [hfE, hfF]; exact hok) (by rw [hfE, hfF]; exact hfmt) (by rw [hfF]; omega) x y z vx vy vz hx hy hz
  refine ⟨t, ht, ?_⟩
  have hnt : ¬ RoundsTwice E F (fmaF F F F) (vx * vy + vz) := by
    obtain ⟨i, hi1, hi2⟩ := id hf
    refine fits_not_twice (n := i.natAbs) (k := k) (by rw [hfF]; omega) ?_ ?_
    · rw [hi2, abs_mul, abs_of_pos (two_zpow_pos _), Nat.cast_natAbs]; push_cast; rfl
    · have h1 : i.natAbs < 2 ^ (F + 1) := by zify; exact hi1
      exact h1.trans_le (Nat.pow_le_pow_right (by norm_num) (by rw [hfF]; omega))
  have ha := hi.mpr hnt
  unfold AddsTo at ha
  refine rounded0_fits hf hk htop (d := t.datum) ?_
  unfold Rounded0
  by_cases h0 : vx * vy + vz = 0
  · rw [if_pos h0] at ha ⊢; exact ⟨_, ha⟩
  · rw [if_neg h0] at ha ⊢; exact ha

/-- **C110.** Let `|x| ≥ 2^(2F+1-bias)` and let the rounded quotient `q` of `x` and `y` be a number. Then `fma(-q, y, x)` is exactly the
remainder `x - q*y`. -/
theorem C110_division_remainder (hE : 2 ≤ E) (hF : 1 ≤ F) (hok : DualFormat (E + 2) (2 * F + 2)) (hfmt : 2 * F + 2 ≤ 2 ^ (E + 3))
    (x y : Fp E F) (vx vy vq : ℚ) (hx : x.datum = .num vx) (hy : y.datum = .num vy) (hbig : (2 : ℚ) ^ (2 * (F : ℤ) + 1 - bias E) ≤ |vx|)
    (hq : (divV1 E F x y).datum = .num vq) :
    ∃ t, fma E F (negV1 E F (divV1 E F x y)) y x = some t ∧ t.datum.fin = some (vx - vq * vy) := by
  have hx0 := num_ne_zero hx
  have hy0 := num_ne_zero hy
  have hxp : 0 < |vx| := abs_pos.mpr hx0
  have hyp : 0 < |vy| := abs_pos.mpr hy0
  obtain ⟨mx, kx, hmx, hax⟩ := num_sig hF hx
  obtain ⟨my, ky, hmy, hay⟩ := num_sig hF hy
  have h1 := div_fin hE hF x y (vx := vx) (vy := vy) (by rw [hx]; rfl) (by rw [hy]; rfl) hy0
  unfold Rounded0 at h1
  rw [if_neg (div_ne_zero hx0 hy0)] at h1
  obtain ⟨m, e, hn, hd⟩ := h1
  have hvp : (divV1 E F x y).datum.fin = some vq := by rw [hq]; rfl
  rw [hd] at hvp
  have hq0 := num_ne_zero hq
  rcases rangeCheck_fin hvp with ⟨-, h⟩ | ⟨r1, r2, hv⟩
  · exact absurd h hq0
  have hquot : 0 < |vx / vy| := abs_pos.mpr (div_ne_zero hx0 hy0)
  have herr := nearest_err hquot hn
  have habs : |vq| = m * 2 ^ e := by
    rw [hv, abs_mul, abs_of_nonneg (show (0 : ℚ) ≤ m * 2 ^ e by positivity)]
    split_ifs <;> simp
  have hxe : |vx| = |vx / vy| * |vy| := by rw [← abs_mul, div_mul_cancel₀ _ hy0]
  -- the error
  have hdist : |vx - vq * vy| ≤ uro F * |vx| := by
    have e1 : vx - vq * vy = (vx / vy - vq) * vy := by field_simp
    rw [e1, abs_mul, hxe, ← mul_assoc]
    refine mul_le_mul_of_nonneg_right ?_ hyp.le
    rw [abs_sub_comm, hv, signed_dist]; exact herr
  have hur : uro F ≤ 1 / 4 := by
    unfold uro
    calc (2 : ℚ) ^ (-(F : ℤ) - 1) ≤ 2 ^ (-2 : ℤ) := zpow_le_zpow_right₀ (by norm_num) (by omega)
      _ = 1 / 4 := by norm_num
  -- the quotient lies below the next power of two
  have hqup : |vx / vy| < 2 ^ (e + F + 1) := by
    by_contra hc
    push Not at hc
    have hs2 : IsSig (F + 1) (2 ^ F) := ⟨by simp, Nat.pow_lt_pow_right (by norm_num) (by omega)⟩
    have hv2 : (2 : ℚ) ^ (e + F + 1) = ((2 ^ F : ℕ) : ℚ) * 2 ^ (e + 1) := by
      push_cast; rw [← zpow_natCast, ← zpow_add₀ (by norm_num)]; congr 1; ring
    have h2 := nearest_mono (by omega) hc (nearest_self (by omega) hs2 hv2) hn
    rw [← hv2] at h2
    exact absurd (sig_upper hn.1 e) (not_lt.mpr h2)
  have hup : |vx| < 2 ^ (e + ky + 2 * F + 2) := by
    rw [hxe, show e + ky + 2 * F + 2 = (e + F + 1) + (ky + F + 1) by ring, zpow_add₀ (by norm_num)]
    exact mul_lt_mul'' hqup (by rw [hay]; exact sig_upper hmy ky) hquot.le hyp.le
  have hk : -bias E ≤ e + ky := by
    have := (zpow_lt_zpow_iff_right₀ (a := (2 : ℚ)) (by norm_num)).mp (lt_of_le_of_lt hbig hup)
    omega
  have hu : uro F * |vx| < 2 ^ (e + ky + F + 1) := by
    have hup0 : (0 : ℚ) < uro F := two_zpow_pos _
    have := mul_lt_mul_of_pos_left hup hup0
    unfold uro at this ⊢
    rw [← zpow_add₀ (by norm_num)] at this
    refine this.trans_le (le_of_eq ?_)
    congr 1; ring
  -- the dividend is a multiple of the unit of the product
  have hkx : e + ky ≤ kx := by
    have l1 : (2 : ℚ) ^ (e + F) ≤ m * 2 ^ e := sig_lower hn.1 e
    have l2 := (abs_le.mp herr).1
    have l3 : uro F * |vx / vy| ≤ 1 / 4 * |vx / vy| := mul_le_mul_of_nonneg_right hur hquot.le
    have l4 : (2 : ℚ) ^ (e + F - 1) ≤ |vx / vy| := by
      rw [zpow_sub₀ (by norm_num), zpow_one]; linarith
    have l5 : (2 : ℚ) ^ (e + F - 1 + (ky + F)) ≤ |vx| := by
      rw [hxe, zpow_add₀ (by norm_num)]
      exact mul_le_mul l4 (by rw [hay]; exact sig_lower hmy ky) (two_zpow_pos _).le hquot.le
    have l6 : |vx| < 2 ^ (kx + F + 1) := by rw [hax]; exact sig_upper hmx kx
    have := (zpow_lt_zpow_iff_right₀ (a := (2 : ℚ)) (by norm_num)).mp (lt_of_le_of_lt l5 l6)
    omega
  obtain ⟨A, hA⟩ := signed_mult hax
  obtain ⟨A', hA'⟩ := mult_of_le hkx hA
  obtain ⟨B, hB⟩ := signed_mult hay
  obtain ⟨C, hC⟩ := signed_mult habs
  have hprod : vx - vq * vy = ((A' - C * B : ℤ) : ℚ) * 2 ^ (e + ky) := by
    rw [hA', hB, hC, zpow_add₀ (by norm_num)]; push_cast; ring
  have hf : Fits F (e + ky) (vx - vq * vy) := fits_of_mult hprod (lt_of_le_of_lt hdist hu)
  have htop := num_lt_top (by omega) hF hx
  have e2 : -vq * vy + vx = vx - vq * vy := by ring
  have := fma_exact hE hF hok hfmt (negV1 E F (divV1 E F x y)) y x (-vq) vy vx
    (by rw [C27_neg_datum (by omega) hF, hq]; rfl) hy hx (k := e + ky) (by rw [e2]; exact hf) hk (by
      rw [e2]
      have := mul_le_mul_of_nonneg_right hur hxp.le
      linarith)
  rw [e2] at this
  exact this

/-- **C110.** So the quotient is exact exactly if the remainder computed that way is a zero. -/
theorem C110_division_exact_iff (hE : 2 ≤ E) (hF : 1 ≤ F) (hok : DualFormat (E + 2) (2 * F + 2)) (hfmt : 2 * F + 2 ≤ 2 ^ (E + 3))
    (x y : Fp E F) (vx vy vq : ℚ) (hx : x.datum = .num vx) (hy : y.datum = .num vy) (hbig : (2 : ℚ) ^ (2 * (F : ℤ) + 1 - bias E) ≤ |vx|)
    (hq : (divV1 E F x y).datum = .num vq) :
    ∃ t, fma E F (negV1 E F (divV1 E F x y)) y x = some t ∧ ((∃ s, t.datum = .zero s) ↔ vq = vx / vy) := by
  obtain ⟨t, ht, hf⟩ := C110_division_remainder hE hF hok hfmt x y vx vy vq hx hy hbig hq
  refine ⟨t, ht, ?_⟩
  rw [eq_div_iff (num_ne_zero hy)]
  constructor
  · rintro ⟨s, hs⟩
    rw [hs] at hf
    have : (0 : ℚ) = vx - vq * vy := Option.some.inj hf
    linarith
  · intro h
    rw [h, sub_self] at hf
    rcases hd : t.datum with _ | s | s | p
    · rw [hd] at hf; cases hf
    · rw [hd] at hf; cases hf
    · exact ⟨s, rfl⟩
    · rw [hd] at hf
      have : p = 0 := Option.some.inj hf
      exact absurd this (num_ne_zero hd)

/-- `1/3` in single precision: the remainder is a number, not zero. -/
example : ∃ t, fma 8 23 (negV1 8 23 (divV1 8 23 (Fp.mk4 8 23 1 0 127 0) (Fp.mk4 8 23 1 0 128 (2 ^ 22)))) (Fp.mk4 8 23 1 0 128 (2 ^ 22))
    (Fp.mk4 8 23 1 0 127 0) = some t ∧ t.datum.fin = some (1 - 11184811 / 2 ^ 25 * 3) := by
  have dual : DualFormat 10 48 := by
    intro k hk; exfalso
    have : k < 7 := by
      by_contra hc
      have : 2 ^ 7 ≤ 2 ^ k := Nat.pow_le_pow_right (by norm_num) (by omega)
      omega
    interval_cases k <;> omega
  refine C110_division_remainder (by norm_num) (by norm_num) dual (by norm_num) _ _ 1 3 (11184811 / 2 ^ 25) (by decide +kernel) (by decide +kernel)
    ?_ (by decide +kernel)
  norm_num [bias]

/-- **C110.** The bound on the dividend is needed: the smallest number divided by `3 * 2^-20` does not give an exact
quotient, but the computed remainder is zero. -/
theorem C110_small_dividend : ∃ x y t : Fp 8 23, ∃ vx vy vq : ℚ, x.datum = .num vx ∧ y.datum = .num vy ∧ (divV1 8 23 x y).datum = .num vq ∧
    fma 8 23 (negV1 8 23 (divV1 8 23 x y)) y x = some t ∧ t.datum.fin = some 0 ∧ vq ≠ vx / vy := by
  refine ⟨Fp.mk4 8 23 1 0 0 0, Fp.mk4 8 23 1 0 108 (2 ^ 22), Fp.mk4 8 23 0 1 231 0, 1 / 2 ^ 127, 3 / 2 ^ 20, 11184811 / 2 ^ 132,
    by decide +kernel, by decide +kernel, by decide +kernel, by decide +kernel, by decide +kernel, by norm_num⟩

/-- **C110.** Differences of products. Let `a`, `b`, `c`, `d` be numbers with `|c*d| ≥ 2^(2F+1-bias)`. The program never violates a
precondition; if its result and the rounded product `c*d` are finite, the result is off by at most about `2u` relative to the difference and
`u²` relative to `c*d`, `u = 2^-(F+1)`, where two rounded products and a difference are off by `u` relative to both products. -/
theorem C110_difference_of_products (hA : AdderFormat E F) (hok : DualFormat (E + 2) (2 * F + 2)) (hfmt : 2 * F + 2 ≤ 2 ^ (E + 3))
    (a b c d : Fp E F) (va vb vc vd : ℚ) (ha : a.datum = .num va) (hb : b.datum = .num vb) (hc : c.datum = .num vc) (hd : d.datum = .num vd)
    (hbig : (2 : ℚ) ^ (2 * (F : ℤ) + 1 - bias E) ≤ |vc * vd|) :
    ∃ w, mulV1 E F c d = some w ∧ ∀ vw, w.datum.fin = some vw → ∃ r, differenceOfProducts a b c d = some r ∧ ∀ vr, r.datum.fin = some vr →
      |vr - (va * vb - vc * vd)| ≤
        ((1 + uro F) * (1 + uro F) * (1 + uro (2 * F + 2)) - 1) * |va * vb - vc * vd| +
        (1 + uro F) * ((1 + uro F) * (1 + uro (2 * F + 2)) - 1) * uro F * |vc * vd| + (2 + uro F) * minPos E := by
  obtain ⟨hE, hF, -, -⟩ := id hA
  obtain ⟨w, hw, herr⟩ := C97_product_error (by omega) hF hok hfmt c d vc vd hc hd hbig
  refine ⟨w, hw, fun vw hvw => ?_⟩
  obtain ⟨e, he, hve⟩ := herr vw hvw
  have hmp : 0 < minPos E := two_zpow_pos (-bias E)
  have hu : 0 < uro F := uro_pos F
  have hu' : 0 < uro (2 * F + 2) := uro_pos _
  -- the product is a number
  have hwr := mul_fin (by omega) hF hF hF (by omega) c d (a := vc) (b := vd) (by rw [hc]; rfl) (by rw [hd]; rfl) hw
  have hcd : vc * vd ≠ 0 := mul_ne_zero (num_ne_zero hc) (num_ne_zero hd)
  have hwd : w.datum = .num vw := by
    unfold Rounded0 at hwr
    rw [if_neg hcd] at hwr
    have ho := rounded_outcome hF hcd hwr
    rcases SoftFmt.fin_cases hvw with ⟨s, hs, -⟩ | h
    · exfalso
      have h1 := ho.underflow.mp ⟨s, hs⟩
      have h2 : underflowAt E F ≤ 2 ^ (2 * (F : ℤ) + 1 - bias E) := by
        unfold underflowAt
        have g1 : (2 : ℚ) ^ (-bias E) ≤ 2 ^ (2 * (F : ℤ) + 1 - bias E) := zpow_le_zpow_right₀ (by norm_num) (by omega)
        have g2 := two_zpow_pos (-bias E)
        have g3 := two_zpow_pos (-(F : ℤ) - 2)
        nlinarith
      linarith
    · exact h
  have hwerr : |vc * vd - vw| ≤ uro F * |vc * vd| := by
    unfold Rounded0 at hwr
    rw [if_neg hcd] at hwr
    rw [abs_sub_comm]
    exact ((rounded_outcome hF hcd hwr).error vw hwd).1
  -- the second fused operation
  have hfE : fmaE E E E = E + 2 := by unfold fmaE; rw [if_pos (by simp)]; simp
  have hfF : fmaF F F F = 2 * F + 2 := by unfold fmaF; rw [max_eq_left (by omega)]; omega
  have hnw : (negV1 E F w).datum = .num (-vw) := by rw [C27_neg_datum (by omega) hF, hwd]; rfl
  have hff : ∃ f, fma E F a b (negV1 E F w) = some f ∧ ∀ vf, f.datum.fin = some vf →
      |vf - (va * vb - vw)| ≤ ((1 + uro F) * (1 + uro (2 * F + 2)) - 1) * |va * vb - vw| + minPos E := by
    by_cases h0 : va * vb + -vw = 0
    · obtain ⟨f, h1, h2⟩ := fma_exact (by omega) hF hok hfmt a b (negV1 E F w) va vb (-vw) ha hb hnw (k := -bias E)
        ⟨0, by simp, by rw [h0]; simp⟩ le_rfl (by rw [h0, abs_zero]; exact two_zpow_pos _)
      refine ⟨f, h1, fun vf hvf => ?_⟩
      rw [h2] at hvf
      rw [← Option.some.inj hvf, ← sub_eq_add_neg] at *
      rw [h0]; simp [hmp.le]
    · obtain ⟨f, h1, ho⟩ := C101_fma (wER := E) (wFR := F) (by omega) hF (by omega) hF (by omega) hF (by omega) hF (by rw [hfE]; omega)
        (by rw [hfE, hfF]; exact hok) (by rw [hfE, hfF]; exact hfmt) (by rw [hfF]; omega) a b (negV1 E F w) va vb (-vw) ha hb hnw h0
      refine ⟨f, h1, fun vf hvf => ?_⟩
      rw [hfF, ← sub_eq_add_neg] at ho
      rcases SoftFmt.fin_cases hvf with ⟨s, hs, rfl⟩ | h
      · have h3 := ho.underflow.mp ⟨s, hs⟩
        rw [zero_sub, abs_neg]
        have h4 := abs_nonneg (va * vb - vw)
        have h5 : (2 : ℚ) ^ (-bias E) * (1 - 2 ^ (-(F : ℤ) - 2) - 2 ^ (-((2 * F + 2 : ℕ) : ℤ) - 2)) ≤ minPos E := by
          have g1 := two_zpow_pos (-(F : ℤ) - 2)
          have g2 := two_zpow_pos (-((2 * F + 2 : ℕ) : ℤ) - 2)
          have : minPos E = 2 ^ (-bias E) := rfl
          rw [this] at hmp ⊢
          nlinarith
        have h6 : 0 ≤ ((1 + uro F) * (1 + uro (2 * F + 2)) - 1) * |va * vb - vw| := mul_nonneg (by nlinarith) h4
        linarith
      · have h3 := (ho.error vf h).1
        have e1 : (1 + uro F) * (1 + uro (2 * F + 2)) - 1 = uro F + uro (2 * F + 2) + uro F * uro (2 * F + 2) := by ring
        rw [e1]; linarith
  obtain ⟨f, hf, hfe⟩ := hff
  obtain ⟨r, hr⟩ := (dual_adder (by omega) hF hA.2.2.1 hA.2.2.2).total f (negV1 E F e)
  refine ⟨r, by unfold differenceOfProducts; rw [hw]; simp only [Option.bind_eq_bind, Option.bind_some]; rw [he, hf]; exact hr, fun vr hvr => ?_⟩
  have hne := neg_fin (by omega) hF hve
  rcases hvf : f.datum.fin with _ | vf
  · have := (dual_adder (by omega) hF hA.2.2.1 hA.2.2.2).sticky _ _ _ hr (Or.inl hvf)
    rw [this] at hvr; cases hvr
  have h1 := (dual_adder (by omega) hF hA.2.2.1 hA.2.2.2).err _ _ _ _ _ _ hvf hne hr hvr
  have h2 := hfe vf hvf
  generalize va * vb = P at *
  generalize vc * vd = Q at *
  have hv0 : 0 ≤ (1 + uro F) * (1 + uro (2 * F + 2)) - 1 := by nlinarith
  generalize hV : (1 + uro F) * (1 + uro (2 * F + 2)) - 1 = V at *
  have e1 : (1 + uro F) * (1 + uro F) * (1 + uro (2 * F + 2)) - 1 = uro F + V + uro F * V := by rw [← hV]; ring
  rw [e1]
  generalize uro F = u at *
  have b1 : |P - vw| ≤ |P - Q| + u * |Q| := by
    have := abs_add_le (P - Q) (Q - vw)
    rw [sub_add_sub_cancel] at this; linarith
  have b2 : |vf + -(Q - vw) - (P - Q)| ≤ V * (|P - Q| + u * |Q|) + minPos E := by
    rw [show vf + -(Q - vw) - (P - Q) = vf - (P - vw) by ring]
    have := mul_le_mul_of_nonneg_left b1 hv0
    linarith
  have b3 : |vf + -(Q - vw)| ≤ |P - Q| + (V * (|P - Q| + u * |Q|) + minPos E) := by
    have := abs_add_le (P - Q) (vf + -(Q - vw) - (P - Q))
    rw [add_sub_cancel] at this; linarith
  have b4 : |vr - (P - Q)| ≤ |vr - (vf + -(Q - vw))| + |vf + -(Q - vw) - (P - Q)| := abs_sub_le _ _ _
  have b5 := mul_le_mul_of_nonneg_left b3 hu.le
  calc |vr - (P - Q)| ≤ _ := b4
    _ ≤ (u * (|P - Q| + (V * (|P - Q| + u * |Q|) + minPos E)) + minPos E) + (V * (|P - Q| + u * |Q|) + minPos E) := by linarith
    _ = _ := by ring

/-- The hypotheses are met in single precision by `1 * 1 - c * c` with `c = 1 + 2^-23`. -/
example : (Fp.mk4 8 23 1 0 127 1).datum = .num (1 + 1 / 2 ^ 23) ∧ (2 : ℚ) ^ (2 * ((23 : ℕ) : ℤ) + 1 - bias 8) ≤ abs ((1 + 1 / 2 ^ 23) * (1 + 1 / 2 ^ 23) : ℚ) ∧
    differenceOfProducts (Fp.mk4 8 23 1 0 127 0) (Fp.mk4 8 23 1 0 127 0) (Fp.mk4 8 23 1 0 127 1) (Fp.mk4 8 23 1 0 127 1) =
      some (Fp.mk4 8 23 1 1 105 0) := by
  refine ⟨by decide +kernel, by norm_num [bias], by decide +kernel⟩

/-- `(1 + 2^-12)^2 - (1 + 2^-11)` is `2^-24`; the program finds it, although the rounded products are equal. -/
example : differenceOfProducts (Fp.mk4 8 23 1 0 127 2048) (Fp.mk4 8 23 1 0 127 2048) (Fp.mk4 8 23 1 0 127 4096) (Fp.mk4 8 23 1 0 127 0) =
      some (Fp.mk4 8 23 1 0 103 0) ∧ mulV1 8 23 (Fp.mk4 8 23 1 0 127 2048) (Fp.mk4 8 23 1 0 127 2048) = some (Fp.mk4 8 23 1 0 127 4096) := by
  decide +kernel

end Thls
