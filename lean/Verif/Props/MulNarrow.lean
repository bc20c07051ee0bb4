import Verif.Props.Mul

/-! # C11: what `mul` computes into a wide result with at most as many exponent bits as the operands -/

namespace Thls
open Spec

theorem mulExp_cast_narrow {wER wE ex ey : ℕ} (h : wER ≤ wE) (norm : Bool) :
    ((mulExp wER wE ex ey norm : ℕ) : ℤ) = ((ex : ℤ) + ey - bias wER + norm.toNat) % 2 ^ (wE + 2) := by
  have hb := biasN_lt (E := wER)
  have hp : 2 ^ wER ≤ 2 ^ wE := Nat.pow_le_pow_right (by norm_num) h
  have hpw : 2 ^ (wE + 2) = 4 * 2 ^ wE := by rw [pow_add]; ring
  unfold mulExp
  rw [cast_addW, cast_subW (by omega), cast_addW, pow_bias]
  simp only [Int.emod_add_emod, Int.emod_sub_emod]

/-- The exact path's datum, whatever the exponent: two bits above the exponent field select the class. -/
theorem mulExact_datum_mod {E F n s ep P K : ℕ} {norm : Bool} {be : ℤ} (hE : 1 ≤ E) (hF : 1 ≤ F) (hs : s < 2)
    (hsig : mulExactSig F n norm P < 2 ^ F) (hep : (ep : ℤ) = be % (2 ^ E * (4 * 2 ^ K))) :
    (mulExact E F n 1 s ep norm P).datum =
      if be / 2 ^ E % 4 = 0 then .num ((if s = 1 then -1 else 1) *
        (((2 ^ F + mulExactSig F n norm P : ℕ) : ℚ) * 2 ^ (be % 2 ^ E - bias E - F)))
      else if be / 2 ^ E % 4 = 1 then .inf (decide (s = 1)) else .nan := by
  have hPn : 0 < 2 ^ E := by positivity
  have hPz : (0 : ℤ) < 2 ^ E := by positivity
  have hlow : ((ep % 2 ^ E : ℕ) : ℤ) = be % 2 ^ E := by
    push_cast
    rw [hep, Int.emod_emod_of_dvd _ (Dvd.intro _ rfl)]
  have htop : ((ep / 2 ^ E % 4 : ℕ) : ℤ) = be / 2 ^ E % 4 := by
    push_cast
    have h1 : be = be % (2 ^ E * (4 * 2 ^ K)) + 2 ^ E * ((4 * 2 ^ K) * (be / (2 ^ E * (4 * 2 ^ K)))) := by
      have := Int.emod_add_mul_ediv be (2 ^ E * (4 * 2 ^ K))
      linear_combination -this
    rw [hep]
    conv_rhs => rw [h1, Int.add_mul_ediv_left _ _ hPz.ne', mul_assoc, Int.add_mul_emod_self_left]
  unfold mulExact
  have e1 : getBits (E + 1) E ep = ep / 2 ^ E % 4 := by
    unfold getBits; rw [show E + 1 + 1 - E = 2 by omega]; norm_num
  have hor : ∀ t, mulFinalExc 1 t = t := by intro t; unfold mulFinalExc; simp
  rw [e1, getBits_zero_eq_mod, Nat.sub_add_cancel hE]
  simp only [hor]
  rw [Fp.mk4_datum (by split_ifs <;> decide) hs (Nat.mod_lt _ hPn) hsig hE hF, ← htop, ← hlow]
  by_cases c0 : ep / 2 ^ E % 4 = 0
  · rw [if_pos c0, c0, if_pos (by norm_num)]
    rfl
  · by_cases c1 : ep / 2 ^ E % 4 = 1
    · rw [if_neg c0, if_pos c1, c1, if_neg (by norm_num), if_pos (by norm_num)]
      rfl
    · rw [if_neg c0, if_neg c1, if_neg (by exact_mod_cast c0), if_neg (by exact_mod_cast c1)]
      rfl

/-- **C11, what `mul` returns into a wide result** with at most as many exponent bits as the operands. The fraction is that
of the exact product; with `k` the number of times the result's exponent range has to be shifted to contain the product
(zero if it is in range), the number returned is the product scaled down by `2^(k*2^wER)`, and whether it is a number, an
infinity or NaN depends on `k + 2^(wE-wER) - 1` modulo four. -/
theorem C11_mul_wide_value {wER wE wFR wFX wFY : ℕ} (hER : 2 ≤ wER) (h : wER ≤ wE) (hX : 1 ≤ wFX) (hY : 1 ≤ wFY)
    (hpath : wFX + wFY + 1 ≤ wFR) (x : Fp wE wFX) (y : Fp wE wFY) (vx vy : ℚ) (k : ℤ)
    (hx : x.datum = .num vx) (hy : y.datum = .num vy)
    (hk1 : 2 ^ (k * 2 ^ wER - bias wER) ≤ |vx * vy|) (hk2 : |vx * vy| < 2 ^ ((k + 1) * 2 ^ wER - bias wER)) :
    ∃ r : Fp wER wFR, mulV1 wER wFR x y = some r ∧
      r.datum = if (k + 2 ^ (wE - wER) - 1) % 4 = 0 then .num (vx * vy * 2 ^ (-(k * 2 ^ wER)))
        else if (k + 2 ^ (wE - wER) - 1) % 4 = 1 then .inf (decide (vx * vy < 0)) else .nan := by
  obtain ⟨hfx, rfl⟩ := datum_num_iff.mp hx
  obtain ⟨hfy, rfl⟩ := datum_num_iff.mp hy
  obtain ⟨hq, hsgn⟩ := prod_value x y
  generalize hqd : ((if x.sign = 1 then (-1 : ℚ) else 1) * (((2 ^ wFX + x.frac : ℕ) : ℚ) * 2 ^ ((x.exp : ℤ) - bias wE - wFX))) *
      ((if y.sign = 1 then (-1 : ℚ) else 1) * (((2 ^ wFY + y.frac : ℕ) : ℚ) * 2 ^ ((y.exp : ℤ) - bias wE - wFY))) = q at *
  obtain ⟨hP1, hP2⟩ := prod_bounds (x.frac_lt hX) (y.frac_lt hY)
  obtain ⟨hG1, hG2⟩ := exactSig_spec (by omega) hpath hP1 hP2
  have hb := biasN_lt (E := wER)
  have hp : 2 ^ wER ≤ 2 ^ wE := Nat.pow_le_pow_right (by norm_num) h
  have hpw : 2 ^ (wE + 2) = 4 * 2 ^ wE := by rw [pow_add]; ring
  refine ⟨mulExact wER wFR (wFX + wFY) 1 ((x.sign + y.sign) % 2)
    (mulExp wER wE x.exp y.exp (getBit (wFX + wFY + 1) ((2 ^ wFX + x.frac) * (2 ^ wFY + y.frac))))
    (getBit (wFX + wFY + 1) ((2 ^ wFX + x.frac) * (2 ^ wFY + y.frac)))
      ((2 ^ wFX + x.frac) * (2 ^ wFY + y.frac)), ?_, ?_⟩
  · unfold mulV1
    rw [show wFX + 1 + wFY + 1 - 1 = wFX + wFY + 1 by omega]
    simp only [hfx, hfy, mulExc_normal, opadHi1]
    rw [if_neg (by omega), if_pos (by omega), if_neg (by omega)]
  · generalize (2 ^ wFX + x.frac) * (2 ^ wFY + y.frac) = P at *
    generalize getBit (wFX + wFY + 1) P = norm at *
    obtain ⟨K, rfl⟩ := Nat.exists_eq_add_of_le h
    have hexp := mulExp_cast_narrow (ex := x.exp) (ey := y.exp) h norm
    obtain ⟨-, b2⟩ := bias_bounds hER
    obtain ⟨-, b3⟩ := bias_bounds (hER.trans h)
    rw [show (2 : ℤ) ^ (wER + K + 2) = 2 ^ wER * (4 * 2 ^ K) by rw [pow_add, pow_add]; ring] at hexp
    rw [mulExact_datum_mod (by omega) (by omega) (Nat.mod_lt _ (by norm_num)) hG1 hexp]
    generalize mulExactSig wFR (wFX + wFY) norm P = G at *
    obtain ⟨t, ht⟩ : ∃ t : ℤ, t = (x.exp : ℤ) + y.exp - 2 * bias (wER + K) + bias wER + norm.toNat := ⟨_, rfl⟩
    have hbe : (x.exp : ℤ) + y.exp - bias wER + norm.toNat = t + 2 ^ wER * (2 ^ K - 1) := by
      have : (2 : ℤ) ^ (wER + K) = 2 ^ wER * 2 ^ K := pow_add _ _ _
      rw [ht, mul_sub, ← this, mul_one]; linarith
    have hval : |q| = ((2 ^ wFR + G : ℕ) : ℚ) * 2 ^ (t - bias wER - wFR) := by
      rw [hq]
      have h4 : (((2 ^ wFR + G) * 2 ^ norm.toNat : ℕ) : ℚ) = ((P * 2 ^ (wFR - (wFX + wFY)) : ℕ) : ℚ) := by
        rw [hG2]
      obtain ⟨d, rfl⟩ := Nat.exists_eq_add_of_le (show wFX + wFY ≤ wFR by omega)
      rw [Nat.add_sub_cancel_left] at h4
      rw [ht, show ((x.exp : ℤ) + y.exp - 2 * bias (wER + K) + bias wER + norm.toNat - bias wER - ((wFX + wFY + d : ℕ) : ℤ))
        = ((x.exp : ℤ) + y.exp - 2 * bias (wER + K) - wFX - wFY) + norm.toNat - d by push_cast; ring]
      generalize ((x.exp : ℤ) + y.exp - 2 * bias (wER + K) - wFX - wFY) = g
      rw [zpow_sub₀ (by norm_num), zpow_add₀ (by norm_num), zpow_natCast, zpow_natCast]
      push_cast at h4 ⊢
      field_simp
      linear_combination -h4
    have hG0 : ((2 : ℚ) ^ wFR) ≤ ((2 ^ wFR + G : ℕ) : ℚ) := by push_cast; linarith [Nat.cast_nonneg (α := ℚ) G]
    have hG1' : ((2 ^ wFR + G : ℕ) : ℚ) < (2 : ℚ) ^ wFR * 2 := by
      have : (G : ℚ) < 2 ^ wFR := by exact_mod_cast hG1
      push_cast; linarith
    have hsplit : (2 : ℚ) ^ (t - bias wER) = 2 ^ wFR * 2 ^ (t - bias wER - wFR) := by
      rw [← zpow_natCast, ← zpow_add₀ (by norm_num)]; congr 1; ring
    have hpos := two_zpow_pos (t - bias wER - wFR)
    have l1 : (2 : ℚ) ^ (t - bias wER) ≤ |q| := by
      rw [hval, hsplit]; exact mul_le_mul_of_nonneg_right hG0 hpos.le
    have l2 : |q| < 2 ^ (t + 1 - bias wER) := by
      rw [hval, show t + 1 - bias wER = (t - bias wER) + 1 by ring, two_zpow_succ, hsplit]
      nlinarith
    have m1 := (zpow_lt_zpow_iff_right₀ (by norm_num : (1 : ℚ) < 2)).1 (hk1.trans_lt l2)
    have m2 := (zpow_lt_zpow_iff_right₀ (by norm_num : (1 : ℚ) < 2)).1 (l1.trans_lt hk2)
    have hM : (0 : ℤ) < 2 ^ wER := by positivity
    have htk : t / 2 ^ wER = k := by
      rw [Int.ediv_eq_iff_of_pos hM]
      constructor <;> linarith
    have htm : t % 2 ^ wER = t - k * 2 ^ wER := by
      have := Int.emod_add_mul_ediv t (2 ^ wER)
      rw [htk] at this; linarith
    have hs : (if (x.sign + y.sign) % 2 = 1 then (-1 : ℚ) else 1) * |q| = q := by
      by_cases hc : q < 0
      · rw [if_pos (hsgn.mp hc), abs_of_neg hc]; ring
      · rw [if_neg (fun h => hc (hsgn.mpr h)), abs_of_nonneg (not_lt.mp hc)]; ring
    have hv2 : ((2 ^ wFR + G : ℕ) : ℚ) * 2 ^ (t - k * 2 ^ wER - bias wER - wFR) = |q| * 2 ^ (-(k * 2 ^ wER)) := by
      rw [hval, mul_assoc, ← zpow_add₀ (by norm_num)]; congr 2; ring
    rw [hbe, Int.add_mul_ediv_left _ _ hM.ne', Int.add_mul_emod_self_left, htk, htm, hv2, ← mul_assoc, hs,
      show k + (2 ^ K - 1) = k + 2 ^ K - 1 by ring, Nat.add_sub_cancel_left]
    simp only [hsgn]

/-- **C11, a narrower result exponent never works.** Into a result with one exponent bit less, every product that is in
range comes out as an infinity; with two or more bits less, as NaN. -/
theorem C11_mul_narrower_exponent_in_range {wER wE wFR wFX wFY : ℕ} (hER : 2 ≤ wER) (h : wER < wE) (hX : 1 ≤ wFX)
    (hY : 1 ≤ wFY) (hpath : wFX + wFY + 1 ≤ wFR) (x : Fp wE wFX) (y : Fp wE wFY) (vx vy : ℚ)
    (hx : x.datum = .num vx) (hy : y.datum = .num vy)
    (h1 : 2 ^ (-bias wER) ≤ |vx * vy|) (h2 : |vx * vy| < 2 ^ (2 ^ wER - bias wER)) :
    ∃ r : Fp wER wFR, mulV1 wER wFR x y = some r ∧
      r.datum = if wE = wER + 1 then .inf (decide (vx * vy < 0)) else .nan := by
  obtain ⟨r, hr, hd⟩ := C11_mul_wide_value hER h.le hX hY hpath x y vx vy 0 hx hy (by simpa using h1) (by simpa using h2)
  refine ⟨r, hr, ?_⟩
  rw [hd]
  by_cases hc : wE = wER + 1
  · rw [if_pos hc, hc, Nat.add_sub_cancel_left, if_neg (by norm_num), if_pos (by norm_num)]
  · obtain ⟨K, rfl⟩ := Nat.exists_eq_add_of_le (show wER + 2 ≤ wE by omega)
    have h4 : (2 : ℤ) ^ (wER + 2 + K - wER) = 4 * 2 ^ K := by
      rw [show wER + 2 + K - wER = 2 + K by omega, pow_add]; norm_num
    rw [if_neg hc, h4, if_neg (by omega), if_neg (by omega)]

/-- **C11, exactly when the wide product is right**: the exact product if it is in range, the infinity of its sign if it is
too large, the zero of its sign if it is too small. With `k` as in `C11_mul_wide_value`: either the exponent widths are
equal and the product is in range, or the product is too large and `k + 2^(wE-wER) - 1` is one more than a multiple of
four. -/
theorem C11_mul_wide_correct_iff {wER wE wFR wFX wFY : ℕ} (hER : 2 ≤ wER) (h : wER ≤ wE) (hX : 1 ≤ wFX) (hY : 1 ≤ wFY)
    (hpath : wFX + wFY + 1 ≤ wFR) (x : Fp wE wFX) (y : Fp wE wFY) (vx vy : ℚ) (k : ℤ)
    (hx : x.datum = .num vx) (hy : y.datum = .num vy)
    (hk1 : 2 ^ (k * 2 ^ wER - bias wER) ≤ |vx * vy|) (hk2 : |vx * vy| < 2 ^ ((k + 1) * 2 ^ wER - bias wER)) :
    ∃ r : Fp wER wFR, mulV1 wER wFR x y = some r ∧
      (r.datum = (if |vx * vy| < 2 ^ (-bias wER) then .zero (decide (vx * vy < 0))
        else if |vx * vy| < 2 ^ (2 ^ wER - bias wER) then .num (vx * vy) else .inf (decide (vx * vy < 0))) ↔
      (k = 0 ∧ wE = wER) ∨ (1 ≤ k ∧ (k + 2 ^ (wE - wER) - 1) % 4 = 1)) := by
  obtain ⟨r, hr, hd⟩ := C11_mul_wide_value hER h hX hY hpath x y vx vy k hx hy hk1 hk2
  refine ⟨r, hr, ?_⟩
  have hM : (0 : ℤ) < 2 ^ wER := by positivity
  have h12 : (1 : ℚ) < 2 := by norm_num
  rw [hd]
  rcases lt_trichotomy k 0 with hk | hk | hk
  · have : |vx * vy| < 2 ^ (-bias wER) := hk2.trans_le (zpow_le_zpow_right₀ h12.le (by nlinarith))
    rw [if_pos this]
    constructor
    · intro hc
      split_ifs at hc <;> cases hc
    · rintro (hc | hc) <;> omega
  · subst hk
    rw [zero_mul, zero_sub] at hk1
    rw [zero_add, one_mul] at hk2
    rw [if_neg (not_lt.2 hk1), if_pos hk2]
    constructor
    · intro hc
      left
      refine ⟨rfl, ?_⟩
      by_contra hne
      obtain ⟨K, rfl⟩ := Nat.exists_eq_add_of_le (show wER + 1 ≤ wE by omega)
      have h4 : (2 : ℤ) ^ (wER + 1 + K - wER) = 2 * 2 ^ K := by
        rw [show wER + 1 + K - wER = 1 + K by omega, pow_add]; norm_num
      rw [h4, if_neg (by omega)] at hc
      split_ifs at hc
    · rintro (⟨-, hc⟩ | hc)
      · rw [hc, Nat.sub_self, if_pos (by norm_num)]
        simp
      · omega
  · have h1 : ¬ |vx * vy| < 2 ^ (2 ^ wER - bias wER) :=
      not_lt.2 (le_trans (zpow_le_zpow_right₀ h12.le (by nlinarith)) hk1)
    have h2 : ¬ |vx * vy| < 2 ^ (-bias wER) :=
      fun hc => h1 (hc.trans_le (zpow_le_zpow_right₀ h12.le (by linarith)))
    rw [if_neg h2, if_neg h1]
    constructor
    · intro hc
      right
      refine ⟨hk, ?_⟩
      split_ifs at hc with c0 c1
      exact c1
    · rintro (hc | ⟨-, hc⟩)
      · omega
      · rw [if_neg (by omega), if_pos hc]

/-- 1.5 * 1.5 with 4 exponent bits into 3: an infinity; with 5 into 3: NaN. -/
example : ∃ r : Fp 3 9, mulV1 3 9 (Fp.mk4 4 3 1 0 7 4) (Fp.mk4 4 3 1 0 7 4) = some r ∧ r.flags = 2 := by decide
example : ∃ r : Fp 3 9, mulV1 3 9 (Fp.mk4 5 3 1 0 15 4) (Fp.mk4 5 3 1 0 15 4) = some r ∧ r.flags = 3 := by decide

/-- The hypotheses are met: 1.5 * 1.5 with 4 exponent bits into 3, where `k` is zero. -/
example : (Fp.mk4 4 3 1 0 7 4).datum = .num (3 / 2) ∧ (2 : ℚ) ^ ((0 : ℤ) * 2 ^ 3 - bias 3) ≤ |(3 / 2 : ℚ) * (3 / 2)| ∧
    |(3 / 2 : ℚ) * (3 / 2)| < 2 ^ (((0 : ℤ) + 1) * 2 ^ 3 - bias 3) := by
  refine ⟨?_, ?_, ?_⟩
  · rw [Fp.mk4_datum (by decide) (by decide) (by decide) (by decide) (by decide) (by decide)]
    norm_num [denote, bias]
  · norm_num [bias]
  · norm_num [bias]

end Thls
