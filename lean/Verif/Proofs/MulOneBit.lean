import Verif.Props.Mul

/-! # Lemmas for multiplication with a one-bit exponent -/

namespace Thls
open Spec

/-- `finish_datum` with the condition on the rounded sum itself, and what happens one step beyond it. -/
theorem finish_datum_sum {E F ep f s : ℕ} {be : ℤ} (up : Bool) (hE : 1 ≤ E) (hF : 1 ≤ F)
    (hep : (ep : ℤ) = be % 2 ^ (E + 2)) (hs : s < 2) (hlo : -2 ^ (E + F + 1) ≤ be * 2 ^ F + f + (if up then 1 else 0))
    (hhi : be * 2 ^ F + f + (if up then 1 else 0) ≤ 2 ^ (E + F + 1)) :
    (Fp.ofBits E F (concat (E + F) (concat 1
        (rangeFlags (getBits (E + F + 1) (E + F) (addW (E + F + 2) (concat F ep f) up.toNat))) s)
        (getBits (E + F - 1) 0 (addW (E + F + 2) (concat F ep f) up.toNat)))).datum
      = if be * 2 ^ F + f + (if up then 1 else 0) = 2 ^ (E + F + 1) then .zero (decide (s = 1))
        else packedDatum E F (decide (s = 1)) (be * 2 ^ F + f + (if up then 1 else 0)) := by
  have hTlt := addW_lt (E + F + 2) (concat F ep f) up.toNat
  have hTc := cast_addW_concat (c := up.toNat) (f := f) hep (show E + F + 2 = E + 2 + F by omega)
  generalize addW (E + F + 2) (concat F ep f) up.toNat = T at *
  have hu : ((up.toNat : ℕ) : ℤ) = if up then 1 else 0 := by cases up <;> simp
  rw [hu] at hTc
  generalize (if up then 1 else 0 : ℤ) = u at *
  rw [getBits_top hTlt (by omega), getBits_zero_eq_mod, Nat.sub_add_cancel (by omega), ofBits_concat,
    Nat.mod_mod_of_dvd _ (pow_dvd_pow 2 (by omega))]
  rw [Fp.mk4_datum (rangeFlags_lt _) hs _ (Nat.mod_lt _ (by positivity)) hE hF]
  · by_cases hc : be * 2 ^ F + f + u = 2 ^ (E + F + 1)
    · rw [if_pos hc]
      rw [hc] at hTc
      have h2 : (2 : ℤ) ^ (E + F + 2) = 2 * 2 ^ (E + F + 1) := by rw [pow_succ]; ring
      have hp : (0 : ℤ) < 2 ^ (E + F + 1) := by positivity
      have hT : T = 2 ^ (E + F + 1) := by
        have : (T : ℤ) = 2 ^ (E + F + 1) := by
          rw [hTc]; exact Int.emod_eq_of_lt hp.le (by rw [h2]; omega)
        exact_mod_cast this
      have hd : T / 2 ^ (E + F) = 2 := by
        rw [hT, pow_succ]; exact Nat.mul_div_cancel_left _ (by positivity)
      rw [hd]
      simp [rangeFlags, denote]
    · rw [if_neg hc, mod_pow_div_pow (by omega), Nat.add_sub_cancel]
      exact denote_wrapped hTc hlo (lt_of_le_of_ne hhi hc)
  · rw [Nat.div_lt_iff_lt_mul (by positivity), ← pow_add]
    exact Nat.mod_lt _ (by positivity)

/-- What the rounding stage computes, for normal operands, one step beyond the range of `mulRound_datum` included. -/
theorem mulRound_datum_sum {E F k G ep s : ℕ} {be : ℤ} (hE : 1 ≤ E) (hF : 1 ≤ F) (hk : 1 ≤ k)
    (hG : G < 2 ^ (k + 1 + F)) (hs : s < 2) (hep : (ep : ℤ) = be % 2 ^ (E + 2)) {t : ℤ}
    (ht : t = be * 2 ^ F + (G / 2 ^ (k + 1) : ℕ) + (if getBit k G && (decide (G % 2 ^ k ≠ 0) || decide (G / 2 ^ (k + 1) % 2 = 1)) then 1 else 0))
    (hlo : -2 ^ (E + F + 1) ≤ t) (hhi : t ≤ 2 ^ (E + F + 1)) :
    (mulRound E F (k + 1 + F) 1 s ep G).datum = if t = 2 ^ (E + F + 1) then .zero (decide (s = 1)) else packedDatum E F (decide (s = 1)) t := by
  subst ht
  unfold mulRound
  have h1 : getBits (k + 1 + F - 1) (k + 1 + F - F) G = G / 2 ^ (k + 1) := by
    rw [show k + 1 + F - F = k + 1 by omega]
    exact getBits_top (by rwa [show k + 1 + F - 1 + 1 = k + 1 + F by omega]) (by omega)
  have h2 : getBits (k + 1 + F - 1 - F - 1) 0 G = G % 2 ^ k := by
    rw [getBits_zero_eq_mod, show k + 1 + F - 1 - F - 1 + 1 = k by omega]
  rw [h1, h2, show k + 1 + F - 1 - F = k by omega,
    show getBit (k + 1) G = decide (G / 2 ^ (k + 1) % 2 = 1) from rfl]
  generalize G / 2 ^ (k + 1) = f at *
  generalize getBit k G = rb at *
  generalize G % 2 ^ k = low at *
  have hround : (rb && (!(low == 0) && !decide (f % 2 = 1) || decide (f % 2 = 1)))
      = (rb && (decide (low ≠ 0) || decide (f % 2 = 1))) := by
    by_cases h1 : low = 0 <;> by_cases h2 : f % 2 = 1 <;> simp [h1, h2]
  dsimp only
  rw [hround, show 2 + E + F = E + F + 2 by omega]
  exact finish_datum_sum _ hE hF hep hs hlo hhi

/-- When the rounding of a product in a format with a one-bit exponent goes beyond the range. -/
theorem one_bit_carry {F f low k : ℕ} {r : Bool} {be : ℤ} {a : ℚ} (hF : 1 ≤ F) (hf : f < 2 ^ F) (hlow : low < 2 ^ k) (hbe : be ≤ 3)
    (ha : a = (((2 * (2 ^ F + f) + r.toNat) * 2 ^ k + low : ℕ) : ℚ) / 2 ^ k * 2 ^ (be - F - 1)) :
    (be * 2 ^ F + f + (if r && (decide (low ≠ 0) || decide (f % 2 = 1)) then 1 else 0) = 2 ^ (1 + F + 1) ↔ 16 * (1 - 1 / 2 ^ (F + 2)) ≤ a) ∧
    be * 2 ^ F + f + (if r && (decide (low ≠ 0) || decide (f % 2 = 1)) then 1 else 0) ≤ 2 ^ (1 + F + 1) := by
  have hP : (0 : ℤ) < 2 ^ F := by positivity
  have hPQ : (0 : ℚ) < 2 ^ F := by positivity
  have hf' : (f : ℤ) + 1 ≤ 2 ^ F := by exact_mod_cast hf
  have h4 : (2 : ℤ) ^ (1 + F + 1) = 4 * 2 ^ F := by rw [pow_succ, pow_add]; ring
  have hu0 : (0 : ℤ) ≤ if r && (decide (low ≠ 0) || decide (f % 2 = 1)) then 1 else 0 := by split <;> norm_num
  have hu1 : (if r && (decide (low ≠ 0) || decide (f % 2 = 1)) then 1 else 0 : ℤ) ≤ 1 := by split <;> norm_num
  have hbP : be * 2 ^ F ≤ 3 * 2 ^ F := mul_le_mul_of_nonneg_right hbe hP.le
  rw [h4]
  refine ⟨?_, by linarith⟩
  have hk : (0 : ℚ) < 2 ^ k := by positivity
  have hl1 : (low : ℚ) < 2 ^ k := by exact_mod_cast hlow
  have hl0 : (0 : ℚ) ≤ low := by positivity
  obtain ⟨A, hA⟩ : ∃ A, A = 2 * (2 ^ F + f) + r.toNat := ⟨_, rfl⟩
  have hr1 := Bool.toNat_le r
  have hAle : A + 1 ≤ 4 * 2 ^ F := by omega
  rw [← hA] at ha
  have e1 : (((A * 2 ^ k + low : ℕ) : ℚ)) / 2 ^ k = A + low / 2 ^ k := by push_cast; field_simp
  have hd0 : (0 : ℚ) ≤ low / 2 ^ k := by positivity
  have hd1 : (low : ℚ) / 2 ^ k < 1 := by rw [div_lt_one hk]; exact hl1
  rw [e1] at ha
  have hz := two_zpow_pos (be - F - 1)
  have hz2 := two_zpow_pos (2 - (F : ℤ))
  have e16 : (16 : ℚ) * (1 - 1 / 2 ^ (F + 2)) = (4 * 2 ^ F - 1) * 2 ^ (2 - (F : ℤ)) := by
    rw [zpow_sub₀ (by norm_num), zpow_natCast, pow_add]; field_simp; norm_num
  rw [e16, ha]
  by_cases hb3 : be = 3
  · rw [show be - F - 1 = 2 - (F : ℤ) by omega, mul_le_mul_iff_left₀ hz2]
    by_cases hm : A + 1 = 4 * 2 ^ F
    · have hfm : f + 1 = 2 ^ F := by omega
      have hrm : r = true := by
        cases r
        · simp at hA; omega
        · rfl
      have hodd : f % 2 = 1 := by
        obtain ⟨n, rfl⟩ : ∃ n, F = n + 1 := ⟨F - 1, by omega⟩
        rw [pow_succ] at hfm; omega
      have hAq : ((A : ℕ) : ℚ) + 1 = 4 * 2 ^ F := by exact_mod_cast hm
      refine iff_of_true ?_ (by linarith)
      rw [hrm, decide_eq_true hodd, hb3]
      have : (f : ℤ) + 1 = 2 ^ F := by exact_mod_cast hfm
      simp
      linarith
    · have hA2 : A + 2 ≤ 4 * 2 ^ F := by omega
      have hAq : ((A : ℕ) : ℚ) + 2 ≤ 4 * 2 ^ F := by exact_mod_cast hA2
      refine iff_of_false ?_ (by linarith)
      intro hc
      rw [hb3] at hc
      have h5 : (f : ℤ) + 1 = 2 ^ F := by linarith
      have h6 : r = true := by
        by_contra hr
        rw [Bool.not_eq_true] at hr
        rw [hr] at hc
        simp at hc
        linarith
      have h7 : f + 1 = 2 ^ F := by exact_mod_cast h5
      rw [h6, Bool.toNat_true] at hA
      omega
  · have hb2 : be ≤ 2 := by omega
    have hbP2 : be * 2 ^ F ≤ 2 * 2 ^ F := mul_le_mul_of_nonneg_right hb2 hP.le
    refine iff_of_false (by intro hc; linarith) ?_
    rw [not_le]
    have hAq : ((A : ℕ) : ℚ) + 1 ≤ 4 * 2 ^ F := by exact_mod_cast hAle
    have h1 : (2 : ℚ) ^ (be - F - 1) ≤ 2 ^ (1 - (F : ℤ)) := zpow_le_zpow_right₀ (by norm_num) (by omega)
    have h2 : (2 : ℚ) ^ (2 - (F : ℤ)) = 2 * 2 ^ (1 - (F : ℤ)) := by
      rw [show 2 - (F : ℤ) = 1 + (1 - (F : ℤ)) by ring, zpow_add₀ (by norm_num)]; norm_num
    have h3 : ((A : ℚ) + low / 2 ^ k) * 2 ^ (be - F - 1) < 4 * 2 ^ F * 2 ^ (be - F - 1) := mul_lt_mul_of_pos_right (by linarith) hz
    have h4 : 4 * (2 : ℚ) ^ F * 2 ^ (be - F - 1) ≤ 4 * 2 ^ F * 2 ^ (1 - (F : ℤ)) := mul_le_mul_of_nonneg_left h1 (by positivity)
    have h5 : (1 : ℚ) ≤ 2 ^ F := one_le_pow₀ (by norm_num)
    have h6 := two_zpow_pos (1 - (F : ℤ))
    rw [h2]
    have h7 : (4 * (2 : ℚ) ^ F - 1) * (2 * 2 ^ (1 - (F : ℤ))) - 4 * 2 ^ F * 2 ^ (1 - (F : ℤ)) = (4 * 2 ^ F - 2) * 2 ^ (1 - (F : ℤ)) := by ring
    have h8 : 0 < (4 * (2 : ℚ) ^ F - 2) * 2 ^ (1 - (F : ℤ)) := mul_pos (by linarith) h6
    linarith

/-- `mulV1_exact` for every exponent width. -/
theorem mulV1_exact_any {wE wFR wFX wFY : ℕ} (hE : 1 ≤ wE) (hX : 1 ≤ wFX) (hY : 1 ≤ wFY)
    (hpath : wFX + wFY + 1 ≤ wFR) {x : Fp wE wFX} {y : Fp wE wFY} {vx vy : ℚ}
    (hx : x.datum = .num vx) (hy : y.datum = .num vy) :
    ∃ (r : Fp wE wFR) (be : ℤ), mulV1 wE wFR x y = some r ∧
      (2 : ℚ) ^ (be - bias wE) ≤ |vx * vy| ∧ |vx * vy| < 2 ^ (be + 1 - bias wE) ∧
      r.datum = if be < 0 then .nan else if 2 ^ wE ≤ be then .inf (decide (vx * vy < 0)) else .num (vx * vy) := by
  obtain ⟨hfx, rfl⟩ := datum_num_iff.mp hx
  obtain ⟨hfy, rfl⟩ := datum_num_iff.mp hy
  obtain ⟨hq, hsgn⟩ := prod_value x y
  generalize hqd : ((if x.sign = 1 then (-1 : ℚ) else 1) * (((2 ^ wFX + x.frac : ℕ) : ℚ) * 2 ^ ((x.exp : ℤ) - bias wE - wFX))) *
      ((if y.sign = 1 then (-1 : ℚ) else 1) * (((2 ^ wFY + y.frac : ℕ) : ℚ) * 2 ^ ((y.exp : ℤ) - bias wE - wFY))) = q at *
  have hxe := x.exp_lt (by omega)
  have hye := y.exp_lt (by omega)
  obtain ⟨hP1, hP2⟩ := prod_bounds (x.frac_lt hX) (y.frac_lt hY)
  obtain ⟨hG1, hG2⟩ := exactSig_spec (by omega) hpath hP1 hP2
  have hb := biasN_lt (E := wE)
  have hpw : 2 ^ (wE + 2) = 4 * 2 ^ wE := by rw [pow_add]; ring
  refine ⟨mulExact wE wFR (wFX + wFY) 1 ((x.sign + y.sign) % 2)
    (mulExp wE wE x.exp y.exp (getBit (wFX + wFY + 1) ((2 ^ wFX + x.frac) * (2 ^ wFY + y.frac))))
    (getBit (wFX + wFY + 1) ((2 ^ wFX + x.frac) * (2 ^ wFY + y.frac)))
      ((2 ^ wFX + x.frac) * (2 ^ wFY + y.frac)),
    x.exp + y.exp - bias wE + (getBit (wFX + wFY + 1) ((2 ^ wFX + x.frac) * (2 ^ wFY + y.frac))).toNat, ?_, ?_⟩
  · unfold mulV1
    rw [show wFX + 1 + wFY + 1 - 1 = wFX + wFY + 1 by omega]
    simp only [hfx, hfy, mulExc_normal, opadHi1]
    rw [if_neg (by omega), if_pos (by omega), if_neg (lt_irrefl _)]
  · generalize (2 ^ wFX + x.frac) * (2 ^ wFY + y.frac) = P at *
    generalize getBit (wFX + wFY + 1) P = norm at *
    have hexp := mulExp_cast (wE := wE) (ex := x.exp) (ey := y.exp) norm
    have b1 : (0 : ℤ) ≤ bias wE := by
      have : (1 : ℤ) ≤ 2 ^ (wE - 1) := one_le_pow₀ (by norm_num)
      unfold bias; linarith
    have b2 : 2 * bias wE + 2 = 2 ^ wE := by
      have : (2 : ℤ) ^ wE = 2 * 2 ^ (wE - 1) := by rw [← pow_succ', Nat.sub_add_cancel hE]
      unfold bias; linarith
    have hn1 : (norm.toNat : ℤ) ≤ 1 := by exact_mod_cast Bool.toNat_le norm
    have hxe' : (x.exp : ℤ) < 2 ^ wE := by exact_mod_cast hxe
    have hye' : (y.exp : ℤ) < 2 ^ wE := by exact_mod_cast hye
    rw [mulExact_datum (by omega) (by omega) (Nat.mod_lt _ (by norm_num)) hG1 hexp (by omega) (by omega)]
    generalize mulExactSig wFR (wFX + wFY) norm P = G at *
    -- |q| = (2^wFR + G) * 2^(be - bias - wFR)
    have hval : |q| = ((2 ^ wFR + G : ℕ) : ℚ) *
        2 ^ ((x.exp : ℤ) + y.exp - bias wE + norm.toNat - bias wE - wFR) := by
      rw [hq]
      have h4 : (((2 ^ wFR + G) * 2 ^ norm.toNat : ℕ) : ℚ) = ((P * 2 ^ (wFR - (wFX + wFY)) : ℕ) : ℚ) := by
        rw [hG2]
      obtain ⟨d, rfl⟩ := Nat.exists_eq_add_of_le (show wFX + wFY ≤ wFR by omega)
      rw [Nat.add_sub_cancel_left] at h4
      rw [show ((x.exp : ℤ) + y.exp - bias wE + norm.toNat - bias wE - ((wFX + wFY + d : ℕ) : ℤ))
        = ((x.exp : ℤ) + y.exp - 2 * bias wE - wFX - wFY) + norm.toNat - d by push_cast; ring]
      generalize ((x.exp : ℤ) + y.exp - 2 * bias wE - wFX - wFY) = g
      rw [zpow_sub₀ (by norm_num), zpow_add₀ (by norm_num), zpow_natCast, zpow_natCast]
      push_cast at h4 ⊢
      field_simp
      linear_combination -h4
    have hG0 : ((2 : ℚ) ^ wFR) ≤ ((2 ^ wFR + G : ℕ) : ℚ) := by push_cast; linarith [Nat.cast_nonneg (α := ℚ) G]
    have hG1' : ((2 ^ wFR + G : ℕ) : ℚ) < (2 : ℚ) ^ wFR * 2 := by
      have : (G : ℚ) < 2 ^ wFR := by exact_mod_cast hG1
      push_cast; linarith
    generalize (x.exp : ℤ) + y.exp - bias wE + norm.toNat = be at *
    have hsplit : (2 : ℚ) ^ (be - bias wE) = 2 ^ wFR * 2 ^ (be - bias wE - wFR) := by
      rw [← zpow_natCast, ← zpow_add₀ (by norm_num)]; congr 1; ring
    have hpos := two_zpow_pos (be - bias wE - wFR)
    refine ⟨?_, ?_, ?_⟩
    · rw [hval, hsplit]; exact mul_le_mul_of_nonneg_right hG0 hpos.le
    · rw [hval, show be + 1 - bias wE = (be - bias wE) + 1 by ring, two_zpow_succ, hsplit]
      nlinarith
    · have hs : (if (x.sign + y.sign) % 2 = 1 then (-1 : ℚ) else 1) * |q| = q := by
        by_cases hc : q < 0
        · rw [if_pos (hsgn.mp hc), abs_of_neg hc]; ring
        · rw [if_neg (fun h => hc (hsgn.mpr h)), abs_of_nonneg (not_lt.mp hc)]; ring
      rw [← hval, hs]
      simp only [hsgn]

end Thls
