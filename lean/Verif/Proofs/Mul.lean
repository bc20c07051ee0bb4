import Verif.Proofs.Pack
import Verif.Model.Mul

/-! # Lemmas for multiplication -/

namespace Thls
open Spec

/-- Facts about the product of two normalised significands. -/
theorem prod_bounds {a b A B : ℕ} (ha : a < 2 ^ A) (hb : b < 2 ^ B) :
    2 ^ (A + B) ≤ (2 ^ A + a) * (2 ^ B + b) ∧ (2 ^ A + a) * (2 ^ B + b) < 2 ^ (A + B + 2) := by
  have h1 : 2 ^ (A + B) = 2 ^ A * 2 ^ B := pow_add _ _ _
  have h2 : 2 ^ (A + B + 2) = (2 * 2 ^ A) * (2 * 2 ^ B) := by rw [pow_add, pow_add]; ring
  constructor
  · rw [h1]; exact Nat.mul_le_mul (Nat.le_add_right _ _) (Nat.le_add_right _ _)
  · rw [h2]; exact Nat.mul_lt_mul'' (by omega) (by omega)

theorem getBit_top {P n : ℕ} (hP : P < 2 ^ (n + 1)) : getBit n P = decide (2 ^ n ≤ P) := by
  unfold getBit
  have h2 : 2 ^ (n + 1) = 2 * 2 ^ n := by rw [pow_succ]; ring
  have hpos : 0 < 2 ^ n := by positivity
  by_cases h : 2 ^ n ≤ P
  · have : P / 2 ^ n = 1 := by rw [Nat.div_eq_iff hpos]; omega
    simp [this, h]
  · have : P / 2 ^ n = 0 := Nat.div_eq_of_lt (by omega)
    simp [this, h]

/-- The normalised product, as left-justified fraction `G` of width `n+2`. -/
theorem sigProdExt_spec {P n : ℕ} (hn : 1 ≤ n) (h1 : 2 ^ n ≤ P) (h2 : P < 2 ^ (n + 2)) :
    mulSigExt (n + 2) (getBit (n + 1) P) P < 2 ^ (n + 2) ∧
    (2 ^ (n + 2) + mulSigExt (n + 2) (getBit (n + 1) P) P) * 2 ^ (getBit (n + 1) P).toNat = 4 * P := by
  have hb : getBit (n + 1) P = decide (2 ^ (n + 1) ≤ P) := getBit_top h2
  have e2 : 2 ^ (n + 2) = 4 * 2 ^ n := by rw [pow_add]; ring
  have e1 : 2 ^ (n + 1) = 2 * 2 ^ n := by rw [pow_succ]; ring
  unfold mulSigExt
  rw [show n + 2 - 2 = n by omega, show n + 2 - 3 = n - 1 by omega]
  by_cases h : 2 ^ (n + 1) ≤ P
  · have hnorm : getBit (n + 1) P = true := by rw [hb]; simp [h]
    have hm : P % 2 ^ (n + 1) = P - 2 ^ (n + 1) := by
      rw [Nat.mod_eq_sub_mod h, Nat.mod_eq_of_lt]; omega
    simp only [hnorm, ↓reduceIte, getBits_zero_eq_mod, hm, concat, Bool.toNat_true, pow_one]
    omega
  · have hnorm : getBit (n + 1) P = false := by rw [hb]; simp [h]
    have hm : P % 2 ^ n = P - 2 ^ n := by
      rw [Nat.mod_eq_sub_mod h1, Nat.mod_eq_of_lt]; omega
    simp only [hnorm, Bool.false_eq_true, ↓reduceIte, getBits_zero_eq_mod, Nat.sub_add_cancel hn, hm, concat,
      Bool.toNat_false, pow_zero, mul_one]
    omega

theorem mulExp_cast {wE ex ey : ℕ} (norm : Bool) :
    ((mulExp wE wE ex ey norm : ℕ) : ℤ) = ((ex : ℤ) + ey - bias wE + norm.toNat) % 2 ^ (wE + 2) := by
  have hb := biasN_lt (E := wE)
  have hpw : 2 ^ (wE + 2) = 4 * 2 ^ wE := by rw [pow_add]; ring
  unfold mulExp
  rw [cast_addW, cast_subW (by omega), cast_addW, pow_bias]
  simp only [Int.emod_add_emod, Int.emod_sub_emod]

/-- What the rounding stage computes, for normal operands. -/
theorem mulRound_datum {E F k G ep s : ℕ} {be : ℤ} (hE : 1 ≤ E) (hF : 1 ≤ F) (hk : 1 ≤ k)
    (hG : G < 2 ^ (k + 1 + F)) (hs : s < 2)
    (hep : (ep : ℤ) = be % 2 ^ (E + 2)) (hlo : -(2 * 2 ^ E) ≤ be) (hhi : be + 1 < 2 * 2 ^ E) :
    (mulRound E F (k + 1 + F) 1 s ep G).datum = packedDatum E F (decide (s = 1))
      (be * 2 ^ F + (G / 2 ^ (k + 1) : ℕ) +
        (if getBit k G && (decide (G % 2 ^ k ≠ 0) || decide (G / 2 ^ (k + 1) % 2 = 1)) then 1 else 0)) := by
  obtain ⟨hf, -⟩ := split_fraction hG
  unfold mulRound
  have h1 : getBits (k + 1 + F - 1) (k + 1 + F - F) G = G / 2 ^ (k + 1) := by
    rw [show k + 1 + F - F = k + 1 by omega]
    exact getBits_top (by rwa [show k + 1 + F - 1 + 1 = k + 1 + F by omega]) (by omega)
  have h2 : getBits (k + 1 + F - 1 - F - 1) 0 G = G % 2 ^ k := by
    rw [getBits_zero_eq_mod, show k + 1 + F - 1 - F - 1 + 1 = k by omega]
  rw [h1, h2, show k + 1 + F - 1 - F = k by omega,
    show getBit (k + 1) G = decide (G / 2 ^ (k + 1) % 2 = 1) from rfl]
  generalize G / 2 ^ (k + 1) = f at *
  generalize getBit k G = rb at *
  generalize G % 2 ^ k = low at *
  have hround : (rb && (!(low == 0) && !decide (f % 2 = 1) || decide (f % 2 = 1)))
      = (rb && (decide (low ≠ 0) || decide (f % 2 = 1))) := by
    by_cases h1 : low = 0 <;> by_cases h2 : f % 2 = 1 <;> simp [h1, h2]
  dsimp only
  rw [hround, show 2 + E + F = E + F + 2 by omega]
  exact finish_datum _ hE hF hep hf hs hlo hhi

theorem mulExc_normal : mulExc 1 1 = 1 := by decide

theorem mulExc_lt (a b : ℕ) : mulExc a b < 4 := by
  unfold mulExc; dsimp only; split
  · decide
  · split
    · decide
    · split <;> decide

theorem sigs_pos (a b A B : ℕ) : (0 : ℚ) < (((2 ^ A + a) * (2 ^ B + b) : ℕ) : ℚ) := by
  have : 0 < (2 ^ A + a) * (2 ^ B + b) := by positivity
  exact_mod_cast this

theorem scale_eq {A P a : ℕ} {g : ℤ} (h : A * 2 ^ a = 4 * P) :
    (P : ℚ) * 2 ^ g = (A : ℚ) * 2 ^ (g + a - 2) := by
  rw [zpow_sub₀ (by norm_num), zpow_add₀ (by norm_num), zpow_natCast]
  have h4 : (A : ℚ) * 2 ^ a = 4 * P := by exact_mod_cast h
  have h5 : (P : ℚ) = A * 2 ^ a / 4 := by linarith
  rw [h5]
  norm_num
  ring

/-- Rounding path. -/
theorem mulV1_round {wE wFR wFX wFY : ℕ} (hE : 2 ≤ wE) (hR : 1 ≤ wFR) (hX : 1 ≤ wFX) (hY : 1 ≤ wFY)
    (hpath : wFR ≤ wFX + wFY) (x : Fp wE wFX) (y : Fp wE wFY) (hx : x.flags = 1) (hy : y.flags = 1) :
    ∃ (r : Fp wE wFR), mulV1 wE wFR x y = some r ∧
      ∀ q : ℚ, |q| = (((2 ^ wFX + x.frac) * (2 ^ wFY + y.frac) : ℕ) : ℚ) *
          2 ^ ((x.exp : ℤ) + y.exp - 2 * bias wE - wFX - wFY) →
        (q < 0 ↔ (x.sign + y.sign) % 2 = 1) → Rounded wE wFR q r.datum := by
  have hxe := x.exp_lt (by omega)
  have hye := y.exp_lt (by omega)
  obtain ⟨hP1, hP2⟩ := prod_bounds (x.frac_lt hX) (y.frac_lt hY)
  obtain ⟨hG1, hG2⟩ := sigProdExt_spec (by omega) hP1 hP2
  have hb := biasN_lt (E := wE)
  have hpw : 2 ^ (wE + 2) = 4 * 2 ^ wE := by rw [pow_add]; ring
  obtain ⟨k, hk⟩ : ∃ k, wFX + wFY + 1 = k + wFR := ⟨wFX + wFY + 1 - wFR, by omega⟩
  refine ⟨mulRound wE wFR (wFX + wFY + 2) 1 ((x.sign + y.sign) % 2)
    (mulExp wE wE x.exp y.exp (getBit (wFX + wFY + 1) ((2 ^ wFX + x.frac) * (2 ^ wFY + y.frac))))
    (mulSigExt (wFX + wFY + 2) (getBit (wFX + wFY + 1) ((2 ^ wFX + x.frac) * (2 ^ wFY + y.frac)))
      ((2 ^ wFX + x.frac) * (2 ^ wFY + y.frac))), ?_, ?_⟩
  · unfold mulV1
    rw [show wFX + 1 + wFY + 1 = wFX + wFY + 2 by omega, show wFX + wFY + 2 - 1 = wFX + wFY + 1 by omega]
    simp only [hx, hy, mulExc_normal, opadHi1]
    rw [if_neg (by omega), if_neg (by omega), if_neg (by simp)]
  · intro q hq hsgn
    generalize (2 ^ wFX + x.frac) * (2 ^ wFY + y.frac) = P at *
    generalize getBit (wFX + wFY + 1) P = norm at *
    generalize mulSigExt (wFX + wFY + 2) norm P = G at *
    have hexp := mulExp_cast (wE := wE) (ex := x.exp) (ey := y.exp) norm
    obtain ⟨b1, b2⟩ := bias_bounds hE
    have hn1 : (norm.toNat : ℤ) ≤ 1 := by exact_mod_cast Bool.toNat_le norm
    have hxe' : (x.exp : ℤ) < 2 ^ wE := by exact_mod_cast hxe
    have hye' : (y.exp : ℤ) < 2 ^ wE := by exact_mod_cast hye
    have hw : wFX + wFY + 2 = k + 1 + wFR := by omega
    rw [hw] at hG1 ⊢
    obtain ⟨hf, hN⟩ := split_fraction hG1
    rw [mulRound_datum (by omega) hR (by omega) hG1 (Nat.mod_lt _ (by norm_num)) hexp (by omega) (by omega),
      show decide ((x.sign + y.sign) % 2 = 1) = decide (q < 0) by simp [hsgn]]
    refine rounded_of_int hR (N := 2 ^ (k + 1 + wFR) + G)
      (g := x.exp + y.exp - 2 * bias wE - wFX - wFY + norm.toNat - 2) (k := k) hf ?_ hN
      (Nat.mod_lt _ (by positivity)) ?_
    · rw [hq, ← hw]
      exact scale_eq hG2
    · have : (wFX : ℤ) + wFY + 1 = k + wFR := by exact_mod_cast hk
      linarith

/-- The padded product of the exact path. -/
theorem exactSig_spec {P n F : ℕ} (hn : 1 ≤ n) (hF : n + 1 ≤ F) (h1 : 2 ^ n ≤ P) (h2 : P < 2 ^ (n + 2)) :
    mulExactSig F n (getBit (n + 1) P) P < 2 ^ F ∧
    (2 ^ F + mulExactSig F n (getBit (n + 1) P) P) * 2 ^ (getBit (n + 1) P).toNat = P * 2 ^ (F - n) := by
  have hb : getBit (n + 1) P = decide (2 ^ (n + 1) ≤ P) := getBit_top h2
  have e2 : 2 ^ (n + 2) = 4 * 2 ^ n := by rw [pow_add]; ring
  have e1 : 2 ^ (n + 1) = 2 * 2 ^ n := by rw [pow_succ]; ring
  obtain ⟨d, rfl⟩ := Nat.exists_eq_add_of_le hF
  unfold mulExactSig
  rw [show 1 + (n + 1 + d) - (n + 2) = d by omega, show n + 1 + d - n = d + 1 by omega]
  have e3 : 2 ^ (n + 1 + d) = 2 * 2 ^ n * 2 ^ d := by rw [pow_add, e1]
  have hd : 0 < 2 ^ d := by positivity
  by_cases h : 2 ^ (n + 1) ≤ P
  · have hnorm : getBit (n + 1) P = true := by rw [hb]; simp [h]
    have hm : P % 2 ^ (n + 1) = P - 2 ^ (n + 1) := by
      rw [Nat.mod_eq_sub_mod h, Nat.mod_eq_of_lt]; omega
    obtain ⟨r, rfl⟩ := Nat.exists_eq_add_of_le h
    simp only [hnorm, ↓reduceIte, getBits_zero_eq_mod, hm, concat, Bool.toNat_true, pow_one]
    rw [e3, e1, Nat.add_sub_cancel_left, pow_succ]
    constructor
    · rw [Nat.add_zero]; exact Nat.mul_lt_mul_of_pos_right (by omega) hd
    · ring
  · have hnorm : getBit (n + 1) P = false := by rw [hb]; simp [h]
    have hm : P % 2 ^ n = P - 2 ^ n := by
      rw [Nat.mod_eq_sub_mod h1, Nat.mod_eq_of_lt]; omega
    obtain ⟨r, rfl⟩ := Nat.exists_eq_add_of_le h1
    simp only [hnorm, Bool.false_eq_true, ↓reduceIte, getBits_zero_eq_mod, Nat.sub_add_cancel hn, hm, concat,
      Bool.toNat_false, pow_zero, mul_one]
    rw [e3, Nat.add_sub_cancel_left, pow_succ]
    constructor
    · rw [Nat.add_zero, show r * (2 ^ d * 2) = (2 * r) * 2 ^ d by ring]
      exact Nat.mul_lt_mul_of_pos_right (by omega) hd
    · ring

/-- What the exact path returns for normal operands, by the (mathematical) biased exponent `be`. -/
theorem mulExact_datum {E F n s ep P : ℕ} {norm : Bool} {be : ℤ} (hE : 1 ≤ E) (hF : 1 ≤ F) (hs : s < 2)
    (hsig : mulExactSig F n norm P < 2 ^ F)
    (hep : (ep : ℤ) = be % 2 ^ (E + 2)) (hlo : -(2 * 2 ^ E) ≤ be) (hhi : be < 2 * 2 ^ E) :
    (mulExact E F n 1 s ep norm P).datum =
      if be < 0 then .nan
      else if 2 ^ E ≤ be then .inf (decide (s = 1))
      else .num ((if s = 1 then -1 else 1) *
        (((2 ^ F + mulExactSig F n norm P : ℕ) : ℚ) * 2 ^ (be - bias E - F))) := by
  have hM2 : (2 : ℤ) ^ (E + 2) = 4 * 2 ^ E := by rw [pow_add]; ring
  have hPn : 0 < 2 ^ E := by positivity
  have hcast : ((2 ^ E : ℕ) : ℤ) = 2 ^ E := by push_cast; rfl
  have hlt : ep < 2 ^ (E + 1 + 1) := by
    have : (ep : ℤ) < 2 ^ (E + 2) := by rw [hep]; exact Int.emod_lt_of_pos _ (by positivity)
    exact_mod_cast this
  unfold mulExact
  rw [getBits_top hlt (by omega), getBits_zero_eq_mod, Nat.sub_add_cancel hE]
  have hor : ∀ t, mulFinalExc 1 t = t := by intro t; unfold mulFinalExc; simp
  simp only [hor]
  rw [Fp.mk4_datum _ hs (Nat.mod_lt _ hPn) hsig hE hF]
  · by_cases h0 : be < 0
    · have hT' : (ep : ℤ) = be + 4 * 2 ^ E := by
        rw [hep, hM2, ← Int.add_emod_right, Int.emod_eq_of_lt] <;> omega
      have h2 : 2 ≤ ep / 2 ^ E := by
        rw [Nat.le_div_iff_mul_le hPn]
        zify; omega
      rw [if_pos h0, if_neg (by omega), if_neg (by omega)]; rfl
    · have hT' : (ep : ℤ) = be := by
        rw [hep, hM2, Int.emod_eq_of_lt] <;> omega
      rw [if_neg h0]
      by_cases h1 : 2 ^ E ≤ be
      · have h2 : ep / 2 ^ E = 1 := by
          rw [Nat.div_eq_iff hPn]
          constructor <;> zify <;> omega
        rw [if_pos h1, h2]; rfl
      · have hTlt : ep < 2 ^ E := by zify; omega
        rw [if_neg h1, Nat.div_eq_of_lt hTlt, if_pos rfl, Nat.mod_eq_of_lt hTlt, ← hT']
        rfl
  · split
    · decide
    · split <;> decide

theorem mulFinalExc_special {e t : ℕ} (h : e ≠ 1) (h4 : e < 4) : mulFinalExc e t = e := by
  unfold mulFinalExc; rw [if_pos (by omega)]

/-- Result of either path when the exception table does not say "normal". -/
theorem mulV1_special_flags {wER wFR wE wFX wFY : ℕ} (hE : 1 ≤ wER) (hR : 1 ≤ wFR) (hX : 1 ≤ wFX + wFY)
    {x : Fp wE wFX} {y : Fp wE wFY} {r : Fp wER wFR} (h : mulV1 wER wFR x y = some r)
    (hexc : mulExc x.flags y.flags ≠ 1) :
    r.flags = mulExc x.flags y.flags ∧ r.sign = (x.sign + y.sign) % 2 := by
  have h4 := mulExc_lt x.flags y.flags
  have hs : (x.sign + y.sign) % 2 < 2 := Nat.mod_lt _ (by norm_num)
  unfold mulV1 at h
  dsimp only at h
  generalize mulExc x.flags y.flags = e at *
  generalize (x.sign + y.sign) % 2 = s at *
  split at h
  · cases h
  · split at h
    · rename_i hge
      have hle : ¬ wE < wER := fun hc => by rw [if_pos hc] at h; cases h
      rw [if_neg hle] at h
      injection h with h
      subst h
      unfold mulExact
      dsimp only
      rw [mulFinalExc_special hexc h4]
      have he := getBits_lt (wER - 1) 0
        (mulExp wER wE x.exp y.exp (getBit (wFX + 1 + wFY + 1 - 1) (opadHi1 wFX x.frac * opadHi1 wFY y.frac)))
      rw [show wER - 1 + 1 - 0 = wER by omega] at he
      have hf : mulExactSig wFR (wFX + wFY) (getBit (wFX + 1 + wFY + 1 - 1) (opadHi1 wFX x.frac * opadHi1 wFY y.frac))
          (opadHi1 wFX x.frac * opadHi1 wFY y.frac) < 2 ^ wFR := by
        generalize getBit (wFX + 1 + wFY + 1 - 1) (opadHi1 wFX x.frac * opadHi1 wFY y.frac) = nb
        generalize opadHi1 wFX x.frac * opadHi1 wFY y.frac = P
        unfold mulExactSig
        split
        · have h1 := getBits_lt (wFX + wFY) 0 P
          have h2 := concat_lt (w := 1 + wFR - (wFX + wFY + 2)) (b := 0) h1 (by positivity)
          refine h2.trans_eq ?_
          congr 1; omega
        · have h1 := getBits_lt (wFX + wFY - 1) 0 P
          have h2 := concat_lt (w := 1 + wFR - (wFX + wFY + 2) + 1) (b := 0) h1 (by positivity)
          refine h2.trans_eq ?_
          congr 1; omega
      exact ⟨Fp.mk4_flags h4 hs he hf, Fp.mk4_sign h4 hs he hf⟩
    · split at h
      · cases h
      · injection h with h
        subst h
        unfold mulRound
        dsimp only
        rw [mulFinalExc_special hexc h4, ofBits_concat]
        have hb := fun t => getBits_lt' (E := wER) (F := wFR) (x := t) (by omega)
        constructor
        · refine Fp.mk4_flags h4 hs ?_ (Nat.mod_lt _ (by positivity))
          rw [Nat.div_lt_iff_lt_mul (by positivity), ← pow_add]
          exact hb _
        · refine Fp.mk4_sign h4 hs ?_ (Nat.mod_lt _ (by positivity))
          rw [Nat.div_lt_iff_lt_mul (by positivity), ← pow_add]
          exact hb _

theorem mulExc_comm (a b : ℕ) (ha : a < 4) (hb : b < 4) : mulExc a b = mulExc b a := by
  interval_cases a <;> interval_cases b <;> rfl

theorem sign_xor {a b : ℕ} (ha : a < 2) (hb : b < 2) :
    decide ((a + b) % 2 = 1) = (decide (a = 1) != decide (b = 1)) := by
  interval_cases a <;> interval_cases b <;> rfl

theorem prod_value {wE wFX wFY : ℕ} (x : Fp wE wFX) (y : Fp wE wFY) :
    |((if x.sign = 1 then (-1 : ℚ) else 1) * (((2 ^ wFX + x.frac : ℕ) : ℚ) * 2 ^ ((x.exp : ℤ) - bias wE - wFX))) *
      ((if y.sign = 1 then (-1 : ℚ) else 1) * (((2 ^ wFY + y.frac : ℕ) : ℚ) * 2 ^ ((y.exp : ℤ) - bias wE - wFY)))|
      = (((2 ^ wFX + x.frac) * (2 ^ wFY + y.frac) : ℕ) : ℚ) *
          2 ^ ((x.exp : ℤ) + y.exp - 2 * bias wE - wFX - wFY) ∧
    (((if x.sign = 1 then (-1 : ℚ) else 1) * (((2 ^ wFX + x.frac : ℕ) : ℚ) * 2 ^ ((x.exp : ℤ) - bias wE - wFX))) *
      ((if y.sign = 1 then (-1 : ℚ) else 1) * (((2 ^ wFY + y.frac : ℕ) : ℚ) * 2 ^ ((y.exp : ℤ) - bias wE - wFY))) < 0
      ↔ (x.sign + y.sign) % 2 = 1) := by
  have h1 : ((2 : ℚ) ^ ((x.exp : ℤ) - bias wE - wFX)) * 2 ^ ((y.exp : ℤ) - bias wE - wFY)
      = 2 ^ ((x.exp : ℤ) + y.exp - 2 * bias wE - wFX - wFY) := by
    rw [← zpow_add₀ (by norm_num)]; congr 1; ring
  have h2 : ((if x.sign = 1 then (-1 : ℚ) else 1) * (((2 ^ wFX + x.frac : ℕ) : ℚ) * 2 ^ ((x.exp : ℤ) - bias wE - wFX))) *
      ((if y.sign = 1 then (-1 : ℚ) else 1) * (((2 ^ wFY + y.frac : ℕ) : ℚ) * 2 ^ ((y.exp : ℤ) - bias wE - wFY)))
      = (if (x.sign + y.sign) % 2 = 1 then (-1 : ℚ) else 1) *
        ((((2 ^ wFX + x.frac) * (2 ^ wFY + y.frac) : ℕ) : ℚ) *
          2 ^ ((x.exp : ℤ) + y.exp - 2 * bias wE - wFX - wFY)) := by
    rw [← sign_mul_sign x.sign_lt y.sign_lt, ← h1]; push_cast; ring
  have hpos : (0 : ℚ) < (((2 ^ wFX + x.frac) * (2 ^ wFY + y.frac) : ℕ) : ℚ) *
          2 ^ ((x.exp : ℤ) + y.exp - 2 * bias wE - wFX - wFY) :=
    mul_pos (sigs_pos _ _ _ _) (by positivity)
  rw [h2]
  exact ⟨abs_signed hpos, signed_neg hpos⟩

/-- The exact path in terms of values. -/
theorem mulV1_exact {wE wFR wFX wFY : ℕ} (hE : 2 ≤ wE) (hX : 1 ≤ wFX) (hY : 1 ≤ wFY)
    (hpath : wFX + wFY + 1 ≤ wFR) {x : Fp wE wFX} {y : Fp wE wFY} {vx vy : ℚ}
    (hx : x.datum = .num vx) (hy : y.datum = .num vy) :
    ∃ (r : Fp wE wFR) (be : ℤ), mulV1 wE wFR x y = some r ∧
      (2 : ℚ) ^ (be - bias wE) ≤ |vx * vy| ∧ |vx * vy| < 2 ^ (be + 1 - bias wE) ∧
      r.datum = if be < 0 then .nan else if 2 ^ wE ≤ be then .inf (decide (vx * vy < 0)) else .num (vx * vy) := by
  obtain ⟨hfx, rfl⟩ := datum_num_iff.mp hx
  obtain ⟨hfy, rfl⟩ := datum_num_iff.mp hy
  obtain ⟨hq, hsgn⟩ := prod_value x y
  generalize hqd : ((if x.sign = 1 then (-1 : ℚ) else 1) * (((2 ^ wFX + x.frac : ℕ) : ℚ) * 2 ^ ((x.exp : ℤ) - bias wE - wFX))) *
      ((if y.sign = 1 then (-1 : ℚ) else 1) * (((2 ^ wFY + y.frac : ℕ) : ℚ) * 2 ^ ((y.exp : ℤ) - bias wE - wFY))) = q at *
  have hxe := x.exp_lt (by omega)
  have hye := y.exp_lt (by omega)
  obtain ⟨hP1, hP2⟩ := prod_bounds (x.frac_lt hX) (y.frac_lt hY)
  obtain ⟨hG1, hG2⟩ := exactSig_spec (by omega) hpath hP1 hP2
  have hb := biasN_lt (E := wE)
  have hpw : 2 ^ (wE + 2) = 4 * 2 ^ wE := by rw [pow_add]; ring
  refine ⟨mulExact wE wFR (wFX + wFY) 1 ((x.sign + y.sign) % 2)
    (mulExp wE wE x.exp y.exp (getBit (wFX + wFY + 1) ((2 ^ wFX + x.frac) * (2 ^ wFY + y.frac))))
    (getBit (wFX + wFY + 1) ((2 ^ wFX + x.frac) * (2 ^ wFY + y.frac)))
      ((2 ^ wFX + x.frac) * (2 ^ wFY + y.frac)),
    x.exp + y.exp - bias wE + (getBit (wFX + wFY + 1) ((2 ^ wFX + x.frac) * (2 ^ wFY + y.frac))).toNat, ?_, ?_⟩
  · unfold mulV1
    rw [show wFX + 1 + wFY + 1 - 1 = wFX + wFY + 1 by omega]
    simp only [hfx, hfy, mulExc_normal, opadHi1]
    rw [if_neg (by omega), if_pos (by omega), if_neg (lt_irrefl _)]
  · generalize (2 ^ wFX + x.frac) * (2 ^ wFY + y.frac) = P at *
    generalize getBit (wFX + wFY + 1) P = norm at *
    have hexp := mulExp_cast (wE := wE) (ex := x.exp) (ey := y.exp) norm
    obtain ⟨b1, b2⟩ := bias_bounds hE
    have hn1 : (norm.toNat : ℤ) ≤ 1 := by exact_mod_cast Bool.toNat_le norm
    have hxe' : (x.exp : ℤ) < 2 ^ wE := by exact_mod_cast hxe
    have hye' : (y.exp : ℤ) < 2 ^ wE := by exact_mod_cast hye
    rw [mulExact_datum (by omega) (by omega) (Nat.mod_lt _ (by norm_num)) hG1 hexp (by omega) (by omega)]
    generalize mulExactSig wFR (wFX + wFY) norm P = G at *
    -- |q| = (2^wFR + G) * 2^(be - bias - wFR)
    have hval : |q| = ((2 ^ wFR + G : ℕ) : ℚ) *
        2 ^ ((x.exp : ℤ) + y.exp - bias wE + norm.toNat - bias wE - wFR) := by
      rw [hq]
      have h4 : (((2 ^ wFR + G) * 2 ^ norm.toNat : ℕ) : ℚ) = ((P * 2 ^ (wFR - (wFX + wFY)) : ℕ) : ℚ) := by
        rw [hG2]
      obtain ⟨d, rfl⟩ := Nat.exists_eq_add_of_le (show wFX + wFY ≤ wFR by omega)
      rw [Nat.add_sub_cancel_left] at h4
      rw [show ((x.exp : ℤ) + y.exp - bias wE + norm.toNat - bias wE - ((wFX + wFY + d : ℕ) : ℤ))
        = ((x.exp : ℤ) + y.exp - 2 * bias wE - wFX - wFY) + norm.toNat - d by push_cast; ring]
      generalize ((x.exp : ℤ) + y.exp - 2 * bias wE - wFX - wFY) = g
      rw [zpow_sub₀ (by norm_num), zpow_add₀ (by norm_num), zpow_natCast, zpow_natCast]
      push_cast at h4 ⊢
      field_simp
      linear_combination -h4
    have hG0 : ((2 : ℚ) ^ wFR) ≤ ((2 ^ wFR + G : ℕ) : ℚ) := by push_cast; linarith [Nat.cast_nonneg (α := ℚ) G]
    have hG1' : ((2 ^ wFR + G : ℕ) : ℚ) < (2 : ℚ) ^ wFR * 2 := by
      have : (G : ℚ) < 2 ^ wFR := by exact_mod_cast hG1
      push_cast; linarith
    generalize (x.exp : ℤ) + y.exp - bias wE + norm.toNat = be at *
    have hsplit : (2 : ℚ) ^ (be - bias wE) = 2 ^ wFR * 2 ^ (be - bias wE - wFR) := by
      rw [← zpow_natCast, ← zpow_add₀ (by norm_num)]; congr 1; ring
    have hpos := two_zpow_pos (be - bias wE - wFR)
    refine ⟨?_, ?_, ?_⟩
    · rw [hval, hsplit]; exact mul_le_mul_of_nonneg_right hG0 hpos.le
    · rw [hval, show be + 1 - bias wE = (be - bias wE) + 1 by ring, two_zpow_succ, hsplit]
      nlinarith
    · have hs : (if (x.sign + y.sign) % 2 = 1 then (-1 : ℚ) else 1) * |q| = q := by
        by_cases hc : q < 0
        · rw [if_pos (hsgn.mp hc), abs_of_neg hc]; ring
        · rw [if_neg (fun h => hc (hsgn.mpr h)), abs_of_nonneg (not_lt.mp hc)]; ring
      rw [← hval, hs]
      simp only [hsgn]

theorem mul_special {wER wFR wE wFX wFY : ℕ} (hE : 1 ≤ wER) (hR : 1 ≤ wFR) (hX : 1 ≤ wFX + wFY)
    {x : Fp wE wFX} {y : Fp wE wFY} {r : Fp wER wFR} (h : mulV1 wER wFR x y = some r) {d : Datum}
    (hd : mulSpecial x.datum y.datum = some d) : r.datum = d := by
  have key := mulV1_special_flags hE hR hX h
  have hx := datum_isNeg x
  have hy := datum_isNeg y
  have hsx := sign_xor x.sign_lt y.sign_lt
  rcases flags_cases x with h0 | h0 | h0 | h0 <;> rcases flags_cases y with h1 | h1 | h1 | h1 <;>
    rw [h0, h1] at key <;> rw [h0] at hx <;> rw [h1] at hy <;>
    (try have hx := hx (by decide)) <;> (try have hy := hy (by decide)) <;>
    (try (have key := key (by decide); obtain ⟨kf, ks⟩ := key)) <;>
    (try rw [← ks] at hsx) <;>
    (try rw [datum_flags0 x h0] at hd) <;> (try rw [datum_flags2 x h0] at hd) <;>
    (try rw [datum_flags3 x h0] at hd) <;>
    (try rw [datum_flags0 y h1] at hd) <;> (try rw [datum_flags2 y h1] at hd) <;>
    (try rw [datum_flags3 y h1] at hd) <;>
    (try rw [datum_normal x h0] at hd hx) <;> (try rw [datum_normal y h1] at hd hy) <;>
    simp only [mulSpecial, Option.some.injEq, reduceCtorEq] at hd <;>
    subst hd <;>
    first
      | exact datum_flags3 r kf
      | (rw [datum_flags2 r kf, hsx]; first | rfl | rw [hx] | rw [hy])
      | (rw [datum_flags0 r kf, hsx]; first | rfl | rw [hx] | rw [hy])

end Thls
