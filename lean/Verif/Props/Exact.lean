import Verif.Props.AddSharp
import Verif.Props.Convert
import Verif.Props.Flopoco
import Verif.Props.FwUint

/-! # Properties C05, C09, C15, C18, C24, C25: the exact domains

Several properties hold of the code only on part of their domain. The theorems here state that part exactly: an
equivalence between the property at an input and a condition on that input. -/

namespace Thls
open Spec

/-! ## C05: multiplication of the 128-bit fallback -/

namespace Fallback

/-- Digit `i` of `a` in base `2^32`. -/
def limb (a : U128) (i : ℕ) : ℕ := a.val / 2 ^ (32 * i) % 2 ^ 32

/-- What the fallback loses of the product of digits `i` and `j`: its high 32 bits. -/
def lost (a b : U128) (i j : ℕ) : ℕ := limb a i * limb b j / 2 ^ 32

/-- What the fallback keeps of the product of digits `i` and `j`: its low 32 bits. -/
def kept (a b : U128) (i j : ℕ) : ℕ := limb a i * limb b j % 2 ^ 32

theorem limb_eq {a : U128} (ha : a.Ok) : limb a 0 = a.lo % 2 ^ 32 ∧ limb a 1 = a.lo / 2 ^ 32 ∧
    limb a 2 = a.hi % 2 ^ 32 ∧ limb a 3 = a.hi / 2 ^ 32 := by
  obtain ⟨h1, h2⟩ := ha
  simp only [limb, U128.val]
  norm_num at *
  omega

theorem m32_val (a b : ℕ) : (m32 a b).Ok ∧ (m32 a b).val = (a % 2 ^ 32) * (b % 2 ^ 32) % 2 ^ 32 := by
  have : (a % 2 ^ 32) * (b % 2 ^ 32) % 2 ^ 32 < 2 ^ 32 := Nat.mod_lt _ (by norm_num)
  refine ⟨⟨by simp [m32], ?_⟩, by simp [m32, U128.val]⟩
  show (a % 2 ^ 32) * (b % 2 ^ 32) % 2 ^ 32 < 2 ^ 64
  omega

theorem m64_val (a b : ℕ) : (m64 a b).Ok ∧ (m64 a b).val =
    ((a % 2 ^ 32) * (b % 2 ^ 32) % 2 ^ 32 + (a / 2 ^ 32 % 2 ^ 32) * (b % 2 ^ 32) % 2 ^ 32 * 2 ^ 32 +
      (a % 2 ^ 32) * (b / 2 ^ 32 % 2 ^ 32) % 2 ^ 32 * 2 ^ 32 +
      (a / 2 ^ 32 % 2 ^ 32) * (b / 2 ^ 32 % 2 ^ 32) % 2 ^ 32 * 2 ^ 64) % 2 ^ 128 := by
  obtain ⟨o1, v1⟩ := m32_val a b
  obtain ⟨o2, v2⟩ := m32_val (a >>> 32) b
  obtain ⟨o3, v3⟩ := m32_val a (b >>> 32)
  obtain ⟨o4, v4⟩ := m32_val (a >>> 32) (b >>> 32)
  obtain ⟨p2, w2⟩ := C05_shl o2 (s := 32) (by norm_num)
  obtain ⟨p3, w3⟩ := C05_shl o3 (s := 32) (by norm_num)
  obtain ⟨p4, w4⟩ := C05_shl o4 (s := 64) (by norm_num)
  obtain ⟨q1, x1⟩ := C05_add o1 p2
  obtain ⟨q2, x2⟩ := C05_add q1 p3
  obtain ⟨q3, x3⟩ := C05_add q2 p4
  refine ⟨q3, ?_⟩
  unfold m64
  rw [x3, x2, x1, w2, w3, w4, v1, v2, v3, v4, Nat.shiftRight_eq_div_pow, Nat.shiftRight_eq_div_pow]
  omega

/-- **C05.** What the product of the fallback is: the sum of the low halves of the products of 32-bit digits. -/
theorem C05_mul_value {a b : U128} (ha : a.Ok) (hb : b.Ok) : (mul a b).Ok ∧
    (mul a b).val = (kept a b 0 0 + (kept a b 0 1 + kept a b 1 0) * 2 ^ 32 +
      (kept a b 0 2 + kept a b 1 1 + kept a b 2 0) * 2 ^ 64 +
      (kept a b 0 3 + kept a b 1 2 + kept a b 2 1 + kept a b 3 0) * 2 ^ 96) % 2 ^ 128 := by
  obtain ⟨o1, v1⟩ := m64_val a.lo b.lo
  obtain ⟨o2, v2⟩ := m64_val a.lo b.hi
  obtain ⟨o3, v3⟩ := m64_val a.hi b.lo
  obtain ⟨p2, w2⟩ := C05_shl o2 (s := 64) (by norm_num)
  obtain ⟨p3, w3⟩ := C05_shl o3 (s := 64) (by norm_num)
  obtain ⟨q1, x1⟩ := C05_add o1 p2
  obtain ⟨q2, x2⟩ := C05_add q1 p3
  refine ⟨q2, ?_⟩
  obtain ⟨a0, a1, a2, a3⟩ := limb_eq ha
  obtain ⟨b0, b1, b2, b3⟩ := limb_eq hb
  have ta : a.lo / 2 ^ 32 % 2 ^ 32 = a.lo / 2 ^ 32 ∧ a.hi / 2 ^ 32 % 2 ^ 32 = a.hi / 2 ^ 32 := by
    have := ha.1; have := ha.2; norm_num at *; omega
  have tb : b.lo / 2 ^ 32 % 2 ^ 32 = b.lo / 2 ^ 32 ∧ b.hi / 2 ^ 32 % 2 ^ 32 = b.hi / 2 ^ 32 := by
    have := hb.1; have := hb.2; norm_num at *; omega
  unfold mul
  rw [x2, x1, w2, w3, v1, v2, v3]
  simp only [kept, a0, a1, a2, a3, b0, b1, b2, b3, ta.1, ta.2, tb.1, tb.2]
  generalize a.lo % 2 ^ 32 * (b.lo % 2 ^ 32) % 2 ^ 32 = t00
  generalize a.lo / 2 ^ 32 * (b.lo % 2 ^ 32) % 2 ^ 32 = t10
  generalize a.lo % 2 ^ 32 * (b.lo / 2 ^ 32) % 2 ^ 32 = t01
  generalize a.lo / 2 ^ 32 * (b.lo / 2 ^ 32) % 2 ^ 32 = t11
  generalize a.lo % 2 ^ 32 * (b.hi % 2 ^ 32) % 2 ^ 32 = t02
  generalize a.lo / 2 ^ 32 * (b.hi % 2 ^ 32) % 2 ^ 32 = t12
  generalize a.lo % 2 ^ 32 * (b.hi / 2 ^ 32) % 2 ^ 32 = t03
  generalize a.lo / 2 ^ 32 * (b.hi / 2 ^ 32) % 2 ^ 32 = t13
  generalize a.hi % 2 ^ 32 * (b.lo % 2 ^ 32) % 2 ^ 32 = t20
  generalize a.hi / 2 ^ 32 * (b.lo % 2 ^ 32) % 2 ^ 32 = t30
  generalize a.hi % 2 ^ 32 * (b.lo / 2 ^ 32) % 2 ^ 32 = t21
  generalize a.hi / 2 ^ 32 * (b.lo / 2 ^ 32) % 2 ^ 32 = t31
  omega

/-- **C05.** The product is right modulo `2^128` exactly when what is lost cancels modulo `2^128`. -/
theorem C05_mul_correct_iff {a b : U128} (ha : a.Ok) (hb : b.Ok) :
    (mul a b).val = a.val * b.val % 2 ^ 128 ↔
      (lost a b 0 0 + (lost a b 0 1 + lost a b 1 0) * 2 ^ 32 +
        (lost a b 0 2 + lost a b 1 1 + lost a b 2 0) * 2 ^ 64) % 2 ^ 96 = 0 := by
  rw [(C05_mul_value ha hb).2]
  have val : ∀ {c : U128}, c.Ok → c.val = limb c 0 + limb c 1 * 2 ^ 32 + limb c 2 * 2 ^ 64 + limb c 3 * 2 ^ 96 := by
    rintro c ⟨h1, h2⟩
    simp only [limb, U128.val]
    norm_num at *
    omega
  have kl : ∀ i j, limb a i * limb b j = lost a b i j * 2 ^ 32 + kept a b i j := fun i j => by
    unfold lost kept; omega
  have hprod : a.val * b.val = (limb a 0 * limb b 0) + (limb a 0 * limb b 1 + limb a 1 * limb b 0) * 2 ^ 32 +
      (limb a 0 * limb b 2 + limb a 1 * limb b 1 + limb a 2 * limb b 0) * 2 ^ 64 +
      (limb a 0 * limb b 3 + limb a 1 * limb b 2 + limb a 2 * limb b 1 + limb a 3 * limb b 0) * 2 ^ 96 +
      (limb a 1 * limb b 3 + limb a 2 * limb b 2 + limb a 3 * limb b 1) * 2 ^ 128 +
      (limb a 2 * limb b 3 + limb a 3 * limb b 2) * 2 ^ 160 + limb a 3 * limb b 3 * 2 ^ 192 := by
    rw [val ha, val hb]; ring
  rw [hprod]
  simp only [kl]
  omega

/-- The product of two 20-bit numbers is right if their low 32-bit product has no high half; `3 * 2^16` times `2^15` is
one, and `2^16` times `2^16` is not. -/
example : lost ⟨0, 3 * 2 ^ 14⟩ ⟨0, 2 ^ 15⟩ 0 0 = 0 ∧ (mul ⟨0, 3 * 2 ^ 14⟩ ⟨0, 2 ^ 15⟩).val = 3 * 2 ^ 29 ∧
    lost ⟨0, 2 ^ 16⟩ ⟨0, 2 ^ 16⟩ 0 0 = 1 := by decide +kernel

end Fallback

/-! ## C09: nextdown -/

/-- **C09.** `nextdown` is the next number below, for numbers other than NaN and minus infinity, exactly unless the number
is a positive power of two above the least one, or the last number of a negative binade other than the last. -/
theorem C09_nextdown_correct_iff {E F : ℕ} (hE : 1 ≤ E) (hF : 1 ≤ F) (x : Fp E F) (hx : x.datum ≠ .nan)
    (hi : x.datum ≠ .inf true) :
    ((nextdown x).datum.Below x.datum ∧ ∀ y : Fp E F, ¬ ((nextdown x).datum.Below y.datum ∧ y.datum.Below x.datum)) ↔
      ¬ (x.isNormal = true ∧ x.isPositive = true ∧ x.frac = 0 ∧ x.exp ≠ 0) ∧
      ¬ (x.isNormal = true ∧ x.isNegative = true ∧ x.frac = 2 ^ F - 1 ∧ x.exp ≠ 2 ^ E - 1) := by
  constructor
  · rintro ⟨-, h⟩
    constructor
    · rintro ⟨h1, h2, h3, h4⟩
      obtain ⟨y, hy⟩ := C09_nextdown_wrong_at_powers_of_two hE hF x h1 h2 h3 h4
      exact h y hy
    · rintro ⟨h1, h2, h3, h4⟩
      obtain ⟨y, hy⟩ := C09_nextdown_wrong_below_negative_binade hE hF x h1 h2 h3 h4
      exact h y hy
  · rintro ⟨h1, h2⟩
    exact C09_nextdown_predecessor_partial hE hF x hx hi
      (fun a b c => by_contra fun d => h1 ⟨a, b, c, d⟩) (fun a b c => by_contra fun d => h2 ⟨a, b, c, d⟩)

/-- Both cases occur: 1 is a power of two, and -15/8 is the last number of its binade. -/
example : let x := Fp.mk4 4 3 1 0 7 0; let y := Fp.mk4 4 3 1 1 7 7
    (x.isNormal = true ∧ x.isPositive = true ∧ x.frac = 0 ∧ x.exp ≠ 0) ∧
    (y.isNormal = true ∧ y.isNegative = true ∧ y.frac = 2 ^ 3 - 1 ∧ y.exp ≠ 2 ^ 4 - 1) := by decide

/-! ## C15, C18: the single-path adder -/

/-- **C15.** `add_single`, in the formats in which it does not assert (C19): the sum of two numbers is correctly rounded
exactly outside the clamp case. -/
theorem C15_add_single_correct_iff {wEX wFX wEY wFY : ℕ} (hEX : 1 ≤ wEX) (hFX : 1 ≤ wFX) (hEY : 1 ≤ wEY)
    (hFY : 1 ≤ wFY) (hfmt : max wFX wFY + 3 < 2 ^ max wEX wEY) (hfmt2 : max wFX wFY + 3 ≠ 2 ^ (max wEX wEY - 1))
    (x : Fp wEX wFX) (y : Fp wEY wFY) (vx vy : ℚ) (hx : x.datum = .num vx) (hy : y.datum = .num vy) :
    (∃ r, AddSingle.add x y = some r ∧ AddsTo (max wEX wEY) (max wFX wFY) vx vy r.datum) ↔
      ¬ (max wFX wFY + 3 < 2 ^ (max wEX wEY - 1) ∧
        (ClampCase (max wFX wFY) vx vy ∨ ClampCase (max wFX wFY) vy vx)) := by
  have hE : 2 ≤ max wEX wEY := by
    by_contra hc
    have : max wEX wEY = 1 := by omega
    rw [this] at hfmt; omega
  have hF : 1 ≤ max wFX wFY := by omega
  have px : (promote (max wEX wEY) (max wFX wFY) x).datum = .num vx := by
    rw [promote_datum hEX hFX (by omega) (by omega), hx]
  have py : (promote (max wEX wEY) (max wFX wFY) y).datum = .num vy := by
    rw [promote_datum hEY hFY (by omega) (by omega), hy]
  constructor
  · rintro ⟨r, hr, ha⟩ ⟨hs, hc⟩
    obtain ⟨r', hr', -, -, h3, h4⟩ := AddSingle.orders_num (AddSingle.lzoc_normalises _) hE hF hfmt hfmt2
      (AddSingle.addSame_orders (by omega) hF (promote (max wEX wEY) (max wFX wFY) x)
        (promote (max wEX wEY) (max wFX wFY) y)) px py
    have : r = r' := Option.some.inj (hr.symm.trans hr')
    subst this
    rw [AddSingle.clamped_iff (by omega) hF px py] at h3
    rw [AddSingle.clamped_iff (by omega) hF py px] at h4
    rcases hc with hc | hc
    · rw [h3 ⟨hs, hc⟩, px] at ha
      obtain ⟨h1, k, h2, h3, h4⟩ := hc
      unfold AddsTo at ha
      split at ha
      · simp at ha
      · exact AddSingle.clamp_not_rounded h1 h2 h3 h4 ha
    · rw [h4 ⟨hs, hc⟩, py] at ha
      obtain ⟨h1, k, h2, h3, h4⟩ := hc
      unfold AddsTo at ha
      split at ha
      · simp at ha
      · rw [add_comm] at ha
        exact AddSingle.clamp_not_rounded h1 h2 h3 h4 ha
  · intro h
    refine C15_add_single_correctly_rounded_partial hEX hFX hEY hFY hfmt hfmt2 x y vx vy hx hy fun hs => ?_
    exact ⟨fun c => h ⟨hs, .inl c⟩, fun c => h ⟨hs, .inr c⟩⟩

example : (23 + 3 < 2 ^ (8 - 1)) ∧ ClampCase 23 1 (-(3/2) * 2 ^ (-25 : ℤ)) ∧ ¬ ClampCase 23 1 1 := by
  refine ⟨by norm_num, ⟨by norm_num, 0, by norm_num, ?_, ?_⟩, ?_⟩
  · rw [abs_of_neg (by norm_num)]; norm_num
  · rw [abs_of_neg (by norm_num)]; norm_num
  · rintro ⟨h, -⟩; norm_num at h

/-- **C18.** The single-path adder is commutative for operands of different formats as well. -/
theorem C18_add_single_commutative_mixed {wEX wFX wEY wFY : ℕ} (hEX : 1 ≤ wEX) (hFX : 1 ≤ wFX) (hEY : 1 ≤ wEY)
    (hFY : 1 ≤ wFY) (hfmt : max wFX wFY + 3 < 2 ^ max wEX wEY) (hfmt2 : max wFX wFY + 3 ≠ 2 ^ (max wEX wEY - 1))
    (x : Fp wEX wFX) (y : Fp wEY wFY) :
    ∃ r r', AddSingle.add x y = some r ∧ AddSingle.add y x = some r' ∧ r.datum = r'.datum := by
  have hE : 2 ≤ max wEX wEY := by
    by_contra hc
    have : max wEX wEY = 1 := by omega
    rw [this] at hfmt; omega
  have hF : 1 ≤ max wFX wFY := by omega
  have key : ∀ E F, E = max wEX wEY → F = max wFX wFY → ∃ r : Fp (max wEX wEY) (max wFX wFY), ∃ r' : Fp E F,
      AddSingle.addSame (promote (max wEX wEY) (max wFX wFY) x) (promote (max wEX wEY) (max wFX wFY) y) = some r ∧
      AddSingle.addSame (promote E F y) (promote E F x) = some r' ∧ r.datum = r'.datum := by
    rintro E F rfl rfl
    exact C18_add_single_commutative hE hF hfmt hfmt2 _ _
  exact key _ _ (max_comm _ _) (max_comm _ _)

example : max 3 5 + 3 < 2 ^ max 5 4 ∧ max 3 5 + 3 ≠ 2 ^ (max 5 4 - 1) := by decide

/-! ## C24: conversion of zeros, infinities and NaN -/

/-- **C24.** Converting a zero, an infinity or a NaN keeps it, exactly unless it is not an infinity, the exponent widths are
equal, the fraction is narrowed, and the don't-care bits round up over the top of the format. -/
theorem C24_convert_special_iff {ER FR EX FX : ℕ} (hER : 1 ≤ ER) (hFR : 1 ≤ FR) (hEX : 1 ≤ EX) (hFX : 1 ≤ FX)
    (x : Fp EX FX) (hx : ∀ v, x.datum ≠ .num v) :
    (convert ER FR x).datum = x.datum ↔
      ¬ ((∀ s, x.datum ≠ .inf s) ∧ ER = EX ∧ FR < FX ∧ x.exp = 2 ^ EX - 1 ∧
        2 ^ FX - 2 ^ (FX - FR - 1) ≤ x.frac) := by
  have hf := x.frac_lt hFX
  have hx' : x.flags ≠ 1 := fun h => hx _ (datum_normal x h)
  -- the carry
  have carry : FR < FX → ((convertFrac FR FX x.frac).2 = true ↔ 2 ^ FX - 2 ^ (FX - FR - 1) ≤ x.frac) := by
    intro h
    unfold convertFrac
    rw [if_neg (by omega), if_neg (by omega)]
    obtain ⟨k, hk⟩ : ∃ k, FX - FR = k + 1 := ⟨FX - FR - 1, by omega⟩
    have hk1 : FX - FR - 1 = k := by omega
    have hX : 2 ^ FX = 2 ^ FR * (2 * 2 ^ k) := by
      rw [show FX = FR + (k + 1) by omega, pow_add, pow_succ 2 k]; ring
    have hkeep : getBits (FX - 1) (FX - FR) x.frac = x.frac / (2 * 2 ^ k) := by
      rw [getBits_top (by rwa [show FX - 1 + 1 = FX by omega]) (by omega), hk, pow_succ, Nat.mul_comm]
    have hdrop : getBits (FX - FR - 1) 0 x.frac = x.frac % (2 * 2 ^ k) := by
      rw [hk1, getBits_zero_eq_mod, pow_succ, Nat.mul_comm]
    have hhalf : concat (FX - FR - 1) 1 0 = 2 ^ k := by simp [concat, hk1]
    simp only [hkeep, hdrop, hhalf, Bool.and_eq_true, Bool.or_eq_true, decide_eq_true_eq]
    rw [hk1]
    have hpF := two_pow_pred hFR
    have hp : 0 < 2 ^ (FR - 1) := by positivity
    have hk0 : 0 < 2 ^ k := by positivity
    have hdm := Nat.div_add_mod x.frac (2 * 2 ^ k)
    have hml := Nat.mod_lt x.frac (show 0 < 2 * 2 ^ k by positivity)
    have hodd : x.frac / (2 * 2 ^ k) = ones FR → getBit 0 (x.frac / (2 * 2 ^ k)) = true := by
      intro h1
      rw [h1]
      unfold ones getBit
      simp only [pow_zero, Nat.div_one, Nat.testBit_zero, decide_eq_true_eq]
      omega
    have hf2 : x.frac < 2 ^ FR * (2 * 2 ^ k) := by rw [← hX]; exact hf
    rw [hX]
    clear hf hkeep hdrop
    generalize x.frac / (2 * 2 ^ k) = q at *
    generalize x.frac % (2 * 2 ^ k) = m at *
    unfold ones at *
    obtain ⟨P, hP⟩ : ∃ P, 2 ^ FR = P + 1 := ⟨2 ^ FR - 1, by omega⟩
    rw [hP] at hf2 hodd ⊢
    simp only [Nat.add_sub_cancel] at hodd ⊢
    constructor
    · rintro ⟨h1, h2⟩
      rw [h2] at hdm
      have : m ≥ 2 ^ k := by rcases h1 with h1 | ⟨h1, -⟩ <;> omega
      have e : (P + 1) * (2 * 2 ^ k) = 2 * 2 ^ k * P + 2 * 2 ^ k := by ring
      omega
    · intro h1
      have e : (P + 1) * (2 * 2 ^ k) = 2 * 2 ^ k * P + 2 * 2 ^ k := by ring
      have hq : q = P := by
        rcases lt_trichotomy q P with c | c | c
        · have : 2 * 2 ^ k * (q + 1) ≤ 2 * 2 ^ k * P := Nat.mul_le_mul_left _ c
          have e2 : 2 * 2 ^ k * (q + 1) = 2 * 2 ^ k * q + 2 * 2 ^ k := by ring
          omega
        · exact c
        · have : 2 * 2 ^ k * (P + 1) ≤ 2 * 2 ^ k * q := Nat.mul_le_mul_left _ c
          have e2 : 2 * 2 ^ k * (P + 1) = 2 * 2 ^ k * P + 2 * 2 ^ k := by ring
          omega
      subst hq
      refine ⟨?_, rfl⟩
      have hm : 2 ^ k ≤ m := by omega
      rcases Nat.lt_or_ge (2 ^ k) m with c | c
      · exact .inl c
      · exact .inr ⟨by omega, hodd rfl⟩
  constructor
  · rintro h ⟨hni, rfl, hlt, he, hfr⟩
    have hc := (carry hlt).mpr hfr
    have hd : (convert ER FR x).datum = .inf (decide (x.sign = 1)) := by
      unfold convert
      dsimp only
      rw [hc]
      have h1 : (convertExp ER ER x.flags x.exp true).1 = 2 := by simp [convertExp, he, ones]
      have h2 : (convertExp ER ER x.flags x.exp true).2 < 2 ^ ER := by simp [convertExp, addW_lt]
      rw [Fp.mk4_datum (by rw [h1]; decide) x.sign_lt h2 (convertFrac_down hFR hlt hf).1 hER hFR, h1]
      rfl
    rw [hd] at h
    exact hni _ h.symm
  · intro h
    by_cases hinf : ∃ s, x.datum = .inf s
    · obtain ⟨s, hs⟩ := hinf
      by_cases hw : ER = EX ∧ (convertFrac FR FX x.frac).2 = true ∧ x.exp = 2 ^ EX - 1
      · obtain ⟨rfl, hc, he⟩ := hw
        have hlt := (convertFrac_wrap hFX hf hc).1
        have h2f : x.flags = 2 := by
          rcases flags_cases x with f | f | f | f
          · rw [datum_flags0 x f] at hs; cases hs
          · exact absurd f hx'
          · exact f
          · rw [datum_flags3 x f] at hs; cases hs
        unfold convert
        dsimp only
        rw [hc]
        have h1 : (convertExp ER ER x.flags x.exp true).1 = 2 := by simp [convertExp, he, ones]
        have h2 : (convertExp ER ER x.flags x.exp true).2 < 2 ^ ER := by simp [convertExp, addW_lt]
        rw [Fp.mk4_datum (by rw [h1]; decide) x.sign_lt h2 (convertFrac_down hFR hlt hf).1 hER hFR, h1,
          datum_flags2 x h2f]
        rfl
      · exact (convert_special hER hFR hEX hFX x hx' fun h1 h2 h3 => hw ⟨h1, h2, h3⟩).1
    · refine (convert_special hER hFR hEX hFX x hx' ?_).1
      intro h1 h2 h3
      have hlt := (convertFrac_wrap hFX hf h2).1
      exact h ⟨fun s hs => hinf ⟨s, hs⟩, h1, hlt, h3, (carry hlt).mp h2⟩

/-- A zero whose don't-care bits round up over the top, and one whose bits do not. -/
example : (convert 4 2 (Fp.mk4 4 4 0 0 15 14)).datum = .inf false ∧ (convert 4 2 (Fp.mk4 4 4 0 0 15 13)).datum = .zero false := by
  decide +kernel

/-! ## C25: comparisons -/

/-- **C25.** The comparisons of two operands that are not NaN agree with the order of the extended reals exactly unless both
are the same infinity and their don't-care bits differ. -/
theorem C25_comparisons_real_order_iff {EA FA EB FB : ℕ} (hEA : 1 ≤ EA) (hFA : 1 ≤ FA) (hEB : 1 ≤ EB) (hFB : 1 ≤ FB)
    (a : Fp EA FA) (b : Fp EB FB) (ha : a.datum ≠ .nan) (hb : b.datum ≠ .nan) :
    ComparesLikeReals a b ↔ ∀ s, a.datum = .inf s → b.datum = .inf s →
      (a.exp : ℤ) - bias EA = b.exp - bias EB ∧ a.frac * 2 ^ FB = b.frac * 2 ^ FA := by
  refine ⟨?_, C25_comparisons_real_order_partial hEA hFA hEB hFB a b ha hb⟩
  intro h s h1 h2
  have he : Ord.equal a b = true := h.2.2.2.2.1.mpr (by rw [h1, h2]; simp [Datum.RealEq])
  have dA := promote_datum hEA hFA (le_max_left EA EB) (le_max_left FA FB) a
  obtain ⟨fa, sa, ea, ra⟩ := promote_fields hEA hFA (le_max_left EA EB) (le_max_left FA FB) a
  obtain ⟨fb, sb, eb, rb⟩ := promote_fields hEB hFB (le_max_right EA EB) (le_max_right FA FB) b
  have hE : 1 ≤ max EA EB := le_trans hEA (le_max_left _ _)
  have hF : 1 ≤ max FA FB := le_trans hFA (le_max_left _ _)
  have b1 := biasN_mono (le_max_left EA EB)
  have b2 := biasN_mono (le_max_right EA EB)
  have flag : ∀ {E F : ℕ} (x : Fp E F), x.datum = .inf s → x.flags = 2 := by
    intro E F x hx
    rcases flags_cases x with f | f | f | f
    · rw [datum_flags0 x f] at hx; cases hx
    · rw [datum_normal x f] at hx; cases hx
    · exact f
    · rw [datum_flags3 x f] at hx; cases hx
  have h3 := flag a h1
  have h4 := flag b h2
  unfold Ord.equal Ord.equalN Fp.isNan Fp.isZero at he
  rw [fa, fb, h3, h4] at he
  simp only [Bool.and_eq_true, beq_iff_eq] at he
  norm_num at he
  obtain ⟨-, he⟩ := he
  rw [Fp.expFrac_eq hE hF, Fp.expFrac_eq hE hF] at he
  have la := (promote (max EA EB) (max FA FB) a).frac_lt hF
  have lb := (promote (max EA EB) (max FA FB) b).frac_lt hF
  have hdiv : ∀ e f, f < 2 ^ max FA FB → concat (max FA FB) e f / 2 ^ max FA FB = e ∧
      concat (max FA FB) e f % 2 ^ max FA FB = f := by
    intro e f hf
    unfold concat
    rw [Nat.add_comm, Nat.add_mul_div_right _ _ (by positivity), Nat.div_eq_of_lt hf, Nat.add_mul_mod_self_right,
      Nat.mod_eq_of_lt hf, Nat.zero_add]
    exact ⟨rfl, rfl⟩
  have q1 := (hdiv (promote (max EA EB) (max FA FB) a).exp _ la).1
  have q2 := (hdiv (promote (max EA EB) (max FA FB) a).exp _ la).2
  rw [he, (hdiv _ _ lb).1] at q1
  rw [he, (hdiv _ _ lb).2] at q2
  rw [ea, eb] at q1
  rw [ra, rb] at q2
  constructor
  · rw [← pow_bias, ← pow_bias]; omega
  · rcases le_total FA FB with hh | hh
    · rw [max_eq_right hh, Nat.sub_self, pow_zero, Nat.mul_one] at q2
      have : 2 ^ FB = 2 ^ (FB - FA) * 2 ^ FA := by rw [← pow_add]; congr 1; omega
      rw [q2, this]; ring
    · rw [max_eq_left hh, Nat.sub_self, pow_zero, Nat.mul_one] at q2
      have : 2 ^ FA = 2 ^ (FA - FB) * 2 ^ FB := by rw [← pow_add]; congr 1; omega
      rw [← q2, this]; ring

example : (Fp.mk4 4 3 2 0 0 0).datum = .inf false ∧ (Fp.mk4 4 3 2 0 0 1).datum = .inf false ∧
    (Fp.mk4 4 3 2 0 0 0).frac * 2 ^ 3 ≠ (Fp.mk4 4 3 2 0 0 1).frac * 2 ^ 3 := by decide +kernel

end Thls
