import Verif.SpecFix
import Mathlib.Algebra.Order.Ring.Int
import Mathlib.Data.Rat.Floor
import Mathlib.Tactic.Ring
import Mathlib.Tactic.Linarith
import Mathlib.Tactic.NormNum
import Mathlib.Tactic.FieldSimp

/-! # C43 and C52: range-tracking fixed-point values -/

namespace Thls.Fix
open Spec

theorem ck_eq {x y : ℤ} (h : ck x = some y) : y = x ∧ -2 ^ 63 ≤ x ∧ x < 2 ^ 63 := by
  unfold ck at h; split_ifs at h with h1; cases h; exact ⟨rfl, h1⟩

theorem ck_some {x : ℤ} (h1 : -2 ^ 63 ≤ x) (h2 : x < 2 ^ 63) : ck x = some x := if_pos ⟨h1, h2⟩

theorem shl_eq {v p y : ℤ} (h : shl v p = some y) : y = v * 2 ^ p.toNat ∧ 0 ≤ p ∧ p < 64 ∧ -2 ^ 63 ≤ y ∧ y < 2 ^ 63 := by
  unfold shl at h; split_ifs at h with h1
  obtain ⟨h2, h3, h4⟩ := ck_eq h
  exact ⟨h2, h1.1, h1.2, by omega, by omega⟩

/-- A shifted value lies between the shifted bounds, and does not overflow. -/
theorem shl_between {lo v hi p l h : ℤ} (h1 : lo ≤ v) (h2 : v ≤ hi) (hl : shl lo p = some l) (hh : shl hi p = some h) :
    ∃ x, shl v p = some x ∧ x = v * 2 ^ p.toNat ∧ l ≤ x ∧ x ≤ h := by
  obtain ⟨e1, a1, a2, a3, a4⟩ := shl_eq hl
  obtain ⟨e2, -, -, b3, b4⟩ := shl_eq hh
  have hp : (0 : ℤ) < 2 ^ p.toNat := by positivity
  have i1 : lo * 2 ^ p.toNat ≤ v * 2 ^ p.toNat := mul_le_mul_of_nonneg_right h1 hp.le
  have i2 : v * 2 ^ p.toNat ≤ hi * 2 ^ p.toNat := mul_le_mul_of_nonneg_right h2 hp.le
  refine ⟨v * 2 ^ p.toNat, ?_, rfl, by rw [e1]; exact i1, by rw [e2]; exact i2⟩
  rw [shl, if_pos ⟨a1, a2⟩, ck_some (by linarith) (by linarith)]

theorem ctMin_eq (a b : ℤ) : ctMin a b = min a b := by unfold ctMin; split_ifs <;> omega
theorem ctMax_eq (a b : ℤ) : ctMax a b = max a b := by unfold ctMax; split_ifs <;> omega

/-- The two shifts of a sum bring the operands to the smaller exponent. -/
theorem shift_value (v e e' : ℤ) : ((v * 2 ^ (max e e' - e').toNat : ℤ) : ℚ) * 2 ^ (min e e') = v * (2 : ℚ) ^ e := by
  have h0 : (2 : ℚ) ≠ 0 := by norm_num
  push_cast
  rw [mul_assoc, ← zpow_natCast, ← zpow_add₀ h0]
  congr 2
  rcases le_total e e' with h | h
  · rw [max_eq_right h, min_eq_left h]; simp
  · rw [max_eq_left h, min_eq_right h, Int.toNat_of_nonneg (by omega)]; ring

theorem addTy_eq {a b t : Ty} (h : addTy a b = some t) : ∃ la lb ha hb,
    shl a.low (max a.shift b.shift - b.shift) = some la ∧ shl b.low (max a.shift b.shift - a.shift) = some lb ∧
    shl a.high (max a.shift b.shift - b.shift) = some ha ∧ shl b.high (max a.shift b.shift - a.shift) = some hb ∧
    ck (la + lb) = some (la + lb) ∧ ck (ha + hb) = some (ha + hb) ∧ t = ⟨min a.shift b.shift, la + lb, ha + hb⟩ := by
  unfold addTy at h
  simp only [ctMin_eq, ctMax_eq, Option.bind_eq_some_iff, Option.map_eq_some_iff] at h
  obtain ⟨la, h1, lb, h2, lo, h3, ha, h4, hb, h5, hi, h6, h7⟩ := h
  obtain ⟨rfl, -, -⟩ := ck_eq h3
  obtain ⟨rfl, -, -⟩ := ck_eq h6
  exact ⟨la, lb, ha, hb, h1, h2, h4, h5, h3, h6, h7.symm⟩

/-- C43: whenever the type of a sum exists, the sum of any two values within their bounds is computed without
overflow or assertion failure, is exact, and lies within the bounds of its type. -/
theorem C43_add {a b : Val} {t : Ty} (ha : InRange a) (hb : InRange b) (ht : addTy a.ty b.ty = some t) :
    ∃ r, add a b = some r ∧ r.ty = t ∧ InRange r ∧ fixValue r = fixValue a + fixValue b := by
  obtain ⟨la, lb, xa, xb, h1, h2, h3, h4, h5, h6, rfl⟩ := addTy_eq ht
  obtain ⟨x, x1, x2, x3, x4⟩ := shl_between ha.1 ha.2 h1 h3
  obtain ⟨y, y1, y2, y3, y4⟩ := shl_between hb.1 hb.2 h2 h4
  obtain ⟨-, c1, c2⟩ := ck_eq h5
  obtain ⟨-, c3, c4⟩ := ck_eq h6
  refine ⟨⟨⟨min a.ty.shift b.ty.shift, la + lb, xa + xb⟩, x + y⟩, ?_, rfl, ⟨by show la + lb ≤ x + y; omega, by show x + y ≤ xa + xb; omega⟩, ?_⟩
  · unfold add
    simp only [ctMax_eq]
    rw [if_pos ⟨ha.1, ha.2, hb.1, hb.2⟩, ht, Option.bind_some, x1, Option.bind_some, y1, Option.bind_some,
      ck_some (by omega) (by omega), Option.bind_some, make, if_pos ⟨by show la + lb ≤ x + y; omega, by show x + y ≤ xa + xb; omega⟩]
  · unfold fixValue
    simp only
    rw [← shift_value a.val a.ty.shift b.ty.shift, ← shift_value b.val b.ty.shift a.ty.shift, max_comm b.ty.shift, min_comm b.ty.shift,
      x2, y2]
    push_cast; ring

/-- C43: the bounds of a sum are reached. -/
theorem C43_add_tight {a b t : Ty} (ht : addTy a b = some t) (ha : a.low ≤ a.high) (hb : b.low ≤ b.high) :
    add ⟨a, a.low⟩ ⟨b, b.low⟩ = some ⟨t, t.low⟩ ∧ add ⟨a, a.high⟩ ⟨b, b.high⟩ = some ⟨t, t.high⟩ := by
  obtain ⟨la, lb, xa, xb, h1, h2, h3, h4, h5, h6, rfl⟩ := addTy_eq ht
  obtain ⟨x, x1, -, x3, x4⟩ := shl_between (le_refl _) ha h1 h3
  obtain ⟨y, y1, -, y3, y4⟩ := shl_between (le_refl _) hb h2 h4
  rw [h1] at x1; cases x1
  rw [h2] at y1; cases y1
  constructor
  · unfold add
    simp only [ctMax_eq]
    rw [if_pos ⟨le_refl _, ha, le_refl _, hb⟩, ht, Option.bind_some, h1, Option.bind_some, h2, Option.bind_some, h5, Option.bind_some, make,
      if_pos ⟨le_refl _, by show la + lb ≤ xa + xb; omega⟩]
  · unfold add
    simp only [ctMax_eq]
    rw [if_pos ⟨ha, le_refl _, hb, le_refl _⟩, ht, Option.bind_some, h3, Option.bind_some, h4, Option.bind_some, h6, Option.bind_some, make,
      if_pos ⟨by show la + lb ≤ xa + xb; omega, le_refl _⟩]

theorem mulTy_eq {a b t : Ty} (h : mulTy a b = some t) :
    ck (a.low * b.low) = some (a.low * b.low) ∧ ck (a.low * b.high) = some (a.low * b.high) ∧
    ck (a.high * b.low) = some (a.high * b.low) ∧ ck (a.high * b.high) = some (a.high * b.high) ∧
    t = ⟨a.shift + b.shift, min (min (a.low * b.low) (a.low * b.high)) (min (a.high * b.low) (a.high * b.high)),
      max (max (a.low * b.low) (a.low * b.high)) (max (a.high * b.low) (a.high * b.high))⟩ := by
  unfold mulTy at h
  simp only [ctMin4, ctMax4, ctMin_eq, ctMax_eq, Option.bind_eq_some_iff, Option.map_eq_some_iff] at h
  obtain ⟨p, h1, q, h2, r, h3, s, h4, h5⟩ := h
  obtain ⟨rfl, -, -⟩ := ck_eq h1
  obtain ⟨rfl, -, -⟩ := ck_eq h2
  obtain ⟨rfl, -, -⟩ := ck_eq h3
  obtain ⟨rfl, -, -⟩ := ck_eq h4
  exact ⟨h1, h2, h3, h4, h5.symm⟩

/-- A product lies between the products of the bounds. -/
theorem mul_between {l x h l' y h' : ℤ} (h1 : l ≤ x) (h2 : x ≤ h) (h3 : l' ≤ y) (h4 : y ≤ h') :
    min (min (l * l') (l * h')) (min (h * l') (h * h')) ≤ x * y ∧ x * y ≤ max (max (l * l') (l * h')) (max (h * l') (h * h')) := by
  have a1 : ∀ z, min (l * z) (h * z) ≤ x * z ∧ x * z ≤ max (l * z) (h * z) := by
    intro z
    rcases le_total 0 z with hz | hz
    · exact ⟨le_trans (min_le_left _ _) (mul_le_mul_of_nonneg_right h1 hz), le_trans (mul_le_mul_of_nonneg_right h2 hz) (le_max_right _ _)⟩
    · exact ⟨le_trans (min_le_right _ _) (mul_le_mul_of_nonpos_right h2 hz), le_trans (mul_le_mul_of_nonpos_right h1 hz) (le_max_left _ _)⟩
  have b1 : min (x * l') (x * h') ≤ x * y ∧ x * y ≤ max (x * l') (x * h') := by
    rcases le_total 0 x with hx | hx
    · exact ⟨le_trans (min_le_left _ _) (mul_le_mul_of_nonneg_left h3 hx), le_trans (mul_le_mul_of_nonneg_left h4 hx) (le_max_right _ _)⟩
    · exact ⟨le_trans (min_le_right _ _) (mul_le_mul_of_nonpos_left h4 hx), le_trans (mul_le_mul_of_nonpos_left h3 hx) (le_max_left _ _)⟩
  obtain ⟨c1, c2⟩ := a1 l'
  obtain ⟨d1, d2⟩ := a1 h'
  omega

/-- C43: whenever the type of a product exists, the product of any two values within their bounds is computed
without overflow or assertion failure, is exact, and lies within the bounds of its type. -/
theorem C43_mul {a b : Val} {t : Ty} (ha : InRange a) (hb : InRange b) (ht : mulTy a.ty b.ty = some t) :
    ∃ r, mul a b = some r ∧ r.ty = t ∧ InRange r ∧ fixValue r = fixValue a * fixValue b := by
  obtain ⟨h1, h2, h3, h4, rfl⟩ := mulTy_eq ht
  obtain ⟨m1, m2⟩ := mul_between ha.1 ha.2 hb.1 hb.2
  have b1 := (ck_eq h1).2; have b2 := (ck_eq h2).2; have b3 := (ck_eq h3).2; have b4 := (ck_eq h4).2
  refine ⟨⟨_, a.val * b.val⟩, ?_, rfl, ⟨m1, m2⟩, ?_⟩
  · unfold mul
    rw [if_pos ⟨ha.1, ha.2, hb.1, hb.2⟩, ht, Option.bind_some, ck_some (by omega) (by omega), Option.bind_some, make, if_pos ⟨m1, m2⟩]
  · unfold fixValue
    simp only
    rw [zpow_add₀ (by norm_num)]
    push_cast; ring

/-- C43: the bounds of a product are reached. -/
theorem C43_mul_tight {a b t : Ty} (ht : mulTy a b = some t) (ha : a.low ≤ a.high) (hb : b.low ≤ b.high) :
    (∃ x y, InRange ⟨a, x⟩ ∧ InRange ⟨b, y⟩ ∧ mul ⟨a, x⟩ ⟨b, y⟩ = some ⟨t, t.low⟩) ∧
    (∃ x y, InRange ⟨a, x⟩ ∧ InRange ⟨b, y⟩ ∧ mul ⟨a, x⟩ ⟨b, y⟩ = some ⟨t, t.high⟩) := by
  have key : ∀ x y, (x = a.low ∨ x = a.high) → (y = b.low ∨ y = b.high) →
      InRange ⟨a, x⟩ ∧ InRange ⟨b, y⟩ ∧ mul ⟨a, x⟩ ⟨b, y⟩ = some ⟨t, x * y⟩ := by
    intro x y hx hy
    have rx : InRange ⟨a, x⟩ := by rcases hx with rfl | rfl; exacts [⟨le_refl _, ha⟩, ⟨ha, le_refl _⟩]
    have ry : InRange ⟨b, y⟩ := by rcases hy with rfl | rfl; exacts [⟨le_refl _, hb⟩, ⟨hb, le_refl _⟩]
    obtain ⟨m1, m2⟩ := mul_between rx.1 rx.2 ry.1 ry.2
    obtain ⟨h1, h2, h3, h4, rfl⟩ := mulTy_eq ht
    have b1 := (ck_eq h1).2; have b2 := (ck_eq h2).2; have b3 := (ck_eq h3).2; have b4 := (ck_eq h4).2
    simp only at m1 m2
    refine ⟨rx, ry, ?_⟩
    unfold mul
    rw [if_pos ⟨rx.1, rx.2, ry.1, ry.2⟩, ht, Option.bind_some, ck_some (by simp only; omega) (by simp only; omega), Option.bind_some, make,
      if_pos ⟨m1, m2⟩]
  obtain ⟨-, -, -, -, e⟩ := mulTy_eq ht
  have k11 := key a.low b.low (Or.inl rfl) (Or.inl rfl)
  have k12 := key a.low b.high (Or.inl rfl) (Or.inr rfl)
  have k21 := key a.high b.low (Or.inr rfl) (Or.inl rfl)
  have k22 := key a.high b.high (Or.inr rfl) (Or.inr rfl)
  constructor
  · have : t.low = a.low * b.low ∨ t.low = a.low * b.high ∨ t.low = a.high * b.low ∨ t.low = a.high * b.high := by
      rw [e]; simp only; omega
    rcases this with h | h | h | h <;> rw [h]
    exacts [⟨_, _, k11⟩, ⟨_, _, k12⟩, ⟨_, _, k21⟩, ⟨_, _, k22⟩]
  · have : t.high = a.low * b.low ∨ t.high = a.low * b.high ∨ t.high = a.high * b.low ∨ t.high = a.high * b.high := by
      rw [e]; simp only; omega
    rcases this with h | h | h | h <;> rw [h]
    exacts [⟨_, _, k11⟩, ⟨_, _, k12⟩, ⟨_, _, k21⟩, ⟨_, _, k22⟩]

/-- C43: shifting right by a constant of 0 to 63 places always has a type, gives the floor of the quotient, and
stays within the bounds of that type. -/
theorem C43_shift_const {a : Val} (ha : InRange a) {p : ℕ} (hp : p < 64) :
    ∃ r, shiftRightConst p a = some r ∧ r.ty.shift = a.ty.shift ∧ InRange r ∧ r.val = ⌊(a.val : ℚ) / 2 ^ p⌋ := by
  have hs : ∀ v : ℤ, shr v p = some (v / 2 ^ p) := fun v => by rw [shr, if_pos ⟨by omega, by omega⟩]; simp
  have hpos : (0 : ℤ) < 2 ^ p := by positivity
  have h1 : a.ty.low / 2 ^ p ≤ a.val / 2 ^ p := Int.ediv_le_ediv hpos ha.1
  have h2 : a.val / 2 ^ p ≤ a.ty.high / 2 ^ p := Int.ediv_le_ediv hpos ha.2
  refine ⟨⟨⟨a.ty.shift, a.ty.low / 2 ^ p, a.ty.high / 2 ^ p⟩, a.val / 2 ^ p⟩, ?_, rfl, ⟨h1, h2⟩, ?_⟩
  · rw [shiftRightConst, shiftRightConstTy, hs, hs, hs, Option.bind_some, Option.map_some, Option.bind_some, Option.bind_some, make,
      if_pos ⟨h1, h2⟩]
  · have := Rat.floor_intCast_div_natCast a.val (2 ^ p)
    push_cast at this
    exact this.symm

theorem ediv_pow_mono {v : ℤ} {i j : ℕ} (hij : i ≤ j) : (0 ≤ v → v / 2 ^ j ≤ v / 2 ^ i) ∧ (v ≤ 0 → v / 2 ^ i ≤ v / 2 ^ j) := by
  obtain ⟨k, rfl⟩ := Nat.exists_eq_add_of_le hij
  have e : v / 2 ^ (i + k) = v / 2 ^ i / 2 ^ k := by
    rw [pow_add, Int.ediv_ediv_of_nonneg (by positivity)]
  have hk : (1 : ℤ) ≤ 2 ^ k := one_le_pow₀ (by norm_num)
  constructor
  · intro hv
    have : 0 ≤ v / 2 ^ i := Int.ediv_nonneg hv (by positivity)
    rw [e]; exact Int.ediv_le_self _ this
  · intro hv
    have h0 : v / 2 ^ i ≤ 0 := by
      have := Int.ediv_le_ediv (show (0 : ℤ) < 2 ^ i by positivity) hv
      simpa using this
    rw [e, Int.le_ediv_iff_mul_le (by positivity)]
    nlinarith

/-- C43, shifting right by a variable: for a range that includes zero and shifts of at most 63 places, the result
is the floor of the quotient and stays within the bounds of its type. Missing: ranges that exclude zero, for which
it is false (`C43_shift_right_wrong`). -/
theorem C43_shift_right_partial {v s : Val} (hv : InRange v) (hs : InRange s) (h0 : v.ty.low ≤ 0 ∧ 0 ≤ v.ty.high)
    (hs0 : s.ty.shift = 0) (hsl : 0 ≤ s.ty.low) (hsh : s.ty.high < 64) :
    ∃ r, shiftRight v s = some r ∧ r.ty.shift = v.ty.shift ∧ InRange r ∧ r.val = ⌊(v.val : ℚ) / 2 ^ s.val⌋ := by
  have q1 := hs.1
  have q2 := hs.2
  obtain ⟨k, hk⟩ := Int.eq_ofNat_of_zero_le hsl
  obtain ⟨j, hj⟩ := Int.eq_ofNat_of_zero_le (le_trans hsl q1)
  have hkj : k ≤ j := by omega
  have hsr : ∀ (x : ℤ) (p : ℕ), p < 64 → shr x p = some (x / 2 ^ p) := fun x p hp => by
    rw [shr, if_pos ⟨by omega, by omega⟩]; simp
  have hpj : (0 : ℤ) < 2 ^ j := by positivity
  have h1 : v.ty.low / 2 ^ k ≤ v.val / 2 ^ j := le_trans ((ediv_pow_mono hkj).2 h0.1) (Int.ediv_le_ediv hpj hv.1)
  have h2 : v.val / 2 ^ j ≤ v.ty.high / 2 ^ k := le_trans (Int.ediv_le_ediv hpj hv.2) ((ediv_pow_mono hkj).1 h0.2)
  refine ⟨⟨⟨v.ty.shift, v.ty.low / 2 ^ k, v.ty.high / 2 ^ k⟩, v.val / 2 ^ j⟩, ?_, rfl, ⟨h1, h2⟩, ?_⟩
  · rw [shiftRight, if_pos ⟨hv.1, hv.2, q1, q2⟩, shiftRightTy, if_pos ⟨hs0, hsl⟩, hk, hj, hsr _ _ (by omega), hsr _ _ (by omega),
      Option.bind_some, Option.map_some, Option.bind_some, hsr _ _ (by omega), Option.bind_some, make, if_pos ⟨h1, h2⟩]
  · have := Rat.floor_intCast_div_natCast v.val (2 ^ j)
    push_cast at this
    rw [hj]; simp only [zpow_natCast]; exact this.symm

/-- C43 is false of variable shifts of a range above zero, or below minus one: the bounds are those of the shortest
shift. For every such range, a shift by one place in a type that allows zero or one fails the assertion. -/
theorem C43_shift_right_wrong (e lo hi : ℤ) (h : lo ≤ hi) :
    (1 ≤ lo → shiftRight ⟨⟨e, lo, hi⟩, lo⟩ ⟨⟨0, 0, 1⟩, 1⟩ = none) ∧
    (hi ≤ -2 → shiftRight ⟨⟨e, lo, hi⟩, hi⟩ ⟨⟨0, 0, 1⟩, 1⟩ = none) := by
  have hs0 : ∀ x : ℤ, shr x 0 = some x := fun x => by simp [shr]
  have hs1 : ∀ x : ℤ, shr x 1 = some (x / 2) := fun x => by simp [shr]
  constructor
  · intro hl
    rw [shiftRight, if_pos ⟨le_refl _, h, by decide, by decide⟩, shiftRightTy, if_pos ⟨rfl, le_refl _⟩]
    simp only [hs0, hs1, Option.bind_some, Option.map_some, make]
    rw [if_neg (by omega)]
  · intro hl
    rw [shiftRight, if_pos ⟨h, le_refl _, by decide, by decide⟩, shiftRightTy, if_pos ⟨rfl, le_refl _⟩]
    simp only [hs0, hs1, Option.bind_some, Option.map_some, make]
    rw [if_neg (by omega)]

/-- C43, exactly when a variable right shift returns, and what: the floor of the quotient, if it lies within the bounds of
the operand shifted by the least number of places. -/
theorem C43_shift_right_iff {v s : Val} (hv : InRange v) (hs : InRange s) (hs0 : s.ty.shift = 0) (hsl : 0 ≤ s.ty.low)
    (hsh : s.ty.high < 64) (r : Val) :
    shiftRight v s = some r ↔
      (⌊(v.ty.low : ℚ) / 2 ^ s.ty.low⌋ ≤ ⌊(v.val : ℚ) / 2 ^ s.val⌋ ∧
        ⌊(v.val : ℚ) / 2 ^ s.val⌋ ≤ ⌊(v.ty.high : ℚ) / 2 ^ s.ty.low⌋) ∧
      r = ⟨⟨v.ty.shift, ⌊(v.ty.low : ℚ) / 2 ^ s.ty.low⌋, ⌊(v.ty.high : ℚ) / 2 ^ s.ty.low⌋⟩, ⌊(v.val : ℚ) / 2 ^ s.val⌋⟩ := by
  have q1 := hs.1
  have q2 := hs.2
  have hsr : ∀ (x p : ℤ), 0 ≤ p → p < 64 → shr x p = some ⌊(x : ℚ) / 2 ^ p⌋ := fun x p h0 hp => by
    obtain ⟨n, rfl⟩ := Int.eq_ofNat_of_zero_le h0
    rw [shr, if_pos ⟨h0, hp⟩]
    have := Rat.floor_intCast_div_natCast x (2 ^ n)
    push_cast at this
    simp only [zpow_natCast, this, Int.toNat_natCast]
  rw [shiftRight, if_pos ⟨hv.1, hv.2, q1, q2⟩, shiftRightTy, if_pos ⟨hs0, hsl⟩, hsr _ _ hsl (by omega), hsr _ _ hsl (by omega),
    Option.bind_some, Option.map_some, Option.bind_some, hsr _ _ (by omega) (by omega), Option.bind_some, make]
  constructor
  · intro h
    split at h
    · rename_i hc
      injection h with h
      exact ⟨hc, h.symm⟩
    · cases h
  · rintro ⟨hc, rfl⟩
    exact if_pos hc

/-- C43, exactly for which types no variable right shift can fail: shifting the bounds themselves by the largest number of
places leaves them between the bounds shifted by the least number. -/
theorem C43_shift_right_type_iff {tv ts : Ty} (hv : tv.low ≤ tv.high) (hs : ts.low ≤ ts.high) (hs0 : ts.shift = 0)
    (hsl : 0 ≤ ts.low) (hsh : ts.high < 64) :
    (∀ x p, tv.low ≤ x → x ≤ tv.high → ts.low ≤ p → p ≤ ts.high → ∃ r, shiftRight ⟨tv, x⟩ ⟨ts, p⟩ = some r) ↔
      ⌊(tv.low : ℚ) / 2 ^ ts.low⌋ ≤ ⌊(tv.low : ℚ) / 2 ^ ts.high⌋ ∧
      ⌊(tv.high : ℚ) / 2 ^ ts.high⌋ ≤ ⌊(tv.high : ℚ) / 2 ^ ts.low⌋ := by
  have h2 : (1 : ℚ) < 2 := by norm_num
  have mono : ∀ (x y p : ℤ), x ≤ y → ⌊(x : ℚ) / 2 ^ p⌋ ≤ ⌊(y : ℚ) / 2 ^ p⌋ := fun x y p h => by
    apply Int.floor_le_floor
    have : (x : ℚ) ≤ y := by exact_mod_cast h
    exact div_le_div_of_nonneg_right this (zpow_nonneg (by norm_num) _)
  have up : ∀ (x p q : ℤ), x ≤ 0 → p ≤ q → (x : ℚ) / 2 ^ p ≤ x / 2 ^ q := fun x p q hx h => by
    have hx' : (x : ℚ) ≤ 0 := by exact_mod_cast hx
    rw [div_le_div_iff₀ (zpow_pos (by norm_num) _) (zpow_pos (by norm_num) _)]
    exact mul_le_mul_of_nonpos_left (zpow_le_zpow_right₀ h2.le h) hx'
  have down : ∀ (x p q : ℤ), 0 ≤ x → p ≤ q → (x : ℚ) / 2 ^ q ≤ x / 2 ^ p := fun x p q hx h => by
    have hx' : (0 : ℚ) ≤ x := by exact_mod_cast hx
    rw [div_le_div_iff₀ (zpow_pos (by norm_num) _) (zpow_pos (by norm_num) _)]
    exact mul_le_mul_of_nonneg_left (zpow_le_zpow_right₀ h2.le h) hx'
  constructor
  · intro h
    obtain ⟨r, hr⟩ := h tv.low ts.high le_rfl hv hs le_rfl
    obtain ⟨r', hr'⟩ := h tv.high ts.high hv le_rfl hs le_rfl
    exact ⟨((C43_shift_right_iff ⟨le_rfl, hv⟩ ⟨hs, le_rfl⟩ hs0 hsl hsh r).1 hr).1.1,
      ((C43_shift_right_iff ⟨hv, le_rfl⟩ ⟨hs, le_rfl⟩ hs0 hsl hsh r').1 hr').1.2⟩
  · rintro ⟨h1, h3⟩ x p x1 x2 p1 p2
    refine ⟨_, (C43_shift_right_iff ⟨x1, x2⟩ ⟨p1, p2⟩ hs0 hsl hsh _).2 ⟨⟨?_, ?_⟩, rfl⟩⟩
    · refine le_trans ?_ (mono _ _ _ x1)
      rcases le_total tv.low 0 with hc | hc
      · exact Int.floor_le_floor (up _ _ _ hc p1)
      · exact h1.trans (Int.floor_le_floor (down _ _ _ hc p2))
    · refine le_trans (mono _ _ _ x2) ?_
      rcases le_total tv.high 0 with hc | hc
      · exact (Int.floor_le_floor (up _ _ _ hc p2)).trans h3
      · exact Int.floor_le_floor (down _ _ _ hc p1)

/-- The range -1 to -1 is safe although it excludes zero; the range 4 to 7 shifted by one or two places is not. -/
example : ∃ r, shiftRight ⟨⟨0, -1, -1⟩, -1⟩ ⟨⟨0, 0, 5⟩, 3⟩ = some r := ⟨_, rfl⟩
example : shiftRight ⟨⟨0, 4, 7⟩, 4⟩ ⟨⟨0, 1, 2⟩, 2⟩ = none := by decide

/-- C43: `fixval_constant` always has a type, whose only value is the constant. -/
theorem C43_constant (s v : ℤ) : ∃ r, constant s v = some r ∧ InRange r ∧ fixValue r = v * (2 : ℚ) ^ s ∧
    ∀ x : Val, x.ty = r.ty → InRange x → x = r := by
  refine ⟨⟨⟨s, v, v⟩, v⟩, if_pos ⟨le_rfl, le_rfl⟩, ⟨le_rfl, le_rfl⟩, rfl, ?_⟩
  rintro ⟨t, x⟩ rfl ⟨h1, h2⟩
  obtain rfl : x = v := le_antisymm h2 h1
  rfl

/-- C43: the common type of two types holds the values of both. -/
theorem C43_union {a b t : Ty} (ht : unionTy a b = some t) :
    (∀ x, InRange ⟨a, x⟩ → ∃ y, InRange ⟨t, y⟩ ∧ fixValue ⟨t, y⟩ = fixValue ⟨a, x⟩) ∧
    (∀ x, InRange ⟨b, x⟩ → ∃ y, InRange ⟨t, y⟩ ∧ fixValue ⟨t, y⟩ = fixValue ⟨b, x⟩) := by
  unfold unionTy at ht
  simp only [ctMin_eq, ctMax_eq, Option.bind_eq_some_iff, Option.map_eq_some_iff] at ht
  obtain ⟨la, h1, ha, h2, lb, h3, hb, h4, rfl⟩ := ht
  constructor
  · rintro x ⟨x1, x2⟩
    obtain ⟨y, -, y2, y3, y4⟩ := shl_between x1 x2 h1 h2
    exact ⟨y, ⟨le_trans (min_le_left _ _) y3, le_trans y4 (le_max_left _ _)⟩, by
      simp only [fixValue]; rw [y2]; exact shift_value x a.shift b.shift⟩
  · rintro x ⟨x1, x2⟩
    obtain ⟨y, -, y2, y3, y4⟩ := shl_between x1 x2 h3 h4
    exact ⟨y, ⟨le_trans (min_le_right _ _) y3, le_trans y4 (le_max_right _ _)⟩, by
      simp only [fixValue]; rw [y2, max_comm, min_comm]; exact shift_value x b.shift a.shift⟩

/-- C43: a Horner evaluation over fixed-point values of any types: whenever its type exists, it is exact and within
the bounds of that type. -/
theorem C43_horner {x c : Val} {cs : List Val} {t : Ty} (hx : InRange x) (hc : InRange c) (hcs : ∀ d ∈ cs, InRange d)
    (ht : hornerTy x.ty c.ty (cs.map Val.ty) = some t) :
    ∃ r, horner x c cs = some r ∧ r.ty = t ∧ InRange r ∧ fixValue r = poly (fixValue x) ((c :: cs).map fixValue) := by
  induction cs generalizing c t with
  | nil =>
    rw [List.map_nil, hornerTy] at ht; cases ht
    exact ⟨c, rfl, rfl, hc, by simp [poly]⟩
  | cons d cs ih =>
    rw [List.map_cons, hornerTy] at ht
    obtain ⟨base, hb, ht⟩ := Option.bind_eq_some_iff.mp ht
    obtain ⟨m, hm, ht⟩ := Option.bind_eq_some_iff.mp ht
    obtain ⟨r, r1, rfl, r3, r4⟩ := ih (hcs d (by simp)) (fun e he => hcs e (by simp [he])) hb
    obtain ⟨p, p1, rfl, p3, p4⟩ := C43_mul hx r3 hm
    obtain ⟨q, q1, q2, q3, q4⟩ := C43_add hc p3 ht
    exact ⟨q, by rw [horner, r1, Option.bind_some, p1, Option.bind_some, q1], q2, q3, by rw [q4, p4, r4]; rfl⟩

/-- C43: a product of fixed-point values of any types. -/
theorem C43_product {x : Val} {xs : List Val} {t : Ty} (hx : InRange x) (hxs : ∀ y ∈ xs, InRange y)
    (ht : productTy x.ty (xs.map Val.ty) = some t) :
    ∃ r, product x xs = some r ∧ r.ty = t ∧ InRange r ∧ fixValue r = ((x :: xs).map fixValue).prod := by
  induction xs generalizing x t with
  | nil =>
    rw [List.map_nil, productTy] at ht; cases ht
    exact ⟨x, rfl, rfl, hx, by simp⟩
  | cons y ys ih =>
    rw [List.map_cons, productTy] at ht
    obtain ⟨base, hb, ht⟩ := Option.bind_eq_some_iff.mp ht
    obtain ⟨r, r1, rfl, r3, r4⟩ := ih (hxs y (by simp)) (fun e he => hxs e (by simp [he])) hb
    obtain ⟨q, q1, q2, q3, q4⟩ := C43_mul hx r3 ht
    exact ⟨q, by rw [product, r1, Option.bind_some, q1], q2, q3, by rw [q4, r4]; simp only [List.map_cons, List.prod_cons]⟩

/-- Types with different exponents and signed ranges. -/
example : ∃ r, add ⟨⟨-3, -20, 50⟩, 7⟩ ⟨⟨1, -4, 9⟩, -4⟩ = some r ∧ r.ty = ⟨-3, -84, 194⟩ ∧ InRange r ∧
    fixValue r = fixValue ⟨⟨-3, -20, 50⟩, 7⟩ + fixValue ⟨⟨1, -4, 9⟩, -4⟩ :=
  C43_add ⟨by decide, by decide⟩ ⟨by decide, by decide⟩ (by decide)

example : ∃ r, horner ⟨⟨-3, -20, 50⟩, 7⟩ ⟨⟨0, 1, 1⟩, 1⟩ [⟨⟨-1, -3, 3⟩, 2⟩, ⟨⟨2, 5, 6⟩, 5⟩] = some r ∧ r.ty = ⟨-4, -6134, 15166⟩ ∧
    InRange r ∧ fixValue r = poly (fixValue ⟨⟨-3, -20, 50⟩, 7⟩) ([⟨⟨0, 1, 1⟩, 1⟩, ⟨⟨-1, -3, 3⟩, 2⟩, ⟨⟨2, 5, 6⟩, 5⟩].map fixValue) :=
  C43_horner ⟨by decide, by decide⟩ ⟨by decide, by decide⟩ (by simp [InRange]) (by decide)

/-- C52 is false: comparison of compile-time fixed-point numbers finds all numbers equal, whenever it compiles. -/
theorem C52_compare_wrong {eA vA eB vB c : ℤ} (h : fixCompare eA vA eB vB = some c) : c = 0 := by
  unfold fixCompare at h
  simp only [Option.bind_eq_some_iff, Option.map_eq_some_iff] at h
  obtain ⟨n, h1, m, h2, h3⟩ := h
  rw [h1] at h2; cases h2
  simpa using h3.symm

/-- C52, the part that holds: equal numbers compare equal, when the comparison compiles. Missing: everything else
(`C52_compare_wrong`). -/
theorem C52_compare_equal_partial {eA vA eB vB c : ℤ} (h : fixCompare eA vA eB vB = some c)
    (_he : (vA : ℚ) * 2 ^ eA = vB * 2 ^ eB) : fixEq eA vA eB vB = some true ∧ fixLe eA vA eB vB = some true ∧
      fixGe eA vA eB vB = some true ∧ fixLt eA vA eB vB = some false ∧ fixGt eA vA eB vB = some false := by
  have := C52_compare_wrong h; subst this
  simp [fixEq, fixLe, fixGe, fixLt, fixGt, h]

/-- C52: so assignment between fixed-point types is accepted although the value does not fit: a value 100 may be
assigned to a type with the range 0 to 1, and what the result holds is not the value but whatever the uninitialised
member held. -/
theorem C52_convert_wrong (garbage : ℤ) :
    convert ⟨0, 0, 1⟩ garbage ⟨⟨0, 0, 100⟩, 100⟩ = some ⟨⟨0, 0, 1⟩, garbage⟩ ∧ InRange ⟨⟨0, 0, 100⟩, 100⟩ := by
  refine ⟨?_, by decide, by decide⟩
  simp only [convert]
  rw [if_pos (by decide)]

/-- C52: which assignments compile. From a non-empty type to one that is at least as fine, exactly if the source's upper
bound can be aligned in 64 bits; the bounds of the target play no part, and no value is ever copied. -/
theorem C52_convert_iff {t : Ty} {a : Val} {g : ℤ} {r : Val} (hlow : -2 ^ 63 ≤ t.low ∧ t.low < 2 ^ 63) :
    convert t g a = some r ↔ (a.ty.low ≤ a.ty.high ∧ t.shift ≤ a.ty.shift ∧ a.ty.shift - t.shift < 64 ∧
      -2 ^ 63 ≤ a.ty.high * 2 ^ (a.ty.shift - t.shift).toNat ∧ a.ty.high * 2 ^ (a.ty.shift - t.shift).toNat < 2 ^ 63) ∧
      r = ⟨t, g⟩ := by
  have hle : t.shift ≤ a.ty.shift → fixLe t.shift t.low a.ty.shift a.ty.low = some true := by
    intro h
    have h0 : checkedShiftLeft t.low (t.shift - ctMin t.shift a.ty.shift) = some t.low := by
      have : t.shift - ctMin t.shift a.ty.shift = 0 := by unfold ctMin; rw [if_pos h]; omega
      rw [this]
      simp only [checkedShiftLeft, shl, ck, Int.toNat_zero, pow_zero, mul_one]
      rw [if_pos (by decide), if_pos hlow]
    simp [fixLe, fixCompare, h0]
  have hge : t.shift ≤ a.ty.shift → (fixGe a.ty.shift a.ty.high t.shift t.high = some true ↔
      a.ty.shift - t.shift < 64 ∧ -2 ^ 63 ≤ a.ty.high * 2 ^ (a.ty.shift - t.shift).toNat ∧
        a.ty.high * 2 ^ (a.ty.shift - t.shift).toNat < 2 ^ 63) := by
    intro h
    have hm : ctMin a.ty.shift t.shift = t.shift := by unfold ctMin; split <;> omega
    by_cases hc : a.ty.shift - t.shift < 64 ∧ -2 ^ 63 ≤ a.ty.high * 2 ^ (a.ty.shift - t.shift).toNat ∧
        a.ty.high * 2 ^ (a.ty.shift - t.shift).toNat < 2 ^ 63
    · have h0 : checkedShiftLeft a.ty.high (a.ty.shift - t.shift) =
          some (a.ty.high * 2 ^ (a.ty.shift - t.shift).toNat) := by
        simp only [checkedShiftLeft, shl, ck]
        rw [if_pos ⟨by omega, hc.1⟩, if_pos hc.2]
      simp only [fixGe, fixCompare, hm, h0, iff_true_intro hc, iff_true]
      simp
    · have h0 : checkedShiftLeft a.ty.high (a.ty.shift - t.shift) = none := by
        simp only [checkedShiftLeft, shl, ck]
        by_cases h6 : a.ty.shift - t.shift < 64
        · rw [if_pos ⟨by omega, h6⟩, if_neg (fun h => hc ⟨h6, h⟩)]
        · rw [if_neg (fun h => h6 h.2)]
      simp only [fixGe, fixCompare, hm, h0]
      simp only [Option.bind_none, Option.map_none, reduceCtorEq, false_iff]
      exact hc
  unfold convert
  constructor
  · intro h
    split at h
    · rename_i hc
      obtain ⟨h1, h2, -, h4⟩ := hc
      injection h with h
      exact ⟨⟨h1, h2, (hge h2).1 h4⟩, h.symm⟩
    · cases h
  · rintro ⟨⟨h1, h2, h3⟩, rfl⟩
    rw [if_pos ⟨h1, h2, hle h2, (hge h2).2 h3⟩]

/-- From eighths between 0 and 100 to sixteenths between 5 and 6: accepted. -/
example : convert ⟨-4, 5, 6⟩ 77 ⟨⟨-3, 0, 100⟩, 9⟩ = some ⟨⟨-4, 5, 6⟩, 77⟩ :=
  (C52_convert_iff (by decide)).2 ⟨by decide, rfl⟩

/-- C52: hence a selection between two values returns what the uninitialised member of the chosen temporary held: neither
value has any influence. -/
theorem C52_select_wrong (sel : Bool) (gA gB : ℤ) (a b : Val) (x y : ℤ) (r : Val)
    (h : select sel gA gB a b = some r) : r.val = (if sel then gA else gB) ∧
      select sel gA gB ⟨a.ty, x⟩ ⟨b.ty, y⟩ = some r := by
  refine ⟨?_, h⟩
  simp only [select, Option.bind_eq_some_iff, Option.map_eq_some_iff] at h
  obtain ⟨t, -, u, hu, v, hv, rfl⟩ := h
  simp only [convert] at hu hv
  split at hu
  · split at hv
    · cases hu; cases hv; cases sel <;> rfl
    · cases hv
  · cases hu

/-- Selecting between 3 and 4, both of a type with the range 0 to 7, gives 5 if that was in memory. -/
example : ∃ r, select true 5 6 ⟨⟨0, 0, 7⟩, 3⟩ ⟨⟨0, 0, 7⟩, 4⟩ = some r ∧ r.val = 5 := ⟨⟨⟨0, 0, 7⟩, 5⟩, by decide, rfl⟩

end Thls.Fix
