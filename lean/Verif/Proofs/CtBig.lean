import Verif.Model.CtBig
import Verif.Model.Bits
import Mathlib.Data.Nat.Bitwise
import Mathlib.Tactic.Ring
import Mathlib.Tactic.Linarith
import Mathlib.Tactic.LinearCombination
import Mathlib.Tactic.Positivity

/-! # Lemmas about compile-time big integers -/

namespace Thls.CtBig

/-- Every limb fits in 16 bits. -/
def Small (l : Limbs) : Prop := ∀ x ∈ l, x < 2 ^ 16

theorem Small.tail {x : ℕ} {l : Limbs} (h : Small (x :: l)) : Small l := fun y hy => h y (by simp [hy])
theorem Small.head {x : ℕ} {l : Limbs} (h : Small (x :: l)) : x < 2 ^ 16 := h x (by simp)

theorem value_cons (x : ℕ) (l : Limbs) : value (x :: l) = x * 2 ^ (16 * l.length) + value l := rfl

theorem value_lt {l : Limbs} (h : Small l) : value l < 2 ^ (16 * l.length) := by
  induction l with
  | nil => simp [value]
  | cons x t ih =>
    have h1 := ih h.tail
    have h2 : x + 1 ≤ 2 ^ 16 := h.head
    rw [value_cons, List.length_cons, Nat.mul_succ, pow_add]
    have := Nat.mul_le_mul_right (2 ^ (16 * t.length)) h2
    linarith

theorem isPos_iff (l : Limbs) : isPos l = true ↔ 0 < value l := by
  induction l with
  | nil => simp [isPos, value]
  | cons x t ih =>
    rw [isPos, value_cons, Bool.or_eq_true, ih]
    have : 0 < 2 ^ (16 * t.length) := by positivity
    rcases Nat.eq_zero_or_pos x with rfl | hx
    · simp
    · have := Nat.mul_pos hx this
      simp [hx]

theorem isZero_iff (l : Limbs) : isZero l = true ↔ value l = 0 := by
  induction l with
  | nil => simp [isZero, value]
  | cons x t ih =>
    rw [isZero, value_cons, Bool.and_eq_true, ih]
    simp

theorem less_iff (a b : Limbs) (ha : Small a) (hb : Small b) : less a b = true ↔ value a < value b := by
  induction h : a.length + b.length using Nat.strong_induction_on generalizing a b with
  | _ n ih =>
  match a, b with
  | [], [] => simp [less, value]
  | [], y :: b => rw [less]; rw [isPos_iff]; simp [value]; simp
  | x :: a, [] => simp [less, value]
  | x :: a, y :: b =>
    rw [less]
    have la := value_lt ha.tail
    have lb := value_lt hb.tail
    have la' := value_lt ha
    have lb' := value_lt hb
    simp only [List.length_cons] at h la' lb'
    unfold digits
    by_cases h1 : a.length > b.length
    · rw [if_pos h1]
      by_cases hx : x = 0
      · subst hx
        rw [if_neg (by simp), ih (a.length + (y :: b).length) (by simp only [List.length_cons]; omega) a (y :: b) ha.tail hb rfl, value_cons 0]
        simp
      · rw [if_pos hx]
        have : 2 ^ (16 * (b.length + 1)) ≤ 2 ^ (16 * a.length) := Nat.pow_le_pow_right (by norm_num) (by omega)
        have h2 : 1 * 2 ^ (16 * a.length) ≤ x * 2 ^ (16 * a.length) := Nat.mul_le_mul_right _ (by omega)
        rw [value_cons x]
        simp; omega
    · rw [if_neg h1]
      by_cases h2 : a.length < b.length
      · rw [if_pos h2]
        by_cases hy : y = 0
        · subst hy
          rw [if_neg (by simp), ih ((x :: a).length + b.length) (by simp only [List.length_cons]; omega) (x :: a) b ha hb.tail rfl, value_cons 0]
          simp
        · rw [if_pos hy]
          have : 2 ^ (16 * (a.length + 1)) ≤ 2 ^ (16 * b.length) := Nat.pow_le_pow_right (by norm_num) (by omega)
          have h2 : 1 * 2 ^ (16 * b.length) ≤ y * 2 ^ (16 * b.length) := Nat.mul_le_mul_right _ (by omega)
          rw [value_cons y]
          simp; omega
      · rw [if_neg h2]
        have e : a.length = b.length := by omega
        rw [value_cons, value_cons, e]
        rw [e] at la
        by_cases hxy : x = y
        · subst hxy
          rw [if_neg (by simp), ih (a.length + b.length) (by omega) a b ha.tail hb.tail rfl]
          omega
        · rw [if_pos hxy, decide_eq_true_iff]
          constructor
          · intro hlt
            have := Nat.mul_le_mul_right (2 ^ (16 * b.length)) (show x + 1 ≤ y from hlt)
            linarith
          · intro hlt
            by_contra hc
            have := Nat.mul_le_mul_right (2 ^ (16 * b.length)) (show y + 1 ≤ x by omega)
            linarith

theorem equals_iff (a b : Limbs) (ha : Small a) (hb : Small b) : equals a b = true ↔ value a = value b := by
  induction h : a.length + b.length using Nat.strong_induction_on generalizing a b with
  | _ n ih =>
  match a, b with
  | [], [] => simp [equals, value]
  | [], y :: b => rw [equals]; rw [isZero_iff]; simp only [value]; omega; simp
  | x :: a, [] => rw [equals, isZero_iff]; simp [value]
  | x :: a, y :: b =>
    rw [equals]
    have la := value_lt ha.tail
    have lb := value_lt hb.tail
    have la' := value_lt ha
    have lb' := value_lt hb
    simp only [List.length_cons] at h la' lb'
    unfold digits
    by_cases h1 : a.length > b.length
    · rw [if_pos h1]
      by_cases hx : x = 0
      · subst hx
        rw [if_neg (by simp), ih (a.length + (y :: b).length) (by simp only [List.length_cons]; omega) a (y :: b) ha.tail hb rfl, value_cons 0]
        simp
      · rw [if_pos hx]
        have : 2 ^ (16 * (b.length + 1)) ≤ 2 ^ (16 * a.length) := Nat.pow_le_pow_right (by norm_num) (by omega)
        have h2 : 1 * 2 ^ (16 * a.length) ≤ x * 2 ^ (16 * a.length) := Nat.mul_le_mul_right _ (by omega)
        rw [value_cons x]
        simp; omega
    · rw [if_neg h1]
      by_cases h2 : a.length < b.length
      · rw [if_pos h2]
        by_cases hy : y = 0
        · subst hy
          rw [if_neg (by simp), ih ((x :: a).length + b.length) (by simp only [List.length_cons]; omega) (x :: a) b ha hb.tail rfl, value_cons 0]
          simp
        · rw [if_pos hy]
          have : 2 ^ (16 * (a.length + 1)) ≤ 2 ^ (16 * b.length) := Nat.pow_le_pow_right (by norm_num) (by omega)
          have h2 : 1 * 2 ^ (16 * b.length) ≤ y * 2 ^ (16 * b.length) := Nat.mul_le_mul_right _ (by omega)
          rw [value_cons y]
          simp; omega
      · rw [if_neg h2]
        have e : a.length = b.length := by omega
        rw [value_cons, value_cons, e]
        rw [e] at la
        by_cases hxy : x = y
        · subst hxy
          rw [if_neg (by simp), ih (a.length + b.length) (by omega) a b ha.tail hb.tail rfl]
          omega
        · rw [if_pos hxy]
          simp only [Bool.false_eq_true, false_iff]
          intro heq
          rcases Nat.lt_or_gt_of_ne hxy with hlt | hlt
          · have := Nat.mul_le_mul_right (2 ^ (16 * b.length)) (show x + 1 ≤ y from hlt)
            linarith
          · have := Nat.mul_le_mul_right (2 ^ (16 * b.length)) (show y + 1 ≤ x from hlt)
            linarith

theorem zeroLimbs_eq (n : ℕ) : value (zeroLimbs n) = 0 ∧ (zeroLimbs n).length = n ∧ Small (zeroLimbs n) := by
  induction n with
  | zero => exact ⟨rfl, rfl, by simp [zeroLimbs, Small]⟩
  | succ n ih =>
    refine ⟨by rw [zeroLimbs, value_cons, ih.1]; simp, by simp [zeroLimbs, ih.2.1], ?_⟩
    intro x hx
    rw [zeroLimbs, List.mem_cons] at hx
    rcases hx with rfl | hx
    · norm_num
    · exact ih.2.2 x hx

theorem ensureWorker_eq (l : Limbs) (n : ℕ) (h : Small l) :
    value (ensureWorker l n) = value l ∧ (ensureWorker l n).length = l.length + n ∧ Small (ensureWorker l n) := by
  induction n with
  | zero => exact ⟨rfl, rfl, h⟩
  | succ n ih =>
    refine ⟨by rw [ensureWorker, value_cons, ih.1]; simp, by simp [ensureWorker, ih.2.1]; omega, ?_⟩
    intro x hx
    rw [ensureWorker, List.mem_cons] at hx
    rcases hx with rfl | hx
    · norm_num
    · exact ih.2.2 x hx

theorem ensureDigits_eq (l : Limbs) (n : ℕ) (h : Small l) (hn : l.length ≤ n) :
    value (ensureDigits l n) = value l ∧ (ensureDigits l n).length = n ∧ Small (ensureDigits l n) := by
  unfold ensureDigits digits
  obtain ⟨h1, h2, h3⟩ := ensureWorker_eq l (if n > l.length then n - l.length else 0) h
  refine ⟨h1, ?_, h3⟩
  rw [h2]; split_ifs <;> omega

theorem canonicalise_value (l : Limbs) : value (canonicalise l) = value l := by
  unfold canonicalise
  split
  · rw [value_cons]; simp
  · rfl

theorem canonicalise_small {l : Limbs} (h : Small l) : Small (canonicalise l) := by
  unfold canonicalise
  split
  · exact h.tail
  · exact h

theorem small_cons {x : ℕ} {l : Limbs} (hx : x < 2 ^ 16) (h : Small l) : Small (x :: l) := by
  intro y hy
  rw [List.mem_cons] at hy
  rcases hy with rfl | hy
  · exact hx
  · exact h y hy

theorem addWorker_eq : ∀ (a b : Limbs), a.length = b.length → Small a → Small b →
    (addWorker a b).1 * 2 ^ (16 * a.length) + value (addWorker a b).2 = value a + value b ∧ (addWorker a b).1 ≤ 1 ∧
    (addWorker a b).2.length = a.length ∧ Small (addWorker a b).2
  | [], [], _, _, _ => by simp [addWorker, value, Small]
  | [], _ :: _, h, _, _ => by simp at h
  | _ :: _, [], h, _, _ => by simp at h
  | x :: a, y :: b, h, ha, hb => by
    have hl : a.length = b.length := by simpa using h
    obtain ⟨i1, i2, i3, i4⟩ := addWorker_eq a b hl ha.tail hb.tail
    simp only [addWorker]
    set c := (addWorker a b).1
    set l := (addWorker a b).2
    have hx := ha.head
    have hy := hb.head
    have hd := Nat.div_add_mod (c + x + y) (2 ^ 16)
    refine ⟨?_, by omega, by simp [i3], small_cons (Nat.mod_lt _ (by norm_num)) i4⟩
    rw [value_cons, value_cons, value_cons, List.length_cons, i3, ← hl, Nat.mul_succ, pow_add]
    set q := (c + x + y) / 2 ^ 16
    set r := (c + x + y) % 2 ^ 16
    zify at i1 hd ⊢
    linear_combination i1 + (2 ^ (16 * a.length) : ℤ) * hd

theorem addDigits_eq (a b : Limbs) : (if 1 + digits a > digits b then digits a else digits b) = max a.length b.length := by
  unfold digits; split_ifs <;> omega

theorem add_eq {a b : Limbs} (ha : Small a) (hb : Small b) : Small (add a b) ∧
    value (add a b) = (value a + value b) % 2 ^ (16 * max a.length b.length) := by
  unfold add
  by_cases h1 : a = []
  · subst h1
    rw [if_pos rfl]
    refine ⟨hb, ?_⟩
    simp only [value, List.length_nil, zero_add, Nat.zero_le, max_eq_right]
    exact (Nat.mod_eq_of_lt (value_lt hb)).symm
  · rw [if_neg h1]
    by_cases h2 : b = []
    · subst h2
      rw [if_pos rfl]
      refine ⟨ha, ?_⟩
      simp only [value, List.length_nil, add_zero, Nat.zero_le, max_eq_left]
      exact (Nat.mod_eq_of_lt (value_lt ha)).symm
    · rw [if_neg h2]
      simp only [addDigits_eq]
      obtain ⟨e1, e2, e3⟩ := ensureDigits_eq a (max a.length b.length) ha (le_max_left _ _)
      obtain ⟨f1, f2, f3⟩ := ensureDigits_eq b (max a.length b.length) hb (le_max_right _ _)
      obtain ⟨g1, g2, g3, g4⟩ := addWorker_eq _ _ (e2.trans f2.symm) e3 f3
      refine ⟨canonicalise_small g4, ?_⟩
      rw [canonicalise_value]
      have := value_lt g4
      rw [g3, e2] at this
      rw [e1, f1, e2] at g1
      rw [← g1, Nat.add_comm, Nat.add_mul_mod_self_right, Nat.mod_eq_of_lt this]

theorem shiftLimbsLeft_eq (n : ℕ) (l : Limbs) (h : Small l) :
    value (shiftLimbsLeft n l) = value l * 2 ^ (16 * n) ∧ (shiftLimbsLeft n l).length = l.length + n ∧ Small (shiftLimbsLeft n l) := by
  induction l with
  | nil => rw [shiftLimbsLeft]; obtain ⟨h1, h2, h3⟩ := zeroLimbs_eq n; exact ⟨by rw [h1]; simp [value], by simp [h2], h3⟩
  | cons x t ih =>
    obtain ⟨h1, h2, h3⟩ := ih h.tail
    refine ⟨?_, by simp [shiftLimbsLeft, h2]; omega, small_cons h.head h3⟩
    rw [shiftLimbsLeft, value_cons, value_cons, h1, h2, Nat.mul_add, pow_add]; ring

theorem shiftLimbsRight_eq (n : ℕ) (l : Limbs) (h : Small l) :
    value (shiftLimbsRight n l) = value l / 2 ^ (16 * n) ∧ (shiftLimbsRight n l).length = l.length - n ∧ Small (shiftLimbsRight n l) := by
  induction l with
  | nil => simp [shiftLimbsRight, value, Small]
  | cons x t ih =>
    obtain ⟨h1, h2, h3⟩ := ih h.tail
    rw [shiftLimbsRight]
    unfold digits
    split_ifs with hn
    · refine ⟨?_, by simp [h2]; omega, small_cons h.head h3⟩
      rw [value_cons, value_cons, h1, h2]
      have e : 2 ^ (16 * t.length) = 2 ^ (16 * (t.length - n)) * 2 ^ (16 * n) := by rw [← pow_add]; congr 1; omega
      rw [e, ← Nat.mul_assoc, Nat.add_comm, Nat.add_comm _ (value t), Nat.add_mul_div_right _ _ (by positivity)]
    · refine ⟨?_, by simp; omega, by simp [Small]⟩
      have := value_lt h
      have h2 : 2 ^ (16 * (x :: t).length) ≤ 2 ^ (16 * n) := Nat.pow_le_pow_right (by norm_num) (by simp only [List.length_cons]; omega)
      rw [Nat.div_eq_of_lt (by omega)]; rfl

theorem or_disjoint {a b p : ℕ} (h : b < 2 ^ p) : (a * 2 ^ p) ||| b = a * 2 ^ p + b := by
  rw [Nat.mul_comm, Nat.two_pow_add_eq_or_of_lt h]

theorem shiftLeftDetail_eq {p : ℕ} (hp : p < 16) (l : Limbs) (h : Small l) :
    (shiftLeftDetail p l).1 * 2 ^ (16 * l.length) + value (shiftLeftDetail p l).2 = value l * 2 ^ p ∧
    (shiftLeftDetail p l).1 < 2 ^ p ∧ (shiftLeftDetail p l).2.length = l.length ∧ Small (shiftLeftDetail p l).2 := by
  induction l with
  | nil => simp [shiftLeftDetail, value, Small]
  | cons x t ih =>
    obtain ⟨h1, h2, h3, h4⟩ := ih h.tail
    simp only [shiftLeftDetail]
    set c := (shiftLeftDetail p t).1
    set l' := (shiftLeftDetail p t).2
    have e : 2 ^ 16 = 2 ^ (16 - p) * 2 ^ p := by rw [← pow_add]; congr 1; omega
    have hor : (c ||| x * 2 ^ p) = c + x * 2 ^ p := by rw [Nat.or_comm, or_disjoint h2, Nat.add_comm]
    have hx := h.head
    -- the limb is the low part of the shifted limb plus the carry
    have hmod : (c + x * 2 ^ p) % 2 ^ 16 = c + (x % 2 ^ (16 - p)) * 2 ^ p := by
      have hb : x % 2 ^ (16 - p) + 1 ≤ 2 ^ (16 - p) := Nat.mod_lt _ (by positivity)
      have := Nat.mul_le_mul_right (2 ^ p) hb
      have hlt : c + (x % 2 ^ (16 - p)) * 2 ^ p < 2 ^ 16 := by rw [e]; linarith
      have hd := Nat.div_add_mod x (2 ^ (16 - p))
      have : c + x * 2 ^ p = c + (x % 2 ^ (16 - p)) * 2 ^ p + (x / 2 ^ (16 - p)) * 2 ^ 16 := by
        rw [e]
        conv_lhs => rw [← hd]
        ring
      rw [this, Nat.add_mul_mod_self_right, Nat.mod_eq_of_lt hlt]
    refine ⟨?_, ?_, by simp [h3], small_cons (Nat.mod_lt _ (by norm_num)) h4⟩
    · rw [value_cons, value_cons, hor, hmod, h3, List.length_cons, Nat.mul_succ, pow_add, e]
      have hd := Nat.div_add_mod x (2 ^ (16 - p))
      set q := x / 2 ^ (16 - p)
      set r := x % 2 ^ (16 - p)
      zify at h1 hd ⊢
      linear_combination h1 + (2 ^ (16 * t.length) * 2 ^ p : ℤ) * hd
    · rw [Nat.div_lt_iff_lt_mul (by positivity), Nat.mul_comm, ← e]; exact hx

theorem shiftRightDetail_eq {p : ℕ} (hp : p < 16) (l : Limbs) (h : Small l) (c : ℕ) (hc : c < 2 ^ p) :
    value (shiftRightDetail p (c * 2 ^ (16 - p) % 2 ^ 16) l) = (c * 2 ^ (16 * l.length) + value l) / 2 ^ p ∧
    (shiftRightDetail p (c * 2 ^ (16 - p) % 2 ^ 16) l).length = l.length ∧ Small (shiftRightDetail p (c * 2 ^ (16 - p) % 2 ^ 16) l) := by
  induction l generalizing c with
  | nil => refine ⟨?_, rfl, by simp [shiftRightDetail, Small]⟩; simp [shiftRightDetail, value, Nat.div_eq_of_lt hc]
  | cons x t ih =>
    have e : 2 ^ 16 = 2 ^ (16 - p) * 2 ^ p := by rw [← pow_add]; congr 1; omega
    have hx := h.head
    have hcl : c * 2 ^ (16 - p) < 2 ^ 16 := by
      rw [e, Nat.mul_comm]; exact Nat.mul_lt_mul_of_pos_left hc (by positivity)
    have hxp : x / 2 ^ p < 2 ^ (16 - p) := by rw [Nat.div_lt_iff_lt_mul (by positivity), ← e]; exact hx
    have hcarry : x * 2 ^ (16 - p) % 2 ^ 16 = (x % 2 ^ p) * 2 ^ (16 - p) % 2 ^ 16 := by
      have hd := Nat.div_add_mod x (2 ^ p)
      have : x * 2 ^ (16 - p) = x % 2 ^ p * 2 ^ (16 - p) + (x / 2 ^ p) * 2 ^ 16 := by
        rw [e]; conv_lhs => rw [← hd]
        ring
      rw [this, Nat.add_mul_mod_self_right]
    obtain ⟨h1, h2, h3⟩ := ih h.tail (x % 2 ^ p) (Nat.mod_lt _ (by positivity))
    have hlimb : c * 2 ^ (16 - p) % 2 ^ 16 ||| x / 2 ^ p = c * 2 ^ (16 - p) + x / 2 ^ p := by
      rw [Nat.mod_eq_of_lt hcl, or_disjoint hxp]
    rw [shiftRightDetail, hcarry, hlimb]
    refine ⟨?_, by rw [List.length_cons, List.length_cons, h2], small_cons ?_ h3⟩
    · rw [value_cons, h1, h2, value_cons, List.length_cons, Nat.mul_succ, pow_add, e]
      have hd := Nat.div_add_mod x (2 ^ p)
      have : c * (2 ^ (16 * t.length) * (2 ^ (16 - p) * 2 ^ p)) + (x * 2 ^ (16 * t.length) + value t) =
          (x % 2 ^ p * 2 ^ (16 * t.length) + value t) + ((c * 2 ^ (16 - p) + x / 2 ^ p) * 2 ^ (16 * t.length)) * 2 ^ p := by
        conv_lhs => rw [← hd]
        ring
      rw [this, Nat.add_mul_div_right _ _ (by positivity), Nat.add_comm]
    · have := Nat.mul_le_mul_right (2 ^ (16 - p)) (show c + 1 ≤ 2 ^ p from hc)
      rw [e, Nat.mul_comm (2 ^ (16 - p))]; linarith

theorem mulWorker_eq {b : ℕ} (hb : b < 2 ^ 16) (a : Limbs) (h : Small a) :
    (mulWorker b a).1 * 2 ^ (16 * a.length) + value (mulWorker b a).2 = value a * b ∧ (mulWorker b a).1 < 2 ^ 16 ∧
    (mulWorker b a).2.length = a.length ∧ Small (mulWorker b a).2 := by
  induction a with
  | nil => simp [mulWorker, value, Small]
  | cons x t ih =>
    obtain ⟨h1, h2, h3, h4⟩ := ih h.tail
    simp only [mulWorker]
    set c := (mulWorker b t).1
    set l := (mulWorker b t).2
    have hx := h.head
    have hxb : x * b ≤ (2 ^ 16 - 1) * (2 ^ 16 - 1) := Nat.mul_le_mul (by omega) (by omega)
    have m1 : x * b % 2 ^ 32 = x * b := Nat.mod_eq_of_lt (lt_of_le_of_lt hxb (by norm_num))
    have m2 : (x * b + c) % 2 ^ 32 = x * b + c := Nat.mod_eq_of_lt (by
      have : (2 ^ 16 - 1) * (2 ^ 16 - 1) + 2 ^ 16 ≤ 2 ^ 32 := by norm_num
      omega)
    rw [m1, m2]
    have hd := Nat.div_add_mod (x * b + c) (2 ^ 16)
    refine ⟨?_, ?_, by simp [h3], small_cons (Nat.mod_lt _ (by norm_num)) h4⟩
    · rw [value_cons, value_cons, List.length_cons, h3, Nat.mul_succ, pow_add]
      set q := (x * b + c) / 2 ^ 16
      set r := (x * b + c) % 2 ^ 16
      zify at h1 hd ⊢
      linear_combination h1 + (2 ^ (16 * t.length) : ℤ) * hd
    · rw [Nat.div_lt_iff_lt_mul (by norm_num)]
      have : (2 ^ 16 - 1) * (2 ^ 16 - 1) + 2 ^ 16 ≤ 2 ^ 16 * 2 ^ 16 := by norm_num
      omega

/-- No leading zero limb. -/
def Canonical (l : Limbs) : Prop := l.head? ≠ some 0

/-- A canonical chain of `n` limbs is one whose value needs `n` limbs. -/
theorem canonical_iff {l : Limbs} (h : Small l) : Canonical l ↔ (l = [] ∨ 2 ^ (16 * (l.length - 1)) ≤ value l) := by
  cases l with
  | nil => simp [Canonical]
  | cons x t =>
    have := value_lt h.tail
    have hp : 0 < 2 ^ (16 * t.length) := by positivity
    simp only [Canonical, List.head?_cons, ne_eq, Option.some.injEq, reduceCtorEq, false_or, List.length_cons, Nat.add_sub_cancel, value_cons]
    constructor
    · intro hx
      have := Nat.mul_le_mul_right (2 ^ (16 * t.length)) (show 1 ≤ x by omega)
      omega
    · rintro h1 rfl
      omega

/-- Dropping one zero limb is enough when the rest is canonical. -/
theorem canonicalise_canonical {x : ℕ} {l : Limbs} (hs : Small l) (h : x = 0 → l = [] ∨ 2 ^ (16 * (l.length - 1)) ≤ value l) :
    Canonical (canonicalise (x :: l)) := by
  unfold canonicalise
  split
  · rename_i t heq
    cases heq
    exact (canonical_iff hs).mpr (h rfl)
  · rename_i h'
    simp only [Canonical, List.head?_cons, ne_eq, Option.some.injEq]
    rintro rfl
    exact h' l rfl

end Thls.CtBig
