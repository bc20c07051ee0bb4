import Verif.SpecBig
import Verif.Proofs.CtBig

/-! # C48: compile-time big integers -/

namespace Thls.CtBig
open Spec

theorem limbsValue_aux (l : Limbs) (c : ℕ) : l.foldl (fun acc x => acc * 65536 + x) c = c * 2 ^ (16 * l.length) + value l := by
  induction l generalizing c with
  | nil => simp [value]
  | cons x t ih =>
    rw [List.foldl_cons, ih, value_cons, List.length_cons, show 16 * (t.length + 1) = 16 * t.length + 16 by ring, pow_add]
    ring

theorem limbsValue_eq (l : Limbs) : limbsValue l = value l := by
  rw [limbsValue, limbsValue_aux]; simp

/-- C48: the run-time value of a compile-time number is the integer its limbs spell. -/
theorem C48_value (n : Num) : n.value = numValue n := by
  cases n <;> simp [Num.value, numValue, limbsValue_eq]

/-- C48: comparison of non-negative numbers, with or without leading zero limbs. -/
theorem C48_compare {a b : Limbs} (ha : Limbs16 a) (hb : Limbs16 b) :
    Num.less (.pos a) (.pos b) = some (decide (limbsValue a < limbsValue b)) ∧
    Num.greater (.pos a) (.pos b) = some (decide (limbsValue a > limbsValue b)) ∧
    Num.equals (.pos a) (.pos b) = some (decide (limbsValue a = limbsValue b)) := by
  simp only [limbsValue_eq, Num.less, Num.greater, Num.equals, Option.some.injEq]
  refine ⟨?_, ?_, ?_⟩
  · rw [Bool.eq_iff_iff, less_iff a b ha hb]; simp
  · rw [Bool.eq_iff_iff, less_iff b a hb ha]; simp
  · rw [Bool.eq_iff_iff, equals_iff a b ha hb]; simp

/-- C48: comparison of numbers of any sign, whenever it compiles and no negative zero takes part. Missing: negative
zeros and comparisons of a negative number with `ct_zero`, for which it is false (`C48_negative_zero_wrong`,
`C48_zero_ambiguous`). -/
theorem C48_compare_signed_partial {a b : Num} {x : Bool} (ha : ∀ l, a = .pos l ∨ a = .neg l → Limbs16 l)
    (hb : ∀ l, b = .pos l ∨ b = .neg l → Limbs16 l) (za : ∀ l, a = .neg l → limbsValue l ≠ 0)
    (zb : ∀ l, b = .neg l → limbsValue l ≠ 0) :
    (Num.less a b = some x → (x = true ↔ numValue a < numValue b)) ∧
    (Num.greater a b = some x → (x = true ↔ numValue a > numValue b)) ∧
    (Num.equals a b = some x → (x = true ↔ numValue a = numValue b)) := by
  have key : ∀ {a b : Num} {x : Bool}, (∀ l, a = .pos l ∨ a = .neg l → Limbs16 l) → (∀ l, b = .pos l ∨ b = .neg l → Limbs16 l) →
      (∀ l, a = .neg l → limbsValue l ≠ 0) → (∀ l, b = .neg l → limbsValue l ≠ 0) →
      Num.less a b = some x → (x = true ↔ numValue a < numValue b) := by
    intro a b x ha hb za zb h
    match a, b with
    | .pos a, .pos b =>
      simp only [Num.less, Option.some.injEq] at h; subst h
      rw [less_iff _ _ (ha a (Or.inl rfl)) (hb b (Or.inl rfl))]; simp [numValue, limbsValue_eq]
    | .neg a, .neg b =>
      simp only [Num.less, Option.some.injEq] at h; subst h
      rw [less_iff _ _ (hb b (Or.inr rfl)) (ha a (Or.inr rfl))]; simp [numValue, limbsValue_eq]
    | .neg a, .pos [] => simp [Num.less] at h
    | .neg a, .pos (y :: b) =>
      simp only [Num.less, Option.some.injEq] at h; subst h
      have := za a rfl
      simp only [numValue, true_iff]; omega
    | .pos [], .neg b => simp [Num.less] at h
    | .pos (y :: a), .neg b =>
      simp only [Num.less, Option.some.injEq] at h; subst h
      have := zb b rfl
      simp only [numValue, Bool.false_eq_true, false_iff]; omega
  refine ⟨key ha hb za zb, fun h => key hb ha zb za h, ?_⟩
  intro h
  match a, b with
  | .pos a, .pos b =>
    simp only [Num.equals, Option.some.injEq] at h; subst h
    rw [equals_iff _ _ (ha a (Or.inl rfl)) (hb b (Or.inl rfl))]; simp [numValue, limbsValue_eq]
  | .neg a, .neg b =>
    simp only [Num.equals, Option.some.injEq] at h; subst h
    rw [equals_iff _ _ (hb b (Or.inr rfl)) (ha a (Or.inr rfl))]; simp [numValue, limbsValue_eq]; omega
  | .neg a, .pos [] => simp [Num.equals] at h
  | .neg a, .pos (y :: b) =>
    simp only [Num.equals, Option.some.injEq] at h; subst h
    have := za a rfl
    simp only [numValue, Bool.false_eq_true, false_iff]; omega
  | .pos [], .neg b => simp [Num.equals] at h
  | .pos (y :: a), .neg b =>
    simp only [Num.equals, Option.some.injEq] at h; subst h
    have := zb b rfl
    simp only [numValue, Bool.false_eq_true, false_iff]; omega

/-- C48 is false of negative zero, which is documented to compare equal to zero: it is found less than, and not
equal to, every zero that has limbs. -/
theorem C48_negative_zero_wrong (n m : ℕ) :
    numValue (.neg (zeroLimbs n)) = numValue (.pos (zeroLimbs (m + 1))) ∧
    Num.less (.neg (zeroLimbs n)) (.pos (zeroLimbs (m + 1))) = some true ∧
    Num.equals (.neg (zeroLimbs n)) (.pos (zeroLimbs (m + 1))) = some false := by
  refine ⟨?_, rfl, rfl⟩
  simp [numValue, limbsValue_eq, (zeroLimbs_eq _).1]

/-- C48: comparison of any negative number with `ct_zero` does not compile. -/
theorem C48_zero_ambiguous (l : Limbs) : Num.less (.neg l) (.pos []) = none ∧ Num.less (.pos []) (.neg l) = none ∧
    Num.equals (.neg l) (.pos []) = none ∧ Num.equals (.pos []) (.neg l) = none := ⟨rfl, rfl, rfl, rfl⟩

/-- C48: the limbs of every result are again 16 bits wide. -/
theorem C48_limbs {a b : Limbs} (ha : Limbs16 a) (hb : Limbs16 b) {k : ℕ} (hk : k < 65536) (p : ℕ) :
    Limbs16 (add a b) ∧ Limbs16 (shiftLeft a p) ∧ Limbs16 (shiftRight a p) ∧ Limbs16 (mulSingle a k) := by
  have hp : p % 16 < 16 := Nat.mod_lt _ (by norm_num)
  refine ⟨(add_eq ha hb).1, ?_, ?_, ?_⟩
  · obtain ⟨-, h2, -, h4⟩ := shiftLeftDetail_eq hp _ (shiftLimbsLeft_eq (p / 16) a ha).2.2
    exact canonicalise_small (small_cons (lt_trans h2 (Nat.pow_lt_pow_right (by norm_num) hp)) h4)
  · have := (shiftRightDetail_eq hp _ (shiftLimbsRight_eq (p / 16) a ha).2.2 0 (by positivity)).2.2
    rw [Nat.zero_mul, Nat.zero_mod] at this
    exact canonicalise_small this
  · obtain ⟨-, h2, -, h4⟩ := mulWorker_eq hk a ha
    exact canonicalise_small (small_cons h2 h4)

/-- C48, addition: the sum is exact whenever it fits in the limbs of the longer operand. Missing: sums that need one
more limb, for which it is false (`C48_add_wrong`). -/
theorem C48_add_partial {a b : Limbs} (ha : Limbs16 a) (hb : Limbs16 b)
    (h : limbsValue a + limbsValue b < 65536 ^ max a.length b.length) : limbsValue (add a b) = limbsValue a + limbsValue b := by
  simp only [limbsValue_eq] at h ⊢
  rw [(add_eq ha hb).2]
  apply Nat.mod_eq_of_lt
  rwa [pow_mul]

/-- C48 is false of every sum that needs one more limb: the carry is dropped. -/
theorem C48_add_wrong {a b : Limbs} (ha : Limbs16 a) (hb : Limbs16 b)
    (h : 65536 ^ max a.length b.length ≤ limbsValue a + limbsValue b) :
    limbsValue (add a b) + 65536 ^ max a.length b.length = limbsValue a + limbsValue b := by
  simp only [limbsValue_eq] at h ⊢
  rw [(add_eq ha hb).2, pow_mul]
  have l1 := lt_of_lt_of_le (value_lt ha) (Nat.pow_le_pow_right (by norm_num) (Nat.mul_le_mul_left 16 (le_max_left a.length b.length)))
  have l2 := lt_of_lt_of_le (value_lt hb) (Nat.pow_le_pow_right (by norm_num) (Nat.mul_le_mul_left 16 (le_max_right a.length b.length)))
  rw [pow_mul] at l1 l2
  norm_num at l1 l2 h ⊢
  rw [Nat.mod_eq_sub_mod h, Nat.mod_eq_of_lt (by omega)]
  omega

/-- C48: shifting left multiplies by the power of two, for any number of places. -/
theorem C48_shift_left {a : Limbs} (ha : Limbs16 a) (p : ℕ) : limbsValue (shiftLeft a p) = limbsValue a * 2 ^ p := by
  simp only [limbsValue_eq]
  have hp : p % 16 < 16 := Nat.mod_lt _ (by norm_num)
  obtain ⟨c1, c2, c3⟩ := shiftLimbsLeft_eq (p / 16) a ha
  obtain ⟨h1, -, h3, -⟩ := shiftLeftDetail_eq hp _ c3
  simp only [shiftLeft]
  rw [canonicalise_value, value_cons, h3, h1, c1, Nat.mul_assoc, ← pow_add]
  congr 2
  omega

/-- C48: shifting right divides by the power of two, rounding down, for any number of places. -/
theorem C48_shift_right {a : Limbs} (ha : Limbs16 a) (p : ℕ) : limbsValue (shiftRight a p) = limbsValue a / 2 ^ p := by
  simp only [limbsValue_eq]
  have hp : p % 16 < 16 := Nat.mod_lt _ (by norm_num)
  obtain ⟨c1, c2, c3⟩ := shiftLimbsRight_eq (p / 16) a ha
  have h1 := (shiftRightDetail_eq hp _ c3 0 (by positivity)).1
  rw [Nat.zero_mul, Nat.zero_mod] at h1
  rw [shiftRight, canonicalise_value, h1, c1, Nat.zero_mul, Nat.zero_add, Nat.div_div_eq_div_mul, ← pow_add]
  congr 2
  omega

/-- C48: multiplication by one limb is exact. -/
theorem C48_mul_single {a : Limbs} (ha : Limbs16 a) {k : ℕ} (hk : k < 65536) : limbsValue (mulSingle a k) = limbsValue a * k := by
  simp only [limbsValue_eq]
  obtain ⟨h1, -, h3, -⟩ := mulWorker_eq hk a ha
  rw [mulSingle, canonicalise_value, value_cons, h3, h1]

/-- C48 is false of multiplication: no product by a number with limbs compiles. -/
theorem C48_mul_wrong (a : Limbs) (x : ℕ) (b : Limbs) : mul a (x :: b) = none ∧ mul a [] = some [] := ⟨rfl, rfl⟩

/-- C48: shifts of a number without leading zero limbs have none either. -/
theorem C48_shift_canonical {a : Limbs} (ha : Limbs16 a) (hc : a.head? ≠ some 0) (p : ℕ) :
    (a ≠ [] → (shiftLeft a p).head? ≠ some 0) ∧ (shiftRight a p).head? ≠ some 0 := by
  have hp : p % 16 < 16 := Nat.mod_lt _ (by norm_num)
  constructor
  · intro hne
    obtain ⟨c1, c2, c3⟩ := shiftLimbsLeft_eq (p / 16) a ha
    obtain ⟨h1, -, h3, h4⟩ := shiftLeftDetail_eq hp _ c3
    simp only [shiftLeft]
    refine canonicalise_canonical h4 ?_
    intro h0
    right
    rw [h0, Nat.zero_mul, Nat.zero_add] at h1
    rw [h1, h3, c2, c1]
    have hv := ((canonical_iff ha).mp hc).resolve_left hne
    have hl : 1 ≤ a.length := List.length_pos_iff.mpr hne
    have e : 2 ^ (16 * (a.length + p / 16 - 1)) = 2 ^ (16 * (a.length - 1)) * 2 ^ (16 * (p / 16)) := by rw [← pow_add]; congr 1; omega
    rw [e]
    calc 2 ^ (16 * (a.length - 1)) * 2 ^ (16 * (p / 16)) ≤ value a * 2 ^ (16 * (p / 16)) := Nat.mul_le_mul_right _ hv
      _ ≤ value a * 2 ^ (16 * (p / 16)) * 2 ^ (p % 16) := Nat.le_mul_of_pos_right _ (by positivity)
  · obtain ⟨c1, c2, c3⟩ := shiftLimbsRight_eq (p / 16) a ha
    obtain ⟨h1, h2, h3⟩ := shiftRightDetail_eq hp _ c3 0 (by positivity)
    rw [Nat.zero_mul, Nat.zero_mod] at h1 h2 h3
    rw [Nat.zero_mul, Nat.zero_add] at h1
    rw [shiftRight]
    cases hs : shiftRightDetail (p % 16) 0 (shiftLimbsRight (p / 16) a) with
    | nil => simp [canonicalise]
    | cons x t =>
      rw [hs] at h1 h2 h3
      refine canonicalise_canonical h3.tail ?_
      rintro rfl
      rcases Nat.eq_zero_or_pos t.length with h0 | hpos
      · exact Or.inl (List.length_eq_zero_iff.mp h0)
      · right
        rw [value_cons, Nat.zero_mul, Nat.zero_add] at h1
        rw [h1, c1, Nat.div_div_eq_div_mul, ← pow_add, Nat.le_div_iff_mul_le (by positivity), ← pow_add]
        have hne : a ≠ [] := by rintro rfl; simp [shiftLimbsRight, shiftRightDetail] at hs
        refine le_trans (Nat.pow_le_pow_right (by norm_num) ?_) (((canonical_iff ha).mp hc).resolve_left hne)
        rw [List.length_cons, c2] at h2
        omega

/-- C48 is false of canonical form otherwise: a left shift of zero keeps all but one of the zero limbs it adds, and
a product with zero has as many zero limbs as the other operand. -/
theorem C48_canonical_wrong (n : ℕ) (l : Limbs) (hl : l ≠ []) :
    shiftLeft [] (16 * n) = zeroLimbs n ∧ (mulSingle l 0) = zeroLimbs l.length ∧ (zeroLimbs l.length).head? = some 0 := by
  have hz : ∀ n, shiftLeftDetail 0 (zeroLimbs n) = (0, zeroLimbs n) := by
    intro n
    induction n with
    | zero => rfl
    | succ n ih => simp [zeroLimbs, shiftLeftDetail, ih]
  have hm : ∀ l : Limbs, mulWorker 0 l = (0, zeroLimbs l.length) := by
    intro l
    induction l with
    | nil => rfl
    | cons x t ih => simp [zeroLimbs, mulWorker, ih]
  refine ⟨?_, ?_, ?_⟩
  · simp only [shiftLeft, Nat.mul_mod_right, shiftLimbsLeft, Nat.mul_div_cancel_left n (show 0 < 16 by norm_num), hz]
    rfl
  · simp only [mulSingle, hm]; rfl
  · cases l with
    | nil => exact absurd rfl hl
    | cons x t => rfl

/-- C48 is false of the range of limbs: the limb 65535 is rejected, so the number 65535, for one, cannot be written
with any number of leading zero limbs. -/
theorem C48_limb_wrong {l : Limbs} (hl : Limbs16 l) (h : limbsValue l = 65535) : accepted l = false := by
  rw [limbsValue_eq] at h
  induction l with
  | nil => simp [value] at h
  | cons x t ih =>
    rw [value_cons] at h
    rcases Nat.eq_zero_or_pos x with rfl | hx
    · have := ih (fun y hy => hl y (by simp [hy])) (by simpa using h)
      unfold accepted at this ⊢
      rw [List.all_cons, this, Bool.and_false]
    · rcases Nat.eq_zero_or_pos t.length with h0 | hp
      · have := List.length_eq_zero_iff.mp h0; subst this
        simp only [value, List.length_nil, Nat.mul_zero, pow_zero, Nat.mul_one, Nat.add_zero] at h
        subst h; rfl
      · exfalso
        have h1 : 2 ^ 16 ≤ 2 ^ (16 * t.length) := Nat.pow_le_pow_right (by norm_num) (by omega)
        have h2 : 1 * 2 ^ (16 * t.length) ≤ x * 2 ^ (16 * t.length) := Nat.mul_le_mul_right _ hx
        norm_num at h1
        omega

theorem hexDigit_hexChar {d : ℕ} (h : d < 16) : hexDigit (hexChar d) = d := by
  have : ∀ d : Fin 16, hexDigit (hexChar d.val) = d.val := by decide
  exact this ⟨d, h⟩

theorem hexValue_hex4 {x : ℕ} (hx : x < 65536) (c : ℕ) :
    (hex4 x).foldl (fun acc c => acc * 16 + hexDigit c) c = c * 2 ^ 16 + x := by
  simp only [hex4, List.foldl_cons, List.foldl_nil]
  rw [hexDigit_hexChar (Nat.mod_lt _ (by norm_num)), hexDigit_hexChar (Nat.mod_lt _ (by norm_num)),
    hexDigit_hexChar (Nat.mod_lt _ (by norm_num)), hexDigit_hexChar (Nat.mod_lt _ (by norm_num))]
  omega

theorem hexValue_hex {x : ℕ} (hx : x < 65536) : (hex x).foldl (fun acc c => acc * 16 + hexDigit c) 0 = x := by
  unfold hex
  split_ifs
  · simp only [List.foldl_cons, List.foldl_nil]
    rw [hexDigit_hexChar (Nat.mod_lt _ (by norm_num))]; omega
  · simp only [List.foldl_cons, List.foldl_nil]
    rw [hexDigit_hexChar (Nat.mod_lt _ (by norm_num)), hexDigit_hexChar (Nat.mod_lt _ (by norm_num))]; omega
  · simp only [List.foldl_cons, List.foldl_nil]
    rw [hexDigit_hexChar (Nat.mod_lt _ (by norm_num)), hexDigit_hexChar (Nat.mod_lt _ (by norm_num)),
      hexDigit_hexChar (Nat.mod_lt _ (by norm_num))]; omega
  · rw [hexValue_hex4 hx]; simp

theorem hexValue_interior (l : Limbs) (h : Limbs16 l) (c : ℕ) :
    (printInterior l).foldl (fun acc c => acc * 16 + hexDigit c) c = c * 2 ^ (16 * l.length) + value l := by
  induction l generalizing c with
  | nil => simp [printInterior, value]
  | cons x t ih =>
    rw [printInterior, List.foldl_append, hexValue_hex4 (h x (by simp)), ih (fun y hy => h y (by simp [hy])), value_cons,
      List.length_cons, Nat.mul_succ, pow_add]
    ring

/-- C48: the text a number prints as is a C-style literal denoting its magnitude, after a minus sign for a negative
number. -/
theorem C48_print {l : Limbs} (h : Limbs16 l) :
    literalValue (Num.print (.pos l)) = some (limbsValue l) ∧
    ∃ s, Num.print (.neg l) = '-' :: s ∧ literalValue s = some (limbsValue l) := by
  have key : literalValue (print l) = some (limbsValue l) := by
    rw [limbsValue_eq]
    cases l with
    | nil => rfl
    | cons x t =>
      rw [print]
      simp only [literalValue, hexValue, Option.some.injEq]
      rw [List.foldl_append, hexValue_hex (h x (by simp)), hexValue_interior t (fun y hy => h y (by simp [hy])), value_cons]
  exact ⟨key, _, rfl, key⟩

/-- Three limbs and one limb; a carry between limbs; a shift across limbs. -/
example : limbsValue (add [1, 65000, 40000] [30000]) = limbsValue [1, 65000, 40000] + limbsValue [30000] :=
  C48_add_partial (by simp [Limbs16]) (by simp [Limbs16]) (by decide)
example : add [1, 65000, 40000] [30000] = [1, 65001, 4464] := by decide +kernel
example : shiftLeft [1, 65000, 40000] 21 = [63, 48403, 34816, 0] := by decide +kernel
example : shiftRight [1, 65000, 40000] 21 = [4079] := by decide +kernel
example : Num.print (.neg [1, 65000, 40000]) = "-0x1fde89c40".toList := by decide +kernel

end Thls.CtBig
