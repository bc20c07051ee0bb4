import Verif.Model.DebugTest
import Verif.Props.FwUint
import Verif.Props.OpTest
import Verif.Props.OpInput
import Verif.Props.ExactOps

/-! # C98: the tests of the word type, and the debugging programs -/

namespace Thls
open Spec DebugTest

/-! ## test_bits -/

theorem shiftLoop_passes {W : ℕ} (h2 : 2 ≤ W) (hW : W ≤ 128) (n i : ℕ) (hi : i + n ≤ W) :
    shiftLoop W n i (2 ^ i % 2 ^ W) = some true := by
  induction n generalizing i with
  | zero => rfl
  | succ n ih =>
    have hlt : 2 ^ i < 2 ^ W := Nat.pow_lt_pow_right (by norm_num) (by omega)
    have h1 : (1 : ℤ) < 2 ^ W := by
      calc (1 : ℤ) < 2 ^ 2 := by norm_num
        _ ≤ 2 ^ W := pow_le_pow_right₀ (by norm_num) h2
    have hm : Masked.ofMpz W (2 ^ i) = some (2 ^ i) := by
      have := C04_mpz_round_trip (W := W) (by omega) hW hlt
      rwa [C04_to_mpz hlt] at this
    have hs : Masked.shl W (2 ^ i) 1 = some (2 ^ (i + 1) % 2 ^ W) := by
      have := C01_shl (W := W) (a := 2 ^ i) (d := 1) hW (by omega)
      simpa [pow_succ] using this
    rw [Nat.mod_eq_of_lt hlt, shiftLoop, Masked.ofInt_eq hW (by norm_num) h1, C01_shr hW hlt (by omega), Nat.div_self (by positivity),
      C04_to_mpz hlt, hm, hs]
    have he : Masked.eq 1 1 = some 1 := by decide
    simp [assertBit, assertBool, he, ih (i + 1) (by omega)]

theorem doubleLoop_passes {W : ℕ} (h1W : 1 ≤ W) (hW : W ≤ 128) (n i : ℕ) (hi : i + n ≤ W) :
    doubleLoop W n i (2 ^ i % 2 ^ W) = some true := by
  induction n generalizing i with
  | zero => rfl
  | succ n ih =>
    have hlt : 2 ^ i < 2 ^ W := Nat.pow_lt_pow_right (by norm_num) (by omega)
    have h1 : (1 : ℤ) < 2 ^ W := by
      calc (1 : ℤ) < 2 ^ 1 := by norm_num
        _ ≤ 2 ^ W := pow_le_pow_right₀ (by norm_num) h1W
    rw [Nat.mod_eq_of_lt hlt, doubleLoop, Masked.ofInt_eq hW (by norm_num) h1, C01_shr hW hlt (by omega), Nat.div_self (by positivity),
      C01_add hW, ← two_mul, ← pow_succ']
    have he : Masked.eq 1 1 = some 1 := by decide
    simp [assertBit, he, ih (i + 1) (by omega)]

/-- **C98.** The loops of `test_bits` would succeed for every width from 2 to 128; for one bit shifting left by one fails an assertion. -/
theorem C98_loops {W : ℕ} (h1 : 1 ≤ W) (hW : W ≤ 128) : loops W (some true) = if 2 ≤ W then some true else none := by
  split
  case isTrue h2 =>
    have hlt : (1 : ℤ) < 2 ^ W := by
      calc (1 : ℤ) < 2 ^ 2 := by norm_num
        _ ≤ 2 ^ W := pow_le_pow_right₀ (by norm_num) h2
    have e : 1 = 2 ^ 0 % 2 ^ W := by
      rw [pow_zero, Nat.mod_eq_of_lt (by exact_mod_cast hlt)]
    have a := shiftLoop_passes h2 hW W 0 (by omega)
    have b := doubleLoop_passes h1 hW W 0 (by omega)
    rw [← e] at a b
    rw [loops, Masked.ofInt_eq hW (by norm_num) hlt]
    simp [a, b, assertBool]
  case isFalse h2 =>
    obtain rfl : W = 1 := by omega
    decide

/-- **C98, a wrong shift is noticed.** If the variable is not `2^i` in round `i` of the shifting loop, the program exits with an error: no failed
assertion or exception of the library hides it. -/
theorem C98_loop_detects {W : ℕ} (h2 : 2 ≤ W) (hW : W ≤ 128) (n i var : ℕ) (hi : i < W) (hv : var < 2 ^ W) (hne : var ≠ 2 ^ i) :
    shiftLoop W (n + 1) i var = some false := by
  have h1 : (1 : ℤ) < 2 ^ W := by
    calc (1 : ℤ) < 2 ^ 2 := by norm_num
      _ ≤ 2 ^ W := pow_le_pow_right₀ (by norm_num) h2
  have hm : Masked.ofMpz W (2 ^ i) = some (2 ^ i) := by
    have hlt : 2 ^ i < 2 ^ W := Nat.pow_lt_pow_right (by norm_num) hi
    have := C04_mpz_round_trip (W := W) (by omega) hW hlt
    rwa [C04_to_mpz hlt] at this
  rw [shiftLoop, Masked.ofInt_eq hW (by norm_num) h1, C01_shr hW hv hi, C04_to_mpz hv, hm]
  by_cases hc : var / 2 ^ i = 1
  · have he : Masked.eq (var / 2 ^ i) 1 = some 1 := by rw [hc]; decide
    simp [assertBit, assertBool, he, Ne.symm hne]
  · obtain ⟨b, hb, hb1⟩ : ∃ b, Masked.eq (var / 2 ^ i) 1 = some b ∧ b ≠ 1 := ⟨0, by rw [Masked.eq, decide_eq_false hc]; decide, by decide⟩
    simp [assertBit, hb, hb1]

/-- **C98.** The concatenation of all ones is all ones, for every width up to 64. -/
theorem C98_ones {W : ℕ} (hW : 2 * W ≤ 128) : onesConcat W = some 1 := by
  have hz : Masked.zg W = some 0 := by
    rw [Masked.zg, Masked.ofInt_eq (by omega) le_rfl (by positivity)]; rfl
  have hz2 : Masked.zg (2 * W) = some 0 := by
    rw [Masked.zg, Masked.ofInt_eq hW le_rfl (by positivity)]; rfl
  have ho : Masked.og W = some (2 ^ W - 1) := by
    rw [Masked.og, hz]; exact Masked.not_eq (by omega) (by positivity)
  have ho2 : Masked.og (2 * W) = some (2 ^ (2 * W) - 1) := by
    rw [Masked.og, hz2]; exact Masked.not_eq (by omega) (by positivity)
  have hp : 0 < 2 ^ W := by positivity
  have hc := Masked.concat_eq (WA := W) (WB := W) (a := 2 ^ W - 1) (b := 2 ^ W - 1) (by omega) (by omega) (by omega)
  have e : (2 ^ W - 1) * 2 ^ W + (2 ^ W - 1) = 2 ^ (2 * W) - 1 := by
    rw [two_mul, pow_add, Nat.sub_mul, one_mul]
    have : 2 ^ W ≤ 2 ^ W * 2 ^ W := Nat.le_mul_of_pos_left _ hp
    omega
  rw [onesConcat, ho, ho2]
  simp only [Option.bind_eq_bind, Option.bind_some, hc]
  rw [e, (C02_comparisons _ _).2.2.1, if_pos rfl]

/-- **C98.** The program `test_bits` succeeds. -/
theorem C98_test_bits : testBits = some true := by
  have a := C98_loops (W := 70) (by norm_num) (by norm_num)
  have b := C98_loops (W := 120) (by norm_num) (by norm_num)
  have c : ∀ W k, loops W (some true) = some true → loops W k = k := by
    intro W k h
    unfold loops at h ⊢
    cases h1 : (Masked.ofInt W 1 >>= shiftLoop W W 0) with
    | none => rw [h1] at h; cases h
    | some x =>
      rw [h1] at h
      cases x
      · cases h
      · cases h2 : (Masked.ofInt W 1 >>= doubleLoop W W 0) with
        | none => simp [h2, assertBool] at h
        | some y => cases y <;> simp [h2, assertBool] at h ⊢
  unfold testBits
  rw [c 70 _ (by rw [a]; rfl), c 120 _ (by rw [b]; rfl), C98_ones (W := 16) (by norm_num), C98_ones (W := 32) (by norm_num),
    C98_ones (W := 64) (by norm_num)]
  decide

/-! ## The debugging programs -/

theorem dual_8_24 : DualFormat 8 24 := by
  intro k hk; exfalso
  have : k < 7 := by
    by_contra hc
    have : 2 ^ 7 ≤ 2 ^ k := Nat.pow_le_pow_right (by norm_num) (by omega)
    omega
  interval_cases k <;> omega

/-- **C98.** The debugging programs of the divider and of the "single" adder (which runs the dual-path one) return 0, whatever is drawn. -/
theorem C98_debug_programs (draws : ℕ → ℕ × ℕ) : divV2Debug draws = some true ∧ addSingleDebug draws = some true :=
  ⟨C78_test_div_passes (by norm_num) (by norm_num) (by norm_num) _ _ _,
    C78_test_add_dual_passes_partial (by norm_num) (by norm_num) dual_8_24 (by norm_num) _ _⟩

theorem num_bits {E F : ℕ} (hE : 1 ≤ E) (hF : 1 ≤ F) {x y : Fp E F} {v : ℚ} (hx : x.datum = .num v) (hy : y.datum = .num v) : x = y := by
  obtain ⟨h1, h2, h3⟩ := (Fp.datum_inj hE hF x y).1 (hx.trans hy.symm)
  have f1 := (datum_num_iff.mp hx).1
  have h4 := h3 f1
  rw [Fp.expFrac_eq hE hF, Fp.expFrac_eq hE hF, concat, concat] at h4
  have a := x.frac_lt hF
  have b := y.frac_lt hF
  have h5 : x.exp = y.exp := by
    have h6 : (x.exp * 2 ^ F + x.frac) / 2 ^ F = (y.exp * 2 ^ F + y.frac) / 2 ^ F := by rw [h4]
    rwa [mul_comm, mul_comm y.exp, Nat.mul_add_div (by positivity), Nat.mul_add_div (by positivity), Nat.div_eq_of_lt a,
      Nat.div_eq_of_lt b] at h6
  refine Fp.ext_fields hE hF h1 (h2 (by omega)) h5 ?_
  rw [h5] at h4; omega

theorem adder_returns {E F : ℕ} (hA : AdderFormat E F) (x y : Fp E F) : ∃ r, AddDual.addSame x y = some r := by
  obtain ⟨h1, h2, h3, h4⟩ := id hA
  cases hd : addSpecial x.datum y.datum with
  | some d =>
    obtain ⟨r, hr, -⟩ := AddDual.addSame_special (by omega) h2 h3 hd
    exact ⟨r, hr⟩
  | none =>
    have : ∃ v w, x.datum = .num v ∧ y.datum = .num w := by
      revert hd
      cases x.datum <;> cases y.datum <;> simp [addSpecial]
    obtain ⟨v, w, hv, hw⟩ := this
    obtain ⟨r, hr, -⟩ := adder_num hA hv hw
    exact ⟨r, hr⟩

theorem lookFor_cases {E F : ℕ} (hA : AdderFormat E F) (A B : ℕ) (a : Fp E F) (bs : List (Fp E F)) :
    (lookFor A B a bs = some none ∧ ∀ b ∈ bs, ¬ (a.bits = A ∧ b.bits = B)) ∨
      ∃ b ∈ bs, lookFor A B a bs = some (some (a, b)) ∧ a.bits = A ∧ b.bits = B := by
  induction bs with
  | nil => exact .inl ⟨rfl, by simp⟩
  | cons b bs ih =>
    obtain ⟨r, hr⟩ := adder_returns hA a b
    obtain ⟨s, hs, -⟩ := C53_ref_add (ER := E) (FR := F) (by have := hA.1; omega) hA.2.1 a b
    have e : lookFor A B a (b :: bs) = if a.bits = A ∧ b.bits = B then some (some (a, b)) else lookFor A B a bs := by
      rw [lookFor, hr, hs]; rfl
    by_cases c : a.bits = A ∧ b.bits = B
    · exact .inr ⟨b, by simp, by rw [e, if_pos c], c⟩
    · rw [e, if_neg c]
      rcases ih with ⟨h1, h2⟩ | ⟨b', h1, h2⟩
      · refine .inl ⟨h1, fun b' hb' => ?_⟩
        rcases List.mem_cons.1 hb' with rfl | hb'
        · exact c
        · exact h2 b' hb'
      · exact .inr ⟨b', List.mem_cons_of_mem _ h1, h2⟩

theorem lookForAll_cases {E F : ℕ} (hA : AdderFormat E F) (A B : ℕ) (bs as : List (Fp E F)) :
    (lookForAll A B bs as = some none ∧ ∀ a ∈ as, ∀ b ∈ bs, ¬ (a.bits = A ∧ b.bits = B)) ∨
      ∃ a ∈ as, ∃ b ∈ bs, lookForAll A B bs as = some (some (a, b)) ∧ a.bits = A ∧ b.bits = B := by
  induction as with
  | nil => exact .inl ⟨rfl, by simp⟩
  | cons a as ih =>
    rcases lookFor_cases hA A B a bs with ⟨h1, h2⟩ | ⟨b, hb, h1, h2⟩
    · have e : lookForAll A B bs (a :: as) = lookForAll A B bs as := by rw [lookForAll, h1]; rfl
      rw [e]
      rcases ih with ⟨g1, g2⟩ | ⟨a', ga, b, hb, g⟩
      · refine .inl ⟨g1, fun a' ha' => ?_⟩
        rcases List.mem_cons.1 ha' with rfl | ha'
        · exact h2
        · exact g2 a' ha'
      · exact .inr ⟨a', List.mem_cons_of_mem _ ga, b, hb, g⟩
    · exact .inr ⟨a, by simp, b, hb, by rw [lookForAll, h1]; rfl, h2⟩

/-- **C98.** The debugging program of the dual-path adder always stops at the pair 3 and -2^27, which is among the inputs whatever is
drawn: it never gets to the end, and since it compares nothing it never fails. -/
theorem C98_add_dual_debug (draws : ℕ → ℕ × ℕ) :
    ∃ x y, addDualDebug draws = some (some (x, y)) ∧ x.datum = .num 3 ∧ y.datum = .num (-2 ^ 27) := by
  have hA : AdderFormat 8 24 := ⟨by norm_num, by norm_num, dual_8_24, by norm_num⟩
  obtain ⟨l, hl⟩ := (C77_inputs_exist_iff (E := 8) (F := 24) (by norm_num) (by norm_num) 100 draws).mpr ⟨by norm_num, by norm_num⟩
  have hc := C77_inputs_contents (E := 8) (F := 24) (by norm_num) (by norm_num) (by norm_num) 100 draws l hl
  have tA : triggerA = some 0b01010000000100000000000000000000000 := by decide +kernel
  have tB : triggerB = some 0b01110011010000000000000000000000000 := by decide +kernel
  obtain ⟨xA, exA⟩ : ∃ x : Fp 8 24, x = ⟨0b01010000000100000000000000000000000, by decide⟩ := ⟨_, rfl⟩
  obtain ⟨xB, exB⟩ : ∃ x : Fp 8 24, x = ⟨0b01110011010000000000000000000000000, by decide⟩ := ⟨_, rfl⟩
  have dA : xA.datum = .num 3 := by rw [exA]; decide +kernel
  have dB : xB.datum = .num (-2 ^ 27) := by rw [exB]; decide +kernel
  obtain ⟨a, ha, ha'⟩ := (hc (.num 3)).2 (.inr (.inr (.inl ⟨3, by norm_num, by norm_num, .inl (.inl (by norm_num))⟩)))
  obtain ⟨b, hb, hb'⟩ := (hc (.num (-2 ^ 27))).2 (.inr (.inr (.inr (.inr (.inr ⟨27, by norm_num, by norm_num,
    by norm_num [bias], by norm_num [bias], .inr (by norm_num)⟩)))))
  have e1 := num_bits (by norm_num) (by norm_num) ha' dA
  have e2 := num_bits (by norm_num) (by norm_num) hb' dB
  have b1 : a.bits = 0b01010000000100000000000000000000000 := by rw [e1, exA]
  have b2 : b.bits = 0b01110011010000000000000000000000000 := by rw [e2, exB]
  have e : addDualDebug draws = lookForAll 0b01010000000100000000000000000000000 0b01110011010000000000000000000000000 l l := by
    rw [addDualDebug, hl, tA, tB]; rfl
  rcases lookForAll_cases hA 0b01010000000100000000000000000000000 0b01110011010000000000000000000000000 l l with ⟨-, h⟩ | ⟨x, -, y, -, h1, h2, h3⟩
  · exact absurd ⟨b1, b2⟩ (h a (List.mem_of_mem_take ha) b (List.mem_of_mem_take hb))
  · refine ⟨x, y, e.trans h1, ?_, ?_⟩
    · rw [← dA, exA]; congr 1; cases x; cases h2; rfl
    · rw [← dB, exB]; congr 1; cases y; cases h3; rfl

/-- The loops at 40 bits, the refusal at one bit, and a variable that starts wrong. -/
example : shiftLoop 40 40 0 1 = some true ∧ shiftLoop 40 40 0 2 = some false ∧ loops 40 (some true) = some true ∧
    loops 1 (some true) = none ∧ onesConcat 20 = some 1 := by
  refine ⟨by decide +kernel, C98_loop_detects (by decide) (by decide) 39 0 2 (by decide) (by decide) (by decide),
    C98_loops (by decide) (by decide), C98_loops (by decide) (by decide), C98_ones (by decide)⟩

end Thls
