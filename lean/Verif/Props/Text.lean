import Verif.Proofs.Text
import Verif.Props.Exact

/-! # Properties C81 (references of the IEEE type) and C82 (printed forms), `nextafter` -/

namespace Thls
open Spec

/-! ## C81 -/

/-- **C81.** `ref_mul` of the IEEE type: the exact product of the operands (denormals read as zeros), rounded once. -/
theorem C81_ieee_ref_mul {ER FR EA FA EB FB : ℕ} (hE : 2 ≤ ER) (hF : 1 ≤ FR) (hEA : 2 ≤ EA) (hFA : 1 ≤ FA) (hEB : 2 ≤ EB) (hFB : 1 ≤ FB)
    (a : Ieee EA FA) (b : Ieee EB FB) :
    ∃ r : Ieee ER FR, ieeeRefMul ER FR a b = some r ∧
      IeeeDelivers ER FR (exactMul (ieeeRange EA a.datum) (ieeeRange EB b.datum)) r.datum := by
  have h := Mpfr.mul_exact (FR + 1) (ieee_toMpfr_ok a) (ieee_toMpfr_ok b)
  rw [C51_to_mpfr hEA hFA, C51_to_mpfr hEB hFB] at h
  exact ieee_ofMpfr_delivers hE hF h

/-- **C81.** `ref_add` of the IEEE type. -/
theorem C81_ieee_ref_add {ER FR EA FA EB FB : ℕ} (hE : 2 ≤ ER) (hF : 1 ≤ FR) (hEA : 2 ≤ EA) (hFA : 1 ≤ FA) (hEB : 2 ≤ EB) (hFB : 1 ≤ FB)
    (a : Ieee EA FA) (b : Ieee EB FB) :
    ∃ r : Ieee ER FR, ieeeRefAdd ER FR a b = some r ∧
      IeeeDelivers ER FR (exactAdd (ieeeRange EA a.datum) (ieeeRange EB b.datum)) r.datum := by
  have h := Mpfr.add_exact (FR + 1) (ieee_toMpfr_ok a) (ieee_toMpfr_ok b)
  rw [C51_to_mpfr hEA hFA, C51_to_mpfr hEB hFB] at h
  exact ieee_ofMpfr_delivers hE hF h

example : ieeeRefMul 4 3 (Ieee.mk3 5 4 1 15 8) (Ieee.mk3 4 3 0 8 4) = some (Ieee.mk3 4 3 1 9 1) := by decide +kernel
example : ieeeRefAdd 4 3 (Ieee.mk3 5 4 1 15 8) (Ieee.mk3 4 3 0 7 4) = some (Ieee.mk3 4 3 0 0 0) := by decide +kernel

/-- **C81.** The product of the IEEE wrapper around the FloPoCo operators has the value of this reference. -/
theorem C81_wrapper_mul_is_reference {E F : ℕ} (hE : 2 ≤ E) (hF : 1 ≤ F) (a b : Ieee E F) :
    ∃ p r, IeeeOps.mul a b = some p ∧ ieeeRefMul E F a b = some r ∧ ieeeRange E p.datum = r.datum := by
  obtain ⟨r, hr, hd⟩ := C81_ieee_ref_mul (ER := E) (FR := F) hE hF hE hF hE hF a b
  cases h : mulSpecial (ieeeRange E a.datum) (ieeeRange E b.datum) with
  | some d =>
    obtain ⟨p, hp, rfl⟩ := C29_mul_special hE hF a b d h
    refine ⟨p, r, hp, hr, ieeeDelivers_unique ?_ hd⟩
    rw [exactMul, h, Option.getD_some, mulSpecial_range h]
    apply ieeeDelivers_special
    intro w hw
    rw [hw] at h
    revert h
    cases ieeeRange E a.datum <;> cases ieeeRange E b.datum <;> simp [mulSpecial]
  | none =>
    obtain ⟨vp, vq, h1, h2⟩ : ∃ p q, ieeeRange E a.datum = .num p ∧ ieeeRange E b.datum = .num q := by
      revert h
      cases ieeeRange E a.datum <;> cases ieeeRange E b.datum <;> simp [mulSpecial]
    obtain ⟨p, hp, hq⟩ := C29_mul hE hF a b vp vq h1 h2
    refine ⟨p, r, hp, hr, ieeeDelivers_unique ?_ hd⟩
    rw [h1, h2]
    exact ieeeDelivers_num (mul_ne_zero (SoftFmt.ieeeRange_num_ne h1) (SoftFmt.ieeeRange_num_ne h2)) hq

/-- **C81.** Likewise the sum. -/
theorem C81_wrapper_add_is_reference {E F : ℕ} (hE : 2 ≤ E) (hF : 1 ≤ F) (hok : DualFormat E F) (hfmt : F ≤ 2 ^ (E + 1)) (a b : Ieee E F) :
    ∃ s r, IeeeOps.add a b = some s ∧ ieeeRefAdd E F a b = some r ∧ ieeeRange E s.datum = r.datum := by
  obtain ⟨p, s, q, -, hs, -, -, h1, -⟩ := ieee_ops hE hF hok hfmt a b
  obtain ⟨r, hr, hd⟩ := C81_ieee_ref_add (ER := E) (FR := F) hE hF hE hF hE hF a b
  exact ⟨s, r, hs, hr, ieeeDelivers_unique h1 hd⟩

/-! ## C82 -/

theorem str_mid {E F : ℕ} (x : Fp E F) (approx : Fp E F → List Char) :
    x.str approx =
      (if x.flags = 0 then some (if x.sign = 1 then " -zero".toList else " +zero".toList)
      else if x.flags = 1 then
        (toIntChecked x.exp).map fun e =>
          " normal".toList ++ " e=".toList ++ Masked.toString E x.exp ++ "=".toList ++ intText (e - 2 ^ (E - 1) + 1) ++
            ", f=".toList ++ Masked.toString F x.frac
      else if x.flags = 2 then some (if x.sign = 1 then "-inf".toList else "+inf".toList)
      else some " nan".toList).map fun m => Masked.toString (3 + E + F) x.bits ++ m ++ " ~=".toList ++ approx x := rfl

theorem toIntChecked_exp {E n : ℕ} (hE : E ≤ 31) (h : n < 2 ^ E) : toIntChecked n = some (n : ℤ) := by
  have : 2 ^ E ≤ 2 ^ 31 := Nat.pow_le_pow_right (by norm_num) hE
  unfold toIntChecked
  rw [if_pos (by omega)]

theorem half_exp {E : ℕ} (hE : 1 ≤ E) (n : ℕ) : (n : ℤ) - 2 ^ (E - 1) + 1 = n - bias E := by
  obtain ⟨b1, b2⟩ := two_bias hE
  have : (2 : ℤ) ^ E = 2 * 2 ^ (E - 1) := by
    obtain ⟨k, rfl⟩ := Nat.exists_eq_add_of_le' hE
    rw [Nat.add_sub_cancel, pow_succ]; ring
  omega

/-- **C82.** Printing a number: the word, then the true exponent of the value and its fraction. -/
theorem C82_str_number {E F : ℕ} (hE : 1 ≤ E) (hE' : E ≤ 31) (hF : 1 ≤ F) (approx : Fp E F → List Char) (x : Fp E F) {v : ℚ}
    (hv : x.datum = .num v) :
    ∃ (w te tf : List Char) (e : ℤ) (g f : ℕ), BitText (3 + E + F) x.bits w ∧ BitText E g te ∧ BitText F f tf ∧
      x.str approx = some (w ++ " normal".toList ++ " e=".toList ++ te ++ "=".toList ++ (toString e).toList ++ ", f=".toList ++ tf ++
        " ~=".toList ++ approx x) ∧
      f < 2 ^ F ∧ (g : ℤ) = e + bias E ∧ |v| = ((2 ^ F + f : ℕ) : ℚ) * 2 ^ (e - F) ∧ (2 : ℚ) ^ e ≤ |v| ∧ |v| < 2 ^ (e + 1) := by
  obtain ⟨hfl, rfl⟩ := datum_num_iff.1 hv
  have hf := x.frac_lt hF
  have hpos : (0 : ℚ) < ((2 ^ F + x.frac : ℕ) : ℚ) * 2 ^ ((x.exp : ℤ) - bias E - F) := mul_pos (by positivity) (two_zpow_pos _)
  refine ⟨_, _, _, (x.exp : ℤ) - bias E, x.exp, x.frac, bitText_toString _ _, bitText_toString _ _, bitText_toString _ _, ?_, hf, by ring, ?_, ?_, ?_⟩
  · rw [str_mid, hfl, if_neg one_ne_zero, if_pos rfl, toIntChecked_exp hE' (x.exp_lt hE)]
    simp only [Option.map_some, Option.some.injEq, half_exp hE, intText, List.append_assoc]
  · rw [abs_signed hpos]
  · rw [abs_signed hpos]; exact (sig_bounds hf _).1
  · rw [abs_signed hpos]; exact (sig_bounds hf _).2

example : (Fp.mk4 4 3 1 0 9 5).str (fun _ => []) =
    some "0b01_01001101 normal e=0b1001=2, f=0b101 ~=".toList := by decide +kernel

/-- **C82.** Printing zeros, infinities and NaNs. -/
theorem C82_str_special {E F : ℕ} (approx : Fp E F → List Char) (x : Fp E F) (hv : ∀ v, x.datum ≠ .num v) :
    ∃ w : List Char, BitText (3 + E + F) x.bits w ∧ x.str approx = some (w ++ specialText x.datum ++ " ~=".toList ++ approx x) := by
  refine ⟨_, bitText_toString _ _, ?_⟩
  rw [str_mid]
  rcases flags_cases x with h | h | h | h
  · rw [datum_flags0 x h, h, if_pos rfl, Option.map_some, specialText]
    simp only [decide_eq_true_eq]
  · exact absurd (datum_normal x h) (hv _)
  · rw [datum_flags2 x h, h, if_neg (by norm_num), if_neg (by norm_num), if_pos rfl, Option.map_some, specialText]
    simp only [decide_eq_true_eq]
  · rw [datum_flags3 x h, h, if_neg (by norm_num), if_neg (by norm_num), if_neg (by norm_num), Option.map_some, specialText]
    all_goals simp

/-- **C82.** Printing never fails for exponents of up to 31 bits. -/
theorem C82_str_total {E F : ℕ} (hE : 1 ≤ E) (hE' : E ≤ 31) (approx : Fp E F → List Char) (x : Fp E F) : ∃ s, x.str approx = some s := by
  rw [str_mid, toIntChecked_exp hE' (x.exp_lt hE)]
  split_ifs <;> exact ⟨_, rfl⟩

/-- **C82.** Different words are printed differently. -/
theorem C82_str_injective {E F : ℕ} (approx : Fp E F → List Char) (x y : Fp E F) {s : List Char} (hx : x.str approx = some s)
    (hy : y.str approx = some s) : x = y := by
  have key : ∀ z : Fp E F, z.str approx = some s → ∃ u, s = Masked.toString (3 + E + F) z.bits ++ u := by
    intro z hz
    rw [str_mid, Option.map_eq_some_iff] at hz
    obtain ⟨m, -, rfl⟩ := hz
    exact ⟨_, by simp only [List.append_assoc]; rfl⟩
  obtain ⟨u, hu⟩ := key x hx
  obtain ⟨v, hv⟩ := key y hy
  have := toString_append_inj x.isLt y.isLt (hu.symm.trans hv)
  cases x; cases y; simpa using this

example : ∃ s, (Fp.mk4 4 3 1 0 9 5).str (fun _ => []) = some s := C82_str_total (by norm_num) (by norm_num) _ _

theorem ieee_str_eq {E F : ℕ} (hE : 2 ≤ E) (hE' : E ≤ 31) (hF : 1 ≤ F) (approx : ℤ → List Char) (x : Ieee E F) :
    x.str approx = match ieeeRange E x.datum with
      | .num _ => (toIntChecked (x.bits % 2 ^ F)).map fun f =>
          Masked.toString (1 + E + F) x.bits ++ " normal".toList ++ " e=".toList ++ Masked.toString E x.exp ++ "=".toList ++
            intText (x.exp - 2 ^ (E - 1) + 1) ++ " f=".toList ++ Masked.toString F x.frac ++ "= (approx)".toList ++ approx f
      | d => some (Masked.toString (1 + E + F) x.bits ++ specialText d) := by
  have h4 : 4 ≤ 2 ^ E := le_trans (by norm_num) (Nat.pow_le_pow_right (by norm_num) hE : 2 ^ 2 ≤ 2 ^ E)
  have hfr : getBits (F - 1) 0 x.bits = x.bits % 2 ^ F := by rw [getBits_zero_eq_mod, Nat.sub_add_cancel hF]
  rw [ieee_flushed (by omega) hF, ← hfr]
  unfold Ieee.str
  simp only [Ieee.isZero, Ieee.isNormal, Ieee.isInf, Ieee.isNegative, ones]
  have he : toIntChecked (getBits (E + F - 1) F x.bits) = some (x.exp : ℤ) := toIntChecked_exp hE' (x.exp_lt (by omega))
  rw [he]
  have h3 : ¬ (2 ^ E - 1 = 0) := by omega
  by_cases h0 : x.exp = 0
  · simp only [beq_eq_decide, h0, decide_true, if_true, specialText, decide_eq_true_eq]
  · by_cases h1 : x.exp = 2 ^ E - 1
    · by_cases h2 : x.frac = 0 <;>
        simp only [beq_eq_decide, bne, h1, h2, h3, decide_false, decide_true, Bool.not_true, Bool.false_and, Bool.true_and, if_true, if_false,
          Bool.false_eq_true, specialText, decide_eq_true_eq]
    · simp only [beq_eq_decide, bne, h0, h1, decide_false, Bool.false_and, Bool.not_false, Bool.and_self, if_true, if_false,
        Bool.false_eq_true, Option.bind_some]
      rfl

/-- **C82 (partial).** Printing an IEEE number, when its fraction fits in an `int`.
Missing: larger fractions, for which printing fails (`C82_ieee_str_fails_iff`). -/
theorem C82_ieee_str_number_partial {E F : ℕ} (hE : 2 ≤ E) (hE' : E ≤ 31) (hF : 1 ≤ F) (approx : ℤ → List Char) (x : Ieee E F) {v : ℚ}
    (hv : ieeeRange E x.datum = .num v) (hi : x.bits % 2 ^ F < 2 ^ 31) :
    ∃ (w te tf : List Char) (e : ℤ) (g f : ℕ), BitText (1 + E + F) x.bits w ∧ BitText E g te ∧ BitText F f tf ∧
      x.str approx = some (w ++ " normal".toList ++ " e=".toList ++ te ++ "=".toList ++ (toString e).toList ++ " f=".toList ++ tf ++
        "= (approx)".toList ++ approx f) ∧
      f < 2 ^ F ∧ (g : ℤ) = e + bias E ∧ |v| = ((2 ^ F + f : ℕ) : ℚ) * 2 ^ (e - F) ∧ (2 : ℚ) ^ e ≤ |v| ∧ |v| < 2 ^ (e + 1) := by
  have hs := ieee_str_eq hE hE' hF approx x
  rw [hv] at hs
  simp only at hs
  have hfr : x.frac = x.bits % 2 ^ F := by rw [Ieee.frac, getBits_zero_eq_mod, Nat.sub_add_cancel hF]
  have hf := x.frac_lt hF
  rw [ieee_flushed (by omega) hF] at hv
  have hpos : (0 : ℚ) < ((2 ^ F + x.frac : ℕ) : ℚ) * 2 ^ ((x.exp : ℤ) - bias E - F) := mul_pos (by positivity) (two_zpow_pos _)
  split_ifs at hv
  all_goals try exact Datum.noConfusion hv
  all_goals
    injection hv with hv
    have ha : |v| = ((2 ^ F + x.frac : ℕ) : ℚ) * 2 ^ ((x.exp : ℤ) - bias E - F) := by
      rw [← hv]
      first | rw [neg_one_mul, abs_neg, abs_of_pos hpos] | rw [one_mul, abs_of_pos hpos]
    refine ⟨_, _, _, (x.exp : ℤ) - bias E, x.exp, x.frac, bitText_toString _ _, bitText_toString _ _, bitText_toString _ _, ?_, hf, by ring, ha, ?_, ?_⟩
    · rw [hs, toIntChecked, if_pos (by omega), Option.map_some, half_exp (by omega), ← hfr]; rfl
    · rw [ha]; exact (sig_bounds hf _).1
    · rw [ha]; exact (sig_bounds hf _).2

example : (Ieee.mk3 4 3 0 9 5).str (fun _ => []) = some "0b01001101 normal e=0b1001=2 f=0b101= (approx)".toList := by decide +kernel

/-- **C82.** Printing an IEEE word fails exactly for the numbers whose fraction field is at least `2^31`. -/
theorem C82_ieee_str_fails_iff {E F : ℕ} (hE : 2 ≤ E) (hE' : E ≤ 31) (hF : 1 ≤ F) (approx : ℤ → List Char) (x : Ieee E F) :
    x.str approx = none ↔ (∃ v, ieeeRange E x.datum = .num v) ∧ 2 ^ 31 ≤ x.bits % 2 ^ F := by
  rw [ieee_str_eq hE hE' hF]
  cases ieeeRange E x.datum with
  | num v =>
    simp only [Option.map_eq_none_iff, toIntChecked, Datum.num.injEq, exists_eq', true_and]
    generalize x.bits % 2 ^ F = n
    split
    · constructor
      · intro h; exact absurd h (by simp)
      · intro h; omega
    · constructor
      · intro _; omega
      · intro _; rfl
  | _ => simp

/-- Double precision: 1.5 is not printable. -/
example : (Ieee.mk3 11 52 0 1023 (2 ^ 51)).str (fun _ => []) = none := by decide +kernel

/-- **C82.** Zeros (and denormals, which count as zeros), infinities and NaNs. -/
theorem C82_ieee_str_special {E F : ℕ} (hE : 2 ≤ E) (hE' : E ≤ 31) (hF : 1 ≤ F) (approx : ℤ → List Char) (x : Ieee E F)
    (hv : ∀ v, ieeeRange E x.datum ≠ .num v) :
    ∃ w : List Char, BitText (1 + E + F) x.bits w ∧ x.str approx = some (w ++ specialText (ieeeRange E x.datum)) := by
  refine ⟨_, bitText_toString _ _, ?_⟩
  rw [ieee_str_eq hE hE' hF]
  cases h : ieeeRange E x.datum with
  | num v => exact absurd h (hv v)
  | _ => rfl

/-- **C82.** Different words are printed differently. -/
theorem C82_ieee_str_injective {E F : ℕ} (approx : ℤ → List Char) (x y : Ieee E F) {s : List Char} (hx : x.str approx = some s)
    (hy : y.str approx = some s) : x = y := by
  have key : ∀ z : Ieee E F, z.str approx = some s → ∃ u, s = Masked.toString (1 + E + F) z.bits ++ u := by
    intro z hz
    unfold Ieee.str at hz
    simp only at hz
    split_ifs at hz
    · exact ⟨_, (Option.some.inj hz).symm⟩
    · exact ⟨_, (Option.some.inj hz).symm⟩
    · rw [Option.bind_eq_some_iff] at hz
      obtain ⟨e, -, hz⟩ := hz
      rw [Option.map_eq_some_iff] at hz
      obtain ⟨f, -, rfl⟩ := hz
      exact ⟨_, by simp only [List.append_assoc]; rfl⟩
    all_goals exact ⟨_, (Option.some.inj hz).symm⟩
  obtain ⟨u, hu⟩ := key x hx
  obtain ⟨v, hv⟩ := key y hy
  have := toString_append_inj x.isLt y.isLt (hu.symm.trans hv)
  cases x; cases y; simpa using this

/-! ## `nextafter` -/

/-- **C08.** `nextafter(x, y)` answers exactly for infinite `y`. -/
theorem C08_nextafter_defined_iff {E F : ℕ} (x : Fp E F) (y : Datum) :
    (∃ r, nextafter x y = some r) ↔ ∃ s, y = .inf s := by
  unfold nextafter
  split_ifs with h1 h2
  · exact ⟨fun _ => ⟨_, h1⟩, fun _ => ⟨_, rfl⟩⟩
  · exact ⟨fun _ => ⟨_, h2⟩, fun _ => ⟨_, rfl⟩⟩
  · constructor
    · rintro ⟨r, hr⟩; exact absurd hr (by simp)
    · rintro ⟨s, rfl⟩; cases s <;> simp at h1 h2

/-- **C08.** Towards +infinity it is the successor. -/
theorem C08_nextafter_up {E F : ℕ} (hE : 1 ≤ E) (hF : 1 ≤ F) (x : Fp E F) (hx : x.datum ≠ .nan) (hi : x.datum ≠ .inf false) :
    ∃ r, nextafter x (.inf false) = some r ∧ x.datum.Below r.datum ∧ ∀ y : Fp E F, ¬ (x.datum.Below y.datum ∧ y.datum.Below r.datum) :=
  ⟨_, rfl, C08_nextup_successor hE hF x hx hi⟩

example : nextafter (Fp.mk4 4 3 1 0 7 7) (.inf false) = some (Fp.mk4 4 3 1 0 8 0) := by decide +kernel

/-- **C09.** Towards -infinity it is the predecessor, except for exactly the numbers `nextdown` gets wrong. -/
theorem C09_nextafter_down_iff {E F : ℕ} (hE : 1 ≤ E) (hF : 1 ≤ F) (x : Fp E F) (hx : x.datum ≠ .nan) (hi : x.datum ≠ .inf true) :
    (∃ r, nextafter x (.inf true) = some r ∧ r.datum.Below x.datum ∧ ∀ y : Fp E F, ¬ (r.datum.Below y.datum ∧ y.datum.Below x.datum)) ↔
      ¬ (x.isNormal = true ∧ x.isPositive = true ∧ x.frac = 0 ∧ x.exp ≠ 0) ∧
      ¬ (x.isNormal = true ∧ x.isNegative = true ∧ x.frac = 2 ^ F - 1 ∧ x.exp ≠ 2 ^ E - 1) := by
  rw [← C09_nextdown_correct_iff hE hF x hx hi]
  constructor
  · rintro ⟨r, hr, h⟩
    have : nextdown x = r := Option.some.inj hr
    rw [this]; exact h
  · intro h; exact ⟨_, rfl, h⟩

/-- Both sides of the equivalence occur: below `1.5` the right number is found, below `1` a half is returned. -/
example : (nextafter (Fp.mk4 5 3 1 0 15 4) (.inf true)).map Fp.bits = some (Fp.mk4 5 3 1 0 15 3).bits ∧
    (nextafter (Fp.mk4 5 3 1 0 15 0) (.inf true)).map Fp.bits = some (Fp.mk4 5 3 1 0 14 0).bits := by decide +kernel

end Thls
