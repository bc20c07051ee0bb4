import Verif.Props.Modules

/-! # The IEEE sum exactly: which operands and which formats (C29, C83)
policy_ieee_on_flopoco.hpp: a sum of two IEEE words is the dual-path sum of the converted operands, converted back. -/

namespace Thls
open Spec

/-- The words with a number have an exponent field of at least one. -/
theorem ieee_num_exp {E F : ℕ} (hE : 2 ≤ E) (hF : 1 ≤ F) (a : Ieee E F) {v : ℚ} (h : ieeeRange E a.datum = .num v) :
    1 ≤ (ieeeToFlopoco a).exp := by
  obtain ⟨-, -, e, -⟩ := ieeeToFlopoco_fields (show 1 ≤ E by omega) hF a
  rw [e]
  rw [ieee_flushed (by omega) hF] at h
  by_contra hc
  rw [if_pos (by omega)] at h
  exact Datum.noConfusion h

/-- Two numbers of the IEEE range differ by a multiple of the spacing of the smallest normal numbers. -/
theorem ieee_sum_ge {E F : ℕ} (hE : 2 ≤ E) (hF : 1 ≤ F) {a b : Ieee E F} {va vb : ℚ} (ha : ieeeRange E a.datum = .num va)
    (hb : ieeeRange E b.datum = .num vb) (hne : va + vb ≠ 0) : (2 : ℚ) ^ (1 - bias E - F) ≤ |va + vb| := by
  have h1 := ieee_num_exp hE hF a ha
  have h2 := ieee_num_exp hE hF b hb
  rw [← ieeeToFlopoco_datum (by omega) hF] at ha hb
  generalize ieeeToFlopoco a = X at *
  generalize ieeeToFlopoco b = Y at *
  obtain ⟨-, rfl⟩ := datum_num_iff.mp ha
  obtain ⟨-, rfl⟩ := datum_num_iff.mp hb
  have key : ∀ e : ℕ, 1 ≤ e → (2 : ℚ) ^ ((e : ℤ) - bias E - F) = ((2 ^ (e - 1) : ℕ) : ℚ) * 2 ^ (1 - bias E - F) := by
    intro e he
    rw [show (e : ℤ) - bias E - F = ((e - 1 : ℕ) : ℤ) + (1 - bias E - F) by push_cast [he]; ring, zpow_add₀ (by norm_num), zpow_natCast]
    push_cast; ring
  obtain ⟨k, hk⟩ : ∃ k : ℤ, (if X.sign = 1 then (-1 : ℚ) else 1) * (((2 ^ F + X.frac : ℕ) : ℚ) * 2 ^ ((X.exp : ℤ) - bias E - F)) +
      (if Y.sign = 1 then (-1 : ℚ) else 1) * (((2 ^ F + Y.frac : ℕ) : ℚ) * 2 ^ ((Y.exp : ℤ) - bias E - F)) = (k : ℚ) * 2 ^ (1 - bias E - F) := by
    rw [key _ h1, key _ h2]
    refine ⟨(if X.sign = 1 then (-1 : ℤ) else 1) * (((2 ^ F + X.frac) * 2 ^ (X.exp - 1) : ℕ) : ℤ) +
      (if Y.sign = 1 then (-1 : ℤ) else 1) * (((2 ^ F + Y.frac) * 2 ^ (Y.exp - 1) : ℕ) : ℤ), ?_⟩
    split_ifs <;> push_cast <;> ring
  rw [hk] at hne ⊢
  have hk0 : k ≠ 0 := by rintro rfl; simp at hne
  rw [abs_mul, abs_of_pos (two_zpow_pos _)]
  have h1 : (1 : ℚ) ≤ |(k : ℚ)| := by
    rw [← Int.cast_abs]
    exact_mod_cast Int.one_le_abs hk0
  nlinarith [two_zpow_pos (1 - bias E - F)]

/-- A magnitude far below the range is rounded to a zero. -/
theorem ieeeRounded_underflow {E F : ℕ} (hE : 1 ≤ E) {v : ℚ} {d : Datum} (h : IeeeRounded E F v d) (hv : |v| < (2 : ℚ) ^ (-bias E - 1)) :
    d = .zero (decide (v < 0)) := by
  obtain ⟨m, e, hn, hd⟩ := h
  have hr : Rounded E F v (rangeCheck E F (decide (v < 0)) m e) := ⟨m, e, hn, rfl⟩
  have hz := rounded_underflow hr hv
  have := ieee_range_of_rounded hE hr
  rw [hz] at this
  exact ieeeRounded_unique ⟨m, e, hn, hd⟩ this

/-- **C29, sums of numbers, exactly.** Whenever the sum of two IEEE words with numbers is returned, it is the real sum rounded to nearest
even (a vanishing sum being `+0`, sums below the normal range zeros) if and only if the real sum is zero or of magnitude at least
`2^(-bias-2^(E+1))`. -/
theorem C29_add_correct_operands_iff {E F : ℕ} (hE : 3 < E) (hF : 1 ≤ F) (hfit : F + 2 < 2 ^ (E + 2)) (a b r : Ieee E F) (va vb : ℚ)
    (ha : ieeeRange E a.datum = .num va) (hb : ieeeRange E b.datum = .num vb) (hr : IeeeOps.add a b = some r) :
    IeeeDelivers E F (.num (va + vb)) r.datum ↔ va + vb = 0 ∨ (2 : ℚ) ^ (-bias E - 2 ^ (E + 1)) ≤ |va + vb| := by
  unfold IeeeOps.add at hr
  obtain ⟨t, ht, rfl⟩ := Option.map_eq_some_iff.mp hr
  obtain ⟨h0, h1, h2⟩ := AddDual.addSame_sharp (show 2 ≤ E by omega) hF (by rw [ieeeToFlopoco_datum (by omega) hF, ha])
    (by rw [ieeeToFlopoco_datum (by omega) hF, hb]) ht
  rw [flopocoToIeee_datum (by omega) hF, show -bias E - 2 ^ (E + 1) = -bias E - 2 * 2 ^ E by rw [pow_succ]; ring]
  change (if va + vb = 0 then _ else _) ↔ _
  by_cases hz : va + vb = 0
  · rw [if_pos hz, h0 hz]
    exact ⟨fun _ => Or.inl hz, fun _ => rfl⟩
  · rw [if_neg hz]
    constructor
    · intro h
      right
      by_contra hc
      push Not at hc
      have hp : (0 : ℤ) < 2 ^ E := by positivity
      have hu := ieeeRounded_underflow (by omega) h (lt_of_lt_of_le hc (zpow_le_zpow_right₀ (by norm_num) (by omega)))
      obtain ⟨n0, n1, -⟩ := h2 hz hfit hc
      cases hd : t.datum with
      | zero s => exact n0 s hd
      | nan => rw [hd] at hu; exact Datum.noConfusion hu
      | inf s => rw [hd] at hu; exact Datum.noConfusion hu
      | num v =>
        rw [hd] at hu
        have hv := n1 v hd
        simp only [ieeeRange] at hu
        rw [if_neg (by unfold ieeeMin; linarith)] at hu
        split_ifs at hu
    · rintro (h | h)
      · exact absurd h hz
      · exact ieee_range_of_rounded (by omega) (h1 hz h)

/-- **C29 / C83, sums, exactly.** The sum of any two IEEE words is returned and right, special values and denormals (as zeros) included,
if and only if the format does not trip the assertion of the alignment shift and has at most `2^(E+1)+1` fraction bits. -/
theorem C29_add_correct_format_iff {E F : ℕ} (hE : 3 < E) (hF : 1 ≤ F) (hfit : F + 2 < 2 ^ (E + 2)) :
    (∀ a b : Ieee E F, ∃ r, IeeeOps.add a b = some r ∧
      IeeeDelivers E F (exactAdd (ieeeRange E a.datum) (ieeeRange E b.datum)) r.datum) ↔ DualFormat E F ∧ F ≤ 2 ^ (E + 1) + 1 := by
  have h1E : 1 ≤ E := by omega
  have hpE : 16 ≤ 2 ^ E := by
    calc 16 = 2 ^ 4 := rfl
      _ ≤ 2 ^ E := Nat.pow_le_pow_right (by norm_num) (by omega)
  have hpF : 2 ≤ 2 ^ F := by
    calc 2 = 2 ^ 1 := rfl
      _ ≤ 2 ^ F := Nat.pow_le_pow_right (by norm_num) hF
  constructor
  · intro H
    constructor
    · by_contra hbad
      have hbad' := hbad
      unfold DualFormat AddDual.ShiftOk at hbad'
      push Not at hbad'
      obtain ⟨k, hk, hkE, -⟩ := hbad'
      have hlt : 2 * F + 4 < 2 ^ E - 1 := by
        have : 2 ^ (k + 1) ≤ 2 ^ E := Nat.pow_le_pow_right (by norm_num) (by omega)
        rw [pow_succ] at this; omega
      obtain ⟨r, hr, -⟩ := H (Ieee.mk3 E F 0 (2 * F + 4) 0) (Ieee.mk3 E F 0 0 0)
      unfold IeeeOps.add at hr
      obtain ⟨t, ht, -⟩ := Option.map_eq_some_iff.mp hr
      obtain ⟨hfa, -, hea, -⟩ := ieeeToFlopoco_fields h1E hF (Ieee.mk3 E F 0 (2 * F + 4) 0)
      obtain ⟨hfb, -, heb, -⟩ := ieeeToFlopoco_fields h1E hF (Ieee.mk3 E F 0 0 0)
      obtain ⟨-, ea, -⟩ := Ieee.mk3_fields (E := E) (F := F) (s := 0) (e := 2 * F + 4) (f := 0) h1E hF (by norm_num) (by omega) (by omega)
      obtain ⟨-, eb, -⟩ := Ieee.mk3_fields (E := E) (F := F) (s := 0) (e := 0) (f := 0) h1E hF (by norm_num) (by omega) (by omega)
      have fa : (Ieee.mk3 E F 0 (2 * F + 4) 0).flags = 1 := by
        unfold Ieee.flags ones
        rw [ea, if_neg (by omega), if_neg (by omega)]
      have fb : (Ieee.mk3 E F 0 0 0).flags = 0 := by unfold Ieee.flags; rw [if_pos eb]
      rcases AddDual.addSame_ordered h1E (ieeeToFlopoco (Ieee.mk3 E F 0 (2 * F + 4) 0)) (ieeeToFlopoco (Ieee.mk3 E F 0 0 0)) with
        ⟨h, -, -⟩ | ⟨-, h, -⟩
      · rw [h, AddDual.core_none _ _ ((AddDual.not_shiftFits h1E (subW_lt _ _ _)).mpr ⟨hbad, Or.inl ?_⟩)] at ht
        · cases ht
        · rw [hea, heb, ea, eb, AddSingle.subW_of_le (by omega) (by omega), Nat.sub_zero]
      · omega
    · by_contra hbig
      push Not at hbig
      have hx : (Ieee.mk3 E F 0 1 1).datum = .num (((2 ^ F + 1 : ℕ) : ℚ) * 2 ^ (1 - bias E - F)) := by
        rw [Ieee.mk3_datum h1E hF (by norm_num) (by omega) (by omega)]
        unfold ieeeDenote
        rw [if_neg (by norm_num), if_neg (by omega)]; simp
      have hy : (Ieee.mk3 E F 1 1 0).datum = .num (-(((2 ^ F : ℕ) : ℚ) * 2 ^ (1 - bias E - F))) := by
        rw [Ieee.mk3_datum h1E hF (by norm_num) (by omega) (by omega)]
        unfold ieeeDenote
        rw [if_neg (by norm_num), if_neg (by omega)]; simp
      have hpos : (0 : ℚ) < 2 ^ (1 - bias E - F) := two_zpow_pos _
      have hmin : ieeeMin E = ((2 ^ F : ℕ) : ℚ) * 2 ^ (1 - bias E - F) := by
        unfold ieeeMin
        push_cast
        rw [← zpow_natCast, ← zpow_add₀ (by norm_num)]; congr 1; ring
      have hlim : ieeeMin E * 2 ≤ ieeeLimit E := by
        unfold ieeeMin ieeeLimit
        rw [← zpow_add_one₀ (by norm_num)]
        apply zpow_le_zpow_right₀ (by norm_num)
        have := (two_bias h1E).1
        have hc : (16 : ℤ) ≤ 2 ^ E := by exact_mod_cast hpE
        omega
      have hF2 : (2 : ℚ) ≤ ((2 ^ F : ℕ) : ℚ) := by exact_mod_cast hpF
      have ha : ieeeRange E (Ieee.mk3 E F 0 1 1).datum = .num (((2 ^ F + 1 : ℕ) : ℚ) * 2 ^ (1 - bias E - F)) := by
        rw [hx]; simp only [ieeeRange]
        rw [abs_of_pos (by positivity), if_neg, if_neg]
        · push_cast at *; nlinarith
        · push_cast at *; nlinarith
      have hb : ieeeRange E (Ieee.mk3 E F 1 1 0).datum = .num (-(((2 ^ F : ℕ) : ℚ) * 2 ^ (1 - bias E - F))) := by
        rw [hy]; simp only [ieeeRange]
        rw [abs_neg, abs_of_pos (by positivity), if_neg, if_neg]
        · rw [← hmin]; nlinarith
        · rw [← hmin]; exact lt_irrefl _
      have hsum : ((2 ^ F + 1 : ℕ) : ℚ) * 2 ^ (1 - bias E - F) + -(((2 ^ F : ℕ) : ℚ) * 2 ^ (1 - bias E - F)) = 2 ^ (1 - bias E - F) := by
        push_cast; ring
      obtain ⟨r, hr, hd⟩ := H (Ieee.mk3 E F 0 1 1) (Ieee.mk3 E F 1 1 0)
      rw [ha, hb] at hd
      have h' := (C29_add_correct_operands_iff hE hF hfit _ _ r _ _ ha hb hr).mp hd
      rw [hsum, abs_of_pos hpos] at h'
      rcases h' with h0 | h0
      · exact hpos.ne' h0
      · have h1 := (zpow_le_zpow_iff_right₀ (by norm_num : (1 : ℚ) < 2)).mp h0
        have h2 : (2 : ℤ) ^ (E + 1) + 1 < F := by exact_mod_cast hbig
        omega
  · rintro ⟨hok, hw⟩ a b
    cases h : addSpecial (ieeeRange E a.datum) (ieeeRange E b.datum) with
    | some d =>
      obtain ⟨r, hr, rfl⟩ := C29_add_special_partial (by omega) hF hok a b d h
      refine ⟨r, hr, ?_⟩
      rw [exactAdd, h, Option.getD_some]
      by_cases hn : ∃ w, r.datum = .num w
      · obtain ⟨w, hw⟩ := hn
        have hside : ieeeRange E a.datum = .num w ∨ ieeeRange E b.datum = .num w := by
          rw [hw] at h
          revert h
          cases ieeeRange E a.datum with
          | nan => cases ieeeRange E b.datum <;> simp [addSpecial]
          | inf s => cases ieeeRange E b.datum with
            | inf t => cases s <;> cases t <;> simp [addSpecial]
            | _ => simp [addSpecial]
          | zero s => cases ieeeRange E b.datum <;> simp [addSpecial]
          | num u => cases ieeeRange E b.datum <;> simp [addSpecial] <;> tauto
        have hw' : w ≠ 0 ∧ IeeeRounded E F w (.num w) := by
          rcases hside with h | h
          · exact ieee_self (by omega) hF a h
          · exact ieee_self (by omega) hF b h
        rw [hw]
        change if w = 0 then _ else _
        rw [if_neg hw'.1]; exact hw'.2
      · push Not at hn
        exact ieeeDelivers_special hn
    | none =>
      obtain ⟨p, q, hp, hq⟩ := (C17_addSpecial_domain _ _).mp h
      have hs : ∃ r, IeeeOps.add a b = some r := by
        rw [← ieeeToFlopoco_datum h1E hF] at hp hq
        have hfl : (ieeeToFlopoco a).flags = (ieeeToFlopoco b).flags := by rw [(datum_num_iff.mp hp).1, (datum_num_iff.mp hq).1]
        obtain ⟨t, ht⟩ := Option.ne_none_iff_exists'.mp fun hc => ((AddDual.addSame_none (by omega) hF hfl).mp hc).1 hok
        exact ⟨flopocoToIeee t, by unfold IeeeOps.add; rw [ht]; rfl⟩
      obtain ⟨r, hr⟩ := hs
      refine ⟨r, hr, ?_⟩
      rw [exactAdd, h, hp, hq]
      refine (C29_add_correct_operands_iff hE hF hfit a b r p q hp hq hr).mpr ?_
      by_cases hz : p + q = 0
      · exact Or.inl hz
      · right
        refine le_trans (zpow_le_zpow_right₀ (by norm_num) ?_) (ieee_sum_ge (by omega) hF hp hq hz)
        have : (F : ℤ) ≤ 2 ^ (E + 1) + 1 := by exact_mod_cast hw
        omega

/-- **C83.** The sum module on IEEE words is right for every pair of words exactly in these formats. -/
theorem C83_ieee_add_module_iff {E F : ℕ} (hE : 3 < E) (hF : 1 ≤ F) (hfit : F + 2 < 2 ^ (E + 2)) :
    IeeeModuleRight E F exactAdd (Modules.ieeeAdd E F) ↔ DualFormat E F ∧ F ≤ 2 ^ (E + 1) + 1 := by
  rw [← C29_add_correct_format_iff hE hF hfit]
  constructor
  · intro h a b
    obtain ⟨w, hw, -, hd⟩ := h a.bits b.bits a.isLt b.isLt
    unfold Modules.ieeeAdd at hw
    have ob : ∀ c : Ieee E F, Ieee.ofBits E F c.bits = c := by
      intro c; cases c; unfold Ieee.ofBits; congr 1; exact Nat.mod_eq_of_lt ‹_›
    rw [ob, ob] at hw
    obtain ⟨r, hr, rfl⟩ := Option.map_eq_some_iff.mp hw
    refine ⟨r, hr, ?_⟩
    rw [ieee_wordDatum (by omega) hF, ieee_wordDatum (by omega) hF, ieee_wordDatum (by omega) hF]
    exact hd
  · exact fun h => ieee_module_right (by omega) hF exactAdd (fun x y => IeeeOps.add x y) h

/-- **C83.** Of the formats that are generated the sum module on IEEE words is right for every pair of words exactly in these: with four
exponent bits up to 33 fraction bits, with five up to 65, and with seven or more all but 61 fraction bits. -/
theorem C83_generated_ieee_add_iff {E F : ℕ} (hE : 4 ≤ E) (hE' : E ≤ 13) (hF : 4 ≤ F) (hF' : F ≤ 112) (hfit : F + 2 < 2 ^ (E + 2)) :
    IeeeModuleRight E F exactAdd (Modules.ieeeAdd E F) ↔ (E = 4 → F ≤ 33) ∧ (E = 5 → F ≤ 65) ∧ ¬ (F = 61 ∧ 7 ≤ E) := by
  rw [C83_ieee_add_module_iff (by omega) (by omega) hfit]
  have hdual : DualFormat E F ↔ ¬ (F = 61 ∧ 7 ≤ E) := by
    constructor
    · rintro h ⟨rfl, h7⟩
      have := h 6 (by norm_num)
      omega
    · intro h k hk
      by_contra hc
      push Not at hc
      have hk7 : k < 7 := by
        by_contra h7
        have : 2 ^ 7 ≤ 2 ^ k := Nat.pow_le_pow_right (by norm_num) (by omega)
        omega
      interval_cases k <;> omega
  rw [hdual]
  have hfm : F ≤ 2 ^ (E + 1) + 1 ↔ (E = 4 → F ≤ 33) ∧ (E = 5 → F ≤ 65) := by
    interval_cases E <;> norm_num <;> omega
  rw [hfm]
  tauto

/-- The statements apply to binary16, binary32 and binary64, in which the module is right, and to (8,61), in which it is not:
there adding a zero to `2^(126-127)` fails the assertion. -/
example : IeeeModuleRight 5 10 exactAdd (Modules.ieeeAdd 5 10) ∧ IeeeModuleRight 8 23 exactAdd (Modules.ieeeAdd 8 23) ∧
    IeeeModuleRight 11 52 exactAdd (Modules.ieeeAdd 11 52) ∧ ¬ IeeeModuleRight 8 61 exactAdd (Modules.ieeeAdd 8 61) ∧
    IeeeOps.add (Ieee.mk3 8 61 0 126 0) (Ieee.mk3 8 61 0 0 0) = none := by
  refine ⟨?_, ?_, ?_, ?_, by decide +kernel⟩ <;> rw [C83_generated_ieee_add_iff] <;> norm_num

/-- Two normal numbers of (4,34) that differ by one unit in the last place of the smallest normal number: the difference is returned, and is
an infinity or a number where a zero is right. -/
example : (IeeeOps.add (Ieee.mk3 4 34 0 1 1) (Ieee.mk3 4 34 1 1 0)).map (fun r => decide (r.exp = 0)) = some false ∧
    (IeeeOps.add (Ieee.mk3 4 33 0 1 1) (Ieee.mk3 4 33 1 1 0)).map (fun r => decide (r.exp = 0)) = some true := by
  decide +kernel

end Thls
