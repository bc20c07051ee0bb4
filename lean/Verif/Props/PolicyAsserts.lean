import Verif.Props.PolicyInput
import Verif.Props.AddMore

/-! # C74, C86: the policy tests in the formats in which the adder asserts -/

namespace Thls
open Spec PolicyInput PolicyTest

theorem foldlM_none {α β : Type} {f : β → α → Option β} {l : List α} {a : α} (ha : a ∈ l) (h : ∀ r, f r a = none) (r : β) :
    l.foldlM f r = none := by
  induction l generalizing r with
  | nil => cases ha
  | cons b t ih =>
    rw [List.foldlM_cons]
    rcases List.mem_cons.1 ha with rfl | ha
    · rw [h]; rfl
    · cases f r b with
      | none => rfl
      | some r' => exact ih ha r'

/-- **C74.** Whatever the policy: if its addition does not return for one pair of inputs, neither does the test. -/
theorem C74_addition_must_return {V : Type} (P : TestPolicy V) {input : List V} {a b : V} (ha : a ∈ input) (hb : b ∈ input)
    (h : P.add a b = none) : testArithmetic P input = none := by
  have : testResults P input = none := by
    unfold testResults
    refine foldlM_none ha (fun r => ?_) _
    cases h1 : P.toMpfr a with
    | none => rfl
    | some inA =>
      refine foldlM_none (f := innerStep P a inA) hb (fun r => ?_) _
      unfold innerStep
      cases h2 : P.toMpfr b with
      | none => rfl
      | some inB =>
        have : pairChecks P a b inA inB = none := by
          unfold pairChecks
          cases operatorFails P (P.mul a b) (P.refMul inA inB) with
          | none => rfl
          | some m =>
            have : operatorFails P (P.add a b) (P.refAdd inA inB) = none := by rw [h]; rfl
            simp only [this]; rfl
        simp only [this, Option.bind_eq_bind, Option.bind_some, Option.bind_none]
  unfold testArithmetic
  rw [this]; rfl

theorem flopoco_ops_returned {E F : ℕ} (hE : 2 ≤ E) (hF : 1 ≤ F) (hfmt : F ≤ 2 ^ (E + 1)) (a b : Fp E F) {s : Fp E F}
    (hs : AddDual.addSame a b = some s) :
    ∃ p q, (policyFlopoco E F).mul a b = some p ∧ (policyFlopoco E F).div a b = some q ∧
      Delivers E F (exactMul a.datum b.datum) p.datum ∧ Delivers E F (exactAdd a.datum b.datum) s.datum ∧
      Delivers E F (exactDiv a.datum b.datum) q.datum := by
  obtain ⟨p, hp⟩ := mulV1_total (wFR := F) a b
  refine ⟨p, divV1 E F a b, hp, rfl, ?_, ?_, ?_⟩
  · refine exactMul_delivers (by omega) hF (fun d hd => C12_mul_exceptions (by omega) hF (by omega) a b p hp d hd) ?_
    intro vp vq h1 h2
    obtain ⟨s, hs, hd⟩ := C10_mul_correctly_rounded hE hF hF hF (by omega) a b vp vq h1 h2
    rw [hp] at hs
    rw [Option.some.inj hs]; exact hd
  · cases h : addSpecial a.datum b.datum with
    | some d =>
      have hd := AddDual.addSame_special_some hE hF h hs
      refine exactAdd_delivers (by omega) hF ?_ ?_
      · intro d' hd'; rw [h] at hd'; cases hd'; exact hd
      · intro p q hp hq; rw [hp, hq] at h; cases h
    | none =>
      obtain ⟨vp, vq, hp, hq⟩ : ∃ p q, a.datum = .num p ∧ b.datum = .num q := by
        revert h
        cases a.datum <;> cases b.datum <;> simp [addSpecial]
      obtain ⟨h1, h2, -⟩ := AddDual.addSame_sharp hE hF hp hq hs
      rw [hp, hq]
      change if vp + vq = 0 then _ else _
      by_cases h0 : vp + vq = 0
      · rw [if_pos h0]; exact h1 h0
      · rw [if_neg h0]
        refine h2 h0 (le_trans (zpow_le_zpow_right₀ (by norm_num) ?_) (AddDual.sum_ge hp hq h0))
        have : (F : ℤ) ≤ 2 * 2 ^ E := by rw [pow_succ] at hfmt; exact_mod_cast (by omega : F ≤ 2 * 2 ^ E)
        omega
  · refine exactDiv_delivers (by omega) hF ?_ ?_
    · exact fun d hd => C22_div_exceptions (by omega) hF (by omega) hF ⟨le_rfl, le_rfl⟩ ⟨le_rfl, le_rfl⟩ a b d hd
    · exact fun p q hp hq => C20_div_correctly_rounded hE (by omega) hF (by omega) hF ⟨le_rfl, le_rfl⟩ ⟨le_rfl, le_rfl⟩ a b p q hp hq

/-- **C74.** In every format with `F ≤ 2^(E+1)`: the test of `policy_flopoco<E,F>` completes exactly if the adder returns for all pairs of
inputs, and when it completes it reports a failure exactly if the list holds a NaN, or two encodings of the same infinity that differ in their
don't-care bits. -/
theorem C74_flopoco_verdict_returned {E F : ℕ} (hE : 2 ≤ E) (hF : 1 ≤ F) (hfmt : F ≤ 2 ^ (E + 1)) (input : List (Fp E F)) :
    (testArithmetic (policyFlopoco E F) input = none ↔ ∃ a ∈ input, ∃ b ∈ input, AddDual.addSame a b = none) ∧
    ∀ bad, testArithmetic (policyFlopoco E F) input = some bad → (bad = true ↔ (∃ v ∈ input, v.datum = .nan) ∨
      ∃ a ∈ input, ∃ b ∈ input, ∃ s, a.datum = .inf s ∧ b.datum = .inf s ∧ ¬ (a.exp = b.exp ∧ a.frac = b.frac)) := by
  by_cases hret : ∃ a ∈ input, ∃ b ∈ input, AddDual.addSame a b = none
  · obtain ⟨a, ha, b, hb, h⟩ := hret
    have hn := C74_addition_must_return (policyFlopoco E F) ha hb h
    refine ⟨⟨fun _ => ⟨a, ha, b, hb, h⟩, fun _ => hn⟩, fun bad hbad => ?_⟩
    rw [hn] at hbad; cases hbad
  · have hall : ∀ a ∈ input, ∀ b ∈ input, ∃ p s q, (policyFlopoco E F).mul a b = some p ∧ (policyFlopoco E F).add a b = some s ∧
        (policyFlopoco E F).div a b = some q ∧ Delivers E F (exactMul a.datum b.datum) p.datum ∧
        Delivers E F (exactAdd a.datum b.datum) s.datum ∧ Delivers E F (exactDiv a.datum b.datum) q.datum := by
      intro a ha b hb
      cases hs : AddDual.addSame a b with
      | none => exact absurd ⟨a, ha, b, hb, hs⟩ hret
      | some s =>
        obtain ⟨p, q, h1, h2, h3, h4, h5⟩ := flopoco_ops_returned hE hF hfmt a b hs
        exact ⟨p, s, q, h1, hs, h2, h3, h4, h5⟩
    have hS := flopoco_sound hE hF (P := policyFlopoco E F) ⟨rfl, rfl, rfl, rfl, rfl⟩
    have hops : ∀ a ∈ input, ∀ b ∈ input, ∃ p s q, (policyFlopoco E F).mul a b = some p ∧ (policyFlopoco E F).add a b = some s ∧
        (policyFlopoco E F).div a b = some q ∧ True ∧ True ∧ True := by
      intro a ha b hb
      obtain ⟨p, s, q, h1, h2, h3, -⟩ := hall a ha b hb
      exact ⟨p, s, q, h1, h2, h3, trivial, trivial, trivial⟩
    have main : ∃ bad, testArithmetic (policyFlopoco E F) input = some bad ∧ (bad = true ↔ (∃ v ∈ input, v.datum = .nan) ∨
        ∃ a ∈ input, ∃ b ∈ input, ∃ s, a.datum = .inf s ∧ b.datum = .inf s ∧ ¬ (a.exp = b.exp ∧ a.frac = b.frac)) := by
      by_cases hn : ∃ v ∈ input, v.datum = .nan
      · obtain ⟨v, hv, hd⟩ := hn
        refine ⟨true, nan_fails hS (fun _ _ => trivial) hops hv hd ?_, by simp only [true_iff]; exact Or.inl ⟨v, hv, hd⟩⟩
        exact (cmp_nan (by omega) hF (by omega) hF v v (Or.inl ((datum_nan_iff v).1 hd))).2.2.2.2.1
      · obtain ⟨bad, hb, hiff⟩ := oracle hS (fun v hv => ⟨trivial, fun h => hn ⟨v, hv, h⟩⟩) hops
        refine ⟨bad, hb, ?_⟩
        rw [← Bool.not_eq_false, hiff]
        have hcmp : ∀ a ∈ input, ∀ b ∈ input, _ := fun a ha b hb =>
          flopoco_compare (show 1 ≤ E by omega) hF (a := a) (b := b) (fun h => hn ⟨a, ha, h⟩) (fun h => hn ⟨b, hb, h⟩)
        constructor
        · intro h
          right
          by_contra hc
          apply h
          intro a ha b hb
          obtain ⟨p, s, q, h1, h2, h3, d1, d2, d3⟩ := hall a ha b hb
          refine ⟨(hcmp a ha b hb).2 ?_, ?_, ?_, ?_⟩
          · intro s ha' hb'
            by_contra hx
            exact hc ⟨a, ha, b, hb, s, ha', hb', hx⟩
          · intro p' hp
            obtain rfl : p = p' := Option.some.inj (h1.symm.trans hp)
            exact ⟨_, d1, sameValue_refl _⟩
          · intro p' hp
            obtain rfl : s = p' := Option.some.inj (h2.symm.trans hp)
            exact ⟨_, d2, sameValue_refl _⟩
          · intro p' hp
            obtain rfl : q = p' := Option.some.inj (h3.symm.trans hp)
            exact ⟨_, d3, sameValue_refl _⟩
        · rintro (h | ⟨a, ha, b, hb, s, ha', hb', hx⟩)
          · exact absurd h hn
          · intro h
            exact hx ((hcmp a ha b hb).1 (h a ha b hb).1 s ha' hb')
    obtain ⟨bad, h1, h2⟩ := main
    refine ⟨⟨fun h => ?_, fun h => absurd h hret⟩, fun bad' hb => ?_⟩
    · rw [h1] at h; cases h
    · rw [h1] at hb; injection hb with hb; subst hb; exact h2

/-- In the format (4,1) the test of the two inputs 1 and 2 completes and passes, that of 1 and 64 asserts. -/
example : ¬ DualFormat 4 1 ∧ testArithmetic (policyFlopoco 4 1) [Fp.mk4 4 1 1 0 7 0, Fp.mk4 4 1 1 0 8 0] = some false ∧
    testArithmetic (policyFlopoco 4 1) [Fp.mk4 4 1 1 0 7 0, Fp.mk4 4 1 1 0 13 0] = none := by
  refine ⟨fun h => ?_, by decide +kernel, by decide +kernel⟩
  have := h 2 rfl
  omega

theorem ieee_ops_returned {E F : ℕ} (hE : 2 ≤ E) (hF : 1 ≤ F) (hfmt : F ≤ 2 ^ (E + 1)) (a b : Ieee E F) {s : Ieee E F}
    (hs : IeeeOps.add a b = some s) :
    IeeeDelivers E F (exactAdd (ieeeRange E a.datum) (ieeeRange E b.datum)) (ieeeRange E s.datum) := by
  unfold IeeeOps.add at hs
  obtain ⟨r, hr, rfl⟩ := Option.map_eq_some_iff.mp hs
  have e1 := ieeeToFlopoco_datum (show 1 ≤ E by omega) hF a
  have e2 := ieeeToFlopoco_datum (show 1 ≤ E by omega) hF b
  rw [flopocoToIeee_datum hE hF]
  cases h : addSpecial (ieeeRange E a.datum) (ieeeRange E b.datum) with
  | some d =>
    have hd := AddDual.addSame_special_some hE hF (by rw [e1, e2]; exact h) hr
    rw [exactAdd, h, Option.getD_some, hd, addSpecial_range h, addSpecial_range h]
    by_cases hn : ∃ w, d = .num w
    · obtain ⟨w, rfl⟩ := hn
      have hside : ieeeRange E a.datum = .num w ∨ ieeeRange E b.datum = .num w := by
        revert h
        cases ieeeRange E a.datum with
        | nan => cases ieeeRange E b.datum <;> simp [addSpecial]
        | inf s => cases ieeeRange E b.datum with
          | inf t => cases s <;> cases t <;> simp [addSpecial]
          | _ => simp [addSpecial]
        | zero s => cases ieeeRange E b.datum <;> simp [addSpecial]
        | num u => cases ieeeRange E b.datum <;> simp [addSpecial] <;> tauto
      have hw' : w ≠ 0 ∧ IeeeRounded E F w (.num w) := by
        rcases hside with h | h
        · exact ieee_self hE hF a h
        · exact ieee_self hE hF b h
      change if w = 0 then _ else _
      rw [if_neg hw'.1]; exact hw'.2
    · push Not at hn
      exact ieeeDelivers_special hn
  | none =>
    obtain ⟨vp, vq, h1, h2⟩ : ∃ p q, ieeeRange E a.datum = .num p ∧ ieeeRange E b.datum = .num q := by
      revert h
      cases ieeeRange E a.datum <;> cases ieeeRange E b.datum <;> simp [addSpecial]
    have d1 : (ieeeToFlopoco a).datum = .num vp := by rw [e1, h1]
    have d2 : (ieeeToFlopoco b).datum = .num vq := by rw [e2, h2]
    obtain ⟨g1, g2, -⟩ := AddDual.addSame_sharp hE hF d1 d2 hr
    rw [h1, h2]
    change if vp + vq = 0 then _ else _
    by_cases h0 : vp + vq = 0
    · rw [if_pos h0, g1 h0]; rfl
    · rw [if_neg h0]
      have : IeeeRounded E F (vp + vq) (ieeeRange E r.datum) := ieee_range_of_rounded (by omega) (g2 h0 (by
        refine le_trans (zpow_le_zpow_right₀ (by norm_num) ?_) (AddDual.sum_ge d1 d2 h0)
        have : (F : ℤ) ≤ 2 * 2 ^ E := by rw [pow_succ] at hfmt; exact_mod_cast (by omega : F ≤ 2 * 2 ^ E)
        omega))
      rw [ieeeRounded_range this]; exact this

theorem ieee_mul_div {E F : ℕ} (hE : 2 ≤ E) (hF : 1 ≤ F) (a b : Ieee E F) :
    ∃ p q, (policyIeeeOnFlopoco E F).mul a b = some p ∧ (policyIeeeOnFlopoco E F).div a b = some q ∧
      IeeeDelivers E F (exactMul (ieeeRange E a.datum) (ieeeRange E b.datum)) (ieeeRange E p.datum) ∧
      IeeeDelivers E F (exactDiv (ieeeRange E a.datum) (ieeeRange E b.datum)) (ieeeRange E q.datum) := by
  have hp : ∃ p, IeeeOps.mul a b = some p ∧
      IeeeDelivers E F (exactMul (ieeeRange E a.datum) (ieeeRange E b.datum)) (ieeeRange E p.datum) := by
    cases h : mulSpecial (ieeeRange E a.datum) (ieeeRange E b.datum) with
    | some d =>
      obtain ⟨r, hr, rfl⟩ := C29_mul_special hE hF a b d h
      refine ⟨r, hr, ?_⟩
      rw [exactMul, h, Option.getD_some, mulSpecial_range h]
      apply ieeeDelivers_special
      intro w hw
      rw [hw] at h
      revert h
      cases ieeeRange E a.datum <;> cases ieeeRange E b.datum <;> simp [mulSpecial]
    | none =>
      obtain ⟨vp, vq, h1, h2⟩ : ∃ p q, ieeeRange E a.datum = .num p ∧ ieeeRange E b.datum = .num q := by
        revert h
        cases ieeeRange E a.datum <;> cases ieeeRange E b.datum <;> simp [mulSpecial]
      obtain ⟨r, hr, hd⟩ := C29_mul hE hF a b vp vq h1 h2
      refine ⟨r, hr, ?_⟩
      rw [h1, h2]
      exact ieeeDelivers_num (mul_ne_zero (SoftFmt.ieeeRange_num_ne h1) (SoftFmt.ieeeRange_num_ne h2)) hd
  have hq : IeeeDelivers E F (exactDiv (ieeeRange E a.datum) (ieeeRange E b.datum)) (ieeeRange E (IeeeOps.div a b).datum) := by
    cases h : divSpecial (ieeeRange E a.datum) (ieeeRange E b.datum) with
    | some d =>
      have hr := C29_div_special hE hF a b d h
      rw [exactDiv, h, Option.getD_some, hr, divSpecial_range h]
      apply ieeeDelivers_special
      intro w hw
      rw [hw] at h
      revert h
      cases ieeeRange E a.datum <;> cases ieeeRange E b.datum <;> simp [divSpecial]
    | none =>
      obtain ⟨vp, vq, h1, h2⟩ : ∃ p q, ieeeRange E a.datum = .num p ∧ ieeeRange E b.datum = .num q := by
        revert h
        cases ieeeRange E a.datum <;> cases ieeeRange E b.datum <;> simp [divSpecial]
      have hd := C29_div hE hF a b vp vq h1 h2
      rw [h1, h2]
      exact ieeeDelivers_num (div_ne_zero (SoftFmt.ieeeRange_num_ne h1) (SoftFmt.ieeeRange_num_ne h2)) hd
  obtain ⟨p, hp, dp⟩ := hp
  exact ⟨p, IeeeOps.div a b, hp, rfl, dp, hq⟩

/-- **C74.** In every format with `F ≤ 2^(E+1)`: the test of `policy_ieee_on_flopoco<E,F>` completes exactly if the adder returns for all pairs
of inputs, and when it completes it reports a failure exactly if the list holds a NaN. -/
theorem C74_ieee_verdict_returned {E F : ℕ} (hE : 2 ≤ E) (hF : 1 ≤ F) (hfmt : F ≤ 2 ^ (E + 1)) (input : List (Ieee E F)) :
    (testArithmetic (policyIeeeOnFlopoco E F) input = none ↔ ∃ a ∈ input, ∃ b ∈ input, IeeeOps.add a b = none) ∧
    ∀ bad, testArithmetic (policyIeeeOnFlopoco E F) input = some bad → (bad = true ↔ ∃ v ∈ input, v.datum = .nan) := by
  by_cases hret : ∃ a ∈ input, ∃ b ∈ input, IeeeOps.add a b = none
  · obtain ⟨a, ha, b, hb, h⟩ := hret
    have hn := C74_addition_must_return (policyIeeeOnFlopoco E F) ha hb h
    refine ⟨⟨fun _ => ⟨a, ha, b, hb, h⟩, fun _ => hn⟩, fun bad hbad => ?_⟩
    rw [hn] at hbad; cases hbad
  · have hall : ∀ a ∈ input, ∀ b ∈ input, ∃ p s q, (policyIeeeOnFlopoco E F).mul a b = some p ∧
        (policyIeeeOnFlopoco E F).add a b = some s ∧ (policyIeeeOnFlopoco E F).div a b = some q ∧
        IeeeDelivers E F (exactMul (ieeeRange E a.datum) (ieeeRange E b.datum)) (ieeeRange E p.datum) ∧
        IeeeDelivers E F (exactAdd (ieeeRange E a.datum) (ieeeRange E b.datum)) (ieeeRange E s.datum) ∧
        IeeeDelivers E F (exactDiv (ieeeRange E a.datum) (ieeeRange E b.datum)) (ieeeRange E q.datum) := by
      intro a ha b hb
      cases hs : IeeeOps.add a b with
      | none => exact absurd ⟨a, ha, b, hb, hs⟩ hret
      | some s =>
        obtain ⟨p, q, h1, h2, h3, h4⟩ := ieee_mul_div hE hF a b
        exact ⟨p, s, q, h1, hs, h2, h3, ieee_ops_returned hE hF hfmt a b hs, h4⟩
    have hS := ieee_sound hE hF (P := policyIeeeOnFlopoco E F) ⟨rfl, rfl, rfl, rfl, rfl⟩
    have hops : ∀ a ∈ input, ∀ b ∈ input, ∃ p s q, (policyIeeeOnFlopoco E F).mul a b = some p ∧
        (policyIeeeOnFlopoco E F).add a b = some s ∧ (policyIeeeOnFlopoco E F).div a b = some q ∧ True ∧ True ∧ True := by
      intro a ha b hb
      obtain ⟨p, s, q, h1, h2, h3, -⟩ := hall a ha b hb
      exact ⟨p, s, q, h1, h2, h3, trivial, trivial, trivial⟩
    have hr : ∀ d : Datum, ieeeRange E d = .nan ↔ d = .nan := by
      intro d
      cases d with
      | num q => simp only [ieeeRange]; split_ifs <;> simp
      | _ => simp [ieeeRange]
    have main : ∃ bad, testArithmetic (policyIeeeOnFlopoco E F) input = some bad ∧ (bad = true ↔ ∃ v ∈ input, v.datum = .nan) := by
      by_cases hn : ∃ v ∈ input, v.datum = .nan
      · obtain ⟨v, hv, hd⟩ := hn
        refine ⟨true, nan_fails hS (fun _ _ => trivial) hops hv ((hr _).2 hd) ?_, by simp only [true_iff]; exact ⟨v, hv, hd⟩⟩
        exact ((C29_comparisons hE hF v v).2 (Or.inl hd)).2.2.2.2.1
      · obtain ⟨bad, hb, hiff⟩ := oracle hS (fun v hv => ⟨trivial, fun h => hn ⟨v, hv, (hr _).1 h⟩⟩) hops
        refine ⟨bad, hb, ?_⟩
        have : bad = false := by
          rw [hiff]
          intro a ha b hb
          obtain ⟨p, s, q, h1, h2, h3, d1, d2, d3⟩ := hall a ha b hb
          obtain ⟨c1, c2, c3, c4, c5, c6⟩ := (C29_comparisons hE hF a b).1 (fun h => hn ⟨a, ha, h⟩) (fun h => hn ⟨b, hb, h⟩)
          refine ⟨⟨c5, c6, c1, c2, c3, c4⟩, ?_, ?_, ?_⟩
          · intro p' hp
            obtain rfl : p = p' := Option.some.inj (h1.symm.trans hp)
            exact ⟨_, d1, sameValue_refl _⟩
          · intro p' hp
            obtain rfl : s = p' := Option.some.inj (h2.symm.trans hp)
            exact ⟨_, d2, sameValue_refl _⟩
          · intro p' hp
            obtain rfl : q = p' := Option.some.inj (h3.symm.trans hp)
            exact ⟨_, d3, sameValue_refl _⟩
        simp [this, hn]
    obtain ⟨bad, h1, h2⟩ := main
    refine ⟨⟨fun h => ?_, fun h => absurd h hret⟩, fun bad' hb => ?_⟩
    · rw [h1] at h; cases h
    · rw [h1] at hb; injection hb with hb; subst hb; exact h2

/-- In the format (4,1) the test of the two words 1 and 2 completes and passes, that of 1 and 64 asserts. -/
example : testArithmetic (policyIeeeOnFlopoco 4 1) [Ieee.mk3 4 1 0 7 0, Ieee.mk3 4 1 0 8 0] = some false ∧
    testArithmetic (policyIeeeOnFlopoco 4 1) [Ieee.mk3 4 1 0 7 0, Ieee.mk3 4 1 0 13 0] = none := by
  decide +kernel

/-- The exponent field of a power of two. -/
theorem exp_of_pow {E F : ℕ} (hF : 1 ≤ F) {x : Fp E F} {k : ℤ} (h : x.datum = .num (2 ^ k)) : (x.exp : ℤ) = k + bias E := by
  obtain ⟨h1, h2⟩ := num_exp_bounds hF h
  rw [abs_of_pos (two_zpow_pos k)] at h1 h2
  have g1 := (zpow_le_zpow_iff_right₀ (by norm_num : (1 : ℚ) < 2)).mp h1
  have g2 := (zpow_lt_zpow_iff_right₀ (by norm_num : (1 : ℚ) < 2)).mp h2
  omega

/-- The formats that are not `DualFormat`. -/
theorem not_dual {E F : ℕ} (h : ¬ DualFormat E F) : ∃ k, F + 3 = 2 ^ k ∧ k < E := by
  unfold DualFormat AddDual.ShiftOk at h
  push Not at h
  obtain ⟨k, h1, h2, -⟩ := h
  exact ⟨k, h1, h2⟩

theorem not_dual_bias {E F : ℕ} (hE : 1 ≤ E) (h : ¬ DualFormat E F) : (F : ℤ) + 2 = bias E ∨ 2 * ((F : ℤ) + 3) ≤ bias E + 1 := by
  obtain ⟨k, h1, h2⟩ := not_dual h
  obtain ⟨b1, -⟩ := two_bias hE
  have h1' : (F : ℤ) + 3 = 2 ^ k := by exact_mod_cast h1
  have b2 : (2 : ℤ) ^ E = 2 * 2 ^ (E - 1) := by
    conv_lhs => rw [show E = (E - 1) + 1 by omega, pow_succ]
    ring
  rcases Nat.lt_or_ge k (E - 1) with hk | hk
  · right
    have : (2 : ℤ) ^ (k + 1) ≤ 2 ^ (E - 1) := pow_le_pow_right₀ (by norm_num) hk
    rw [pow_succ] at this
    omega
  · left
    obtain rfl : k = E - 1 := by omega
    omega

/-- The representable powers of two among the fixed inputs. -/
theorem PolicyInput.Window.has_power {V : Type} {P : TestPolicy V} {L : TestLimits V} {D : V → Datum} {good : V → Prop} {F : ℕ} {lo hi b : ℤ}
    (w : Window P L D good F lo hi) (r : Room F lo hi b) (hF2 : F + 7 < 1024) {n : ℕ} {draws : ℕ → ℕ × ℕ} {l : List V}
    (hl : makeInput P L n draws = some l) {j : ℤ} (j1 : -(F : ℤ) - 7 < j) (j2 : j ≤ F + 7) (j3 : lo ≤ j) (j4 : j ≤ hi) :
    ∃ x ∈ l, D x = .num (2 ^ j) := by
  obtain ⟨l0, l', h1, h2, -, h4, -⟩ := w.input r n draws
  obtain rfl : l' = l := Option.some.inj (h2.symm.trans hl)
  obtain ⟨l0', f1, -, -, f4⟩ := w.fixed r
  obtain rfl : l0' = l0 := Option.some.inj (f1.symm.trans h1)
  have := (powers_value w hF2 (.num (2 ^ j))).2 (.inr (.inr ⟨j, j1, j2, j3, j4, .inl rfl⟩))
  rcases this with ⟨s, h⟩ | ⟨s, h⟩ | h
  · cases h
  · cases h
  · obtain ⟨x, hx, dx⟩ := (f4 (.num (2 ^ j))).2 (.inr (.inr h))
    exact ⟨x, List.mem_of_mem_take (h4 ▸ hx), dx⟩

/-- **C86.** `test_arithmetic(n)` of `policy_flopoco<E,F>` completes, whatever the number of inputs and the draws, exactly in the formats in which
the adder cannot assert; in the others the powers of two among its fixed inputs make the adder assert. -/
theorem C86_flopoco_completes_iff {E F : ℕ} (hE : 3 < E) (hF : 1 ≤ F) (hfmt : F ≤ 2 ^ (E + 1)) (hF2 : F + 7 < 1024) (n : ℕ)
    (draws : ℕ → ℕ × ℕ) : test (policyFlopoco E F) (limitsFlopoco E F) n draws ≠ none ↔ DualFormat E F := by
  constructor
  · intro hne
    by_contra hd
    apply hne
    have hbias := not_dual_bias (show 1 ≤ E by omega) hd
    obtain ⟨b1, b2⟩ := two_bias (show 1 ≤ E by omega)
    obtain ⟨b, hb⟩ := flopoco_room hF (⟨by omega, by omega⟩ : 3 ≤ E ∧ (E = 3 → 2 ≤ F))
    have win := flopoco_window (show 1 ≤ E by omega) hF
    obtain ⟨l0, l, h1, h2, -⟩ := win.input hb n draws
    obtain ⟨x, hx, dx⟩ := win.has_power hb hF2 h2 (j := F + 2) (by omega) (by omega) (by omega) (by omega)
    obtain ⟨y, hy, dy⟩ := win.has_power hb hF2 h2 (j := -(F + 2)) (by omega) (by omega) (by omega) (by omega)
    rw [test, h2]
    refine C74_addition_must_return _ hx hy ((C19_add_dual_asserts_iff hE hF x y _ _ dx dy).2 ⟨hd, .inl ?_⟩)
    rw [exp_of_pow hF dx, exp_of_pow hF dy, abs_of_nonneg (by omega)]
    omega
  · intro hd hn
    obtain ⟨bad, h, -⟩ := C86_flopoco_verdict_partial hF (⟨by omega, by omega⟩ : 3 ≤ E ∧ (E = 3 → 2 ≤ F)) hd hfmt n draws
    rw [hn] at h; cases h

/-- **C86.** The same for `policy_ieee_on_flopoco<E,F>`. -/
theorem C86_ieee_completes_iff {E F : ℕ} (hE : 3 < E) (hF : 1 ≤ F) (hfmt : F ≤ 2 ^ (E + 1)) (hF2 : F + 7 < 1024) (n : ℕ)
    (draws : ℕ → ℕ × ℕ) : test (policyIeeeOnFlopoco E F) (limitsIeee E F) n draws ≠ none ↔ DualFormat E F := by
  constructor
  · intro hne
    by_contra hd
    apply hne
    have h1E : 1 ≤ E := by omega
    have hbias := not_dual_bias h1E hd
    obtain ⟨b1, b2⟩ := two_bias h1E
    obtain ⟨b, hb⟩ := ieee_room hF (⟨by omega, by omega⟩ : 3 ≤ E ∧ (E = 3 → 3 ≤ F))
    have win := ieee_window (show 2 ≤ E by omega) hF
    obtain ⟨l0, l, h1, h2, -, h4, -⟩ := win.input hb n draws
    have hnum : ∀ {j : ℤ} {x : Ieee E F}, 1 - bias E ≤ j → j ≤ bias E → x.datum = .num (2 ^ j) → (ieeeToFlopoco x).datum = .num (2 ^ j) := by
      intro j x hj hj' hx
      rw [ieeeToFlopoco_datum h1E hF, hx]
      unfold ieeeRange ieeeMin ieeeLimit
      dsimp only
      rw [abs_of_pos (two_zpow_pos j), if_neg (not_lt.2 (zpow_le_zpow_right₀ (by norm_num) hj)),
        if_neg (not_le.2 (zpow_lt_zpow_right₀ (by norm_num) (by omega)))]
    rw [test, h2]
    rcases hbias with hbias | hbias
    · obtain ⟨l0', f1, -, -, f4⟩ := win.fixed hb
      obtain rfl : l0' = l0 := Option.some.inj (f1.symm.trans h1)
      obtain ⟨x, hx, dx⟩ := (f4 (.inf false)).2 (.inr (.inl (.inr (.inl ⟨false, rfl⟩))))
      replace hx := List.mem_of_mem_take (h4 ▸ hx)
      obtain ⟨y, hy, dy⟩ := (f4 (.num (2 ^ (1 - bias E)))).2 (.inr (.inl (.inr (.inr (.inl (.inl rfl))))))
      replace hy := List.mem_of_mem_take (h4 ▸ hy)
      refine C74_addition_must_return _ hx hy ?_
      change Option.map _ _ = none
      rw [(C19_add_dual_asserts_all_iff hE hF _ _).2 ⟨hd, .inl ?_⟩]; rfl
      have ey := exp_of_pow hF (hnum le_rfl (by omega) dy)
      have fy : (ieeeToFlopoco y).flags = 1 := (datum_num_iff.mp (hnum le_rfl (by omega) dy)).1
      obtain ⟨g1, -, g3, -⟩ := ieeeToFlopoco_fields h1E hF x
      have hx2 : x.flags = 2 ∧ x.exp = 2 ^ E - 1 := by
        change ieeeDenote E F x.sign x.exp x.frac = .inf false at dx
        unfold ieeeDenote at dx
        unfold Ieee.flags
        have hp : 2 ≤ 2 ^ E := by
          calc 2 = 2 ^ 1 := rfl
            _ ≤ 2 ^ E := Nat.pow_le_pow_right (by norm_num) h1E
        split_ifs at dx with c1 c2 c3 c4
        rw [if_neg c1, if_pos (show x.exp = ones E from c3), if_pos c4]
        exact ⟨rfl, c3⟩
      unfold ShiftDistance
      rw [if_pos (by rw [fy, g1, hx2.1]; norm_num), g3, hx2.2, ey, Nat.cast_sub Nat.one_le_two_pow]
      push_cast
      rw [Int.emod_eq_of_lt (by omega) (by omega)]
      omega
    · obtain ⟨x, hx, dx⟩ := win.has_power hb hF2 h2 (j := F + 2) (by omega) (by omega) (by omega) (by omega)
      obtain ⟨y, hy, dy⟩ := win.has_power hb hF2 h2 (j := -(F + 2)) (by omega) (by omega) (by omega) (by omega)
      refine C74_addition_must_return _ hx hy ?_
      change Option.map _ _ = none
      have ex := hnum (by omega) (by omega) dx
      have ey := hnum (by omega) (by omega) dy
      rw [(C19_add_dual_asserts_iff hE hF _ _ _ _ ex ey).2 ⟨hd, .inl ?_⟩]; rfl
      rw [exp_of_pow hF ex, exp_of_pow hF ey, abs_of_nonneg (by omega)]
      omega
  · intro hd hn
    obtain ⟨bad, h, -⟩ := C86_ieee_verdict_partial hF (⟨by omega, by omega⟩ : 3 ≤ E ∧ (E = 3 → 3 ≤ F)) hd hfmt n draws
    rw [hn] at h; cases h

/-- Of the formats below, the test of the first and the third never completes and that of the second always does. -/
example (n : ℕ) (draws : ℕ → ℕ × ℕ) : test (policyFlopoco 8 61) (limitsFlopoco 8 61) n draws = none ∧
    test (policyIeeeOnFlopoco 4 5) (limitsIeee 4 5) n draws ≠ none ∧ test (policyIeeeOnFlopoco 4 1) (limitsIeee 4 1) n draws = none := by
  refine ⟨?_, ?_, ?_⟩
  · by_contra h
    have := (C86_flopoco_completes_iff (E := 8) (F := 61) (by norm_num) (by norm_num) (by norm_num) (by norm_num) n draws).1 h 6 rfl
    omega
  · exact (C86_ieee_completes_iff (E := 4) (F := 5) (by norm_num) (by norm_num) (by norm_num) (by norm_num) n draws).2
      (fun k _ => .inr (.inl rfl))
  · by_contra h
    have := (C86_ieee_completes_iff (E := 4) (F := 1) (by norm_num) (by norm_num) (by norm_num) (by norm_num) n draws).1 h 2 rfl
    omega

end Thls
