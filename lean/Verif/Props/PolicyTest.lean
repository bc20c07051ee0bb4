import Verif.Proofs.PolicySoft

/-! # C74: the verdict of the policy test

`test_arithmetic` runs six comparisons and three operations on every pair of its inputs, compares them with MPFR and counts. The
input is any list here; `make_input` is the subject of C86. `none` stands for an exception or undefined behaviour. -/

namespace Thls
open Spec PolicyTest

/-- **C74.** For any policy: when the test completes on `n` inputs, each of the nine operations has been checked `n²` times, its failure
counter is the number of pairs on which its check fails, and nothing else has been counted. -/
theorem C74_counts {V : Type} {P : TestPolicy V} {input : List V} {r : Results} (h : testResults P input = some r) :
    (∀ op ∈ names, (r op).2 = input.length * input.length ∧
      (r op).1 = (input.map fun a => input.countP (fails P op a)).sum) ∧
    ∀ op, op ∉ names → r op = (0, 0) := by
  constructor
  · intro op hop
    rw [counts h op, if_pos hop]
    exact ⟨rfl, rfl⟩
  · intro op hop
    rw [counts h op, if_neg hop]

/-- **C74.** For any policy: a completed test reports a failure exactly if some check of some pair fails. -/
theorem C74_verdict {V : Type} {P : TestPolicy V} {input : List V} {bad : Bool} (h : testArithmetic P input = some bad) :
    bad = true ↔ ∃ a ∈ input, ∃ b ∈ input, ∃ op ∈ names, fails P op a b = true :=
  verdict h

/-- **C74.** The verdict of `policy_softfloat_single` whatever the operators: given 32-bit words other than NaNs and operators that return words, the
test passes exactly if every comparison of every pair is that of the extended reals and every result has the value of the IEEE 754 result
(the sign of a zero is not seen). -/
theorem C74_single_oracle {P : TestPolicy ℕ} (hP : SameReference P (policySoftSingle 32)) {input : List ℕ}
    (hin : ∀ w ∈ input, w < 2 ^ 32 ∧ wordDatum 8 23 w ≠ .nan)
    (hops : ∀ a ∈ input, ∀ b ∈ input, ∃ p s q, P.mul a b = some p ∧ P.add a b = some s ∧ P.div a b = some q ∧ p < 2 ^ 32 ∧ s < 2 ^ 32 ∧ q < 2 ^ 32) :
    ∃ bad, testArithmetic P input = some bad ∧ (bad = false ↔ ∀ a ∈ input, ∀ b ∈ input,
      ComparesRight (wordDatum 8 23 a) (wordDatum 8 23 b) (P.eq a b) (P.ne a b) (P.lt a b) (P.le a b) (P.gt a b) (P.ge a b) ∧
      (∀ p, P.mul a b = some p → ResultRight (IeeeProduct 8 23) (wordDatum 8 23 a) (wordDatum 8 23 b) (wordDatum 8 23 p)) ∧
      (∀ s, P.add a b = some s → ResultRight (IeeeSum 8 23) (wordDatum 8 23 a) (wordDatum 8 23 b) (wordDatum 8 23 s)) ∧
      ∀ q, P.div a b = some q → ResultRight (IeeeQuotient 8 23) (wordDatum 8 23 a) (wordDatum 8 23 b) (wordDatum 8 23 q)) :=
  oracle (soft_sound32 hP) hin hops

/-- **C74.** The same for `policy_softfloat_double`. -/
theorem C74_double_oracle {P : TestPolicy ℕ} (hP : SameReference P (policySoftDouble 64)) {input : List ℕ}
    (hin : ∀ w ∈ input, w < 2 ^ 64 ∧ wordDatum 11 52 w ≠ .nan)
    (hops : ∀ a ∈ input, ∀ b ∈ input, ∃ p s q, P.mul a b = some p ∧ P.add a b = some s ∧ P.div a b = some q ∧ p < 2 ^ 64 ∧ s < 2 ^ 64 ∧ q < 2 ^ 64) :
    ∃ bad, testArithmetic P input = some bad ∧ (bad = false ↔ ∀ a ∈ input, ∀ b ∈ input,
      ComparesRight (wordDatum 11 52 a) (wordDatum 11 52 b) (P.eq a b) (P.ne a b) (P.lt a b) (P.le a b) (P.gt a b) (P.ge a b) ∧
      (∀ p, P.mul a b = some p → ResultRight (IeeeProduct 11 52) (wordDatum 11 52 a) (wordDatum 11 52 b) (wordDatum 11 52 p)) ∧
      (∀ s, P.add a b = some s → ResultRight (IeeeSum 11 52) (wordDatum 11 52 a) (wordDatum 11 52 b) (wordDatum 11 52 s)) ∧
      ∀ q, P.div a b = some q → ResultRight (IeeeQuotient 11 52) (wordDatum 11 52 a) (wordDatum 11 52 b) (wordDatum 11 52 q)) :=
  oracle (soft_sound64 hP) hin hops

/-- **C74.** The verdict of `policy_flopoco<E,F>` whatever the operators. -/
theorem C74_flopoco_oracle {E F : ℕ} (hE : 2 ≤ E) (hF : 1 ≤ F) {P : TestPolicy (Fp E F)} (hP : SameReference P (policyFlopoco E F))
    {input : List (Fp E F)} (hin : ∀ v ∈ input, v.datum ≠ .nan)
    (hops : ∀ a ∈ input, ∀ b ∈ input, ∃ p s q, P.mul a b = some p ∧ P.add a b = some s ∧ P.div a b = some q) :
    ∃ bad, testArithmetic P input = some bad ∧ (bad = false ↔ ∀ a ∈ input, ∀ b ∈ input,
      ComparesRight a.datum b.datum (P.eq a b) (P.ne a b) (P.lt a b) (P.le a b) (P.gt a b) (P.ge a b) ∧
      (∀ p, P.mul a b = some p → ResultRight (fun A B d => Delivers E F (exactMul A B) d) a.datum b.datum p.datum) ∧
      (∀ s, P.add a b = some s → ResultRight (fun A B d => Delivers E F (exactAdd A B) d) a.datum b.datum s.datum) ∧
      ∀ q, P.div a b = some q → ResultRight (fun A B d => Delivers E F (exactDiv A B) d) a.datum b.datum q.datum) :=
  oracle (flopoco_sound hE hF hP) (fun v hv => ⟨trivial, hin v hv⟩) (fun a ha b hb => by
    obtain ⟨p, s, q, h1, h2, h3⟩ := hops a ha b hb
    exact ⟨p, s, q, h1, h2, h3, trivial, trivial, trivial⟩)

/-- **C74.** The verdict of `policy_ieee_on_flopoco<E,F>` whatever the operators; denormal words count as zeros. -/
theorem C74_ieee_oracle {E F : ℕ} (hE : 2 ≤ E) (hF : 1 ≤ F) {P : TestPolicy (Ieee E F)} (hP : SameReference P (policyIeeeOnFlopoco E F))
    {input : List (Ieee E F)} (hin : ∀ v ∈ input, ieeeRange E v.datum ≠ .nan)
    (hops : ∀ a ∈ input, ∀ b ∈ input, ∃ p s q, P.mul a b = some p ∧ P.add a b = some s ∧ P.div a b = some q) :
    ∃ bad, testArithmetic P input = some bad ∧ (bad = false ↔ ∀ a ∈ input, ∀ b ∈ input,
      ComparesRight (ieeeRange E a.datum) (ieeeRange E b.datum) (P.eq a b) (P.ne a b) (P.lt a b) (P.le a b) (P.gt a b) (P.ge a b) ∧
      (∀ p, P.mul a b = some p →
        ResultRight (fun A B d => IeeeDelivers E F (exactMul A B) d) (ieeeRange E a.datum) (ieeeRange E b.datum) (ieeeRange E p.datum)) ∧
      (∀ s, P.add a b = some s →
        ResultRight (fun A B d => IeeeDelivers E F (exactAdd A B) d) (ieeeRange E a.datum) (ieeeRange E b.datum) (ieeeRange E s.datum)) ∧
      ∀ q, P.div a b = some q →
        ResultRight (fun A B d => IeeeDelivers E F (exactDiv A B) d) (ieeeRange E a.datum) (ieeeRange E b.datum) (ieeeRange E q.datum)) :=
  oracle (ieee_sound hE hF hP) (fun v hv => ⟨trivial, hin v hv⟩) (fun a ha b hb => by
    obtain ⟨p, s, q, h1, h2, h3⟩ := hops a ha b hb
    exact ⟨p, s, q, h1, h2, h3, trivial, trivial, trivial⟩)

/-- The choice of the fast type changes no reference. -/
theorem soft_same_single (fast : ℕ) : SameReference (policySoftSingle fast) (policySoftSingle 32) := ⟨rfl, rfl, rfl, rfl, rfl⟩
theorem soft_same_double (fast : ℕ) : SameReference (policySoftDouble fast) (policySoftDouble 64) := ⟨rfl, rfl, rfl, rfl, rfl⟩

/-- **C74.** The test of `policy_softfloat_single` completes on every list of 32-bit words. It passes if the list holds no NaN and reports a
failure if it holds one, although the operators are right: a NaN is not equal to itself, and `mpfr_cmp` says it is. -/
theorem C74_single_verdict {fast : ℕ} (hfast : 32 ≤ fast) {input : List ℕ} (hin : ∀ w ∈ input, w < 2 ^ 32) :
    ∃ bad, testArithmetic (policySoftSingle fast) input = some bad ∧ (bad = true ↔ ∃ w ∈ input, wordDatum 8 23 w = .nan) := by
  have hS := soft_sound32 (soft_same_single fast)
  have hops : ∀ a ∈ input, ∀ b ∈ input, ∃ p s q, (policySoftSingle fast).mul a b = some p ∧ (policySoftSingle fast).add a b = some s ∧
      (policySoftSingle fast).div a b = some q ∧ p < 2 ^ 32 ∧ s < 2 ^ 32 ∧ q < 2 ^ 32 := by
    intro a ha b hb
    obtain ⟨p, h1, g1, -⟩ := C62_soft_mul32 hfast (hin a ha) (hin b hb)
    obtain ⟨s, h2, g2, -⟩ := C61_soft_add32 hfast (hin a ha) (hin b hb)
    obtain ⟨q, h3, g3, -⟩ := C63_soft_div32 hfast (hin a ha) (hin b hb)
    exact ⟨p, s, q, h1, h2, h3, g1, g2, g3⟩
  by_cases hn : ∃ w ∈ input, wordDatum 8 23 w = .nan
  · obtain ⟨w, hw, hd⟩ := hn
    refine ⟨true, nan_fails hS hin hops hw hd ?_, by simp only [true_iff]; exact ⟨w, hw, hd⟩⟩
    have := (C64_soft_compare32 (hin w hw) (hin w hw)).1
    rw [hd] at this
    rw [Bool.eq_false_iff]
    exact fun h => this.1 h
  · obtain ⟨bad, hb, hiff⟩ := oracle hS (fun v hv => ⟨hin v hv, fun h => hn ⟨v, hv, h⟩⟩) hops
    refine ⟨bad, hb, ?_⟩
    have : bad = false := by
      rw [hiff]
      intro a ha b hb
      obtain ⟨c1, c2, c3, c4, c5, c6⟩ := C64_soft_compare32 (hin a ha) (hin b hb)
      refine ⟨⟨c1, c2, c3, c5, c4, c6.trans (or_congr Iff.rfl ?_)⟩, ?_, ?_, ?_⟩
      · exact realEq_comm
      · intro p hp
        obtain ⟨p', h, -, hi⟩ := C62_soft_mul32 hfast (hin a ha) (hin b hb)
        obtain rfl : p' = p := Option.some.inj (h.symm.trans hp)
        exact ⟨_, hi, sameValue_refl _⟩
      · intro p hp
        obtain ⟨p', h, -, hi⟩ := C61_soft_add32 hfast (hin a ha) (hin b hb)
        obtain rfl : p' = p := Option.some.inj (h.symm.trans hp)
        exact ⟨_, hi, sameValue_refl _⟩
      · intro p hp
        obtain ⟨p', h, -, hi⟩ := C63_soft_div32 hfast (hin a ha) (hin b hb)
        obtain rfl : p' = p := Option.some.inj (h.symm.trans hp)
        exact ⟨_, hi, sameValue_refl _⟩
    simp [this, hn]

/-- **C74.** The same for `policy_softfloat_double`. -/
theorem C74_double_verdict {fast : ℕ} (hfast : 64 ≤ fast) {input : List ℕ} (hin : ∀ w ∈ input, w < 2 ^ 64) :
    ∃ bad, testArithmetic (policySoftDouble fast) input = some bad ∧ (bad = true ↔ ∃ w ∈ input, wordDatum 11 52 w = .nan) := by
  have hS := soft_sound64 (soft_same_double fast)
  have hops : ∀ a ∈ input, ∀ b ∈ input, ∃ p s q, (policySoftDouble fast).mul a b = some p ∧ (policySoftDouble fast).add a b = some s ∧
      (policySoftDouble fast).div a b = some q ∧ p < 2 ^ 64 ∧ s < 2 ^ 64 ∧ q < 2 ^ 64 := by
    intro a ha b hb
    obtain ⟨p, h1, g1, -⟩ := C62_soft_mul64 hfast (hin a ha) (hin b hb)
    obtain ⟨s, h2, g2, -⟩ := C61_soft_add64 hfast (hin a ha) (hin b hb)
    obtain ⟨q, h3, g3, -⟩ := C63_soft_div64 hfast (hin a ha) (hin b hb)
    exact ⟨p, s, q, h1, h2, h3, g1, g2, g3⟩
  by_cases hn : ∃ w ∈ input, wordDatum 11 52 w = .nan
  · obtain ⟨w, hw, hd⟩ := hn
    refine ⟨true, nan_fails hS hin hops hw hd ?_, by simp only [true_iff]; exact ⟨w, hw, hd⟩⟩
    have := (C64_soft_compare64 (hin w hw) (hin w hw)).1
    rw [hd] at this
    rw [Bool.eq_false_iff]
    exact fun h => this.1 h
  · obtain ⟨bad, hb, hiff⟩ := oracle hS (fun v hv => ⟨hin v hv, fun h => hn ⟨v, hv, h⟩⟩) hops
    refine ⟨bad, hb, ?_⟩
    have : bad = false := by
      rw [hiff]
      intro a ha b hb
      obtain ⟨c1, c2, c3, c4, c5, c6⟩ := C64_soft_compare64 (hin a ha) (hin b hb)
      refine ⟨⟨c1, c2, c3, c5, c4, c6.trans (or_congr Iff.rfl ?_)⟩, ?_, ?_, ?_⟩
      · exact realEq_comm
      · intro p hp
        obtain ⟨p', h, -, hi⟩ := C62_soft_mul64 hfast (hin a ha) (hin b hb)
        obtain rfl : p' = p := Option.some.inj (h.symm.trans hp)
        exact ⟨_, hi, sameValue_refl _⟩
      · intro p hp
        obtain ⟨p', h, -, hi⟩ := C61_soft_add64 hfast (hin a ha) (hin b hb)
        obtain rfl : p' = p := Option.some.inj (h.symm.trans hp)
        exact ⟨_, hi, sameValue_refl _⟩
      · intro p hp
        obtain ⟨p', h, -, hi⟩ := C63_soft_div64 hfast (hin a ha) (hin b hb)
        obtain rfl : p' = p := Option.some.inj (h.symm.trans hp)
        exact ⟨_, hi, sameValue_refl _⟩
    simp [this, hn]

/-- **C74 (partial).** Missing: the formats in which the adder asserts (C19). The test of `policy_flopoco<E,F>` completes on every list of values. It reports a
failure exactly if the list holds a NaN, or two encodings of the same infinity that differ in their don't-care bits. -/
theorem C74_flopoco_verdict_partial {E F : ℕ} (hE : 2 ≤ E) (hF : 1 ≤ F) (hok : DualFormat E F) (hfmt : F ≤ 2 ^ (E + 1))
    (input : List (Fp E F)) :
    ∃ bad, testArithmetic (policyFlopoco E F) input = some bad ∧ (bad = true ↔ (∃ v ∈ input, v.datum = .nan) ∨
      ∃ a ∈ input, ∃ b ∈ input, ∃ s, a.datum = .inf s ∧ b.datum = .inf s ∧ ¬ (a.exp = b.exp ∧ a.frac = b.frac)) := by
  have hS := flopoco_sound hE hF (P := policyFlopoco E F) ⟨rfl, rfl, rfl, rfl, rfl⟩
  have hops : ∀ a ∈ input, ∀ b ∈ input, ∃ p s q, (policyFlopoco E F).mul a b = some p ∧ (policyFlopoco E F).add a b = some s ∧
      (policyFlopoco E F).div a b = some q ∧ True ∧ True ∧ True := by
    intro a ha b hb
    obtain ⟨p, s, q, h1, h2, h3, -⟩ := flopoco_ops hE hF hok hfmt a b
    exact ⟨p, s, q, h1, h2, h3, trivial, trivial, trivial⟩
  by_cases hn : ∃ v ∈ input, v.datum = .nan
  · obtain ⟨v, hv, hd⟩ := hn
    refine ⟨true, nan_fails hS (fun _ _ => trivial) hops hv hd ?_, by simp only [true_iff]; exact Or.inl ⟨v, hv, hd⟩⟩
    exact (cmp_nan (by omega) hF (by omega) hF v v (Or.inl ((datum_nan_iff v).1 hd))).2.2.2.2.1
  · obtain ⟨bad, hb, hiff⟩ := oracle hS (fun v hv => ⟨trivial, fun h => hn ⟨v, hv, h⟩⟩) hops
    refine ⟨bad, hb, ?_⟩
    rw [← Bool.not_eq_false, hiff]
    have hcmp : ∀ a ∈ input, ∀ b ∈ input, _ := fun a ha b hb =>
      flopoco_compare (show 1 ≤ E by omega) hF (a := a) (b := b) (fun h => hn ⟨a, ha, h⟩) (fun h => hn ⟨b, hb, h⟩)
    constructor
    · intro h
      right
      by_contra hc
      apply h
      intro a ha b hb
      obtain ⟨p, s, q, h1, h2, h3, d1, d2, d3⟩ := flopoco_ops hE hF hok hfmt a b
      refine ⟨(hcmp a ha b hb).2 ?_, ?_, ?_, ?_⟩
      · intro s ha' hb'
        by_contra hx
        exact hc ⟨a, ha, b, hb, s, ha', hb', hx⟩
      · intro p' hp
        obtain rfl : p = p' := Option.some.inj (h1.symm.trans hp)
        exact ⟨_, d1, sameValue_refl _⟩
      · intro p' hp
        obtain rfl : s = p' := Option.some.inj (h2.symm.trans hp)
        exact ⟨_, d2, sameValue_refl _⟩
      · intro p' hp
        obtain rfl : q = p' := Option.some.inj (h3.symm.trans hp)
        exact ⟨_, d3, sameValue_refl _⟩
    · rintro (h | ⟨a, ha, b, hb, s, ha', hb', hx⟩)
      · exact absurd h hn
      · intro h
        exact hx ((hcmp a ha b hb).1 (h a ha b hb).1 s ha' hb')

/-- **C74 (partial).** Missing: the formats in which the adder asserts (C19). The test of `policy_ieee_on_flopoco<E,F>` completes on every list of words and reports a
failure exactly if the list holds a NaN. -/
theorem C74_ieee_verdict_partial {E F : ℕ} (hE : 2 ≤ E) (hF : 1 ≤ F) (hok : DualFormat E F) (hfmt : F ≤ 2 ^ (E + 1))
    (input : List (Ieee E F)) :
    ∃ bad, testArithmetic (policyIeeeOnFlopoco E F) input = some bad ∧ (bad = true ↔ ∃ v ∈ input, v.datum = .nan) := by
  have hS := ieee_sound hE hF (P := policyIeeeOnFlopoco E F) ⟨rfl, rfl, rfl, rfl, rfl⟩
  have hops : ∀ a ∈ input, ∀ b ∈ input, ∃ p s q, (policyIeeeOnFlopoco E F).mul a b = some p ∧ (policyIeeeOnFlopoco E F).add a b = some s ∧
      (policyIeeeOnFlopoco E F).div a b = some q ∧ True ∧ True ∧ True := by
    intro a ha b hb
    obtain ⟨p, s, q, h1, h2, h3, -⟩ := ieee_ops hE hF hok hfmt a b
    exact ⟨p, s, q, h1, h2, h3, trivial, trivial, trivial⟩
  have hr : ∀ d : Datum, ieeeRange E d = .nan ↔ d = .nan := by
    intro d
    cases d with
    | num q => simp only [ieeeRange]; split_ifs <;> simp
    | _ => simp [ieeeRange]
  by_cases hn : ∃ v ∈ input, v.datum = .nan
  · obtain ⟨v, hv, hd⟩ := hn
    refine ⟨true, nan_fails hS (fun _ _ => trivial) hops hv ((hr _).2 hd) ?_, by simp only [true_iff]; exact ⟨v, hv, hd⟩⟩
    exact ((C29_comparisons hE hF v v).2 (Or.inl hd)).2.2.2.2.1
  · obtain ⟨bad, hb, hiff⟩ := oracle hS (fun v hv => ⟨trivial, fun h => hn ⟨v, hv, (hr _).1 h⟩⟩) hops
    refine ⟨bad, hb, ?_⟩
    have : bad = false := by
      rw [hiff]
      intro a ha b hb
      obtain ⟨p, s, q, h1, h2, h3, d1, d2, d3⟩ := ieee_ops hE hF hok hfmt a b
      obtain ⟨c1, c2, c3, c4, c5, c6⟩ := (C29_comparisons hE hF a b).1 (fun h => hn ⟨a, ha, h⟩) (fun h => hn ⟨b, hb, h⟩)
      refine ⟨⟨c5, c6, c1, c2, c3, c4⟩, ?_, ?_, ?_⟩
      · intro p' hp
        obtain rfl : p = p' := Option.some.inj (h1.symm.trans hp)
        exact ⟨_, d1, sameValue_refl _⟩
      · intro p' hp
        obtain rfl : s = p' := Option.some.inj (h2.symm.trans hp)
        exact ⟨_, d2, sameValue_refl _⟩
      · intro p' hp
        obtain rfl : q = p' := Option.some.inj (h3.symm.trans hp)
        exact ⟨_, d3, sameValue_refl _⟩
    simp [this, hn]

/-- The hypotheses are met by the formats of the repository's tests, and the model of the test runs: two numbers pass, a NaN fails, and so
does an addition that returns its first operand. -/
example : DualFormat 8 23 ∧ 23 < 2 ^ (8 + 1) ∧ DualFormat 11 52 := by
  refine ⟨?_, by norm_num, ?_⟩ <;> intro k hk <;> exfalso <;>
  · have : k < 7 := by
      by_contra hc
      have : 2 ^ 7 ≤ 2 ^ k := Nat.pow_le_pow_right (by norm_num) (by omega)
      omega
    interval_cases k <;> omega
example : testArithmetic (policySoftSingle 32) [0x3F800000, 0x00000003] = some false := by decide +kernel
example : testArithmetic (policySoftSingle 32) [0x7FC00000] = some true := by decide +kernel
example : testArithmetic { policySoftSingle 32 with add := fun a _ => some a } [0x3F800000] = some true := by decide +kernel

end Thls
