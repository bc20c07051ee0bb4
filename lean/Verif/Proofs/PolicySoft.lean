import Verif.Proofs.PolicyFlo
import Verif.Props.SoftFloat

/-! # The SoftFloat policies under the policy test, and the verdict for sound policies -/

namespace Thls
open Spec

theorem soft_rep32 {w : ℕ} (hw : w < 2 ^ 32) : Rep 8 23 (wordDatum 8 23 w) := by
  intro q hq
  exact SoftFmt.word_rounded (soft32_ok (le_refl 32)) hw hq

theorem soft_sound32 {P : TestPolicy ℕ} (h : SameReference P (policySoftSingle 32)) :
    PolicyTest.Sound P (wordDatum 8 23) (fun w => w < 2 ^ 32) (IeeeProduct 8 23) (IeeeSum 8 23) (IeeeQuotient 8 23) where
  back v _ := by
    rw [h.toMpfr]
    exact native_toMpfr (E := 8) (F := 23) (by norm_num) (by norm_num)
  mul a b x y ha hb hx hy := by
    rw [h.toMpfr] at hx hy
    obtain ⟨x', hx', dx, ox⟩ := native_toMpfr (E := 8) (F := 23) (w := a) (by norm_num) (by norm_num)
    obtain ⟨y', hy', dy, oy⟩ := native_toMpfr (E := 8) (F := 23) (w := b) (by norm_num) (by norm_num)
    obtain rfl : x' = x := Option.some.inj (hx'.symm.trans hx)
    obtain rfl : y' = y := Option.some.inj (hy'.symm.trans hy)
    have hi := Mpfr.mulT_ieee (E := 8) (F := 23) (emin := -148) (emax := 128) (by norm_num) (by norm_num) (by norm_num [leastExp, bias])
      (by norm_num [bias]) ox oy
    rw [dx, dy] at hi
    obtain ⟨z, -, hz, iz⟩ := SoftFmt.mul_ieee (soft32_ok (le_refl 32)) (prodOk32 32) ha hb
    have hu := ieeeProduct_unique (by norm_num) hi iz
    obtain ⟨w, hw, hwl, hwd⟩ := fromMpfrSingle_rep (by rw [hu]; exact soft_rep32 hz) true
    rw [← hwd] at hi
    exact ⟨_, w, by rw [h.refMul]; rfl, by rw [h.fromMpfr]; exact hw, hwl, hi⟩
  add a b x y ha hb hx hy := by
    rw [h.toMpfr] at hx hy
    obtain ⟨x', hx', dx, ox⟩ := native_toMpfr (E := 8) (F := 23) (w := a) (by norm_num) (by norm_num)
    obtain ⟨y', hy', dy, oy⟩ := native_toMpfr (E := 8) (F := 23) (w := b) (by norm_num) (by norm_num)
    obtain rfl : x' = x := Option.some.inj (hx'.symm.trans hx)
    obtain rfl : y' = y := Option.some.inj (hy'.symm.trans hy)
    have hi := Mpfr.addT_ieee (E := 8) (F := 23) (emin := -148) (emax := 128) (by norm_num) (by norm_num) (by norm_num [leastExp, bias])
      (by norm_num [bias]) (by rw [dx]; exact soft_rep32 ha) (by rw [dy]; exact soft_rep32 hb)
    rw [dx, dy] at hi
    obtain ⟨z, -, hz, iz⟩ := SoftFmt.add_ieee (soft32_ok (le_refl 32)) ha hb
    have hu := ieeeSum_unique (by norm_num) hi iz
    obtain ⟨w, hw, hwl, hwd⟩ := fromMpfrSingle_rep (by rw [hu]; exact soft_rep32 hz) true
    rw [← hwd] at hi
    exact ⟨_, w, by rw [h.refAdd]; rfl, by rw [h.fromMpfr]; exact hw, hwl, hi⟩
  div a b x y ha hb hx hy := by
    rw [h.toMpfr] at hx hy
    obtain ⟨x', hx', dx, ox⟩ := native_toMpfr (E := 8) (F := 23) (w := a) (by norm_num) (by norm_num)
    obtain ⟨y', hy', dy, oy⟩ := native_toMpfr (E := 8) (F := 23) (w := b) (by norm_num) (by norm_num)
    obtain rfl : x' = x := Option.some.inj (hx'.symm.trans hx)
    obtain rfl : y' = y := Option.some.inj (hy'.symm.trans hy)
    have hi := Mpfr.divT_ieee (E := 8) (F := 23) (emin := -148) (emax := 128) (by norm_num) (by norm_num) (by norm_num [leastExp, bias])
      (by norm_num [bias]) ox oy
    rw [dx, dy] at hi
    obtain ⟨z, -, hz, iz⟩ := SoftFmt.div_ieee (soft32_ok (le_refl 32)) (quotOk32 32) ha hb
    have hu := ieeeQuotient_unique (by norm_num) hi iz
    obtain ⟨w, hw, hwl, hwd⟩ := fromMpfrSingle_rep (by rw [hu]; exact soft_rep32 hz) true
    rw [← hwd] at hi
    exact ⟨_, w, by rw [h.refDiv]; rfl, by rw [h.fromMpfr]; exact hw, hwl, hi⟩
  umul _ _ _ _ h h' := ieeeProduct_unique (by norm_num) h h'
  uadd _ _ _ _ h h' := ieeeSum_unique (by norm_num) h h'
  udiv _ _ _ _ h h' := ieeeQuotient_unique (by norm_num) h h'

theorem soft_rep64 {w : ℕ} (hw : w < 2 ^ 64) : Rep 11 52 (wordDatum 11 52 w) := by
  intro q hq
  exact SoftFmt.word_rounded (soft64_ok (le_refl 64)) hw hq

theorem soft_sound64 {P : TestPolicy ℕ} (h : SameReference P (policySoftDouble 64)) :
    PolicyTest.Sound P (wordDatum 11 52) (fun w => w < 2 ^ 64) (IeeeProduct 11 52) (IeeeSum 11 52) (IeeeQuotient 11 52) where
  back v _ := by
    rw [h.toMpfr]
    exact native_toMpfr (E := 11) (F := 52) (by norm_num) (by norm_num)
  mul a b x y ha hb hx hy := by
    rw [h.toMpfr] at hx hy
    obtain ⟨x', hx', dx, ox⟩ := native_toMpfr (E := 11) (F := 52) (w := a) (by norm_num) (by norm_num)
    obtain ⟨y', hy', dy, oy⟩ := native_toMpfr (E := 11) (F := 52) (w := b) (by norm_num) (by norm_num)
    obtain rfl : x' = x := Option.some.inj (hx'.symm.trans hx)
    obtain rfl : y' = y := Option.some.inj (hy'.symm.trans hy)
    have hi := Mpfr.mulT_ieee (E := 11) (F := 52) (emin := -1073) (emax := 1024) (by norm_num) (by norm_num) (by norm_num [leastExp, bias])
      (by norm_num [bias]) ox oy
    rw [dx, dy] at hi
    obtain ⟨z, -, hz, iz⟩ := SoftFmt.mul_ieee (soft64_ok (le_refl 64)) (prodOk64 64) ha hb
    have hu := ieeeProduct_unique (by norm_num) hi iz
    obtain ⟨w, hw, hwl, hwd⟩ := fromMpfrDouble_rep (by rw [hu]; exact soft_rep64 hz) true
    rw [← hwd] at hi
    exact ⟨_, w, by rw [h.refMul]; rfl, by rw [h.fromMpfr]; exact hw, hwl, hi⟩
  add a b x y ha hb hx hy := by
    rw [h.toMpfr] at hx hy
    obtain ⟨x', hx', dx, ox⟩ := native_toMpfr (E := 11) (F := 52) (w := a) (by norm_num) (by norm_num)
    obtain ⟨y', hy', dy, oy⟩ := native_toMpfr (E := 11) (F := 52) (w := b) (by norm_num) (by norm_num)
    obtain rfl : x' = x := Option.some.inj (hx'.symm.trans hx)
    obtain rfl : y' = y := Option.some.inj (hy'.symm.trans hy)
    have hi := Mpfr.addT_ieee (E := 11) (F := 52) (emin := -1073) (emax := 1024) (by norm_num) (by norm_num) (by norm_num [leastExp, bias])
      (by norm_num [bias]) (by rw [dx]; exact soft_rep64 ha) (by rw [dy]; exact soft_rep64 hb)
    rw [dx, dy] at hi
    obtain ⟨z, -, hz, iz⟩ := SoftFmt.add_ieee (soft64_ok (le_refl 64)) ha hb
    have hu := ieeeSum_unique (by norm_num) hi iz
    obtain ⟨w, hw, hwl, hwd⟩ := fromMpfrDouble_rep (by rw [hu]; exact soft_rep64 hz) true
    rw [← hwd] at hi
    exact ⟨_, w, by rw [h.refAdd]; rfl, by rw [h.fromMpfr]; exact hw, hwl, hi⟩
  div a b x y ha hb hx hy := by
    rw [h.toMpfr] at hx hy
    obtain ⟨x', hx', dx, ox⟩ := native_toMpfr (E := 11) (F := 52) (w := a) (by norm_num) (by norm_num)
    obtain ⟨y', hy', dy, oy⟩ := native_toMpfr (E := 11) (F := 52) (w := b) (by norm_num) (by norm_num)
    obtain rfl : x' = x := Option.some.inj (hx'.symm.trans hx)
    obtain rfl : y' = y := Option.some.inj (hy'.symm.trans hy)
    have hi := Mpfr.divT_ieee (E := 11) (F := 52) (emin := -1073) (emax := 1024) (by norm_num) (by norm_num) (by norm_num [leastExp, bias])
      (by norm_num [bias]) ox oy
    rw [dx, dy] at hi
    obtain ⟨z, -, hz, iz⟩ := SoftFmt.div_ieee (soft64_ok (le_refl 64)) (quotOk64 64) ha hb
    have hu := ieeeQuotient_unique (by norm_num) hi iz
    obtain ⟨w, hw, hwl, hwd⟩ := fromMpfrDouble_rep (by rw [hu]; exact soft_rep64 hz) true
    rw [← hwd] at hi
    exact ⟨_, w, by rw [h.refDiv]; rfl, by rw [h.fromMpfr]; exact hw, hwl, hi⟩
  umul _ _ _ _ h h' := ieeeProduct_unique (by norm_num) h h'
  uadd _ _ _ _ h h' := ieeeSum_unique (by norm_num) h h'
  udiv _ _ _ _ h h' := ieeeQuotient_unique (by norm_num) h h'

namespace PolicyTest
variable {V : Type}

/-- The verdict for operators that return values, on an input without NaNs. -/
theorem oracle {P : TestPolicy V} {D : V → Datum} {good : V → Prop} {Rm Rs Rd : Datum → Datum → Datum → Prop}
    (hP : Sound P D good Rm Rs Rd) {input : List V} (hin : ∀ v ∈ input, good v ∧ D v ≠ .nan)
    (hops : ∀ a ∈ input, ∀ b ∈ input, ∃ p s q, P.mul a b = some p ∧ P.add a b = some s ∧ P.div a b = some q ∧ good p ∧ good s ∧ good q) :
    ∃ bad, testArithmetic P input = some bad ∧ (bad = false ↔ ∀ a ∈ input, ∀ b ∈ input,
      ComparesRight (D a) (D b) (P.eq a b) (P.ne a b) (P.lt a b) (P.le a b) (P.gt a b) (P.ge a b) ∧
      (∀ p, P.mul a b = some p → ResultRight Rm (D a) (D b) (D p)) ∧ (∀ s, P.add a b = some s → ResultRight Rs (D a) (D b) (D s)) ∧
      ∀ q, P.div a b = some q → ResultRight Rd (D a) (D b) (D q)) := by
  have hM : ∀ v ∈ input, P.toMpfr v = some ((P.toMpfr v).getD .nan) := by
    intro v hv
    obtain ⟨x, hx, -⟩ := hP.back v (hin v hv).1
    rw [hx]; rfl
  have hpc : ∀ a ∈ input, ∀ b ∈ input, ∃ c, pairChecks P a b ((P.toMpfr a).getD .nan) ((P.toMpfr b).getD .nan) = some c ∧
      ((∃ op ∈ names, (op, true) ∈ c) ↔ ¬ (
      ComparesRight (D a) (D b) (P.eq a b) (P.ne a b) (P.lt a b) (P.le a b) (P.gt a b) (P.ge a b) ∧
      (∀ p, P.mul a b = some p → ResultRight Rm (D a) (D b) (D p)) ∧ (∀ s, P.add a b = some s → ResultRight Rs (D a) (D b) (D s)) ∧
      ∀ q, P.div a b = some q → ResultRight Rd (D a) (D b) (D q))) := by
    intro a ha b hb
    obtain ⟨p, s, q, h1, h2, h3, g1, g2, g3⟩ := hops a ha b hb
    obtain ⟨c, hc, hi, -⟩ := pair_fails hP (hin a ha).1 (hin b hb).1 (hM a ha) (hM b hb) h1 h2 h3 g1 g2 g3
    refine ⟨c, hc, (hi (hin a ha).2 (hin b hb).2).trans (not_congr ?_)⟩
    rw [h1, h2, h3]
    simp
  obtain ⟨bad, hbad, hiff⟩ := testArithmetic_eq (P := P) (input := input)
    (vd := fun n a b => decide ((n, true) ∈ (pairChecks P a b ((P.toMpfr a).getD .nan) ((P.toMpfr b).getD .nan)).getD [])) hM (by
      intro a ha b hb
      obtain ⟨c, hc, -⟩ := hpc a ha b hb
      rw [hc, Option.getD_some]
      exact congrArg some (pairChecks_names hc))
  refine ⟨bad, hbad, ?_⟩
  rw [← Bool.not_eq_true, hiff]
  push Not
  constructor
  · intro h a ha b hb
    obtain ⟨c, hc, hi⟩ := hpc a ha b hb
    by_contra hn
    obtain ⟨op, hop, hm⟩ := hi.2 hn
    have := h a ha b hb op hop
    rw [hc] at this
    simp [hm] at this
  · intro h a ha b hb op hop
    obtain ⟨c, hc, hi⟩ := hpc a ha b hb
    rw [hc, Option.getD_some]
    by_contra hn
    exact hi.1 ⟨op, hop, by simpa using hn⟩ (h a ha b hb)

/-- A NaN in the input makes the test fail, if nothing else. -/
theorem nan_fails {P : TestPolicy V} {D : V → Datum} {good : V → Prop} {Rm Rs Rd : Datum → Datum → Datum → Prop}
    (hP : Sound P D good Rm Rs Rd) {input : List V} (hin : ∀ v ∈ input, good v)
    (hops : ∀ a ∈ input, ∀ b ∈ input, ∃ p s q, P.mul a b = some p ∧ P.add a b = some s ∧ P.div a b = some q ∧ good p ∧ good s ∧ good q)
    {n : V} (hn : n ∈ input) (hnan : D n = .nan) (heq : P.eq n n = false) : testArithmetic P input = some true := by
  have hM : ∀ v ∈ input, P.toMpfr v = some ((P.toMpfr v).getD .nan) := by
    intro v hv
    obtain ⟨x, hx, -⟩ := hP.back v (hin v hv)
    rw [hx]; rfl
  have hpc : ∀ a ∈ input, ∀ b ∈ input, ∃ c, pairChecks P a b ((P.toMpfr a).getD .nan) ((P.toMpfr b).getD .nan) = some c ∧
      (D a = .nan → P.eq a b = false → ("Equal", true) ∈ c) := by
    intro a ha b hb
    obtain ⟨p, s, q, h1, h2, h3, g1, g2, g3⟩ := hops a ha b hb
    obtain ⟨c, hc, -, hi⟩ := pair_fails hP (hin a ha) (hin b hb) (hM a ha) (hM b hb) h1 h2 h3 g1 g2 g3
    exact ⟨c, hc, hi⟩
  obtain ⟨bad, hbad, hiff⟩ := testArithmetic_eq (P := P) (input := input)
    (vd := fun n a b => decide ((n, true) ∈ (pairChecks P a b ((P.toMpfr a).getD .nan) ((P.toMpfr b).getD .nan)).getD [])) hM (by
      intro a ha b hb
      obtain ⟨c, hc, -⟩ := hpc a ha b hb
      rw [hc, Option.getD_some]
      exact congrArg some (pairChecks_names hc))
  rw [hbad, hiff.2]
  obtain ⟨c, hc, hi⟩ := hpc n hn n hn
  refine ⟨n, hn, n, hn, "Equal", by decide +kernel, ?_⟩
  rw [hc, Option.getD_some]
  simpa using hi hnan heq

end PolicyTest
end Thls
