import Verif.Proofs.OpProgram
import Verif.Props.OpInput

/-! # C78: what the operator tests decide, and that the operators pass them -/

namespace Thls
open Spec OpTest

/-- **C78.** The check "equals" of the tests accepts a result exactly if it denotes the same datum as the reference. -/
theorem C78_check_equals_iff {E F : ℕ} (hE : 1 ≤ E) (hF : 1 ≤ F) (r g : Fp E F) :
    ∃ ok, checkEquals (some r) (some g) = some ok ∧ (ok = true ↔ r.datum = g.datum) :=
  ⟨_, rfl, C07_equals_iff_same_datum hE hF r g⟩

/-- **C78.** The check "faithfully rounded" accepts a result exactly if it or the reference is NaN, if both are zeros of whatever sign,
if both are the same infinity, or if both are numbers of one sign that are equal or neighbours. -/
theorem C78_check_faithful_iff {E F : ℕ} (hE : 1 ≤ E) (hE2 : E ≤ 62) (hF : 1 ≤ F) (r g : Fp E F) :
    ∃ ok, checkFaithful (some r) (some g) = some ok ∧
      (ok = true ↔ r.datum = .nan ∨ g.datum = .nan ∨ (∃ s t, r.datum = .zero s ∧ g.datum = .zero t) ∨
        (∃ s, r.datum = .inf s ∧ g.datum = .inf s) ∨ SameOrNeighbours F g.datum r.datum) :=
  faithful_iff hE hE2 hF r g

/-- **C78, a gap of the check**: a result that is NaN is accepted whatever the reference is. -/
theorem C78_check_faithful_accepts_nan {E F : ℕ} (hE : 1 ≤ E) (hE2 : E ≤ 62) (hF : 1 ≤ F) (r g : Fp E F) (h : g.datum = .nan) :
    checkFaithful (some r) (some g) = some true := by
  obtain ⟨ok, h1, h2⟩ := faithful_iff hE hE2 hF r g
  rw [h1, h2.mpr (.inr (.inl h))]

/-- **C78.** The loops report success exactly if every check on every combination of inputs succeeds. -/
theorem C78_loops_iff {α β : Type} (check : α → Option Bool) (check2 : α → β → Option Bool) (as : List α) (bs : List β) :
    (OpTest.forAll check as = some true ↔ ∀ a ∈ as, check a = some true) ∧
    (OpTest.forAll2 check2 as bs = some true ↔ ∀ a ∈ as, ∀ b ∈ bs, check2 a b = some true) :=
  ⟨forAll_iff, forAll2_iff⟩

/-! ## The multipliers and dividers -/

/-- **C78.** The test of `mul` passes with every format whose inputs exist, if the product is rounded; if it is not (a result with at
least one bit more than the product needs), it fails: it sees the wrong zeros of C11. -/
theorem C78_test_mul {E FR FA FB : ℕ} (hE : 3 ≤ E) (hR : 1 ≤ FR) (hA : 1 ≤ FA) (hB : 1 ≤ FB) (h3 : E = 3 → 2 ≤ FA ∧ 2 ≤ FB)
    (n : ℕ) (dA dB : ℕ → ℕ × ℕ) : testMul E FR FA FB n dA dB = some (decide (FR ≤ FA + FB)) := by
  obtain ⟨as, has⟩ := (C77_inputs_exist_iff (E := E) (F := FA) (by omega) hA n dA).mpr ⟨hE, fun h => (h3 h).1⟩
  obtain ⟨bs, hbs⟩ := (C77_inputs_exist_iff (E := E) (F := FB) (by omega) hB n dB).mpr ⟨hE, fun h => (h3 h).2⟩
  simp only [testMul, has, hbs, Option.bind_eq_bind, Option.bind_some]
  by_cases hp : FR ≤ FA + FB
  · rw [decide_eq_true hp, forAll2_iff]
    intro a _ b _
    obtain ⟨r, r', h1, h2, h3⟩ := C54_mul_agrees (by omega) hR hA hB hp a b
    exact checkEquals_of h2 h1 h3 (by omega) hR
  · rw [decide_eq_false hp]
    have hw : FA + FB + 1 ≤ FR := by omega
    refine forAll2_false ?_ ?_
    · intro a _ b _
      obtain ⟨r, r', h1, h2, -⟩ := C54_mul_wide_agrees_iff (by omega) hA hB hw a b
      exact ⟨_, by rw [checkEquals, h1, h2]; rfl⟩
    · refine ⟨Limits.min E FA, edges_mem has (by simp [edges]), Limits.min E FB, edges_mem hbs (by simp [edges]), ?_⟩
      obtain ⟨r, r', h1, h2, h3⟩ := C54_mul_wide_agrees_iff (by omega) hA hB hw (Limits.min E FA) (Limits.min E FB)
      have mA := (C46_limits_values_partial (E := E) (F := FA) (by omega) hA).1
      have mB := (C46_limits_values_partial (E := E) (F := FB) (by omega) hB).1
      have hne : ¬ r.equals r' = true := by
        rw [h3]
        intro h
        have := h _ _ mA mB
        have hb := (bias_bounds (E := E) (by omega)).1
        rw [← zpow_add₀ (by norm_num), abs_of_pos (two_zpow_pos _), zpow_le_zpow_iff_right₀ (by norm_num)] at this
        omega
      rw [C07_equals_iff_same_datum (by omega) hR] at hne
      simp only [checkEquals, h1, h2, Option.bind_eq_bind, Option.bind_some, Option.some.injEq]
      rw [Bool.eq_false_iff, ne_eq, C07_equals_iff_same_datum (by omega) hR]
      exact fun h => hne h.symm

/-- **C78.** The tests of both dividers pass. -/
theorem C78_test_div_passes {E F : ℕ} (hE : 3 ≤ E) (hF : 1 ≤ F) (h3 : E = 3 → 2 ≤ F) (v2 : Bool) (n : ℕ) (draws : ℕ → ℕ × ℕ) :
    testDiv v2 E F n draws = some true := by
  obtain ⟨l, hl⟩ := (C77_inputs_exist_iff (E := E) (F := F) (by omega) hF n draws).mpr ⟨hE, h3⟩
  simp only [testDiv, hl, Option.bind_eq_bind, Option.bind_some]
  rw [forAll2_iff]
  intro a _ b _
  obtain ⟨r', h1, h2, h3⟩ := C54_div_agrees (wER := E) (wFR := F) (by omega) (by omega) hF (by omega) hF ⟨le_rfl, le_rfl⟩ ⟨le_rfl, le_rfl⟩ a b
  cases v2 with
  | false => exact checkEquals_of h1 rfl h2 (by omega) hF
  | true => exact checkEquals_of h1 rfl h3 (by omega) hF

/-! ## The adders -/

/-- **C78.** The test of the dual-path adder passes in the formats in which the adder is correct (C14). -/
theorem C78_test_add_dual_passes_partial {E F : ℕ} (hE : 3 < E) (hF : 1 ≤ F) (hok : DualFormat E F) (hfmt : F ≤ 2 ^ (E + 1))
    (n : ℕ) (draws : ℕ → ℕ × ℕ) : testAddDual E F n draws = some true := by
  obtain ⟨l, hl⟩ := (C77_inputs_exist_iff (E := E) (F := F) (by omega) hF n draws).mpr ⟨by omega, by omega⟩
  simp only [testAddDual, hl, Option.bind_eq_bind, Option.bind_some]
  rw [forAll2_iff]
  intro a _ b _
  obtain ⟨r', hr', hd'⟩ := C53_ref_add (ER := E) (FR := F) (by omega) hF a b
  have hsp : ∀ d, addSpecial a.datum b.datum = some d → ∃ r, AddDual.addSame a b = some r ∧ r.datum = d := fun d hd =>
    AddDual.addSame_special (by omega) (by omega) hok hd
  have hnm : ∀ p q, a.datum = .num p → b.datum = .num q → ∃ r, AddDual.addSame a b = some r ∧ AddsTo E F p q r.datum := by
    intro p q hp hq
    obtain ⟨r, hr, a1, a2⟩ := AddDual.addSame_num (by omega) hF hok (by rw [pow_succ] at hfmt; omega) hp hq
    refine ⟨r, hr, ?_⟩
    unfold AddsTo
    split
    · rename_i h; exact a1 h
    · rename_i h; exact a2 h
  have key : ∃ r, AddDual.addSame a b = some r := by
    cases h : addSpecial a.datum b.datum with
    | some d => obtain ⟨r, hr, -⟩ := hsp d h; exact ⟨r, hr⟩
    | none =>
      obtain ⟨p, q, hp, hq⟩ := (C17_addSpecial_domain _ _).mp h
      obtain ⟨r, hr, -⟩ := hnm p q hp hq
      exact ⟨r, hr⟩
  obtain ⟨r, hr⟩ := key
  refine checkEquals_of hr' hr (delivers_equals (by omega) hF (exactAdd_delivers (by omega) hF ?_ ?_) hd') (by omega) hF
  · intro d hd
    obtain ⟨s, hs, h⟩ := hsp d hd
    rw [hr] at hs; rw [Option.some.inj hs]; exact h
  · intro p q hp hq
    obtain ⟨s, hs, h⟩ := hnm p q hp hq
    rw [hr] at hs; rw [Option.some.inj hs]; exact h

/-- **C78.** The check of the test of the single-path adder accepts its sum of any two operands, also where it is not correctly rounded
(C15): the wrong result is a neighbour of the right one. -/
theorem C78_add_single_accepted {EA FA EB FB : ℕ} (hEA : 1 ≤ EA) (hFA : 1 ≤ FA) (hEB : 1 ≤ EB) (hFB : 1 ≤ FB) (hE2 : max EA EB ≤ 62)
    (hfmt : max FA FB + 3 < 2 ^ max EA EB) (hfmt2 : max FA FB + 3 ≠ 2 ^ (max EA EB - 1)) (x : Fp EA FA) (y : Fp EB FB) :
    checkFaithful (refAdd (max EA EB) (max FA FB) x y) (AddSingle.add x y) = some true :=
  addSingle_accepted hEA hFA hEB hFB hE2 hfmt hfmt2 x y

/-- **C78.** So the test of the single-path adder passes, and no choice of inputs would make it see the errors of C15. -/
theorem C78_test_add_single_passes {EA FA EB FB : ℕ} (hEA : 3 ≤ EA) (hFA : 1 ≤ FA) (hEB : 3 ≤ EB) (hFB : 1 ≤ FB) (hA3 : EA = 3 → 2 ≤ FA)
    (hB3 : EB = 3 → 2 ≤ FB) (hE2 : max EA EB ≤ 62) (hfmt : max FA FB + 3 < 2 ^ max EA EB)
    (hfmt2 : max FA FB + 3 ≠ 2 ^ (max EA EB - 1)) (n : ℕ) (dA dB : ℕ → ℕ × ℕ) : testAddSingle EA FA EB FB n dA dB = some true := by
  obtain ⟨as, has⟩ := (C77_inputs_exist_iff (E := EA) (F := FA) (by omega) hFA n dA).mpr ⟨hEA, hA3⟩
  obtain ⟨bs, hbs⟩ := (C77_inputs_exist_iff (E := EB) (F := FB) (by omega) hFB n dB).mpr ⟨hEB, hB3⟩
  simp only [testAddSingle, has, hbs, Option.bind_eq_bind, Option.bind_some]
  rw [forAll2_iff]
  intro a _ b _
  exact addSingle_accepted (by omega) hFA (by omega) hFB hE2 hfmt hfmt2 a b

/-! ## Conversion -/

/-- **C78.** The test of the conversion passes: its inputs have no zero with an exponent field of all ones, which is where the conversion
goes wrong (C24). -/
theorem C78_test_convert_passes {ER FR EA FA : ℕ} (hER : 2 ≤ ER) (hFR : 1 ≤ FR) (hEA : 3 ≤ EA) (hFA : 1 ≤ FA) (h3 : EA = 3 → 2 ≤ FA)
    (n : ℕ) (draws : ℕ → ℕ × ℕ) : testConvert ER FR EA FA n draws = some true := by
  obtain ⟨l, hl⟩ := (C77_inputs_exist_iff (E := EA) (F := FA) (by omega) hFA n draws).mpr ⟨hEA, h3⟩
  simp only [testConvert, hl, Option.bind_eq_bind, Option.bind_some]
  rw [forAll_iff]
  intro a ha
  by_cases hw : (∃ v, a.datum = .num v)
  · obtain ⟨⟨r', h1, h2⟩, -⟩ := C54_convert_agrees_partial hER hFR (by omega) hFA a (.inl hw)
    exact faithful_of_equals h1 rfl h2 (by omega) hFR
  · have he := (special_exp (by omega) hFA hl ha).resolve_left hw
    obtain ⟨-, -, ⟨r', h1, h2⟩, -, -⟩ := C53_ref_unary (ER := ER) (FR := FR) (by omega) hFR a 0
    push Not at hw
    have hd := (C24_convert_special_iff (ER := ER) (FR := FR) (by omega) hFR (by omega) hFA a hw).mpr (by
      rintro ⟨-, -, -, h, -⟩
      have : 2 ^ 1 ≤ 2 ^ EA := Nat.pow_le_pow_right (by decide) (by omega)
      omega)
    have hr : r'.datum = a.datum := by
      cases hda : a.datum with
      | num v => exact absurd hda (hw v)
      | nan => rw [hda] at h2; exact h2
      | inf s => rw [hda] at h2; exact h2
      | zero s => rw [hda] at h2; exact h2
    exact faithful_of_equals h1 rfl ((C07_equals_iff_same_datum (by omega) hFR _ _).mpr (hd.trans hr.symm)) (by omega) hFR

/-! ## Fused multiply-add -/

/-- **C78.** The check of the test of `fma` accepts the result for any three operands, also where it is rounded twice (C31). -/
theorem C78_fma_accepted {ER FR EA FA EB FB EC FC : ℕ} (hER : 2 ≤ ER) (hFR : 1 ≤ FR) (hEA : 1 ≤ EA) (hFA : 1 ≤ FA) (hEB : 1 ≤ EB)
    (hFB : 1 ≤ FB) (hEC : 1 ≤ EC) (hFC : 1 ≤ FC) (hRE : ER < fmaE EA EB EC) (hRF : FR ≤ fmaF FA FB FC)
    (hok : DualFormat (fmaE EA EB EC) (fmaF FA FB FC)) (hfmt : fmaF FA FB FC ≤ 2 ^ (fmaE EA EB EC + 1))
    (a : Fp EA FA) (b : Fp EB FB) (c : Fp EC FC) : checkUlp (refFma ER FR a b c) (fma ER FR a b c) = some true := by
  by_cases hnum : ∃ p q s, a.datum = .num p ∧ b.datum = .num q ∧ c.datum = .num s
  · obtain ⟨p, q, s, hp, hq, hs⟩ := hnum
    obtain ⟨r, hr, -, hw⟩ := C31_fma_within_1ulp_partial hEA hFA hEB hFB hEC hFC (by omega) hFR hRE hRF hok hfmt a b c p q s hp hq hs
    obtain ⟨r', hr', hd'⟩ := C53_ref_fma (ER := ER) (FR := FR) (by omega) hFR a b c
    rw [hp, hq, hs, exactFma_num] at hd'
    have h := hw r' hd'
    simp only [checkUlp, hr, hr', Option.bind_eq_bind, Option.bind_some, Option.some.injEq]
    by_cases hn : r.datum = .nan ∨ r'.datum = .nan
    · rw [C49_within_1ulp_nan r r' hn] at h
      exact (C49_within_1ulp_nan r' r (.inl h.2)).mpr ⟨h.2, h.1⟩
    · push Not at hn
      rw [C49_within_1ulp (by omega) hFR r r' hn.1 hn.2] at h
      rw [C49_within_1ulp (by omega) hFR r' r hn.2 hn.1]
      exact fun ⟨y, hy⟩ => h ⟨y, hy.symm⟩
  · obtain ⟨r, r', hr, hr', he⟩ := C54_fma_agrees_partial hER hFR hEA hFA hEB hFB hEC hFC hRE hok hfmt a b c
      (fun p q s hp hq hs => absurd ⟨p, q, s, hp, hq, hs⟩ hnum)
    exact ulp_of_datum hr' hr ((C07_equals_iff_same_datum (by omega) hFR _ _).mp he) (by omega) hFR

/-- **C78.** The test of `fma` passes, unless the first operand has more fraction bits than the second one and few inputs are asked for: then
it reads past the end of the second list of inputs. -/
theorem C78_test_fma {ER FR EA FA EB FB EC FC : ℕ} (hER : 2 ≤ ER) (hFR : 1 ≤ FR) (hEA : 3 ≤ EA) (hFA : 2 ≤ FA) (hEB : 3 ≤ EB)
    (hFB : 2 ≤ FB) (hEC : 3 ≤ EC) (hFC : 2 ≤ FC) (hRE : ER < fmaE EA EB EC) (hRF : FR ≤ fmaF FA FB FC)
    (hok : DualFormat (fmaE EA EB EC) (fmaF FA FB FC)) (hfmt : fmaF FA FB FC ≤ 2 ^ (fmaE EA EB EC + 1))
    (n : ℕ) (dA dB dC : ℕ → ℕ × ℕ) :
    testFma ER FR EA FA EB FB EC FC n dA dB dC = if FA ≤ FB ∨ 131 + 4 * FA ≤ n then some true else none := by
  obtain ⟨as, has⟩ := (C77_inputs_exist_iff (E := EA) (F := FA) (by omega) (by omega) n dA).mpr ⟨hEA, by omega⟩
  obtain ⟨bs, hbs⟩ := (C77_inputs_exist_iff (E := EB) (F := FB) (by omega) (by omega) n dB).mpr ⟨hEB, by omega⟩
  obtain ⟨cs, hcs⟩ := (C77_inputs_exist_iff (E := EC) (F := FC) (by omega) (by omega) n dC).mpr ⟨hEC, by omega⟩
  have la := (C77_inputs_structure (by omega) (by omega) n dA as has).1
  have lb := (C77_inputs_structure (by omega) (by omega) n dB bs hbs).1
  simp only [testFma, has, hbs, hcs, Option.bind_eq_bind, Option.bind_some]
  rw [forAllFma_pass fun a _ b _ c _ => C78_fma_accepted hER hFR (by omega) (by omega) (by omega) (by omega) (by omega) (by omega)
    hRE hRF hok hfmt a b c]
  have : as.length ≤ bs.length ↔ (FA ≤ FB ∨ 131 + 4 * FA ≤ n) := by omega
  simp only [this]

/-- **C78, a test that is undefined**: the third of the four instances in the program (first operand with 24 fraction bits, the others with
23, 20 inputs). -/
theorem C78_test_fma_undefined (dA dB dC : ℕ → ℕ × ℕ) : testFma 8 23 8 24 8 23 8 23 20 dA dB dC = none := by
  have hok : DualFormat (fmaE 8 8 8) (fmaF 24 23 23) := by
    intro k hk
    exfalso
    have h52 : (2 : ℕ) ^ k = 52 := hk.symm
    have : k < 6 := (Nat.pow_lt_pow_iff_right (a := 2) (by norm_num)).mp (by rw [h52]; norm_num)
    interval_cases k <;> omega
  rw [C78_test_fma (by omega) (by omega) (by omega) (by omega) (by omega) (by omega) (by omega) (by omega) (by decide) (by decide) hok
    (by decide)]
  exact if_neg (by omega)

/-! ## The inverses -/

/-- No input of the tests is in the binade whose reciprocals the code gets wrong (C30). -/
theorem inputs_invertible {E F : ℕ} (hE : 4 ≤ E) (hF : 4 ≤ F) (hb : (F : ℤ) + 1 ≤ bias E) (hF2 : F + 6 < 1024) {n : ℕ} {draws : ℕ → ℕ × ℕ}
    {l : List (Fp E F)} (h : makeInput E F n draws = some l) {x : Fp E F} (hx : x ∈ l) {v : ℚ} (hv : x.datum = .num v) :
    |v| ≤ 2 ^ bias E ∨ 2 ^ (bias E + 1) ≤ |v| := by
  obtain ⟨s1, -, s3⟩ := C77_inputs_structure (by omega) (by omega) n draws l h
  have h2b : (2 : ℚ) ^ (F + 1) ≤ 2 ^ bias E := by
    rw [← zpow_natCast]; exact zpow_le_zpow_right₀ (by norm_num) (by push_cast; omega)
  have h16 : (16 : ℚ) ≤ 2 ^ F := by
    calc (16 : ℚ) = 2 ^ 4 := by norm_num
      _ ≤ 2 ^ F := pow_le_pow_right₀ (by norm_num) hF
  have hF0 : (0 : ℚ) < 2 ^ F := by positivity
  rw [pow_succ] at h2b
  obtain ⟨i, hi, rfl⟩ := List.mem_iff_getElem.mp hx
  by_cases hlt : i < 132 + 4 * F
  · -- a fixed input
    have hmem : l[i] ∈ l.take (132 + 4 * F) := List.mem_take_iff_getElem.mpr ⟨i, by omega, rfl⟩
    have ht := (C77_inputs_contents (by omega) hF hF2 n draws l h _).mp ⟨_, hmem, rfl⟩
    rw [hv] at ht
    have pm : ∀ {w : ℚ}, PlusMinus w (.num v) → |v| = |w| := by
      rintro w (e | e)
      · rw [Datum.num.inj e]
      · rw [Datum.num.inj e, abs_neg]
    have hmin : (2 : ℚ) ^ (-bias E) ≤ 1 := zpow_le_one_of_nonpos₀ (by norm_num) (by omega)
    have pmin := two_zpow_pos (-bias E)
    have hmaxe : (2 : ℤ) ^ E - 1 - bias E = bias E + 1 := by
      have := bias_double (E := E) (by omega)
      omega
    have pmax := two_zpow_pos (bias E + 1)
    rw [TestOperand, hmaxe] at ht
    have q1 : ∀ {i : ℕ}, i ≤ 11 → ((i : ℚ) / 2 ^ F ≤ 1 ∧ 0 ≤ (i : ℚ) / 2 ^ F ∧ 0 ≤ (i : ℚ) / 2 ^ (F + 1) ∧ (i : ℚ) / 2 ^ (F + 1) ≤ 1) := by
      intro i hi
      have : (i : ℚ) ≤ 11 := by exact_mod_cast hi
      refine ⟨by rw [div_le_one hF0]; linarith, by positivity, by positivity, ?_⟩
      rw [div_le_one (by positivity), pow_succ]; linarith
    rcases ht with ⟨s, hs⟩ | ⟨s, hs⟩ | ⟨j, h1, h2, h3⟩ | h3 | h3 | ⟨k, h1, h2, h3, h4, h5⟩
    · cases hs
    · cases hs
    · obtain ⟨a1, a2, a3, a4⟩ := q1 (i := j) (by omega)
      rcases h3 with h3 | h3 | h3 | h3 | h3
      · left; rw [pm h3, Nat.abs_cast]
        have : (j : ℚ) ≤ 10 := by exact_mod_cast h2
        linarith
      · left; rw [pm h3, abs_of_pos (by linarith)]; linarith
      · left; rw [pm h3, abs_of_nonneg (by linarith)]; linarith
      · left; rw [pm h3, abs_of_pos (by positivity)]
        nlinarith
      · right; rw [pm h3]
        obtain ⟨b1, -⟩ := q1 (i := j + 1) (by omega)
        push_cast at b1
        rw [abs_of_pos (mul_pos (by linarith) pmax)]
        nlinarith
    · left; rw [pm h3, abs_of_pos pmin]; linarith
    · right; rw [pm h3]
      obtain ⟨b1, -⟩ := q1 (i := 1) (by omega)
      push_cast at b1
      rw [abs_of_pos (mul_pos (by linarith) pmax)]
      nlinarith
    · rw [pm h5, abs_of_pos (two_zpow_pos k)]
      rcases le_or_gt k (bias E) with h | h
      · exact .inl (zpow_le_zpow_right₀ (by norm_num) h)
      · exact .inr (zpow_le_zpow_right₀ (by norm_num) (by omega))
  · -- a quotient of random numbers
    left
    obtain ⟨a, b, ha, hb', hd, hn⟩ := s3 ((i - (132 + 4 * F)) / 2) (by omega)
    generalize draws ((i - (132 + 4 * F)) / 2) = dr at *
    have key : ∀ w : ℚ, a.datum = .num w → |w| ≤ 2 ^ F * 2 := by
      intro w hw
      rw [hw, uniform, uniform] at hd
      have hp : 0 < 2 ^ (F + 1) := by positivity
      split_ifs at hd with c1 c2 c2
      · cases hd
      · cases hd
      · cases hd
      · have m1 := Nat.mod_lt dr.1 hp
        have m2 := Nat.mod_lt dr.2 hp
        generalize dr.1 % 2 ^ (F + 1) = k1 at *
        generalize dr.2 % 2 ^ (F + 1) = k2 at *
        have p1 : (0 : ℚ) < k1 := by exact_mod_cast Nat.pos_of_ne_zero c1
        have p2 : (1 : ℚ) ≤ k2 := by exact_mod_cast Nat.pos_of_ne_zero c2
        have p3 : (k1 : ℚ) < 2 ^ (F + 1) := by exact_mod_cast m1
        have hq : (k1 : ℚ) / 2 ^ (F + 1) / ((k2 : ℚ) / 2 ^ (F + 1)) = k1 / k2 := by field_simp
        have hd2 : Delivers E F (.num ((k1 : ℚ) / 2 ^ (F + 1) / ((k2 : ℚ) / 2 ^ (F + 1)))) (.num w) := hd
        rw [hq] at hd2
        have q0 : (0 : ℚ) < (k1 : ℚ) / k2 := by positivity
        have q1 : (k1 : ℚ) / k2 < 2 ^ (F + 1) := by
          rw [div_lt_iff₀ (by linarith)]; nlinarith
        simp only [Delivers] at hd2
        rw [if_neg q0.ne'] at hd2
        obtain ⟨m, e, hn', hr⟩ := hd2
        rw [abs_of_pos q0] at hn'
        have hp2 : 0 < 2 ^ F := by positivity
        have hsig : IsSig (F + 1) (2 ^ F) := ⟨by simp, by rw [pow_succ]; omega⟩
        have hle : (m : ℚ) * 2 ^ e ≤ 2 ^ F * 2 := by
          by_contra hc
          push Not at hc
          have := hn'.2.1 _ 1 hsig
          push_cast at this
          rw [pow_succ] at q1
          rw [abs_of_neg (by linarith), abs_of_neg (by linarith)] at this
          linarith
        have hm0 : (0 : ℚ) < (m : ℚ) * 2 ^ e := by
          have : 0 < 2 ^ (F + 1 - 1) := by positivity
          have : 0 < m := lt_of_lt_of_le this hn'.1.1
          have := two_zpow_pos e
          positivity
        unfold rangeCheck at hr
        split_ifs at hr
        all_goals rw [Datum.num.inj hr]
        · rwa [neg_one_mul, abs_neg, abs_of_pos hm0]
        · rwa [one_mul, abs_of_pos hm0]
    rcases Nat.even_or_odd' (i - (132 + 4 * F)) with ⟨c, hc | hc⟩
    · have : i = 132 + 4 * F + 2 * ((i - (132 + 4 * F)) / 2) := by omega
      rw [← this, List.getElem?_eq_getElem hi] at ha
      rw [Option.some.inj ha] at hv
      exact (key _ hv).trans h2b
    · have : i = 132 + 4 * F + 2 * ((i - (132 + 4 * F)) / 2) + 1 := by omega
      rw [← this, List.getElem?_eq_getElem hi] at hb'
      rw [Option.some.inj hb', hn] at hv
      cases hda : a.datum with
      | num w =>
        rw [hda] at hv
        have : -w = v := Datum.num.inj hv
        rw [← this, abs_neg]
        exact (key w hda).trans h2b
      | nan => rw [hda] at hv; cases hv
      | inf s => rw [hda] at hv; cases hv
      | zero s => rw [hda] at hv; cases hv

/-- **C78.** The test of `inv_direct` passes for every count and all draws: no input lies in the binade whose reciprocals are wrong (C30). -/
theorem C78_test_inv_direct_passes {E F : ℕ} (hE : 4 ≤ E) (hF : 4 ≤ F) (hF2 : F ≤ 25) (hb : (F : ℤ) + 1 ≤ bias E) (n : ℕ)
    (draws : ℕ → ℕ × ℕ) : testInvDirect E F n draws = some true := by
  obtain ⟨l, hl⟩ := (C77_inputs_exist_iff (E := E) (F := F) (by omega) (by omega) n draws).mpr ⟨by omega, by omega⟩
  simp only [testInvDirect, hl, Option.bind_eq_bind, Option.bind_some]
  rw [forAll_iff]
  intro a ha
  obtain ⟨⟨r', hr', hd'⟩, -⟩ := C53_ref_unary (ER := E) (FR := F) (by omega) (by omega) a 0
  have hz := inv_direct_eq (E := E) (FY := F) (FR := F) (by omega) (by omega) (by omega) (by omega) a
  obtain ⟨e1, e2, e3⟩ := C30_direct_exceptions (by omega) (by omega) a _ hz
  refine checkEquals_of hr' hz ((C07_equals_iff_same_datum (by omega) (by omega) _ _).mpr ?_) (by omega) (by omega)
  cases hda : a.datum with
  | nan => rw [hda] at hd'; rw [e3 hda]; exact hd'.symm
  | inf s =>
    rw [hda] at hd'; rw [e2 s hda]
    have : r'.datum = .zero s := by
      have h01 : ¬ (1 : ℚ) < 0 := by norm_num
      simpa [exactDiv, divSpecial, Delivers, Datum.isNeg, h01] using hd'
    exact this.symm
  | zero s =>
    rw [hda] at hd'; rw [e1 s hda]
    have : r'.datum = .inf s := by
      have h01 : ¬ (1 : ℚ) < 0 := by norm_num
      simpa [exactDiv, divSpecial, Delivers, Datum.isNeg, h01] using hd'
    exact this.symm
  | num v =>
    obtain ⟨z, h1, h2⟩ := C30_direct_partial (FR := F) (by omega) (by omega) (by omega) (by omega) (by omega) (by omega) a v hda
      (inputs_invertible hE hF hb (by omega) hl ha hda)
    rw [hz] at h1
    rw [Option.some.inj h1]
    rw [hda] at hd'
    have h3 : Delivers E F (.num (1 / v)) r'.datum := hd'
    simp only [Delivers] at h3
    rw [if_neg (one_div_ne_zero (fp_num_ne_zero hda))] at h3
    exact rounded_unique h2 h3

/-- **C78.** The test of the faithful inverse passes likewise. -/
theorem C78_test_inv_faithful_passes {E FR FY : ℕ} (hE : 4 ≤ E) (hR : 7 ≤ FR ∧ FR ≤ 62) (hY : 8 ≤ FY) (hS : Inv.starterBits (FR + 1) ≤ FY)
    (hb : (FY : ℤ) + 1 ≤ bias E) (hF2 : FY + 6 < 1024) (n : ℕ) (draws : ℕ → ℕ × ℕ) : testInvFaithful E FR FY n draws = some true := by
  obtain ⟨l, hl⟩ := (C77_inputs_exist_iff (E := E) (F := FY) (by omega) (by omega) n draws).mpr ⟨by omega, by omega⟩
  simp only [testInvFaithful, hl, Option.bind_eq_bind, Option.bind_some]
  rw [forAll_iff]
  intro a ha
  obtain ⟨z, hz, -⟩ := Inv.tableNewtonFp_eq (by omega) a hR.1 hR.2 hY hS
  obtain ⟨r1, r2, hr, h⟩ := C54_inv_faithful_agrees_partial (by omega) a _ hz
    fun v hv => inputs_invertible hE (by omega) hb hF2 hl ha hv
  rw [C07_equals_iff_same_datum (by omega) (by omega), C07_equals_iff_same_datum (by omega) (by omega)] at h
  simp only [checkEither, hz, hr, Option.bind_eq_bind, Option.bind_some, Option.some.injEq, Bool.or_eq_true]
  rw [C07_equals_iff_same_datum (by omega) (by omega), C07_equals_iff_same_datum (by omega) (by omega)]
  exact h.imp Eq.symm Eq.symm

/-! ## The instances in the programs -/

-- every format of test_mul.cpp, test_div.cpp; a result as wide as the product passes, one bit more does not
example (n F : ℕ) (hF : 11 ≤ F) (d d' : ℕ → ℕ × ℕ) : testMul 8 F F F n d d' = some true ∧ testDiv false 8 F n d = some true ∧
    testDiv true 8 F n d = some true := by
  refine ⟨?_, C78_test_div_passes (by omega) (by omega) (by omega) _ _ _, C78_test_div_passes (by omega) (by omega) (by omega) _ _ _⟩
  rw [C78_test_mul (by omega) (by omega) (by omega) (by omega) (by omega)]
  simp
example (n : ℕ) (d d' : ℕ → ℕ × ℕ) : testMul 8 22 10 12 n d d' = some true ∧ testMul 8 23 10 12 n d d' = some false := by
  rw [C78_test_mul (by omega) (by omega) (by omega) (by omega) (by omega),
    C78_test_mul (by omega) (by omega) (by omega) (by omega) (by omega)]
  exact ⟨rfl, rfl⟩
-- test_add_dual.cpp: single precision and (11, 60)
example (n : ℕ) (d : ℕ → ℕ × ℕ) : testAddDual 8 23 n d = some true ∧ testAddDual 11 60 n d = some true := by
  constructor
  · refine C78_test_add_dual_passes_partial (by omega) (by omega) ?_ (by norm_num) _ _
    intro k hk
    exfalso
    have : k < 5 := (Nat.pow_lt_pow_iff_right (a := 2) (by norm_num)).mp (by rw [← hk]; norm_num)
    interval_cases k <;> omega
  · refine C78_test_add_dual_passes_partial (by omega) (by omega) ?_ (by norm_num) _ _
    intro k hk
    exfalso
    have : k < 6 := (Nat.pow_lt_pow_iff_right (a := 2) (by norm_num)).mp (by rw [← hk]; norm_num)
    interval_cases k <;> omega
-- the single-path adders, formats of test_add_single_different_exp.cpp and ..._frac.cpp; the conversions
example (n : ℕ) (d d' : ℕ → ℕ × ℕ) : testAddSingle 8 23 8 23 n d d' = some true ∧ testAddSingle 12 40 8 40 n d d' = some true ∧
    testAddSingle 8 30 8 20 n d d' = some true ∧ testConvert 7 23 8 25 n d = some true ∧ testConvert 8 23 8 24 n d = some true :=
  ⟨C78_test_add_single_passes (by omega) (by omega) (by omega) (by omega) (by omega) (by omega) (by omega) (by norm_num) (by norm_num) _ _ _,
    C78_test_add_single_passes (by omega) (by omega) (by omega) (by omega) (by omega) (by omega) (by omega) (by norm_num) (by norm_num) _ _ _,
    C78_test_add_single_passes (by omega) (by omega) (by omega) (by omega) (by omega) (by omega) (by omega) (by norm_num) (by norm_num) _ _ _,
    C78_test_convert_passes (by omega) (by omega) (by omega) (by omega) (by omega) _ _,
    C78_test_convert_passes (by omega) (by omega) (by omega) (by omega) (by omega) _ _⟩
-- a sum that is accepted although it is wrong: 1 - 1.5*2^-25 = 1
example : checkFaithful (refAdd 8 23 (Fp.mk4 8 23 1 0 127 0) (Fp.mk4 8 23 1 1 102 (2 ^ 22)))
    (AddSingle.add (Fp.mk4 8 23 1 0 127 0) (Fp.mk4 8 23 1 1 102 (2 ^ 22))) = some true :=
  C78_add_single_accepted (by omega) (by omega) (by omega) (by omega) (by omega) (by norm_num) (by norm_num) _ _
-- the first instance of test_fma.cpp
example (d d' d'' : ℕ → ℕ × ℕ) : testFma 8 23 8 23 8 25 8 23 20 d d' d'' = some true := by
  rw [C78_test_fma (by omega) (by omega) (by omega) (by omega) (by omega) (by omega) (by omega) (by omega) (by decide) (by decide) ?_
    (by decide)]
  · exact if_pos (.inl (by omega))
  · intro k hk
    exfalso
    have h53 : (2 : ℕ) ^ k = 53 := hk.symm
    have : k < 6 := (Nat.pow_lt_pow_iff_right (a := 2) (by norm_num)).mp (by rw [h53]; norm_num)
    interval_cases k <;> omega
-- test_inv_nr.cpp
example (n : ℕ) (d : ℕ → ℕ × ℕ) : testInvDirect 8 16 n d = some true ∧ testInvFaithful 8 23 23 n d = some true ∧
    testInvFaithful 8 27 18 n d = some true :=
  ⟨C78_test_inv_direct_passes (by omega) (by omega) (by omega) (by norm_num [bias]) _ _,
    C78_test_inv_faithful_passes (by omega) (by omega) (by omega) (by decide) (by norm_num [bias]) (by omega) _ _,
    C78_test_inv_faithful_passes (by omega) (by omega) (by omega) (by decide) (by norm_num [bias]) (by omega) _ _⟩

end Thls
