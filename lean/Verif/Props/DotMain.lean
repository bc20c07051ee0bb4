import Verif.Props.DotFormats
import Verif.Props.DotRef
import Verif.Model.DotMain

/-! # C75: the verdicts of the dot product tests in every format, and of the programs that run them -/

namespace Thls
open Spec

/-- A loop whose bodies all end with a verdict ends with one, and passes exactly if they all do. -/
theorem runAll_verdict {α : Type} {body : α → Option Bool} {P : α → Prop} {l : List α}
    (h : ∀ x ∈ l, ∃ ok, body x = some ok ∧ (ok = true ↔ P x)) : ∃ ok, runAll body l = some ok ∧ (ok = true ↔ ∀ x ∈ l, P x) := by
  induction l with
  | nil => exact ⟨true, rfl, by simp⟩
  | cons x l ih =>
    obtain ⟨ok, hok, hiff⟩ := h x (by simp)
    obtain ⟨ok', hok', hiff'⟩ := ih fun y hy => h y (by simp [hy])
    cases ok with
    | false =>
      refine ⟨false, by simp [runAll, hok], ?_⟩
      simp only [Bool.false_eq_true, false_iff] at hiff ⊢
      exact fun hall => hiff (hall x (by simp))
    | true =>
      refine ⟨ok', by simp [runAll, hok, hok'], hiff'.trans ?_⟩
      simp only [true_iff] at hiff
      simp [hiff]

/-- Eight positive numbers. -/
def Positive8 {E F : ℕ} (x : Fin 8 → Fp E F) : Prop := ∀ i, ∃ v, (x i).datum = .num v ∧ 0 < v

/-- `dot4_pos_rndd` returns the exact sum of the four products of these operands rounded down once. -/
def Dot4Right {E F : ℕ} (x : Fin 8 → Fp E F) : Prop :=
  ∃ (v : Fin 8 → ℚ) (r : Fp E F), (∀ i, (x i).datum = .num (v i)) ∧ dot4 (x 0) (x 1) (x 2) (x 3) (x 4) (x 5) (x 6) (x 7) = some r ∧
    RoundedDown E F (v 0 * v 4 + v 1 * v 5 + v 2 * v 6 + v 3 * v 7) r.datum

/-- One iteration of the test. -/
theorem testDot4Body_verdict {E F : ℕ} (hE : 1 ≤ E) (hE' : E ≤ 10) (hF : 1 ≤ F) (hF' : F ≤ 52) (x : Fin 8 → Fp E F) (hx : Positive8 x)
    (href : F ≤ 5 ∨ ∀ i j : Fin 4, (x (i.castLE (by omega))).exp + (x (i.natAdd 4)).exp ≤
      (x (j.castLE (by omega))).exp + (x (j.natAdd 4)).exp + (10 * F + 20)) :
    ∃ ok, testDot4Body (x 0) (x 1) (x 2) (x 3) (x 4) (x 5) (x 6) (x 7) = some ok ∧ (ok = true ↔ Dot4Right x) := by
  choose v hv pv using hx
  obtain ⟨r, ok, hr, hok, hiff⟩ := C75_test_dot4_partial hE hE' hF hF' (fun i : Fin 4 => x (i.castLE (by omega))) (fun i : Fin 4 => x (i.natAdd 4))
    (fun i => v (i.castLE (by omega))) (fun i => v (i.natAdd 4)) (fun i => hv _) (fun i => hv _) (fun i => pv _) (fun i => pv _) href
  rw [Fin.sum_univ_four] at hiff
  have hok' : (testDot4Body (x 0) (x 1) (x 2) (x 3) (x 4) (x 5) (x 6) (x 7)).bind (fun ok => if ok then some true else some false) = some ok := hok
  refine ⟨ok, ?_, hiff.trans ⟨fun h => ⟨v, r, hv, hr, h⟩, ?_⟩⟩
  · cases hb : testDot4Body (x 0) (x 1) (x 2) (x 3) (x 4) (x 5) (x 6) (x 7) with
    | none => rw [hb] at hok'; cases hok'
    | some z =>
      rw [hb] at hok'
      cases z <;> exact hok'
  · rintro ⟨v', r', hv', hr', hd⟩
    obtain rfl : v' = v := by
      funext i
      have := (hv' i).symm.trans (hv i)
      injection this
    have hrr : some r = some r' := hr.symm.trans hr'
    rw [Option.some.inj hrr]
    exact hd

/-- **C75.** The test of `dot4_pos_rndd` in a format with up to 10 exponent and 52 fraction bits, where the exponent range is not too wide for the
reference, ends with a verdict for all positive operands, and passes exactly if every result is the exact sum rounded down. -/
theorem C75_test_dot4_verdict {E F : ℕ} (hE : 1 ≤ E) (hE' : E ≤ 10) (hF : 1 ≤ F) (hF' : F ≤ 52) (hr : F ≤ 5 ∨ 2 * (2 ^ E - 1) ≤ 10 * F + 20)
    (args : List (Fin 8 → Fp E F)) (hp : ∀ x ∈ args, Positive8 x) :
    ∃ ok, testDot4 args = some ok ∧ (ok = true ↔ ∀ x ∈ args, Dot4Right x) := by
  refine runAll_verdict fun x hx => testDot4Body_verdict hE hE' hF hF' x (hp x hx) ?_
  refine hr.imp id fun h i j => ?_
  have h1 := (x (i.castLE (by omega))).exp_lt hE
  have h2 := (x (i.natAdd 4)).exp_lt hE
  omega

/-- The formats in which `dot4_pos_rndd` is right (`C33_dot4_format_iff`). -/
def Dot4Format (E F : ℕ) : Prop := 3 * 2 ^ E < 8 * F + 4 ∨ (E = 2 ∧ F = 1)

theorem dot4Right_of_format {E F : ℕ} (hE : 1 ≤ E) (hF : 1 ≤ F) (hf : Dot4Format E F) (x : Fin 8 → Fp E F) (hx : Positive8 x) : Dot4Right x := by
  choose v hv pv using hx
  obtain ⟨r, hr, hd⟩ := (C33_dot4_format_iff hE hF).mpr hf (fun i : Fin 4 => x (i.castLE (by omega))) (fun i : Fin 4 => x (i.natAdd 4))
    (fun i => v (i.castLE (by omega))) (fun i => v (i.natAdd 4)) (fun i => hv _) (fun i => hv _) (fun i => pv _) (fun i => pv _)
  rw [Fin.sum_univ_four] at hd
  exact ⟨v, r, hv, hr, hd⟩

/-- Operands on which the test reports an error. -/
theorem testDot4Body_detects {E F : ℕ} (hE : 1 ≤ E) (hE' : E ≤ 10) (hF : 1 ≤ F) (hF' : F ≤ 52) (hf : ¬ Dot4Format E F) :
    ∃ x : Fin 8 → Fp E F, Positive8 x ∧ testDot4Body (x 0) (x 1) (x 2) (x 3) (x 4) (x 5) (x 6) (x 7) = some false := by
  unfold Dot4Format at hf
  push Not at hf
  obtain ⟨a, b, u, v, r, h, hs, hr, hn⟩ := C33_dot4_format_wrong (E := E) hF hf.1 (fun h => hf.2 h.1 h.2)
  have hx : Positive8 ![a 0, a 1, a 2, a 3, b 0, b 1, b 2, b 3] := by
    intro i
    fin_cases i
    exacts [⟨_, (h 0).1, (h 0).2.2.1⟩, ⟨_, (h 1).1, (h 1).2.2.1⟩, ⟨_, (h 2).1, (h 2).2.2.1⟩, ⟨_, (h 3).1, (h 3).2.2.1⟩,
      ⟨_, (h 0).2.1, (h 0).2.2.2⟩, ⟨_, (h 1).2.1, (h 1).2.2.2⟩, ⟨_, (h 2).2.1, (h 2).2.2.2⟩, ⟨_, (h 3).2.1, (h 3).2.2.2⟩]
  have ea : ∀ i : Fin 4, (![a 0, a 1, a 2, a 3, b 0, b 1, b 2, b 3] : Fin 8 → Fp E F) (i.castLE (by omega)) = a i := by
    intro i; fin_cases i <;> rfl
  have eb : ∀ i : Fin 4, (![a 0, a 1, a 2, a 3, b 0, b 1, b 2, b 3] : Fin 8 → Fp E F) (i.natAdd 4) = b i := by
    intro i; fin_cases i <;> rfl
  obtain ⟨ok, hok, hiff⟩ := testDot4Body_verdict hE hE' hF hF' _ hx (Or.inr fun i j => by
    rw [ea, eb, ea, eb]; have := hs i j; omega)
  refine ⟨_, hx, ?_⟩
  rw [hok]
  cases ok with
  | false => rfl
  | true =>
    obtain ⟨w, r', hw, hr', hd⟩ := hiff.mp rfl
    refine absurd ?_ hn
    have hrr : some r = some r' := hr.symm.trans hr'
    rw [Option.some.inj hrr, Fin.sum_univ_four]
    have e : ∀ {x : Fp E F} {p q : ℚ}, x.datum = .num p → x.datum = .num q → p = q := fun h1 h2 => by
      have := h1.symm.trans h2
      injection this
    rw [e (h 0).1 (hw 0), e (h 1).1 (hw 1), e (h 2).1 (hw 2), e (h 3).1 (hw 3), e (h 0).2.1 (hw 4), e (h 1).2.1 (hw 5), e (h 2).2.1 (hw 6),
      e (h 3).2.1 (hw 7)]
    exact hd

/-- **C75, exactly when the test passes.** In a format with up to 10 exponent and 52 fraction bits, the test of `dot4_pos_rndd` passes whatever positive
operands are drawn if and only if `3*2^E < 8*F + 4`, or the format has two exponent bits and one fraction bit; otherwise it reports an error for some. -/
theorem C75_test_dot4_iff {E F : ℕ} (hE : 1 ≤ E) (hE' : E ≤ 10) (hF : 1 ≤ F) (hF' : F ≤ 52) :
    ((∀ args : List (Fin 8 → Fp E F), (∀ x ∈ args, Positive8 x) → testDot4 args = some true) ↔ Dot4Format E F) ∧
    (¬ Dot4Format E F → ∃ x : Fin 8 → Fp E F, Positive8 x ∧ testDot4 [x] = some false) := by
  have hdet : ¬ Dot4Format E F → ∃ x : Fin 8 → Fp E F, Positive8 x ∧ testDot4 [x] = some false := fun hf => by
    obtain ⟨x, hx, hb⟩ := testDot4Body_detects hE hE' hF hF' hf
    exact ⟨x, hx, by simp [testDot4, runAll, hb]⟩
  refine ⟨⟨fun h => ?_, fun hf args hp => ?_⟩, hdet⟩
  · by_contra hf
    obtain ⟨x, hx, hb⟩ := hdet hf
    have := h [x] (by simpa using hx)
    rw [hb] at this
    cases this
  · have hr : F ≤ 5 ∨ 2 * (2 ^ E - 1) ≤ 10 * F + 20 := by
      rcases hf with h | ⟨rfl, rfl⟩
      · right; omega
      · left; norm_num
    obtain ⟨ok, hok, hiff⟩ := C75_test_dot4_verdict hE hE' hF hF' hr args hp
    rw [hok, hiff.mpr fun x hx => dot4Right_of_format hE hF hf x (hp x hx)]

theorem testDot4Body_passes {E F : ℕ} (hE : 1 ≤ E) (hE' : E ≤ 10) (hF : 1 ≤ F) (hF' : F ≤ 52) (hf : Dot4Format E F) (x : Fin 8 → Fp E F)
    (hx : Positive8 x) : testDot4Body (x 0) (x 1) (x 2) (x 3) (x 4) (x 5) (x 6) (x 7) = some true := by
  have := (C75_test_dot4_iff hE hE' hF hF').1.mpr hf [x] (by simpa using hx)
  unfold testDot4 at this
  rw [runAll_true] at this
  exact this x (by simp)

/-- **C75.** The exhaustive test of `dot4_pos_rndd` passes in exactly the same formats. `n` bounds the iterations of each loop. -/
theorem C75_exhaust_dot4_iff {E F : ℕ} (hE : 1 ≤ E) (hE' : E ≤ 10) (hF : 1 ≤ F) (hF' : F ≤ 52) {n : ℕ} (hn : 2 ^ (E + F) < n) :
    exhaustDot4 E F n = some true ↔ Dot4Format E F := by
  unfold exhaustDot4
  simp only [C76_loop_passes_iff hE hF hn]
  constructor
  · intro h
    by_contra hf
    obtain ⟨x, hx, hb⟩ := testDot4Body_detects hE hE' hF hF' hf
    choose v hv pv using hx
    rw [h _ _ (hv 0) (pv 0) _ _ (hv 1) (pv 1) _ _ (hv 2) (pv 2) _ _ (hv 3) (pv 3) _ _ (hv 4) (pv 4) _ _ (hv 5) (pv 5) _ _ (hv 6) (pv 6) _ _
      (hv 7) (pv 7)] at hb
    cases hb
  · intro hf x0 v0 h0 p0 x1 v1 h1 p1 x2 v2 h2 p2 x3 v3 h3 p3 x4 v4 h4 p4 x5 v5 h5 p5 x6 v6 h6 p6 x7 v7 h7 p7
    have hx : Positive8 ![x0, x1, x2, x3, x4, x5, x6, x7] := by
      intro i
      fin_cases i
      exacts [⟨_, h0, p0⟩, ⟨_, h1, p1⟩, ⟨_, h2, p2⟩, ⟨_, h3, p3⟩, ⟨_, h4, p4⟩, ⟨_, h5, p5⟩, ⟨_, h6, p6⟩, ⟨_, h7, p7⟩]
    exact testDot4Body_passes hE hE' hF hF' hf ![x0, x1, x2, x3, x4, x5, x6, x7] hx

/-- **C75.** The program test_dot2_pos_rndd.cpp returns 0, whatever positive operands its random sources draw. -/
theorem C75_dot2_program (draws : (E F : ℕ) → List (Fin 4 → Fp E F)) (hp : ∀ E F, ∀ a ∈ draws E F, ∀ i, ∃ v, (a i).datum = .num v ∧ 0 < v) :
    mainDot2 draws = some true := by
  unfold mainDot2
  rw [runAll_true]
  intro p hpm
  have hall : ∀ p ∈ dot2Instances, 1 ≤ p.1 ∧ 1 ≤ p.2 ∧ (12 ≤ p.2 ∨ p.1 ≤ 10) := by decide
  obtain ⟨h1, h2, h3⟩ := hall p hpm
  exact C75_test_dot2_partial h1 h2 h3 _ (hp p.1 p.2)

/-- **C75.** The program test_dot4_pos_rndd.cpp ends without a failing assertion, whatever positive operands its random sources draw. It returns 0 exactly
if every drawn result is the exact sum rounded down, and that can only fail in 8 of its 14 formats. -/
theorem C75_dot4_program (draws : (E F : ℕ) → List (Fin 8 → Fp E F)) (hp : ∀ E F, ∀ x ∈ draws E F, Positive8 x) :
    ∃ ok, mainDot4 draws = some ok ∧
      (ok = true ↔ ∀ p ∈ [(4, 3), (4, 4), (5, 4), (6, 4), (4, 5), (5, 5), (6, 5), (6, 16)], ∀ x ∈ draws p.1 p.2, Dot4Right x) := by
  have hall : ∀ p ∈ dot4Instances, 1 ≤ p.1 ∧ p.1 ≤ 10 ∧ 1 ≤ p.2 ∧ p.2 ≤ 52 ∧ (p.2 ≤ 5 ∨ 2 * (2 ^ p.1 - 1) ≤ 10 * p.2 + 20) := by decide
  obtain ⟨ok, hok, hiff⟩ := runAll_verdict (body := fun p : ℕ × ℕ => testDot4 (draws p.1 p.2)) (P := fun p => ∀ x ∈ draws p.1 p.2, Dot4Right x)
    (l := dot4Instances) fun p hm => by
      obtain ⟨h1, h2, h3, h4, h5⟩ := hall p hm
      exact C75_test_dot4_verdict h1 h2 h3 h4 h5 _ (hp p.1 p.2)
  refine ⟨ok, hok, hiff.trans ⟨fun h p hm => h p ?_, fun h p hm => ?_⟩⟩
  · have : ∀ p ∈ [(4, 3), (4, 4), (5, 4), (6, 4), (4, 5), (5, 5), (6, 5), (6, 16)], p ∈ dot4Instances := by decide
    exact this p hm
  · have hsplit : ∀ p ∈ dot4Instances, p ∈ [(4, 3), (4, 4), (5, 4), (6, 4), (4, 5), (5, 5), (6, 5), (6, 16)] ∨ 3 * 2 ^ p.1 < 8 * p.2 + 4 := by decide
    rcases hsplit p hm with h' | h'
    · exact h p h'
    · obtain ⟨h1, -, h3, -, -⟩ := hall p hm
      exact fun x hx => dot4Right_of_format h1 h3 (Or.inl h') x (hp p.1 p.2 x hx)

/-- **C75, finding.** In each of those 8 formats there are positive operands with which the program exits with an error. -/
theorem C75_dot4_program_wrong (p : ℕ × ℕ) (hm : p ∈ [(4, 3), (4, 4), (5, 4), (6, 4), (4, 5), (5, 5), (6, 5), (6, 16)]) :
    ∃ x : Fin 8 → Fp p.1 p.2, Positive8 x ∧
      ∀ draws : (E F : ℕ) → List (Fin 8 → Fp E F), (∀ E F, ∀ x ∈ draws E F, Positive8 x) → x ∈ draws p.1 p.2 → mainDot4 draws = some false := by
  have hall : ∀ p ∈ [(4, 3), (4, 4), (5, 4), (6, 4), (4, 5), (5, 5), (6, 5), (6, 16)], 1 ≤ p.1 ∧ p.1 ≤ 10 ∧ 1 ≤ p.2 ∧ p.2 ≤ 52 ∧
    (p.2 ≤ 5 ∨ 2 * (2 ^ p.1 - 1) ≤ 10 * p.2 + 20) ∧ ¬ (3 * 2 ^ p.1 < 8 * p.2 + 4 ∨ (p.1 = 2 ∧ p.2 = 1)) := by decide
  obtain ⟨h1, h2, h3, h4, h5, h6⟩ := hall p hm
  obtain ⟨x, hx, hb⟩ := testDot4Body_detects h1 h2 h3 h4 h6
  refine ⟨x, hx, fun draws hp hd => ?_⟩
  obtain ⟨ok, hok, hiff⟩ := C75_dot4_program draws hp
  rw [hok]
  cases ok with
  | false => rfl
  | true =>
    exfalso
    have hr := hiff.mp rfl p hm x hd
    obtain ⟨ok', hok', hiff'⟩ := C75_test_dot4_verdict h1 h2 h3 h4 h5 [x] (by simpa using hx)
    rw [hiff'.mpr (by simpa using hr)] at hok'
    simp [testDot4, runAll, hb] at hok'

/-- **C75.** The formats of the two programs: each returns 0 exactly if its test passes in every one of them. -/
theorem C75_dot_program_formats (draws2 : (E F : ℕ) → List (Fin 4 → Fp E F)) (draws4 : (E F : ℕ) → List (Fin 8 → Fp E F)) :
    (mainDot2 draws2 = some true ↔
      ∀ p ∈ [(8, 7), (8, 22), (8, 23), (8, 24), (5, 10), (11, 51), (11, 52), (11, 53), (11, 54), (11, 60)],
        testDot2 (draws2 p.1 p.2) = some true) ∧
    (mainDot4 draws4 = some true ↔
      ∀ p ∈ [(1, 3), (2, 3), (3, 3), (4, 3), (3, 4), (4, 4), (5, 4), (6, 4), (4, 5), (5, 5), (6, 5), (4, 16), (5, 16), (6, 16)],
        testDot4 (draws4 p.1 p.2) = some true) :=
  ⟨runAll_true _ _, runAll_true _ _⟩

/-- Non-vacuity: a run of the program that draws only ones. -/
example : mainDot4 (fun E F => [fun _ => Fp.mk4 E F 1 0 (biasN E) 0]) = some true := by decide +kernel

/-- The exhaustive test that the program does not call (src/fp_ops/test_dot4_pos_rndd.cpp:19) cannot pass. -/
example : ¬ Dot4Format 3 1 := by unfold Dot4Format; decide

end Thls
