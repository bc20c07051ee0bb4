import Verif.Proofs.PolicyInput
import Verif.Props.PolicyTest
import Verif.Props.SoftAgree

/-! # C86: the inputs of the policy tests, and what the policy test programs can report -/

namespace Thls
open Spec PolicyInput

/-- **C86.** `make_input` of `policy_flopoco<E,F>` returns, for every number of inputs asked for and all random draws, exactly when the
format has at least three exponent bits, and two fraction bits if it has three; in the smaller formats a constructor throws. -/
theorem C86_flopoco_inputs_exist_iff {E F : ℕ} (hE : 1 ≤ E) (hF : 1 ≤ F) (n : ℕ) (draws : ℕ → ℕ × ℕ) :
    (∃ l, makeInput (policyFlopoco E F) (limitsFlopoco E F) n draws = some l) ↔ 3 ≤ E ∧ (E = 3 → 2 ≤ F) := by
  constructor
  · rintro ⟨l, h⟩
    by_contra hc
    rw [makeInput, flopoco_fixed_none hE hF hc] at h
    cases h
  · intro h
    obtain ⟨b, hb⟩ := flopoco_room hF h
    obtain ⟨-, l, -, hl, -⟩ := (flopoco_window hE hF).input hb n draws
    exact ⟨l, hl⟩

/-- **C86.** The same for `policy_ieee_on_flopoco<E,F>`, which needs one more fraction bit with three exponent bits. -/
theorem C86_ieee_inputs_exist_iff {E F : ℕ} (hE : 2 ≤ E) (hF : 1 ≤ F) (n : ℕ) (draws : ℕ → ℕ × ℕ) :
    (∃ l, makeInput (policyIeeeOnFlopoco E F) (limitsIeee E F) n draws = some l) ↔ 3 ≤ E ∧ (E = 3 → 3 ≤ F) := by
  constructor
  · rintro ⟨l, h⟩
    by_contra hc
    rw [makeInput, ieee_fixed_none hE hF hc] at h
    cases h
  · intro h
    obtain ⟨b, hb⟩ := ieee_room hF h
    obtain ⟨-, l, -, hl, -⟩ := (ieee_window hE hF).input hb n draws
    exact ⟨l, hl⟩

/-- What `make_input` returns, for a type of `F` fraction bits whose normal numbers have the exponents `lo..hi`: `136 + 4F` fixed inputs that
depend neither on the number asked for nor on the draws, then, if more are asked for, pairs of a rounded quotient of two uniform numbers
and its negative, one more input than asked for if the number is odd. -/
def InputsAre {V : Type} (P : TestPolicy V) (L : TestLimits V) (D : V → Datum) (F : ℕ) (lo hi : ℤ) : Prop :=
  ∃ l0, ∀ n draws, ∃ l, makeInput P L n draws = some l ∧ l.length = 136 + 4 * F + 2 * ((n - (136 + 4 * F) + 1) / 2) ∧
    l.take (136 + 4 * F) = l0 ∧
    (∀ j < (n - (136 + 4 * F) + 1) / 2, ∃ a b, l[136 + 4 * F + 2 * j]? = some a ∧ l[136 + 4 * F + 2 * j + 1]? = some b ∧
      QuotientOperand F lo hi (drawnQuotient (F + 1) (draws j)) (D a) ∧ D b = (D a).neg) ∧
    (4 ≤ F → F + 7 < 1024 → ∀ d, (∃ x ∈ l0, D x = d) ↔ PolicyOperand F lo hi d)

theorem inputsAre {V : Type} {P : TestPolicy V} {L : TestLimits V} {D : V → Datum} {good : V → Prop} {F : ℕ} {lo hi b : ℤ}
    (h : Window P L D good F lo hi) (r : Room F lo hi b) : InputsAre P L D F lo hi := by
  obtain ⟨l0, h0, -⟩ := h.fixed r
  refine ⟨l0, fun n draws => ?_⟩
  obtain ⟨l0', l, h1, h2, h3, h4, h5, -⟩ := h.input r n draws
  obtain rfl : l0' = l0 := Option.some.inj (h1.symm.trans h0)
  refine ⟨l, h2, h3, h4, ?_, fun f4 f7 d => h.contents r f4 f7 h0 d⟩
  intro j hj
  obtain ⟨a, b, g1, g2, -, g4, g5⟩ := h5 j hj
  exact ⟨a, b, g1, g2, g4, g5⟩

/-- **C86.** The inputs of `policy_flopoco<E,F>`: exponents from `-bias` to `bias + 1`. -/
theorem C86_flopoco_inputs {E F : ℕ} (hF : 1 ≤ F) (h : 3 ≤ E ∧ (E = 3 → 2 ≤ F)) :
    InputsAre (policyFlopoco E F) (limitsFlopoco E F) Fp.datum F (-bias E) (bias E + 1) := by
  obtain ⟨b, hb⟩ := flopoco_room hF h
  obtain ⟨b1, -⟩ := two_bias (show 1 ≤ E by omega)
  have := inputsAre (flopoco_window (by omega) hF) hb
  rwa [show (2 : ℤ) ^ E - 1 - bias E = bias E + 1 by omega] at this

/-- **C86.** The inputs of `policy_ieee_on_flopoco<E,F>`: exponents from `1 - bias` to `bias`. -/
theorem C86_ieee_inputs {E F : ℕ} (hF : 1 ≤ F) (h : 3 ≤ E ∧ (E = 3 → 3 ≤ F)) :
    InputsAre (policyIeeeOnFlopoco E F) (limitsIeee E F) Ieee.datum F (1 - bias E) (bias E) := by
  obtain ⟨b, hb⟩ := ieee_room hF h
  exact inputsAre (ieee_window (by omega) hF) hb

/-- **C86.** The inputs of `policy_softfloat_single`. -/
theorem C86_single_inputs (fast : ℕ) : InputsAre (policySoftSingle fast) (limitsSoft 8 23) (wordDatum 8 23) 23 (-126) 127 :=
  inputsAre (single_window fast) single_room

/-- **C86.** The inputs of `policy_softfloat_double`. -/
theorem C86_double_inputs (fast : ℕ) : InputsAre (policySoftDouble fast) (limitsSoft 11 52) (wordDatum 11 52) 52 (-1022) 1023 :=
  inputsAre (double_window fast) double_room

/-- **C86 (partial).** Missing: the formats in which the adder asserts (C19). `test_arithmetic(n)` of `policy_flopoco<E,F>` completes whatever
is drawn. Although the operators are right it reports a failure, exactly if `0/0` is drawn, or a quotient that overflows and whose rounded
significand is not a power of two: its fraction bits remain in the infinity, which then differs from the infinities among the inputs. -/
theorem C86_flopoco_verdict_partial {E F : ℕ} (hF : 1 ≤ F) (h : 3 ≤ E ∧ (E = 3 → 2 ≤ F)) (hok : DualFormat E F) (hfmt : F ≤ 2 ^ (E + 1))
    (n : ℕ) (draws : ℕ → ℕ × ℕ) :
    ∃ bad, test (policyFlopoco E F) (limitsFlopoco E F) n draws = some bad ∧ (bad = true ↔ ∃ j < (n - (136 + 4 * F) + 1) / 2,
      drawnQuotient (F + 1) (draws j) = .nan ∨ ∃ w m e, drawnQuotient (F + 1) (draws j) = .num w ∧ NearestEven (F + 1) w m e ∧
        bias E + 1 < e + F ∧ m ≠ 2 ^ F) := by
  have hE : 1 ≤ E := by omega
  obtain ⟨b, hb⟩ := flopoco_room hF h
  have win := flopoco_window hE hF
  obtain ⟨l0, l, h1, h2, h3, h4, h5, h6, -, h8⟩ := win.input hb n draws
  obtain ⟨bad, v1, v2⟩ := C74_flopoco_verdict_partial (by omega) hF hok hfmt l
  refine ⟨bad, by rw [test, h2]; exact v1, v2.trans ?_⟩
  rw [h6]
  obtain ⟨l0', f1, -, f3, f4⟩ := win.fixed hb
  obtain rfl : l0' = l0 := Option.some.inj (f1.symm.trans h1)
  constructor
  · rintro (⟨j, hj, hn⟩ | ⟨x, hx, y, hy, s, dx, dy, hne⟩)
    · exact ⟨j, hj, .inl hn⟩
    · have stray : ∀ v ∈ l, ¬ PlainInf v → ∃ j < rounds F n, ∃ w m e, drawnQuotient (F + 1) (draws j) = .num w ∧
          NearestEven (F + 1) w m e ∧ bias E + 1 < e + F ∧ m ≠ 2 ^ F := by
        intro v hv hp
        rcases h8 v hv with h0 | ⟨j, hj, a, b, hab, hc⟩
        · exact absurd (f3 v h0).1 hp
        · refine ⟨j, hj, (flopoco_ratio_stray hE hF hab).1.1 ?_⟩
          rcases hc with rfl | rfl
          · exact .inl hp
          · exact .inr hp
      have : ¬ PlainInf x ∨ ¬ PlainInf y := by
        by_contra hc
        push Not at hc
        obtain ⟨p1, p2⟩ := hc.1 s dx
        obtain ⟨q1, q2⟩ := hc.2 s dy
        exact hne ⟨by rw [p1, q1], by rw [p2, q2]⟩
      rcases this with hp | hp
      · obtain ⟨j, hj, hc⟩ := stray x hx hp
        exact ⟨j, hj, .inr hc⟩
      · obtain ⟨j, hj, hc⟩ := stray y hy hp
        exact ⟨j, hj, .inr hc⟩
  · rintro ⟨j, hj, hn | hst⟩
    · exact .inl ⟨j, hj, hn⟩
    · right
      obtain ⟨a, b, g1, -, g3, -⟩ := h5 j hj
      obtain ⟨r1, r2⟩ := flopoco_ratio_stray hE hF g3
      obtain ⟨c1, c2, c3⟩ := r2 (r1.2 hst)
      obtain ⟨x, hx, dx⟩ := (f4 (.inf false)).2 (.inr (.inl (.inr (.inl ⟨false, rfl⟩))))
      have px := (f3 x hx).1 _ dx
      have hx' : x ∈ l := by
        rw [← h4] at hx
        exact List.mem_of_mem_take hx
      refine ⟨a, List.mem_of_getElem? g1, x, hx', false, c1, dx, ?_⟩
      rintro ⟨-, hc⟩
      exact c3 (hc.trans px.2)

/-- The draws in the theorems below are those that are used: there are none unless more than `136 + 4F` inputs are asked for. -/
example : (100 - (136 + 4 * 10) + 1) / 2 = 0 ∧ (200 - (136 + 4 * 10) + 1) / 2 = 12 := by decide

/-- **C86.** `0/0` is drawn exactly if both draws are zero. -/
theorem C86_drawn_nan {p : ℕ} (d : ℕ × ℕ) : drawnQuotient p d = .nan ↔ d.1 % 2 ^ p = 0 ∧ d.2 % 2 ^ p = 0 := by
  unfold drawnQuotient uniform
  by_cases h1 : d.1 % 2 ^ p = 0
  · by_cases h2 : d.2 % 2 ^ p = 0
    · simp [h1, h2, exactDiv, divSpecial]
    · simp [h1, h2, exactDiv, divSpecial]
  · by_cases h2 : d.2 % 2 ^ p = 0
    · simp [h1, h2, exactDiv, divSpecial]
    · simp [h1, h2, exactDiv, divSpecial]

/-- **C86 (partial).** Missing: the formats in which the adder asserts (C19). With more than `136 + 4F` inputs, the test of the right operators of
`policy_flopoco<E,F>` can be relied on not to fail, short of drawing `0/0`, exactly if `F ≤ bias + 1`, that is, if no quotient overflows. -/
theorem C86_flopoco_reliable_iff_partial {E F : ℕ} (hF : 1 ≤ F) (h : 3 ≤ E ∧ (E = 3 → 2 ≤ F)) (hok : DualFormat E F) (hfmt : F ≤ 2 ^ (E + 1))
    {n : ℕ} (hn : 136 + 4 * F < n) :
    (∀ draws, (∀ j < (n - (136 + 4 * F) + 1) / 2, drawnQuotient (F + 1) (draws j) ≠ .nan) →
      test (policyFlopoco E F) (limitsFlopoco E F) n draws = some false) ↔ (F : ℤ) ≤ bias E + 1 := by
  have p1 : 2 ≤ 2 ^ F := by
    calc 2 = 2 ^ 1 := by norm_num
      _ ≤ 2 ^ F := Nat.pow_le_pow_right (by norm_num) hF
  have hq : drawnQuotient (F + 1) (2 ^ (F + 1) - 1, 1) = .num ((2 ^ (F + 1) - 1 : ℕ) : ℚ) := by
    unfold drawnQuotient uniform
    have e1 : (2 ^ (F + 1) - 1) % 2 ^ (F + 1) = 2 ^ (F + 1) - 1 := Nat.mod_eq_of_lt (by rw [pow_succ]; omega)
    have e2 : 1 % 2 ^ (F + 1) = 1 := Nat.mod_eq_of_lt (by rw [pow_succ]; omega)
    simp only [e1, e2]
    rw [if_neg (by rw [pow_succ]; omega), if_neg (by omega), exactDiv]
    have hp : (2 : ℚ) ^ (F + 1) ≠ 0 := by positivity
    simp only [Datum.val, Nat.cast_one, divSpecial, Option.getD_none]
    congr 1
    field_simp
  have hsig : IsSig (F + 1) (2 ^ (F + 1) - 1) := by
    unfold IsSig
    rw [Nat.add_sub_cancel, pow_succ]
    omega
  have hnear : NearestEven (F + 1) (((2 ^ (F + 1) - 1 : ℕ) : ℚ)) (2 ^ (F + 1) - 1) 0 := by
    exact nearest_self (by omega) hsig (by rw [zpow_zero, mul_one])
  constructor
  · intro hall
    by_contra hc
    obtain ⟨bad, v1, v2⟩ := C86_flopoco_verdict_partial hF h hok hfmt n (fun _ => (2 ^ (F + 1) - 1, 1))
    rw [hall _ (fun j _ => by rw [hq]; intro h; cases h)] at v1
    obtain rfl := Option.some.inj v1
    have := v2.2 ⟨0, by omega, .inr ⟨_, _, 0, hq, hnear, by push_cast; omega, by rw [pow_succ]; omega⟩⟩
    cases this
  · intro hl draws hd
    obtain ⟨bad, v1, v2⟩ := C86_flopoco_verdict_partial hF h hok hfmt n draws
    rw [v1]
    cases bad with
    | false => rfl
    | true =>
      obtain ⟨j, hj, hc | ⟨w, m, e, hw, hne, he, -⟩⟩ := v2.1 rfl
      · exact absurd hc (hd j hj)
      · obtain ⟨a, b, a1, a2, c1, c2, hab⟩ := drawn_num hw
        have := drawn_exp hF a1 a2 c1 c2 hab hne
        omega

/-- **C86 (partial).** Missing: the formats in which the adder asserts (C19). `test_arithmetic(n)` of `policy_ieee_on_flopoco<E,F>` completes
whatever is drawn, and reports a failure, although the operators are right, exactly if `0/0` is drawn. -/
theorem C86_ieee_verdict_partial {E F : ℕ} (hF : 1 ≤ F) (h : 3 ≤ E ∧ (E = 3 → 3 ≤ F)) (hok : DualFormat E F) (hfmt : F ≤ 2 ^ (E + 1))
    (n : ℕ) (draws : ℕ → ℕ × ℕ) :
    ∃ bad, test (policyIeeeOnFlopoco E F) (limitsIeee E F) n draws = some bad ∧
      (bad = true ↔ ∃ j < (n - (136 + 4 * F) + 1) / 2, drawnQuotient (F + 1) (draws j) = .nan) := by
  obtain ⟨b, hb⟩ := ieee_room hF h
  obtain ⟨-, l, -, h2, -, -, -, h6, -⟩ := (ieee_window (by omega) hF).input hb n draws
  obtain ⟨bad, v1, v2⟩ := C74_ieee_verdict_partial (by omega) hF hok hfmt l
  exact ⟨bad, by rw [test, h2]; exact v1, v2.trans h6⟩

/-- **C86.** The same for `policy_softfloat_single`. -/
theorem C86_single_verdict {fast : ℕ} (hfast : 32 ≤ fast) (n : ℕ) (draws : ℕ → ℕ × ℕ) :
    ∃ bad, test (policySoftSingle fast) (limitsSoft 8 23) n draws = some bad ∧
      (bad = true ↔ ∃ j < (n - 228 + 1) / 2, drawnQuotient 24 (draws j) = .nan) := by
  obtain ⟨-, l, -, h2, -, -, -, h6, h7, -⟩ := (single_window fast).input single_room n draws
  obtain ⟨bad, v1, v2⟩ := C74_single_verdict hfast (h7 (by norm_num))
  exact ⟨bad, by rw [test, h2]; exact v1, v2.trans h6⟩

/-- **C86.** The same for `policy_softfloat_double`. -/
theorem C86_double_verdict {fast : ℕ} (hfast : 64 ≤ fast) (n : ℕ) (draws : ℕ → ℕ × ℕ) :
    ∃ bad, test (policySoftDouble fast) (limitsSoft 11 52) n draws = some bad ∧
      (bad = true ↔ ∃ j < (n - 344 + 1) / 2, drawnQuotient 53 (draws j) = .nan) := by
  obtain ⟨-, l, -, h2, -, -, -, h6, h7, -⟩ := (double_window fast).input double_room n draws
  obtain ⟨bad, v1, v2⟩ := C74_double_verdict hfast (h7 (by norm_num))
  exact ⟨bad, by rw [test, h2]; exact v1, v2.trans h6⟩

/-! ### The programs -/

theorem dual_5_10 : DualFormat 5 10 := by
  intro k hk
  exfalso
  have h1 : 3 < k := by by_contra h; have : 2 ^ k ≤ 2 ^ 3 := Nat.pow_le_pow_right (by norm_num) (by omega); omega
  have h2 : 2 ^ 4 ≤ 2 ^ k := Nat.pow_le_pow_right (by norm_num) (by omega)
  omega

/-- **C86.** The tests that the three programs run all pass: they ask for 100 inputs, fewer than the fixed ones, so that nothing is drawn. -/
theorem C86_programs_tests_pass {fast32 fast64 : ℕ} (h32 : 32 ≤ fast32) (h64 : 64 ≤ fast64) (draws : ℕ → ℕ × ℕ) :
    (∀ f ∈ [(8, 23), (11, 52), (5, 10)], test (policyFlopoco f.1 f.2) (limitsFlopoco f.1 f.2) 100 draws = some false ∧
      test (policyIeeeOnFlopoco f.1 f.2) (limitsIeee f.1 f.2) 100 draws = some false) ∧
    test (policySoftSingle fast32) (limitsSoft 8 23) 100 draws = some false ∧
    test (policySoftDouble fast64) (limitsSoft 11 52) 100 draws = some false := by
  have fl : ∀ {E F : ℕ}, 1 ≤ F → 3 ≤ E ∧ (E = 3 → 2 ≤ F) → DualFormat E F → F ≤ 2 ^ (E + 1) →
      test (policyFlopoco E F) (limitsFlopoco E F) 100 draws = some false := by
    intro E F hF h hok hfmt
    obtain ⟨bad, v1, v2⟩ := C86_flopoco_verdict_partial hF h hok hfmt 100 draws
    rw [v1]
    cases bad with
    | false => rfl
    | true => obtain ⟨j, hj, -⟩ := v2.1 rfl; omega
  have ie : ∀ {E F : ℕ}, 1 ≤ F → 3 ≤ E ∧ (E = 3 → 3 ≤ F) → DualFormat E F → F ≤ 2 ^ (E + 1) →
      test (policyIeeeOnFlopoco E F) (limitsIeee E F) 100 draws = some false := by
    intro E F hF h hok hfmt
    obtain ⟨bad, v1, v2⟩ := C86_ieee_verdict_partial hF h hok hfmt 100 draws
    rw [v1]
    cases bad with
    | false => rfl
    | true => obtain ⟨j, hj, -⟩ := v2.1 rfl; omega
  refine ⟨?_, ?_, ?_⟩
  · intro f hf
    simp only [List.mem_cons, List.not_mem_nil, or_false] at hf
    rcases hf with rfl | rfl | rfl
    · exact ⟨fl (by decide) (by decide) dual_8_23' (by decide), ie (by decide) (by decide) dual_8_23' (by decide)⟩
    · exact ⟨fl (by decide) (by decide) dual_11_52 (by decide), ie (by decide) (by decide) dual_11_52 (by decide)⟩
    · exact ⟨fl (by decide) (by decide) dual_5_10 (by decide), ie (by decide) (by decide) dual_5_10 (by decide)⟩
  · obtain ⟨bad, v1, v2⟩ := C86_single_verdict h32 100 draws
    rw [v1]
    cases bad with
    | false => rfl
    | true => obtain ⟨j, hj, -⟩ := v2.1 rfl; omega
  · obtain ⟨bad, v1, v2⟩ := C86_double_verdict h64 100 draws
    rw [v1]
    cases bad with
    | false => rfl
    | true => obtain ⟨j, hj, -⟩ := v2.1 rfl; omega

/-- **C86.** The exit code says exactly whether every test came to an end, whatever it has reported. -/
theorem C86_exit_code_iff (rs : List (Option Bool)) :
    (exitCode rs = 0 ↔ ∀ r ∈ rs, ∃ b, r = some b) ∧ (exitCode rs ≠ 0 ↔ none ∈ rs) ∧ exitCode rs ≤ 1 := by
  induction rs with
  | nil => simp [exitCode]
  | cons r rs ih =>
    obtain ⟨h1, h2, h3⟩ := ih
    cases r with
    | none => simp [exitCode]
    | some b =>
      simp only [exitCode, Option.isSome_some, if_true, List.mem_cons, forall_eq_or_imp, reduceCtorEq, false_or]
      exact ⟨by simpa using h1, h2, h3⟩

/-- Non-vacuity: a failed test is not noticed, an exception is. -/
example : exitCode [some true, some false] = 0 ∧ exitCode [some true, none, some true] = 1 := by decide

/-- **C86.** The three programs exit with 0, whatever the random numbers. -/
theorem C86_programs_exit {fast32 fast64 : ℕ} (h32 : 32 ≤ fast32) (h64 : 64 ≤ fast64) (d1 d2 d3 : ℕ → ℕ × ℕ) :
    programFlopoco d1 d2 d3 = 0 ∧ programIeee d1 d2 d3 = 0 ∧ programSoft fast32 fast64 d1 d2 = 0 := by
  obtain ⟨a1, -, b1⟩ := C86_programs_tests_pass h32 h64 d1
  obtain ⟨a2, b2, c2⟩ := C86_programs_tests_pass h32 h64 d2
  obtain ⟨a3, -⟩ := C86_programs_tests_pass h32 h64 d3
  obtain ⟨s1, -⟩ : test (policySoftSingle fast32) (limitsSoft 8 23) 100 d1 = some false ∧ True :=
    ⟨(C86_programs_tests_pass h32 h64 d1).2.1, trivial⟩
  obtain ⟨x1, y1⟩ := a1 (8, 23) (by simp)
  obtain ⟨x2, y2⟩ := a2 (11, 52) (by simp)
  obtain ⟨x3, y3⟩ := a3 (5, 10) (by simp)
  dsimp only at x1 x2 x3 y1 y2 y3
  simp only [programFlopoco, programIeee, programSoft, x1, x2, x3, y1, y2, y3, s1, c2, exitCode, Option.isSome_some, if_true, and_self]

/-- Whatever operators a policy with the references of a modelled one has, if they return, the test returns. -/
theorem test_returns {V : Type} {P : TestPolicy V} {L : TestLimits V} {D : V → Datum} {good : V → Prop} {F n : ℕ} {lo hi b : ℤ}
    (h : Window P L D good F lo hi) (r : Room F lo hi b) (hn : n ≤ 136 + 4 * F)
    (ho : ∀ l : List V, (∀ v ∈ l, good v ∧ D v ≠ .nan) → ∃ bad, PolicyTest.testArithmetic P l = some bad) (draws : ℕ → ℕ × ℕ) :
    (test P L n draws).isSome := by
  obtain ⟨l0, l, h1, h2, h3, h4, -⟩ := h.input r n draws
  obtain ⟨l0', f1, -, f3, -⟩ := h.fixed r
  obtain rfl : l0' = l0 := Option.some.inj (f1.symm.trans h1)
  have e : l = l0' := by
    rw [← h4, List.take_of_length_le]
    have : rounds F n = 0 := by unfold rounds; omega
    omega
  subst e
  obtain ⟨bad, hb⟩ := ho l f3
  rw [test, h2]
  change (PolicyTest.testArithmetic P l).isSome
  rw [hb]
  rfl

/-- **C86, the programs cannot fail because of a wrong result.** Let the operators and comparisons of the two softfloat policies (or of the native
ones, whose reference functions are the same) return any words at all: the program exits with 0. -/
theorem C86_soft_program_ignores_failures {P Q : TestPolicy ℕ} (hP : SameReference P (policySoftSingle 32)) (dP : P.digits = 24)
    (hQ : SameReference Q (policySoftDouble 64)) (dQ : Q.digits = 53)
    (oP : ∀ a b, ∃ p s q, P.mul a b = some p ∧ P.add a b = some s ∧ P.div a b = some q ∧ p < 2 ^ 32 ∧ s < 2 ^ 32 ∧ q < 2 ^ 32)
    (oQ : ∀ a b, ∃ p s q, Q.mul a b = some p ∧ Q.add a b = some s ∧ Q.div a b = some q ∧ p < 2 ^ 64 ∧ s < 2 ^ 64 ∧ q < 2 ^ 64)
    (d1 d2 : ℕ → ℕ × ℕ) :
    exitCode [test P (limitsSoft 8 23) 100 d1, test Q (limitsSoft 11 52) 100 d2] = 0 := by
  have t1 := test_returns (n := 100) ((single_window 32).same dP hP) single_room (by norm_num) (fun l hl => by
    obtain ⟨bad, hb, -⟩ := C74_single_oracle hP hl (fun a _ b _ => oP a b)
    exact ⟨bad, hb⟩) d1
  have t2 := test_returns (n := 100) ((double_window 64).same dQ hQ) double_room (by norm_num) (fun l hl => by
    obtain ⟨bad, hb, -⟩ := C74_double_oracle hQ hl (fun a _ b _ => oQ a b)
    exact ⟨bad, hb⟩) d2
  simp only [exitCode, t1, t2, if_true]

/-- **C86.** The same for `policy_flopoco` and `policy_ieee_on_flopoco` in every format in which the inputs exist. -/
theorem C86_test_never_throws {E F n : ℕ} (hF : 1 ≤ F) (hn : n ≤ 136 + 4 * F) (draws : ℕ → ℕ × ℕ) :
    (3 ≤ E ∧ (E = 3 → 2 ≤ F) → ∀ P : TestPolicy (Fp E F), SameReference P (policyFlopoco E F) → P.digits = F + 1 →
      (∀ a b, ∃ p s q, P.mul a b = some p ∧ P.add a b = some s ∧ P.div a b = some q) →
      exitCode [test P (limitsFlopoco E F) n draws] = 0) ∧
    (3 ≤ E ∧ (E = 3 → 3 ≤ F) → ∀ P : TestPolicy (Ieee E F), SameReference P (policyIeeeOnFlopoco E F) → P.digits = F + 1 →
      (∀ a b, ∃ p s q, P.mul a b = some p ∧ P.add a b = some s ∧ P.div a b = some q) →
      exitCode [test P (limitsIeee E F) n draws] = 0) := by
  constructor
  · intro h P hP dP oP
    obtain ⟨b, hb⟩ := flopoco_room hF h
    have t := test_returns (n := n) ((flopoco_window (by omega) hF).same dP hP) hb hn (fun l hl => by
      obtain ⟨bad, hb, -⟩ := C74_flopoco_oracle (by omega) hF hP (fun v hv => (hl v hv).2) (fun a _ b _ => oP a b)
      exact ⟨bad, hb⟩) draws
    simp only [exitCode, t, if_true]
  · intro h P hP dP oP
    obtain ⟨b, hb⟩ := ieee_room hF h
    have t := test_returns (n := n) ((ieee_window (by omega) hF).same dP hP) hb hn (fun l hl => by
      obtain ⟨bad, hb, -⟩ := C74_ieee_oracle (by omega) hF hP (fun v hv => by
        have := (hl v hv).2
        intro hc
        cases hd : v.datum with
        | nan => exact this hd
        | num q => rw [hd, ieeeRange] at hc; split_ifs at hc <;> cases hc
        | zero s => rw [hd] at hc; cases hc
        | inf s => rw [hd] at hc; cases hc) (fun a _ b _ => oP a b)
      exact ⟨bad, hb⟩) draws
    simp only [exitCode, t, if_true]

/-- A softfloat addition that returns its first operand: the test reports the failure, and the program exits with 0. -/
def wrongSingle : TestPolicy ℕ := { policySoftSingle 32 with add := fun a _ => some (a % 2 ^ 32), mul := fun _ _ => some 0, div := fun _ _ => some 0 }

/-- **C86.** A witness that a failure is reported by `test_arithmetic` and not by the program. -/
theorem C86_failure_reported_and_ignored (d1 d2 : ℕ → ℕ × ℕ) :
    test wrongSingle (limitsSoft 8 23) 100 d1 = some true ∧
    exitCode [test wrongSingle (limitsSoft 8 23) 100 d1, test (policySoftDouble 64) (limitsSoft 11 52) 100 d2] = 0 := by
  have hP : SameReference wrongSingle (policySoftSingle 32) := ⟨rfl, rfl, rfl, rfl, rfl⟩
  have win := (single_window 32).same (Q := wrongSingle) rfl hP
  have oP : ∀ a b, ∃ p s q, wrongSingle.mul a b = some p ∧ wrongSingle.add a b = some s ∧ wrongSingle.div a b = some q ∧
      p < 2 ^ 32 ∧ s < 2 ^ 32 ∧ q < 2 ^ 32 :=
    fun a b => ⟨0, a % 2 ^ 32, 0, rfl, rfl, rfl, by norm_num, Nat.mod_lt _ (by norm_num), by norm_num⟩
  have key : test wrongSingle (limitsSoft 8 23) 100 d1 = some true := by
    obtain ⟨l0, l, h1, h2, h3, h4, -⟩ := win.input single_room 100 d1
    obtain ⟨l0', f1, -, f3, f4⟩ := win.fixed single_room
    obtain rfl : l0' = l0 := Option.some.inj (f1.symm.trans h1)
    have e : l = l0' := by
      rw [← h4, List.take_of_length_le]
      have : rounds 23 100 = 0 := by decide
      omega
    subst e
    obtain ⟨bad, hb, hiff⟩ := C74_single_oracle hP f3 (fun a _ b _ => oP a b)
    rw [test, h2]
    change PolicyTest.testArithmetic wrongSingle l = some true
    rw [hb]
    cases bad with
    | true => rfl
    | false =>
      exfalso
      obtain ⟨a, ha, da⟩ := (f4 (.zero false)).2 (.inr (.inl (.inl ⟨_, rfl⟩)))
      obtain ⟨b, hb', db⟩ := (f4 (.inf false)).2 (.inr (.inl (.inr (.inl ⟨_, rfl⟩))))
      obtain ⟨-, -, hs, -⟩ := hiff.1 rfl a ha b hb'
      obtain ⟨d, i1, i2⟩ := hs (a % 2 ^ 32) rfl
      rw [Nat.mod_eq_of_lt (f3 a ha).1, da] at i2
      rw [da, db] at i1
      simp only [IeeeSum, addSpecial, Option.some.injEq] at i1
      subst i1
      rcases i2 with i2 | ⟨i2, -⟩
      · simp [Datum.RealEq] at i2
      · cases i2
  refine ⟨key, ?_⟩
  have hd := (C86_programs_tests_pass (fast32 := 32) (fast64 := 64) le_rfl le_rfl d2).2.2
  simp only [key, hd, exitCode, Option.isSome_some, if_true]

/-! ### The hypotheses are met -/

example : (3 ≤ 5 ∧ (5 = 3 → 2 ≤ 10)) ∧ DualFormat 5 10 ∧ 10 ≤ 2 ^ (5 + 1) := ⟨by decide, dual_5_10, by decide⟩
example : InputsAre (policyFlopoco 5 10) (limitsFlopoco 5 10) Fp.datum 10 (-bias 5) (bias 5 + 1) := C86_flopoco_inputs (by decide) (by decide)
example : PolicyOperand 10 (-15) 16 (.num (-7)) :=
  .inr (.inr (.inl ⟨7, by norm_num, by norm_num, .inl (.inr (by norm_num))⟩))

end Thls
