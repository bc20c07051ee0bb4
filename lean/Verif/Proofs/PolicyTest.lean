import Verif.Proofs.PolicyOps
import Verif.SpecPolicy

/-! # The counters and the verdict of the policy test -/

namespace Thls
open Spec

namespace PolicyTest
variable {V : Type}

theorem fold_record (v : String → Bool) (l : List String) (hl : l.Nodup) (r : Results) :
    (l.map fun n => (n, v n)).foldl (fun r c => record r c.1 c.2) r =
      fun op => if op ∈ l then ((r op).1 + (v op).toNat, (r op).2 + 1) else r op := by
  induction l generalizing r with
  | nil => simp
  | cons n l ih =>
    rw [List.nodup_cons] at hl
    rw [List.map_cons, List.foldl_cons, ih hl.2]
    funext op
    simp only [record, List.mem_cons]
    by_cases h : op = n
    · subst h
      simp [hl.1]
    · simp [h, Function.update_of_ne h]

theorem names_nodup : names.Nodup := by decide +kernel

theorem inner_fold {P : TestPolicy V} {a : V} {x : Mpfr} {M : V → Mpfr} {vd : String → V → Bool} (l : List V)
    (hM : ∀ b ∈ l, P.toMpfr b = some (M b))
    (hc : ∀ b ∈ l, pairChecks P a b x (M b) = some (names.map fun n => (n, vd n b))) (r : Results) :
    l.foldlM (innerStep P a x) r =
      some fun op => if op ∈ names then ((r op).1 + l.countP (vd op), (r op).2 + l.length) else r op := by
  induction l generalizing r with
  | nil => simp
  | cons b l ih =>
    rw [List.foldlM_cons]
    have : innerStep P a x r b = some fun op => if op ∈ names then ((r op).1 + (vd op b).toNat, (r op).2 + 1) else r op := by
      rw [innerStep, hM b (by simp), Option.bind_eq_bind, Option.bind_some, hc b (by simp), Option.bind_eq_bind, Option.bind_some, fold_record _ _ names_nodup]
    rw [this, Option.bind_eq_bind, Option.bind_some, ih (fun b hb => hM b (by simp [hb])) (fun b hb => hc b (by simp [hb]))]
    congr 1
    funext op
    by_cases h : op ∈ names
    · simp only [h, if_true, List.countP_cons, List.length_cons]
      cases vd op b <;> simp [Prod.ext_iff] <;> omega
    · simp [h]

/-- The counters. -/
theorem results_eq {P : TestPolicy V} {M : V → Mpfr} {vd : String → V → V → Bool} (input l : List V)
    (hM : ∀ b ∈ input, P.toMpfr b = some (M b)) (hl : ∀ a ∈ l, a ∈ input)
    (hc : ∀ a ∈ input, ∀ b ∈ input, pairChecks P a b (M a) (M b) = some (names.map fun n => (n, vd n a b))) (r : Results) :
    l.foldlM (fun r a => do
      let inA ← P.toMpfr a
      input.foldlM (innerStep P a inA) r) r =
      some fun op => if op ∈ names then ((r op).1 + (l.map fun a => input.countP (vd op a)).sum, (r op).2 + l.length * input.length)
        else r op := by
  induction l generalizing r with
  | nil => simp
  | cons a l ih =>
    have ha := hl a (by simp)
    have h1 : (P.toMpfr a).bind (fun inA => input.foldlM (innerStep P a inA) r) =
        some fun op => if op ∈ names then ((r op).1 + input.countP (vd op a), (r op).2 + input.length) else r op := by
      rw [hM a ha, Option.bind_some, inner_fold (vd := fun n b => vd n a b) input hM (hc a ha)]
    rw [List.foldlM_cons]
    refine (congrArg (fun o => o >>= _) h1).trans ?_
    refine (ih (fun b hb => hl b (by simp [hb])) _).trans ?_
    congr 1
    funext op
    by_cases h : op ∈ names
    · simp only [h, if_true, List.map_cons, List.sum_cons, List.length_cons, Prod.ext_iff]
      refine ⟨by ring, by ring⟩
    · simp [h]

theorem testResults_eq {P : TestPolicy V} {M : V → Mpfr} {vd : String → V → V → Bool} {input : List V}
    (hM : ∀ b ∈ input, P.toMpfr b = some (M b))
    (hc : ∀ a ∈ input, ∀ b ∈ input, pairChecks P a b (M a) (M b) = some (names.map fun n => (n, vd n a b))) :
    testResults P input = some fun op => if op ∈ names then ((input.map fun a => input.countP (vd op a)).sum, input.length * input.length)
        else (0, 0) := by
  rw [testResults, results_eq input input hM (fun _ h => h) hc]
  simp

theorem testArithmetic_eq {P : TestPolicy V} {M : V → Mpfr} {vd : String → V → V → Bool} {input : List V}
    (hM : ∀ b ∈ input, P.toMpfr b = some (M b))
    (hc : ∀ a ∈ input, ∀ b ∈ input, pairChecks P a b (M a) (M b) = some (names.map fun n => (n, vd n a b))) :
    ∃ bad, testArithmetic P input = some bad ∧ (bad = true ↔ ∃ a ∈ input, ∃ b ∈ input, ∃ n ∈ names, vd n a b = true) := by
  refine ⟨_, by rw [testArithmetic, testResults_eq hM hc, Option.map_some], ?_⟩
  rw [decide_eq_true_eq, ne_eq, List.length_eq_zero_iff, List.filter_eq_nil_iff]
  push Not
  have key : ∀ op, (input.map fun a => input.countP (vd op a)).sum ≠ 0 ↔ ∃ a ∈ input, ∃ b ∈ input, vd op a b = true := by
    intro op
    rw [ne_eq, List.sum_eq_zero_iff]
    push Not
    constructor
    · rintro ⟨k, hk, hk0⟩
      obtain ⟨a, ha, rfl⟩ := List.mem_map.1 hk
      obtain ⟨b, hb, hv⟩ := List.countP_pos_iff.1 (Nat.pos_of_ne_zero hk0)
      exact ⟨a, ha, b, hb, hv⟩
    · rintro ⟨a, ha, b, hb, hv⟩
      exact ⟨_, List.mem_map.2 ⟨a, ha, rfl⟩, (List.countP_pos_iff.2 ⟨b, hb, hv⟩).ne'⟩
  constructor
  · rintro ⟨op, hop, h⟩
    rw [decide_eq_true_eq, if_pos hop] at h
    obtain ⟨a, ha, b, hb, hv⟩ := (key op).1 h
    exact ⟨a, ha, b, hb, op, hop, hv⟩
  · rintro ⟨a, ha, b, hb, op, hop, hv⟩
    refine ⟨op, hop, ?_⟩
    rw [decide_eq_true_eq, if_pos hop]
    exact (key op).2 ⟨a, ha, b, hb, hv⟩

/-- The checks of a pair carry the nine names. -/
theorem pairChecks_names {P : TestPolicy V} {a b : V} {x y : Mpfr} {l : List (String × Bool)} (h : pairChecks P a b x y = some l) :
    l = names.map fun n => (n, decide ((n, true) ∈ l)) := by
  unfold pairChecks at h
  simp only [Option.bind_eq_bind, Option.bind_eq_some_iff, Option.some.injEq] at h
  obtain ⟨m, -, s, -, d, -, rfl⟩ := h
  generalize (P.eq a b != _) = c1
  generalize (P.ne a b != _) = c2
  generalize (P.lt a b != _) = c3
  generalize (P.le a b != _) = c4
  generalize (P.gt a b != _) = c5
  generalize (P.ge a b != _) = c6
  simp [names]

/-- A completed inner loop has completed every step. -/
theorem inner_done {P : TestPolicy V} {a : V} {x : Mpfr} (l : List V) (r r' : Results) (h : l.foldlM (innerStep P a x) r = some r') :
    ∀ b ∈ l, ∃ y c, P.toMpfr b = some y ∧ pairChecks P a b x y = some c := by
  induction l generalizing r with
  | nil => simp
  | cons b l ih =>
    rw [List.foldlM_cons, Option.bind_eq_bind, Option.bind_eq_some_iff] at h
    obtain ⟨r1, h1, h2⟩ := h
    rw [innerStep] at h1
    simp only [Option.bind_eq_bind, Option.bind_eq_some_iff] at h1
    obtain ⟨y, hy, c, hc, -⟩ := h1
    intro b' hb'
    rcases List.mem_cons.1 hb' with rfl | hb'
    · exact ⟨y, c, hy, hc⟩
    · exact ih r1 h2 b' hb'

theorem outer_done {P : TestPolicy V} (input l : List V) (r r' : Results) (h : l.foldlM (fun r a => do
      let inA ← P.toMpfr a
      input.foldlM (innerStep P a inA) r) r = some r') :
    ∀ a ∈ l, ∃ x, P.toMpfr a = some x ∧ ∀ b ∈ input, ∃ y c, P.toMpfr b = some y ∧ pairChecks P a b x y = some c := by
  induction l generalizing r with
  | nil => simp
  | cons b l ih =>
    rw [List.foldlM_cons, Option.bind_eq_bind, Option.bind_eq_some_iff] at h
    obtain ⟨r1, h1, h2⟩ := h
    rw [Option.bind_eq_bind, Option.bind_eq_some_iff] at h1
    obtain ⟨x, hx, h1⟩ := h1
    intro b' hb'
    rcases List.mem_cons.1 hb' with rfl | hb'
    · exact ⟨x, hx, inner_done input r r1 h1⟩
    · exact ih r1 h2 b' hb'

/-- The verdict of one check on a pair. -/
noncomputable def fails (P : TestPolicy V) (op : String) (a b : V) : Bool :=
  open Classical in decide (∃ x y c, P.toMpfr a = some x ∧ P.toMpfr b = some y ∧ pairChecks P a b x y = some c ∧ (op, true) ∈ c)

theorem counts {P : TestPolicy V} {input : List V} {r : Results} (h : testResults P input = some r) :
    ∀ op, r op = if op ∈ names then ((input.map fun a => input.countP (fails P op a)).sum, input.length * input.length) else (0, 0) := by
  have hd := outer_done input input _ _ h
  have hM : ∀ b ∈ input, P.toMpfr b = some ((P.toMpfr b).getD .nan) := by
    intro b hb
    obtain ⟨x, hx, -⟩ := hd b hb
    rw [hx]; rfl
  have hc : ∀ a ∈ input, ∀ b ∈ input, pairChecks P a b ((P.toMpfr a).getD .nan) ((P.toMpfr b).getD .nan) =
      some (names.map fun n => (n, fails P n a b)) := by
    intro a ha b hb
    obtain ⟨x, hx, h⟩ := hd a ha
    obtain ⟨y, c, hy, hc⟩ := h b hb
    rw [hx, hy, Option.getD_some, Option.getD_some, hc]
    congr 1
    conv_lhs => rw [pairChecks_names hc]
    congr 1
    funext n
    congr 1
    unfold fails
    rw [decide_eq_decide]
    constructor
    · exact fun h => ⟨x, y, c, hx, hy, hc, h⟩
    · rintro ⟨x', y', c', h1, h2, h3, h4⟩
      rw [hx] at h1; rw [hy] at h2
      cases h1; cases h2
      rw [hc] at h3; cases h3
      exact h4
  rw [testResults_eq hM hc] at h
  intro op
  rw [← Option.some.inj h]

theorem verdict {P : TestPolicy V} {input : List V} {bad : Bool} (h : testArithmetic P input = some bad) :
    bad = true ↔ ∃ a ∈ input, ∃ b ∈ input, ∃ op ∈ names, fails P op a b = true := by
  obtain ⟨r, hr, hb⟩ := Option.map_eq_some_iff.1 h
  have hc := counts hr
  rw [← hb, decide_eq_true_eq, ne_eq, List.length_eq_zero_iff, List.filter_eq_nil_iff]
  push Not
  have key : ∀ op, (input.map fun a => input.countP (fails P op a)).sum ≠ 0 ↔ ∃ a ∈ input, ∃ b ∈ input, fails P op a b = true := by
    intro op
    rw [ne_eq, List.sum_eq_zero_iff]
    push Not
    constructor
    · rintro ⟨k, hk, hk0⟩
      obtain ⟨a, ha, rfl⟩ := List.mem_map.1 hk
      obtain ⟨b, hb, hv⟩ := List.countP_pos_iff.1 (Nat.pos_of_ne_zero hk0)
      exact ⟨a, ha, b, hb, hv⟩
    · rintro ⟨a, ha, b, hb, hv⟩
      exact ⟨_, List.mem_map.2 ⟨a, ha, rfl⟩, (List.countP_pos_iff.2 ⟨b, hb, hv⟩).ne'⟩
  constructor
  · rintro ⟨op, hop, h⟩
    rw [decide_eq_true_eq, hc, if_pos hop] at h
    obtain ⟨a, ha, b, hb, hv⟩ := (key op).1 h
    exact ⟨a, ha, b, hb, op, hop, hv⟩
  · rintro ⟨a, ha, b, hb, op, hop, hv⟩
    refine ⟨op, hop, ?_⟩
    rw [decide_eq_true_eq, hc, if_pos hop]
    exact (key op).2 ⟨a, ha, b, hb, hv⟩

/-- A policy whose exchange is exact on the values `good` and whose references, after the exchange, are results of the relations. -/
structure Sound (P : TestPolicy V) (D : V → Datum) (good : V → Prop) (Rm Rs Rd : Datum → Datum → Datum → Prop) : Prop where
  back : ∀ v, good v → ∃ x, P.toMpfr v = some x ∧ x.datum = D v ∧ x.Ok
  mul : ∀ a b x y, good a → good b → P.toMpfr a = some x → P.toMpfr b = some y →
    ∃ r v, P.refMul x y = some r ∧ P.fromMpfr r true = some v ∧ good v ∧ Rm (D a) (D b) (D v)
  add : ∀ a b x y, good a → good b → P.toMpfr a = some x → P.toMpfr b = some y →
    ∃ r v, P.refAdd x y = some r ∧ P.fromMpfr r true = some v ∧ good v ∧ Rs (D a) (D b) (D v)
  div : ∀ a b x y, good a → good b → P.toMpfr a = some x → P.toMpfr b = some y →
    ∃ r v, P.refDiv x y = some r ∧ P.fromMpfr r true = some v ∧ good v ∧ Rd (D a) (D b) (D v)
  umul : ∀ A B d d', Rm A B d → Rm A B d' → d = d'
  uadd : ∀ A B d d', Rs A B d → Rs A B d' → d = d'
  udiv : ∀ A B d d', Rd A B d → Rd A B d' → d = d'

theorem op_fails {P : TestPolicy V} {D : V → Datum} {good : V → Prop} {R : Datum → Datum → Datum → Prop}
    (back : ∀ v, good v → ∃ x, P.toMpfr v = some x ∧ x.datum = D v ∧ x.Ok)
    (uR : ∀ A B d d', R A B d → R A B d' → d = d') {A B : Datum} {g v : V} {r : Mpfr} (hg : good g) (hv : good v)
    (hr : P.fromMpfr r true = some v) (hR : R A B (D v)) :
    ∃ bad, operatorFails P (some g) (some r) = some bad ∧ (bad = true ↔ ¬ ResultRight R A B (D g)) := by
  obtain ⟨gm, h1, d1, o1⟩ := back g hg
  obtain ⟨rm, h2, d2, o2⟩ := back v hv
  refine ⟨_, by
    rw [operatorFails]
    simp only [Option.bind_eq_bind, Option.bind_some, hr, h1, h2]
    rfl, ?_⟩
  have hu : ResultRight R A B (D g) ↔ SameValue (D g) (D v) := by
    constructor
    · rintro ⟨d, hd, h⟩; rwa [uR A B d (D v) hd hR] at h
    · exact fun h => ⟨D v, hR, h⟩
  rw [hu, ← d1, ← d2]
  by_cases n1 : gm.datum = .nan
  · have i1 := Mpfr.isNan_iff.2 n1
    have c0 : Mpfr.cmp gm rm = 0 := by
      cases gm <;> simp [Mpfr.datum] at n1
      rfl
    by_cases n2 : rm.datum = .nan
    · have i2 := Mpfr.isNan_iff.2 n2
      simp [i1, i2, c0, n1, n2, SameValue]
    · have i2 : rm.isNan = false := by
        rw [Bool.eq_false_iff]; exact fun h => n2 (Mpfr.isNan_iff.1 h)
      simp [i1, i2, c0, n1, n2, SameValue, Datum.RealEq]
  · have i1 : gm.isNan = false := by
      rw [Bool.eq_false_iff]; exact fun h => n1 (Mpfr.isNan_iff.1 h)
    by_cases n2 : rm.datum = .nan
    · have i2 := Mpfr.isNan_iff.2 n2
      have : ¬ gm.datum.RealEq .nan := by cases gm.datum <;> simp [Datum.RealEq]
      simp [i1, i2, n1, n2, SameValue, this]
    · have i2 : rm.isNan = false := by
        rw [Bool.eq_false_iff]; exact fun h => n2 (Mpfr.isNan_iff.1 h)
      have := (Mpfr.cmp_spec o1 o2 n1 n2).2.1
      simp [i1, i2, n1, SameValue, this]

theorem nine (b1 b2 b3 b4 b5 b6 b7 b8 b9 : Bool) : (∃ op ∈ names, (op, true) ∈ [("Equal", b1), ("NotEqual", b2), ("LessThan", b3),
      ("LessThanEqual", b4), ("GreaterThan", b5), ("GreaterThanEqual", b6), ("Mul", b7), ("Add", b8), ("Div", b9)]) ↔
    b1 = true ∨ b2 = true ∨ b3 = true ∨ b4 = true ∨ b5 = true ∨ b6 = true ∨ b7 = true ∨ b8 = true ∨ b9 = true := by
  simp [names, eq_comm]

/-- What the checks of a pair of numbers say. -/
theorem pair_fails {P : TestPolicy V} {D : V → Datum} {good : V → Prop} {Rm Rs Rd : Datum → Datum → Datum → Prop}
    (hP : Sound P D good Rm Rs Rd) {a b p s q : V} {x y : Mpfr} (ha : good a) (hb : good b) (hx : P.toMpfr a = some x) (hy : P.toMpfr b = some y)
    (hp : P.mul a b = some p) (hs : P.add a b = some s) (hq : P.div a b = some q) (gp : good p) (gs : good s) (gq : good q) :
    ∃ c, pairChecks P a b x y = some c ∧
      (D a ≠ .nan → D b ≠ .nan → ((∃ op ∈ names, (op, true) ∈ c) ↔
        ¬ (ComparesRight (D a) (D b) (P.eq a b) (P.ne a b) (P.lt a b) (P.le a b) (P.gt a b) (P.ge a b) ∧
          ResultRight Rm (D a) (D b) (D p) ∧ ResultRight Rs (D a) (D b) (D s) ∧ ResultRight Rd (D a) (D b) (D q)))) ∧
      (D a = .nan → P.eq a b = false → ("Equal", true) ∈ c) := by
  obtain ⟨rm, vm, m1, m2, m3, m4⟩ := hP.mul a b x y ha hb hx hy
  obtain ⟨rs, vs, s1, s2, s3, s4⟩ := hP.add a b x y ha hb hx hy
  obtain ⟨rd, vd, d1, d2, d3, d4⟩ := hP.div a b x y ha hb hx hy
  obtain ⟨bm, hbm, im⟩ := op_fails hP.back hP.umul gp m3 m2 m4
  obtain ⟨bs, hbs, is⟩ := op_fails hP.back hP.uadd gs s3 s2 s4
  obtain ⟨bd, hbd, id⟩ := op_fails hP.back hP.udiv gq d3 d2 d4
  obtain ⟨x', hx', dx, ox⟩ := hP.back a ha
  obtain ⟨y', hy', dy, oy⟩ := hP.back b hb
  rw [hx] at hx'; rw [hy] at hy'
  cases hx'; cases hy'
  refine ⟨_, by
    rw [pairChecks]
    simp only [hp, hs, hq, m1, s1, d1, hbm, hbs, hbd, Option.bind_eq_bind, Option.bind_some]
    rfl, ?_, ?_⟩
  · intro na nb
    rw [← dx] at na; rw [← dy] at nb
    obtain ⟨cl, ce, cg⟩ := Mpfr.cmp_spec ox oy na nb
    have nx : x.isNan = false := by rw [Bool.eq_false_iff]; exact fun h => na (Mpfr.isNan_iff.1 h)
    have ny : y.isNan = false := by rw [Bool.eq_false_iff]; exact fun h => nb (Mpfr.isNan_iff.1 h)
    rw [dx, dy] at cl ce cg
    rw [not_and_or, not_and_or, not_and_or, ← im, ← is, ← id]
    have hle : Mpfr.cmp x y ≤ 0 ↔ (D a).Lt (D b) ∨ (D a).RealEq (D b) := by rw [← cl, ← ce]; omega
    have hge : 0 ≤ Mpfr.cmp x y ↔ (D b).Lt (D a) ∨ (D a).RealEq (D b) := by rw [← cg, ← ce]; omega
    have hcr : ComparesRight (D a) (D b) (P.eq a b) (P.ne a b) (P.lt a b) (P.le a b) (P.gt a b) (P.ge a b) ↔
        P.eq a b = decide (Mpfr.cmp x y = 0) ∧ P.ne a b = decide (Mpfr.cmp x y ≠ 0) ∧ P.lt a b = decide (Mpfr.cmp x y < 0) ∧
        P.le a b = decide (Mpfr.cmp x y ≤ 0) ∧ P.gt a b = decide (0 < Mpfr.cmp x y) ∧ P.ge a b = decide (0 ≤ Mpfr.cmp x y) := by
      have bd : ∀ (b : Bool) (p : Prop) [Decidable p], b = decide p ↔ (b = true ↔ p) := by
        intro b p _; by_cases h : p <;> simp [h]
      rw [bd, bd, bd, bd, bd, bd, hle, hge, cl, cg, ne_eq, ce]
      exact ⟨fun h => ⟨h.eq, h.ne, h.lt, h.le, h.gt, h.ge⟩, fun ⟨h1, h2, h3, h4, h5, h6⟩ => ⟨h1, h2, h3, h4, h5, h6⟩⟩
    rw [hcr]
    rw [nine, nx, ny, Bool.or_false, Bool.or_false, bne_iff_ne, bne_iff_ne, bne_iff_ne, bne_iff_ne, bne_iff_ne, bne_iff_ne]
    rw [not_and_or, not_and_or, not_and_or, not_and_or, not_and_or]
    simp only [or_assoc, ne_eq]
  · intro na he
    have : Mpfr.cmp x y = 0 := by
      rw [← dx] at na
      cases x <;> simp [Mpfr.datum] at na
      rfl
    simp [he, this]

end PolicyTest
end Thls
