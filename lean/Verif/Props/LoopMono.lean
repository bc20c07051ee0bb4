import Verif.Proofs.MonoLoop
import Verif.Props.Loops
import Verif.Props.SoftLoops
import Verif.Props.IeeeOps

/-! # Property C109: sums and dot products of larger terms are not smaller -/

namespace Thls
open Spec SoftFmt

theorem flopoco_ord_core {E F : ℕ} (hE : 3 < E) (hF : 1 ≤ F) (hfmt : F ≤ 2 ^ (E + 1)) :
    OrdCore (fun _ : Fp E F => True) Fp.datum (Rounded0 E F) wrapAdd wrapMul where
  mono := rounded0_mono
  add_valid := fun _ _ _ => trivial
  add_spec := fun {x y r d} _ _ hr hd => AddDual.addSame_special_some (by omega) hF hd hr
  add_fin := fun {x y r a b} _ _ hr ha hb => add_fin_returned (by omega) hF hfmt x y ha hb hr
  mul_valid := fun _ _ _ => trivial
  mul_spec := fun {x y r d} _ _ hr hd => C12_mul_exceptions (by omega) hF (by omega) _ _ _ hr _ hd
  mul_fin := fun {x y r a b} _ _ hr ha hb => mul_fin (by omega) hF hF hF (by omega) x y ha hb hr

theorem flopoco_ord {E F : ℕ} (hE : 3 < E) (hF : 1 ≤ F) (hok : DualFormat E F) (hfmt : F ≤ 2 ^ (E + 1)) :
    OrdArith (fun _ : Fp E F => True) Fp.datum (Rounded0 E F) wrapAdd wrapMul where
  toOrdCore := flopoco_ord_core hE hF hfmt
  add_total := fun {x y} _ _ => by
    obtain ⟨r, hr⟩ := (wrap_adder hE hF hok hfmt).total x y
    exact ⟨r, hr, trivial⟩
  mul_total := fun {x y} _ _ => by
    obtain ⟨r, hr⟩ := mulSame_total (by omega) x y
    exact ⟨r, hr, trivial⟩

theorem product_fin0 {f : SoftFmt} (ok : f.Ok) {a b : ℕ} (ha : a < 2 ^ f.W) (hb : b < 2 ^ f.W) {u v : ℚ} {d : Datum}
    (hu : (wordDatum f.E f.F a).fin = some u) (hv : (wordDatum f.E f.F b).fin = some v)
    (h : IeeeProduct f.E f.F (wordDatum f.E f.F a) (wordDatum f.E f.F b) d) : RoundedG0 f.E f.F (u * v) d := by
  unfold RoundedG0
  rcases fin_cases hu with ⟨t, e1, rfl⟩ | e1 <;> rcases fin_cases hv with ⟨t', e2, rfl⟩ | e2
  · rw [if_pos (by simp)]; exact ⟨_, ieeeProduct_special h (by rw [e1, e2]; rfl)⟩
  · rw [if_pos (by simp)]; exact ⟨_, ieeeProduct_special h (by rw [e1, e2]; rfl)⟩
  · rw [if_pos (by simp)]; exact ⟨_, ieeeProduct_special h (by rw [e1, e2]; rfl)⟩
  · rw [if_neg (mul_ne_zero (num_word_ne ok ha e1) (num_word_ne ok hb e2))]
    rw [e1, e2] at h
    exact h

theorem soft_ord {f : SoftFmt} (ok : f.Ok) {prod : ℕ → ℕ → Option ℕ} (hp : ProdOk f prod) :
    OrdArith (fun w => w < 2 ^ f.W) (wordDatum f.E f.F) (RoundedG0 f.E f.F) f.add (f.mulWith prod) where
  mono := roundedG0_mono (by have := ok.hF; have := ok.hE; omega)
  add_total := fun {x y} hx hy => by
    obtain ⟨r, h1, h2, -⟩ := add_ieee ok hx hy
    exact ⟨r, h1, h2⟩
  add_valid := fun {x y r} hx hy hr => by
    obtain ⟨z, h1, h2, -⟩ := add_ieee ok hx hy
    rw [hr] at h1; rw [Option.some.inj h1]; exact h2
  mul_valid := fun {x y r} hx hy hr => by
    obtain ⟨z, h1, h2, -⟩ := mul_ieee ok hp hx hy
    rw [hr] at h1; rw [Option.some.inj h1]; exact h2
  add_spec := fun {x y r d} hx hy hr hd => by
    obtain ⟨z, h1, -, h2⟩ := add_ieee ok hx hy
    rw [hr] at h1; rw [← Option.some.inj h1] at h2
    exact ieeeSum_special h2 hd
  add_fin := fun {x y r a b} hx hy hr ha hb => by
    obtain ⟨z, h1, -, h2⟩ := add_ieee ok hx hy
    rw [hr] at h1; rw [← Option.some.inj h1] at h2
    exact sum_fin ok hx hy ha hb h2
  mul_total := fun {x y} hx hy => by
    obtain ⟨r, h1, h2, -⟩ := mul_ieee ok hp hx hy
    exact ⟨r, h1, h2⟩
  mul_spec := fun {x y r d} hx hy hr hd => by
    obtain ⟨z, h1, -, h2⟩ := mul_ieee ok hp hx hy
    rw [hr] at h1; rw [← Option.some.inj h1] at h2
    exact ieeeProduct_special h2 hd
  mul_fin := fun {x y r a b} hx hy hr ha hb => by
    obtain ⟨z, h1, -, h2⟩ := mul_ieee ok hp hx hy
    rw [hr] at h1; rw [← Option.some.inj h1] at h2
    exact product_fin0 ok hx hy ha hb h2

/-- **C109.** If no element of one list is larger than its counterpart in another, the sum of the first is not larger than the sum of the
second, however many elements there are and however the sums are rounded, overflow or underflow; only a NaN has no order. -/
theorem C109_sum_monotone {E F : ℕ} (hE : 3 < E) (hF : 1 ≤ F) (hok : DualFormat E F) (hfmt : F ≤ 2 ^ (E + 1)) (xs ys : List (Fp E F))
    (hxy : List.Forall₂ (fun x y => x.datum.Le y.datum) xs ys) :
    ∃ r s, sumLoop xs = some r ∧ sumLoop ys = some s ∧ (r.datum ≠ .nan → s.datum ≠ .nan → r.datum.Le s.datum) := by
  obtain ⟨r, s, h1, h2, h3, -⟩ := (flopoco_ord hE hF hok hfmt).fold_le (xs := xs) (ys := ys)
    (hxy.imp fun x y h => ⟨trivial, trivial, h⟩) (a := Fp.default E F) (b := Fp.default E F) trivial trivial
    (fun h _ => OrdCore.le_refl_datum h)
  exact ⟨r, s, h1, h2, h3⟩

/-- **C109.** The same in every format with `F ≤ 2^(E+1)`, also those in which the adder can assert, for sums that are returned. -/
theorem C109_sum_monotone_returned {E F : ℕ} (hE : 3 < E) (hF : 1 ≤ F) (hfmt : F ≤ 2 ^ (E + 1)) (xs ys : List (Fp E F)) (r s : Fp E F)
    (hxy : List.Forall₂ (fun x y => x.datum.Le y.datum) xs ys) (hr : sumLoop xs = some r) (hs : sumLoop ys = some s)
    (hrn : r.datum ≠ .nan) (hsn : s.datum ≠ .nan) : r.datum.Le s.datum :=
  (flopoco_ord_core hE hF hfmt).fold_le_returned (hxy.imp fun _ _ h => ⟨trivial, trivial, h⟩) trivial trivial
    (fun h _ => OrdCore.le_refl_datum h) hr hs hrn hsn

/-- Format (8,61), where an alignment shift can assert: `1 + 1 ≤ 1 + 2` in units of `2^-100`. -/
example : (Fp.mk4 8 61 1 0 28 0).datum.Le (Fp.mk4 8 61 1 0 28 (2 ^ 60)).datum := by
  have e1 : (Fp.mk4 8 61 1 0 27 0).datum = .num (1 / 2 ^ 100) := by decide +kernel
  have e2 : (Fp.mk4 8 61 1 0 28 0).datum = .num (2 / 2 ^ 100) := by decide +kernel
  have e3 : (Fp.mk4 8 61 1 0 28 (2 ^ 60)).datum = .num (3 / 2 ^ 100) := by decide +kernel
  refine C109_sum_monotone_returned (by norm_num) (by norm_num) (by norm_num) [Fp.mk4 8 61 1 0 27 0, Fp.mk4 8 61 1 0 27 0]
    [Fp.mk4 8 61 1 0 27 0, Fp.mk4 8 61 1 0 28 0] _ _ (.cons ?_ (.cons ?_ .nil)) (by decide +kernel) (by decide +kernel) ?_ ?_
  · rw [e1]; right; rfl
  · rw [e1, e2]; left; norm_num [Datum.Lt]
  · rw [e2]; simp
  · rw [e3]; simp

/-- The lists `[1, -2]` and `[3/2, 1]` of format (8,23): the first sum is `-1`, the second `5/2`. -/
example : ∃ r s, sumLoop [Fp.mk4 8 23 1 0 127 0, Fp.mk4 8 23 1 1 128 0] = some r ∧
    sumLoop [Fp.mk4 8 23 1 0 127 (2 ^ 22), Fp.mk4 8 23 1 0 127 0] = some s ∧ (r.datum ≠ .nan → s.datum ≠ .nan → r.datum.Le s.datum) := by
  refine C109_sum_monotone (by norm_num) (by norm_num) dual_8_23 (by norm_num) _ _ (.cons ?_ (.cons ?_ .nil))
  · rw [mk4_num (by decide) (by decide) (by decide) (by decide), mk4_num (by decide) (by decide) (by decide) (by decide)]
    left; norm_num [bias, Datum.Lt]
  · rw [Fp.mk4_datum (by decide) (by decide) (by decide) (by decide) (by decide) (by decide), mk4_num (by decide) (by decide) (by decide) (by decide)]
    left; norm_num [denote, bias, Datum.Lt]

/-- **C109.** A sum of elements none of which is negative or a NaN is at least every one of them, and at least the sum of every initial
segment. -/
theorem C109_sum_at_least {E F : ℕ} (hE : 3 < E) (hF : 1 ≤ F) (hok : DualFormat E F) (hfmt : F ≤ 2 ^ (E + 1)) (xs ys : List (Fp E F))
    (hx : ∀ x ∈ xs ++ ys, (Datum.zero false).Le x.datum) :
    ∃ p r, sumLoop xs = some p ∧ sumLoop (xs ++ ys) = some r ∧ p.datum.Le r.datum ∧ ∀ x ∈ xs ++ ys, x.datum.Le r.datum := by
  have hA := flopoco_ord hE hF hok hfmt
  have z0 : (Fp.default E F).datum = .zero false := default_datum
  obtain ⟨p, h1, -, h2, -, h3⟩ := hA.fold_ge trivial z0 xs (a := Fp.default E F) trivial (by rw [z0]; exact Or.inr trivial)
    (fun x h => ⟨trivial, hx x (by simp [h])⟩)
  obtain ⟨r, h4, -, -, h5, h6⟩ := hA.fold_ge trivial z0 ys (a := p) trivial h2 (fun x h => ⟨trivial, hx x (by simp [h])⟩)
  refine ⟨p, r, h1, by unfold sumLoop; rw [List.foldlM_append, h1]; exact h4, h5, fun x h => ?_⟩
  rcases List.mem_append.mp h with h | h
  · exact le_trans_datum (h3 x h) h5
  · exact h6 x h

/-- The elements `1` and `+inf` of format (8,23). -/
example : ∃ p r, sumLoop [Fp.mk4 8 23 1 0 127 0] = some p ∧ sumLoop ([Fp.mk4 8 23 1 0 127 0] ++ [Fp.mk4 8 23 2 0 0 0]) = some r ∧
    p.datum.Le r.datum ∧ ∀ x ∈ [Fp.mk4 8 23 1 0 127 0] ++ [Fp.mk4 8 23 2 0 0 0], x.datum.Le r.datum := by
  refine C109_sum_at_least (by norm_num) (by norm_num) dual_8_23 (by norm_num) _ _ fun x hx => ?_
  simp only [List.cons_append, List.nil_append, List.mem_cons, List.not_mem_nil, or_false] at hx
  rcases hx with rfl | rfl
  · rw [mk4_num (by decide) (by decide) (by decide) (by decide)]
    left; norm_num [bias, Datum.Lt]
  · rw [Fp.mk4_datum (by decide) (by decide) (by decide) (by decide) (by decide) (by decide)]
    left; norm_num [denote, Datum.Lt]

/-- **C109.** Enlarging factors that are not negative does not lower a dot product. -/
theorem C109_dot_monotone {E F : ℕ} (hE : 3 < E) (hF : 1 ≤ F) (hok : DualFormat E F) (hfmt : F ≤ 2 ^ (E + 1)) (xs ys : List (Fp E F × Fp E F))
    (hxy : List.Forall₂ (fun p q => (Datum.zero false).Le p.1.datum ∧ (Datum.zero false).Le p.2.datum ∧ p.1.datum.Le q.1.datum ∧
      p.2.datum.Le q.2.datum) xs ys) :
    ∃ r s, dotLoop xs = some r ∧ dotLoop ys = some s ∧ (r.datum ≠ .nan → s.datum ≠ .nan → r.datum.Le s.datum) := by
  obtain ⟨r, s, h1, h2, h3, -⟩ := (flopoco_ord hE hF hok hfmt).dot_le (xs := xs) (ys := ys)
    (hxy.imp fun x y h => ⟨⟨trivial, trivial, trivial, trivial⟩, h⟩) (a := Fp.default E F) (b := Fp.default E F) trivial trivial
    (fun h _ => OrdCore.le_refl_datum h)
  exact ⟨r, s, h1, h2, h3⟩

/-- **C109.** The same in every format with `F ≤ 2^(E+1)`, for dot products that are returned. -/
theorem C109_dot_monotone_returned {E F : ℕ} (hE : 3 < E) (hF : 1 ≤ F) (hfmt : F ≤ 2 ^ (E + 1)) (xs ys : List (Fp E F × Fp E F)) (r s : Fp E F)
    (hxy : List.Forall₂ (fun p q => (Datum.zero false).Le p.1.datum ∧ (Datum.zero false).Le p.2.datum ∧ p.1.datum.Le q.1.datum ∧
      p.2.datum.Le q.2.datum) xs ys) (hr : dotLoop xs = some r) (hs : dotLoop ys = some s)
    (hrn : r.datum ≠ .nan) (hsn : s.datum ≠ .nan) : r.datum.Le s.datum :=
  (flopoco_ord_core hE hF hfmt).dot_le_returned (hxy.imp fun _ _ h => ⟨⟨trivial, trivial, trivial, trivial⟩, h⟩)
    (a := Fp.default E F) (b := Fp.default E F) trivial trivial (fun h _ => OrdCore.le_refl_datum h) hr hs hrn hsn

/-- `1 * 1` and `1 * 3/2` in format (8,23). -/
example : ∃ r s, dotLoop [(Fp.mk4 8 23 1 0 127 0, Fp.mk4 8 23 1 0 127 0)] = some r ∧
    dotLoop [(Fp.mk4 8 23 1 0 127 0, Fp.mk4 8 23 1 0 127 (2 ^ 22))] = some s ∧ (r.datum ≠ .nan → s.datum ≠ .nan → r.datum.Le s.datum) := by
  refine C109_dot_monotone (by norm_num) (by norm_num) dual_8_23 (by norm_num) _ _ (.cons ⟨?_, ?_, ?_, ?_⟩ .nil)
  · rw [mk4_num (by decide) (by decide) (by decide) (by decide)]; left; norm_num [bias, Datum.Lt]
  · rw [mk4_num (by decide) (by decide) (by decide) (by decide)]; left; norm_num [bias, Datum.Lt]
  · right; rw [mk4_num (by decide) (by decide) (by decide) (by decide)]; rfl
  · rw [mk4_num (by decide) (by decide) (by decide) (by decide), mk4_num (by decide) (by decide) (by decide) (by decide)]
    left; norm_num [bias, Datum.Lt]

/-- **C109.** The signs of the factors matter: with the negative factor `-1`, enlarging `1` to `3/2` lowers the dot product. -/
theorem C109_dot_negative_factor :
    ∃ p q x y r s : Fp 8 23, x.datum.Le y.datum ∧ p = q ∧ dotLoop [(p, x)] = some r ∧ dotLoop [(q, y)] = some s ∧
      r.datum ≠ .nan ∧ s.datum ≠ .nan ∧ ¬ r.datum.Le s.datum := by
  refine ⟨Fp.mk4 8 23 1 1 127 0, _, Fp.mk4 8 23 1 0 127 0, Fp.mk4 8 23 1 0 127 (2 ^ 22), Fp.mk4 8 23 1 1 127 0, Fp.mk4 8 23 1 1 127 (2 ^ 22),
    ?_, rfl, by decide +kernel, by decide +kernel, ?_, ?_, ?_⟩
  · rw [mk4_num (by decide) (by decide) (by decide) (by decide), mk4_num (by decide) (by decide) (by decide) (by decide)]
    left; norm_num [bias, Datum.Lt]
  all_goals
    rw [Fp.mk4_datum (by decide) (by decide) (by decide) (by decide) (by decide) (by decide)]
    try rw [Fp.mk4_datum (by decide) (by decide) (by decide) (by decide) (by decide) (by decide)]
    norm_num [denote, bias, Datum.Le, Datum.Lt, Datum.RealEq]
    try (intro h; cases h)

theorem ieeeRange_num_eq (E : ℕ) (q : ℚ) : ieeeRange E (.num q) =
    if |q| < ieeeMin E then .zero (decide (q < 0)) else if ieeeLimit E ≤ |q| then .inf (decide (q < 0)) else .num q := rfl

/-- Restriction to the range of an IEEE format preserves order. -/
theorem ieeeRange_le {E : ℕ} {d d' : Datum} (h : d.Le d') : (ieeeRange E d).Le (ieeeRange E d') := by
  have hm : (0 : ℚ) < ieeeMin E := two_zpow_pos _
  have nn : ∀ {q : ℚ}, ieeeRange E (.num q) ≠ .nan := by
    intro q; rw [ieeeRange_num_eq]; split_ifs <;> simp
  have pos : ∀ {q : ℚ} {s : Bool}, 0 ≤ q → (Datum.zero s).Le (ieeeRange E (.num q)) := by
    intro q s hq
    rw [ieeeRange_num_eq, abs_of_nonneg hq, decide_eq_false (not_lt.mpr hq)]
    split_ifs with h1 h2
    · exact Or.inr trivial
    · exact Or.inl trivial
    · exact Or.inl (lt_of_lt_of_le hm (not_lt.mp h1))
  have neg : ∀ {q : ℚ} {s : Bool}, q < 0 → (ieeeRange E (.num q)).Le (.zero s) := by
    intro q s hq
    rw [ieeeRange_num_eq, decide_eq_true hq]
    split_ifs with h1 h2
    · exact Or.inr trivial
    · exact Or.inl trivial
    · exact Or.inl hq
  obtain ⟨n1, n2⟩ := le_not_nan h
  rcases d with _ | s | s | p
  · exact absurd rfl n1
  · cases s
    · rw [top_le h]; exact Or.inr rfl
    · refine bot_le ?_
      rcases d' with _ | t | t | q
      · exact absurd rfl n2
      · simp [ieeeRange]
      · simp [ieeeRange]
      · exact nn
  · rcases d' with _ | t | t | q
    · exact absurd rfl n2
    · exact h
    · exact h
    · exact pos (le_fin (a := .zero s) (b := .num q) rfl rfl h)
  · rcases d' with _ | t | t | q
    · exact absurd rfl n2
    · cases t
      · exact le_top nn
      · exact absurd (le_bot h) (by simp)
    · rcases lt_or_ge p 0 with hp | hp
      · exact neg hp
      · have : p ≤ 0 := le_fin (a := .num p) (b := .zero t) rfl rfl h
        have : p = 0 := le_antisymm this hp
        subst this
        rw [ieeeRange_num_eq, abs_zero, if_pos hm]
        exact Or.inr trivial
    · have hpq : p ≤ q := le_fin (a := .num p) (b := .num q) rfl rfl h
      rcases lt_or_ge p 0 with hp | hp
      · rcases lt_or_ge q 0 with hq | hq
        · rw [ieeeRange_num_eq, ieeeRange_num_eq, abs_of_neg hp, abs_of_neg hq, decide_eq_true hp, decide_eq_true hq]
          by_cases a1 : -p < ieeeMin E
          · rw [if_pos a1, if_pos (show -q < ieeeMin E by linarith)]; exact Or.inr trivial
          rw [if_neg a1]
          by_cases a2 : ieeeLimit E ≤ -p
          · rw [if_pos a2]; refine bot_le ?_; split_ifs <;> simp
          rw [if_neg a2]
          by_cases b1 : -q < ieeeMin E
          · rw [if_pos b1]; exact Or.inl hp
          rw [if_neg b1, if_neg (fun c => a2 (by linarith))]
          exact h
        · exact le_trans_datum (neg (s := false) hp) (pos hq)
      · have hq : 0 ≤ q := hp.trans hpq
        rw [ieeeRange_num_eq E p, abs_of_nonneg hp, decide_eq_false (not_lt.mpr hp)]
        by_cases a1 : p < ieeeMin E
        · rw [if_pos a1]; exact pos hq
        rw [if_neg a1, ieeeRange_num_eq, abs_of_nonneg hq, decide_eq_false (not_lt.mpr hq),
          if_neg (show ¬ q < ieeeMin E from fun c => a1 (by linarith))]
        by_cases b2 : ieeeLimit E ≤ q
        · rw [if_pos b2]; refine le_top ?_; split_ifs <;> simp
        rw [if_neg b2, if_neg (fun c => b2 (by linarith))]
        exact h

theorem ieeeRange_not_nan {E : ℕ} {d : Datum} (h : ieeeRange E d ≠ .nan) : d ≠ .nan := by
  rintro rfl; exact h rfl

/-- **C109, the example program `sum`.** For arrays of `float`s of any length, denormals and infinities included. -/
theorem C109_sum_float_monotone (xs ys : List (Ieee 8 23)) (hxy : List.Forall₂ (fun x y => x.datum.Le y.datum) xs ys) :
    ∃ r s, sumFloat xs = some r ∧ sumFloat ys = some s ∧ (r.datum ≠ .nan → s.datum ≠ .nan → r.datum.Le s.datum) := by
  obtain ⟨r, s, h1, h2, h3⟩ := C109_sum_monotone (E := 8) (F := 23) (by norm_num) (by norm_num) dual_8_23 (by norm_num)
    (xs.map ieeeToFlopoco) (ys.map ieeeToFlopoco) (by
      rw [List.forall₂_map_left_iff, List.forall₂_map_right_iff]
      refine hxy.imp fun x y h => ?_
      rw [C28_ieee_to_flopoco (by norm_num) (by norm_num), C28_ieee_to_flopoco (by norm_num) (by norm_num)]
      exact ieeeRange_le h)
  refine ⟨flopocoToIeee r, flopocoToIeee s, by rw [sumFloat, h1]; rfl, by rw [sumFloat, h2]; rfl, ?_⟩
  rw [C28_flopoco_to_ieee (by norm_num) (by norm_num), C28_flopoco_to_ieee (by norm_num) (by norm_num)]
  exact fun n1 n2 => ieeeRange_le (h3 (ieeeRange_not_nan n1) (ieeeRange_not_nan n2))

/-- **C109, the example program `dot_product`.** -/
theorem C109_dot_float_monotone (xs ys : List (Ieee 8 23 × Ieee 8 23))
    (hxy : List.Forall₂ (fun p q => (Datum.zero false).Le p.1.datum ∧ (Datum.zero false).Le p.2.datum ∧ p.1.datum.Le q.1.datum ∧
      p.2.datum.Le q.2.datum) xs ys) :
    ∃ r s, dotFloat xs = some r ∧ dotFloat ys = some s ∧ (r.datum ≠ .nan → s.datum ≠ .nan → r.datum.Le s.datum) := by
  obtain ⟨r, s, h1, h2, h3⟩ := C109_dot_monotone (E := 8) (F := 23) (by norm_num) (by norm_num) dual_8_23 (by norm_num)
    (xs.map fun p => (ieeeToFlopoco p.1, ieeeToFlopoco p.2)) (ys.map fun p => (ieeeToFlopoco p.1, ieeeToFlopoco p.2)) (by
      rw [List.forall₂_map_left_iff, List.forall₂_map_right_iff]
      refine hxy.imp fun x y h => ?_
      simp only [C28_ieee_to_flopoco (E := 8) (F := 23) (by norm_num) (by norm_num)]
      exact ⟨ieeeRange_le (d := .zero false) h.1, ieeeRange_le (d := .zero false) h.2.1, ieeeRange_le h.2.2.1, ieeeRange_le h.2.2.2⟩)
  refine ⟨flopocoToIeee r, flopocoToIeee s, by rw [dotFloat, h1]; rfl, by rw [dotFloat, h2]; rfl, ?_⟩
  rw [C28_flopoco_to_ieee (by norm_num) (by norm_num), C28_flopoco_to_ieee (by norm_num) (by norm_num)]
  exact fun n1 n2 => ieeeRange_le (h3 (ieeeRange_not_nan n1) (ieeeRange_not_nan n2))

/-- The `float`s `1` and a denormal against `1` and `3`: products and sums. -/
example : (∃ r s, sumFloat [Ieee.mk3 8 23 0 127 0, Ieee.mk3 8 23 0 0 1] = some r ∧
      sumFloat [Ieee.mk3 8 23 0 127 0, Ieee.mk3 8 23 0 128 (2 ^ 22)] = some s ∧ (r.datum ≠ .nan → s.datum ≠ .nan → r.datum.Le s.datum)) ∧
    ∃ r s, dotFloat [(Ieee.mk3 8 23 0 127 0, Ieee.mk3 8 23 0 0 1)] = some r ∧
      dotFloat [(Ieee.mk3 8 23 0 127 0, Ieee.mk3 8 23 0 128 (2 ^ 22))] = some s ∧ (r.datum ≠ .nan → s.datum ≠ .nan → r.datum.Le s.datum) := by
  have e1 : (Ieee.mk3 8 23 0 127 0).datum = .num 1 := by decide +kernel
  have e2 : (Ieee.mk3 8 23 0 0 1).datum = .num (1 / 2 ^ 149) := by decide +kernel
  have e3 : (Ieee.mk3 8 23 0 128 (2 ^ 22)).datum = .num 3 := by decide +kernel
  refine ⟨C109_sum_float_monotone _ _ (.cons ?_ (.cons ?_ .nil)), C109_dot_float_monotone _ _ (.cons ⟨?_, ?_, ?_, ?_⟩ .nil)⟩ <;>
    simp only [e1, e2, e3] <;> norm_num [Datum.Le, Datum.Lt, Datum.RealEq]

/-- **C109.** The array sum over `float32_t` preserves order, for every number of elements, gradual underflow and overflow included. -/
theorem C109_soft_sum_monotone32 {fast : ℕ} (hfast : 32 ≤ fast) (x y : ℕ → ℕ) (n : ℕ) (hx : ∀ i < n, x i < 2 ^ 32) (hy : ∀ i < n, y i < 2 ^ 32)
    (hxy : ∀ i < n, (wordDatum 8 23 (x i)).Le (wordDatum 8 23 (y i))) :
    ∃ r s, Kernel.sumArray (f32Add fast) softDefault x n = some r ∧ Kernel.sumArray (f32Add fast) softDefault y n = some s ∧
      (wordDatum 8 23 r ≠ .nan → wordDatum 8 23 s ≠ .nan → (wordDatum 8 23 r).Le (wordDatum 8 23 s)) := by
  obtain ⟨r, s, h1, h2, -, h3⟩ := (soft_ord (soft32_ok hfast) (prodOk32 fast)).sumArray_le (z := 0) (by positivity) x y n hx hy hxy
  exact ⟨r, s, h1, h2, h3⟩

/-- **C109.** A sum of `float32_t` elements none of which is negative or a NaN is at least every one of them, and at least every
partial sum. -/
theorem C109_soft_sum_at_least32 {fast : ℕ} (hfast : 32 ≤ fast) (x : ℕ → ℕ) (n : ℕ) (hw : ∀ i < n, x i < 2 ^ 32)
    (hx : ∀ i < n, (Datum.zero false).Le (wordDatum 8 23 (x i))) :
    ∃ r, Kernel.sumArray (f32Add fast) softDefault x n = some r ∧ (∀ i < n, (wordDatum 8 23 (x i)).Le (wordDatum 8 23 r)) ∧
      ∀ m ≤ n, ∃ q, Kernel.sumArray (f32Add fast) softDefault x m = some q ∧ (wordDatum 8 23 q).Le (wordDatum 8 23 r) := by
  obtain ⟨r, h1, -, -, h2, h3⟩ := (soft_ord (soft32_ok hfast) (prodOk32 fast)).sumArray_ge (z := 0) (s := false) (by positivity)
    (by norm_num [soft32, wordDatum, ieeeDenote]) x n (fun i hi => ⟨hw i hi, hx i hi⟩)
  exact ⟨r, h1, h2, h3⟩

/-- **C109.** Enlarging `float32_t` factors that are not negative does not lower a dot product. -/
theorem C109_soft_dot_monotone32 {fast : ℕ} (hfast : 32 ≤ fast) (a b a' b' : ℕ → ℕ) (n : ℕ)
    (hw : ∀ i < n, a i < 2 ^ 32 ∧ b i < 2 ^ 32 ∧ a' i < 2 ^ 32 ∧ b' i < 2 ^ 32)
    (hab : ∀ i < n, (Datum.zero false).Le (wordDatum 8 23 (a i)) ∧ (Datum.zero false).Le (wordDatum 8 23 (b i)) ∧
      (wordDatum 8 23 (a i)).Le (wordDatum 8 23 (a' i)) ∧ (wordDatum 8 23 (b i)).Le (wordDatum 8 23 (b' i))) :
    ∃ r s, Kernel.dotProduct (f32Add fast) (f32Mul fast) softDefault a b n = some r ∧
      Kernel.dotProduct (f32Add fast) (f32Mul fast) softDefault a' b' n = some s ∧
      (wordDatum 8 23 r ≠ .nan → wordDatum 8 23 s ≠ .nan → (wordDatum 8 23 r).Le (wordDatum 8 23 s)) := by
  obtain ⟨r, s, h1, h2, -, h3⟩ := (soft_ord (soft32_ok hfast) (prodOk32 fast)).dotProduct_le (z := 0) (by positivity) a b a' b' n hw hab
  exact ⟨r, s, h1, h2, h3⟩

/-- **C109.** The array sum over `float64_t` preserves order, for every number of elements, gradual underflow and overflow included. -/
theorem C109_soft_sum_monotone64 {fast : ℕ} (hfast : 64 ≤ fast) (x y : ℕ → ℕ) (n : ℕ) (hx : ∀ i < n, x i < 2 ^ 64) (hy : ∀ i < n, y i < 2 ^ 64)
    (hxy : ∀ i < n, (wordDatum 11 52 (x i)).Le (wordDatum 11 52 (y i))) :
    ∃ r s, Kernel.sumArray (f64Add fast) softDefault x n = some r ∧ Kernel.sumArray (f64Add fast) softDefault y n = some s ∧
      (wordDatum 11 52 r ≠ .nan → wordDatum 11 52 s ≠ .nan → (wordDatum 11 52 r).Le (wordDatum 11 52 s)) := by
  obtain ⟨r, s, h1, h2, -, h3⟩ := (soft_ord (soft64_ok hfast) (prodOk64 fast)).sumArray_le (z := 0) (by positivity) x y n hx hy hxy
  exact ⟨r, s, h1, h2, h3⟩

/-- **C109.** A sum of `float64_t` elements none of which is negative or a NaN is at least every one of them, and at least every
partial sum. -/
theorem C109_soft_sum_at_least64 {fast : ℕ} (hfast : 64 ≤ fast) (x : ℕ → ℕ) (n : ℕ) (hw : ∀ i < n, x i < 2 ^ 64)
    (hx : ∀ i < n, (Datum.zero false).Le (wordDatum 11 52 (x i))) :
    ∃ r, Kernel.sumArray (f64Add fast) softDefault x n = some r ∧ (∀ i < n, (wordDatum 11 52 (x i)).Le (wordDatum 11 52 r)) ∧
      ∀ m ≤ n, ∃ q, Kernel.sumArray (f64Add fast) softDefault x m = some q ∧ (wordDatum 11 52 q).Le (wordDatum 11 52 r) := by
  obtain ⟨r, h1, -, -, h2, h3⟩ := (soft_ord (soft64_ok hfast) (prodOk64 fast)).sumArray_ge (z := 0) (s := false) (by positivity)
    (by norm_num [soft64, wordDatum, ieeeDenote]) x n (fun i hi => ⟨hw i hi, hx i hi⟩)
  exact ⟨r, h1, h2, h3⟩

/-- **C109.** Enlarging `float64_t` factors that are not negative does not lower a dot product. -/
theorem C109_soft_dot_monotone64 {fast : ℕ} (hfast : 64 ≤ fast) (a b a' b' : ℕ → ℕ) (n : ℕ)
    (hw : ∀ i < n, a i < 2 ^ 64 ∧ b i < 2 ^ 64 ∧ a' i < 2 ^ 64 ∧ b' i < 2 ^ 64)
    (hab : ∀ i < n, (Datum.zero false).Le (wordDatum 11 52 (a i)) ∧ (Datum.zero false).Le (wordDatum 11 52 (b i)) ∧
      (wordDatum 11 52 (a i)).Le (wordDatum 11 52 (a' i)) ∧ (wordDatum 11 52 (b i)).Le (wordDatum 11 52 (b' i))) :
    ∃ r s, Kernel.dotProduct (f64Add fast) (f64Mul fast) softDefault a b n = some r ∧
      Kernel.dotProduct (f64Add fast) (f64Mul fast) softDefault a' b' n = some s ∧
      (wordDatum 11 52 r ≠ .nan → wordDatum 11 52 s ≠ .nan → (wordDatum 11 52 r).Le (wordDatum 11 52 s)) := by
  obtain ⟨r, s, h1, h2, -, h3⟩ := (soft_ord (soft64_ok hfast) (prodOk64 fast)).dotProduct_le (z := 0) (by positivity) a b a' b' n hw hab
  exact ⟨r, s, h1, h2, h3⟩

/-- Any number of words of `1` against as many of `2`. -/
example (n : ℕ) : ∃ r s, Kernel.sumArray (f32Add 32) softDefault (fun _ => 0x3f800000) n = some r ∧
    Kernel.sumArray (f32Add 32) softDefault (fun _ => 0x40000000) n = some s ∧
      (wordDatum 8 23 r ≠ .nan → wordDatum 8 23 s ≠ .nan → (wordDatum 8 23 r).Le (wordDatum 8 23 s)) := by
  refine C109_soft_sum_monotone32 (by norm_num) _ _ n (by norm_num) (by norm_num) fun i _ => ?_
  left; norm_num [wordDatum, ieeeDenote, bias, Datum.Lt]

/-- Any number of words of `1`. -/
example (n : ℕ) : ∃ r, Kernel.sumArray (f32Add 32) softDefault (fun _ => 0x3f800000) n = some r ∧
    (∀ i < n, (wordDatum 8 23 0x3f800000).Le (wordDatum 8 23 r)) ∧
      ∀ m ≤ n, ∃ q, Kernel.sumArray (f32Add 32) softDefault (fun _ => 0x3f800000) m = some q ∧ (wordDatum 8 23 q).Le (wordDatum 8 23 r) := by
  refine C109_soft_sum_at_least32 (by norm_num) _ n (by norm_num) fun i _ => ?_
  left; norm_num [wordDatum, ieeeDenote, bias, Datum.Lt]

/-- `Σ 1·1` against `Σ 2·1`. -/
example (n : ℕ) : ∃ r s, Kernel.dotProduct (f32Add 32) (f32Mul 32) softDefault (fun _ => 0x3f800000) (fun _ => 0x3f800000) n = some r ∧
    Kernel.dotProduct (f32Add 32) (f32Mul 32) softDefault (fun _ => 0x40000000) (fun _ => 0x3f800000) n = some s ∧
      (wordDatum 8 23 r ≠ .nan → wordDatum 8 23 s ≠ .nan → (wordDatum 8 23 r).Le (wordDatum 8 23 s)) := by
  refine C109_soft_dot_monotone32 (by norm_num) _ _ _ _ n (by norm_num) fun i _ => ⟨?_, ?_, ?_, ?_⟩
  · left; norm_num [wordDatum, ieeeDenote, bias, Datum.Lt]
  · left; norm_num [wordDatum, ieeeDenote, bias, Datum.Lt]
  · left; norm_num [wordDatum, ieeeDenote, bias, Datum.Lt]
  · right; norm_num [wordDatum, ieeeDenote, bias, Datum.RealEq]

end Thls
