import Verif.Props.AddMore
import Verif.SpecWrap
import Verif.Proofs.Fma
import Verif.Props.IeeeSharp

/-! # Properties C14, C18, C29, C44, C45: the dual-path adder in formats with long fractions -/

namespace Thls
open Spec

theorem wrappedSum_returned {E F : ℕ} (hE : 2 ≤ E) (hF : 1 ≤ F) (hfit : F + 2 < 2 ^ (E + 2)) {x y r : Fp E F} {vx vy : ℚ}
    (hx : x.datum = .num vx) (hy : y.datum = .num vy) (hr : AddDual.addSame x y = some r) : WrappedSum E F (vx + vy) r.datum := by
  obtain ⟨h0, h1, h2⟩ := AddDual.addSame_sharp hE hF hx hy hr
  rw [show -bias E - 2 * 2 ^ E = -bias E - 2 ^ (E + 1) by rw [pow_succ]; ring] at h1 h2
  unfold WrappedSum
  split_ifs with a b
  · exact h0 a
  · exact h1 a b
  · exact (h2 a hfit (not_le.mp b)).2.2

theorem wrappedSum_unique {E F : ℕ} {q : ℚ} {d d' : Datum} (h : WrappedSum E F q d) (h' : WrappedSum E F q d') : d = d' := by
  unfold WrappedSum at h h'
  split_ifs at h h'
  · rw [h, h']
  · exact rounded_unique h h'
  · exact rounded_unique h h'

/-- **C14, exactly.** What `add` (the dual-path adder) returns for two numbers of any two formats for which it compiles, whenever it
returns: the correctly rounded sum, or, if the sum is not zero and below `2^(-bias-2^(E+1))`, the correctly rounded product of the sum and
`2^(2^(E+2))`. -/
theorem C14_add_value {wEX wFX wEY wFY : ℕ} (hEX : 1 ≤ wEX) (hFX : 1 ≤ wFX) (hEY : 1 ≤ wEY) (hFY : 1 ≤ wFY)
    (hE : 3 < max wEX wEY) (hfit : max wFX wFY + 2 < 2 ^ (max wEX wEY + 2)) (x : Fp wEX wFX) (y : Fp wEY wFY)
    (r : Fp (max wEX wEY) (max wFX wFY)) (vx vy : ℚ) (hx : x.datum = .num vx) (hy : y.datum = .num vy)
    (hr : AddDual.add x y = some r) : WrappedSum (max wEX wEY) (max wFX wFY) (vx + vy) r.datum :=
  wrappedSum_returned (by omega) (by omega) hfit (by rw [promote_datum hEX hFX (by omega) (by omega), hx])
    (by rw [promote_datum hEY hFY (by omega) (by omega), hy]) hr

/-- Two numbers with long fractions whose difference `2^-35` lies below the range; with a factor `2^64` it lies above. In the format (4,60)
the difference `2^-67` of the least two numbers is returned as `2^-3`. -/
example : (AddDual.addSame (Fp.mk4 4 40 1 0 7 1) (Fp.mk4 4 40 1 1 7 0)).map Fp.flags = some 2 ∧
    AddDual.addSame (Fp.mk4 4 60 1 0 0 1) (Fp.mk4 4 60 1 1 0 0) = some (Fp.mk4 4 60 1 0 4 0) ∧ 60 + 2 < 2 ^ (4 + 2) := by
  decide +kernel

/-- **C29, exactly.** What the sum of two IEEE words with numbers is, whenever it is returned: the number the dual-path adder returns, with
exponents outside the range of the IEEE format replaced by zeros and infinities. -/
theorem C29_add_value {E F : ℕ} (hE : 3 < E) (hF : 1 ≤ F) (hfit : F + 2 < 2 ^ (E + 2)) (a b r : Ieee E F) (va vb : ℚ)
    (ha : ieeeRange E a.datum = .num va) (hb : ieeeRange E b.datum = .num vb) (hr : IeeeOps.add a b = some r) :
    ∃ d, WrappedSum E F (va + vb) d ∧ r.datum = ieeeRange E d := by
  unfold IeeeOps.add at hr
  obtain ⟨t, ht, rfl⟩ := Option.map_eq_some_iff.mp hr
  exact ⟨t.datum, wrappedSum_returned (by omega) hF hfit (by rw [ieeeToFlopoco_datum (by omega) hF, ha])
    (by rw [ieeeToFlopoco_datum (by omega) hF, hb]) ht, flopocoToIeee_datum (by omega) hF t⟩

/-- **C18.** The dual-path adder is commutative in every format for which it compiles, assertion failures and wrong sums included: either
both orders fail or both return the same datum. -/
theorem C18_add_dual_commutative_everywhere {E F : ℕ} (hE : 3 < E) (hF : 1 ≤ F) (hfit : F + 2 < 2 ^ (E + 2)) (x y : Fp E F) :
    (AddDual.addSame x y).map Fp.datum = (AddDual.addSame y x).map Fp.datum := by
  by_cases heq : x.flags = y.flags ∧ x.exp = y.exp
  · have hsome : ∀ a b : Fp E F, a.flags = b.flags → a.exp = b.exp → ∃ r, AddDual.addSame a b = some r := by
      intro a b h1 h2
      refine Option.ne_none_iff_exists'.mp fun hc => ?_
      have := (AddDual.addSame_none (by omega) hF h1).mp hc
      omega
    obtain ⟨r, hr⟩ := hsome x y heq.1 heq.2
    obtain ⟨r', hr'⟩ := hsome y x heq.1.symm heq.2.symm
    rw [hr, hr']
    simp only [Option.map_some, Option.some.injEq]
    rcases h : addSpecial x.datum y.datum with _ | d
    · obtain ⟨p, q, hp, hq⟩ := (C17_addSpecial_domain _ _).mp h
      have a := wrappedSum_returned (by omega) hF hfit hp hq hr
      have b := wrappedSum_returned (by omega) hF hfit hq hp hr'
      rw [add_comm q p] at b
      exact wrappedSum_unique a b
    · rw [AddDual.addSame_special_some (by omega) hF h hr,
        AddDual.addSame_special_some (by omega) hF (by rwa [AddSingle.addSpecial_comm]) hr']
  · have : AddDual.addSame x y = AddDual.addSame y x := by
      rcases AddDual.addSame_ordered (show 1 ≤ E by omega) x y with ⟨h, a, b⟩ | ⟨h, a, b⟩ <;>
      rcases AddDual.addSame_ordered (show 1 ≤ E by omega) y x with ⟨h', a', b'⟩ | ⟨h', a', b'⟩
      · exact absurd ⟨by omega, by have := b (by omega); have := b' (by omega); omega⟩ heq
      · rw [h, h']
      · rw [h, h']
      · exact absurd ⟨by omega, by have := b (by omega); have := b' (by omega); omega⟩ heq
    rw [this]

/-- A wrong sum, the same in both orders. -/
example : AddDual.addSame (Fp.mk4 4 60 1 1 0 0) (Fp.mk4 4 60 1 0 0 1) = some (Fp.mk4 4 60 1 0 4 0) := by decide +kernel

theorem wrappedSum_neg {E F : ℕ} {q : ℚ} {d : Datum} (hq : q ≠ 0) (h : WrappedSum E F q d) : WrappedSum E F (-q) d.neg := by
  unfold WrappedSum at h ⊢
  rw [if_neg hq] at h
  rw [if_neg (neg_ne_zero.mpr hq), abs_neg]
  split_ifs at h ⊢
  · exact rounded_neg hq h
  · rw [neg_mul]
    exact rounded_neg (mul_ne_zero hq (by positivity)) h

/-- **C45.** `neg(x) + neg(y) = neg(x + y)` for numbers that do not cancel, in every format for which the adder compiles, assertion
failures and wrong sums included. -/
theorem C45_neg_add_everywhere {E F : ℕ} (hE : 3 < E) (hF : 1 ≤ F) (hfit : F + 2 < 2 ^ (E + 2)) (x y : Fp E F)
    (p q : ℚ) (hp : x.datum = .num p) (hq : y.datum = .num q) (hpq : p + q ≠ 0) :
    (AddDual.addSame (negV1 E F x) (negV1 E F y)).map Fp.datum = (AddDual.addSame x y).map fun r => (negV1 E F r).datum := by
  have hE1 : 1 ≤ E := by omega
  have hnx : (negV1 E F x).datum = .num (-p) := by rw [C27_neg_datum hE1 hF, hp]; rfl
  have hny : (negV1 E F y).datum = .num (-q) := by rw [C27_neg_datum hE1 hF, hq]; rfl
  have iff : AddDual.addSame (negV1 E F x) (negV1 E F y) = none ↔ AddDual.addSame x y = none := by
    rw [C19_add_dual_asserts_iff hE hF _ _ _ _ hnx hny, C19_add_dual_asserts_iff hE hF _ _ _ _ hp hq]
    rw [num_exp_eq hF hnx hp (abs_neg p), num_exp_eq hF hny hq (abs_neg q)]
  rcases h1 : AddDual.addSame x y with _ | r
  · rw [iff.mpr h1]; rfl
  · rcases h2 : AddDual.addSame (negV1 E F x) (negV1 E F y) with _ | s
    · rw [iff.mp h2] at h1; cases h1
    · have a := wrappedSum_returned (by omega) hF hfit hp hq h1
      have b := wrappedSum_returned (by omega) hF hfit hnx hny h2
      rw [show -p + -q = -(p + q) by ring] at b
      simp only [Option.map_some]
      rw [C27_neg_datum hE1 hF]
      exact congrArg some (wrappedSum_unique b (wrappedSum_neg hpq a))

/-- A wrong sum and its negative. -/
example : (AddDual.addSame (negV1 4 60 (Fp.mk4 4 60 1 0 0 1)) (negV1 4 60 (Fp.mk4 4 60 1 1 0 0))).map Fp.bits =
    some (negV1 4 60 (Fp.mk4 4 60 1 0 4 0)).bits := by decide +kernel

/-- **C44, sums, exactly.** The formats in which the dual-path adder is monotone (whenever both sums are returned and are not NaN) are
those with `F ≤ 2^(E+1)`. -/
theorem C44_add_monotone_format_iff {E F : ℕ} (hE : 3 < E) (hF : 1 ≤ F) (hfit : F + 2 < 2 ^ (E + 2)) :
    (∀ x y z r s : Fp E F, x.datum.Le y.datum → AddDual.addSame x z = some r → AddDual.addSame y z = some s →
      r.datum ≠ .nan → s.datum ≠ .nan → r.datum.Le s.datum) ↔ F ≤ 2 ^ (E + 1) := by
  have h1E : 1 ≤ E := by omega
  have hpE : 0 < 2 ^ E := by positivity
  have hpF : 2 ≤ 2 ^ F := by
    calc 2 = 2 ^ 1 := rfl
      _ ≤ 2 ^ F := Nat.pow_le_pow_right (by norm_num) hF
  constructor
  · intro H
    by_contra hbig
    push Not at hbig
    have hF1 : 2 ^ (F - 1) * 2 = 2 ^ F := by rw [← pow_succ]; congr 1; omega
    have hF1p : 0 < 2 ^ (F - 1) := by positivity
    have num : ∀ s f : ℕ, s < 2 → f < 2 ^ F → (Fp.mk4 E F 1 s 0 f).datum = denote E F 1 s 0 f := fun s f hs hf =>
      Fp.mk4_datum (by norm_num) hs hpE hf h1E hF
    have ret : ∀ f : ℕ, f < 2 ^ F → ∃ r, AddDual.addSame (Fp.mk4 E F 1 0 0 f) (Fp.mk4 E F 1 1 0 0) = some r := by
      intro f hf
      refine Option.ne_none_iff_exists'.mp fun hc => ?_
      have := (C19_add_dual_asserts_iff hE hF _ _ _ _ (num 0 f (by norm_num) hf) (num 1 0 (by norm_num) (by omega))).mp hc
      rw [Fp.mk4_exp (by norm_num) (by norm_num) hpE hf h1E, Fp.mk4_exp (by norm_num) (by norm_num) hpE (by omega) h1E] at this
      simp only [sub_self, abs_zero] at this
      omega
    have hsum : ∀ f : ℕ, (if (0 : ℕ) = 1 then (-1 : ℚ) else 1) * (((2 ^ F + f : ℕ) : ℚ) * 2 ^ (((0 : ℕ) : ℤ) - bias E - F)) +
          (if (1 : ℕ) = 1 then (-1 : ℚ) else 1) * (((2 ^ F + 0 : ℕ) : ℚ) * 2 ^ (((0 : ℕ) : ℤ) - bias E - F)) = f * 2 ^ (-bias E - F) := by
      intro f
      rw [if_neg (by norm_num), if_pos rfl, show ((0 : ℕ) : ℤ) - bias E - F = -bias E - F by push_cast; ring]
      push_cast; ring
    obtain ⟨r, hr⟩ := ret 1 (by omega)
    obtain ⟨s, hs⟩ := ret (2 ^ (F - 1)) (by omega)
    have h2 : (2 : ℤ) ^ (E + 1) < F := by exact_mod_cast hbig
    have hp1 : (1 : ℤ) ≤ 2 ^ E := by exact_mod_cast Nat.one_le_two_pow
    have hp2 : (2 : ℤ) ^ (E + 1) = 2 * 2 ^ E := by rw [pow_succ]; ring
    -- the small sum wraps
    have hq1 : ((1 : ℕ) : ℚ) * 2 ^ (-bias E - F) = 2 ^ (-bias E - F) := by push_cast; ring
    have dr := AddDual.addSame_sharp (by omega) hF (num 0 1 (by norm_num) (by omega)) (num 1 0 (by norm_num) (by omega)) hr
    rw [hsum, hq1] at dr
    have hpos : (0 : ℚ) < 2 ^ (-bias E - (F : ℤ)) := two_zpow_pos _
    obtain ⟨r1, r2, r3⟩ := dr.2.2 hpos.ne' hfit (by
      rw [abs_of_pos hpos]
      exact zpow_lt_zpow_right₀ (by norm_num) (by omega))
    -- the larger one underflows
    have hq2 : ((2 ^ (F - 1) : ℕ) : ℚ) * 2 ^ (-bias E - (F : ℤ)) = 2 ^ (-bias E - 1) := by
      rw [show -bias E - 1 = ((F - 1 : ℕ) : ℤ) + (-bias E - F) by rw [Nat.cast_sub hF]; push_cast; ring, zpow_add₀ (by norm_num), zpow_natCast]
      push_cast; ring
    have ds := AddDual.addSame_sharp (by omega) hF (num 0 (2 ^ (F - 1)) (by norm_num) (by omega)) (num 1 0 (by norm_num) (by omega)) hs
    rw [hsum, hq2] at ds
    have hpos2 : (0 : ℚ) < 2 ^ (-bias E - 1) := two_zpow_pos _
    have s1 := ds.2.1 hpos2.ne' (by
      rw [abs_of_pos hpos2]
      exact zpow_le_zpow_right₀ (by norm_num) (by omega))
    have s2 : s.datum = .zero false := by
      refine rounded_unique s1 ⟨2 ^ F, -bias E - 1 - F, ?_, ?_⟩
      · rw [abs_of_pos hpos2]
        refine nearest_self (by omega) ⟨by simp, by rw [pow_succ]; omega⟩ ?_
        rw [show -bias E - 1 = ((F : ℕ) : ℤ) + (-bias E - 1 - F) by ring, zpow_add₀ (by norm_num), zpow_natCast]
        push_cast; ring
      · rw [rangeCheck, if_pos (by omega), decide_eq_false (not_lt.2 hpos2.le)]
    -- the sign of the wrapped sum
    have r4 : r.datum = .inf false ∨ ∃ v, 0 < v ∧ r.datum = .num v := by
      obtain ⟨m, e, hn, hd⟩ := r3
      have hneg : ¬ ((2 : ℚ) ^ (-bias E - (F : ℤ)) * 2 ^ 2 ^ (E + 2) < 0) := not_lt.2 (by positivity)
      rw [decide_eq_false hneg] at hd
      have hm : 0 < m := lt_of_lt_of_le (by positivity) hn.1.1
      rw [rangeCheck] at hd
      simp only [Bool.false_eq_true, if_false, one_mul] at hd
      split_ifs at hd
      · exact absurd hd (r1 _)
      · exact Or.inl hd
      · have : (0 : ℚ) < m := by exact_mod_cast hm
        exact Or.inr ⟨(m : ℚ) * 2 ^ e, mul_pos this (two_zpow_pos e), hd⟩
    have hle := H _ _ _ r s (by
      rw [num 0 1 (by norm_num) (by omega), num 0 (2 ^ (F - 1)) (by norm_num) (by omega)]
      rcases Nat.eq_or_lt_of_le (show 1 ≤ 2 ^ (F - 1) by omega) with h | h
      · right; rw [← h]; rfl
      · left
        simp only [denote, Datum.Lt]
        have hu := two_zpow_pos (((0 : ℕ) : ℤ) - bias E - F)
        have : (1 : ℚ) < ((2 ^ (F - 1) : ℕ) : ℚ) := by exact_mod_cast h
        rw [if_neg (by norm_num), one_mul, one_mul]
        refine mul_lt_mul_of_pos_right ?_ hu
        push_cast at this ⊢
        linarith) hr hs (by rcases r4 with h | ⟨v, -, h⟩ <;> rw [h] <;> exact fun h => Datum.noConfusion h)
      (by rw [s2]; exact fun h => Datum.noConfusion h)
    rw [s2] at hle
    rcases r4 with h | ⟨v, hv, h⟩
    · rw [h] at hle
      rcases hle with h | h
      · exact h
      · exact Datum.noConfusion h
    · rw [h] at hle
      rcases hle with h | h
      · simp only [Datum.Lt] at h; linarith
      · exact Datum.noConfusion h
  · intro hfmt x y z r s hxy hr hs hrn hsn
    exact mono_of_special (op := AddDual.addSame)
      (fun h hd => AddDual.addSame_special_some (by omega) (by omega) hd h) x y z r s hxy hr hs hrn hsn
      fun u v w hu hv hw h => rounded0_mono (by linarith)
        (add_fin_returned (by omega) (by omega) hfmt _ _ hu hw hr) (add_fin_returned (by omega) (by omega) hfmt _ _ hv hw hs)

/-- In the format (4,40) the least number plus one unit is below one and a half times the least number; less the least number, the first
sum is infinite and the second is zero. -/
example : (AddDual.addSame (Fp.mk4 4 40 1 0 0 1) (Fp.mk4 4 40 1 1 0 0)).map Fp.flags = some 2 ∧
    (AddDual.addSame (Fp.mk4 4 40 1 0 0 (2 ^ 39)) (Fp.mk4 4 40 1 1 0 0)).map Fp.flags = some 0 := by
  decide +kernel

end Thls
