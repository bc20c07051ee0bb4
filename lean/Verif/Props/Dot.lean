import Verif.Proofs.Dot
import Verif.Proofs.Fma
import Mathlib.Tactic.FinCases
import Mathlib.Algebra.BigOperators.Fin
import Mathlib.Algebra.BigOperators.Ring.Finset
import Mathlib.Algebra.Order.BigOperators.Group.Finset

/-! # C32, C33: the round-down dot products -/

namespace Thls
open Spec

theorem roundDown_unique {p m m' : ℕ} {e e' : ℤ} {q : ℚ} (hp : 1 ≤ p) (h : RoundDown p q m e) (h' : RoundDown p q m' e') :
    m = m' ∧ e = e' :=
  sig_unique hp h.1 h'.1 (le_antisymm (h'.2.2 m e h.1 h.2.1) (h.2.2 m' e' h'.1 h'.2.1))

theorem roundedDown_unique {E F : ℕ} {q : ℚ} {d d' : Datum} (h : RoundedDown E F q d) (h' : RoundedDown E F q d') : d = d' := by
  obtain ⟨m, e, h1, rfl⟩ := h
  obtain ⟨m', e', h2, rfl⟩ := h'
  obtain ⟨rfl, rfl⟩ := roundDown_unique (by omega) h1 h2
  rfl

/-- **C32.** For positive numbers `dot2_pos_rndd` never fails an assertion and returns the exact
`a0*b0 + a1*b1` rounded down once. -/
theorem C32_dot2 {E F : ℕ} (hE : 1 ≤ E) (hF : 1 ≤ F) (a0 a1 b0 b1 : Fp E F) (u0 u1 v0 v1 : ℚ)
    (ha0 : a0.datum = .num u0) (ha1 : a1.datum = .num u1) (hb0 : b0.datum = .num v0) (hb1 : b1.datum = .num v1)
    (pa0 : 0 < u0) (pa1 : 0 < u1) (pb0 : 0 < v0) (pb1 : 0 < v1) :
    ∃ r, dot2 a0 a1 b0 b1 = some r ∧ RoundedDown E F (u0 * v0 + u1 * v1) r.datum := by
  unfold dot2
  rw [dotArg_of ha0 pa0, dotArg_of ha1 pa1, dotArg_of hb0 pb0, dotArg_of hb1 pb1, dot_value hE ha0 hb0 pa0 pb0,
    dot_value hE ha1 hb1 pa1 pb1]
  obtain ⟨f0, g0⟩ := dotFrac_bounds hF a0 b0
  obtain ⟨f1, g1⟩ := dotFrac_bounds hF a1 b1
  simp only [Bool.and_self, if_true]
  by_cases c : dotExp a1 b1 > dotExp a0 b0
  · rw [if_pos c, add_comm ((dotFrac a0 b0 : ℚ) * _)]
    exact dot2Core_correct hE hF f1 g1 g0 c.le (dotExp_eq hE a1 b1).2
  · rw [if_neg c]
    exact dot2Core_correct hE hF f0 g0 g1 (by omega) (dotExp_eq hE a0 b0).2

/-- **C32.** Outside its precondition `dot2_pos_rndd` fails an assertion: it returns only for four positive
numbers. -/
theorem C32_dot2_precondition {E F : ℕ} (a0 a1 b0 b1 r : Fp E F) (h : dot2 a0 a1 b0 b1 = some r) :
    ∀ x ∈ [a0, a1, b0, b1], ∃ v, x.datum = .num v ∧ 0 < v := by
  have key : ∀ x : Fp E F, dotArg x = true → ∃ v, x.datum = .num v ∧ 0 < v := by
    intro x hx
    unfold dotArg Fp.isPositive Fp.isNormal at hx
    simp only [Bool.and_eq_true, beq_iff_eq] at hx
    refine ⟨_, datum_normal x hx.2, ?_⟩
    rw [if_neg (by omega), one_mul]
    exact sig_scaled_pos _ _ _
  unfold dot2 at h
  by_cases c : (dotArg a0 && dotArg a1 && dotArg b0 && dotArg b1) = true
  · simp only [Bool.and_eq_true] at c
    intro x hx
    simp only [List.mem_cons, List.not_mem_nil, or_false] at hx
    rcases hx with rfl | rfl | rfl | rfl
    · exact key _ c.1.1.1
    · exact key _ c.1.1.2
    · exact key _ c.1.2
    · exact key _ c.2
  · rw [if_neg c] at h; cases h

/-- **C32.** The result does not depend on the order of the two products or of the factors. -/
theorem C32_dot2_symmetric {E F : ℕ} (hE : 1 ≤ E) (hF : 1 ≤ F) (a0 a1 b0 b1 r : Fp E F)
    (h : dot2 a0 a1 b0 b1 = some r) :
    (∃ r', dot2 a1 a0 b1 b0 = some r' ∧ r'.datum = r.datum) ∧ (∃ r', dot2 b0 a1 a0 b1 = some r' ∧ r'.datum = r.datum) := by
  have hp := C32_dot2_precondition _ _ _ _ _ h
  obtain ⟨u0, ha0, pa0⟩ := hp a0 (by simp)
  obtain ⟨u1, ha1, pa1⟩ := hp a1 (by simp)
  obtain ⟨v0, hb0, pb0⟩ := hp b0 (by simp)
  obtain ⟨v1, hb1, pb1⟩ := hp b1 (by simp)
  obtain ⟨s, hs, hr⟩ := C32_dot2 hE hF a0 a1 b0 b1 _ _ _ _ ha0 ha1 hb0 hb1 pa0 pa1 pb0 pb1
  obtain rfl : s = r := by rw [hs] at h; injection h
  refine ⟨?_, ?_⟩
  · obtain ⟨t, ht, hr'⟩ := C32_dot2 hE hF a1 a0 b1 b0 _ _ _ _ ha1 ha0 hb1 hb0 pa1 pa0 pb1 pb0
    rw [add_comm] at hr'
    exact ⟨t, ht, roundedDown_unique hr' hr⟩
  · obtain ⟨t, ht, hr'⟩ := C32_dot2 hE hF b0 a1 a0 b1 _ _ _ _ hb0 ha1 ha0 hb1 pb0 pa1 pa0 pb1
    rw [mul_comm v0] at hr'
    exact ⟨t, ht, roundedDown_unique hr' hr⟩

/-- What `dot4_pos_rndd` computes, in units of the last place of its aligned sum. -/
theorem dot4_core {E F : ℕ} (hE : 1 ≤ E) (hF : 1 ≤ F) (a b : Fin 4 → Fp E F) (u v : Fin 4 → ℚ)
    (ha : ∀ i, (a i).datum = .num (u i)) (hb : ∀ i, (b i).datum = .num (v i)) (pa : ∀ i, 0 < u i) (pb : ∀ i, 0 < v i) :
    ∃ r e, dot4 (a 0) (a 1) (a 2) (a 3) (b 0) (b 1) (b 2) (b 3) = some r ∧
      (∃ i, e = dotExp (a i) (b i)) ∧ (∀ i, dotExp (a i) (b i) ≤ e) ∧
      ∀ N : ℕ, N = ∑ i, dot4Term F e (dotFrac (a i) (b i)) (dotExp (a i) (b i)) →
      ∀ q : ℚ, (N : ℚ) * 2 ^ ((e : ℤ) - 2 * bias E - 2 * F - dot4Pad F) ≤ q →
        q < ((N : ℚ) + 1) * 2 ^ ((e : ℤ) - 2 * bias E - 2 * F - dot4Pad F) → RoundedDown E F q r.datum := by
  unfold dot4
  have hf := fun i => dotFrac_bounds hF (a i) (b i)
  have he := fun i => dotExp_eq hE (a i) (b i)
  simp only [dotArg_of (ha _) (pa _), dotArg_of (hb _) (pb _), Bool.and_self, if_true]
  obtain ⟨r, e, h1, h2, h3, h4, h5, h6, h7⟩ := dot4Rot_eq hE hF (hf 0).1 (hf 1).1 (hf 2).1 (hf 3).1 (hf 0).2 (hf 1).2 (hf 2).2
    (hf 3).2 (he 0).2 (he 1).2 (he 2).2 (he 3).2
  refine ⟨r, e, h1, ?_, ?_, ?_⟩
  · rcases h2 with h | h | h | h
    · exact ⟨0, h⟩
    · exact ⟨1, h⟩
    · exact ⟨2, h⟩
    · exact ⟨3, h⟩
  · intro i
    fin_cases i
    · exact h3
    · exact h4
    · exact h5
    · exact h6
  · intro N hN
    exact h7 N (by rw [hN, Fin.sum_univ_four])

/-- **C33, partial.** `dot4_pos_rndd` never fails an assertion on positive numbers, and its result is the exact
sum rounded down, provided at most one of the four products (the one with index `k`) has an exponent sum more
than `4F-1` below that of another. Missing: two or more products that far below, where the claim is false
(`C33_dot4_wrong`). -/
theorem C33_dot4_partial {E F : ℕ} (hE : 1 ≤ E) (hF : 1 ≤ F) (a b : Fin 4 → Fp E F) (u v : Fin 4 → ℚ)
    (ha : ∀ i, (a i).datum = .num (u i)) (hb : ∀ i, (b i).datum = .num (v i)) (pa : ∀ i, 0 < u i) (pb : ∀ i, 0 < v i)
    (k : Fin 4) (hk : ∀ i, i ≠ k → ∀ j, (a j).exp + (b j).exp ≤ (a i).exp + (b i).exp + (4 * F - 1)) :
    ∃ r, dot4 (a 0) (a 1) (a 2) (a 3) (b 0) (b 1) (b 2) (b 3) = some r ∧ RoundedDown E F (∑ i, u i * v i) r.datum := by
  obtain ⟨r, e, hr, ⟨i0, hi0⟩, hmax, h⟩ := dot4_core hE hF a b u v ha hb pa pb
  refine ⟨r, hr, h _ rfl _ ?_ ?_⟩
  all_goals
    have hval : ∀ i, u i * v i = (dotFrac (a i) (b i) : ℚ) * 2 ^ ((dotExp (a i) (b i) : ℤ) - 2 * bias E - 2 * F) :=
      fun i => dot_value hE (ha i) (hb i) (pa i) (pb i)
    have hbd := fun i => dot4_term_bounds (F := F) (x := dotFrac (a i) (b i)) (c := 2 * bias E) (hmax i)
    have hex : ∀ i, i ≠ k → e - dotExp (a i) (b i) ≤ dot4Pad F := by
      intro i hi
      have h1 := hk i hi i0
      rw [hi0, (dotExp_eq hE (a i0) (b i0)).1, (dotExp_eq hE (a i) (b i)).1]
      unfold dot4Pad; omega
    generalize (2 : ℚ) ^ ((e : ℤ) - 2 * bias E - 2 * F - dot4Pad F) = w at *
    simp only [← hval] at hbd
    push_cast
  · rw [Finset.sum_mul]
    exact Finset.sum_le_sum fun i _ => (hbd i).1
  · rw [add_mul, one_mul, Finset.sum_mul]
    have hsplit : ∀ g : Fin 4 → ℚ, ∑ i, g i = g k + ∑ i ∈ Finset.univ.erase k, g i := fun g =>
      (Finset.add_sum_erase _ _ (Finset.mem_univ k)).symm
    rw [hsplit, hsplit fun i => ((dot4Term F e (dotFrac (a i) (b i)) (dotExp (a i) (b i)) : ℕ) : ℚ) * w]
    have hrest : ∑ i ∈ Finset.univ.erase k, u i * v i =
        ∑ i ∈ Finset.univ.erase k, ((dot4Term F e (dotFrac (a i) (b i)) (dotExp (a i) (b i)) : ℕ) : ℚ) * w := by
      refine Finset.sum_congr rfl fun i hi => ?_
      rw [(hbd i).2.2 (hex i (Finset.ne_of_mem_erase hi))]
    rw [hrest]
    have := (hbd k).2.1
    linarith

/-- **C33.** Outside its precondition `dot4_pos_rndd` fails an assertion: it returns only for eight positive numbers. -/
theorem C33_dot4_precondition {E F : ℕ} (a0 a1 a2 a3 b0 b1 b2 b3 r : Fp E F)
    (h : dot4 a0 a1 a2 a3 b0 b1 b2 b3 = some r) :
    ∀ x ∈ [a0, a1, a2, a3, b0, b1, b2, b3], ∃ v, x.datum = .num v ∧ 0 < v := by
  have key : ∀ x : Fp E F, dotArg x = true → ∃ v, x.datum = .num v ∧ 0 < v := by
    intro x hx
    unfold dotArg Fp.isPositive Fp.isNormal at hx
    simp only [Bool.and_eq_true, beq_iff_eq] at hx
    refine ⟨_, datum_normal x hx.2, ?_⟩
    rw [if_neg (by omega), one_mul]
    exact sig_scaled_pos _ _ _
  unfold dot4 at h
  split at h
  case isTrue c =>
    simp only [Bool.and_eq_true] at c
    obtain ⟨⟨⟨⟨⟨⟨⟨c0, c1⟩, c2⟩, c3⟩, c4⟩, c5⟩, c6⟩, c7⟩ := c
    intro x hx
    simp only [List.mem_cons, List.not_mem_nil, or_false] at hx
    rcases hx with rfl | rfl | rfl | rfl | rfl | rfl | rfl | rfl <;> exact key _ ‹_›
  case isFalse => cases h

/-- **C33, the error bound, with no condition on the exponents.** The result is the round-down of a number at
most the exact sum and closer to it than a factor `1 - 4 * 2^-(6F-1)`. -/
theorem C33_dot4_error {E F : ℕ} (hE : 1 ≤ E) (hF : 1 ≤ F) (a b : Fin 4 → Fp E F) (u v : Fin 4 → ℚ)
    (ha : ∀ i, (a i).datum = .num (u i)) (hb : ∀ i, (b i).datum = .num (v i)) (pa : ∀ i, 0 < u i) (pb : ∀ i, 0 < v i) :
    ∃ r t, dot4 (a 0) (a 1) (a 2) (a 3) (b 0) (b 1) (b 2) (b 3) = some r ∧ RoundedDown E F t r.datum ∧
      t ≤ ∑ i, u i * v i ∧ (∑ i, u i * v i) * (1 - 4 / 2 ^ (6 * F - 1)) < t := by
  obtain ⟨r, e, hr, ⟨i0, hi0⟩, hmax, h⟩ := dot4_core hE hF a b u v ha hb pa pb
  have hw := two_zpow_pos ((e : ℤ) - 2 * bias E - 2 * F - dot4Pad F)
  have hval : ∀ i, u i * v i = (dotFrac (a i) (b i) : ℚ) * 2 ^ ((dotExp (a i) (b i) : ℤ) - 2 * bias E - 2 * F) :=
    fun i => dot_value hE (ha i) (hb i) (pa i) (pb i)
  have hbd := fun i => dot4_term_bounds (F := F) (x := dotFrac (a i) (b i)) (c := 2 * bias E) (hmax i)
  refine ⟨r, _, hr, h _ rfl _ (le_refl _) (by push_cast; linarith), ?_, ?_⟩
  all_goals simp only [← hval] at hbd; push_cast
  · rw [Finset.sum_mul]
    exact Finset.sum_le_sum fun i _ => (hbd i).1
  · have hlt : ∑ i, u i * v i < ∑ i, (((dot4Term F e (dotFrac (a i) (b i)) (dotExp (a i) (b i)) : ℕ) : ℚ) *
        2 ^ ((e : ℤ) - 2 * bias E - 2 * F - dot4Pad F) + 2 ^ ((e : ℤ) - 2 * bias E - 2 * F - dot4Pad F)) := by
      refine Finset.sum_lt_sum_of_nonempty ⟨0, Finset.mem_univ _⟩ fun i _ => ?_
      have := (hbd i).2.1
      linarith
    rw [Finset.sum_add_distrib, Finset.sum_const, Finset.card_univ, Fintype.card_fin, nsmul_eq_mul] at hlt
    have hbig : (2 : ℚ) ^ ((e : ℤ) - 2 * bias E - 2 * F - dot4Pad F) * 2 ^ (6 * F - 1) ≤ ∑ i, u i * v i := by
      have h1 : u i0 * v i0 ≤ ∑ i, u i * v i :=
        Finset.single_le_sum (f := fun i => u i * v i) (fun i _ => (mul_pos (pa i) (pb i)).le) (Finset.mem_univ i0)
      refine le_trans ?_ h1
      rw [hval i0, ← hi0, ← zpow_natCast, ← zpow_add₀ (by norm_num)]
      have h2 : ((2 ^ (2 * F) : ℕ) : ℚ) ≤ (dotFrac (a i0) (b i0) : ℚ) := by exact_mod_cast (dotFrac_bounds hF (a i0) (b i0)).1
      have h3 : (2 : ℚ) ^ ((e : ℤ) - 2 * bias E - 2 * F - dot4Pad F + (6 * F - 1 : ℕ)) = ((2 ^ (2 * F) : ℕ) : ℚ) * 2 ^ ((e : ℤ) - 2 * bias E - 2 * F) := by
        push_cast
        rw [← zpow_natCast, ← zpow_add₀ (by norm_num)]
        congr 1
        have : dot4Pad F = 4 * F - 1 := by unfold dot4Pad; omega
        rw [this]; push_cast [Nat.cast_sub (show 1 ≤ 4 * F by omega), Nat.cast_sub (show 1 ≤ 6 * F by omega)]; ring
      rw [h3]
      exact mul_le_mul_of_nonneg_right h2 (two_zpow_pos _).le
    have hP : (0 : ℚ) < 2 ^ (6 * F - 1) := by positivity
    have h4 : (2 : ℚ) ^ ((e : ℤ) - 2 * bias E - 2 * F - dot4Pad F) ≤ (∑ i, u i * v i) / 2 ^ (6 * F - 1) := by
      rwa [le_div_iff₀ hP]
    have h5 : (∑ i, u i * v i) * (1 - 4 / 2 ^ (6 * F - 1)) = (∑ i, u i * v i) - 4 * ((∑ i, u i * v i) / 2 ^ (6 * F - 1)) := by ring
    rw [h5, Finset.sum_mul]
    push_cast at hlt
    linarith

/-- Two significands whose product is one below a multiple of `2^F`, without overflow. -/
theorem dot4_witness {F : ℕ} (hF : 4 ≤ F) : ∃ β m : ℕ, β < 2 ^ F ∧ (2 ^ F + 3) * (2 ^ F + β) + 1 = 2 ^ F * m ∧
    2 ^ F + 1 ≤ m ∧ m < 2 * 2 ^ F := by
  have hA : 16 ≤ 2 ^ F := by
    calc 16 = 2 ^ 4 := rfl
      _ ≤ 2 ^ F := Nat.pow_le_pow_right (by norm_num) hF
  have h3 : 2 ^ F % 3 ≠ 0 := by
    clear hA hF
    induction F with
    | zero => decide
    | succ n ih => rw [pow_succ]; omega
  generalize 2 ^ F = A at *
  rcases (by omega : A % 3 = 1 ∨ A % 3 = 2) with h | h
  · obtain ⟨β, hβ⟩ : ∃ β, 3 * β + 1 = A := ⟨(A - 1) / 3, by omega⟩
    refine ⟨β, A + 3 + β + 1, by omega, ?_, by omega, by omega⟩
    linear_combination hβ
  · obtain ⟨β, hβ⟩ : ∃ β, 3 * β + 1 = 2 * A := ⟨(2 * A - 1) / 3, by omega⟩
    refine ⟨β, A + 3 + β + 2, by omega, ?_, by omega, by omega⟩
    linear_combination hβ

/-- One unit in the last place of the aligned sum below `m * 2^-F` rounds down to `(m-1) * 2^-F`. -/
theorem dot4_differs {E F m N : ℕ} {d : Datum} (hE : 1 ≤ E) (hF : 1 ≤ F) (hm1 : 2 ^ F + 1 ≤ m) (hm2 : m < 2 * 2 ^ F)
    (hN : N + 1 = m * 2 ^ (5 * F - 1)) (hbad : RoundedDown E F ((m : ℚ) * 2 ^ (-(F : ℤ))) d)
    (hrd : RoundedDown E F ((N : ℚ) * 2 ^ (-((6 * F - 1 : ℕ) : ℤ))) d) : False := by
  obtain ⟨w1, w2⟩ := two_bias hE
  have k5 : 0 < 2 ^ (5 * F - 1) := by positivity
  have b1 := Nat.mul_le_mul_right (2 ^ (5 * F - 1)) hm1
  have b2 := Nat.mul_le_mul_right (2 ^ (5 * F - 1)) hm2.le
  rw [add_mul, one_mul] at b1
  have n1 : 2 ^ (F + (5 * F - 1)) ≤ N := by rw [pow_add]; omega
  have n2 : N < 2 ^ (F + (5 * F - 1) + 1) := by rw [pow_succ', pow_add, ← mul_assoc]; omega
  have hd : N / 2 ^ (5 * F - 1) = m - 1 := by
    rw [show N = (m - 1) * 2 ^ (5 * F - 1) + (2 ^ (5 * F - 1) - 1) by
      obtain ⟨c, rfl⟩ : ∃ c, m = c + 1 := ⟨m - 1, by omega⟩
      rw [Nat.add_sub_cancel]; rw [add_mul, one_mul] at hN; omega]
    rw [Nat.add_comm, Nat.add_mul_div_right _ _ k5, Nat.div_eq_of_lt (by omega), Nat.zero_add]
  have hdown := round_down_int (q := (N : ℚ) * 2 ^ (-((6 * F - 1 : ℕ) : ℤ))) n1 n2 (le_refl _)
    (mul_lt_mul_of_pos_right (lt_add_one _) (two_zpow_pos _))
  rw [hd, show (-((6 * F - 1 : ℕ) : ℤ) + (5 * F - 1 : ℕ)) = -(F : ℤ) by omega] at hdown
  have hres := roundedDown_unique hrd ⟨_, _, hdown, rfl⟩
  have hup := round_down_int (F := F) (N := m) (k := 0) (g := -(F : ℤ)) (q := (m : ℚ) * 2 ^ (-(F : ℤ))) (by rw [Nat.add_zero]; omega)
    (by rw [Nat.add_zero, pow_succ]; omega) (le_refl _) (mul_lt_mul_of_pos_right (lt_add_one _) (two_zpow_pos _))
  rw [pow_zero, Nat.div_one, Nat.cast_zero, add_zero] at hup
  have hres2 := roundedDown_unique hbad ⟨_, _, hup, rfl⟩
  rw [hres] at hres2
  unfold rangeCheck at hres2
  have i1 : ¬ (-(F : ℤ) + F + bias E < 0) := by omega
  have i2 : ¬ (2 ^ E ≤ -(F : ℤ) + F + bias E) := by omega
  rw [if_neg i1, if_neg i2, if_neg i1, if_neg i2] at hres2
  injection hres2 with hres2
  rw [Nat.cast_sub (by omega)] at hres2
  have := two_zpow_pos (-(F : ℤ))
  simp only [Bool.false_eq_true, if_false, one_mul] at hres2
  push_cast at hres2
  nlinarith

/-- **C33, where it is not the round-down.** In every format with `4 ≤ F` and `3F ≤ bias` (single and double
precision among them) there are eight positive numbers, whose exact dot product is representable, for which
`dot4_pos_rndd` does not return the rounded-down sum: the bits dropped from two of the products add up. -/
theorem C33_dot4_wrong {E F : ℕ} (hE : 1 ≤ E) (hF : 4 ≤ F) (hb : 3 * (F : ℤ) ≤ bias E) :
    ∃ (a b : Fin 4 → Fp E F) (u v : Fin 4 → ℚ) (r : Fp E F),
      (∀ i, (a i).datum = .num (u i) ∧ (b i).datum = .num (v i) ∧ 0 < u i ∧ 0 < v i) ∧
      dot4 (a 0) (a 1) (a 2) (a 3) (b 0) (b 1) (b 2) (b 3) = some r ∧ ¬ RoundedDown E F (∑ i, u i * v i) r.datum := by
  have hF1 : 1 ≤ F := by omega
  have hbn : (biasN E : ℤ) = bias E := pow_bias
  have hbE : biasN E < 2 ^ E := biasN_lt
  obtain ⟨w1, w2⟩ := two_bias hE
  obtain ⟨β, m, hβ, hm, hm1, hm2⟩ := dot4_witness hF
  obtain ⟨A, hA⟩ : ∃ A, A = 2 ^ F := ⟨_, rfl⟩
  have hA16 : 16 ≤ A := by
    rw [hA]
    calc 16 = 2 ^ 4 := rfl
      _ ≤ 2 ^ F := Nat.pow_le_pow_right (by norm_num) hF
  let ea : Fin 4 → ℕ := ![biasN E, biasN E, biasN E - 2 * F, biasN E - 3 * F]
  let eb : Fin 4 → ℕ := ![biasN E, biasN E - (2 * F + 1), biasN E - (2 * F + 1), biasN E - 3 * F]
  let fa : Fin 4 → ℕ := ![3, 1, 1, 0]
  let fb : Fin 4 → ℕ := ![β, 2 ^ F - 2, 2 ^ F - 2, 0]
  have hea : ∀ i, ea i < 2 ^ E := by intro i; fin_cases i <;> simp [ea] <;> omega
  have heb : ∀ i, eb i < 2 ^ E := by intro i; fin_cases i <;> simp [eb] <;> omega
  have hfa : ∀ i, fa i < 2 ^ F := by intro i; fin_cases i <;> simp [fa] <;> omega
  have hfb : ∀ i, fb i < 2 ^ F := by intro i; fin_cases i <;> simp [fb] <;> omega
  let a : Fin 4 → Fp E F := fun i => Fp.mk4 E F 1 0 (ea i) (fa i)
  let b : Fin 4 → Fp E F := fun i => Fp.mk4 E F 1 0 (eb i) (fb i)
  have ha : ∀ i, (a i).datum = _ := fun i => mk4_num hE hF1 (hea i) (hfa i)
  have hb' : ∀ i, (b i).datum = _ := fun i => mk4_num hE hF1 (heb i) (hfb i)
  have pa : ∀ i, (0 : ℚ) < (1 + (fa i : ℚ) / 2 ^ F) * 2 ^ ((ea i : ℤ) - bias E) := fun i => by positivity
  have pb : ∀ i, (0 : ℚ) < (1 + (fb i : ℚ) / 2 ^ F) * 2 ^ ((eb i : ℤ) - bias E) := fun i => by positivity
  have hfr : ∀ i, dotFrac (a i) (b i) = (A + fa i) * (A + fb i) := by
    intro i
    unfold dotFrac opadHi1
    rw [Fp.mk4_frac (by decide) (by decide) (hea i) (hfa i) hF1, Fp.mk4_frac (by decide) (by decide) (heb i) (hfb i) hF1, hA]
  have hex : ∀ i, dotExp (a i) (b i) = ea i + eb i := by
    intro i
    rw [(dotExp_eq hE (a i) (b i)).1, Fp.mk4_exp (by decide) (by decide) (hea i) (hfa i) hE,
      Fp.mk4_exp (by decide) (by decide) (heb i) (hfb i) hE]
  obtain ⟨r, e, hr, ⟨i0, hi0⟩, hmax, h⟩ := dot4_core hE hF1 a b _ _ ha hb' pa pb
  refine ⟨a, b, _, _, r, fun i => ⟨ha i, hb' i, pa i, pb i⟩, hr, ?_⟩
  have he : e = 2 * biasN E := by
    have h0 := hmax 0
    rw [hex] at h0
    have h1 : ea i0 + eb i0 ≤ 2 * biasN E := by
      fin_cases i0 <;> simp [ea, eb] <;> omega
    rw [hex] at hi0
    simp [ea, eb] at h0
    omega
  subst he
  have hval : ∀ i, (1 + (fa i : ℚ) / 2 ^ F) * 2 ^ ((ea i : ℤ) - bias E) * ((1 + (fb i : ℚ) / 2 ^ F) * 2 ^ ((eb i : ℤ) - bias E)) =
      (dotFrac (a i) (b i) : ℚ) * 2 ^ ((dotExp (a i) (b i) : ℤ) - 2 * bias E - 2 * F) :=
    fun i => dot_value hE (ha i) (hb' i) (pa i) (pb i)
  have hAq : (2 : ℚ) ^ F = A := by rw [hA]; push_cast; rfl
  have hP : dot4Pad F = 4 * F - 1 := by unfold dot4Pad; omega
  -- exact value
  have hS : ∑ i, (1 + (fa i : ℚ) / 2 ^ F) * 2 ^ ((ea i : ℤ) - bias E) * ((1 + (fb i : ℚ) / 2 ^ F) * 2 ^ ((eb i : ℤ) - bias E)) =
      (m : ℚ) * 2 ^ (-(F : ℤ)) := by
    simp_rw [hval, hfr, hex]
    have A0 : (A : ℚ) ≠ 0 := by positivity
    have pw : ∀ k : ℕ, (2 : ℚ) ^ (-((F * k : ℕ) : ℤ)) = 1 / (A : ℚ) ^ k := by
      intro k; rw [zpow_neg, zpow_natCast, pow_mul, hAq, one_div]
    have x0 : (2 : ℚ) ^ (((biasN E + biasN E : ℕ) : ℤ) - 2 * bias E - 2 * F) = 1 / (A : ℚ) ^ 2 := by
      rw [← pw]; congr 1; push_cast; omega
    have x1 : (2 : ℚ) ^ (((biasN E + (biasN E - (2 * F + 1)) : ℕ) : ℤ) - 2 * bias E - 2 * F) = 1 / (2 * (A : ℚ) ^ 4) := by
      rw [show (((biasN E + (biasN E - (2 * F + 1)) : ℕ) : ℤ) - 2 * bias E - 2 * F) = -((F * 4 : ℕ) : ℤ) - 1 by omega,
        zpow_sub_one₀ (by norm_num), pw]; field_simp
    have x2 : (2 : ℚ) ^ (((biasN E - 2 * F + (biasN E - (2 * F + 1)) : ℕ) : ℤ) - 2 * bias E - 2 * F) = 1 / (2 * (A : ℚ) ^ 6) := by
      rw [show (((biasN E - 2 * F + (biasN E - (2 * F + 1)) : ℕ) : ℤ) - 2 * bias E - 2 * F) = -((F * 6 : ℕ) : ℤ) - 1 by omega,
        zpow_sub_one₀ (by norm_num), pw]; field_simp
    have x3 : (2 : ℚ) ^ (((biasN E - 3 * F + (biasN E - 3 * F) : ℕ) : ℤ) - 2 * bias E - 2 * F) = 1 / (A : ℚ) ^ 8 := by
      rw [← pw]; congr 1; omega
    have x4 : (2 : ℚ) ^ (-(F : ℤ)) = 1 / A := by have := pw 1; rwa [Nat.mul_one, pow_one] at this
    have hmq : ((A : ℚ) + 3) * (A + β) = A * m - 1 := by
      have : (((A + 3) * (A + β) + 1 : ℕ) : ℚ) = ((A * m : ℕ) : ℚ) := by rw [hA, hm]
      push_cast at this; linarith
    have hsub : ((2 ^ F - 2 : ℕ) : ℚ) = A - 2 := by rw [Nat.cast_sub (by omega)]; push_cast; rw [hAq]
    rw [Fin.sum_univ_four]
    show (((A + 3) * (A + β) : ℕ) : ℚ) * 2 ^ (((biasN E + biasN E : ℕ) : ℤ) - 2 * bias E - 2 * F) +
      (((A + 1) * (A + (2 ^ F - 2)) : ℕ) : ℚ) * 2 ^ (((biasN E + (biasN E - (2 * F + 1)) : ℕ) : ℤ) - 2 * bias E - 2 * F) +
      (((A + 1) * (A + (2 ^ F - 2)) : ℕ) : ℚ) * 2 ^ (((biasN E - 2 * F + (biasN E - (2 * F + 1)) : ℕ) : ℤ) - 2 * bias E - 2 * F) +
      (((A + 0) * (A + 0) : ℕ) : ℚ) * 2 ^ (((biasN E - 3 * F + (biasN E - 3 * F) : ℕ) : ℤ) - 2 * bias E - 2 * F) = _
    rw [x0, x1, x2, x3, x4, Nat.cast_mul (A + 3), Nat.cast_mul (A + 1), Nat.cast_add A (2 ^ F - 2), hsub]
    push_cast
    rw [hmq]
    field_simp
    ring
  -- truncated value
  have hN : ∑ i, dot4Term F (2 * biasN E) (dotFrac (a i) (b i)) (dotExp (a i) (b i)) + 1 = m * 2 ^ (5 * F - 1) := by
    simp_rw [hfr, hex]
    obtain ⟨B, hB⟩ : ∃ B, B = 2 ^ (2 * F - 1) := ⟨_, rfl⟩
    have e2 : 2 ^ (2 * F) = A * A := by rw [hA, two_mul, pow_add]
    have hBA : 2 * B = A * A := by rw [hB, ← pow_succ', show 2 * F - 1 + 1 = 2 * F by omega, e2]
    have hPQ : 2 ^ (4 * F - 1) = A * A * B := by rw [hB, ← e2, ← pow_add]; congr 1; omega
    have h5 : 2 ^ (5 * F - 1) = A * (A * A * B) := by rw [← hPQ, hA, ← pow_add]; congr 1; omega
    have h21 : 2 ^ (2 * F + 1) = 2 * (A * A) := by rw [pow_succ, e2]; ring
    have h41 : 2 ^ (4 * F + 1) = 2 * (A * A * (A * A)) := by rw [← e2, ← pow_add, ← pow_succ']; congr 1; ring
    have h60 : 2 ^ (6 * F) = A * A * (A * A * (A * A)) := by rw [← e2, ← pow_add, ← pow_add]; congr 1; ring
    have hB0 : 0 < B := by rw [hB]; positivity
    have hm' : (A + 3) * (A + β) = A * m - 1 := by rw [hA, ← hm]; rfl
    have hAm : 1 ≤ A * m := Nat.mul_pos (by omega) (by omega)
    have hp1 : (A + 1) * (A + (2 ^ F - 2)) = 2 * (2 * B - 1) := by
      obtain ⟨c, hc⟩ : ∃ c, A = c + 2 := ⟨A - 2, by omega⟩
      rw [← hA, hBA, hc, show c + 2 + (c + 2 - 2) = 2 * (c + 1) by omega,
        show (c + 2) * (c + 2) - 1 = (c + 1) * (c + 3) by
          have : (c + 2) * (c + 2) = (c + 1) * (c + 3) + 1 := by ring
          omega]
      ring
    rw [Fin.sum_univ_four]
    show dot4Term F (2 * biasN E) ((A + 3) * (A + β)) (biasN E + biasN E) +
      dot4Term F (2 * biasN E) ((A + 1) * (A + (2 ^ F - 2))) (biasN E + (biasN E - (2 * F + 1))) +
      dot4Term F (2 * biasN E) ((A + 1) * (A + (2 ^ F - 2))) (biasN E - 2 * F + (biasN E - (2 * F + 1))) +
      dot4Term F (2 * biasN E) ((A + 0) * (A + 0)) (biasN E - 3 * F + (biasN E - 3 * F)) + 1 = _
    unfold dot4Term
    rw [hP, show 2 * biasN E - (biasN E + biasN E) = 0 by omega,
      show 2 * biasN E - (biasN E + (biasN E - (2 * F + 1))) = 2 * F + 1 by omega,
      show 2 * biasN E - (biasN E - 2 * F + (biasN E - (2 * F + 1))) = 4 * F + 1 by omega,
      show 2 * biasN E - (biasN E - 3 * F + (biasN E - 3 * F)) = 6 * F by omega, hPQ, h21, h41, h60, h5, hm', hp1,
      pow_zero, Nat.div_one, Nat.add_zero A]
    have q1 : 2 * (2 * B - 1) * (A * A * B) / (2 * (A * A)) = (2 * B - 1) * B := by
      rw [show 2 * (2 * B - 1) * (A * A * B) = (2 * B - 1) * B * (2 * (A * A)) by ring]
      exact Nat.mul_div_cancel _ (by positivity)
    have q2 : 2 * (2 * B - 1) * (A * A * B) / (2 * (A * A * (A * A))) = B - 1 := by
      rw [show 2 * (2 * B - 1) * (A * A * B) = (2 * B - 1) * (2 * (A * A) * B) by ring,
        show 2 * (A * A * (A * A)) = 2 * (2 * (A * A) * B) by rw [← hBA]; ring]
      rw [Nat.mul_div_mul_right _ _ (by positivity)]
      omega
    have q3 : A * A * (A * A * B) / (A * A * (A * A * (A * A))) = 0 := by
      rw [← hBA]
      refine Nat.div_eq_of_lt ?_
      have : 0 < 2 * B * (2 * B) := by positivity
      nlinarith
    rw [q1, q2, q3]
    obtain ⟨d, hd⟩ : ∃ d, A * m = d + 1 := ⟨A * m - 1, by omega⟩
    obtain ⟨c, rfl⟩ : ∃ c, B = c + 1 := ⟨B - 1, by omega⟩
    rw [show m * (A * (A * A * (c + 1))) = (A * m) * (A * A * (c + 1)) by ring, hd, ← hBA, Nat.add_sub_cancel, Nat.add_sub_cancel,
      show 2 * (c + 1) - 1 = 2 * c + 1 by omega]
    ring
  intro hbad
  rw [hS] at hbad
  have g1 : ((2 * biasN E : ℕ) : ℤ) - 2 * bias E - 2 * F - dot4Pad F = -((6 * F - 1 : ℕ) : ℤ) := by rw [hP]; omega
  rw [g1] at h
  exact dot4_differs hE hF1 hm1 hm2 hN hbad (h _ rfl _ (le_refl _)
    (mul_lt_mul_of_pos_right (lt_add_one _) (two_zpow_pos _)))

-- The hypotheses hold for single and double precision.
example : 3 * ((23 : ℕ) : ℤ) ≤ bias 8 ∧ 3 * ((52 : ℕ) : ℤ) ≤ bias 11 := by decide

-- Non-vacuity: 1.5 * 1.25 + 1.75 * 1.75 = 4.9375 = 1.00111..b * 4 rounds down to 4.5 with three fraction bits.
example : dot2 (Fp.mk4 4 3 1 0 7 4) (Fp.mk4 4 3 1 0 7 6) (Fp.mk4 4 3 1 0 7 2) (Fp.mk4 4 3 1 0 7 6) =
    some (Fp.mk4 4 3 1 0 9 1) := by decide +kernel

example : dot4 (Fp.mk4 4 3 1 0 7 4) (Fp.mk4 4 3 1 0 7 6) (Fp.mk4 4 3 1 0 5 0) (Fp.mk4 4 3 1 0 7 1)
    (Fp.mk4 4 3 1 0 7 2) (Fp.mk4 4 3 1 0 7 6) (Fp.mk4 4 3 1 0 7 0) (Fp.mk4 4 3 1 0 8 1) =
    some (Fp.mk4 4 3 1 0 9 7) := by decide +kernel

end Thls
