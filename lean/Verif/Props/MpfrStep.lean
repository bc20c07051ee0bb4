import Verif.Proofs.OpCheck

/-! # C78: the model of MPFR's stepping functions is what MPFR documents -/

namespace Thls
open Spec OpTest

namespace Mpfr

/-- A number of precision `F+1` in the exponent range of MPFR (or one of the special values). -/
def InRange (F : ℕ) : Mpfr → Prop
  | .num _ m e => IsSig (F + 1) m ∧ emin ≤ e + F + 1 ∧ e + F + 1 ≤ emax
  | _ => True

/-- Position of a number in the order. -/
def rank (F : ℕ) : Mpfr → ℤ
  | .nan => 0
  | .inf s => (if s then -1 else 1) * ((emax - F) * 2 ^ F - (emin - F - 1) * 2 ^ F + 1)
  | .zero _ => 0
  | .num s m e => (if s then -1 else 1) * (e * 2 ^ F + ((m : ℤ) - 2 ^ F) - (emin - F - 1) * 2 ^ F + 1)

theorem rank_at (s : Bool) (F : ℕ) (k : ℤ) : rank F (at_ s F k) = (if s then -1 else 1) * (k - (emin - F - 1) * 2 ^ F + 1) := by
  have hp : (0 : ℤ) < 2 ^ F := by positivity
  have h0 := Int.emod_nonneg k hp.ne'
  have h1 := Int.mul_ediv_add_emod k (2 ^ F)
  simp only [at_, rank]
  congr 1
  push_cast
  rw [Int.toNat_of_nonneg h0]
  linarith [mul_comm (k / 2 ^ F) (2 ^ F)]

theorem inRange_at (s : Bool) {F : ℕ} {k : ℤ} : InRange F (at_ s F k) ↔ (emin - F - 1) * 2 ^ F ≤ k ∧ k < (emax - F) * 2 ^ F := by
  have hp : (0 : ℤ) < 2 ^ F := by positivity
  have hs := isSig_at F k
  have a := Int.le_ediv_iff_mul_le (a := emin - F - 1) (b := k) hp
  have b := Int.ediv_lt_iff_lt_mul (a := k) (b := emax - F) hp
  simp only [at_, InRange, hs, true_and]
  rw [← a, ← b]
  omega

theorem inRange_cases {F : ℕ} {x : Mpfr} (h : InRange F x) :
    x = .nan ∨ (∃ s, x = .inf s) ∨ (∃ s, x = .zero s) ∨ ∃ s k, x = at_ s F k ∧ (emin - F - 1) * 2 ^ F ≤ k ∧ k < (emax - F) * 2 ^ F := by
  cases x with
  | nan => exact Or.inl rfl
  | inf s => exact Or.inr (Or.inl ⟨s, rfl⟩)
  | zero s => exact Or.inr (Or.inr (Or.inl ⟨s, rfl⟩))
  | num s m e =>
    refine Or.inr (Or.inr (Or.inr ⟨s, _, eq_at s e h.1, ?_⟩))
    rw [eq_at s e h.1, inRange_at] at h
    exact h

theorem signed_lt (s t : Bool) (F : ℕ) (a b : ℤ) :
    (if s then (-1 : ℚ) else 1) * V F a < (if t then -1 else 1) * V F b ↔ (s = true ∧ t = false) ∨ (s = false ∧ t = false ∧ a < b) ∨ (s = true ∧ t = true ∧ b < a) := by
  have p := V_pos F a
  have q := V_pos F b
  have hi := (V_strictMono F).lt_iff_lt (a := a) (b := b)
  have hj := (V_strictMono F).lt_iff_lt (a := b) (b := a)
  cases s <;> cases t <;> simp
  · exact hi
  · linarith
  · linarith
  · exact hj

theorem lt_iff_rank {F : ℕ} {x y : Mpfr} (hx : InRange F x) (hy : InRange F y) (nx : x ≠ .nan) (ny : y ≠ .nan) :
    x.datum.Lt y.datum ↔ rank F x < rank F y := by
  have hAB : (emin - F - 1) * 2 ^ F < (emax - F) * 2 ^ F := by
    apply mul_lt_mul_of_pos_right _ (by positivity)
    unfold emin emax; omega
  rcases inRange_cases hx with rfl | ⟨s, rfl⟩ | ⟨s, rfl⟩ | ⟨s, a, rfl, ha⟩
  · exact absurd rfl nx
  all_goals
    rcases inRange_cases hy with rfl | ⟨t, rfl⟩ | ⟨t, rfl⟩ | ⟨t, b, rfl, hb⟩
  any_goals exact absurd rfl ny
  all_goals
    try simp only [at_datum, rank_at]
    try simp only [rank]
    generalize (emin - F - 1) * 2 ^ F = A at *
    generalize (emax - F) * 2 ^ F = B at *
  · cases s <;> cases t <;> simp [datum, Datum.Lt] <;> omega
  · cases s <;> simp [datum, Datum.Lt] <;> omega
  · cases s <;> cases t <;> simp [datum, Datum.Lt] <;> omega
  · cases t <;> simp [datum, Datum.Lt] <;> omega
  · simp [datum, Datum.Lt]
  · have q := V_pos F b
    cases t <;> simp [datum, Datum.Lt] <;> first | omega | (constructor <;> intro <;> first | omega | linarith)
  · cases s <;> cases t <;> simp [datum, Datum.Lt] <;> omega
  · have q := V_pos F a
    cases s <;> simp [datum, Datum.Lt] <;> first | omega | (constructor <;> intro <;> first | omega | linarith)
  · have := signed_lt s t F a b
    simp only [Datum.Lt]
    rw [this]
    cases s <;> cases t <;> simp <;> omega

theorem nextAbove_at_top {F : ℕ} {k : ℤ} (h : emax < (k + 1) / 2 ^ F + F + 1) :
    nextAbove (F + 1) (at_ false F k) = .inf false := by
  obtain ⟨c, i, hi, rfl, -⟩ := index_split F k
  have hs := succSig_at c hi
  have h2 : (succSig (F + 1) (2 ^ F + i) c).2 = (c * 2 ^ F + i + 1) / 2 ^ F := by
    rw [at_] at hs; exact (Mpfr.num.inj hs).2.2
  rw [at_eq _ c hi]
  simp only [nextAbove]
  rw [if_pos]
  rw [h2]; push_cast; omega

theorem nextAbove_at_bottom {F : ℕ} {k : ℤ} (h : (k - 1) / 2 ^ F + F + 1 < emin) :
    nextAbove (F + 1) (at_ true F k) = .zero true := by
  obtain ⟨c, i, hi, rfl, -⟩ := index_split F k
  have hs := predSig_at c hi
  have h2 : (predSig (F + 1) (2 ^ F + i) c).2 = (c * 2 ^ F + i - 1) / 2 ^ F := by
    rw [at_] at hs; exact (Mpfr.num.inj hs).2.2
  rw [at_eq _ c hi]
  simp only [nextAbove]
  rw [if_pos]
  rw [h2]; push_cast; omega

theorem nextAbove_rank {F : ℕ} {x : Mpfr} (hx : InRange F x) (nx : x ≠ .nan) (hi : x ≠ .inf false) :
    InRange F (nextAbove (F + 1) x) ∧ nextAbove (F + 1) x ≠ .nan ∧ rank F (nextAbove (F + 1) x) = rank F x + 1 := by
  have hp : (0 : ℤ) < 2 ^ F := by positivity
  have hAB : (emin - F - 1) * 2 ^ F < (emax - F) * 2 ^ F := by
    apply mul_lt_mul_of_pos_right _ (by positivity)
    unfold emin emax; omega
  rcases inRange_cases hx with rfl | ⟨s, rfl⟩ | ⟨s, rfl⟩ | ⟨s, k, rfl, ha⟩
  · exact absurd rfl nx
  · cases s
    · exact absurd rfl hi
    · have : nextAbove (F + 1) (.inf true) = at_ true F ((emax - F) * 2 ^ F - 1) := by
        have h := at_eq true (F := F) (i := 2 ^ F - 1) (emax - F - 1) (by have : 0 < 2 ^ F := by positivity
                                                                          omega)
        have h1 : 1 ≤ 2 ^ F := Nat.one_le_two_pow
        rw [show (emax - F - 1) * 2 ^ F + ((2 ^ F - 1 : ℕ) : ℤ) = (emax - F) * 2 ^ F - 1 by push_cast [h1]; ring] at h
        have h2 : 2 ^ (F + 1) - 1 = 2 ^ F + (2 ^ F - 1) := by rw [pow_succ]; omega
        rw [h, nextAbove, h2, show emax - ((F + 1 : ℕ) : ℤ) = emax - F - 1 by push_cast; ring]
      rw [this]
      refine ⟨(inRange_at _).2 ⟨by omega, by omega⟩, by simp [at_], ?_⟩
      rw [rank_at]
      simp only [rank, if_true]
      ring
  · have : nextAbove (F + 1) (.zero s) = at_ false F ((emin - F - 1) * 2 ^ F) := by
      have h := at_eq false (F := F) (i := 0) (emin - F - 1) (by positivity)
      rw [Nat.cast_zero, add_zero, add_zero] at h
      rw [h, nextAbove, Nat.add_sub_cancel]
      congr 1
      push_cast; ring
    rw [this]
    refine ⟨(inRange_at _).2 ⟨by omega, by omega⟩, by simp [at_], ?_⟩
    rw [rank_at]
    simp [rank]
  · have a := Int.le_ediv_iff_mul_le (a := emin - F - 1) (b := k - 1) hp
    have b := Int.ediv_lt_iff_lt_mul (a := k + 1) (b := emax - F) hp
    cases s
    · by_cases h : k + 1 < (emax - F) * 2 ^ F
      · rw [nextAbove_at (by have := b.2 h; omega)]
        refine ⟨(inRange_at _).2 ⟨by omega, by omega⟩, by simp [at_], ?_⟩
        rw [rank_at, rank_at]; simp only [Bool.false_eq_true, if_false]; ring
      · rw [nextAbove_at_top (by
          by_contra hc
          exact h (b.1 (by omega)))]
        refine ⟨trivial, by simp, ?_⟩
        rw [rank_at]
        simp only [rank, Bool.false_eq_true, if_false]
        omega
    · by_cases h : (emin - F - 1) * 2 ^ F ≤ k - 1
      · rw [nextAbove_at_neg (by have := a.2 h; omega)]
        refine ⟨(inRange_at _).2 ⟨by omega, by omega⟩, by simp [at_], ?_⟩
        rw [rank_at, rank_at]; simp only [if_true]; ring
      · rw [nextAbove_at_bottom (by
          by_contra hc
          exact h (a.1 (by omega)))]
        refine ⟨trivial, by simp, ?_⟩
        rw [rank_at]
        simp only [rank, if_true]
        omega

end Mpfr

/-- **C78.** In the model `mpfr_nextabove` gives the next number above: it is in range and greater, and no number in range lies between. -/
theorem C78_mpfr_nextabove {F : ℕ} {x : Mpfr} (hx : x.InRange F) (nx : x ≠ .nan) (hi : x ≠ .inf false) :
    (Mpfr.nextAbove (F + 1) x).InRange F ∧ x.datum.Lt (Mpfr.nextAbove (F + 1) x).datum ∧
      ∀ y : Mpfr, y.InRange F → ¬ (x.datum.Lt y.datum ∧ y.datum.Lt (Mpfr.nextAbove (F + 1) x).datum) := by
  obtain ⟨h1, h2, h3⟩ := Mpfr.nextAbove_rank hx nx hi
  refine ⟨h1, (Mpfr.lt_iff_rank hx h1 nx h2).2 (by omega), ?_⟩
  rintro y hy ⟨a, b⟩
  by_cases ny : y = .nan
  · subst ny; cases hd : x.datum <;> rw [hd] at a <;> simp [Mpfr.datum, Datum.Lt] at a
  rw [Mpfr.lt_iff_rank hx hy nx ny] at a
  rw [Mpfr.lt_iff_rank hy h1 ny h2] at b
  omega

/-- **C78.** +infinity and NaN stay. -/
theorem C78_mpfr_nextabove_special (p : ℕ) :
    Mpfr.nextAbove p (.inf false) = .inf false ∧ Mpfr.nextBelow p (.inf true) = .inf true ∧ Mpfr.nextAbove p .nan = .nan ∧
      Mpfr.nextBelow p .nan = .nan := ⟨rfl, rfl, rfl, rfl⟩

/-- **C78.** Steps across the zeros keep the sign of the number stepped from, as the IEEE standard asks. -/
theorem C78_mpfr_step_to_zero (F : ℕ) :
    Mpfr.nextAbove (F + 1) (Mpfr.nextBelow (F + 1) (.zero false)) = .zero true ∧
    Mpfr.nextBelow (F + 1) (Mpfr.nextAbove (F + 1) (.zero false)) = .zero false := by
  have : Mpfr.nextAbove (F + 1) (.num true (2 ^ F) (Mpfr.emin - (F + 1 : ℕ))) = .zero true := by
    simp only [Mpfr.nextAbove, Mpfr.predSig, Nat.add_sub_cancel, if_true]
    rw [if_pos (by omega)]
  constructor
  · simpa [Mpfr.nextBelow, Mpfr.nextAbove, Mpfr.flip] using this
  · simp only [Mpfr.nextBelow, Mpfr.nextAbove, Mpfr.flip, Mpfr.predSig, Nat.add_sub_cancel, Bool.not_false, if_true]
    rw [if_pos (by omega)]
    rfl

example : (Mpfr.num true 12 (-3)).InRange 3 ∧ Mpfr.nextAbove 4 (.num true 8 (-3)) = .num true 15 (-4) := by
  refine ⟨⟨⟨by norm_num, by norm_num⟩, by unfold Mpfr.emin; norm_num, by unfold Mpfr.emax; norm_num⟩, by decide +kernel⟩

end Thls
