import Verif.Props.OpTest
import Verif.Props.AddSharp
import Verif.Props.DotSharp

/-! # C78: exactly in which formats the test of the dual-path adder passes -/

namespace Thls
open Spec OpTest

theorem forAll_none {α : Type} {check : α → Option Bool} : ∀ {l : List α}, (∀ a ∈ l, check a = some true ∨ check a = none) →
    (∃ a ∈ l, check a = none) → OpTest.forAll check l = none
  | [], _, h => by simp at h
  | a :: l, h1, h2 => by
    rw [OpTest.forAll]
    rcases h1 a (by simp) with hb | hb
    · rw [hb, Option.bind_eq_bind, Option.bind_some, if_pos rfl]
      refine forAll_none (fun c hc => h1 c (by simp [hc])) ?_
      obtain ⟨c, hc, he⟩ := h2
      rcases List.mem_cons.mp hc with rfl | hc
      · rw [hb] at he; cases he
      · exact ⟨c, hc, he⟩
    · rw [hb]; rfl

theorem forAll_true_or_none {α : Type} {check : α → Option Bool} {l : List α} (h : ∀ a ∈ l, check a = some true ∨ check a = none) :
    OpTest.forAll check l = some true ∨ OpTest.forAll check l = none := by
  by_cases hn : ∃ a ∈ l, check a = none
  · exact .inr (forAll_none h hn)
  · push Not at hn
    exact .inl (forAll_iff.mpr fun a ha => (h a ha).resolve_right (hn a ha))

theorem forAll2_none {α β : Type} {check : α → β → Option Bool} {as : List α} {bs : List β}
    (h : ∀ a ∈ as, ∀ b ∈ bs, check a b = some true ∨ check a b = none) (hn : ∃ a ∈ as, ∃ b ∈ bs, check a b = none) :
    OpTest.forAll2 check as bs = none := by
  refine forAll_none (fun a ha => forAll_true_or_none (h a ha)) ?_
  obtain ⟨a, ha, hb⟩ := hn
  exact ⟨a, ha, forAll_none (h a ha) hb⟩

/-- One check of the test of the dual-path adder: undefined if the adder asserts, otherwise it succeeds exactly if the sum of two numbers
is correctly rounded. -/
theorem addDual_check {E F : ℕ} (hE : 3 < E) (hF : 1 ≤ F) (a b : Fp E F) :
    (AddDual.addSame a b = none → checkEquals (refAdd E F a b) (AddDual.addSame a b) = none) ∧
    ∀ r, AddDual.addSame a b = some r → ∃ ok, checkEquals (refAdd E F a b) (AddDual.addSame a b) = some ok ∧
      (ok = true ↔ ∀ p q, a.datum = .num p → b.datum = .num q → AddsTo E F p q r.datum) := by
  obtain ⟨r', hr', hd'⟩ := C53_ref_add (ER := E) (FR := F) (by omega) hF a b
  constructor
  · intro h
    simp [checkEquals, h]
  · intro r hr
    refine ⟨r'.equals r, by simp [checkEquals, hr, hr'], ?_⟩
    rw [C07_equals_iff_same_datum (by omega) hF]
    constructor
    · intro h p q hp hq
      rw [← h]
      rw [hp, hq] at hd'
      exact hd'
    · intro h
      have := delivers_equals (by omega) hF (exactAdd_delivers (by omega) hF
        (fun d hd => AddDual.addSame_special_some (by omega) hF hd hr) h) hd'
      rw [C07_equals_iff_same_datum (by omega) hF] at this
      exact this.symm

/-- **C78, exactly.** The test of the dual-path adder passes exactly in the formats in which the adder is correct (C14), whatever number
of inputs is asked for and whatever the draws: the fixed inputs contain a pair that fails an assertion in every format in which some pair
does, and a pair whose sum is wrong in every format in which some sum is. In the first case the program aborts, in the second it reports
the failure. -/
theorem C78_test_add_dual_iff {E F : ℕ} (hE : 3 < E) (hF : 4 ≤ F) (hF2 : F + 6 < 1024) (hfit : F + 2 < 2 ^ (E + 2)) (n : ℕ)
    (draws : ℕ → ℕ × ℕ) :
    (testAddDual E F n draws = some true ↔ DualFormat E F ∧ F ≤ 2 ^ (E + 1)) ∧
    (testAddDual E F n draws = some false ↔ 2 ^ (E + 1) < F) ∧
    (testAddDual E F n draws = none ↔ ¬ DualFormat E F) := by
  have hF1 : 1 ≤ F := by omega
  obtain ⟨l, hl⟩ := (C77_inputs_exist_iff (E := E) (F := F) (by omega) hF1 n draws).mpr ⟨by omega, by omega⟩
  have hmem : ∀ d, TestOperand E F d → ∃ x ∈ l, x.datum = d := by
    intro d hd
    obtain ⟨x, hx, h⟩ := (C77_inputs_contents (by omega) hF hF2 n draws l hl d).mpr hd
    exact ⟨x, List.mem_of_mem_take hx, h⟩
  have hrun : testAddDual E F n draws = forAll2 (fun a b => checkEquals (refAdd E F a b) (AddDual.addSame a b)) l l := by
    simp only [testAddDual, hl, Option.bind_eq_bind, Option.bind_some]
  have hb := two_bias (E := E) (by omega)
  have hpE : 2 ^ (E + 1) = 2 * 2 ^ E := by rw [pow_succ]; ring
  have nd : ¬ DualFormat E F → F + 3 < 2 ^ E ∧ 2 * (F + 3) ≤ 2 ^ E := by
    intro h
    unfold DualFormat AddDual.ShiftOk at h
    push Not at h
    obtain ⟨k, hk, h1, -⟩ := h
    have : 2 ^ (k + 1) ≤ 2 ^ E := Nat.pow_le_pow_right (by norm_num) (by omega)
    rw [pow_succ] at this
    omega
  have hret : ∀ a b : Fp E F, DualFormat E F → ∃ r, AddDual.addSame a b = some r := fun a b hd =>
    Option.isSome_iff_exists.mp ((C19_add_dual_never_asserts_iff hE hF1).mpr hd a b)
  have hgood : F ≤ 2 ^ (E + 1) → ∀ (a b r : Fp E F), AddDual.addSame a b = some r → ∀ p q, a.datum = .num p → b.datum = .num q →
      AddsTo E F p q r.datum := by
    intro h a b r hr p q hp hq
    rw [addsTo_sharp hE hF1 hfit hp hq hr]
    by_cases hz : p + q = 0
    · exact .inl hz
    · right
      refine le_trans (zpow_le_zpow_right₀ (by norm_num) ?_) (AddDual.sum_ge hp hq hz)
      have : (F : ℤ) ≤ 2 ^ (E + 1) := by exact_mod_cast h
      omega
  have c1 : DualFormat E F ∧ F ≤ 2 ^ (E + 1) → testAddDual E F n draws = some true := fun h =>
    C78_test_add_dual_passes_partial hE hF1 h.1 h.2 n draws
  have c2 : 2 ^ (E + 1) < F → testAddDual E F n draws = some false := by
    intro h
    have hD : DualFormat E F := by
      by_contra hc
      have := nd hc
      omega
    rw [hrun]
    refine forAll2_false ?_ ?_
    · intro a _ b _
      obtain ⟨r, hr⟩ := hret a b hD
      obtain ⟨ok, hk, -⟩ := (addDual_check hE hF1 a b).2 r hr
      exact ⟨ok, hk⟩
    · obtain ⟨x, hx, dx⟩ := hmem (.num ((1 + (1 : ℕ) / 2 ^ F) * 2 ^ (-bias E)))
        (.inr (.inr (.inl ⟨1, le_rfl, by norm_num, .inr (.inr (.inr (.inl (.inl rfl))))⟩)))
      obtain ⟨y, hy, dy⟩ := hmem (.num (-2 ^ (-bias E))) (.inr (.inr (.inr (.inl (.inr rfl)))))
      refine ⟨x, hx, y, hy, ?_⟩
      obtain ⟨r, hr⟩ := hret x y hD
      obtain ⟨ok, hk, hiff⟩ := (addDual_check hE hF1 x y).2 r hr
      rw [hk]
      congr 1
      rw [Bool.eq_false_iff]
      intro hok
      have := (addsTo_sharp hE hF1 hfit dx dy hr).mp (hiff.mp hok _ _ dx dy)
      have hs : (1 + ((1 : ℕ) : ℚ) / 2 ^ F) * 2 ^ (-bias E) + -2 ^ (-bias E) = 2 ^ (-bias E - F) := by
        rw [zpow_sub₀ (by norm_num), zpow_natCast]
        push_cast
        ring
      rw [hs, abs_of_pos (two_zpow_pos _), zpow_le_zpow_iff_right₀ (by norm_num)] at this
      rcases this with h0 | h0
      · exact absurd h0 (two_zpow_pos _).ne'
      · have : ((2 ^ (E + 1) : ℕ) : ℤ) < F := by exact_mod_cast h
        push_cast at this
        omega
  have c3 : ¬ DualFormat E F → testAddDual E F n draws = none := by
    intro h
    have h3 := nd h
    have h4 : (2 * (F + 3) : ℤ) ≤ 2 ^ E := by exact_mod_cast h3.2
    rw [hrun]
    refine forAll2_none ?_ ?_
    · intro a _ b _
      cases hr : AddDual.addSame a b with
      | none => exact .inr (hr ▸ (addDual_check hE hF1 a b).1 hr)
      | some r =>
        obtain ⟨ok, hk, hiff⟩ := (addDual_check hE hF1 a b).2 r hr
        left
        rw [← hr, hk, hiff.mpr (hgood (by omega) a b r hr)]
    · obtain ⟨x, hx, dx⟩ := hmem (.num (2 ^ (F + 2 : ℤ))) (.inr (.inr (.inr (.inr (.inr
        ⟨F + 2, by omega, by omega, by omega, by omega, .inl rfl⟩)))))
      obtain ⟨y, hy, dy⟩ := hmem (.num (2 ^ (-(F + 2) : ℤ))) (.inr (.inr (.inr (.inr (.inr
        ⟨-(F + 2), by omega, by omega, by omega, by omega, .inl rfl⟩)))))
      refine ⟨x, hx, y, hy, (addDual_check hE hF1 x y).1 ?_⟩
      rw [C19_add_dual_asserts_iff hE hF1 x y _ _ dx dy]
      have ex := log_datum hF1 dx (two_zpow_pos _)
      have ey := log_datum hF1 dy (two_zpow_pos _)
      have lg : ∀ z : ℤ, Int.log 2 ((2 : ℚ) ^ z) = z := fun z => by
        have := Int.log_zpow (R := ℚ) (b := 2) (by norm_num) z
        exact_mod_cast this
      rw [lg] at ex ey
      refine ⟨h, .inl ?_⟩
      rw [show (x.exp : ℤ) - y.exp = 2 * F + 4 by omega, abs_of_nonneg (by omega)]
  have alt : ∀ b : Option Bool, (b = some true ∨ b = some false ∨ b = none) := by
    rintro (_ | _ | _) <;> simp
  by_cases hD : DualFormat E F
  · by_cases h : F ≤ 2 ^ (E + 1)
    · rw [c1 ⟨hD, h⟩]
      simp [hD, h]
    · push Not at h
      rw [c2 h]
      simp [hD, h]
  · have := nd hD
    rw [c3 hD]
    simp [hD]
    omega

/-- Single precision passes; with 61 fraction bits the adder asserts, and with 4 exponent and 40 fraction bits a wrong sum is found. -/
example (n : ℕ) (draws : ℕ → ℕ × ℕ) : testAddDual 8 23 n draws = some true ∧ testAddDual 8 61 n draws = none ∧
    testAddDual 4 40 n draws = some false := by
  refine ⟨((C78_test_add_dual_iff (by norm_num) (by norm_num) (by norm_num) (by norm_num) n draws).1).mpr ⟨?_, by norm_num⟩,
    ((C78_test_add_dual_iff (by norm_num) (by norm_num) (by norm_num) (by norm_num) n draws).2.2).mpr ?_,
    ((C78_test_add_dual_iff (by norm_num) (by norm_num) (by norm_num) (by norm_num) n draws).2.1).mpr (by norm_num)⟩
  · intro k hk
    exfalso
    have h1 : 2 ^ 4 < 2 ^ k := by omega
    have h2 : 2 ^ k < 2 ^ 5 := by omega
    rw [Nat.pow_lt_pow_iff_right (by norm_num)] at h1 h2
    omega
  · intro h
    have := h 6 (by norm_num)
    omega

end Thls
