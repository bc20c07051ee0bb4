import Verif.Props.RefAgree
import Verif.Props.AddSingleEdge
import Verif.Props.MonoMore

/-! # Property C54: exactly when the adders, `convert` and `neg` agree with their references -/

namespace Thls
open Spec

/-- A datum that obeys the table of exceptional sums agrees with the reference sum exactly if it is the rounded sum of two numbers. -/
theorem ref_add_agrees_iff {E F EX FX EY FY : ℕ} (hE : 1 ≤ E) (hF : 1 ≤ F) (x : Fp EX FX) (y : Fp EY FY) (r : Fp E F)
    (hs : ∀ d, addSpecial x.datum y.datum = some d → r.datum = d) :
    ∃ r' : Fp E F, refAdd E F x y = some r' ∧
      (r.equals r' = true ↔ ∀ p q, x.datum = .num p → y.datum = .num q → AddsTo E F p q r.datum) := by
  obtain ⟨r', hr', hd'⟩ := C53_ref_add (ER := E) (FR := F) hE hF x y
  refine ⟨r', hr', ?_, fun h => delivers_equals hE hF (exactAdd_delivers hE hF hs h) hd'⟩
  intro h p q hp hq
  rw [C07_equals_iff_same_datum hE hF] at h
  rw [h]
  rw [hp, hq] at hd'
  exact hd'

section
variable {wEX wFX wEY wFY : ℕ} (hEX : 1 ≤ wEX) (hFX : 1 ≤ wFX) (hEY : 1 ≤ wEY) (hFY : 1 ≤ wFY)
include hEX hFX hEY hFY

/-- **C54, the dual-path adder, exactly.** For every pair of formats for which it compiles and every pair of encodings for which it
returns, the sum equals that of `ref_add` exactly unless the operands are numbers whose nonzero sum is below
`2^(1 - 2^(E-1) - 2^(E+1))`. -/
theorem C54_add_agrees_iff (hE : 3 < max wEX wEY) (hfit : max wFX wFY + 2 < 2 ^ (max wEX wEY + 2)) (x : Fp wEX wFX) (y : Fp wEY wFY)
    (r : Fp (max wEX wEY) (max wFX wFY)) (hr : AddDual.add x y = some r) :
    ∃ r', refAdd (max wEX wEY) (max wFX wFY) x y = some r' ∧
      (r.equals r' = true ↔ ∀ vx vy, x.datum = .num vx → y.datum = .num vy →
        vx + vy = 0 ∨ (2 : ℚ) ^ (-bias (max wEX wEY) - 2 ^ (max wEX wEY + 1)) ≤ |vx + vy|) := by
  obtain ⟨r', hr', h⟩ := ref_add_agrees_iff (by omega) (by omega) x y r
    (fun d hd => C17_add_dual_exceptions_returned hEX hFX hEY hFY hE x y r d hd hr)
  refine ⟨r', hr', h.trans ?_⟩
  constructor <;> intro H vx vy hx hy
  · exact (C14_add_correct_operands_iff hEX hFX hEY hFY hE hfit x y r vx vy hx hy hr).mp (H vx vy hx hy)
  · exact (C14_add_correct_operands_iff hEX hFX hEY hFY hE hfit x y r vx vy hx hy hr).mpr (H vx vy hx hy)

/-- **C54, the single-path adders (versions 1, 2 and 5), exactly.** For all formats and every pair of encodings for which they return, the
sum equals that of `ref_add` exactly unless the operands are numbers in the clamp case of a format with `F+3 < 2^(E-1)`. -/
theorem C54_add_single_agrees_iff (x : Fp wEX wFX) (y : Fp wEY wFY) (r : Fp (max wEX wEY) (max wFX wFY))
    (hr : AddSingle.add x y = some r ∨ AddSingle.addV5 x y = some r) :
    ∃ r', refAdd (max wEX wEY) (max wFX wFY) x y = some r' ∧
      (r.equals r' = true ↔ ¬ ∃ vx vy, x.datum = .num vx ∧ y.datum = .num vy ∧ max wFX wFY + 3 < 2 ^ (max wEX wEY - 1) ∧
        (ClampCase (max wFX wFY) vx vy ∨ ClampCase (max wFX wFY) vy vx)) := by
  obtain ⟨r', hr', h⟩ := ref_add_agrees_iff (by omega) (by omega) x y r (fun d hd => by
    obtain ⟨h1, h2⟩ := C17_add_single_exceptions_returned hEX hFX hEY hFY x y d hd
    exact hr.elim (h1 r) (h2 r))
  refine ⟨r', hr', h.trans ?_⟩
  push Not
  have fwd : ∀ vx vy, x.datum = .num vx → y.datum = .num vy → AddsTo (max wEX wEY) (max wFX wFY) vx vy r.datum →
      max wFX wFY + 3 < 2 ^ (max wEX wEY - 1) → ¬ ClampCase (max wFX wFY) vx vy ∧ ¬ ClampCase (max wFX wFY) vy vx := by
    intro vx vy hx hy H hf
    have := hr.elim
      (fun hr => ((C15_add_single_correct_all_iff hEX hFX hEY hFY x y vx vy hx hy).mp ⟨r, hr, H⟩).2.1)
      (fun hr => ((C15_add_single_v5_correct_all_iff hEX hFX hEY hFY x y vx vy hx hy).mp ⟨r, hr, H⟩).2.1)
    exact ⟨fun c => this ⟨hf, .inl c⟩, fun c => this ⟨hf, .inr c⟩⟩
  constructor
  · exact fun H vx vy hx hy => fwd vx vy hx hy (H vx vy hx hy)
  · intro H vx vy hx hy
    have hx' : (promote (max wEX wEY) (max wFX wFY) x).datum = .num vx := by rw [promote_datum hEX hFX (by omega) (by omega), hx]
    have hy' : (promote (max wEX wEY) (max wFX wFY) y).datum = .num vy := by rw [promote_datum hEY hFY (by omega) (by omega), hy]
    have core : ∀ {res}, AddSingle.Orders (lzoc? (max wFX wFY + 5) (intlog2 (max wFX wFY + 5)))
        (promote (max wEX wEY) (max wFX wFY) x) (promote (max wEX wEY) (max wFX wFY) y) res → res = some r →
        AddsTo (max wEX wEY) (max wFX wFY) vx vy r.datum := by
      intro res ho hres
      have hov : ¬ Overshifts (promote (max wEX wEY) (max wFX wFY) x) (promote (max wEX wEY) (max wFX wFY) y) := by
        intro hO
        rw [(orders_none_iff (AddSingle.lzoc_normalises _) (by omega) (by omega) ho).mpr hO] at hres
        cases hres
      rw [overshifts_num (by omega) (by omega) hx' hy'] at hov
      push Not at hov
      obtain ⟨s, hs, h⟩ := (orders_correct_all_iff (AddSingle.lzoc_normalises _) (by omega) (by omega) ho hx' hy').mpr
        ⟨hov.1, fun c => c.2.elim (H vx vy hx hy c.1).1 (H vx vy hx hy c.1).2, fun c => absurd (hov.2 c.1) (not_lt.mpr c.2)⟩
      rw [hres] at hs
      rw [Option.some.inj hs]; exact h
    exact hr.elim (core (AddSingle.addSame_orders (by omega) (by omega) _ _)) (core (AddSingle.addV5_orders hEX hFX hEY hFY x y))

end

/-- **C54, `convert`, exactly.** The conversion equals that of `ref_convert` exactly unless the operand is a zero or a NaN, the exponent
widths are equal, the fraction is narrowed and the don't-care bits round up over the top of the format. -/
theorem C54_convert_agrees_iff {ER FR EX FX : ℕ} (hER : 1 ≤ ER) (hFR : 1 ≤ FR) (hEX : 1 ≤ EX) (hFX : 1 ≤ FX) (x : Fp EX FX) :
    ∃ r', refConvert ER FR x = some r' ∧ ((convert ER FR x).equals r' = true ↔
      ¬ ((x.flags = 0 ∨ x.flags = 3) ∧ ER = EX ∧ FR < FX ∧ x.exp = 2 ^ EX - 1 ∧ 2 ^ FX - 2 ^ (FX - FR - 1) ≤ x.frac)) := by
  obtain ⟨-, -, ⟨r', hr', hd'⟩, -⟩ := C53_ref_unary hER hFR x 0
  refine ⟨r', hr', ?_⟩
  by_cases hnum : ∃ v, x.datum = .num v
  · obtain ⟨v, hv⟩ := hnum
    have h1 := (datum_num_iff.mp hv).1
    refine ⟨fun _ c => by omega, fun _ => delivers_equals hER hFR ?_ hd'⟩
    rw [hv]
    change if v = 0 then _ else _
    rw [if_neg (num_ne_zero hv)]
    exact convert_rounded hER hFR hEX hFX x v hv
  · push Not at hnum
    have hr : r'.datum = x.datum := by
      revert hd' hnum
      rcases x.datum with _ | s | s | q
      · exact fun h _ => h
      · exact fun h _ => h
      · exact fun h _ => h
      · exact fun _ h => absurd rfl (h q)
    rw [C07_equals_iff_same_datum hER hFR, hr, C24_convert_special_iff hER hFR hEX hFX x hnum]
    refine not_congr (and_congr ?_ Iff.rfl)
    rcases flags_cases x with f | f | f | f
    · simp [datum_flags0 x f, f]
    · exact absurd (datum_normal x f) (hnum _)
    · simp [datum_flags2 x f, f]
    · simp [datum_flags3 x f, f]

/-- **C54, `neg`, exactly**: the same condition. -/
theorem C54_neg_agrees_iff {ER FR EX FX : ℕ} (hER : 1 ≤ ER) (hFR : 1 ≤ FR) (hEX : 1 ≤ EX) (hFX : 1 ≤ FX) (x : Fp EX FX) :
    ∃ r', refNeg ER FR x = some r' ∧ ((negV1 ER FR x).equals r' = true ↔
      ¬ ((x.flags = 0 ∨ x.flags = 3) ∧ ER = EX ∧ FR < FX ∧ x.exp = 2 ^ EX - 1 ∧ 2 ^ FX - 2 ^ (FX - FR - 1) ≤ x.frac)) := by
  obtain ⟨-, ⟨r', hr', hd'⟩, -⟩ := C53_ref_unary hER hFR x 0
  obtain ⟨r2, hr2, h2⟩ := C54_convert_agrees_iff hER hFR hEX hFX (flipSign x)
  obtain ⟨-, -, ⟨r3, hr3, hd3⟩, -⟩ := C53_ref_unary hER hFR (flipSign x) 0
  obtain rfl : r3 = r2 := by rw [hr2] at hr3; injection hr3 with h; exact h.symm
  obtain ⟨f1, -, f3, f4⟩ := flipSign_fields hEX hFX x
  rw [f1, f3, f4] at h2
  refine ⟨r', hr', ?_⟩
  rw [← h2]
  have hfd : (flipSign x).datum = x.datum.neg := by rw [← negV1_same hEX hFX, C27_neg_datum hEX hFX]
  rw [hfd] at hd3
  rw [C07_equals_iff_same_datum hER hFR, C07_equals_iff_same_datum hER hFR, delivers_unique hd' hd3]
  rfl

/-- A zero with all don't-care bits set, for which `convert` and `ref_convert` differ, and one for which they agree. -/
example : (convert 4 3 (Fp.mk4 4 6 0 0 15 63)).isZero = false ∧ (convert 4 3 (Fp.mk4 4 6 0 0 15 3)).isZero = true := by decide

end Thls
