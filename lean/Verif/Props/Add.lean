import Verif.Proofs.AddDual
import Verif.Proofs.AddVariants
import Verif.Props.Convert
import Verif.Props.Flopoco

/-! # Properties C14-C19: addition, C27 (sum with the negation) and C34 (leading-zero counter)

Formats: `max wEX wEY` exponent bits and `max wFX wFY` fraction bits are the result format of every adder. -/

namespace Thls
open Spec

/-! ## The specification side -/

/-- What an adder has to return for two normal numbers: their sum rounded to nearest even, `+0` when it is
exactly zero. -/
def AddsTo (E F : ℕ) (vx vy : ℚ) (d : Datum) : Prop :=
  if vx + vy = 0 then d = .zero false else Rounded E F (vx + vy) d

/-- The operands for which the single-path adder is wrong: the larger one is a power of two `±2^k`, the smaller
one has the opposite sign and a magnitude strictly between `2^(k-F-2)` and `2^(k-F-1)` (the halfway point
between `2^k` and its predecessor, and the end of that binade). -/
def ClampCase (F : ℕ) (a b : ℚ) : Prop :=
  a * b < 0 ∧ ∃ k : ℤ, |a| = 2 ^ k ∧ (2 : ℚ) ^ (k - F - 2) < |b| ∧ |b| < 2 ^ (k - F - 1)

/-- Formats for which the alignment shift of the dual-path adder stays within its word: `F+3` is not a power of
two smaller than `2^E`, other than 8, 16 and 32, for which the code adds padding. -/
abbrev DualFormat (E F : ℕ) : Prop := AddDual.ShiftOk E F

theorem addsTo_unique {E F : ℕ} {vx vy : ℚ} {d d' : Datum} (h : AddsTo E F vx vy d) (h' : AddsTo E F vx vy d') : d = d' := by
  unfold AddsTo at h h'
  split at h
  · rename_i hz; rw [if_pos hz] at h'; rw [h, h']
  · rename_i hz; rw [if_neg hz] at h'; exact rounded_unique h h'

/-! ## C14: the dual-path adder -/

/-- **C14.** `add` (the dual-path adder), with operands of any two formats: the sum of two normal numbers is
correctly rounded, and exact cancellation gives `+0`. Missing from the full property: formats in which `F+3` is
a power of two below `2^E` other than 8, 16, 32, and formats with `F > 2^(E+1)`; the property fails in each of
those (`C14_add_correct_format_iff`), and `C14_add_correct_operands_iff` says for which operands. -/
theorem C14_add_correctly_rounded_partial {wEX wFX wEY wFY : ℕ} (hEX : 1 ≤ wEX) (hFX : 1 ≤ wFX) (hEY : 1 ≤ wEY)
    (hFY : 1 ≤ wFY) (hE : 3 < max wEX wEY) (hok : DualFormat (max wEX wEY) (max wFX wFY))
    (hfmt : max wFX wFY ≤ 2 ^ (max wEX wEY + 1)) (x : Fp wEX wFX) (y : Fp wEY wFY) (vx vy : ℚ)
    (hx : x.datum = .num vx) (hy : y.datum = .num vy) :
    ∃ r, AddDual.add x y = some r ∧ AddsTo (max wEX wEY) (max wFX wFY) vx vy r.datum := by
  obtain ⟨r, hr, h1, h2⟩ := AddDual.addSame_num (x := promote (max wEX wEY) (max wFX wFY) x)
    (y := promote (max wEX wEY) (max wFX wFY) y) (vx := vx) (vy := vy) (by omega) (by omega) hok
    (by rw [pow_succ] at hfmt; omega)
    (by rw [promote_datum hEX hFX (by omega) (by omega), hx]) (by rw [promote_datum hEY hFY (by omega) (by omega), hy])
  refine ⟨r, hr, ?_⟩
  unfold AddsTo
  split
  · exact h1 ‹_›
  · exact h2 ‹_›

/-- 1.5 + 1.25 * 2^-4 in the format (5,3) needs rounding; single and double precision meet the format
hypotheses. -/
example : (Fp.mk4 5 3 1 0 15 4).datum = .num (3/2) ∧ (Fp.mk4 5 3 1 0 11 2).datum = .num (5/64) ∧
    AddDual.addSame (Fp.mk4 5 3 1 0 15 4) (Fp.mk4 5 3 1 0 11 2) = some (Fp.mk4 5 3 1 0 15 5) := by
  refine ⟨?_, ?_, by decide⟩ <;>
  · rw [Fp.mk4_datum (by decide) (by decide) (by decide) (by decide) (by decide) (by decide)]
    norm_num [denote, bias]

example : DualFormat 8 23 ∧ DualFormat 11 52 ∧ DualFormat 5 3 := by
  refine ⟨?_, ?_, ?_⟩ <;> intro k hk <;> exfalso <;>
  · have : k < 7 := by
      by_contra hc
      have : 2 ^ 7 ≤ 2 ^ k := Nat.pow_le_pow_right (by norm_num) (by omega)
      omega
    interval_cases k <;> omega

/-- **C14, a part that fails.** With a fraction more than twice as long as the exponent range, massive
cancellation wraps the exponent: in the format (4,40) the difference of two adjacent numbers, which is below the
normal range, is returned as infinity instead of zero. -/
theorem C14_add_wide_fraction_fails :
    ∃ x y : Fp 4 40, ∃ vx vy : ℚ, x.datum = .num vx ∧ y.datum = .num vy ∧ 0 < vx + vy ∧ vx + vy < 2 ^ (-bias 4 - 30) ∧
      ∃ r, AddDual.addSame x y = some r ∧ r.datum = .inf false ∧ ¬ AddsTo 4 40 vx vy r.datum := by
  refine ⟨Fp.mk4 4 40 1 0 2 1, Fp.mk4 4 40 1 1 2 0, (2 ^ 40 + 1) * 2 ^ (-45 : ℤ), -(2 ^ 40 * 2 ^ (-45 : ℤ)), ?_, ?_, ?_, ?_,
    Fp.mk4 4 40 2 0 10 0, ?_, ?_, ?_⟩
  · rw [Fp.mk4_datum (by decide) (by decide) (by decide) (by decide) (by decide) (by decide)]
    norm_num [denote, bias]
  · rw [Fp.mk4_datum (by decide) (by decide) (by decide) (by decide) (by decide) (by decide)]
    norm_num [denote, bias]
  · norm_num
  · norm_num [bias]
  · decide +kernel
  · rw [Fp.mk4_datum (by decide) (by decide) (by decide) (by decide) (by decide) (by decide)]
    rfl
  · rw [Fp.mk4_datum (by decide) (by decide) (by decide) (by decide) (by decide) (by decide)]
    unfold AddsTo
    rw [if_neg (by norm_num)]
    rintro ⟨m, e, hn, hd⟩
    have h1 : (m : ℚ) * 2 ^ e ≤ 2 * |(2 ^ 40 + 1) * 2 ^ (-45 : ℤ) + -(2 ^ 40 * 2 ^ (-45 : ℤ))| := by
      have := hn.2.1 (2 ^ 40) (-85) ⟨by norm_num, by norm_num⟩
      have hv : |((2 : ℚ) ^ 40 + 1) * 2 ^ (-45 : ℤ) + -(2 ^ 40 * 2 ^ (-45 : ℤ))| = 2 ^ (-45 : ℤ) := by
        rw [abs_of_pos (by norm_num)]; ring
      rw [hv] at this ⊢
      have h2 : |(2 : ℚ) ^ (-45 : ℤ) - ((2 ^ 40 : ℕ) : ℚ) * 2 ^ (-85 : ℤ)| = 0 := by norm_num
      rw [h2] at this
      have h3 := abs_nonpos_iff.mp this
      have : (0 : ℚ) < 2 ^ (-45 : ℤ) := by positivity
      linarith
    have hsig := hn.1
    have hm : (2 : ℚ) ^ 40 ≤ m := by exact_mod_cast hsig.1
    unfold rangeCheck at hd
    change Datum.inf false = _ at hd
    split at hd
    · cases hd
    · split at hd
      · rename_i hbig
        have he : (-36 : ℤ) ≤ e := by
          norm_num [bias] at hbig; omega
        have h36 : (2 : ℚ) ^ (-36 : ℤ) ≤ 2 ^ e := zpow_le_zpow_right₀ (by norm_num) he
        have hp : (0 : ℚ) < 2 ^ (-36 : ℤ) := by positivity
        have : (2 : ℚ) ^ 40 * 2 ^ (-36 : ℤ) ≤ m * 2 ^ e := mul_le_mul hm h36 hp.le (by positivity)
        rw [abs_of_pos (by norm_num)] at h1
        norm_num at this h1
        linarith
      · cases hd

/-! ## C15: the single-path adders -/

/-- Common part of the four versions. -/
theorem single_addsTo {E F : ℕ} {norm : ℕ → Option (ℕ × ℕ)} (hn : AddSingle.Normalises F norm) (hE : 2 ≤ E) (hF : 1 ≤ F)
    (hfmt : F + 3 < 2 ^ E) (hfmt2 : F + 3 ≠ 2 ^ (E - 1)) {x y : Fp E F} {res : Option (Fp E F)} {vx vy : ℚ}
    (ho : AddSingle.Orders norm x y res) (hx : x.datum = .num vx) (hy : y.datum = .num vy) :
    ∃ r, res = some r ∧
      ((F + 3 < 2 ^ (E - 1) → ¬ ClampCase F vx vy ∧ ¬ ClampCase F vy vx) → AddsTo E F vx vy r.datum) ∧
      (F + 3 < 2 ^ (E - 1) → ClampCase F vx vy → r.datum = .num vx) := by
  obtain ⟨r, hr, h1, h2, h3, -⟩ := AddSingle.orders_num hn hE hF hfmt hfmt2 ho hx hy
  rw [AddSingle.clamped_iff (by omega) hF hx hy] at h2 h3
  rw [AddSingle.clamped_iff (by omega) hF hy hx] at h2
  refine ⟨r, hr, ?_, ?_⟩
  · intro h
    unfold AddsTo
    split
    · exact h1 ‹_›
    · refine h2 ‹_› (fun c => (h c.1).1 c.2) (fun c => (h c.1).2 c.2)
  · intro ha hb
    rw [h3 ⟨ha, hb⟩, hx]

/-- **C15.** `add_single` (v1, v2): the sum of two normal numbers is correctly rounded unless the clamp case
applies. Missing from the full property: `F+3 ≥ 2^E` and `F+3 = 2^(E-1)`, where it asserts (`C19_add_single_never_asserts_iff`), and the
clamp case, where the result is wrong (`C15_add_single_clamp_wrong`). -/
theorem C15_add_single_correctly_rounded_partial {wEX wFX wEY wFY : ℕ} (hEX : 1 ≤ wEX) (hFX : 1 ≤ wFX) (hEY : 1 ≤ wEY)
    (hFY : 1 ≤ wFY) (hfmt : max wFX wFY + 3 < 2 ^ max wEX wEY) (hfmt2 : max wFX wFY + 3 ≠ 2 ^ (max wEX wEY - 1))
    (x : Fp wEX wFX) (y : Fp wEY wFY) (vx vy : ℚ) (hx : x.datum = .num vx) (hy : y.datum = .num vy)
    (hcl : max wFX wFY + 3 < 2 ^ (max wEX wEY - 1) → ¬ ClampCase (max wFX wFY) vx vy ∧ ¬ ClampCase (max wFX wFY) vy vx) :
    ∃ r, AddSingle.add x y = some r ∧ AddsTo (max wEX wEY) (max wFX wFY) vx vy r.datum := by
  have hE : 2 ≤ max wEX wEY := by
    by_contra hc
    have : max wEX wEY = 1 := by omega
    rw [this] at hfmt; omega
  obtain ⟨r, hr, h, -⟩ := single_addsTo (AddSingle.lzoc_normalises _) hE (by omega) hfmt hfmt2
    (AddSingle.addSame_orders (by omega) (by omega) (promote (max wEX wEY) (max wFX wFY) x)
      (promote (max wEX wEY) (max wFX wFY) y)) (vx := vx) (vy := vy)
    (by rw [promote_datum hEX hFX (by omega) (by omega), hx]) (by rw [promote_datum hEY hFY (by omega) (by omega), hy])
  exact ⟨r, hr, h hcl⟩

/-- **C15, a part that fails.** In the clamp case the single-path adder returns the larger operand unchanged,
which is not the correctly rounded sum. -/
theorem C15_add_single_clamp_wrong {E F : ℕ} (hE : 2 ≤ E) (hF : 1 ≤ F) (hfmt : F + 3 < 2 ^ (E - 1)) (x y : Fp E F)
    (vx vy : ℚ) (hx : x.datum = .num vx) (hy : y.datum = .num vy) (hcl : ClampCase F vx vy) :
    ∃ r, AddSingle.addSame x y = some r ∧ r.datum = .num vx ∧ ¬ AddsTo E F vx vy r.datum := by
  have hp : 2 ^ E = 2 * 2 ^ (E - 1) := by
    conv_lhs => rw [show E = (E - 1) + 1 by omega, pow_succ]
    ring
  obtain ⟨r, hr, -, h⟩ := single_addsTo (AddSingle.lzoc_normalises _) hE hF (by omega) (by omega)
    (AddSingle.addSame_orders (by omega) hF x y) hx hy
  have hd := h hfmt hcl
  refine ⟨r, hr, hd, ?_⟩
  rw [hd]
  obtain ⟨h1, k, h2, h3, h4⟩ := hcl
  unfold AddsTo
  split
  · simp
  · exact AddSingle.clamp_not_rounded h1 h2 h3 h4

/-- The clamp case occurs, in single precision too: `1 - 1.5*2^-25` gives 1 instead of `1 - 2^-24`. -/
example : AddSingle.addSame (Fp.mk4 8 23 1 0 127 0) (Fp.mk4 8 23 1 1 102 (2 ^ 22)) = some (Fp.mk4 8 23 1 0 127 0) ∧
    AddDual.addSame (Fp.mk4 8 23 1 0 127 0) (Fp.mk4 8 23 1 1 102 (2 ^ 22)) = some (Fp.mk4 8 23 1 0 126 (2 ^ 23 - 1)) := by
  decide +kernel

example : ClampCase 23 1 (-(3/2) * 2 ^ (-25 : ℤ)) := by
  refine ⟨by norm_num, 0, by norm_num, ?_, ?_⟩
  · rw [abs_of_neg (by norm_num)]; norm_num
  · rw [abs_of_neg (by norm_num)]; norm_num

/-- **C15.** `add_single` v5, which orders mixed-format operands by the fraction bits they share. -/
theorem C15_add_single_v5_correctly_rounded_partial {wEX wFX wEY wFY : ℕ} (hEX : 1 ≤ wEX) (hFX : 1 ≤ wFX)
    (hEY : 1 ≤ wEY) (hFY : 1 ≤ wFY) (hfmt : max wFX wFY + 3 < 2 ^ max wEX wEY)
    (hfmt2 : max wFX wFY + 3 ≠ 2 ^ (max wEX wEY - 1))
    (x : Fp wEX wFX) (y : Fp wEY wFY) (vx vy : ℚ) (hx : x.datum = .num vx) (hy : y.datum = .num vy)
    (hcl : max wFX wFY + 3 < 2 ^ (max wEX wEY - 1) → ¬ ClampCase (max wFX wFY) vx vy ∧ ¬ ClampCase (max wFX wFY) vy vx) :
    ∃ r, AddSingle.addV5 x y = some r ∧ AddsTo (max wEX wEY) (max wFX wFY) vx vy r.datum := by
  have hE : 2 ≤ max wEX wEY := by
    by_contra hc
    have : max wEX wEY = 1 := by omega
    rw [this] at hfmt; omega
  obtain ⟨r, hr, h, -⟩ := single_addsTo (AddSingle.lzoc_normalises _) hE (by omega) hfmt hfmt2
    (AddSingle.addV5_orders hEX hFX hEY hFY x y) (vx := vx) (vy := vy)
    (by rw [promote_datum hEX hFX (by omega) (by omega), hx]) (by rw [promote_datum hEY hFY (by omega) (by omega), hy])
  exact ⟨r, hr, h hcl⟩

/-- **C15.** `add_single` v3, whose normaliser uses byte-wise `clz`, whatever `__builtin_clz(0)` (`u`) and the
uninitialised output (`v`) are. It compiles for 11 to 26 fraction bits only. -/
theorem C15_add_single_v3_correctly_rounded_partial (u v : ℕ) {E F : ℕ} (h11 : 11 ≤ F) (h26 : F ≤ 26)
    (hfmt : F + 3 < 2 ^ E) (hfmt2 : F + 3 ≠ 2 ^ (E - 1))
    (x y : Fp E F) (vx vy : ℚ) (hx : x.datum = .num vx) (hy : y.datum = .num vy)
    (hcl : F + 3 < 2 ^ (E - 1) → ¬ ClampCase F vx vy ∧ ¬ ClampCase F vy vx) :
    ∃ r, AddSingle.addSameV3 u v x y = some r ∧ AddsTo E F vx vy r.datum := by
  have hE : 2 ≤ E := by
    by_contra hc
    have : E = 0 ∨ E = 1 := by omega
    rcases this with h | h <;> rw [h] at hfmt <;> omega
  obtain ⟨r, hr, h, -⟩ := single_addsTo (AddSingle.clz_normalises u v h11 h26) hE (by omega) hfmt hfmt2
    (AddSingle.addSameV3_orders u v (by omega) (by omega) x y) hx hy
  exact ⟨r, hr, h hcl⟩

/-- A mixed-format sum, the same in v1 and v5, and a single-precision sum in v3. -/
example : AddSingle.add (Fp.mk4 5 3 1 0 15 4) (Fp.mk4 4 5 1 1 7 17) = some (Fp.mk4 5 5 1 1 10 0) ∧
    AddSingle.addV5 (Fp.mk4 5 3 1 0 15 4) (Fp.mk4 4 5 1 1 7 17) = some (Fp.mk4 5 5 1 1 10 0) ∧
    AddSingle.addSameV3 3 7 (Fp.mk4 8 23 1 0 127 1) (Fp.mk4 8 23 1 0 103 0) = some (Fp.mk4 8 23 1 0 127 2) := by
  decide +kernel

/-- **C15, a part that fails.** `add_single` v4 has its rounding decision inverted: `1.125 + 1.25*2^-2` in the
format (5,3), exactly 1.4375 and a tie between 1.375 and 1.5, is rounded to 1.375, whose last bit is odd. -/
theorem C15_add_single_v4_rounds_wrongly :
    ∃ x y : Fp 5 3, ∃ vx vy : ℚ, x.datum = .num vx ∧ y.datum = .num vy ∧
      ∃ r, AddSingle.addSameV4 x y = some r ∧ ¬ AddsTo 5 3 vx vy r.datum := by
  have hd : ∀ e f : ℕ, e < 2 ^ 5 → f < 2 ^ 3 →
      (Fp.mk4 5 3 1 0 e f).datum = .num (1 * (((2 ^ 3 + f : ℕ) : ℚ) * 2 ^ ((e : ℤ) - bias 5 - 3))) := by
    intro e f he hf
    rw [Fp.mk4_datum (by decide) (by decide) he hf (by decide) (by decide)]
    simp [denote]
  refine ⟨Fp.mk4 5 3 1 0 15 1, Fp.mk4 5 3 1 0 13 2, _, _, hd _ _ (by decide) (by decide), hd _ _ (by decide) (by decide),
    Fp.mk4 5 3 1 0 15 3, by decide, ?_⟩
  obtain ⟨r, hr, h, -⟩ := single_addsTo (AddSingle.lzoc_normalises 3) (E := 5) (by norm_num) (by norm_num) (by norm_num)
    (by norm_num) (AddSingle.addSame_orders (by norm_num) (by norm_num) (Fp.mk4 5 3 1 0 15 1) (Fp.mk4 5 3 1 0 13 2))
    (hd _ _ (by decide) (by decide)) (hd _ _ (by decide) (by decide))
  have hv1 : AddSingle.addSame (Fp.mk4 5 3 1 0 15 1) (Fp.mk4 5 3 1 0 13 2) = some (Fp.mk4 5 3 1 0 15 4) := by decide
  rw [hv1] at hr
  have hr := Option.some.inj hr
  intro hbad
  have hgood := h (by
    intro _
    constructor <;> rintro ⟨hneg, -⟩ <;> norm_num [bias] at hneg)
  have := addsTo_unique hbad hgood
  rw [← hr, hd _ _ (by decide) (by decide), hd _ _ (by decide) (by decide)] at this
  norm_num [bias] at this

/-! ## C16, C17: cancellation, zeros, infinities, NaN -/

/-- **C17.** The dual-path adder on operands of which at least one is zero, infinite or NaN. -/
theorem C17_add_dual_exceptions {wEX wFX wEY wFY : ℕ} (hEX : 1 ≤ wEX) (hFX : 1 ≤ wFX) (hEY : 1 ≤ wEY)
    (hFY : 1 ≤ wFY) (hE : 3 < max wEX wEY) (hok : DualFormat (max wEX wEY) (max wFX wFY))
    (x : Fp wEX wFX) (y : Fp wEY wFY) (d : Datum) (hd : addSpecial x.datum y.datum = some d) :
    ∃ r, AddDual.add x y = some r ∧ r.datum = d := by
  refine AddDual.addSame_special (by omega) (by omega) hok ?_
  rw [promote_datum hEX hFX (by omega) (by omega), promote_datum hEY hFY (by omega) (by omega), hd]

/-- **C17.** The single-path adder on operands of which at least one is zero, infinite or NaN. -/
theorem C17_add_single_exceptions {wEX wFX wEY wFY : ℕ} (hEX : 1 ≤ wEX) (hFX : 1 ≤ wFX) (hEY : 1 ≤ wEY)
    (hFY : 1 ≤ wFY) (hfmt : max wFX wFY + 3 < 2 ^ max wEX wEY) (hfmt2 : max wFX wFY + 3 ≠ 2 ^ (max wEX wEY - 1))
    (x : Fp wEX wFX) (y : Fp wEY wFY) (d : Datum) (hd : addSpecial x.datum y.datum = some d) :
    (∃ r, AddSingle.add x y = some r ∧ r.datum = d) ∧ ∃ r, AddSingle.addV5 x y = some r ∧ r.datum = d := by
  have hE : 2 ≤ max wEX wEY := by
    by_contra hc
    have : max wEX wEY = 1 := by omega
    rw [this] at hfmt; omega
  have hd' : addSpecial (promote (max wEX wEY) (max wFX wFY) x).datum (promote (max wEX wEY) (max wFX wFY) y).datum = some d := by
    rw [promote_datum hEX hFX (by omega) (by omega), promote_datum hEY hFY (by omega) (by omega), hd]
  exact ⟨AddSingle.orders_special (AddSingle.lzoc_normalises _) hE (by omega) hfmt hfmt2
      (AddSingle.addSame_orders (by omega) (by omega) _ _) hd',
    AddSingle.orders_special (AddSingle.lzoc_normalises _) hE (by omega) hfmt hfmt2
      (AddSingle.addV5_orders hEX hFX hEY hFY x y) hd'⟩

/-- The specification covers exactly the pairs with an operand that is not normal. -/
theorem C17_addSpecial_domain (a b : Datum) : addSpecial a b = none ↔ ∃ p q, a = .num p ∧ b = .num q := by
  cases a <;> cases b <;> simp [addSpecial]

/-- Infinity minus infinity, with don't-care bits set, and a sum with zero. -/
example : (∃ r, AddDual.addSame (Fp.mk4 5 3 2 0 9 7) (Fp.mk4 5 3 2 1 1 3) = some r ∧ r.flags = 3) ∧
    AddDual.addSame (Fp.mk4 5 3 0 1 9 7) (Fp.mk4 5 3 1 1 1 3) = some (Fp.mk4 5 3 1 1 1 3) := by
  decide

/-- **C16, C27.** A finite number plus its negation is zero in both adders: `+0`. -/
theorem C16_add_neg_is_zero {E F : ℕ} (hE : 3 < E) (hF : 1 ≤ F) (x : Fp E F)
    (hx : (∃ v, x.datum = .num v) ∨ ∃ s, x.datum = .zero s) :
    (∃ r, AddDual.addSame x (negV1 E F x) = some r ∧ r.datum = .zero false) ∧
    (F + 3 < 2 ^ E → F + 3 ≠ 2 ^ (E - 1) →
      ∃ r, AddSingle.addSame x (negV1 E F x) = some r ∧ r.datum = .zero false) := by
  have hn := C27_neg_datum (by omega) hF x
  have hsame : (negV1 E F x).flags = x.flags ∧ (negV1 E F x).exp = x.exp := by
    have hneg : negV1 E F x = flipSign x := by
      unfold negV1
      have : addW E (flipSign x).exp 0 = (flipSign x).exp := by
        unfold addW; exact Nat.mod_eq_of_lt ((flipSign x).exp_lt (by omega))
      rw [convert_same, this, Fp.mk4_eta (by omega) hF]
    obtain ⟨a, -, c, -⟩ := flipSign_fields (show 1 ≤ E by omega) hF x
    rw [hneg]
    exact ⟨a, c⟩
  have hsome : ∃ r, AddDual.addSame x (negV1 E F x) = some r := by
    refine Option.ne_none_iff_exists'.mp fun hc => ?_
    have := (AddDual.addSame_none (by omega) hF hsame.1.symm).mp hc
    rw [hsame.2] at this
    omega
  rcases hx with ⟨v, hv⟩ | ⟨s, hs⟩
  · rw [hv] at hn
    have h0 : v + -v = 0 := by ring
    constructor
    · obtain ⟨r, hr⟩ := hsome
      exact ⟨r, hr, (AddDual.addSame_sharp (by omega) hF hv hn hr).1 h0⟩
    · intro h1 h2
      obtain ⟨r, hr, h, -⟩ := AddSingle.orders_num (AddSingle.lzoc_normalises _) (by omega) hF h1 h2
        (AddSingle.addSame_orders (by omega) hF x (negV1 E F x)) hv hn
      exact ⟨r, hr, h h0⟩
  · rw [hs] at hn
    have hd : addSpecial x.datum (negV1 E F x).datum = some (.zero false) := by
      rw [hs, hn]; cases s <;> rfl
    obtain ⟨r, hr⟩ := hsome
    exact ⟨⟨r, hr, AddDual.addSame_special_some (by omega) hF hd hr⟩,
      fun h1 h2 => AddSingle.orders_special (AddSingle.lzoc_normalises _) (by omega) hF h1 h2
        (AddSingle.addSame_orders (by omega) hF x (negV1 E F x)) hd⟩

/-- **C16.** Zeros of any encoding: the sum of two zeros is negative only if both are. -/
theorem C16_add_zeros {E F : ℕ} (hE : 3 < E) (hF : 1 ≤ F) (x y : Fp E F) (s t : Bool) (hx : x.datum = .zero s)
    (hy : y.datum = .zero t) :
    (DualFormat E F → ∃ r, AddDual.addSame x y = some r ∧ r.datum = .zero (s && t)) ∧
    (F + 3 < 2 ^ E → F + 3 ≠ 2 ^ (E - 1) → ∃ r, AddSingle.addSame x y = some r ∧ r.datum = .zero (s && t)) := by
  have hd : addSpecial x.datum y.datum = some (.zero (s && t)) := by rw [hx, hy]; rfl
  exact ⟨fun hok => AddDual.addSame_special (by omega) hF hok hd,
    fun h1 h2 => AddSingle.orders_special (AddSingle.lzoc_normalises _) (by omega) hF h1 h2
      (AddSingle.addSame_orders (by omega) hF x y) hd⟩

example : AddDual.addSame (Fp.mk4 5 3 1 1 9 7) (negV1 5 3 (Fp.mk4 5 3 1 1 9 7)) = some (Fp.mk4 5 3 0 0 2 0) ∧
    (Fp.mk4 5 3 0 0 2 0).isZero = true := by
  decide

/-! ## C18: agreement and commutativity -/

/-- **C18.** The dual-path adder is commutative up to `equals` (equality of data), on all encodings and for
operands of different formats. -/
theorem C18_add_dual_commutative {wEX wFX wEY wFY : ℕ} (hEX : 1 ≤ wEX) (hFX : 1 ≤ wFX) (hEY : 1 ≤ wEY)
    (hFY : 1 ≤ wFY) (hE : 3 < max wEX wEY) (hok : DualFormat (max wEX wEY) (max wFX wFY))
    (hfmt : max wFX wFY ≤ 2 ^ (max wEX wEY + 1)) (x : Fp wEX wFX) (y : Fp wEY wFY) :
    ∃ r r', AddDual.add x y = some r ∧ AddDual.add y x = some r' ∧ r.datum = r'.datum := by
  rcases h : addSpecial x.datum y.datum with _ | d
  · obtain ⟨p, q, hp, hq⟩ := (C17_addSpecial_domain _ _).mp h
    obtain ⟨r, hr, h1⟩ := C14_add_correctly_rounded_partial hEX hFX hEY hFY hE hok hfmt x y p q hp hq
    obtain ⟨r', hr', h2⟩ := C14_add_correctly_rounded_partial hEY hFY hEX hFX (by rwa [max_comm])
      (by rwa [max_comm wEY, max_comm wFY]) (by rwa [max_comm wEY, max_comm wFY]) y x q p hq hp
    refine ⟨r, r', hr, hr', addsTo_unique h1 ?_⟩
    unfold AddsTo at h2 ⊢
    rwa [add_comm p q, max_comm wEX, max_comm wFX]
  · obtain ⟨r, hr, h1⟩ := C17_add_dual_exceptions hEX hFX hEY hFY hE hok x y d h
    obtain ⟨r', hr', h2⟩ := C17_add_dual_exceptions hEY hFY hEX hFX (by rwa [max_comm])
      (by rwa [max_comm wEY, max_comm wFY]) y x d (by rwa [AddSingle.addSpecial_comm])
    exact ⟨r, r', hr, hr', by rw [h1, h2]⟩

/-- **C18.** The single-path adder is commutative up to `equals` on all encodings (the clamp case included). -/
theorem C18_add_single_commutative {E F : ℕ} (hE : 2 ≤ E) (hF : 1 ≤ F) (hfmt : F + 3 < 2 ^ E)
    (hfmt2 : F + 3 ≠ 2 ^ (E - 1)) (x y : Fp E F) :
    ∃ r r', AddSingle.addSame x y = some r ∧ AddSingle.addSame y x = some r' ∧ r.datum = r'.datum := by
  have ho := AddSingle.addSame_orders (show 1 ≤ E by omega) hF x y
  have ho' := AddSingle.addSame_orders (show 1 ≤ E by omega) hF y x
  rcases h : addSpecial x.datum y.datum with _ | d
  · obtain ⟨p, q, hp, hq⟩ := (C17_addSpecial_domain _ _).mp h
    obtain ⟨r, hr, a1, a2, a3, a4⟩ := AddSingle.orders_num (AddSingle.lzoc_normalises _) hE hF hfmt hfmt2 ho hp hq
    obtain ⟨r', hr', b1, b2, b3, b4⟩ := AddSingle.orders_num (AddSingle.lzoc_normalises _) hE hF hfmt hfmt2 ho' hq hp
    refine ⟨r, r', hr, hr', ?_⟩
    by_cases c1 : AddSingle.Clamped x y
    · rw [a3 c1, b4 c1]
    · by_cases c2 : AddSingle.Clamped y x
      · rw [a4 c2, b3 c2]
      · by_cases hz : p + q = 0
        · rw [a1 hz, b1 (by rwa [add_comm])]
        · have := b2 (by rwa [add_comm]) c2 c1
          rw [add_comm q p] at this
          exact rounded_unique (a2 hz c1 c2) this
  · obtain ⟨r, hr, h1⟩ := AddSingle.orders_special (AddSingle.lzoc_normalises _) hE hF hfmt hfmt2 ho h
    obtain ⟨r', hr', h2⟩ := AddSingle.orders_special (AddSingle.lzoc_normalises _) hE hF hfmt hfmt2 ho'
      (by rwa [AddSingle.addSpecial_comm])
    exact ⟨r, r', hr, hr', by rw [h1, h2]⟩

/-- **C18.** The dual-path and the single-path adder return equal data for operands of any formats and
encodings, outside the clamp case. -/
theorem C18_adders_agree_partial {wEX wFX wEY wFY : ℕ} (hEX : 1 ≤ wEX) (hFX : 1 ≤ wFX) (hEY : 1 ≤ wEY)
    (hFY : 1 ≤ wFY) (hE : 3 < max wEX wEY) (hok : DualFormat (max wEX wEY) (max wFX wFY))
    (hfmt : max wFX wFY + 3 < 2 ^ max wEX wEY) (hfmt2 : max wFX wFY + 3 ≠ 2 ^ (max wEX wEY - 1))
    (x : Fp wEX wFX) (y : Fp wEY wFY)
    (hcl : ∀ vx vy, x.datum = .num vx → y.datum = .num vy →
      ¬ ClampCase (max wFX wFY) vx vy ∧ ¬ ClampCase (max wFX wFY) vy vx) :
    ∃ r r', AddDual.add x y = some r ∧ AddSingle.add x y = some r' ∧ r.datum = r'.datum ∧ r.equals r' = true := by
  suffices h : ∃ r r', AddDual.add x y = some r ∧ AddSingle.add x y = some r' ∧ r.datum = r'.datum by
    obtain ⟨r, r', h1, h2, h3⟩ := h
    exact ⟨r, r', h1, h2, h3, (C07_equals_iff_same_datum (by omega) (by omega) r r').mpr h3⟩
  rcases h : addSpecial x.datum y.datum with _ | d
  · obtain ⟨p, q, hp, hq⟩ := (C17_addSpecial_domain _ _).mp h
    obtain ⟨r, hr, h1⟩ := C14_add_correctly_rounded_partial hEX hFX hEY hFY hE hok (by rw [pow_succ]; omega) x y p q hp hq
    obtain ⟨r', hr', h2⟩ := C15_add_single_correctly_rounded_partial hEX hFX hEY hFY hfmt hfmt2 x y p q hp hq
      (fun _ => hcl p q hp hq)
    exact ⟨r, r', hr, hr', addsTo_unique h1 h2⟩
  · obtain ⟨r, hr, h1⟩ := C17_add_dual_exceptions hEX hFX hEY hFY hE hok x y d h
    obtain ⟨⟨r', hr', h2⟩, -⟩ := C17_add_single_exceptions hEX hFX hEY hFY hfmt hfmt2 x y d h
    exact ⟨r, r', hr, hr', by rw [h1, h2]⟩

/-- **C18, the part that fails.** In the clamp case the two adders disagree. -/
theorem C18_adders_disagree {E F : ℕ} (hE : 3 < E) (hF : 1 ≤ F) (hok : DualFormat E F) (hfmt : F + 3 < 2 ^ (E - 1))
    (x y : Fp E F) (vx vy : ℚ) (hx : x.datum = .num vx) (hy : y.datum = .num vy) (hcl : ClampCase F vx vy) :
    ∃ r r', AddDual.addSame x y = some r ∧ AddSingle.addSame x y = some r' ∧ r.equals r' = false := by
  have hp : 2 ^ E = 2 * 2 ^ (E - 1) := by
    conv_lhs => rw [show E = (E - 1) + 1 by omega, pow_succ]
    ring
  obtain ⟨r, hr, a1, a2⟩ := AddDual.addSame_num (by omega) hF hok (by omega) hx hy
  obtain ⟨r', hr', -, h⟩ := C15_add_single_clamp_wrong (by omega) hF hfmt x y vx vy hx hy hcl
  refine ⟨r, r', hr, hr', ?_⟩
  rw [← Bool.not_eq_true, C07_equals_iff_same_datum (by omega) hF]
  intro heq
  apply h
  rw [← heq]
  unfold AddsTo
  split
  · exact a1 ‹_›
  · exact a2 ‹_›

/-! ## C19: assertions of the integer layer -/

/-- **C19.** `add_single` never fails an assertion exactly in the formats with `F+3 < 2^E` and `F+3 ≠ 2^(E-1)`.
The property as listed (every supported format) is therefore false. -/
theorem C19_add_single_never_asserts_iff {E F : ℕ} (hE : 1 ≤ E) (hF : 1 ≤ F) :
    (∀ x y : Fp E F, (AddSingle.addSame x y).isSome = true) ↔ F + 3 < 2 ^ E ∧ F + 3 ≠ 2 ^ (E - 1) := by
  have hp : 2 ^ E = 2 * 2 ^ (E - 1) := by
    conv_lhs => rw [show E = (E - 1) + 1 by omega, pow_succ]
    ring
  constructor
  · intro h
    have hlt : F + 3 < 2 ^ E := by
      by_contra hc
      have := h (Fp.mk4 E F 1 0 0 0) (Fp.mk4 E F 1 0 0 0)
      have hk := le_intlog2 (n := F + 3) (k := E) (by omega)
      unfold AddSingle.addSame AddSingle.core AddSingle.shiftVal? at this
      dsimp only at this
      rw [if_neg (by omega), if_neg (by omega)] at this
      simp at this
    refine ⟨hlt, ?_⟩
    intro heq
    have h1 : intlog2 (F + 3) = E := by
      have := intlog2_le hlt
      have := le_intlog2 (n := F + 3) (k := E - 1) (by omega)
      omega
    have hb : ones E < 2 ^ E := by unfold ones; have : 0 < 2 ^ E := by positivity
                                   omega
    have e0 : 0 < 2 ^ E := by positivity
    have f0 : 0 < 2 ^ F := by positivity
    have := h (Fp.mk4 E F 1 0 (ones E) 0) (Fp.mk4 E F 1 0 0 0)
    obtain ⟨o1, o2⟩ := AddSingle.flagsExpFrac_lt hE hF (Fp.mk4 E F 1 0 (ones E) 0) (Fp.mk4 E F 1 0 0 0)
    have hns : ¬ (Fp.mk4 E F 1 0 (ones E) 0).flagsExpFrac < (Fp.mk4 E F 1 0 0 0).flagsExpFrac := by
      intro hlt'
      have := (o1 hlt').2
      rw [Fp.mk4_flags (by norm_num) (by norm_num) hb f0, Fp.mk4_flags (by norm_num) (by norm_num) e0 f0,
        Fp.mk4_exp (by norm_num) (by norm_num) hb f0 hE, Fp.mk4_exp (by norm_num) (by norm_num) e0 f0 hE,
        Fp.mk4_frac (by norm_num) (by norm_num) hb f0 hF, Fp.mk4_frac (by norm_num) (by norm_num) e0 f0 hF] at this
      have h2 := this rfl
      have : 0 < ones E * 2 ^ F := Nat.mul_pos (by unfold ones; omega) f0
      omega
    unfold AddSingle.addSame at this
    dsimp only at this
    simp only [hns, decide_false, Bool.false_eq_true, if_false] at this
    unfold AddSingle.core AddSingle.shiftVal? at this
    dsimp only at this
    rw [Fp.mk4_exp (by norm_num) (by norm_num) hb f0 hE, Fp.mk4_exp (by norm_num) (by norm_num) e0 f0 hE,
      if_neg (by omega), if_pos h1.symm] at this
    dsimp only at this
    have hsub : subW (E + 1) (ones E) 0 = ones E := by
      rw [AddSingle.subW_of_le (by omega) (by rw [pow_succ]; omega)]; rfl
    rw [hsub, getBits_zero_eq_mod, h1, show E - 1 + 1 = E by omega, Nat.mod_eq_of_lt hb] at this
    unfold addAlign? shr? at this
    rw [if_neg (by unfold ones; omega)] at this
    simp at this
  · rintro ⟨h1, h2⟩ x y
    have hs : ∀ X Y : Fp E F, (AddSingle.core AddSingle.roundBit (lzoc? (F + 5) (intlog2 (F + 5))) X Y).isSome = true := by
      intro X Y
      obtain ⟨T, z, h, -⟩ := AddSingle.core_some (AddSingle.lzoc_normalises F) hE hF h1 h2 AddSingle.roundBit X Y
      rw [h]; rfl
    exact hs _ _

/-- **C19.** The dual-path adder never fails an assertion exactly in the `DualFormat` formats. -/
theorem C19_add_dual_never_asserts_iff {E F : ℕ} (hE : 3 < E) (hF : 1 ≤ F) :
    (∀ x y : Fp E F, (AddDual.addSame x y).isSome = true) ↔ DualFormat E F := by
  constructor
  · intro h k hk
    by_contra hc
    push Not at hc
    obtain ⟨hkE, n5, n13, n29⟩ := hc
    have hil : intlog2 (F + 3) = k + 1 := by
      have a := le_intlog2 (n := F + 3) (k := k) (by omega)
      have b := intlog2_le (n := F + 3) (k := k + 1) (by rw [pow_succ]; omega)
      omega
    have hpk : 2 ^ (k + 1) ≤ 2 ^ E := Nat.pow_le_pow_right (by norm_num) (by omega)
    rw [pow_succ] at hpk
    have hb : 2 * F + 4 < 2 ^ E := by omega
    have e0 : 0 < 2 ^ E := by positivity
    have f0 : 0 < 2 ^ F := by positivity
    have := h (Fp.mk4 E F 1 0 (2 * F + 4) 0) (Fp.mk4 E F 1 0 0 0)
    have hsub : subW E (2 * F + 4) 0 = 2 * F + 4 := AddSingle.subW_of_le (by omega) hb
    have hsv : AddDual.shiftVal E F (2 * F + 4) = 2 * F + 4 := by
      unfold AddDual.shiftVal
      dsimp only
      rw [hil]
      split
      · rename_i hgt
        have hz : getBits (E - 1) (k + 1) (2 * F + 4) = 0 := by
          rw [getBits_top (by rwa [show E - 1 + 1 = E by omega]) (by omega)]
          exact Nat.div_eq_of_lt (by rw [pow_succ]; omega)
        rw [hz]
        simp only [ne_eq, not_true_eq_false, decide_false, Bool.not_false, if_true]
        rw [getBits_zero_eq_mod, show k + 1 - 1 + 1 = k + 1 by omega]
        exact Nat.mod_eq_of_lt (by rw [pow_succ]; omega)
      · rfl
    have hpad : AddDual.pad1 F = 0 := by unfold AddDual.pad1; rw [if_neg (by omega)]
    unfold AddDual.addSame at this
    dsimp only at this
    rw [AddDual.swap_spec (by omega)] at this
    simp only [Fp.mk4_flags (fl := 1) (s := 0) (by norm_num) (by norm_num) hb f0,
      Fp.mk4_flags (fl := 1) (s := 0) (by norm_num) (by norm_num) e0 f0,
      Fp.mk4_exp (fl := 1) (s := 0) (by norm_num) (by norm_num) hb f0 (show 1 ≤ E by omega),
      Fp.mk4_exp (fl := 1) (s := 0) (by norm_num) (by norm_num) e0 f0 (show 1 ≤ E by omega)] at this
    simp only [Nat.not_lt_zero, decide_false, Bool.and_false, ge_iff_le, le_refl, decide_true, Bool.not_true, Bool.or_false,
      Bool.false_eq_true, if_false] at this
    unfold AddDual.core at this
    dsimp only at this
    rw [Fp.mk4_exp (fl := 1) (s := 0) (by norm_num) (by norm_num) hb f0 (show 1 ≤ E by omega),
      Fp.mk4_exp (fl := 1) (s := 0) (by norm_num) (by norm_num) e0 f0 (show 1 ≤ E by omega), hsub, hsv, hpad] at this
    have hal : ∀ m, addAlign? F 0 m (2 * F + 4) = none := by
      intro m; unfold addAlign? shr?; rw [if_neg (by omega)]
    rw [hal] at this
    revert this
    split <;> simp_all
  · intro hok x y
    have hs : ∀ X Y : Fp E F, (AddDual.core X Y).isSome = true := by
      intro X Y
      obtain ⟨rs, pre, up, z, h⟩ := AddDual.core_some (by omega) hF X Y (AddDual.shiftOk_fits (by omega) hok (subW_lt _ _ _))
      rw [h]; rfl
    exact hs _ _

/-- The usual formats are on the good side of both characterisations; (5,1), (8,61) for the dual path and (4,5) for the single path are not. -/
example : ¬ DualFormat 5 1 ∧ ¬ DualFormat 8 61 ∧ (23 + 3 < 2 ^ 8 ∧ 23 + 3 ≠ 2 ^ 7) ∧ ¬ (5 + 3 ≠ 2 ^ (4 - 1)) := by
  refine ⟨fun h => ?_, fun h => ?_, by norm_num, by norm_num⟩
  · have := h 2 (by norm_num); omega
  · have := h 6 (by norm_num); omega

/-! ## C34: the leading-zero counter -/

/-- **C34.** With the count width the library uses, the normaliser returns for every non-zero word of every width
the number of leading zeros `c` and the word shifted left by `c`: the shifted word has its top bit set. The count
is never all ones. -/
theorem C34_lzoc_normalises {W x : ℕ} (hW : 1 ≤ W) (hx : x < 2 ^ W) (h0 : x ≠ 0) :
    ∃ c, lzoc? W (intlog2 W) x = some (x * 2 ^ c, c) ∧ c = W - 1 - Nat.log2 x ∧ 2 ^ (W - 1) ≤ x * 2 ^ c ∧
      x * 2 ^ c < 2 ^ W ∧ c ≠ 2 ^ intlog2 W - 1 := by
  obtain ⟨c, h1, h2, h3, h4, h5⟩ := lzoc_norm (by omega) hx h0
  refine ⟨c, h1, ?_, h3, h4, h5⟩
  have hl1 := Nat.log2_self_le h0
  have hl2 := Nat.lt_log2_self (n := x)
  have hle : Nat.log2 x < W := (Nat.log2_lt h0).mpr hx
  generalize Nat.log2 x = l at *
  have k1 : 2 ^ (l + c) < 2 ^ W := by
    rw [pow_add]; exact (Nat.mul_le_mul_right _ hl1).trans_lt h4
  have k2 : 2 ^ (W - 1) < 2 ^ (l + 1 + c) := by
    rw [pow_add 2 (l + 1)]
    exact h3.trans_lt ((Nat.mul_lt_mul_right (a := 2 ^ c) (by positivity)).mpr hl2)
  have k3 := (Nat.pow_lt_pow_iff_right (by norm_num : 1 < 2)).mp k1
  have k4 := (Nat.pow_lt_pow_iff_right (by norm_num : 1 < 2)).mp k2
  omega

/-- **C34.** An all-zero word is reported by an all-ones count. -/
theorem C34_lzoc_zero {W : ℕ} (hW : 1 ≤ W) : lzoc? W (intlog2 W) 0 = some (0, 2 ^ intlog2 W - 1) :=
  lzoc_zero _ (intlog2_le_two_mul (by omega))

/-- **C34.** `intlog2<N>` is the number of bits of `N`. -/
theorem C34_intlog2 {n : ℕ} (h : n ≠ 0) : 2 ^ (intlog2 n - 1) ≤ n ∧ n < 2 ^ intlog2 n :=
  ⟨(intlog2_spec h).1, (intlog2_spec h).2.1⟩

/-- **C34.** The byte-wise 32-bit normaliser of v3 likewise, whatever `__builtin_clz(0)` and the uninitialised
output are. -/
theorem C34_lzocClz_normalises (u v : ℕ) {w : ℕ} (hw : w < 2 ^ 32) :
    (w ≠ 0 → ∃ c, AddSingle.lzocClz u v w = (w * 2 ^ c, c) ∧ 2 ^ 31 ≤ w * 2 ^ c ∧ w * 2 ^ c < 2 ^ 32) ∧
    (w = 0 → (AddSingle.lzocClz u v w).2 = 31) := by
  refine ⟨fun h => AddSingle.lzocClz_norm u v hw h, ?_⟩
  rintro rfl
  unfold AddSingle.lzocClz getBits
  simp [ones]

example : lzoc? 13 (intlog2 13) 5 = some (5 * 2 ^ 10, 10) ∧ AddSingle.lzocClz 9 9 (3 * 2 ^ 17) = (3 * 2 ^ 30, 13) := by
  decide

end Thls
