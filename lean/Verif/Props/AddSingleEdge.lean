import Verif.Proofs.AddSingleEdge
import Verif.Props.AddMore
import Verif.Props.AddCut
import Verif.Props.AddVariantsSharp
import Verif.Props.OpTestVariants

/-! # C15, C17, C18, C19, C90: the single-path adders in every format

In a format with `F+3 = 2^(E-1)` the adders can assert. Here: exactly for which operands, and that all sums they do return are right. -/

namespace Thls
open Spec OpTest

theorem ShiftDistance.symm {E F : ℕ} {x y : Fp E F} {d : ℕ} : ShiftDistance x y d ↔ ShiftDistance y x d := by
  unfold ShiftDistance
  rcases lt_trichotomy x.flags y.flags with h | h | h
  · rw [if_neg (by omega), if_pos h, if_pos h]
  · rw [if_neg (by omega), if_neg (by omega), if_neg (by omega), if_neg (by omega), abs_sub_comm]
  · rw [if_pos h, if_neg (by omega), if_pos h]

/-- The operands make a single-path adder assert. -/
def Overshifts {E F : ℕ} (x y : Fp E F) : Prop :=
  2 ^ E ≤ F + 3 ∨ F + 3 = 2 ^ (E - 1) ∧ (ShiftDistance x y (2 * F + 4) ∨ ShiftDistance x y (2 * F + 5))

theorem Overshifts.symm {E F : ℕ} {x y : Fp E F} : Overshifts x y ↔ Overshifts y x := by
  unfold Overshifts
  rw [ShiftDistance.symm, ShiftDistance.symm (d := 2 * F + 5)]

theorem fits_ordered {E F : ℕ} (hE : 1 ≤ E) (hF : 1 ≤ F) {x y : Fp E F} (ho : AddSingle.Ordered x y) :
    AddSingle.Fits x y ↔ ¬ Overshifts x y := by
  have hxe := x.exp_lt hE
  have hye := y.exp_lt hE
  have key : ∀ d : ℕ, subW E x.exp y.exp = d ↔ ShiftDistance x y d := by
    intro d
    obtain ⟨h1, h2⟩ := ho
    unfold ShiftDistance
    rcases Nat.lt_or_eq_of_le h1 with h | h
    · rw [if_pos h, ← subW_emod hxe hye]; exact Nat.cast_inj.symm
    · have o1 := (AddSingle.ordered_exp (X := x) (Y := y) hF (h2 h)).1
      rw [if_neg (by omega), if_neg (by omega), abs_of_nonneg (by omega), AddSingle.subW_of_le o1 hxe]
      omega
  rw [AddSingle.fits_iff hE, key, key]
  unfold Overshifts
  push Not
  tauto

/-- The versions that hand the ordered operands to the core assert on exactly the same operands. -/
theorem orders_none_iff {E F : ℕ} {norm : ℕ → Option (ℕ × ℕ)} (hn : AddSingle.Normalises F norm) (hE : 1 ≤ E) (hF : 1 ≤ F)
    {x y : Fp E F} {res : Option (Fp E F)} (ho : AddSingle.Orders norm x y res) : res = none ↔ Overshifts x y := by
  have key : ∀ {X Y : Fp E F}, AddSingle.Ordered X Y → (AddSingle.core AddSingle.roundBit norm X Y = none ↔ Overshifts X Y) := by
    intro X Y h
    rw [show Overshifts X Y ↔ ¬ AddSingle.Fits X Y by rw [fits_ordered hE hF h, not_not]]
    refine ⟨fun h hf => ?_, AddSingle.core_none⟩
    obtain ⟨T, z, h', -⟩ := AddSingle.core_some_of_fits hn hE hF AddSingle.roundBit X Y hf
    rw [h] at h'; cases h'
  rcases ho with ⟨rfl, h⟩ | ⟨rfl, h⟩
  · exact key h
  · rw [Overshifts.symm]; exact key h

theorem orders_fits {E F : ℕ} (hE : 1 ≤ E) (hF : 1 ≤ F) {x y : Fp E F} (h : ¬ Overshifts x y) :
    (AddSingle.Ordered x y → AddSingle.Fits x y) ∧ (AddSingle.Ordered y x → AddSingle.Fits y x) :=
  ⟨fun ho => (fits_ordered hE hF ho).mpr h, fun ho => (fits_ordered hE hF ho).mpr (by rwa [← Overshifts.symm])⟩

theorem not_overshifts {E F : ℕ} {x y : Fp E F} (h : ¬ Overshifts x y) : F + 3 < 2 ^ E := by
  unfold Overshifts at h; push Not at h; exact h.1

/-- **C19, exactly, for all formats and encodings.** The single-path adder fails an assertion exactly if `F+3 ≥ 2^E`, or if
`F+3 = 2^(E-1)` and the shift distance of the operands is one of the two largest. -/
theorem C19_add_single_asserts_all_iff {E F : ℕ} (hE : 1 ≤ E) (hF : 1 ≤ F) (x y : Fp E F) :
    AddSingle.addSame x y = none ↔
      2 ^ E ≤ F + 3 ∨ F + 3 = 2 ^ (E - 1) ∧ (ShiftDistance x y (2 * F + 4) ∨ ShiftDistance x y (2 * F + 5)) :=
  orders_none_iff (AddSingle.lzoc_normalises _) hE hF (AddSingle.addSame_orders hE hF x y)

/-- **C19.** So does version 3. -/
theorem C19_add_single_v3_asserts_all_iff (u v : ℕ) {E F : ℕ} (hE : 1 ≤ E) (h11 : 11 ≤ F) (h26 : F ≤ 26) (x y : Fp E F) :
    AddSingle.addSameV3 u v x y = none ↔
      2 ^ E ≤ F + 3 ∨ F + 3 = 2 ^ (E - 1) ∧ (ShiftDistance x y (2 * F + 4) ∨ ShiftDistance x y (2 * F + 5)) :=
  orders_none_iff (AddSingle.clz_normalises u v h11 h26) hE (by omega) (AddSingle.addSameV3_orders u v hE (by omega) x y)

/-- In the format (4,5): the exponent field of a zero decides; the distance of the exponents of two numbers must not exceed 13. -/
example : AddSingle.addSame (Fp.mk4 4 5 1 0 15 0) (Fp.mk4 4 5 1 0 1 0) = none ∧
    (AddSingle.addSame (Fp.mk4 4 5 1 0 15 0) (Fp.mk4 4 5 1 0 2 0)).isSome = true ∧
    AddSingle.addSame (Fp.mk4 4 5 1 0 3 0) (Fp.mk4 4 5 0 0 4 0) = none ∧
    (AddSingle.addSame (Fp.mk4 4 5 1 0 3 0) (Fp.mk4 4 5 0 0 6 0)).isSome = true ∧ 5 + 3 = 2 ^ (4 - 1) := by decide +kernel

/-- For numbers, the exponents of the values decide. -/
theorem overshifts_num {E F : ℕ} (hE : 1 ≤ E) (hF : 1 ≤ F) {x y : Fp E F} {vx vy : ℚ} (hx : x.datum = .num vx) (hy : y.datum = .num vy) :
    Overshifts x y ↔ 2 ^ E ≤ F + 3 ∨ F + 3 = 2 ^ (E - 1) ∧ (2 : ℤ) ^ E - 2 ≤ |Int.log 2 |vx| - Int.log 2 (abs vy)| := by
  have hp : 2 ^ E = 2 * 2 ^ (E - 1) := by
    conv_lhs => rw [show E = (E - 1) + 1 by omega, pow_succ]
    ring
  have hpz : ((2 ^ E : ℕ) : ℤ) = (2 : ℤ) ^ E := by push_cast; ring
  have hxe := x.exp_lt hE
  have hye := y.exp_lt hE
  rw [log_abs_datum hF hx, log_abs_datum hF hy, show (x.exp : ℤ) - bias E - (y.exp - bias E) = x.exp - y.exp by ring]
  have f1 := (datum_num_iff.mp hx).1
  have f2 := (datum_num_iff.mp hy).1
  unfold Overshifts ShiftDistance
  rw [if_neg (by omega), if_neg (by omega), if_neg (by omega), if_neg (by omega), ← hpz]
  have habs : |(x.exp : ℤ) - y.exp| = ((x.exp - y.exp + (y.exp - x.exp) : ℕ) : ℤ) := by
    rcases le_total x.exp y.exp with h | h
    · rw [abs_of_nonpos (by omega)]; omega
    · rw [abs_of_nonneg (by omega)]; omega
  rw [habs]
  constructor
  · rintro (h | ⟨h, h'⟩)
    · exact .inl h
    · refine .inr ⟨h, by omega⟩
  · rintro (h | ⟨h, h'⟩)
    · exact .inl h
    · refine .inr ⟨h, by omega⟩

/-- Exactly when the sum of two numbers is right, in every format. -/
theorem orders_correct_all_iff {E F : ℕ} {norm : ℕ → Option (ℕ × ℕ)} (hn : AddSingle.Normalises F norm) (hE : 1 ≤ E) (hF : 1 ≤ F)
    {x y : Fp E F} {res : Option (Fp E F)} {vx vy : ℚ}
    (ho : AddSingle.Orders norm x y res) (hx : x.datum = .num vx) (hy : y.datum = .num vy) :
    (∃ r, res = some r ∧ AddsTo E F vx vy r.datum) ↔
      F + 3 < 2 ^ E ∧ ¬ (F + 3 < 2 ^ (E - 1) ∧ (ClampCase F vx vy ∨ ClampCase F vy vx)) ∧
      ¬ (F + 3 = 2 ^ (E - 1) ∧ (2 : ℤ) ^ E - 2 ≤ |Int.log 2 |vx| - Int.log 2 (abs vy)|) := by
  have hov := overshifts_num hE hF hx hy
  by_cases hO : Overshifts x y
  · have := (orders_none_iff hn hE hF ho).mpr hO
    rw [this]
    refine ⟨fun ⟨r, h, _⟩ => (by cases h), ?_⟩
    rintro ⟨a, -, b⟩
    rcases hov.mp hO with h | h
    · omega
    · exact absurd h b
  · have hfmt := not_overshifts hO
    have hE2 : 2 ≤ E := by
      by_contra hc
      have : E = 1 := by omega
      rw [this] at hfmt; omega
    by_cases hfmt2 : F + 3 = 2 ^ (E - 1)
    · obtain ⟨w1, w2⟩ := orders_fits hE hF hO
      obtain ⟨r, hr, h1, h2, -, -⟩ := AddSingle.orders_num_of_fits hn hE2 hF hfmt w1 w2 ho hx hy
      rw [AddSingle.clamped_iff (by omega) hF hx hy, AddSingle.clamped_iff (by omega) hF hy hx] at h2
      constructor
      · intro _
        exact ⟨hfmt, fun h => by omega, fun h => hO (hov.mpr (.inr h))⟩
      · intro _
        refine ⟨r, hr, ?_⟩
        unfold AddsTo
        split
        · exact h1 ‹_›
        · exact h2 ‹_› (fun c => by omega) (fun c => by omega)
    · rw [orders_correct_iff hn hE2 hF hfmt hfmt2 ho hx hy]
      constructor
      · exact fun h => ⟨hfmt, h, fun c => hfmt2 c.1⟩
      · exact fun h => h.2.1

/-- **C15, exactly, in every format.** The single-path adder returns the correctly rounded sum of two numbers exactly if `F+3 < 2^E`,
the clamp case does not apply (in formats with `F+3 < 2^(E-1)`), and the exponents of the numbers differ by less than `2^E-2` (in formats
with `F+3 = 2^(E-1)`). -/
theorem C15_add_single_correct_all_iff {wEX wFX wEY wFY : ℕ} (hEX : 1 ≤ wEX) (hFX : 1 ≤ wFX) (hEY : 1 ≤ wEY) (hFY : 1 ≤ wFY)
    (x : Fp wEX wFX) (y : Fp wEY wFY) (vx vy : ℚ) (hx : x.datum = .num vx) (hy : y.datum = .num vy) :
    (∃ r, AddSingle.add x y = some r ∧ AddsTo (max wEX wEY) (max wFX wFY) vx vy r.datum) ↔
      max wFX wFY + 3 < 2 ^ max wEX wEY ∧
      ¬ (max wFX wFY + 3 < 2 ^ (max wEX wEY - 1) ∧ (ClampCase (max wFX wFY) vx vy ∨ ClampCase (max wFX wFY) vy vx)) ∧
      ¬ (max wFX wFY + 3 = 2 ^ (max wEX wEY - 1) ∧ (2 : ℤ) ^ max wEX wEY - 2 ≤ |Int.log 2 |vx| - Int.log 2 (abs vy)|) :=
  orders_correct_all_iff (AddSingle.lzoc_normalises _) (by omega) (by omega) (AddSingle.addSame_orders (by omega) (by omega) _ _)
    (by rw [promote_datum hEX hFX (by omega) (by omega), hx]) (by rw [promote_datum hEY hFY (by omega) (by omega), hy])

/-- **C15.** So does version 5. -/
theorem C15_add_single_v5_correct_all_iff {wEX wFX wEY wFY : ℕ} (hEX : 1 ≤ wEX) (hFX : 1 ≤ wFX) (hEY : 1 ≤ wEY) (hFY : 1 ≤ wFY)
    (x : Fp wEX wFX) (y : Fp wEY wFY) (vx vy : ℚ) (hx : x.datum = .num vx) (hy : y.datum = .num vy) :
    (∃ r, AddSingle.addV5 x y = some r ∧ AddsTo (max wEX wEY) (max wFX wFY) vx vy r.datum) ↔
      max wFX wFY + 3 < 2 ^ max wEX wEY ∧
      ¬ (max wFX wFY + 3 < 2 ^ (max wEX wEY - 1) ∧ (ClampCase (max wFX wFY) vx vy ∨ ClampCase (max wFX wFY) vy vx)) ∧
      ¬ (max wFX wFY + 3 = 2 ^ (max wEX wEY - 1) ∧ (2 : ℤ) ^ max wEX wEY - 2 ≤ |Int.log 2 |vx| - Int.log 2 (abs vy)|) :=
  orders_correct_all_iff (AddSingle.lzoc_normalises _) (by omega) (by omega) (AddSingle.addV5_orders hEX hFX hEY hFY x y)
    (by rw [promote_datum hEX hFX (by omega) (by omega), hx]) (by rw [promote_datum hEY hFY (by omega) (by omega), hy])

/-- **C15.** So does version 3, for the fraction widths its leading-zero counter supports. -/
theorem C15_add_single_v3_correct_all_iff (u v : ℕ) {E F : ℕ} (hE : 1 ≤ E) (h11 : 11 ≤ F) (h26 : F ≤ 26)
    (x y : Fp E F) (vx vy : ℚ) (hx : x.datum = .num vx) (hy : y.datum = .num vy) :
    (∃ r, AddSingle.addSameV3 u v x y = some r ∧ AddsTo E F vx vy r.datum) ↔
      F + 3 < 2 ^ E ∧ ¬ (F + 3 < 2 ^ (E - 1) ∧ (ClampCase F vx vy ∨ ClampCase F vy vx)) ∧
      ¬ (F + 3 = 2 ^ (E - 1) ∧ (2 : ℤ) ^ E - 2 ≤ |Int.log 2 |vx| - Int.log 2 (abs vy)|) :=
  orders_correct_all_iff (AddSingle.clz_normalises u v h11 h26) hE (by omega) (AddSingle.addSameV3_orders u v hE (by omega) x y) hx hy

/-- In the format (5,13) the sum of the least number and 1 is returned, and is 1. -/
example : 13 + 3 = 2 ^ (5 - 1) ∧ AddSingle.addSame (Fp.mk4 5 13 1 0 15 0) (Fp.mk4 5 13 1 0 0 0) = some (Fp.mk4 5 13 1 0 15 0) ∧
    AddSingle.addSame (Fp.mk4 5 13 1 0 30 0) (Fp.mk4 5 13 1 0 0 0) = none := by decide +kernel

/-- **C17.** In every format: whatever a single-path adder returns for a pair with a zero, an infinity or a NaN is what IEEE says. -/
theorem C17_add_single_exceptions_returned {wEX wFX wEY wFY : ℕ} (hEX : 1 ≤ wEX) (hFX : 1 ≤ wFX) (hEY : 1 ≤ wEY) (hFY : 1 ≤ wFY)
    (x : Fp wEX wFX) (y : Fp wEY wFY) (d : Datum) (hd : addSpecial x.datum y.datum = some d) :
    (∀ r, AddSingle.add x y = some r → r.datum = d) ∧ ∀ r, AddSingle.addV5 x y = some r → r.datum = d := by
  have hd' : addSpecial (promote (max wEX wEY) (max wFX wFY) x).datum (promote (max wEX wEY) (max wFX wFY) y).datum = some d := by
    rw [promote_datum hEX hFX (by omega) (by omega), promote_datum hEY hFY (by omega) (by omega), hd]
  have key : ∀ {res}, AddSingle.Orders (lzoc? (max wFX wFY + 5) (intlog2 (max wFX wFY + 5))) (promote (max wEX wEY) (max wFX wFY) x)
      (promote (max wEX wEY) (max wFX wFY) y) res → ∀ r, res = some r → r.datum = d := by
    intro res ho r hr
    have hO := mt (orders_none_iff (AddSingle.lzoc_normalises _) (by omega) (by omega) ho).mpr (by rw [hr]; simp)
    have hfmt := not_overshifts hO
    have hE2 : 2 ≤ max wEX wEY := by
      by_contra hc
      have : max wEX wEY = 1 := by omega
      rw [this] at hfmt; omega
    obtain ⟨w1, w2⟩ := orders_fits (by omega) (by omega) hO
    obtain ⟨r', hr', h⟩ := AddSingle.orders_special_of_fits (AddSingle.lzoc_normalises _) hE2 (by omega) hfmt w1 w2 ho hd'
    rw [hr] at hr'
    obtain rfl := Option.some.inj hr'
    exact h
  exact ⟨key (AddSingle.addSame_orders (by omega) (by omega) _ _), key (AddSingle.addV5_orders hEX hFX hEY hFY x y)⟩

/-- Infinity minus infinity in the format (4,5). -/
example : (AddSingle.addSame (Fp.mk4 4 5 2 0 3 1) (Fp.mk4 4 5 2 1 7 2)).map Fp.flags = some 3 ∧
    AddSingle.addSame (Fp.mk4 4 5 2 0 15 1) (Fp.mk4 4 5 1 1 0 2) = none := by decide +kernel

/-- **C18.** In every format the single-path adder is commutative: it asserts on both orders of the operands or on none, and the two
results are the same datum. -/
theorem C18_add_single_commutative_all {E F : ℕ} (hE : 1 ≤ E) (hF : 1 ≤ F) (x y : Fp E F) :
    (AddSingle.addSame x y).map Fp.datum = (AddSingle.addSame y x).map Fp.datum := by
  have ho := AddSingle.addSame_orders hE hF x y
  have ho' := AddSingle.addSame_orders hE hF y x
  have hn := AddSingle.lzoc_normalises F
  by_cases hO : Overshifts x y
  · rw [(orders_none_iff hn hE hF ho).mpr hO, (orders_none_iff hn hE hF ho').mpr (Overshifts.symm.mp hO)]
  · have hfmt := not_overshifts hO
    have hE2 : 2 ≤ E := by
      by_contra hc
      have : E = 1 := by omega
      rw [this] at hfmt; omega
    obtain ⟨w1, w2⟩ := orders_fits hE hF hO
    rcases h : addSpecial x.datum y.datum with _ | d
    · obtain ⟨p, q, hp, hq⟩ := (C17_addSpecial_domain _ _).mp h
      obtain ⟨r, hr, a1, a2, a3, a4⟩ := AddSingle.orders_num_of_fits hn hE2 hF hfmt w1 w2 ho hp hq
      obtain ⟨r', hr', b1, b2, b3, b4⟩ := AddSingle.orders_num_of_fits hn hE2 hF hfmt w2 w1 ho' hq hp
      rw [hr, hr', Option.map_some, Option.map_some]
      congr 1
      by_cases c1 : AddSingle.Clamped x y
      · rw [a3 c1, b4 c1]
      · by_cases c2 : AddSingle.Clamped y x
        · rw [a4 c2, b3 c2]
        · by_cases hz : p + q = 0
          · rw [a1 hz, b1 (by rwa [add_comm])]
          · have := b2 (by rwa [add_comm]) c2 c1
            rw [add_comm q p] at this
            exact rounded_unique (a2 hz c1 c2) this
    · obtain ⟨r, hr, h1⟩ := AddSingle.orders_special_of_fits hn hE2 hF hfmt w1 w2 ho h
      obtain ⟨r', hr', h2⟩ := AddSingle.orders_special_of_fits hn hE2 hF hfmt w2 w1 ho' (by rwa [AddSingle.addSpecial_comm])
      rw [hr, hr', Option.map_some, Option.map_some, h1, h2]

example : (AddSingle.addSame (Fp.mk4 4 5 1 0 15 0) (Fp.mk4 4 5 1 0 1 0)).isNone = true ∧
    (AddSingle.addSame (Fp.mk4 4 5 1 0 1 0) (Fp.mk4 4 5 1 0 15 0)).isNone = true ∧
    (AddSingle.addSame (Fp.mk4 4 5 1 0 12 3) (Fp.mk4 4 5 1 1 13 0)).isSome = true := by decide +kernel

/-- What the check of the test says about one pair, in every format. -/
theorem orders_accepted_or_none {E F : ℕ} {norm : ℕ → Option (ℕ × ℕ)} (hn : AddSingle.Normalises F norm) (hE : 1 ≤ E) (hE2 : E ≤ 62)
    (hF : 1 ≤ F) {x y : Fp E F} {res ref : Option (Fp E F)}
    (ho : AddSingle.Orders norm x y res) {r' : Fp E F} (hr' : ref = some r') (hd' : Delivers E F (exactAdd x.datum y.datum) r'.datum) :
    checkFaithful ref res = some true ∨ res = none := by
  by_cases hO : Overshifts x y
  · exact .inr ((orders_none_iff hn hE hF ho).mpr hO)
  · left
    have hfmt := not_overshifts hO
    have hE3 : 2 ≤ E := by
      by_contra hc
      have : E = 1 := by omega
      rw [this] at hfmt; omega
    by_cases hfmt2 : F + 3 = 2 ^ (E - 1)
    · obtain ⟨w1, w2⟩ := orders_fits hE hF hO
      rcases hsp : addSpecial x.datum y.datum with _ | d
      · obtain ⟨p, q, hx, hy⟩ := (C17_addSpecial_domain _ _).mp hsp
        have hadd : AddsTo E F p q r'.datum := by rw [exactAdd, hx, hy] at hd'; exact hd'
        obtain ⟨r, hr, ha⟩ := (orders_correct_all_iff hn hE hF ho hx hy).mpr
          ⟨hfmt, fun h => by omega, fun h => hO ((overshifts_num hE hF hx hy).mpr (.inr h))⟩
        exact faithful_of_equals hr' hr ((C07_equals_iff_same_datum hE hF _ _).mpr (addsTo_unique ha hadd)) hE hF
      · have hnone : ∀ p q, x.datum = .num p → y.datum = .num q → False := fun p q h1 h2 => by
          rw [h1, h2] at hsp; cases hsp
        obtain ⟨r, hr, hd⟩ := AddSingle.orders_special_of_fits hn hE3 hF hfmt w1 w2 ho hsp
        refine faithful_of_equals hr' hr (delivers_equals hE hF (exactAdd_delivers hE hF ?_
          fun p q hp hq => (hnone p q hp hq).elim) hd') hE hF
        intro d' hd''
        rw [hsp] at hd''
        rw [hd]
        exact Option.some.inj hd''
    · exact orders_accepted hn hE3 hE2 hF hfmt hfmt2 ho hr' hd'

/-- **C90, version 1.** For any two input formats the test of the single-path adder never reports a wrong sum: it passes, or it ends in
a failed assertion (of the adder or of the generator of its inputs). -/
theorem C90_test_add_single_never_fails {EA FA EB FB : ℕ} (hEA : 1 ≤ EA) (hFA : 1 ≤ FA) (hEB : 1 ≤ EB) (hFB : 1 ≤ FB)
    (hE2 : max EA EB ≤ 62) (n : ℕ) (dA dB : ℕ → ℕ × ℕ) : testAddSingle EA FA EB FB n dA dB ≠ some false := by
  suffices h : testAddSingle EA FA EB FB n dA dB = some true ∨ testAddSingle EA FA EB FB n dA dB = none by
    rcases h with h | h <;> rw [h] <;> simp
  unfold testAddSingle
  cases has : makeInput EA FA n dA with
  | none => exact .inr rfl
  | some as =>
  cases hbs : makeInput EB FB n dB with
  | none => exact .inr rfl
  | some bs =>
  simp only [Option.bind_eq_bind, Option.bind_some]
  refine forAll_true_or_none fun a _ => forAll_true_or_none fun b _ => ?_
  obtain ⟨r', hr', hd'⟩ := C53_ref_add (ER := max EA EB) (FR := max FA FB) (by omega) (by omega) a b
  have ho := AddSingle.addSame_orders (by omega) (by omega) (promote (max EA EB) (max FA FB) a) (promote (max EA EB) (max FA FB) b)
  rcases orders_accepted_or_none (AddSingle.lzoc_normalises _) (by omega) hE2 (by omega) ho hr'
    (by rw [promote_datum hEA hFA (by omega) (by omega), promote_datum hEB hFB (by omega) (by omega)]; exact hd') with h | h
  · exact .inl h
  · right
    change checkFaithful _ (AddSingle.addSame (promote (max EA EB) (max FA FB) a) (promote (max EA EB) (max FA FB) b)) = none
    rw [h, hr']
    rfl

/-- **C90, version 1, exactly.** The test of the single-path adder ends in a failed assertion exactly in the formats with `F+3 ≥ 2^E` or
`F+3 = 2^(E-1)`, and passes in all others (`C90_test_add_single_iff`). -/
theorem C90_test_add_single_aborts_iff {E F : ℕ} (hE : 1 ≤ E) (hE2 : E ≤ 62) (hF : 1 ≤ F) (hF2 : F + 6 < 1024) (n : ℕ)
    (dA dB : ℕ → ℕ × ℕ) : testAddSingle E F E F n dA dB = none ↔ 2 ^ E ≤ F + 3 ∨ F + 3 = 2 ^ (E - 1) := by
  have h := (C90_test_add_single_iff hE hE2 hF hF2 n dA dB).1
  have hf := C90_test_add_single_never_fails hE hF hE hF (by simpa using hE2) n dA dB
  cases ht : testAddSingle E F E F n dA dB with
  | none =>
    rw [ht] at h
    simp only [reduceCtorEq, false_iff, not_and, not_not] at h
    refine ⟨fun _ => ?_, fun _ => rfl⟩
    by_cases hc : F + 3 < 2 ^ E
    · exact .inr (h hc)
    · exact .inl (by omega)
  | some b =>
    cases b with
    | false => exact absurd ht hf
    | true =>
      obtain ⟨h1, h2⟩ := h.mp ht
      refine ⟨fun h => (by cases h), fun h => ?_⟩
      omega

example : 5 + 3 = 2 ^ (4 - 1) ∧ 13 + 3 = 2 ^ (5 - 1) ∧ 125 + 3 = 2 ^ (8 - 1) ∧ ¬ (2 ^ 8 ≤ 23 + 3 ∨ 23 + 3 = 2 ^ (8 - 1)) := by decide

end Thls
