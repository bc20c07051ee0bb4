import Verif.Proofs.Interval
import Verif.Props.FmaEdge
import Verif.Props.LoopMono

/-! # Property C111: neighbours of results enclose the exact values, and interval arithmetic built from them is sound -/

namespace Thls
open Spec

variable {E F : ℕ}

/-- **C111, sums.** The exact sum of two numbers or zeros lies between the results of `nextdown` and `nextup` on the returned sum, also if
that is an infinity or a zero, and although `nextdown` is not always the predecessor. -/
theorem C111_sum_enclosed (hE : 3 < E) (hF : 1 ≤ F) (hfmt : F ≤ 2 ^ (E + 1)) (x y r : Fp E F) (p q : ℚ) (hx : x.datum.fin = some p)
    (hy : y.datum.fin = some q) (hr : AddDual.addSame x y = some r) :
    (nextdown r).datum.AtMost (p + q) ∧ (nextup r).datum.AtLeast (p + q) := by
  have h := add_fin_returned (by omega) hF hfmt x y hx hy hr
  exact ⟨nextdown_atMost (by omega) hF h, nextup_atLeast (by omega) hF h⟩

/-- `1 + 2^-30` in format (8,23): the sum is returned as `1`; `nextdown` gives a half, `nextup` the next number. -/
example : ∃ r, AddDual.addSame (Fp.mk4 8 23 1 0 127 0) (Fp.mk4 8 23 1 0 97 0) = some r ∧ nextdown r = Fp.mk4 8 23 1 0 126 0 ∧
    nextup r = Fp.mk4 8 23 1 0 127 1 ∧ (nextdown r).datum.AtMost (1 + 1 / 2 ^ 30) ∧ (nextup r).datum.AtLeast (1 + 1 / 2 ^ 30) := by
  have h1 : (Fp.mk4 8 23 1 0 127 0).datum = .num 1 := by decide +kernel
  have h2 : (Fp.mk4 8 23 1 0 97 0).datum = .num (1 / 2 ^ 30) := by decide +kernel
  have h3 : AddDual.addSame (Fp.mk4 8 23 1 0 127 0) (Fp.mk4 8 23 1 0 97 0) = some (Fp.mk4 8 23 1 0 127 0) := by decide +kernel
  exact ⟨_, h3, by decide +kernel, by decide +kernel,
    C111_sum_enclosed (by norm_num) (by norm_num) (by norm_num) _ _ _ _ _ (by rw [h1]; rfl) (by rw [h2]; rfl) h3⟩

/-- **C111, products.** -/
theorem C111_product_enclosed {FR FX FY : ℕ} (hE : 2 ≤ E) (hR : 1 ≤ FR) (hX : 1 ≤ FX) (hY : 1 ≤ FY) (hpath : FR ≤ FX + FY)
    (x : Fp E FX) (y : Fp E FY) (r : Fp E FR) (p q : ℚ) (hx : x.datum.fin = some p) (hy : y.datum.fin = some q)
    (hr : mulV1 E FR x y = some r) : (nextdown r).datum.AtMost (p * q) ∧ (nextup r).datum.AtLeast (p * q) := by
  have h := mul_fin hE hR hX hY hpath x y hx hy hr
  exact ⟨nextdown_atMost (by omega) hR h, nextup_atLeast (by omega) hR h⟩

/-- The square of the smallest number of format (8,23) is flushed to zero; the upper neighbour of that zero is the smallest number. -/
example : ∃ r : Fp 8 23, mulV1 8 23 (Limits.min 8 23) (Limits.min 8 23) = some r ∧ nextup r = Limits.min 8 23 ∧
    (nextup r).datum.AtLeast (2 ^ (-127 : ℤ) * 2 ^ (-127 : ℤ)) := by
  have h1 : (Limits.min 8 23).datum = .num (2 ^ (-127 : ℤ)) := (C46_limits_values_partial (by norm_num) (by norm_num)).1
  have hr : mulV1 8 23 (Limits.min 8 23) (Limits.min 8 23) = some (Fp.mk4 8 23 0 0 129 0) := by decide +kernel
  exact ⟨_, hr, by decide +kernel, (C111_product_enclosed (by norm_num) (by norm_num) (by norm_num) (by norm_num) (by norm_num) _ _ _ _ _
    (by rw [h1]; rfl) (by rw [h1]; rfl) hr).2⟩

/-- **C111, quotients.** -/
theorem C111_quotient_enclosed (hE : 2 ≤ E) (hF : 1 ≤ F) (x y : Fp E F) (p q : ℚ) (hx : x.datum.fin = some p) (hy : y.datum.fin = some q)
    (hq : q ≠ 0) : (nextdown (divV1 E F x y)).datum.AtMost (p / q) ∧ (nextup (divV1 E F x y)).datum.AtLeast (p / q) := by
  have h := div_fin hE hF x y hx hy hq
  exact ⟨nextdown_atMost (by omega) hF h, nextup_atLeast (by omega) hF h⟩

/-- `1 / 3` in format (8,23). -/
example : (nextdown (divV1 8 23 (Fp.mk4 8 23 1 0 127 0) (Fp.mk4 8 23 1 0 128 (2 ^ 22)))).datum.AtMost (1 / 3) ∧
    (nextup (divV1 8 23 (Fp.mk4 8 23 1 0 127 0) (Fp.mk4 8 23 1 0 128 (2 ^ 22)))).datum.AtLeast (1 / 3) := by
  have h1 : (Fp.mk4 8 23 1 0 127 0).datum = .num 1 := by decide +kernel
  have h2 : (Fp.mk4 8 23 1 0 128 (2 ^ 22)).datum = .num 3 := by decide +kernel
  exact C111_quotient_enclosed (by norm_num) (by norm_num) _ _ 1 3 (by rw [h1]; rfl) (by rw [h2]; rfl) (by norm_num)

/-- **C111, conversions.** -/
theorem C111_conversion_enclosed {ER FR EX FX : ℕ} (hER : 1 ≤ ER) (hFR : 1 ≤ FR) (hEX : 1 ≤ EX) (hFX : 1 ≤ FX) (x : Fp EX FX) (v : ℚ)
    (hx : x.datum = .num v) : (nextdown (convert ER FR x)).datum.AtMost v ∧ (nextup (convert ER FR x)).datum.AtLeast v := by
  have h : Rounded0 ER FR v (convert ER FR x).datum := by
    unfold Rounded0; rw [if_neg (num_ne_zero hx)]; exact convert_rounded hER hFR hEX hFX x v hx
  exact ⟨nextdown_atMost hER hFR h, nextup_atLeast hER hFR h⟩

/-- `15/8` to two fraction bits. -/
example : (nextdown (convert 4 2 (Fp.mk4 4 3 1 0 7 7))).datum.AtMost (15 / 8) ∧ (nextup (convert 4 2 (Fp.mk4 4 3 1 0 7 7))).datum.AtLeast (15 / 8) :=
  C111_conversion_enclosed (by norm_num) (by norm_num) (by norm_num) (by norm_num) _ _ (by decide +kernel)

/-- **C111, the fused operation.** Although `fma` rounds twice, the exact `x*y+z` lies between the neighbours of what it returns. -/
theorem C111_fma_enclosed {wER wFR wEX wFX wEY wFY wEZ wFZ : ℕ} (hER : 1 ≤ wER) (hFR : 1 ≤ wFR) (hEX : 1 ≤ wEX) (hFX : 1 ≤ wFX)
    (hEY : 1 ≤ wEY) (hFY : 1 ≤ wFY) (hEZ : 1 ≤ wEZ) (hFZ : 1 ≤ wFZ) (hRE : wER < fmaE wEX wEY wEZ) (hRF : wFR ≤ fmaF wFX wFY wFZ)
    (hfmt : fmaF wFX wFY wFZ ≤ 2 ^ (fmaE wEX wEY wEZ + 1)) (x : Fp wEX wFX) (y : Fp wEY wFY) (z : Fp wEZ wFZ) (r : Fp wER wFR)
    (vx vy vz : ℚ) (hx : x.datum = .num vx) (hy : y.datum = .num vy) (hz : z.datum = .num vz) (hr : fma wER wFR x y z = some r) :
    (nextdown r).datum.AtMost (vx * vy + vz) ∧ (nextup r).datum.AtLeast (vx * vy + vz) := by
  obtain ⟨s, rfl, hsum⟩ := fma_returned_sum hEX hFX hEY hFY hEZ hFZ hfmt x y z vx vy vz hx hy hz hr
  have hF1 : wFX + wFY + 2 ≤ fmaF wFX wFY wFZ := le_max_left _ _
  have hs : Rounded0 (fmaE wEX wEY wEZ) (fmaF wFX wFY wFZ) (vx * vy + vz) s.datum := by
    unfold AddsTo at hsum; unfold Rounded0
    split_ifs at hsum ⊢ with h
    · exact ⟨_, hsum⟩
    · exact hsum
  have hr1 : ∀ w, s.datum = .num w → Rounded wER wFR w (convert wER wFR s).datum :=
    fun w hw => convert_rounded hER hFR (by omega) (by omega) s w hw
  have hr2 : (∀ w, s.datum ≠ .num w) → (convert wER wFR s).datum = s.datum :=
    fun h => C24_convert_special_partial hER hFR (by omega) (by omega) s h (fun h => absurd h (by omega))
  exact ⟨nextdown_atMost_twice hER hFR hRE.le hRF hs hr1 hr2, nextup_atLeast_twice hER hFR hRE.le hRF hs hr1 hr2⟩

/-- `(1 + 2^-23)^2 - 1` in format (8,23). -/
example (r : Fp 8 23) (hr : fma 8 23 (Fp.mk4 8 23 1 0 127 1) (Fp.mk4 8 23 1 0 127 1) (Fp.mk4 8 23 1 1 127 0) = some r) :
    (nextdown r).datum.AtMost (8388609 / 8388608 * (8388609 / 8388608) + -1) ∧
    (nextup r).datum.AtLeast (8388609 / 8388608 * (8388609 / 8388608) + -1) := by
  have h1 : (Fp.mk4 8 23 1 0 127 1).datum = .num (8388609 / 8388608) := by decide +kernel
  have h2 : (Fp.mk4 8 23 1 1 127 0).datum = .num (-1) := by decide +kernel
  exact C111_fma_enclosed (by norm_num) (by norm_num) (by norm_num) (by norm_num) (by norm_num) (by norm_num) (by norm_num) (by norm_num)
    (by decide) (by decide) (by decide) _ _ _ _ _ _ _ h1 h1 h2 hr

/-- **C111, negation of intervals.** -/
theorem C111_interval_neg (hE : 1 ≤ E) (hF : 1 ≤ F) {a : Interval E F} {p : ℚ} (ha : a.Holds p) : a.neg.Holds (-p) := by
  obtain ⟨h1, h2⟩ := ha
  constructor
  · change (negV1 E F a.hi).datum.AtMost (-p)
    rw [C27_neg_datum hE hF]
    revert h2
    rcases a.hi.datum with _ | s | s | v <;> simp [Datum.neg, Datum.AtMost, Datum.AtLeast]
  · change (negV1 E F a.lo).datum.AtLeast (-p)
    rw [C27_neg_datum hE hF]
    revert h1
    rcases a.lo.datum with _ | s | s | v <;> simp [Datum.neg, Datum.AtMost, Datum.AtLeast]

/-- **C111, sums of intervals**, bounded or not. -/
theorem C111_interval_add (hA : AdderFormat E F) {a b : Interval E F} {p q : ℚ} (ha : a.Holds p) (hb : b.Holds q) :
    ∃ r, a.add b = some r ∧ r.Holds (p + q) := by
  obtain ⟨hE, hF, hok, hfmt⟩ := id hA
  have lo : ∃ l, AddDual.addSame a.lo b.lo = some l ∧ (nextdown l).datum.AtMost (p + q) := by
    obtain ⟨l, hl⟩ := (dual_adder (by omega) hF hok hfmt).total a.lo b.lo
    refine ⟨l, hl, ?_⟩
    have bot : ∀ d, addSpecial a.lo.datum b.lo.datum = some d → d = .inf true → (nextdown l).datum.AtMost (p + q) := by
      rintro d hd rfl
      have := AddDual.addSame_special_some (by omega) hF hd hl
      rw [nextdown_bot l this, this]; rfl
    rcases atMost_cases ha.1 with h1 | ⟨v, h1, h2⟩
    · rcases atMost_cases hb.1 with h3 | ⟨w, h3, -⟩
      · exact bot _ (by rw [h1, h3]; rfl) (by simp)
      · rcases SoftFmt.fin_cases h3 with ⟨t, h4, -⟩ | h4 <;> exact bot _ (by rw [h1, h4]; rfl) rfl
    · rcases atMost_cases hb.1 with h3 | ⟨w, h3, h4⟩
      · rcases SoftFmt.fin_cases h1 with ⟨t, h4, -⟩ | h4 <;> exact bot _ (by rw [h3, h4]; rfl) rfl
      · exact atMost_mono (C111_sum_enclosed hE hF hfmt _ _ _ _ _ h1 h3 hl).1 (by linarith)
  have hi : ∃ l, AddDual.addSame a.hi b.hi = some l ∧ (nextup l).datum.AtLeast (p + q) := by
    obtain ⟨l, hl⟩ := (dual_adder (by omega) hF hok hfmt).total a.hi b.hi
    refine ⟨l, hl, ?_⟩
    have top : ∀ d, addSpecial a.hi.datum b.hi.datum = some d → d = .inf false → (nextup l).datum.AtLeast (p + q) := by
      rintro d hd rfl
      have := AddDual.addSame_special_some (by omega) hF hd hl
      rw [(C08_nextup_special (by omega) hF l).1 this, this]; rfl
    rcases atLeast_cases ha.2 with h1 | ⟨v, h1, h2⟩
    · rcases atLeast_cases hb.2 with h3 | ⟨w, h3, -⟩
      · exact top _ (by rw [h1, h3]; rfl) (by simp)
      · rcases SoftFmt.fin_cases h3 with ⟨t, h4, -⟩ | h4 <;> exact top _ (by rw [h1, h4]; rfl) rfl
    · rcases atLeast_cases hb.2 with h3 | ⟨w, h3, h4⟩
      · rcases SoftFmt.fin_cases h1 with ⟨t, h4, -⟩ | h4 <;> exact top _ (by rw [h3, h4]; rfl) rfl
      · exact atLeast_mono (C111_sum_enclosed hE hF hfmt _ _ _ _ _ h1 h3 hl).2 (by linarith)
  obtain ⟨l, hl, k1⟩ := lo
  obtain ⟨h, hh, k2⟩ := hi
  exact ⟨⟨nextdown l, nextup h⟩, by unfold Interval.add; rw [hl, hh]; rfl, k1, k2⟩

/-- **C111, products of intervals.** -/
theorem C111_interval_mul (hE : 2 ≤ E) (hF : 1 ≤ F) {a b : Interval E F} {p q : ℚ} (ha : a.Holds p) (hb : b.Holds q) :
    ∃ r, a.mul b = some r ∧ r.Holds (p * q) := by
  unfold Interval.mul
  split_ifs with h
  · simp only [Bool.and_eq_true] at h
    obtain ⟨⟨⟨h1, h2⟩, h3⟩, h4⟩ := h
    obtain ⟨al, e1⟩ := finite_fin h1
    obtain ⟨ah, e2⟩ := finite_fin h2
    obtain ⟨bl, e3⟩ := finite_fin h3
    obtain ⟨bh, e4⟩ := finite_fin h4
    obtain ⟨r1, k1⟩ := mulSame_total (by omega) a.lo b.lo
    obtain ⟨r2, k2⟩ := mulSame_total (by omega) a.lo b.hi
    obtain ⟨r3, k3⟩ := mulSame_total (by omega) a.hi b.lo
    obtain ⟨r4, k4⟩ := mulSame_total (by omega) a.hi b.hi
    obtain ⟨c1, c2⟩ := product_corners ((atMost_fin e1).mp ha.1) ((atLeast_fin e2).mp ha.2) ((atMost_fin e3).mp hb.1) ((atLeast_fin e4).mp hb.2)
    refine ⟨Interval.hull r1 r2 r3 r4, by rw [k1, k2, k3, k4]; rfl, ?_⟩
    exact hull_holds (by omega) hF (mul_fin hE hF hF hF (by omega) _ _ e1 e3 k1) (mul_fin hE hF hF hF (by omega) _ _ e1 e4 k2)
      (mul_fin hE hF hF hF (by omega) _ _ e2 e3 k3) (mul_fin hE hF hF hF (by omega) _ _ e2 e4 k4) c1 c2
  · exact ⟨_, rfl, everything_holds (by omega) hF _⟩

/-- **C111, quotients of intervals.** -/
theorem C111_interval_div (hE : 2 ≤ E) (hF : 1 ≤ F) {a b : Interval E F} {p q : ℚ} (ha : a.Holds p) (hb : b.Holds q) :
    (a.div b).Holds (p / q) := by
  unfold Interval.div
  split_ifs with h
  · simp only [Bool.and_eq_true, Bool.or_eq_true] at h
    obtain ⟨⟨⟨⟨h1, h2⟩, h3⟩, h4⟩, h5⟩ := h
    obtain ⟨al, e1⟩ := finite_fin h1
    obtain ⟨ah, e2⟩ := finite_fin h2
    obtain ⟨bl, e3⟩ := finite_fin h3
    obtain ⟨bh, e4⟩ := finite_fin h4
    have hz : (Limits.posZero E F).datum = .zero false := (C46_limits_values_partial (by omega) hF).2.2.2.2.2.2.2.2.1
    have h0 : 0 < bl ∨ bh < 0 := by
      rcases h5 with h5 | h5
      · left
        have hc := (C25_comparisons_real_order_partial (by omega) hF (by omega) hF (Limits.posZero E F) b.lo (by rw [hz]; simp)
          (atMost_ne_nan hb.1) (fun s h => by rw [hz] at h; cases h)).1.mp h5
        rw [hz] at hc
        rcases SoftFmt.fin_cases e3 with ⟨t, h4, -⟩ | h4 <;> rw [h4] at hc <;> simpa [Datum.Lt] using hc
      · right
        have hc := (C25_comparisons_real_order_partial (by omega) hF (by omega) hF b.hi (Limits.posZero E F) (atLeast_ne_nan hb.2)
          (by rw [hz]; simp) (fun s _ h => by rw [hz] at h; cases h)).1.mp h5
        rw [hz] at hc
        rcases SoftFmt.fin_cases e4 with ⟨t, h4, -⟩ | h4 <;> rw [h4] at hc <;> simpa [Datum.Lt] using hc
    have a1 := (atMost_fin e3).mp hb.1
    have a2 := (atLeast_fin e4).mp hb.2
    have n1 : bl ≠ 0 := by rcases h0 with h | h <;> intro h' <;> linarith
    have n2 : bh ≠ 0 := by rcases h0 with h | h <;> intro h' <;> linarith
    obtain ⟨c1, c2⟩ := quotient_corners ((atMost_fin e1).mp ha.1) ((atLeast_fin e2).mp ha.2) a1 a2 h0
    exact hull_holds (by omega) hF (div_fin hE hF _ _ e1 e3 n1) (div_fin hE hF _ _ e1 e4 n2)
      (div_fin hE hF _ _ e2 e3 n1) (div_fin hE hF _ _ e2 e4 n2) c1 c2
  · exact everything_holds (by omega) hF _

/-- **C111, expressions.** Whatever the expression and whatever real values its variables take within their intervals: the interval
computed with the library's rounded operations, `nextdown`, `nextup` and comparisons holds the exact value of the expression. -/
theorem C111_expression (hA : AdderFormat E F) (I : ℕ → Interval E F) (ρ : ℕ → ℚ) (hI : ∀ n, (I n).Holds (ρ n)) (e : Expr) (v : ℚ)
    (hv : e.value ρ = some v) : ∃ i, e.interval I = some i ∧ i.Holds v := by
  obtain ⟨hE, hF, -, -⟩ := id hA
  induction e generalizing v with
  | var n => exact ⟨_, rfl, by rw [← Option.some.inj hv]; exact hI n⟩
  | neg a iha =>
    obtain ⟨p, hp, rfl⟩ := Option.map_eq_some_iff.mp hv
    obtain ⟨i, hi, h⟩ := iha p hp
    exact ⟨i.neg, by simp [Expr.interval, hi], C111_interval_neg (by omega) hF h⟩
  | add a b iha ihb =>
    simp only [Expr.value, Option.bind_eq_bind, Option.bind_eq_some_iff, Option.some.injEq] at hv
    obtain ⟨p, hp, q, hq, rfl⟩ := hv
    obtain ⟨i, hi, h⟩ := iha p hp
    obtain ⟨j, hj, h'⟩ := ihb q hq
    obtain ⟨r, hr, h''⟩ := C111_interval_add hA h h'
    exact ⟨r, by simp [Expr.interval, hi, hj, hr], h''⟩
  | sub a b iha ihb =>
    simp only [Expr.value, Option.bind_eq_bind, Option.bind_eq_some_iff, Option.some.injEq] at hv
    obtain ⟨p, hp, q, hq, rfl⟩ := hv
    obtain ⟨i, hi, h⟩ := iha p hp
    obtain ⟨j, hj, h'⟩ := ihb q hq
    obtain ⟨r, hr, h''⟩ := C111_interval_add hA h (C111_interval_neg (by omega) hF h')
    exact ⟨r, by simp [Expr.interval, hi, hj, hr], by rw [sub_eq_add_neg]; exact h''⟩
  | mul a b iha ihb =>
    simp only [Expr.value, Option.bind_eq_bind, Option.bind_eq_some_iff, Option.some.injEq] at hv
    obtain ⟨p, hp, q, hq, rfl⟩ := hv
    obtain ⟨i, hi, h⟩ := iha p hp
    obtain ⟨j, hj, h'⟩ := ihb q hq
    obtain ⟨r, hr, h''⟩ := C111_interval_mul (by omega) hF h h'
    exact ⟨r, by simp [Expr.interval, hi, hj, hr], h''⟩
  | div a b iha ihb =>
    simp only [Expr.value, Option.bind_eq_bind, Option.bind_eq_some_iff, Option.ite_none_left_eq_some, Option.some.injEq] at hv
    obtain ⟨p, hp, q, hq, -, rfl⟩ := hv
    obtain ⟨i, hi, h⟩ := iha p hp
    obtain ⟨j, hj, h'⟩ := ihb q hq
    exact ⟨i.div j, by simp [Expr.interval, hi, hj], C111_interval_div (by omega) hF h h'⟩

/-- `x*x - x/y` in single precision for every real `x` in `[1, 3/2]` and `y` in `[-4, -2]`: the interval holds the exact value. -/
example (x y : ℚ) (hx : 1 ≤ x ∧ x ≤ 3 / 2) (hy : -4 ≤ y ∧ y ≤ -2) :
    ∃ i : Interval 8 23, (Expr.sub (.mul (.var 0) (.var 0)) (.div (.var 0) (.var 1))).interval
      (fun n => if n = 0 then ⟨Fp.mk4 8 23 1 0 127 0, Fp.mk4 8 23 1 0 127 (2 ^ 22)⟩ else ⟨Fp.mk4 8 23 1 1 129 0, Fp.mk4 8 23 1 1 128 0⟩) = some i ∧
      i.Holds (x * x - x / y) := by
  refine C111_expression ⟨by norm_num, by norm_num, dual_8_23, by norm_num⟩ _ (fun n => if n = 0 then x else y) ?_ _ _ ?_
  · have h1 : (Fp.mk4 8 23 1 0 127 0).datum = .num 1 := by decide +kernel
    have h2 : (Fp.mk4 8 23 1 0 127 (2 ^ 22)).datum = .num (3 / 2) := by decide +kernel
    have h3 : (Fp.mk4 8 23 1 1 129 0).datum = .num (-4) := by decide +kernel
    have h4 : (Fp.mk4 8 23 1 1 128 0).datum = .num (-2) := by decide +kernel
    intro n
    by_cases hn : n = 0
    · simp only [if_pos hn, Interval.Holds, h1, h2]; exact hx
    · simp only [if_neg hn, Interval.Holds, h3, h4]; exact hy
  · have : y ≠ 0 := by intro h; rw [h] at hy; linarith [hy.2]
    simp [Expr.value, this]

/-- **C111, the order matters.** Taking the smallest of the rounded products first and its neighbour afterwards is unsound in every
format: `less_than` finds no difference between the two zeros, but their lower neighbours differ. The interval `[-m, 0]` times `[m, m]`,
`m` the smallest positive number, holds `-m*m`; the smallest product found is `+0`, and below that is `-0`. -/
theorem C111_minimum_first_wrong (hE : 2 ≤ E) (hF : 1 ≤ F) :
    ∃ (a b : Interval E F) (p q : ℚ) (r1 r2 r3 r4 : Fp E F), a.Holds p ∧ b.Holds q ∧
      mulV1 E F a.lo b.lo = some r1 ∧ mulV1 E F a.lo b.hi = some r2 ∧ mulV1 E F a.hi b.lo = some r3 ∧ mulV1 E F a.hi b.hi = some r4 ∧
      ¬ (nextdown (Interval.lower (Interval.lower r1 r2) (Interval.lower r3 r4))).datum.AtMost (p * q) := by
  obtain ⟨hmin, hneg, -, -, -, -, -, -, hz, hnz, -⟩ := C46_limits_values_partial (show 1 ≤ E by omega) hF
  have hm := two_zpow_pos (-bias E)
  obtain ⟨r1, k1⟩ := mulSame_total (by omega) (Limits.negMin E F) (Limits.min E F)
  obtain ⟨r3, k3⟩ := mulSame_total (by omega) (Limits.posZero E F) (Limits.min E F)
  have hr1 : r1.datum = .zero true ∨ r1.datum = .zero false := by
    have h := mul_fin hE hF hF hF (by omega) _ _ (show (Limits.negMin E F).datum.fin = some _ by rw [hneg]; rfl)
      (show (Limits.min E F).datum.fin = some _ by rw [hmin]; rfl) k1
    have hne : -2 ^ (-bias E) * (2 : ℚ) ^ (-bias E) ≠ 0 := by
      have := mul_pos hm hm
      intro h; linarith
    unfold Rounded0 at h
    rw [if_neg hne] at h
    have hb : 1 ≤ bias E := by
      have := bias_mono hE
      have h2 : bias 2 = 1 := by norm_num [bias]
      omega
    left
    refine rounded_unique h ⟨2 ^ F, -bias E + -bias E - F, nearest_self (by omega) ⟨by simp, ?_⟩ ?_, ?_⟩
    · exact Nat.pow_lt_pow_right (by norm_num) (by omega)
    · rw [neg_mul, abs_neg, ← zpow_add₀ (by norm_num), abs_of_pos (two_zpow_pos _)]
      push_cast
      rw [← zpow_natCast, ← zpow_add₀ (by norm_num)]
      congr 1; ring
    · unfold rangeCheck
      rw [if_pos (by omega)]
      congr 1
      symm; rw [decide_eq_true_iff]
      have := mul_pos hm hm
      linarith
  have hr3 : r3.datum = .zero false := C12_mul_exceptions (by omega) hF (by omega) _ _ _ k3 _ (by
    rw [hz, hmin]
    simp [mulSpecial, Datum.isNeg, (two_zpow_pos (bias E)).le])
  have lt0 : ∀ x y : Fp E F, (x.datum = .zero true ∨ x.datum = .zero false) → y.datum = .zero false → Interval.lower x y = y := by
    intro x y hx hy
    have hc := (C25_comparisons_real_order_partial (by omega) hF (by omega) hF x y (by rcases hx with h | h <;> rw [h] <;> simp)
      (by rw [hy]; simp) (fun s _ h => by rw [hy] at h; cases h)).1
    have hn : ¬ Ord.lessThan x y = true := fun h => by
      have := hc.mp h
      rcases hx with h | h <;> rw [h, hy] at this <;> exact this
    unfold Interval.lower
    rw [if_neg hn]
  refine ⟨⟨Limits.negMin E F, Limits.posZero E F⟩, ⟨Limits.min E F, Limits.min E F⟩, -2 ^ (-bias E), 2 ^ (-bias E), r1, r1, r3, r3,
    ?_, ?_, k1, k1, k3, k3, ?_⟩
  · simp only [Interval.Holds, hneg, hz, Datum.AtMost, Datum.AtLeast]
    exact ⟨le_rfl, by linarith⟩
  · simp only [Interval.Holds, hmin, Datum.AtMost, Datum.AtLeast]
    exact ⟨le_rfl, le_rfl⟩
  · have h11 : (Interval.lower r1 r1).datum = .zero true ∨ (Interval.lower r1 r1).datum = .zero false := by
      unfold Interval.lower; split_ifs <;> exact hr1
    rw [lt0 r3 r3 (Or.inr hr3) hr3, lt0 _ r3 h11 hr3]
    have hb := nextdown_below (by omega) hF r3 (by rw [hr3]; simp) (by rw [hr3]; simp)
    have hpred := ((C09_nextdown_correct_iff (by omega) hF r3 (by rw [hr3]; simp) (by rw [hr3]; simp)).mpr (by
      have : r3.isNormal = false := by
        rcases flags_cases r3 with f | f | f | f
        · simp [Fp.isNormal, f]
        · rw [datum_normal _ f] at hr3; cases hr3
        · simp [Fp.isNormal, f]
        · simp [Fp.isNormal, f]
      simp [this])).2 (Limits.negZero E F)
    rw [hr3, hnz] at hpred
    rw [hr3] at hb
    have hmm := mul_pos hm hm
    intro h
    cases hd : (nextdown r3).datum with
    | nan => rw [hd] at h; exact h
    | inf s => rw [hd] at hpred hb; cases s <;> simp [Datum.Below] at hpred hb
    | zero s =>
      rw [hd] at h
      simp only [Datum.AtMost] at h
      linarith
    | num v =>
      rw [hd] at hpred hb
      simp only [Datum.Below] at hb
      simp [Datum.Below] at hpred
      linarith

end Thls
