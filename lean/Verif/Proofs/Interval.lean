import Verif.SpecInterval
import Verif.Props.Scaling
import Verif.Props.Exact

/-! Lemmas for property C111: neighbours of rounded results, extremes, products and quotients of intervals. -/

namespace Thls
open Spec

theorem below_trans {a b c : Datum} (h1 : a.Below b) (h2 : b.Below c) : a.Below c := by
  revert h1 h2
  rcases a with _ | s | s | p <;> rcases b with _ | t | t | q <;> rcases c with _ | u | u | r <;>
    (try cases s) <;> (try cases t) <;> (try cases u) <;> simp [Datum.Below]
  all_goals intro h1
  all_goals first | linarith | (intro h2; linarith)

/-- `nextdown` goes down, everywhere, although not always by one step. -/
theorem nextdown_below {E F : ℕ} (hE : 1 ≤ E) (hF : 1 ≤ F) (x : Fp E F) (hx : x.datum ≠ .nan) (hi : x.datum ≠ .inf true) :
    (nextdown x).datum.Below x.datum := by
  by_cases h1 : x.isNormal = true ∧ x.isPositive = true ∧ x.frac = 0 ∧ x.exp ≠ 0
  · obtain ⟨y, hy⟩ := C09_nextdown_wrong_at_powers_of_two hE hF x h1.1 h1.2.1 h1.2.2.1 h1.2.2.2
    exact below_trans hy.1 hy.2
  by_cases h2 : x.isNormal = true ∧ x.isNegative = true ∧ x.frac = 2 ^ F - 1 ∧ x.exp ≠ 2 ^ E - 1
  · obtain ⟨y, hy⟩ := C09_nextdown_wrong_below_negative_binade hE hF x h2.1 h2.2.1 h2.2.2.1 h2.2.2.2
    exact below_trans hy.1 hy.2
  exact ((C09_nextdown_correct_iff hE hF x hx hi).mpr ⟨h1, h2⟩).1

theorem nextdown_bot {E F : ℕ} (x : Fp E F) (h : x.datum = .inf true) : nextdown x = x := by
  have hs := x.sign_lt
  have : x.flags = 2 ∧ x.sign = 1 := by
    rcases flags_cases x with fx | fx | fx | fx
    · rw [datum_flags0 x fx] at h; cases h
    · rw [datum_normal x fx] at h; cases h
    · rw [datum_flags2 x fx] at h
      simp at h
      exact ⟨fx, by omega⟩
    · rw [datum_flags3 x fx] at h; cases h
  simp [nextdown, Fp.isPosInf, Fp.isPosNormal, Fp.isPosZero, Fp.isNegZero, Fp.isNegNormal, Fp.isNegInf, Fp.isPositive, Fp.isNegative,
    Fp.isInf, Fp.isZero, Fp.isNormal, this]

theorem rounded0_own {E F : ℕ} (hE : 1 ≤ E) (hF : 1 ≤ F) (x : Fp E F) {v : ℚ} (hx : x.datum.fin = some v) :
    Rounded0 E F v x.datum := by
  unfold Rounded0
  cases hd : x.datum with
  | nan => rw [hd] at hx; cases hx
  | inf s => rw [hd] at hx; cases hx
  | zero s => rw [hd] at hx; rw [if_pos (Option.some.inj hx).symm]; exact ⟨s, rfl⟩
  | num w =>
    rw [hd] at hx
    obtain rfl : w = v := Option.some.inj hx
    rw [if_neg (num_ne_zero hd), ← hd]
    exact rounded_self hF hE x w hd

theorem rounded_zero_sign {E F : ℕ} {q : ℚ} {s : Bool} (h : Rounded E F q (.zero s)) : s = decide (q < 0) := by
  obtain ⟨m, e, -, h⟩ := h
  unfold rangeCheck at h
  split_ifs at h
  exact (Datum.zero.inj h)

/-- Nothing lies both below and above: the total order refines the real order. -/
theorem below_not_le {a b : Datum} (h1 : a.Below b) (h2 : b.Le a) : a = .zero true ∧ b = .zero false := by
  revert h1 h2
  rcases a with _ | s | s | p <;> rcases b with _ | t | t | q <;>
    (try cases s) <;> (try cases t) <;> simp [Datum.Below, Datum.Le, Datum.Lt, Datum.RealEq]
  all_goals intro h1
  all_goals first | linarith | (constructor <;> (try intro h) <;> linarith) | (intro h; linarith)

/-- The upper neighbour of a rounded number is not below that number. -/
theorem nextup_atLeast {E F : ℕ} (hE : 1 ≤ E) (hF : 1 ≤ F) {x : Fp E F} {q : ℚ} (h : Rounded0 E F q x.datum) :
    (nextup x).datum.AtLeast q := by
  have hn := rounded0_ne_nan h
  by_cases hi : x.datum = .inf false
  · rw [(C08_nextup_special hE hF x).1 hi, hi]; rfl
  have hb := (C08_nextup_successor hE hF x hn hi).1
  have key : ∀ v, (nextup x).datum.fin = some v → q ≤ v := by
    intro v hv
    by_contra hlt
    push Not at hlt
    have hle := rounded0_mono hlt.le (rounded0_own hE hF _ hv) h
    obtain ⟨h1, h2⟩ := below_not_le hb hle
    rw [h2] at hv
    obtain rfl : 0 = v := Option.some.inj hv
    unfold Rounded0 at h
    rw [if_neg hlt.ne', h1] at h
    have := rounded_zero_sign h
    rw [eq_comm, decide_eq_true_iff] at this
    linarith
  cases hd : (nextup x).datum with
  | nan => rw [hd] at hb; cases hx : x.datum <;> rw [hx] at hb <;> (try exact hb.elim)
           all_goals exact absurd hb (by simp [Datum.Below])
  | inf s =>
    cases s with
    | false => rfl
    | true => rw [hd] at hb; rcases hx : x.datum with _ | t | t | p <;> (try cases t) <;> simp [hx, Datum.Below] at hb
  | zero s => exact key 0 (by rw [hd]; rfl)
  | num v => exact key v (by rw [hd]; rfl)

/-- The result of `nextdown` on a rounded number is not above that number. -/
theorem nextdown_atMost {E F : ℕ} (hE : 1 ≤ E) (hF : 1 ≤ F) {x : Fp E F} {q : ℚ} (h : Rounded0 E F q x.datum) :
    (nextdown x).datum.AtMost q := by
  have hn := rounded0_ne_nan h
  by_cases hi : x.datum = .inf true
  · rw [nextdown_bot x hi, hi]; rfl
  have hb := nextdown_below hE hF x hn hi
  have key : ∀ v, (nextdown x).datum.fin = some v → v ≤ q := by
    intro v hv
    by_contra hlt
    push Not at hlt
    have hle := rounded0_mono hlt.le h (rounded0_own hE hF _ hv)
    obtain ⟨h1, h2⟩ := below_not_le hb hle
    rw [h1] at hv
    obtain rfl : 0 = v := Option.some.inj hv
    unfold Rounded0 at h
    rw [if_neg hlt.ne, h2] at h
    have := rounded_zero_sign h
    rw [eq_comm, decide_eq_false_iff_not] at this
    exact this hlt
  cases hd : (nextdown x).datum with
  | nan => rw [hd] at hb; exact absurd hb (by simp [Datum.Below])
  | inf s =>
    cases s with
    | true => rfl
    | false => rw [hd] at hb; rcases hx : x.datum with _ | t | t | p <;> (try cases t) <;> simp [hx, Datum.Below] at hb
  | zero s => exact key 0 (by rw [hd]; rfl)
  | num v => exact key v (by rw [hd]; rfl)

theorem atMost_mono {d : Datum} {p q : ℚ} (h : d.AtMost p) (hpq : p ≤ q) : d.AtMost q := by
  rcases d with _ | s | s | v <;> simp only [Datum.AtMost] at h ⊢ <;> first | exact h | exact le_trans h hpq

theorem atLeast_mono {d : Datum} {p q : ℚ} (h : d.AtLeast p) (hpq : q ≤ p) : d.AtLeast q := by
  rcases d with _ | s | s | v <;> simp only [Datum.AtLeast] at h ⊢ <;> first | exact h | exact le_trans hpq h

theorem atMost_le {a b : Datum} {q : ℚ} (h : a.Le b) (hb : b.AtMost q) : a.AtMost q := by
  revert h hb
  rcases a with _ | s | s | p <;> rcases b with _ | t | t | r <;>
    (try cases s) <;> (try cases t) <;> simp [Datum.AtMost, Datum.Le, Datum.Lt, Datum.RealEq]
  all_goals intro h1 h2
  all_goals first | linarith | (rcases h1 with h1 | h1 <;> linarith)

theorem atLeast_le {a b : Datum} {q : ℚ} (h : b.Le a) (hb : b.AtLeast q) : a.AtLeast q := by
  revert h hb
  rcases a with _ | s | s | p <;> rcases b with _ | t | t | r <;>
    (try cases s) <;> (try cases t) <;> simp [Datum.AtLeast, Datum.Le, Datum.Lt, Datum.RealEq]
  all_goals intro h1 h2
  all_goals first | linarith | (rcases h1 with h1 | h1 <;> linarith)

theorem atMost_ne_nan {d : Datum} {q : ℚ} (h : d.AtMost q) : d ≠ .nan := by rintro rfl; exact h
theorem atLeast_ne_nan {d : Datum} {q : ℚ} (h : d.AtLeast q) : d ≠ .nan := by rintro rfl; exact h

theorem le_total_datum {a b : Datum} (ha : a ≠ .nan) (hb : b ≠ .nan) (ha0 : a ≠ .num 0) (hb0 : b ≠ .num 0)
    (h : ¬ a.Lt b) : b.Le a := by
  revert ha hb ha0 hb0 h
  rcases a with _ | s | s | p <;> rcases b with _ | t | t | r <;>
    (try cases s) <;> (try cases t) <;> simp [Datum.Le, Datum.Lt, Datum.RealEq]
  · exact fun h1 h2 => lt_of_le_of_ne h2 h1
  · exact fun h1 h2 => lt_of_le_of_ne h2 h1
  · exact fun h1 h2 => lt_of_le_of_ne h2 (Ne.symm h1)
  · exact fun h1 h2 => lt_of_le_of_ne h2 (Ne.symm h1)
  · exact fun _ _ h => lt_or_eq_of_le h

/-- What `less_than` decides, also between two infinities, of which it may take either for the smaller one. -/
theorem lessThan_le {E F : ℕ} (hE : 1 ≤ E) (hF : 1 ≤ F) {x y : Fp E F} (hx : x.datum ≠ .nan) (hy : y.datum ≠ .nan) :
    (Ord.lessThan x y = true → x.datum.Le y.datum) ∧ (Ord.lessThan x y = false → y.datum.Le x.datum) := by
  by_cases h : ∃ s, x.datum = .inf s ∧ y.datum = .inf s
  · obtain ⟨s, h1, h2⟩ := h
    rw [h1, h2]
    exact ⟨fun _ => Or.inr (by simp [Datum.RealEq]), fun _ => Or.inr (by simp [Datum.RealEq])⟩
  · have hc := (C25_comparisons_real_order_partial hE hF hE hF x y hx hy (fun s h1 h2 => absurd ⟨s, h1, h2⟩ h)).1
    refine ⟨fun h => Or.inl (hc.mp h), fun h => le_total_datum hx hy (fun h0 => num_ne_zero h0 rfl) (fun h0 => num_ne_zero h0 rfl)
      (fun h' => ?_)⟩
    rw [hc.mpr h'] at h; cases h

theorem lower_atMost {E F : ℕ} (hE : 1 ≤ E) (hF : 1 ≤ F) {x y : Fp E F} {q : ℚ} (hx : x.datum ≠ .nan) (hy : y.datum ≠ .nan)
    (h : x.datum.AtMost q ∨ y.datum.AtMost q) : (Interval.lower x y).datum.AtMost q := by
  obtain ⟨h1, h2⟩ := lessThan_le hE hF hx hy
  unfold Interval.lower
  cases hc : Ord.lessThan x y
  · rw [if_neg (by simp)]
    rcases h with h | h
    · exact atMost_le (h2 hc) h
    · exact h
  · rw [if_pos rfl]
    rcases h with h | h
    · exact h
    · exact atMost_le (h1 hc) h

theorem upper_atLeast {E F : ℕ} (hE : 1 ≤ E) (hF : 1 ≤ F) {x y : Fp E F} {q : ℚ} (hx : x.datum ≠ .nan) (hy : y.datum ≠ .nan)
    (h : x.datum.AtLeast q ∨ y.datum.AtLeast q) : (Interval.upper x y).datum.AtLeast q := by
  obtain ⟨h1, h2⟩ := lessThan_le hE hF hx hy
  unfold Interval.upper
  cases hc : Ord.lessThan x y
  · rw [if_neg (by simp)]
    rcases h with h | h
    · exact h
    · exact atLeast_le (h2 hc) h
  · rw [if_pos rfl]
    rcases h with h | h
    · exact atLeast_le (h1 hc) h
    · exact h

theorem lower_ne_nan {E F : ℕ} {x y : Fp E F} (hx : x.datum ≠ .nan) (hy : y.datum ≠ .nan) : (Interval.lower x y).datum ≠ .nan := by
  unfold Interval.lower; split_ifs <;> assumption
theorem upper_ne_nan {E F : ℕ} {x y : Fp E F} (hx : x.datum ≠ .nan) (hy : y.datum ≠ .nan) : (Interval.upper x y).datum ≠ .nan := by
  unfold Interval.upper; split_ifs <;> assumption

/-- The hull of four rounded results holds everything between them. -/
theorem hull_holds {E F : ℕ} (hE : 1 ≤ E) (hF : 1 ≤ F) {p q r s : Fp E F} {a b c d v : ℚ} (hp : Rounded0 E F a p.datum)
    (hq : Rounded0 E F b q.datum) (hr : Rounded0 E F c r.datum) (hs : Rounded0 E F d s.datum)
    (hlo : a ≤ v ∨ b ≤ v ∨ c ≤ v ∨ d ≤ v) (hhi : v ≤ a ∨ v ≤ b ∨ v ≤ c ∨ v ≤ d) : (Interval.hull p q r s).Holds v := by
  have p1 := nextdown_atMost hE hF hp
  have q1 := nextdown_atMost hE hF hq
  have r1 := nextdown_atMost hE hF hr
  have s1 := nextdown_atMost hE hF hs
  have p2 := nextup_atLeast hE hF hp
  have q2 := nextup_atLeast hE hF hq
  have r2 := nextup_atLeast hE hF hr
  have s2 := nextup_atLeast hE hF hs
  have np := atMost_ne_nan p1
  have nq := atMost_ne_nan q1
  have nr := atMost_ne_nan r1
  have ns := atMost_ne_nan s1
  have np' := atLeast_ne_nan p2
  have nq' := atLeast_ne_nan q2
  have nr' := atLeast_ne_nan r2
  have ns' := atLeast_ne_nan s2
  constructor
  · refine lower_atMost hE hF (lower_ne_nan np nq) (lower_ne_nan nr ns) ?_
    rcases hlo with h | h | h | h
    · exact Or.inl (lower_atMost hE hF np nq (Or.inl (atMost_mono p1 h)))
    · exact Or.inl (lower_atMost hE hF np nq (Or.inr (atMost_mono q1 h)))
    · exact Or.inr (lower_atMost hE hF nr ns (Or.inl (atMost_mono r1 h)))
    · exact Or.inr (lower_atMost hE hF nr ns (Or.inr (atMost_mono s1 h)))
  · refine upper_atLeast hE hF (upper_ne_nan np' nq') (upper_ne_nan nr' ns') ?_
    rcases hhi with h | h | h | h
    · exact Or.inl (upper_atLeast hE hF np' nq' (Or.inl (atLeast_mono p2 h)))
    · exact Or.inl (upper_atLeast hE hF np' nq' (Or.inr (atLeast_mono q2 h)))
    · exact Or.inr (upper_atLeast hE hF nr' ns' (Or.inl (atLeast_mono r2 h)))
    · exact Or.inr (upper_atLeast hE hF nr' ns' (Or.inr (atLeast_mono s2 h)))

/-- A product lies between the products of the end points. -/
theorem product_corners {a b c d x y : ℚ} (h1 : a ≤ x) (h2 : x ≤ b) (h3 : c ≤ y) (h4 : y ≤ d) :
    (a * c ≤ x * y ∨ a * d ≤ x * y ∨ b * c ≤ x * y ∨ b * d ≤ x * y) ∧ (x * y ≤ a * c ∨ x * y ≤ a * d ∨ x * y ≤ b * c ∨ x * y ≤ b * d) := by
  constructor
  · rcases le_total 0 x with hx | hx
    · have k1 : x * c ≤ x * y := mul_le_mul_of_nonneg_left h3 hx
      rcases le_total 0 c with hc | hc
      · exact Or.inl (le_trans (mul_le_mul_of_nonneg_right h1 hc) k1)
      · exact Or.inr (Or.inr (Or.inl (le_trans (mul_le_mul_of_nonpos_right h2 hc) k1)))
    · have k1 : x * d ≤ x * y := mul_le_mul_of_nonpos_left h4 hx
      rcases le_total 0 d with hd | hd
      · exact Or.inr (Or.inl (le_trans (mul_le_mul_of_nonneg_right h1 hd) k1))
      · exact Or.inr (Or.inr (Or.inr (le_trans (mul_le_mul_of_nonpos_right h2 hd) k1)))
  · rcases le_total 0 x with hx | hx
    · have k1 : x * y ≤ x * d := mul_le_mul_of_nonneg_left h4 hx
      rcases le_total 0 d with hd | hd
      · exact Or.inr (Or.inr (Or.inr (le_trans k1 (mul_le_mul_of_nonneg_right h2 hd))))
      · exact Or.inr (Or.inl (le_trans k1 (mul_le_mul_of_nonpos_right h1 hd)))
    · have k1 : x * y ≤ x * c := mul_le_mul_of_nonpos_left h3 hx
      rcases le_total 0 c with hc | hc
      · exact Or.inr (Or.inr (Or.inl (le_trans k1 (mul_le_mul_of_nonneg_right h2 hc))))
      · exact Or.inl (le_trans k1 (mul_le_mul_of_nonpos_right h1 hc))

/-- A quotient lies between the quotients of the end points, if zero is not between those of the divisor. -/
theorem quotient_corners {a b c d x y : ℚ} (h1 : a ≤ x) (h2 : x ≤ b) (h3 : c ≤ y) (h4 : y ≤ d) (h0 : 0 < c ∨ d < 0) :
    (a / c ≤ x / y ∨ a / d ≤ x / y ∨ b / c ≤ x / y ∨ b / d ≤ x / y) ∧ (x / y ≤ a / c ∨ x / y ≤ a / d ∨ x / y ≤ b / c ∨ x / y ≤ b / d) := by
  have hinv : d⁻¹ ≤ y⁻¹ ∧ y⁻¹ ≤ c⁻¹ := by
    rcases h0 with h | h
    · exact ⟨inv_anti₀ (by linarith) h4, inv_anti₀ h h3⟩
    · constructor
      · rw [inv_le_inv_of_neg h (by linarith)]; exact h4
      · rw [inv_le_inv_of_neg (by linarith) (by linarith)]; exact h3
  obtain ⟨k1, k2⟩ := product_corners h1 h2 hinv.1 hinv.2
  simp only [div_eq_mul_inv]
  exact ⟨by tauto, by tauto⟩

theorem finite_fin {E F : ℕ} {x : Fp E F} (h : Interval.finite x = true) : ∃ v, x.datum.fin = some v := by
  unfold Interval.finite Fp.isZero Fp.isNormal at h
  simp only [Bool.or_eq_true, beq_iff_eq] at h
  rcases h with h | h
  · rw [datum_flags0 x h]; exact ⟨_, rfl⟩
  · rw [datum_normal x h]; exact ⟨_, rfl⟩

theorem atMost_fin {d : Datum} {v q : ℚ} (h : d.fin = some v) : d.AtMost q ↔ v ≤ q := by
  rcases d with _ | s | s | w <;> simp [Datum.fin] at h <;> subst h <;> rfl

theorem atLeast_fin {d : Datum} {v q : ℚ} (h : d.fin = some v) : d.AtLeast q ↔ q ≤ v := by
  rcases d with _ | s | s | w <;> simp [Datum.fin] at h <;> subst h <;> rfl

theorem atMost_cases {d : Datum} {q : ℚ} (h : d.AtMost q) : d = .inf true ∨ ∃ v, d.fin = some v ∧ v ≤ q := by
  rcases d with _ | s | s | w
  · exact h.elim
  · left; rw [show s = true from h]
  · exact Or.inr ⟨0, rfl, h⟩
  · exact Or.inr ⟨w, rfl, h⟩

theorem atLeast_cases {d : Datum} {q : ℚ} (h : d.AtLeast q) : d = .inf false ∨ ∃ v, d.fin = some v ∧ q ≤ v := by
  rcases d with _ | s | s | w
  · exact h.elim
  · left; rw [show s = false from h]
  · exact Or.inr ⟨0, rfl, h⟩
  · exact Or.inr ⟨w, rfl, h⟩

theorem everything_holds {E F : ℕ} (hE : 1 ≤ E) (hF : 1 ≤ F) (q : ℚ) : (Interval.everything E F).Holds q := by
  obtain ⟨-, -, -, -, -, h1, h2, -⟩ := C46_limits_values_partial hE hF
  constructor
  · change (Limits.negInfinity E F).datum.AtMost q; rw [h2]; rfl
  · change (Limits.infinity E F).datum.AtLeast q; rw [h1]; rfl

/-- The upper neighbour of a number that was rounded to a wider format first. -/
theorem nextup_atLeast_twice {E F E' F' : ℕ} (hE : 1 ≤ E) (hF : 1 ≤ F) (hEE : E ≤ E') (hFF : F ≤ F') {q : ℚ} {s : Fp E' F'} {r : Fp E F}
    (hs : Rounded0 E' F' q s.datum) (h1 : ∀ w, s.datum = .num w → Rounded E F w r.datum)
    (h2 : (∀ w, s.datum ≠ .num w) → r.datum = s.datum) : (nextup r).datum.AtLeast q := by
  have wide : ∀ v, (nextup r).datum.fin = some v → v < q → (nextup r).datum.Le s.datum := by
    intro v hv hlt
    have hw := C23_convert_widen_exact hE hF hEE hFF (nextup r)
    rw [← hw]
    exact rounded0_mono hlt.le (rounded0_own (by omega) (by omega) _ (by rw [hw]; exact hv)) hs
  have concl : (∀ v, (nextup r).datum.fin = some v → q ≤ v) → (∃ w, (nextup r).datum.AtLeast w) → (nextup r).datum.AtLeast q := by
    rintro h ⟨w, hw⟩
    rcases atLeast_cases hw with h0 | ⟨v, hv, -⟩
    · rw [h0]; rfl
    · exact (atLeast_fin hv).mpr (h v hv)
  by_cases hn : ∃ w, s.datum = .num w
  · obtain ⟨w, hw⟩ := hn
    have hw0 := num_ne_zero hw
    have hr : Rounded0 E F w r.datum := by unfold Rounded0; rw [if_neg hw0]; exact h1 w hw
    have hu := nextup_atLeast hE hF hr
    refine concl (fun v hv => ?_) ⟨w, hu⟩
    by_contra hlt
    push Not at hlt
    have k1 := wide v hv hlt
    have k2 : v ≤ w := le_fin hv (by rw [hw]; rfl) k1
    have k3 : w ≤ v := (atLeast_fin hv).mp hu
    obtain rfl : v = w := le_antisymm k2 k3
    have k4 : (nextup r).datum.Le r.datum := rounded0_mono le_rfl (rounded0_own hE hF _ hv) hr
    by_cases hi : r.datum = .inf false
    · rw [(C08_nextup_special hE hF r).1 hi, hi] at hv; cases hv
    · obtain ⟨-, k5⟩ := below_not_le (C08_nextup_successor hE hF r (rounded0_ne_nan hr) hi).1 k4
      rw [k5] at hv
      exact hw0 (Option.some.inj hv).symm
  · have hr := h2 (fun w hw => hn ⟨w, hw⟩)
    cases hd : s.datum with
    | nan => exact absurd hd (rounded0_ne_nan hs)
    | num w => exact absurd ⟨w, hd⟩ hn
    | inf t =>
      rw [hd] at hr
      cases t with
      | false => rw [(C08_nextup_special hE hF r).1 hr, hr]; rfl
      | true =>
        have hb := (C08_nextup_successor hE hF r (by rw [hr]; simp) (by rw [hr]; simp)).1
        by_contra hc
        cases hv : (nextup r).datum.fin with
        | some v =>
          have hlt : v < q := by by_contra h; exact hc ((atLeast_fin hv).mpr (not_lt.mp h))
          have := wide v hv hlt
          rw [hd] at this
          rw [le_bot this] at hv
          cases hv
        | none =>
          cases hu : (nextup r).datum with
          | nan => rw [hu, hr] at hb; exact hb
          | zero t => rw [hu] at hv; cases hv
          | num w => rw [hu] at hv; cases hv
          | inf t =>
            cases t with
            | false => rw [hu] at hc; exact hc rfl
            | true => rw [hu, hr] at hb; exact hb
    | zero t =>
      rw [hd] at hr
      have h0 : Rounded0 E F 0 r.datum := by rw [hr]; unfold Rounded0; rw [if_pos rfl]; exact ⟨t, rfl⟩
      have hu := nextup_atLeast hE hF h0
      refine concl (fun v hv => ?_) ⟨0, hu⟩
      by_contra hlt
      push Not at hlt
      have k1 := wide v hv hlt
      rw [hd, ← hr] at k1
      obtain ⟨k2, k3⟩ := below_not_le (C08_nextup_successor hE hF r (rounded0_ne_nan h0) (by rw [hr]; simp)).1 k1
      rw [k3] at hv
      obtain rfl : 0 = v := Option.some.inj hv
      rw [hr] at k2
      unfold Rounded0 at hs
      rw [if_neg hlt.ne', hd, k2] at hs
      have := rounded_zero_sign hs
      rw [eq_comm, decide_eq_true_iff] at this
      linarith

/-- The result of `nextdown` on a number that was rounded to a wider format first. -/
theorem nextdown_atMost_twice {E F E' F' : ℕ} (hE : 1 ≤ E) (hF : 1 ≤ F) (hEE : E ≤ E') (hFF : F ≤ F') {q : ℚ} {s : Fp E' F'} {r : Fp E F}
    (hs : Rounded0 E' F' q s.datum) (h1 : ∀ w, s.datum = .num w → Rounded E F w r.datum)
    (h2 : (∀ w, s.datum ≠ .num w) → r.datum = s.datum) : (nextdown r).datum.AtMost q := by
  have wide : ∀ v, (nextdown r).datum.fin = some v → q < v → s.datum.Le (nextdown r).datum := by
    intro v hv hlt
    have hw := C23_convert_widen_exact hE hF hEE hFF (nextdown r)
    rw [← hw]
    exact rounded0_mono hlt.le hs (rounded0_own (by omega) (by omega) _ (by rw [hw]; exact hv))
  have concl : (∀ v, (nextdown r).datum.fin = some v → v ≤ q) → (∃ w, (nextdown r).datum.AtMost w) → (nextdown r).datum.AtMost q := by
    rintro h ⟨w, hw⟩
    rcases atMost_cases hw with h0 | ⟨v, hv, -⟩
    · rw [h0]; rfl
    · exact (atMost_fin hv).mpr (h v hv)
  by_cases hn : ∃ w, s.datum = .num w
  · obtain ⟨w, hw⟩ := hn
    have hw0 := num_ne_zero hw
    have hr : Rounded0 E F w r.datum := by unfold Rounded0; rw [if_neg hw0]; exact h1 w hw
    have hu := nextdown_atMost hE hF hr
    refine concl (fun v hv => ?_) ⟨w, hu⟩
    by_contra hlt
    push Not at hlt
    have k1 := wide v hv hlt
    have k2 : w ≤ v := le_fin (by rw [hw]; rfl) hv k1
    have k3 : v ≤ w := (atMost_fin hv).mp hu
    obtain rfl : v = w := le_antisymm k3 k2
    have k4 : r.datum.Le (nextdown r).datum := rounded0_mono le_rfl hr (rounded0_own hE hF _ hv)
    by_cases hi : r.datum = .inf true
    · rw [nextdown_bot r hi, hi] at hv; cases hv
    · obtain ⟨k5, -⟩ := below_not_le (nextdown_below hE hF r (rounded0_ne_nan hr) hi) k4
      rw [k5] at hv
      exact hw0 (Option.some.inj hv).symm
  · have hr := h2 (fun w hw => hn ⟨w, hw⟩)
    cases hd : s.datum with
    | nan => exact absurd hd (rounded0_ne_nan hs)
    | num w => exact absurd ⟨w, hd⟩ hn
    | inf t =>
      rw [hd] at hr
      cases t with
      | true => rw [nextdown_bot r hr, hr]; rfl
      | false =>
        have hb := nextdown_below hE hF r (by rw [hr]; simp) (by rw [hr]; simp)
        by_contra hc
        cases hv : (nextdown r).datum.fin with
        | some v =>
          have hlt : q < v := by by_contra h; exact hc ((atMost_fin hv).mpr (not_lt.mp h))
          have := wide v hv hlt
          rw [hd] at this
          rw [top_le this] at hv
          cases hv
        | none =>
          cases hu : (nextdown r).datum with
          | nan => rw [hu, hr] at hb; exact hb
          | zero t => rw [hu] at hv; cases hv
          | num w => rw [hu] at hv; cases hv
          | inf t =>
            cases t with
            | true => rw [hu] at hc; exact hc rfl
            | false => rw [hu, hr] at hb; exact hb
    | zero t =>
      rw [hd] at hr
      have h0 : Rounded0 E F 0 r.datum := by rw [hr]; unfold Rounded0; rw [if_pos rfl]; exact ⟨t, rfl⟩
      have hu := nextdown_atMost hE hF h0
      refine concl (fun v hv => ?_) ⟨0, hu⟩
      by_contra hlt
      push Not at hlt
      have k1 := wide v hv hlt
      rw [hd, ← hr] at k1
      obtain ⟨k2, k3⟩ := below_not_le (nextdown_below hE hF r (rounded0_ne_nan h0) (by rw [hr]; simp)) k1
      rw [k2] at hv
      obtain rfl : 0 = v := Option.some.inj hv
      rw [hr] at k3
      unfold Rounded0 at hs
      rw [if_neg hlt.ne, hd, k3] at hs
      have := rounded_zero_sign hs
      rw [eq_comm, decide_eq_false_iff_not] at this
      exact this hlt

end Thls
