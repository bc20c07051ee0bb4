import Verif.Proofs.SoftUnique
import Verif.Props.Algebra

/-! # Monotonicity of the IEEE 754 operations -/

namespace Thls
open Spec

/-- The signed value of a rounded datum lies within the infinities. -/
theorem roundedG_le {E F : ℕ} {q r : ℚ} {d d' : Datum} (hF : 1 ≤ F) (hq : q ≠ 0) (hr : r ≠ 0) (hqr : q ≤ r)
    (h : RoundedGradual E F q d) (h' : RoundedGradual E F r d') : d.Le d' := by
  obtain ⟨m, e, hn, rfl⟩ := h
  obtain ⟨m', e', hn', rfl⟩ := h'
  have p := two_zpow_pos e
  have p' := two_zpow_pos e'
  have v0 : (0 : ℚ) ≤ m * 2 ^ e := by positivity
  have v0' : (0 : ℚ) ≤ m' * 2 ^ e' := by positivity
  rcases lt_or_gt_of_ne hq with hq' | hq' <;> rcases lt_or_gt_of_ne hr with hr' | hr'
  · have hv := nearestG_mono hF hn' hn (by rw [abs_of_neg hq', abs_of_neg hr']; linarith)
    simp only [hq', hr', decide_true, if_true]
    split_ifs with a1 a2 a3 a4 a5 a6 a7 a8
    all_goals simp [Datum.Le, Datum.Lt, Datum.RealEq]
    · subst a1; rw [Nat.cast_zero, zero_mul] at hv
      exact absurd ((zero_iff_value m' e').2 (le_antisymm hv v0')) a2
    · subst a1; rw [Nat.cast_zero, zero_mul] at hv
      exact absurd ((zero_iff_value m' e').2 (le_antisymm hv v0')) a2
    · exact lt_of_le_of_ne v0 fun h => a1 ((zero_iff_value m e).2 h.symm)
    · linarith
    · rcases hv.eq_or_lt with h | h
      · right; exact h.symm
      · left; exact h
  · simp only [hq', not_lt.2 hr'.le, decide_true, decide_false, if_true, if_false]
    split_ifs with a1 a2 a3 a4 a5 a6 a7 a8
    all_goals simp [Datum.Le, Datum.Lt, Datum.RealEq]
    · exact lt_of_le_of_ne v0' fun h => a2 ((zero_iff_value m' e').2 h.symm)
    · exact lt_of_le_of_ne v0 fun h => a1 ((zero_iff_value m e).2 h.symm)
    · left
      have : (0 : ℚ) < m * 2 ^ e := lt_of_le_of_ne v0 fun h => a1 ((zero_iff_value m e).2 h.symm)
      linarith
  · linarith
  · have hv := nearestG_mono hF hn hn' (by rw [abs_of_pos hq', abs_of_pos hr']; exact hqr)
    simp only [not_lt.2 hq'.le, not_lt.2 hr'.le, decide_false, if_false]
    split_ifs with a1 a2 a3 a4 a5 a6 a7 a8
    all_goals simp [Datum.Le, Datum.Lt, Datum.RealEq]
    · exact lt_of_le_of_ne v0' fun h => a2 ((zero_iff_value m' e').2 h.symm)
    · subst a5; rw [Nat.cast_zero, zero_mul] at hv
      exact absurd ((zero_iff_value m e).2 (le_antisymm hv v0)) a1
    · linarith
    · subst a7; rw [Nat.cast_zero, zero_mul] at hv
      exact absurd ((zero_iff_value m e).2 (le_antisymm hv v0)) a1
    · rcases hv.eq_or_lt with h | h
      · right; exact h
      · left; exact h

/-- `d` is `q` rounded, or a zero if `q` is zero. -/
def RoundedG0 (E F : ℕ) (q : ℚ) (d : Datum) : Prop := if q = 0 then ∃ s, d = .zero s else RoundedGradual E F q d

theorem roundedG_sign {E F : ℕ} {q : ℚ} {d : Datum} (h : RoundedGradual E F q d) :
    (0 < q → (Datum.zero false).Le d) ∧ (q < 0 → d.Le (.zero false)) := by
  obtain ⟨m, e, hn, rfl⟩ := h
  have v0 : (0 : ℚ) ≤ m * 2 ^ e := by have := two_zpow_pos e; positivity
  constructor
  · intro hq
    simp only [not_lt.2 hq.le, decide_false, if_false]
    split_ifs with a1 a2
    all_goals simp [Datum.Le, Datum.Lt, Datum.RealEq]
    exact lt_of_le_of_ne v0 fun h => a1 ((zero_iff_value m e).2 h.symm)
  · intro hq
    simp only [hq, decide_true, if_true]
    split_ifs with a1 a2
    all_goals simp [Datum.Le, Datum.Lt, Datum.RealEq]
    exact lt_of_le_of_ne v0 fun h => a1 ((zero_iff_value m e).2 h.symm)

theorem le_zero_any {d : Datum} (h : d.Le (.zero false)) (s : Bool) : d.Le (.zero s) := by
  rcases d with _ | (_ | _) | t | p <;> simpa [Datum.Le, Datum.Lt, Datum.RealEq] using h
theorem zero_any_le {d : Datum} (h : (Datum.zero false).Le d) (s : Bool) : (Datum.zero s).Le d := by
  rcases d with _ | (_ | _) | t | p <;> simpa [Datum.Le, Datum.Lt, Datum.RealEq] using h

theorem roundedG0_mono {E F : ℕ} {q r : ℚ} {d d' : Datum} (hF : 1 ≤ F) (hqr : q ≤ r) (h : RoundedG0 E F q d) (h' : RoundedG0 E F r d') :
    d.Le d' := by
  unfold RoundedG0 at h h'
  by_cases hq : q = 0 <;> by_cases hr : r = 0
  · rw [if_pos hq] at h; rw [if_pos hr] at h'
    obtain ⟨s, rfl⟩ := h; obtain ⟨t, rfl⟩ := h'
    right; trivial
  · rw [if_pos hq] at h; rw [if_neg hr] at h'
    obtain ⟨s, rfl⟩ := h
    exact zero_any_le ((roundedG_sign h').1 (lt_of_le_of_ne (by linarith) (Ne.symm hr))) s
  · rw [if_neg hq] at h; rw [if_pos hr] at h'
    obtain ⟨t, rfl⟩ := h'
    exact le_zero_any ((roundedG_sign h).2 (lt_of_le_of_ne (by linarith) hq)) t
  · rw [if_neg hq] at h; rw [if_neg hr] at h'
    exact roundedG_le hF hq hr hqr h h'

namespace SoftFmt
variable {f : SoftFmt}

/-- A number of the format is its own rounding. -/
theorem word_rounded (ok : f.Ok) {w : ℕ} (hw : w < 2 ^ f.W) {v : ℚ} (hv : wordDatum f.E f.F w = .num v) :
    v ≠ 0 ∧ RoundedGradual f.E f.F v (.num v) := by
  rcases kind ok hw with ⟨h1, d⟩ | ⟨h1, hf, d⟩ | ⟨h1, hf, d⟩ | ⟨h1, h0, d⟩
  · rw [d] at hv; cases hv
  · rw [d] at hv; cases hv
  · rw [d] at hv; cases hv
  · rw [d] at hv
    injection hv with hv
    subst hv
    have hp := mag_props ok h1 (fields_lt f w).2
    have hpos := mag_pos (f := f) h0
    have hs : (sg (f.sign w) * f.mag (f.exp w) (f.frac w) < 0) ↔ f.sign w = true := by
      cases h : f.sign w <;> simp [sg] <;> linarith
    have habs : |sg (f.sign w) * f.mag (f.exp w) (f.frac w)| = f.mag (f.exp w) (f.frac w) := by
      rw [abs_sg, abs_of_pos hpos]
    refine ⟨sg_num_ne h0, f.sigOf (f.exp w) (f.frac w), (tOf (f.exp w) : ℤ) + leastExp f.E f.F, ⟨hp.1, ?_, ?_, ?_⟩, ?_⟩
    · unfold sigOf tOf
      by_cases he : f.exp w = 0
      · right; rw [if_pos he]; simp
      · left; rw [if_neg he]; omega
    · intro m' e' _
      rw [habs]
      unfold mag
      rw [sub_self, abs_zero]
      exact abs_nonneg _
    · intro m' e' _ h2 h3
      rw [habs] at h2
      unfold mag at h2
      rw [sub_self, abs_zero] at h2
      exact absurd (by have := abs_eq_zero.1 h2.symm; linarith) h3
    · have e1 : (f.sigOf (f.exp w) (f.frac w) : ℚ) * 2 ^ ((tOf (f.exp w) : ℤ) + leastExp f.E f.F) = f.mag (f.exp w) (f.frac w) := rfl
      have hs0 : f.sigOf (f.exp w) (f.frac w) ≠ 0 := by
        rw [Ne, zero_iff_value _ ((tOf (f.exp w) : ℤ) + leastExp f.E f.F), e1]
        exact hpos.ne'
      rw [if_neg hs0, e1, if_neg (not_le.2 hp.2)]
      simp only [hs]
      rfl

/-- The sum of two finite words is the rounded exact sum. -/
theorem sum_fin (ok : f.Ok) {a b : ℕ} (ha : a < 2 ^ f.W) (hb : b < 2 ^ f.W) {u v : ℚ} {d : Datum}
    (hu : (wordDatum f.E f.F a).fin = some u) (hv : (wordDatum f.E f.F b).fin = some v)
    (h : IeeeSum f.E f.F (wordDatum f.E f.F a) (wordDatum f.E f.F b) d) : RoundedG0 f.E f.F (u + v) d := by
  unfold RoundedG0
  cases da : wordDatum f.E f.F a with
  | nan => rw [da] at hu; cases hu
  | inf s => rw [da] at hu; cases hu
  | zero s =>
    rw [da] at hu h; injection hu with hu; subst hu
    cases db : wordDatum f.E f.F b with
    | nan => rw [db] at hv; cases hv
    | inf s => rw [db] at hv; cases hv
    | zero t =>
      rw [db] at hv h; injection hv with hv; subst hv
      rw [if_pos (by ring)]
      exact ⟨_, (Option.some.inj h).symm⟩
    | num w =>
      rw [db] at hv h; injection hv with hv; subst hv
      have := word_rounded ok hb db
      rw [zero_add, if_neg this.1, ← Option.some.inj h]
      exact this.2
  | num w =>
    rw [da] at hu h; injection hu with hu; subst hu
    cases db : wordDatum f.E f.F b with
    | nan => rw [db] at hv; cases hv
    | inf s => rw [db] at hv; cases hv
    | zero t =>
      rw [db] at hv h; injection hv with hv; subst hv
      have := word_rounded ok ha da
      rw [add_zero, if_neg this.1, ← Option.some.inj h]
      exact this.2
    | num w' =>
      rw [db] at hv h; injection hv with hv; subst hv
      simp only [IeeeSum] at h
      by_cases h0 : w + w' = 0
      · rw [if_pos h0] at h ⊢; exact ⟨_, h⟩
      · rw [if_neg h0] at h ⊢; exact h

theorem ieeeSum_special {E F : ℕ} {x y d d' : Datum} (h : IeeeSum E F x y d) (hs : addSpecial x y = some d') : d = d' := by
  cases x <;> cases y <;> simp only [IeeeSum] at h
  all_goals first
    | exact Option.some.inj (h.symm.trans hs)
    | cases hs

theorem sum_mono (ok : f.Ok) {a b c : ℕ} (ha : a < 2 ^ f.W) (hb : b < 2 ^ f.W) (hc : c < 2 ^ f.W) {d d' : Datum}
    (hab : (wordDatum f.E f.F a).Le (wordDatum f.E f.F b)) (h : IeeeSum f.E f.F (wordDatum f.E f.F a) (wordDatum f.E f.F c) d)
    (h' : IeeeSum f.E f.F (wordDatum f.E f.F b) (wordDatum f.E f.F c) d') (hrn : d ≠ .nan) (hsn : d' ≠ .nan) : d.Le d' := by
  have hF : 1 ≤ f.F := by have := ok.hF; have := ok.hE; omega
  have nz : wordDatum f.E f.F c ≠ .nan := by
    intro hn
    refine hrn (ieeeSum_special h ?_)
    rw [hn]; cases wordDatum f.E f.F a <;> rfl
  obtain ⟨nx, ny⟩ := le_not_nan hab
  rcases fin_or ny with ⟨v, hv⟩ | ⟨k, hk⟩
  · rcases fin_or nx with ⟨u, hu⟩ | ⟨k, hk⟩
    · rcases fin_or nz with ⟨w, hw⟩ | ⟨k, hk⟩
      · exact roundedG0_mono hF (by have := le_fin hu hv hab; linarith) (sum_fin ok ha hc hu hw h) (sum_fin ok hb hc hv hw h')
      · have g : ∀ {q : Datum} {r : ℚ}, q.fin = some r → addSpecial q (wordDatum f.E f.F c) = some (.inf k) := by
          intro q r hq
          rw [hk]; cases q <;> first | rfl | cases hq
        rw [ieeeSum_special h (g hu), ieeeSum_special h' (g hv)]
        right; rfl
    · cases k with
      | false => rw [hk] at hab; rw [top_le hab] at hv; cases hv
      | true =>
        by_cases hz : wordDatum f.E f.F c = .inf false
        · exact absurd (ieeeSum_special h (addSpecial_nan hk hz)) hrn
        · rw [ieeeSum_special h (addSpecial_inf_left hk nz hz)]; exact bot_le hsn
  · cases k with
    | false =>
      by_cases hz : wordDatum f.E f.F c = .inf true
      · exact absurd (ieeeSum_special h' (addSpecial_nan hk hz)) hsn
      · rw [ieeeSum_special h' (addSpecial_inf_left hk nz hz)]; exact le_top hrn
    | true =>
      rw [hk] at hab
      by_cases hz : wordDatum f.E f.F c = .inf false
      · exact absurd (ieeeSum_special h' (addSpecial_nan hk hz)) hsn
      · rw [ieeeSum_special h' (addSpecial_inf_left hk nz hz), ieeeSum_special h (addSpecial_inf_left (le_bot hab) nz hz)]
        right; rfl

theorem ieeeProduct_special {E F : ℕ} {x y d d' : Datum} (h : IeeeProduct E F x y d) (hs : mulSpecial x y = some d') : d = d' := by
  cases x <;> cases y <;> simp only [IeeeProduct] at h
  all_goals first
    | exact Option.some.inj (h.symm.trans hs)
    | cases hs

theorem ieeeQuotient_special {E F : ℕ} {x y d d' : Datum} (h : IeeeQuotient E F x y d) (hs : divSpecial x y = some d') : d = d' := by
  cases x <;> cases y <;> simp only [IeeeQuotient] at h
  all_goals first
    | exact Option.some.inj (h.symm.trans hs)
    | cases hs

theorem num_word_ne (ok : f.Ok) {w : ℕ} (hw : w < 2 ^ f.W) {v : ℚ} (hv : wordDatum f.E f.F w = .num v) : v ≠ 0 :=
  (word_rounded ok hw hv).1

theorem product_mono (ok : f.Ok) {a b c : ℕ} (ha : a < 2 ^ f.W) (hb : b < 2 ^ f.W) (hc : c < 2 ^ f.W) {d d' : Datum}
    (hab : (wordDatum f.E f.F a).Le (wordDatum f.E f.F b)) (hz : (Datum.zero false).Lt (wordDatum f.E f.F c))
    (h : IeeeProduct f.E f.F (wordDatum f.E f.F a) (wordDatum f.E f.F c) d)
    (h' : IeeeProduct f.E f.F (wordDatum f.E f.F b) (wordDatum f.E f.F c) d') (hrn : d ≠ .nan) (hsn : d' ≠ .nan) : d.Le d' := by
  have hF : 1 ≤ f.F := by have := ok.hF; have := ok.hE; omega
  have rnd : ∀ {x : ℕ} {t : Datum} {v w : ℚ}, x < 2 ^ f.W → IeeeProduct f.E f.F (wordDatum f.E f.F x) (wordDatum f.E f.F c) t →
      (wordDatum f.E f.F x).fin = some v → wordDatum f.E f.F c = .num w → RoundedG0 f.E f.F (v * w) t := by
    intro x t v w hx h1 h2 h3
    unfold RoundedG0
    cases da : wordDatum f.E f.F x with
    | nan => rw [da] at h2; cases h2
    | inf s => rw [da] at h2; cases h2
    | zero s =>
      rw [da] at h2; injection h2 with h2; subst h2
      rw [zero_mul, if_pos rfl]
      exact ⟨_, ieeeProduct_special h1 (by rw [da, h3]; rfl)⟩
    | num q =>
      rw [da] at h2; injection h2 with h2; subst h2
      rw [if_neg (mul_ne_zero (num_word_ne ok hx da) (num_word_ne ok hc h3))]
      rw [da, h3] at h1
      exact h1
  obtain ⟨nx, ny⟩ := le_not_nan hab
  have hzc : (∃ w, wordDatum f.E f.F c = .num w ∧ 0 < w) ∨ wordDatum f.E f.F c = .inf false := by
    cases dz : wordDatum f.E f.F c with
    | nan => rw [dz] at hz; cases hz
    | inf s => cases s
               · exact Or.inr rfl
               · rw [dz] at hz; cases hz
    | zero s => rw [dz] at hz; cases hz
    | num q => rw [dz] at hz; exact Or.inl ⟨q, rfl, hz⟩
  have infl : ∀ {x : Datum} {s : Bool}, x = .inf s → mulSpecial x (wordDatum f.E f.F c) = some (.inf s) := by
    intro x s hx
    rw [hx]
    rcases hzc with ⟨w, hw, h0⟩ | hw
    · rw [hw]; cases s <;> simp [mulSpecial, Datum.isNeg, h0.le]
    · rw [hw]; cases s <;> rfl
  rcases fin_or ny with ⟨v, hv⟩ | ⟨k, hk⟩
  · rcases fin_or nx with ⟨u, hu⟩ | ⟨k, hk⟩
    · have huv := le_fin hu hv hab
      rcases hzc with ⟨w, hw, h0⟩ | hw
      · exact roundedG0_mono hF (mul_le_mul_of_nonneg_right huv h0.le) (rnd ha h hu hw) (rnd hb h' hv hw)
      · have sp : ∀ {x : Datum} {r : ℚ}, x.fin = some r →
            mulSpecial x (wordDatum f.E f.F c) = some .nan ∨ (x = .num r ∧ mulSpecial x (wordDatum f.E f.F c) = some (.inf (decide (r < 0)))) := by
          intro x r hx
          rw [hw]
          cases x with
          | nan => cases hx
          | inf s => cases hx
          | zero s => exact Or.inl rfl
          | num q => injection hx with hx; subst hx; exact Or.inr ⟨rfl, by simp [mulSpecial, Datum.isNeg]⟩
        rcases sp hu with h1 | ⟨g1, h1⟩
        · exact absurd (ieeeProduct_special h h1) hrn
        · rcases sp hv with h2 | ⟨g2, h2⟩
          · exact absurd (ieeeProduct_special h' h2) hsn
          · rw [ieeeProduct_special h h1, ieeeProduct_special h' h2]
            by_cases hu0 : u < 0
            · rw [decide_eq_true hu0]; exact bot_le (by simp)
            · have hv0 : ¬ v < 0 := by linarith
              rw [decide_eq_false hu0, decide_eq_false hv0]; right; rfl
    · cases k with
      | false => rw [hk] at hab; rw [top_le hab] at hv; cases hv
      | true => rw [ieeeProduct_special h (infl hk)]; exact bot_le hsn
  · cases k with
    | false => rw [ieeeProduct_special h' (infl hk)]; exact le_top hrn
    | true =>
      rw [hk] at hab
      rw [ieeeProduct_special h' (infl hk), ieeeProduct_special h (infl (le_bot hab))]
      right; rfl

theorem quotient_mono (ok : f.Ok) {a b c : ℕ} {w : ℚ} (ha : a < 2 ^ f.W) (hb : b < 2 ^ f.W) {d d' : Datum}
    (hab : (wordDatum f.E f.F a).Le (wordDatum f.E f.F b)) (hz : wordDatum f.E f.F c = .num w) (hw : 0 < w)
    (h : IeeeQuotient f.E f.F (wordDatum f.E f.F a) (wordDatum f.E f.F c) d)
    (h' : IeeeQuotient f.E f.F (wordDatum f.E f.F b) (wordDatum f.E f.F c) d') : d.Le d' := by
  have hF : 1 ≤ f.F := by have := ok.hF; have := ok.hE; omega
  have rnd : ∀ {x : ℕ} {t : Datum} {v : ℚ}, x < 2 ^ f.W → IeeeQuotient f.E f.F (wordDatum f.E f.F x) (wordDatum f.E f.F c) t →
      (wordDatum f.E f.F x).fin = some v → RoundedG0 f.E f.F (v / w) t := by
    intro x t v hx h1 h2
    unfold RoundedG0
    cases da : wordDatum f.E f.F x with
    | nan => rw [da] at h2; cases h2
    | inf s => rw [da] at h2; cases h2
    | zero s =>
      rw [da] at h2; injection h2 with h2; subst h2
      rw [zero_div, if_pos rfl]
      exact ⟨_, ieeeQuotient_special h1 (by rw [da, hz]; rfl)⟩
    | num q =>
      rw [da] at h2; injection h2 with h2; subst h2
      rw [if_neg (div_ne_zero (num_word_ne ok hx da) hw.ne')]
      rw [da, hz] at h1
      exact h1
  have infl : ∀ {x : ℕ} {s : Bool} {t : Datum}, wordDatum f.E f.F x = .inf s →
      IeeeQuotient f.E f.F (wordDatum f.E f.F x) (wordDatum f.E f.F c) t → t = .inf s := by
    intro x s t hx ht
    refine ieeeQuotient_special ht ?_
    rw [hx, hz]; cases s <;> simp [divSpecial, Datum.isNeg, hw.le]
  have nn : ∀ {x : ℕ} {t : Datum}, x < 2 ^ f.W → wordDatum f.E f.F x ≠ .nan →
      IeeeQuotient f.E f.F (wordDatum f.E f.F x) (wordDatum f.E f.F c) t → t ≠ .nan := by
    intro x t hx hn ht
    rcases fin_or hn with ⟨v, hv⟩ | ⟨k, hk⟩
    · have := rnd hx ht hv
      unfold RoundedG0 at this
      split_ifs at this with h0
      · obtain ⟨s, hs⟩ := this; rw [hs]; simp
      · obtain ⟨m, e, -, rfl⟩ := this
        split_ifs <;> simp
    · rw [infl hk ht]; simp
  obtain ⟨nx, ny⟩ := le_not_nan hab
  rcases fin_or ny with ⟨v, hv⟩ | ⟨k, hk⟩
  · rcases fin_or nx with ⟨u, hu⟩ | ⟨k, hk⟩
    · have huv := le_fin hu hv hab
      exact roundedG0_mono hF (div_le_div_of_nonneg_right huv hw.le) (rnd ha h hu) (rnd hb h' hv)
    · cases k with
      | false => rw [hk] at hab; rw [top_le hab] at hv; cases hv
      | true => rw [infl hk h]; exact bot_le (nn hb ny h')
  · cases k with
    | false => rw [infl hk h']; exact le_top (nn ha nx h)
    | true =>
      rw [hk] at hab
      rw [infl hk h', infl (le_bot hab) h]
      right; rfl

end SoftFmt
end Thls
