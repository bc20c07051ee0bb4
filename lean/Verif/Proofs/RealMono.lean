import Verif.Proofs.RefReal
import Verif.Props.Thresholds

/-! Lemmas for C108: rounding of reals is monotone, and its thresholds and errors are those of the rounding of rationals. -/

namespace Thls
open Spec

variable {E F : ℕ}

theorem cast_sig (m : ℕ) (e : ℤ) : (((m : ℚ) * 2 ^ e : ℚ) : ℝ) = (m : ℝ) * 2 ^ e := by push_cast; rfl

theorem nearest_monoR {p m m' : ℕ} {e e' : ℤ} {x y : ℝ} (hp : 1 ≤ p) (hxy : x ≤ y) (h : NearestEvenReal p x m e) (h' : NearestEvenReal p y m' e') :
    (m : ℚ) * 2 ^ e ≤ m' * 2 ^ e' := by
  by_contra hc
  push Not at hc
  have hcR : (m' : ℝ) * 2 ^ e' < m * 2 ^ e := by rw [← cast_sig, ← cast_sig]; exact_mod_cast hc
  have h1 := h.2.1 m' e' h'.1
  have h2 := h'.2.1 m e h.1
  have a1 : (m : ℝ) * 2 ^ e + m' * 2 ^ e' ≤ 2 * x := by
    rcases abs_cases (x - m * 2 ^ e) with ⟨p1, p2⟩ | ⟨p1, p2⟩ <;>
    rcases abs_cases (x - m' * 2 ^ e') with ⟨q1, q2⟩ | ⟨q1, q2⟩ <;> linarith
  have a2 : 2 * y ≤ (m : ℝ) * 2 ^ e + m' * 2 ^ e' := by
    rcases abs_cases (y - m * 2 ^ e) with ⟨p1, p2⟩ | ⟨p1, p2⟩ <;>
    rcases abs_cases (y - m' * 2 ^ e') with ⟨q1, q2⟩ | ⟨q1, q2⟩ <;> linarith
  obtain rfl : x = y := by linarith
  have hx : x = (((m : ℚ) * 2 ^ e + m' * 2 ^ e') / 2 : ℚ) := by push_cast; linarith
  rw [hx, nearestEvenReal_rat] at h h'
  obtain ⟨rfl, rfl⟩ := nearest_unique hp h h'
  exact lt_irrefl _ hc

theorem roundedReal_mono {x y : ℝ} {d d' : Datum} (hxy : x ≤ y) (h : RoundedReal E F x d) (h' : RoundedReal E F y d') : d.Le d' := by
  unfold RoundedReal at h h'
  have up : ∀ {z : ℝ} {d : Datum}, 0 < z → (∃ (m : ℕ) (e : ℤ), NearestEvenReal (F + 1) |z| m e ∧ d = rangeCheck E F (z < 0) m e) → (Datum.zero false).Le d := by
    rintro z d hz ⟨m, e, h, rfl⟩
    simp only [not_lt.mpr hz.le, decide_false]
    exact rangeCheck_nonneg (sig_pos h.1) _
  have down : ∀ {z : ℝ} {d : Datum}, z < 0 → (∃ (m : ℕ) (e : ℤ), NearestEvenReal (F + 1) |z| m e ∧ d = rangeCheck E F (z < 0) m e) → d.Le (Datum.zero false) := by
    rintro z d hz ⟨m, e, h, rfl⟩
    rw [le_neg, ← rangeCheck_neg]
    simp only [hz, decide_true, Bool.not_true]
    exact rangeCheck_nonneg (sig_pos h.1) _
  rcases lt_trichotomy x 0 with a | a | a
  · rw [if_neg a.ne] at h
    rcases lt_trichotomy y 0 with b | b | b
    · rw [if_neg b.ne] at h'
      obtain ⟨m, e, h1, rfl⟩ := h
      obtain ⟨m', e', h2, rfl⟩ := h'
      rw [abs_of_neg a] at h1
      rw [abs_of_neg b] at h2
      rw [le_neg, ← rangeCheck_neg, ← rangeCheck_neg]
      simp only [a, b, decide_true, Bool.not_true]
      exact rangeCheck_mono h2.1 h1.1 (nearest_monoR (by omega) (by linarith) h2 h1)
    · rw [if_pos b] at h'; rw [h']; exact down a h
    · rw [if_neg b.ne'] at h'; exact le_trans_datum (down a h) (up b h')
  · rw [if_pos a] at h
    rw [h]
    rcases lt_trichotomy y 0 with b | b | b
    · linarith
    · rw [if_pos b] at h'; rw [h']; right; trivial
    · rw [if_neg b.ne'] at h'; exact up b h'
  · rw [if_neg a.ne'] at h
    rw [if_neg (by linarith)] at h'
    obtain ⟨m, e, h1, rfl⟩ := h
    obtain ⟨m', e', h2, rfl⟩ := h'
    have b : 0 < y := by linarith
    rw [abs_of_pos a] at h1
    rw [abs_of_pos b] at h2
    simp only [not_lt.mpr a.le, not_lt.mpr b.le, decide_false]
    exact rangeCheck_mono h1.1 h2.1 (nearest_monoR (by omega) hxy h1 h2)

theorem roundedReal_neg {x : ℝ} {d : Datum} (hx : x ≠ 0) (h : RoundedReal E F x d) : RoundedReal E F (-x) d.neg := by
  unfold RoundedReal at *
  rw [if_neg hx] at h
  rw [if_neg (neg_ne_zero.mpr hx)]
  obtain ⟨m, e, h1, rfl⟩ := h
  refine ⟨m, e, by rwa [abs_neg], ?_⟩
  rw [← rangeCheck_neg]
  congr 1
  rcases lt_or_gt_of_ne hx with h | h
  · simp [h, h.le]
  · simp [h, h.le]

/-- What may be known in advance of the result `d` of an operation whose real result is `x`: see `Outcome`. -/
structure OutcomeReal (hi lo u x : ℝ) (d : Datum) : Prop where
  not_nan : d ≠ .nan
  overflow : (∃ s, d = .inf s) ↔ hi ≤ |x|
  underflow : (∃ s, d = .zero s) ↔ |x| < lo
  sign_inf : ∀ s, d = .inf s → s = decide (x < 0)
  sign_zero : x ≠ 0 → ∀ s, d = .zero s → s = decide (x < 0)
  error : ∀ v, d = .num v → |v - x| ≤ u * |x| ∧ 0 < v * x

theorem outcomeReal_neg {hi lo u x : ℝ} {d : Datum} (hx : x ≠ 0) (h : OutcomeReal hi lo u x d) : OutcomeReal hi lo u (-x) d.neg := by
  have hd : decide (-x < 0) = !decide (x < 0) := by
    rcases lt_or_gt_of_ne hx with h | h
    · simp [h, h.le]
    · simp [h, h.le]
  refine ⟨?_, ?_, ?_, ?_, ?_, ?_⟩
  · have := h.not_nan; cases d <;> simp [Datum.neg] at *
  · rw [abs_neg, ← h.overflow]; cases d <;> simp [Datum.neg]
  · rw [abs_neg, ← h.underflow]; cases d <;> simp [Datum.neg]
  · intro s hs
    rw [hd]
    cases d <;> simp [Datum.neg] at hs
    rw [← h.sign_inf _ rfl, hs, Bool.not_not]
  · intro _ s hs
    rw [hd]
    cases d <;> simp [Datum.neg] at hs
    rw [← h.sign_zero hx _ rfl, hs, Bool.not_not]
  · intro v hv
    cases d <;> simp [Datum.neg] at hv
    obtain ⟨h1, h2⟩ := h.error _ rfl
    subst hv
    refine ⟨?_, by push_cast; linarith⟩
    rw [abs_neg]
    push_cast
    rw [show ∀ a b : ℝ, -a - -b = -(a - b) by intro a b; ring, abs_neg]
    exact h1

theorem roundedReal_outcome_pos (hF : 1 ≤ F) {x : ℝ} (hx : 0 < x) {d : Datum} (h : RoundedReal E F x d) :
    OutcomeReal (overflowAt E F) (underflowAt E F) (uro F) x d := by
  have hu0 := uro_pos F
  have hu0R : (0 : ℝ) < uro F := by exact_mod_cast hu0
  have hz := two_zpow_pos (-bias E)
  have hT := two_zpow_pos ((2 : ℤ) ^ E - bias E)
  have hc := overflow_pos (F := F) hF
  have hhi : 0 < overflowAt E F := by unfold overflowAt; positivity
  have hlo : 0 < underflowAt E F := by unfold underflowAt; positivity
  have rat : ∀ {t : ℚ}, 0 < t → ∃ d', RoundedReal E F (t : ℝ) d' ∧ Outcome (overflowAt E F) (underflowAt E F) (uro F) t d' := by
    intro t ht
    obtain ⟨d', hd⟩ := rounded_exists (E := E) hF ht.ne'
    exact ⟨d', (roundedReal_rat ht.ne').mpr hd, rounded_outcome hF ht.ne' hd⟩
  have zero : (Datum.zero false).Le d := roundedReal_mono (E := E) (F := F) hx.le (by unfold RoundedReal; rw [if_pos rfl]) h
  have form : (∀ s, d = .inf s → s = false) ∧ (∀ s, d = .zero s → s = false) ∧ ∀ v, d = .num v →
      0 < v ∧ (2 : ℚ) ^ (-bias E) ≤ v ∧ v < 2 ^ ((2 : ℤ) ^ E - bias E) := by
    unfold RoundedReal at h
    rw [if_neg hx.ne'] at h
    obtain ⟨m, e, hn, he⟩ := h
    simp only [not_lt.mpr hx.le, decide_false] at he
    have hp : (0 : ℚ) < m * 2 ^ e := mul_pos (by exact_mod_cast sig_pos hn.1) (two_zpow_pos _)
    unfold rangeCheck at he
    split_ifs at he with c1 c2 c3
    · subst he; simp
    · subst he; simp
    · simp at c3
    · subst he
      refine ⟨by simp, by simp, ?_⟩
      intro v hv
      simp only [Bool.false_eq_true, if_false, one_mul, Datum.num.injEq] at hv
      subst hv
      have m1 : ((2 : ℚ) ^ F) ≤ m := by exact_mod_cast hn.1.1
      have m2 : (m : ℚ) < 2 ^ (F + 1) := by exact_mod_cast hn.1.2
      have he := two_zpow_pos e
      refine ⟨hp, ?_, ?_⟩
      · calc (2 : ℚ) ^ (-bias E) ≤ 2 ^ ((F : ℤ) + e) := zpow_le_zpow_right₀ (by norm_num) (by omega)
          _ = 2 ^ F * 2 ^ e := by rw [zpow_add₀ (by norm_num), zpow_natCast]
          _ ≤ m * 2 ^ e := mul_le_mul_of_nonneg_right m1 he.le
      · calc (m : ℚ) * 2 ^ e < 2 ^ (F + 1) * 2 ^ e := mul_lt_mul_of_pos_right m2 he
          _ = 2 ^ (((F + 1 : ℕ) : ℤ) + e) := by rw [zpow_add₀ (by norm_num), zpow_natCast]
          _ ≤ _ := zpow_le_zpow_right₀ (by norm_num) (show ((F + 1 : ℕ) : ℤ) + e ≤ (2 : ℤ) ^ E - bias E by push_cast; omega)
  obtain ⟨f1, f2, f3⟩ := form
  have hax : |x| = x := abs_of_pos hx
  have hdx : decide (x < 0) = false := by simp [hx.le]
  have sgn : ∀ {t : ℚ}, 0 < t → decide (t < 0) = false := fun {t} ht => by simp [ht.le]
  refine ⟨?_, ?_, ?_, ?_, ?_, ?_⟩
  · rintro rfl; simp [Datum.Le, Datum.Lt, Datum.RealEq] at zero
  · rw [hax]
    constructor
    · rintro ⟨s, rfl⟩
      by_contra hlt
      push Not at hlt
      obtain ⟨t, t1, t2⟩ := exists_rat_btwn hlt
      have tp : 0 < t := by exact_mod_cast hx.trans t1
      obtain ⟨d', r1, r2⟩ := rat tp
      have hm := roundedReal_mono t1.le h r1
      have h1 : ¬ ∃ s, d' = .inf s := fun hi => by
        have := r2.overflow.mp hi
        rw [abs_of_pos tp] at this
        exact absurd t2 (not_lt.mpr (by exact_mod_cast this))
      have h2 := r2.not_nan
      cases d' <;> cases s <;> simp [Datum.Le, Datum.Lt, Datum.RealEq] at *
    · intro hle
      obtain ⟨d', r1, r2⟩ := rat hhi
      obtain ⟨s, rfl⟩ := r2.overflow.mpr (le_abs_self _)
      have hs := r2.sign_inf s rfl
      rw [sgn hhi] at hs
      subst hs
      have hm := roundedReal_mono hle r1 h
      cases d <;> simp [Datum.Le, Datum.Lt, Datum.RealEq] at *
  · rw [hax]
    constructor
    · rintro ⟨s, rfl⟩
      by_contra hlt
      push Not at hlt
      obtain ⟨d', r1, r2⟩ := rat hlo
      have hm := roundedReal_mono hlt r1 h
      have h1 : ¬ ∃ s, d' = .zero s := fun hi => by
        have := r2.underflow.mp hi
        rw [abs_of_pos hlo] at this
        exact lt_irrefl _ this
      have h2 := r2.not_nan
      have h3 : ∀ s, d' = .inf s → s = false := fun s hs => by rw [r2.sign_inf s hs, sgn hlo]
      have h4 : ∀ v, d' = .num v → 0 < v := fun v hv => (mul_pos_iff_of_pos_right hlo).mp (r2.error v hv).2
      cases d' with
      | nan => exact h2 rfl
      | inf s => rw [h3 s rfl] at hm; simp [Datum.Le, Datum.Lt, Datum.RealEq] at hm
      | zero s => exact h1 ⟨s, rfl⟩
      | num v =>
        have := h4 v rfl
        simp [Datum.Le, Datum.Lt, Datum.RealEq] at hm
        linarith
    · intro hlt
      obtain ⟨t, t1, t2⟩ := exists_rat_btwn hlt
      have tp : 0 < t := by exact_mod_cast hx.trans t1
      obtain ⟨d', r1, r2⟩ := rat tp
      obtain ⟨s, rfl⟩ := r2.underflow.mpr (by rw [abs_of_pos tp]; exact_mod_cast t2)
      have hm := roundedReal_mono t1.le h r1
      cases d with
      | nan => simp [Datum.Le, Datum.Lt, Datum.RealEq] at hm
      | inf s => cases s <;> simp [Datum.Le, Datum.Lt, Datum.RealEq] at hm zero
      | zero s => exact ⟨s, rfl⟩
      | num v =>
        have := (f3 v rfl).1
        simp only [Datum.Le, Datum.Lt, Datum.RealEq] at hm
        exfalso
        rcases hm with z | z
        · linarith
        · cases z
  · intro s hs; rw [hdx, f1 s hs]
  · intro _ s hs; rw [hdx, f2 s hs]
  · intro v hv
    subst hv
    obtain ⟨hv, v1, v2⟩ := f3 v rfl
    have hvR : (0 : ℝ) < v := by exact_mod_cast hv
    have hu1 : uro F ≤ 1 / 4 := by
      unfold uro
      calc (2 : ℚ) ^ (-(F : ℤ) - 1) ≤ 2 ^ (-2 : ℤ) := zpow_le_zpow_right₀ (by norm_num) (by omega)
        _ = 1 / 4 := by norm_num
    have hu1R : (uro F : ℝ) ≤ 1 / 4 := by
      have := (Rat.cast_le (K := ℝ)).mpr hu1
      push_cast at this; linarith
    have hhalf : (2 : ℚ) ^ (-(F : ℤ) - 2) = uro F / 2 := by
      unfold uro
      rw [show -(F : ℤ) - 1 = (-(F : ℤ) - 2) + 1 by ring, zpow_add_one₀ (by norm_num)]; ring
    refine ⟨?_, mul_pos hvR hx⟩
    rw [hax, abs_le]
    constructor
    · by_contra hlt
      push Not at hlt
      have h1 : ((v / (1 - uro F) : ℚ) : ℝ) < x := by
        push_cast
        rw [div_lt_iff₀ (by linarith)]; linarith
      obtain ⟨t, t1, t2⟩ := exists_rat_btwn h1
      have t1' : v / (1 - uro F) < t := by exact_mod_cast t1
      rw [div_lt_iff₀ (by linarith)] at t1'
      have tp : 0 < t := by
        by_contra hc
        push Not at hc
        have := mul_nonneg_of_nonpos_of_nonpos hc (show -(1 - uro F) ≤ 0 by linarith)
        linarith
      have tv : v < t := by
        have := mul_pos tp hu0
        linarith
      obtain ⟨d', r1, r2⟩ := rat tp
      have hm := roundedReal_mono t2.le r1 h
      cases d' with
      | nan => exact r2.not_nan rfl
      | inf s =>
        have hs := r2.sign_inf s rfl
        rw [sgn tp] at hs
        subst hs
        simp [Datum.Le, Datum.Lt, Datum.RealEq] at hm
      | zero s =>
        have := r2.underflow.mp ⟨s, rfl⟩
        rw [abs_of_pos tp] at this
        unfold underflowAt at this
        rw [hhalf] at this
        have := mul_pos hz hu0
        linarith
      | num w =>
        obtain ⟨w1, -⟩ := r2.error w rfl
        rw [abs_of_pos tp, abs_le] at w1
        have hwv : w ≤ v := by
          rcases hm with z | z
          · exact le_of_lt z
          · exact le_of_eq (by simpa [Datum.RealEq] using z)
        linarith [w1.1]
    · by_contra hlt
      push Not at hlt
      have h1 : x < ((v / (1 + uro F) : ℚ) : ℝ) := by
        push_cast
        rw [lt_div_iff₀ (by linarith)]; linarith
      obtain ⟨t, t1, t2⟩ := exists_rat_btwn h1
      have t2' : t < v / (1 + uro F) := by exact_mod_cast t2
      rw [lt_div_iff₀ (by linarith)] at t2'
      have tp : 0 < t := by exact_mod_cast hx.trans t1
      obtain ⟨d', r1, r2⟩ := rat tp
      have hm := roundedReal_mono t1.le h r1
      cases d' with
      | nan => exact r2.not_nan rfl
      | inf s =>
        have := r2.overflow.mp ⟨s, rfl⟩
        rw [abs_of_pos tp] at this
        unfold overflowAt at this
        rw [hhalf] at this
        have h5 := mul_le_mul_of_nonneg_right this (show 0 ≤ 1 + uro F by linarith)
        have h6 := mul_nonneg hT.le (show 0 ≤ uro F * (1 - uro F) by nlinarith)
        linarith
      | zero s =>
        rcases hm with z | z
        · have : v < 0 := z
          linarith
        · cases z
      | num w =>
        obtain ⟨w1, -⟩ := r2.error w rfl
        rw [abs_of_pos tp, abs_le] at w1
        have hwv : v ≤ w := by
          rcases hm with z | z
          · exact le_of_lt z
          · exact le_of_eq (by simpa [Datum.RealEq] using z)
        linarith [w1.2]

theorem roundedReal_outcome (hF : 1 ≤ F) {x : ℝ} (hx : x ≠ 0) {d : Datum} (h : RoundedReal E F x d) :
    OutcomeReal (overflowAt E F) (underflowAt E F) (uro F) x d := by
  rcases lt_or_gt_of_ne hx with h0 | h0
  · have := outcomeReal_neg (neg_ne_zero.mpr hx) (roundedReal_outcome_pos hF (by linarith) (roundedReal_neg hx h))
    rwa [neg_neg, neg_neg_datum] at this
  · exact roundedReal_outcome_pos hF h0 h

end Thls
