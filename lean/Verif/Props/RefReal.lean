import Verif.Proofs.RefReal

/-! # Property C80: the references of the square root, exponential and logarithm -/

namespace Thls
open Spec

theorem toMpfr_cases {E F : ℕ} (x : Fp E F) :
    (toMpfr x = .nan ∧ x.datum = .nan) ∨ (∃ s, toMpfr x = .inf s ∧ x.datum = .inf s) ∨ (∃ s, toMpfr x = .zero s ∧ x.datum = .zero s) ∨
    (∃ s m e, toMpfr x = .num s m e ∧ 0 < m ∧ x.datum = .num ((if s then -1 else 1) * ((m : ℚ) * 2 ^ e))) := by
  have h := C47_to_mpfr_exact x
  have ok := toMpfr_ok x
  cases hx : toMpfr x with
  | nan => rw [hx] at h; left; exact ⟨rfl, h.symm⟩
  | inf s => rw [hx] at h; right; left; exact ⟨s, rfl, h.symm⟩
  | zero s => rw [hx] at h; right; right; left; exact ⟨s, rfl, h.symm⟩
  | num s m e => rw [hx] at h ok; right; right; right; exact ⟨s, m, e, rfl, Nat.pos_of_ne_zero (by
      intro h0
      exact Mpfr.num_ne_zero ok rfl (by simp [h0])), h.symm⟩

/-- **C80.** `ref_sqrt` is the correctly rounded square root, for every operand and every result format. -/
theorem C80_ref_sqrt {ER FR EA FA : ℕ} (hE : 1 ≤ ER) (hF : 1 ≤ FR) (a : Fp EA FA) :
    ∃ r : Fp ER FR, refSqrt ER FR a = some r ∧ IsSqrt ER FR a.datum r.datum := by
  unfold refSqrt
  rcases toMpfr_cases a with ⟨h, hd⟩ | ⟨s, h, hd⟩ | ⟨s, h, hd⟩ | ⟨s, m, e, h, hm, hd⟩ <;> rw [h, hd]
  · exact ofMpfr_nan hE hF
  · cases s
    · exact ofMpfr_inf hE hF false
    · exact ofMpfr_nan hE hF
  · exact ofMpfr_zero hE hF s
  · have hp : (0 : ℚ) < m * 2 ^ e := mul_pos (by exact_mod_cast hm) (two_zpow_pos e)
    cases s
    · obtain ⟨r, hr, hd⟩ := ofMpfr_rndnR (E := ER) (F := FR) hE hF (Real.sqrt (m * 2 ^ e))
      refine ⟨r, hr, ?_⟩
      simp only [IsSqrt, Bool.false_eq_true, if_false, one_mul]
      rw [if_neg (not_lt.2 hp.le)]
      push_cast; exact hd
    · obtain ⟨r, hr, hd⟩ := ofMpfr_nan (E := ER) (F := FR) hE hF
      refine ⟨r, hr, ?_⟩
      simp only [IsSqrt, if_true]
      rw [if_pos (by linarith), hd]

/-- **C80.** `ref_exp` is the correctly rounded exponential. -/
theorem C80_ref_exp {ER FR EA FA : ℕ} (hE : 1 ≤ ER) (hF : 1 ≤ FR) (a : Fp EA FA) :
    ∃ r : Fp ER FR, refExp ER FR a = some r ∧ IsExp ER FR a.datum r.datum := by
  unfold refExp
  rcases toMpfr_cases a with ⟨h, hd⟩ | ⟨s, h, hd⟩ | ⟨s, h, hd⟩ | ⟨s, m, e, h, hm, hd⟩ <;> rw [h, hd]
  · exact ofMpfr_nan hE hF
  · cases s
    · exact ofMpfr_inf hE hF false
    · exact ofMpfr_zero hE hF false
  · have hs : IsSig (FR + 1) (2 ^ (FR + 1 - 1)) := ⟨le_rfl, Nat.pow_lt_pow_right (by norm_num) (by omega)⟩
    have hc := C47_of_mpfr hE hF true false (1 - ((FR + 1 : ℕ) : ℤ)) hs
    rw [if_pos (Or.inr rfl)] at hc
    obtain ⟨r, hr, hd⟩ := hc
    refine ⟨r, hr, ?_⟩
    show RoundedReal ER FR 1 r.datum
    rw [RoundedReal, if_neg one_ne_zero]
    have hv : ((2 ^ (FR + 1 - 1) : ℕ) : ℝ) * 2 ^ (1 - ((FR + 1 : ℕ) : ℤ)) = 1 := by
      rw [Nat.add_sub_cancel, show 1 - ((FR + 1 : ℕ) : ℤ) = -(FR : ℤ) by push_cast; ring, zpow_neg, zpow_natCast]
      push_cast; field_simp
    refine ⟨_, _, Mpfr.nearest_downR (by omega) hs (by rw [hv, abs_one]) (by rw [hv, abs_one, sub_self]; positivity) ?_, ?_⟩
    · rw [hv, abs_one, sub_self]
      intro h0
      have := Mpfr.two_zpow_posR (1 - ((FR + 1 : ℕ) : ℤ))
      linarith
    · rw [hd]
      simp [show ¬ (1 : ℝ) < 0 by norm_num]
  · obtain ⟨r, hr, hd⟩ := ofMpfr_rndnR (E := ER) (F := FR) hE hF (Real.exp ((if s then -1 else 1) * (m * 2 ^ e)))
    refine ⟨r, hr, ?_⟩
    simp only [IsExp]
    have : (((if s = true then (-1 : ℚ) else 1) * ((m : ℚ) * 2 ^ e) : ℚ) : ℝ) = (if s = true then (-1 : ℝ) else 1) * ((m : ℝ) * 2 ^ e) := by
      cases s <;> push_cast <;> simp
    rw [this]; exact hd

/-- **C80.** `ref_log` is the correctly rounded natural logarithm. -/
theorem C80_ref_log {ER FR EA FA : ℕ} (hE : 1 ≤ ER) (hF : 1 ≤ FR) (a : Fp EA FA) :
    ∃ r : Fp ER FR, refLog ER FR a = some r ∧ IsLog ER FR a.datum r.datum := by
  unfold refLog
  rcases toMpfr_cases a with ⟨h, hd⟩ | ⟨s, h, hd⟩ | ⟨s, h, hd⟩ | ⟨s, m, e, h, hm, hd⟩ <;> rw [h, hd]
  · exact ofMpfr_nan hE hF
  · cases s
    · exact ofMpfr_inf hE hF false
    · exact ofMpfr_nan hE hF
  · exact ofMpfr_inf hE hF true
  · have hp : (0 : ℚ) < m * 2 ^ e := mul_pos (by exact_mod_cast hm) (two_zpow_pos e)
    cases s
    · obtain ⟨r, hr, hd⟩ := ofMpfr_rndnR (E := ER) (F := FR) hE hF (Real.log (m * 2 ^ e))
      refine ⟨r, hr, ?_⟩
      simp only [IsLog, Bool.false_eq_true, if_false, one_mul]
      rw [if_neg (not_lt.2 hp.le)]
      push_cast; exact hd
    · obtain ⟨r, hr, hd⟩ := ofMpfr_nan (E := ER) (F := FR) hE hF
      refine ⟨r, hr, ?_⟩
      simp only [IsLog, if_true]
      rw [if_pos (by linarith), hd]

/-- **C80.** The rounding of reals used in these statements agrees with the rounding of rationals used everywhere else. -/
theorem C80_rounding_agrees {E F : ℕ} {q : ℚ} (hq : q ≠ 0) (d : Datum) : RoundedReal E F (q : ℝ) d ↔ Rounded E F q d :=
  roundedReal_rat hq

/-- **C80.** The square root of the square of a number of the result format is that number's magnitude: nothing is lost. -/
theorem C80_ref_sqrt_exact {ER FR EA FA : ℕ} (hE : 1 ≤ ER) (hF : 1 ≤ FR) (a : Fp EA FA) (b : Fp ER FR) (q : ℚ) (hq : 0 < q)
    (hb : b.datum = .num q) (ha : a.datum = .num (q * q)) :
    ∃ r : Fp ER FR, refSqrt ER FR a = some r ∧ r.datum = .num q := by
  obtain ⟨r, hr, hd⟩ := C80_ref_sqrt (ER := ER) (FR := FR) hE hF a
  refine ⟨r, hr, ?_⟩
  rw [ha] at hd
  simp only [IsSqrt] at hd
  rw [if_neg (not_lt.2 (by positivity))] at hd
  have hs : Real.sqrt ((q * q : ℚ) : ℝ) = (q : ℝ) := by
    push_cast
    exact Real.sqrt_mul_self (by exact_mod_cast hq.le)
  rw [hs, roundedReal_rat hq.ne'] at hd
  obtain ⟨fb, hv⟩ := datum_num_iff.1 hb
  have h2 := b.exp_lt (by omega)
  have h1 := b.frac_lt hF
  -- `q` is a number of the format, so it is its own rounding
  have hsgn : b.sign ≠ 1 := by
    intro hs1
    rw [if_pos hs1] at hv
    have := mul_pos (show (0 : ℚ) < ((2 ^ FR + b.frac : ℕ) : ℚ) by positivity) (two_zpow_pos ((b.exp : ℤ) - bias ER - FR))
    linarith
  rw [if_neg hsgn, one_mul] at hv
  have hsig : IsSig (FR + 1) (2 ^ FR + b.frac) := ⟨by simp, by rw [pow_succ]; omega⟩
  have hself : Rounded ER FR q (.num q) := by
    refine ⟨2 ^ FR + b.frac, (b.exp : ℤ) - bias ER - FR, ?_, ?_⟩
    · rw [abs_of_pos hq, hv]
      refine nearest_down (by omega) hsig le_rfl (by rw [sub_self]; positivity) ?_
      rw [sub_self]
      intro h0
      have := two_zpow_pos ((b.exp : ℤ) - bias ER - FR)
      linarith
    · have h2' : (b.exp : ℤ) < 2 ^ ER := by exact_mod_cast h2
      have e1 : ¬ ((b.exp : ℤ) - bias ER - FR + FR + bias ER < 0) := by omega
      have e2 : ¬ ((2 : ℤ) ^ ER ≤ (b.exp : ℤ) - bias ER - FR + FR + bias ER) := by omega
      rw [rangeCheck, if_neg e1, if_neg e2, ← hv]
      simp [not_lt.2 hq.le]
  exact rounded_unique hd hself

/-- `sqrt(9/4) = 3/2` in a format with 4 exponent and 3 fraction bits, and the hypotheses of the theorem are met. -/
example : ∃ (a b : Fp 4 3), b.datum = .num (3 / 2) ∧ a.datum = .num (3 / 2 * (3 / 2)) := by
  refine ⟨Fp.mk4 4 3 1 0 8 1, Fp.mk4 4 3 1 0 7 4, ?_, ?_⟩ <;>
    rw [Fp.mk4_datum (by decide) (by decide) (by decide) (by decide) (by decide) (by decide)] <;> norm_num [denote, bias]

end Thls
