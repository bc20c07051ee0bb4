import Verif.Props.RefReal
import Verif.Proofs.RealMono

/-! # Property C108: order, range and error of the references of the square root, exponential and logarithm -/

namespace Thls
open Spec

variable {ER FR EA FA : ℕ}

/-! ## They preserve order -/

/-- **C108.** The reference square root preserves order wherever it is defined. -/
theorem C108_sqrt_monotone (hE : 1 ≤ ER) (hF : 1 ≤ FR) (a b : Fp EA FA) (r s : Fp ER FR) (hab : a.datum.Le b.datum) (hr : refSqrt ER FR a = some r)
    (hs : refSqrt ER FR b = some s) (h1 : r.datum ≠ .nan) (h2 : s.datum ≠ .nan) : r.datum.Le s.datum := by
  obtain ⟨r', er, ha⟩ := C80_ref_sqrt (ER := ER) (FR := FR) hE hF a
  obtain ⟨s', es, hb⟩ := C80_ref_sqrt (ER := ER) (FR := FR) hE hF b
  obtain rfl := Option.some.inj (er.symm.trans hr)
  obtain rfl := Option.some.inj (es.symm.trans hs)
  have zr : RoundedReal ER FR 0 (.zero false) := by unfold RoundedReal; rw [if_pos rfl]
  cases da : a.datum with
  | nan => rw [da] at ha; exact absurd ha h1
  | inf t =>
    rw [da] at ha hab
    cases t
    · cases db : b.datum with
      | inf t => rw [db] at hb hab; cases t <;> simp [IsSqrt, Datum.Le, Datum.Lt, Datum.RealEq] at *; rw [ha, hb]; simp
      | nan => rw [db] at hab; simp [Datum.Le, Datum.Lt, Datum.RealEq] at hab
      | zero t => rw [db] at hab; simp [Datum.Le, Datum.Lt, Datum.RealEq] at hab
      | num q => rw [db] at hab; simp [Datum.Le, Datum.Lt, Datum.RealEq] at hab
    · exact absurd ha h1
  | zero t =>
    rw [da] at ha hab
    have ha : r'.datum = .zero t := ha
    cases db : b.datum with
    | nan => rw [db] at hb; exact absurd hb h2
    | inf t => rw [db] at hb; cases t; exact (show s'.datum = .inf false from hb) ▸ le_top h1; exact absurd hb h2
    | zero t' => rw [db] at hb; rw [ha, show s'.datum = .zero t' from hb]; right; trivial
    | num q =>
      rw [db] at hb hab
      have hq : ¬ q < 0 := by simp [Datum.Le, Datum.Lt, Datum.RealEq] at hab; linarith
      simp only [IsSqrt] at hb
      rw [if_neg hq] at hb
      have := roundedReal_mono (Real.sqrt_nonneg _) zr hb
      rw [ha]
      exact le_trans_datum (b := .zero false) (by right; trivial) this
  | num p =>
    rw [da] at ha hab
    simp only [IsSqrt] at ha
    have hp : ¬ p < 0 := fun h => by rw [if_pos h] at ha; exact h1 ha
    rw [if_neg hp] at ha
    cases db : b.datum with
    | nan => rw [db] at hb; exact absurd hb h2
    | inf t => rw [db] at hb; cases t; exact (show s'.datum = .inf false from hb) ▸ le_top h1; exact absurd hb h2
    | zero t' =>
      rw [db] at hb hab
      exfalso
      have h0 := num_ne_zero da
      simp [Datum.Le, Datum.Lt, Datum.RealEq] at hab
      linarith
    | num q =>
      rw [db] at hb hab
      have hpq : p ≤ q := by
        rcases hab with z | z
        · exact le_of_lt z
        · exact le_of_eq (by simpa [Datum.RealEq] using z)
      simp only [IsSqrt] at hb
      rw [if_neg (by linarith)] at hb
      exact roundedReal_mono (Real.sqrt_le_sqrt (by exact_mod_cast hpq)) ha hb

theorem num_le {p q : ℚ} (h : (Datum.num p).Le (.num q)) : p ≤ q := by
  rcases h with z | z
  · exact le_of_lt z
  · exact le_of_eq (by simpa [Datum.RealEq] using z)

theorem isExp_cases {E F : ℕ} {a d : Datum} (h : IsExp E F a d) :
    (a = .nan ∧ d = .nan) ∨ (a = .inf false ∧ d = .inf false) ∨ (a = .inf true ∧ d = .zero false) ∨
      ∃ q : ℚ, a.fin = some q ∧ RoundedReal E F (Real.exp q) d := by
  rcases a with _ | s | s | q
  · exact Or.inl ⟨rfl, h⟩
  · cases s
    · exact Or.inr (Or.inl ⟨rfl, h⟩)
    · exact Or.inr (Or.inr (Or.inl ⟨rfl, h⟩))
  · exact Or.inr (Or.inr (Or.inr ⟨0, rfl, by simpa [IsExp] using h⟩))
  · exact Or.inr (Or.inr (Or.inr ⟨q, rfl, h⟩))

theorem fin_le_fin {a b : Datum} {p q : ℚ} (ha : a.fin = some p) (hb : b.fin = some q) : a.Le b → p ≤ q := by
  rcases a with _ | s | s | p' <;> rcases b with _ | t | t | q' <;> simp [Datum.fin] at ha hb
  · subst ha hb; simp
  · subst ha hb; simp only [Datum.Le, Datum.Lt, Datum.RealEq]; rintro (h | h); exact h.le; cases h
  · subst ha hb; simp only [Datum.Le, Datum.Lt, Datum.RealEq]; rintro (h | h); exact h.le; cases h
  · subst ha hb; exact num_le

/-- **C108.** The reference exponential preserves order, infinities included. -/
theorem C108_exp_monotone (hE : 1 ≤ ER) (hF : 1 ≤ FR) (a b : Fp EA FA) (hab : a.datum.Le b.datum) :
    ∃ r s : Fp ER FR, refExp ER FR a = some r ∧ refExp ER FR b = some s ∧ r.datum.Le s.datum := by
  obtain ⟨r, hr, ha⟩ := C80_ref_exp (ER := ER) (FR := FR) hE hF a
  obtain ⟨s, hs, hb⟩ := C80_ref_exp (ER := ER) (FR := FR) hE hF b
  refine ⟨r, s, hr, hs, ?_⟩
  have zr : RoundedReal ER FR 0 (.zero false) := by unfold RoundedReal; rw [if_pos rfl]
  have nn : ∀ {x : ℝ} {d : Datum}, 0 < x → RoundedReal ER FR x d → d ≠ .nan := fun hx h => (roundedReal_outcome hF hx.ne' h).not_nan
  rcases isExp_cases ha with ⟨ea, ra⟩ | ⟨ea, ra⟩ | ⟨ea, ra⟩ | ⟨p, ea, ra⟩
  · rw [ea] at hab; simp [Datum.Le, Datum.Lt, Datum.RealEq] at hab
  · rw [ea] at hab
    rcases isExp_cases hb with ⟨eb, rb⟩ | ⟨eb, rb⟩ | ⟨eb, rb⟩ | ⟨q, eb, rb⟩
    · rw [eb] at hab; simp [Datum.Le, Datum.Lt, Datum.RealEq] at hab
    · rw [ra, rb]; simp [Datum.Le, Datum.Lt, Datum.RealEq]
    · rw [eb] at hab; simp [Datum.Le, Datum.Lt, Datum.RealEq] at hab
    · revert hab eb
      cases b.datum <;> simp [Datum.Le, Datum.Lt, Datum.RealEq, Datum.fin]
  · rw [ra]
    rcases isExp_cases hb with ⟨eb, rb⟩ | ⟨eb, rb⟩ | ⟨eb, rb⟩ | ⟨q, eb, rb⟩
    · rw [ea, eb] at hab; simp [Datum.Le, Datum.Lt, Datum.RealEq] at hab
    · rw [rb]; exact le_top (by simp)
    · rw [rb]; right; trivial
    · exact roundedReal_mono (Real.exp_pos _).le zr rb
  · rcases isExp_cases hb with ⟨eb, rb⟩ | ⟨eb, rb⟩ | ⟨eb, rb⟩ | ⟨q, eb, rb⟩
    · exfalso; rw [eb] at hab; revert hab; cases a.datum <;> simp [Datum.Le, Datum.Lt, Datum.RealEq]
    · rw [rb]; exact le_top (nn (Real.exp_pos _) ra)
    · exfalso; rw [eb] at hab; revert hab ea; cases a.datum <;> simp [Datum.Le, Datum.Lt, Datum.RealEq, Datum.fin]
    · exact roundedReal_mono (Real.exp_le_exp.mpr (by exact_mod_cast fin_le_fin ea eb hab)) ra rb

/-- **C108.** The reference logarithm preserves order wherever it is defined. -/
theorem C108_log_monotone (hE : 1 ≤ ER) (hF : 1 ≤ FR) (a b : Fp EA FA) (r s : Fp ER FR) (hab : a.datum.Le b.datum) (hr : refLog ER FR a = some r)
    (hs : refLog ER FR b = some s) (h1 : r.datum ≠ .nan) (h2 : s.datum ≠ .nan) : r.datum.Le s.datum := by
  obtain ⟨r', er, ha⟩ := C80_ref_log (ER := ER) (FR := FR) hE hF a
  obtain ⟨s', es, hb⟩ := C80_ref_log (ER := ER) (FR := FR) hE hF b
  obtain rfl := Option.some.inj (er.symm.trans hr)
  obtain rfl := Option.some.inj (es.symm.trans hs)
  cases da : a.datum with
  | nan => rw [da] at ha; exact absurd ha h1
  | inf t =>
    rw [da] at ha hab
    cases t
    · cases db : b.datum with
      | inf t => rw [db] at hb hab; cases t <;> simp [IsLog, Datum.Le, Datum.Lt, Datum.RealEq] at *; rw [ha, hb]; simp
      | nan => rw [db] at hab; simp [Datum.Le, Datum.Lt, Datum.RealEq] at hab
      | zero t => rw [db] at hab; simp [Datum.Le, Datum.Lt, Datum.RealEq] at hab
      | num q => rw [db] at hab; simp [Datum.Le, Datum.Lt, Datum.RealEq] at hab
    · exact absurd ha h1
  | zero t => rw [da] at ha; exact (show r'.datum = .inf true from ha) ▸ bot_le h2
  | num p =>
    rw [da] at ha hab
    simp only [IsLog] at ha
    have hp : ¬ p < 0 := fun h => by rw [if_pos h] at ha; exact h1 ha
    have h0 := num_ne_zero da
    have hpp : 0 < p := lt_of_le_of_ne (not_lt.mp hp) h0.symm
    rw [if_neg hp] at ha
    cases db : b.datum with
    | nan => rw [db] at hb; exact absurd hb h2
    | inf t => rw [db] at hb; cases t; exact (show s'.datum = .inf false from hb) ▸ le_top h1; exact absurd hb h2
    | zero t' =>
      rw [db] at hab
      exfalso
      simp [Datum.Le, Datum.Lt, Datum.RealEq] at hab
      linarith
    | num q =>
      rw [db] at hb hab
      have hpq := num_le hab
      simp only [IsLog] at hb
      rw [if_neg (by linarith)] at hb
      exact roundedReal_mono (Real.log_le_log (by exact_mod_cast hpp) (by exact_mod_cast hpq)) ha hb

/-! ## Their range and error -/

/-- **C108.** The exponential of a number overflows, is flushed to zero and is off exactly as the operations are (C101). -/
theorem C108_exp_outcome (hE : 1 ≤ ER) (hF : 1 ≤ FR) (a : Fp EA FA) (q : ℚ) (ha : a.datum.fin = some q) :
    ∃ r : Fp ER FR, refExp ER FR a = some r ∧ OutcomeReal (overflowAt ER FR) (underflowAt ER FR) (uro FR) (Real.exp q) r.datum := by
  obtain ⟨r, hr, h⟩ := C80_ref_exp (ER := ER) (FR := FR) hE hF a
  refine ⟨r, hr, ?_⟩
  rcases isExp_cases h with ⟨ea, -⟩ | ⟨ea, -⟩ | ⟨ea, -⟩ | ⟨p, ea, ra⟩
  · rw [ea] at ha; cases ha
  · rw [ea] at ha; cases ha
  · rw [ea] at ha; cases ha
  · rw [ea] at ha; injection ha with ha; subst ha
    exact roundedReal_outcome hF (Real.exp_pos _).ne' ra

/-- **C108.** The exponential of zero is exactly one, and the logarithm of one is exactly `+0`. -/
theorem C108_exact_points (hE : 1 ≤ ER) (hF : 1 ≤ FR) (a : Fp EA FA) :
    (∀ s, a.datum = .zero s → ∃ r : Fp ER FR, refExp ER FR a = some r ∧ r.datum = .num 1) ∧
      (a.datum = .num 1 → ∃ r : Fp ER FR, refLog ER FR a = some r ∧ r.datum = .zero false) := by
  constructor
  · intro s hs
    obtain ⟨r, hr, h⟩ := C80_ref_exp (ER := ER) (FR := FR) hE hF a
    refine ⟨r, hr, ?_⟩
    rw [hs] at h
    have h : RoundedReal ER FR ((1 : ℚ) : ℝ) r.datum := by simpa [IsExp] using h
    rw [roundedReal_rat one_ne_zero] at h
    have h1 : (Fp.mk4 ER FR 1 0 (2 ^ (ER - 1) - 1) 0).datum = .num 1 := by
      have hlt : 2 ^ (ER - 1) ≤ 2 ^ ER := Nat.pow_le_pow_right (by norm_num) (by omega)
      have hpos : 0 < 2 ^ (ER - 1) := by positivity
      rw [mk4_num hE hF (by omega) (by positivity)]
      have : (((2 ^ (ER - 1) - 1 : ℕ) : ℤ)) - bias ER = 0 := by unfold bias; push_cast [Nat.cast_sub hpos]; ring
      rw [this]; norm_num
    have := rounded_self hF hE _ _ h1
    rw [h1] at this
    exact rounded_unique h this
  · intro h1
    obtain ⟨r, hr, h⟩ := C80_ref_log (ER := ER) (FR := FR) hE hF a
    refine ⟨r, hr, ?_⟩
    rw [h1] at h
    simp only [IsLog] at h
    rw [if_neg (by norm_num)] at h
    simpa [RoundedReal] using h

/-- **C108.** The logarithm of a positive number other than one, and the square root of a positive number, overflow, are flushed to zero and are off
exactly as the operations are. -/
theorem C108_log_sqrt_outcome (hE : 1 ≤ ER) (hF : 1 ≤ FR) (a : Fp EA FA) (q : ℚ) (ha : a.datum = .num q) (hq : 0 < q) :
    (q ≠ 1 → ∃ r : Fp ER FR, refLog ER FR a = some r ∧ OutcomeReal (overflowAt ER FR) (underflowAt ER FR) (uro FR) (Real.log q) r.datum) ∧
      ∃ r : Fp ER FR, refSqrt ER FR a = some r ∧ OutcomeReal (overflowAt ER FR) (underflowAt ER FR) (uro FR) (Real.sqrt q) r.datum := by
  have hqR : (0 : ℝ) < q := by exact_mod_cast hq
  constructor
  · intro h1
    obtain ⟨r, hr, h⟩ := C80_ref_log (ER := ER) (FR := FR) hE hF a
    refine ⟨r, hr, ?_⟩
    rw [ha] at h
    simp only [IsLog] at h
    rw [if_neg (by linarith)] at h
    exact roundedReal_outcome hF (Real.log_ne_zero_of_pos_of_ne_one hqR (by exact_mod_cast h1)) h
  · obtain ⟨r, hr, h⟩ := C80_ref_sqrt (ER := ER) (FR := FR) hE hF a
    refine ⟨r, hr, ?_⟩
    rw [ha] at h
    simp only [IsSqrt] at h
    rw [if_neg (by linarith)] at h
    exact roundedReal_outcome hF (Real.sqrt_ne_zero'.mpr hqR) h

/-- **C108.** The square root of a positive number, in a result format with the same exponent width, is a positive number: it neither overflows nor is
flushed to zero, whatever the two fraction widths. -/
theorem C108_sqrt_in_range {E : ℕ} (hE : 1 ≤ E) (hF : 1 ≤ FR) (hA : 1 ≤ FA) (a : Fp E FA) (q : ℚ) (ha : a.datum = .num q) (hq : 0 < q) :
    ∃ (r : Fp E FR) (v : ℚ), refSqrt E FR a = some r ∧ r.datum = .num v ∧ 0 < v ∧ |(v : ℝ) - Real.sqrt q| ≤ uro FR * Real.sqrt q := by
  have hqR : (0 : ℝ) < q := by exact_mod_cast hq
  obtain ⟨-, r, hr, o⟩ := C108_log_sqrt_outcome (ER := E) (FR := FR) hE hF a q ha hq
  obtain ⟨l1, l2⟩ := num_range hE hA ha
  rw [abs_of_pos hq] at l1 l2
  have hb0 : 0 ≤ bias E := by unfold bias; have : (1 : ℤ) ≤ 2 ^ (E - 1) := one_le_pow₀ (by norm_num); omega
  have e1 : (2 : ℤ) ^ E - bias E = bias E + 2 := by
    unfold bias
    obtain ⟨k, rfl⟩ := Nat.exists_eq_add_of_le' hE
    rw [pow_succ]; simp; ring
  have h8 : (2 : ℚ) ^ (-(FR : ℤ) - 2) ≤ 1 / 8 := by
    calc (2 : ℚ) ^ (-(FR : ℤ) - 2) ≤ 2 ^ (-3 : ℤ) := zpow_le_zpow_right₀ (by norm_num) (by omega)
      _ = 1 / 8 := by norm_num
  have h0 := two_zpow_pos (-(FR : ℤ) - 2)
  have hz := two_zpow_pos (-bias E)
  have hT : (4 : ℚ) ≤ 2 ^ (bias E + 2) := by
    calc (4 : ℚ) = 2 ^ (2 : ℤ) := by norm_num
      _ ≤ _ := zpow_le_zpow_right₀ (by norm_num) (by omega)
  have hz1 : (2 : ℚ) ^ (-bias E) ≤ 1 := by
    calc (2 : ℚ) ^ (-bias E) ≤ 2 ^ (0 : ℤ) := zpow_le_zpow_right₀ (by norm_num) (by omega)
      _ = 1 := by norm_num
  have hi : q < overflowAt E FR ^ 2 := by
    have : 2 ^ (bias E + 2) * (7 / 8) ≤ overflowAt E FR := by
      unfold overflowAt; rw [e1]
      exact mul_le_mul_of_nonneg_left (by linarith) (by positivity)
    have h2 : (2 ^ (bias E + 2) * (7 / 8)) ^ 2 ≤ overflowAt E FR ^ 2 := pow_le_pow_left₀ (by positivity) this 2
    nlinarith
  have hipos : 0 < overflowAt E FR := by
    unfold overflowAt
    exact mul_pos (two_zpow_pos _) (by linarith)
  have lopos : 0 < underflowAt E FR := by
    unfold underflowAt
    exact mul_pos hz (by linarith)
  have lo : underflowAt E FR ^ 2 ≤ q := by
    have h1 : underflowAt E FR ≤ 2 ^ (-bias E) := by unfold underflowAt; nlinarith
    nlinarith
  have hiR : Real.sqrt q < overflowAt E FR := by
    rw [Real.sqrt_lt' (by exact_mod_cast hipos)]
    exact_mod_cast hi
  have loR : (underflowAt E FR : ℝ) ≤ Real.sqrt q := by
    apply Real.le_sqrt_of_sq_le
    exact_mod_cast lo
  have hs := Real.sqrt_pos.mpr hqR
  have n1 : ¬ ∃ s, r.datum = .inf s := fun h => by
    have := o.overflow.mp h
    rw [abs_of_pos hs] at this; linarith
  have n2 : ¬ ∃ s, r.datum = .zero s := fun h => by
    have := o.underflow.mp h
    rw [abs_of_pos hs] at this; linarith
  cases hd : r.datum with
  | nan => exact absurd hd o.not_nan
  | inf s => exact absurd ⟨s, hd⟩ n1
  | zero s => exact absurd ⟨s, hd⟩ n2
  | num v =>
    obtain ⟨h1, h2⟩ := o.error v hd
    rw [abs_of_pos hs] at h1
    exact ⟨r, v, hr, hd, by exact_mod_cast (mul_pos_iff_of_pos_right hs).mp h2, h1⟩

/-- The hypotheses are met by `9/4` and `0`, and by the ordered pair `1`, `9/4`. -/
example : (Fp.mk4 4 3 1 0 8 1).datum = .num (9 / 4) ∧ (Fp.mk4 4 3 1 0 7 0).datum = .num 1 ∧ (Fp.mk4 4 3 0 0 0 0).datum = .zero false ∧
    (Fp.mk4 4 3 1 0 7 0).datum.Le (Fp.mk4 4 3 1 0 8 1).datum := by
  have h1 : (Fp.mk4 4 3 1 0 8 1).datum = .num (9 / 4) := by
    rw [Fp.mk4_datum (by decide) (by decide) (by decide) (by decide) (by decide) (by decide)]; norm_num [denote, bias]
  have h2 : (Fp.mk4 4 3 1 0 7 0).datum = .num 1 := by
    rw [Fp.mk4_datum (by decide) (by decide) (by decide) (by decide) (by decide) (by decide)]; norm_num [denote, bias]
  refine ⟨h1, h2, ?_, ?_⟩
  · rw [Fp.mk4_datum (by decide) (by decide) (by decide) (by decide) (by decide) (by decide)]; norm_num [denote]
  · rw [h1, h2]; left; show (1 : ℚ) < 9 / 4; norm_num

end Thls
