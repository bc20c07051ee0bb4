import Verif.Proofs.TypeTest

/-! # C85: the test programs of the number types pass exactly when no draw, and no product of draws, underflows -/

namespace Thls
open Spec

namespace TypeTest

theorem sig_exp_range {F m : ℕ} {e k : ℤ} (hm : IsSig (F + 1) m) :
    ((2 : ℚ) ^ k ≤ m * 2 ^ e ↔ k ≤ e + F) ∧ ((m : ℚ) * 2 ^ e ≤ 9 → e + F ≤ 3) := by
  have hl : (2 : ℚ) ^ (e + F) ≤ m * 2 ^ e := by
    rw [zpow_add₀ (by norm_num), mul_comm, zpow_natCast]
    have : ((2 : ℚ) ^ F) ≤ m := by exact_mod_cast hm.1
    exact mul_le_mul_of_nonneg_right this (two_zpow_pos e).le
  have hu : (m : ℚ) * 2 ^ e < 2 ^ (e + F + 1) := by
    rw [show e + F + 1 = e + ((F + 1 : ℕ) : ℤ) by push_cast; ring, zpow_add₀ (by norm_num), mul_comm ((2 : ℚ) ^ e), zpow_natCast]
    have : (m : ℚ) < 2 ^ (F + 1) := by exact_mod_cast hm.2
    exact mul_lt_mul_of_pos_right this (two_zpow_pos e)
  refine ⟨⟨fun h => ?_, fun h => le_trans (zpow_le_zpow_right₀ (by norm_num) h) hl⟩, fun h => ?_⟩
  · have := (zpow_lt_zpow_iff_right₀ (a := (2 : ℚ)) (by norm_num)).1 (lt_of_le_of_lt h hu)
    omega
  · have h16 : (2 : ℚ) ^ (e + F) < 2 ^ (4 : ℤ) := by norm_num; linarith
    have := (zpow_lt_zpow_iff_right₀ (a := (2 : ℚ)) (by norm_num)).1 h16
    omega

theorem bias_three {E : ℕ} (hE : 3 ≤ E) : 3 ≤ bias E := by
  have h4 : (2 : ℤ) ^ 2 ≤ 2 ^ (E - 1) := pow_le_pow_right₀ (by norm_num) (by omega)
  unfold bias
  omega

/-- The FloPoCo type. -/
theorem carries_flopoco {E F : ℕ} (hE : 3 ≤ E) (hF : 1 ≤ F) : Carries F (-bias E) (ofMpfr E F) (toMpfr (E := E) (F := F)) := by
  have hb := two_bias (E := E) (by omega)
  have hb3 := bias_three hE
  refine ⟨toMpfr_ok, ?_, ?_, ?_⟩
  · intro allow s
    obtain ⟨r, h1, h2⟩ := ofMpfr_zero (E := E) (F := F) (by omega) hF s
    exact ⟨r, h1, by rw [C47_to_mpfr_exact, h2]⟩
  · intro allow m e hm h9 hk
    obtain ⟨r1, r2⟩ := sig_exp_range (e := e) (k := -bias E) hm
    have hk' := r1.1 hk
    have h9' := r2 h9
    have h := C47_of_mpfr (E := E) (by omega) hF allow false e hm
    rw [if_pos (Or.inl ⟨by omega, by omega⟩)] at h
    obtain ⟨y, h1, h2⟩ := h
    refine ⟨y, h1, ?_⟩
    rw [C47_to_mpfr_exact, h2, rangeCheck, if_neg (by omega), if_neg (by omega)]
    simp
  · intro m e hm hk
    have hk' : ¬ -bias E ≤ e + F := fun hc => absurd ((sig_exp_range (e := e) hm).1.2 hc) (not_le.2 hk)
    have h := C47_of_mpfr (E := E) (by omega) hF false false e hm
    have h' := C47_of_mpfr (E := E) (by omega) hF true false e hm
    rw [if_neg (by simp only [or_false, Bool.false_eq_true]; omega)] at h
    rw [if_pos (Or.inr rfl)] at h'
    obtain ⟨y, h1, h2⟩ := h'
    refine ⟨h, y, h1, ?_⟩
    rw [C47_to_mpfr_exact, h2, rangeCheck, if_pos (by omega)]

/-- The IEEE type. -/
theorem carries_ieee {E F : ℕ} (hE : 3 ≤ E) (hF : 1 ≤ F) : Carries F (1 - bias E) (Ieee.ofMpfr E F) (Ieee.toMpfr (E := E) (F := F)) := by
  have hb := two_bias (E := E) (by omega)
  have hb3 := bias_three hE
  have hd : ∀ m (e : ℤ), (Mpfr.num false m e).datum = .num ((m : ℚ) * 2 ^ e) := by intro m e; simp [Mpfr.datum]
  refine ⟨ieee_toMpfr_ok, ?_, ?_, ?_⟩
  · intro allow s
    obtain ⟨-, -, h, -⟩ := C51_mpfr_round_trip (E := E) (by omega) hF allow (Ieee.ofBits E F 0)
    obtain ⟨y, h1, h2⟩ := h s
    exact ⟨y, h1, by rw [C51_to_mpfr (by omega) hF, h2]; rfl⟩
  · intro allow m e hm h9 hk
    obtain ⟨r1, r2⟩ := sig_exp_range (e := e) (k := 1 - bias E) hm
    have hk' := r1.1 hk
    have h9' := r2 h9
    have h := C51_of_mpfr (E := E) (by omega) hF allow false e hm
    rw [if_pos (Or.inl ⟨by omega, by omega⟩)] at h
    obtain ⟨y, h1, h2⟩ := h
    refine ⟨y, h1, ?_⟩
    have hp : (0 : ℚ) ≤ m * 2 ^ e := by positivity
    rw [C51_to_mpfr (by omega) hF, h2, ieeeRange_idem, hd, ieeeRange, abs_of_nonneg hp,
      if_neg (show ¬ (m : ℚ) * 2 ^ e < ieeeMin E from not_lt.2 hk), if_neg]
    rw [not_le]
    refine lt_of_le_of_lt h9 ?_
    have h16 : (2 : ℚ) ^ (4 : ℤ) ≤ 2 ^ (bias E + 1) := zpow_le_zpow_right₀ (by norm_num) (by omega)
    unfold ieeeLimit
    norm_num at h16
    linarith
  · intro m e hm hk
    have hk' : ¬ 1 - bias E ≤ e + F := fun hc => absurd ((sig_exp_range (e := e) hm).1.2 hc) (not_le.2 hk)
    have h := C51_of_mpfr (E := E) (by omega) hF false false e hm
    have h' := C51_of_mpfr (E := E) (by omega) hF true false e hm
    rw [if_neg (by simp only [or_false, Bool.false_eq_true]; omega)] at h
    rw [if_pos (Or.inr rfl)] at h'
    obtain ⟨y, h1, h2⟩ := h'
    refine ⟨h, y, h1, ?_⟩
    have hp : (0 : ℚ) ≤ m * 2 ^ e := by positivity
    rw [C51_to_mpfr (by omega) hF, h2, ieeeRange_idem, hd, ieeeRange, abs_of_nonneg hp,
      if_pos (show (m : ℚ) * 2 ^ e < ieeeMin E from hk), decide_eq_false (not_lt.2 hp)]

/-! ## The fixed part of `test1` -/

theorem mpfr_of_inf {x : Mpfr} {s : Bool} (h : x.datum = .inf s) : x = .inf s := by
  cases x with
  | inf t => injection h with h; rw [h]
  | nan => cases h
  | zero t => cases h
  | num t m e => cases h

theorem mpfr_of_nan {x : Mpfr} (h : x.datum = .nan) : x.isNan = true := by
  cases x with
  | inf t => cases h
  | nan => rfl
  | zero t => cases h
  | num t m e => cases h

theorem digits_eq {a b c d n : ℕ} (hb : b < n) (hd : d < n) (h : a * n + b = c * n + d) : a = c ∧ b = d := by
  have hn : 0 < n := by omega
  have h1 : a = c := by
    have e1 : (a * n + b) / n = a := by rw [Nat.add_comm, Nat.add_mul_div_right _ _ hn, Nat.div_eq_of_lt hb, zero_add]
    have e2 : (c * n + d) / n = c := by rw [Nat.add_comm, Nat.add_mul_div_right _ _ hn, Nat.div_eq_of_lt hd, zero_add]
    rw [← e1, h, e2]
  subst h1
  exact ⟨rfl, by omega⟩

theorem nextup_max {E F : ℕ} (hE : 1 ≤ E) (hF : 1 ≤ F) : nextup (Limits.max E F) = Limits.infinity E F := by
  have oE : ones E < 2 ^ E := by unfold ones; have : 0 < 2 ^ E := by positivity
                                 omega
  have oF : ones F < 2 ^ F := by unfold ones; have : 0 < 2 ^ F := by positivity
                                 omega
  obtain ⟨h1, h2, h3⟩ := Fp.mk3_fields (E := E) (F := F) (fs := 0b010) hE (by decide) oE oF
  have h4 := Fp.expFrac_eq hE hF (Limits.max E F)
  have hf := (Limits.max E F).frac_lt hF
  change (Limits.max E F).flags = _ at h1
  change (Limits.max E F).sign = _ at h2
  change (Limits.max E F).expFrac = _ at h3
  rw [h3, concat] at h4
  have hx : (Limits.max E F).exp = ones E := (digits_eq oF hf h4).1.symm
  have hy : (Limits.max E F).frac = ones F := by rw [hx] at h4; omega
  simp [nextup, Fp.isPosInf, Fp.isPosNormal, Fp.isPositive, Fp.isInf, Fp.isNormal, h1, h2, hx, hy]

theorem nextdown_lowest {E F : ℕ} (hE : 1 ≤ E) (hF : 1 ≤ F) : nextdown (Limits.lowest E F) = Limits.negInfinity E F := by
  have oE : ones E < 2 ^ E := by unfold ones; have : 0 < 2 ^ E := by positivity
                                 omega
  have oF : ones F < 2 ^ F := by unfold ones; have : 0 < 2 ^ F := by positivity
                                 omega
  obtain ⟨h1, h2, h3⟩ := Fp.mk3_fields (E := E) (F := F) (fs := 0b011) hE (by decide) oE oF
  have h4 := Fp.expFrac_eq hE hF (Limits.lowest E F)
  have hf := (Limits.lowest E F).frac_lt hF
  change (Limits.lowest E F).flags = _ at h1
  change (Limits.lowest E F).sign = _ at h2
  change (Limits.lowest E F).expFrac = _ at h3
  rw [h3, concat] at h4
  have hx : (Limits.lowest E F).exp = ones E := (digits_eq oF hf h4).1.symm
  have hy : (Limits.lowest E F).frac = ones F := by rw [hx] at h4; omega
  simp [nextdown, Fp.isPosInf, Fp.isPosNormal, Fp.isNegNormal, Fp.isPosZero, Fp.isNegZero, Fp.isPositive, Fp.isNegative, Fp.isZero, Fp.isInf,
    Fp.isNormal, h1, h2, hx, hy]

theorem constants_pass {E F : ℕ} (hE : 1 ≤ E) (hE' : E ≤ 11) (hF : 1 ≤ F) (hF' : F ≤ 52) : constants E F = some true := by
  obtain ⟨-, -, -, -, -, l1, l2, l3, -, -⟩ := C46_limits_values_partial (E := E) (F := F) hE hF
  have sp : ∀ x : Fp E F, (∀ v, x.datum ≠ .num v) → ∃ r, toDouble x = some r ∧ (dblValue r).datum = x.datum := by
    intro x hx
    obtain ⟨r, h1, -, h3⟩ := C56_to_double_partial hE hE' hF hF' x
    exact ⟨r, h1, by rw [dblValue_datum, h3 hx]⟩
  obtain ⟨a, a1, a2⟩ := sp (Limits.infinity E F) (by rw [l1]; intro v h; cases h)
  obtain ⟨b, b1, b2⟩ := sp (Limits.negInfinity E F) (by rw [l2]; intro v h; cases h)
  obtain ⟨c, c1, c2⟩ := sp (Limits.quietNaN E F) (by rw [l3]; intro v h; cases h)
  have t1 := mpfr_of_inf (by rw [C47_to_mpfr_exact, l1] : (toMpfr (Limits.infinity E F)).datum = .inf false)
  have t2 := mpfr_of_inf (by rw [C47_to_mpfr_exact, l2] : (toMpfr (Limits.negInfinity E F)).datum = .inf true)
  have t3 := mpfr_of_nan (by rw [C47_to_mpfr_exact, l3] : (toMpfr (Limits.quietNaN E F)).datum = .nan)
  have i1 : ∀ s, (Mpfr.inf s).isNan = false := fun _ => rfl
  have u1 := mpfr_of_inf (a2.trans l1)
  have u2 := mpfr_of_inf (b2.trans l2)
  have u3 := mpfr_of_nan (c2.trans l3)
  simp [constants, a1, b1, c1, t1, t2, t3, u1, u2, u3, nextup_max hE hF, nextdown_lowest hE hF, isInfinite, equalP, i1, Mpfr.cmp]

/-- A stored number that is a double goes to that double. -/
theorem toDouble_same {E F : ℕ} (hE : 1 ≤ E) (hE' : E ≤ 11) (hF : 1 ≤ F) (hF' : F ≤ 52) {x : Fp E F} {a : Mpfr} {v : ℚ} (h0 : 0 ≤ v)
    (h9 : v ≤ 9) (hF3 : 3 ≤ F) (ha : (v = 0 ∧ ∃ s, a = .zero s) ∨ (v ≠ 0 ∧ a = Mpfr.rndn (F + 1) v)) (hx : (toMpfr x).datum = a.datum)
    (hb : 0 < v → ∃ n j, IsBinary64 n j ∧ v = n * 2 ^ j) :
    ∃ d, toDouble x = some d ∧ (dblValue d).datum = a.datum := by
  rw [C47_to_mpfr_exact] at hx
  obtain ⟨r, h1, h2, h3⟩ := C56_to_double_partial hE hE' hF hF' x
  refine ⟨r, h1, ?_⟩
  rw [dblValue_datum]
  rcases ha with ⟨rfl, s, rfl⟩ | ⟨hv, rfl⟩
  · rw [← hx]; exact h3 (by rw [hx]; intro w h; cases h)
  · have hpos : 0 < v := lt_of_le_of_ne h0 (Ne.symm hv)
    obtain ⟨m, e, g1, g2⟩ := rndn_pos (p := F + 1) (by omega) hpos
    obtain ⟨n, j, n1, n2⟩ := hb hpos
    have g3 := nearest_le_nine (by omega) h9 g2
    rw [n2] at g2
    obtain ⟨m', e', b1, b2⟩ := nearest_binary64 (by omega) (by omega) n1 g2
    have hd : (Mpfr.num false m e).datum = .num (m * 2 ^ e) := by simp [Mpfr.datum]
    rw [g1, hd] at hx ⊢
    have hm0 : 0 < m := lt_of_lt_of_le (by positivity) g2.1.1
    have hp : (0 : ℚ) < m * 2 ^ e := by positivity
    refine rounded64_self hp.ne' b1 (by rw [abs_of_pos hp, b2]) ?_ (h2 _ hx hp)
    rw [abs_of_pos hp]
    refine lt_of_le_of_lt g3 ?_
    have : (2 : ℚ) ^ (4 : ℤ) ≤ 2 ^ (1024 : ℤ) := zpow_le_zpow_right₀ (by norm_num) (by norm_num)
    exact lt_of_lt_of_le (by norm_num) this

theorem draw_binary64 {d : Ieee 11 52} {v : ℚ} (h : d.datum.fin = some v) (hv : 0 < v) : ∃ n j, IsBinary64 n j ∧ v = n * 2 ^ j := by
  cases dd : d.datum with
  | nan => rw [dd] at h; cases h
  | inf s => rw [dd] at h; cases h
  | zero s => rw [dd] at h; injection h with h; exact absurd h hv.ne
  | num w =>
    rw [dd] at h; injection h with h; subst h
    obtain ⟨m, e, -, -, h3, h4⟩ := dblValue_pos dd hv
    exact ⟨m, e, h4, h3⟩

theorem small_int_cases (F i : ℕ) :
    ((i : ℚ) = 0 ∧ ∃ s, setInt (F + 1) i = .zero s) ∨ ((i : ℚ) ≠ 0 ∧ setInt (F + 1) i = Mpfr.rndn (F + 1) i) := by
  by_cases h : (i : ℚ) = 0
  · exact Or.inl ⟨h, false, by rw [setInt, Mpfr.rndn, if_pos h]⟩
  · exact Or.inr ⟨h, rfl⟩

theorem reaches_int {E p i : ℕ} {k : ℤ} (hk : k ≤ 0) : Reaches p k (i : ℚ) := by
  by_cases h : i = 0
  · exact Or.inl (by rw [h]; norm_num)
  · right
    have h1 : (2 : ℚ) ^ k ≤ 1 := by
      rw [show (1 : ℚ) = 2 ^ (0 : ℤ) by norm_num]; exact zpow_le_zpow_right₀ (by norm_num) hk
    have h2 : (1 : ℚ) ≤ i := by exact_mod_cast Nat.one_le_iff_ne_zero.2 h
    have h3 : (0 : ℚ) < 2 ^ (-(p : ℤ) - 1) := two_zpow_pos _
    have h4 : (0 : ℚ) < 2 ^ k := two_zpow_pos _
    nlinarith

/-- `test1` of the FloPoCo type. -/
theorem test1_iff {E F : ℕ} (hE : 3 ≤ E) (hE' : E ≤ 11) (hF : 3 ≤ F) (hF' : F ≤ 52) {draws : ℕ → Ieee 11 52} {d : ℕ → ℚ}
    (hd : ∀ i, (draws i).datum.fin = some (d i) ∧ 0 ≤ d i ∧ d i < 1) :
    test1 E F draws = some true ↔ ∀ i < 10, Reaches (F + 1) (-bias E) (d i) := by
  have C := carries_flopoco (E := E) (F := F) hE (by omega)
  have hb := bias_three hE
  have ints : OpTest.forAll (fun i => integerCheck E F (setInt (F + 1) i)) (List.range 10) = some true := by
    rw [OpTest.forAll_iff]
    intro i hi
    have hi' := List.mem_range.1 hi
    have h9 : (i : ℚ) ≤ 9 := by exact_mod_cast (by omega : i ≤ 9)
    obtain ⟨a1, -, -, w, hw, -⟩ := carries_draw C hF (v := (i : ℚ)) (by positivity) h9 (small_int_cases F i)
    obtain ⟨x, x1, x2⟩ := a1 (reaches_int (E := E) (by omega)) false
    obtain ⟨t, t1, t2⟩ := toDouble_same (E := E) (by omega) hE' (by omega) hF' (by positivity) h9 hF (small_int_cases F i) x2
      (fun _ => ⟨i, 0, ⟨by omega, by norm_num⟩, by norm_num⟩)
    simp only [integerCheck, x1, t1, Option.bind_eq_bind, Option.bind_some]
    rw [equalP_same x2.symm (fun h => by rw [h] at hw; cases hw), cmpZero, Mpfr.cmp_same t2.symm]
    rfl
  unfold test1
  rw [seqCheck_iff, seqCheck_iff, ints, constants_pass (by omega) hE' (by omega) hF', OpTest.forAll_iff]
  simp only [true_and, List.mem_range]
  refine forall_congr' fun i => forall_congr' fun hi => ?_
  have h9 : d i ≤ 9 := by have := (hd i).2.2; linarith
  obtain ⟨a1, a2, -, -⟩ := carries_draw C hF (hd i).2.1 h9 (setD_cases (F + 1) (hd i).1)
  by_cases hr : Reaches (F + 1) (-bias E) (d i)
  · obtain ⟨x, x1, x2⟩ := a1 hr false
    obtain ⟨t, t1, t2⟩ := toDouble_same (E := E) (by omega) hE' (by omega) hF' (hd i).2.1 h9 hF (setD_cases (F + 1) (hd i).1) x2
      (draw_binary64 (hd i).1)
    simp only [drawCheck, x1, t1, Option.bind_eq_bind, Option.bind_some, hr, iff_true]
    rw [cmpZero, Mpfr.cmp_same t2.symm]
    rfl
  · simp [drawCheck, (a2 hr).1, hr]

/-- `test1` of the IEEE type. -/
theorem ieeeTest1_iff {E F : ℕ} (hE : 3 ≤ E) (hF : 3 ≤ F) {draws : ℕ → Ieee 11 52} {d : ℕ → ℚ}
    (hd : ∀ i, (draws i).datum.fin = some (d i) ∧ 0 ≤ d i ∧ d i < 1) :
    ieeeTest1 E F draws = some true ↔ ∀ i < 10, Reaches (F + 1) (1 - bias E) (d i) := by
  have C := carries_ieee (E := E) (F := F) hE (by omega)
  have hb := bias_three hE
  obtain ⟨-, -, -, -, -, -, l1, l2, l3, -⟩ := C51_limits_values_partial (E := E) (F := F) (by omega) (by omega)
  have t1 := mpfr_of_inf (by rw [C51_to_mpfr (by omega) (by omega), l1]; rfl : (IeeeLimits.infinity E F).toMpfr.datum = .inf false)
  have t2 := mpfr_of_inf (by rw [C51_to_mpfr (by omega) (by omega), l2]; rfl : (IeeeLimits.negInfinity E F).toMpfr.datum = .inf true)
  have t3 := mpfr_of_nan (by rw [C51_to_mpfr (by omega) (by omega), l3]; rfl : (IeeeLimits.quietNaN E F).toMpfr.datum = .nan)
  have consts : (equalP (.inf false) (IeeeLimits.infinity E F).toMpfr && equalP (.inf true) (IeeeLimits.negInfinity E F).toMpfr &&
    (IeeeLimits.quietNaN E F).toMpfr.isNan) = true := by
    have i1 : ∀ s, (Mpfr.inf s).isNan = false := fun _ => rfl
    simp [t1, t2, t3, equalP, i1, Mpfr.cmp]
  unfold ieeeTest1
  simp only [seqCheck_iff, consts, OpTest.forAll_iff, true_and, List.mem_range]
  have body : ∀ (a : Mpfr) (v : ℚ), 0 ≤ v → v ≤ 9 → ((v = 0 ∧ ∃ s, a = .zero s) ∨ (v ≠ 0 ∧ a = Mpfr.rndn (F + 1) v)) →
      ((do let one ← Ieee.ofMpfr E F false a; some (equalP a one.toMpfr) : Option Bool) = some true ↔ Reaches (F + 1) (1 - bias E) v) := by
    intro a v h0 h9 ha
    obtain ⟨a1, a2, -, w, hw, -⟩ := carries_draw C hF h0 h9 ha
    by_cases hr : Reaches (F + 1) (1 - bias E) v
    · obtain ⟨x, x1, x2⟩ := a1 hr false
      simp only [x1, Option.bind_eq_bind, Option.bind_some, hr, iff_true]
      rw [equalP_same x2.symm (fun h => by rw [h] at hw; cases hw)]
    · simp [(a2 hr).1, hr]
  constructor
  · rintro ⟨-, h⟩ i hi
    exact (body _ _ (hd i).2.1 (by have := (hd i).2.2; linarith) (setD_cases (F + 1) (hd i).1)).1 (h i hi)
  · intro h
    refine ⟨fun i hi => ?_, fun i hi => ?_⟩
    · have h9 : (i : ℚ) ≤ 9 := by exact_mod_cast (by omega : i ≤ 9)
      exact (body _ _ (by positivity) h9 (small_int_cases F i)).2 (reaches_int (E := E) (by omega))
    · exact (body _ _ (hd i).2.1 (by have := (hd i).2.2; linarith) (setD_cases (F + 1) (hd i).1)).2 (h i hi)

theorem rndn_negative {p m : ℕ} {e : ℤ} {v : ℚ} (hv : 0 < v) (h : Mpfr.rndn p v = .num false m e) : Mpfr.rndn p (-v) = .num true m e := by
  rw [Mpfr.rndn, if_neg hv.ne'] at h
  injection h with h1 h2 h3
  rw [Mpfr.rndn, if_neg (by linarith), abs_neg, h2, h3, decide_eq_true (by linarith)]

/-- The numbers of `test_single`. -/
theorem single_numbers :
    Mpfr.rndn 24 1 = .num false (2 ^ 23) (-23) ∧ Mpfr.rndn 24 (-1) = .num true (2 ^ 23) (-23) ∧
    (∀ k, Mpfr.mul2si 24 k (Mpfr.rndn 24 ((2 ^ 24 - 1 : ℕ) : ℚ)) = .num false (2 ^ 24 - 1) k) ∧
    (∀ k, Mpfr.negate 24 (Mpfr.mul2si 24 k (Mpfr.rndn 24 ((2 ^ 24 - 1 : ℕ) : ℚ))) = .num true (2 ^ 24 - 1) k) ∧
    ∀ k, Mpfr.mul2si 24 k (Mpfr.rndn 24 ((2 ^ 23 : ℕ) : ℚ)) = .num false (2 ^ 23) k := by
  have g : ∀ (m : ℕ) (e : ℤ), IsSig (23 + 1) m → Mpfr.rndn 24 ((m : ℚ) * 2 ^ e) = .num false m e := fun m e hm =>
    rndn_eq (F := 23) (by norm_num) hm rfl
  have g2 : ∀ (m : ℕ) (k : ℤ), IsSig (23 + 1) m → Mpfr.mul2si 24 k (Mpfr.rndn 24 (m : ℚ)) = .num false m k := by
    intro m k hm
    have h := g m 0 hm
    rw [zpow_zero, mul_one] at h
    rw [h, Mpfr.mul2si, Mpfr.value]
    have := g m k hm
    simpa using this
  have s1 : IsSig (23 + 1) (2 ^ 23) := ⟨by norm_num, by norm_num⟩
  have s2 : IsSig (23 + 1) (2 ^ 24 - 1) := ⟨by norm_num, by norm_num⟩
  have r1 : Mpfr.rndn 24 1 = .num false (2 ^ 23) (-23) := by
    have := g _ (-23) s1
    rwa [show ((2 ^ 23 : ℕ) : ℚ) * 2 ^ (-23 : ℤ) = 1 by norm_num] at this
  refine ⟨r1, rndn_negative one_pos r1, fun k => g2 _ k s2, fun k => ?_, fun k => g2 _ k s1⟩
  rw [g2 _ k s2, Mpfr.negate]
  have hp : (0 : ℚ) < ((2 ^ 24 - 1 : ℕ) : ℚ) * 2 ^ k := mul_pos (by norm_num) (two_zpow_pos k)
  have := rndn_negative hp (g _ k s2)
  rw [Mpfr.value, if_neg Bool.false_ne_true, one_mul]
  exact this

theorem testSingle_pass : testSingle = some true := by
  obtain ⟨h1, h2, h3, h4, h5⟩ := single_numbers
  unfold testSingle
  rw [h1, h2, h4, h3, h5]
  decide +kernel

theorem ieeeTestSingle_pass : ieeeTestSingle = some true := by
  obtain ⟨h1, h2, h3, h4, h5⟩ := single_numbers
  unfold ieeeTestSingle
  rw [h1, h2, h4, h3, h5]
  decide +kernel

end TypeTest

/-- **C85.** `test<E,F>` of the FloPoCo type, for any draws from `[0,1)`: it passes exactly when no number drawn and no rounded product of
two numbers drawn falls below the least number of the format. -/
theorem C85_flopoco_test_iff {E F : ℕ} (hE : 3 ≤ E) (hE' : E ≤ 11) (hF : 3 ≤ F) (hF' : F ≤ 52) {draws : ℕ → Ieee 11 52} {d : ℕ → ℚ}
    (hd : ∀ i, (draws i).datum.fin = some (d i) ∧ 0 ≤ d i ∧ d i < 1) :
    TypeTest.test E F draws = some true ↔ DrawsInRange (F + 1) (-bias E) d := by
  unfold TypeTest.test
  rw [TypeTest.seqCheck_iff, TypeTest.test1_iff hE hE' hF hF' hd,
    TypeTest.test2_iff (TypeTest.carries_flopoco hE (by omega)) hF (mul := refMul E F) (fun _ _ => rfl) hd]
  exact ⟨fun h => h.2, fun h => ⟨fun i hi => h.1 i (by omega), h⟩⟩

/-- **C85.** The same for the IEEE type, whose least number kept is the least normal one. -/
theorem C85_ieee_test_iff {E F : ℕ} (hE : 3 ≤ E) (hF : 3 ≤ F) {draws : ℕ → Ieee 11 52} {d : ℕ → ℚ}
    (hd : ∀ i, (draws i).datum.fin = some (d i) ∧ 0 ≤ d i ∧ d i < 1) :
    TypeTest.ieeeTest E F draws = some true ↔ DrawsInRange (F + 1) (1 - bias E) d := by
  unfold TypeTest.ieeeTest
  rw [TypeTest.seqCheck_iff, TypeTest.ieeeTest1_iff hE hF hd,
    TypeTest.test2_iff (TypeTest.carries_ieee hE (by omega)) hF (mul := ieeeRefMul E F) (fun _ _ => rfl) hd]
  exact ⟨fun h => h.2, fun h => ⟨fun i hi => h.1 i (by omega), h⟩⟩

/-- **C85.** The whole program `test_fp_flopoco`. -/
theorem C85_flopoco_program_iff {draws : ℕ → Ieee 11 52} {d : ℕ → ℚ} (hd : ∀ i, (draws i).datum.fin = some (d i) ∧ 0 ≤ d i ∧ d i < 1) :
    TypeTest.main draws = some true ↔
      ∀ f ∈ [(8, 23), (8, 24), (8, 25), (8, 26), (8, 29), (8, 30), (8, 31), (8, 32), (8, 33), (9, 40), (11, 52), (6, 4)],
        DrawsInRange (f.2 + 1) (-bias f.1) d := by
  unfold TypeTest.main
  rw [TypeTest.seqCheck_iff, TypeTest.testSingle_pass, OpTest.forAll_iff]
  simp only [true_and]
  have hf : ∀ f ∈ TypeTest.formats, 3 ≤ f.1 ∧ f.1 ≤ 11 ∧ 3 ≤ f.2 ∧ f.2 ≤ 52 := by decide
  exact forall_congr' fun f => forall_congr' fun h =>
    C85_flopoco_test_iff (hf f h).1 (hf f h).2.1 (hf f h).2.2.1 (hf f h).2.2.2 hd

/-- **C85.** The whole program `test_fp_ieee`. -/
theorem C85_ieee_program_iff {draws : ℕ → Ieee 11 52} {d : ℕ → ℚ} (hd : ∀ i, (draws i).datum.fin = some (d i) ∧ 0 ≤ d i ∧ d i < 1) :
    TypeTest.ieeeMain draws = some true ↔ ∀ f ∈ [(8, 23), (11, 52), (6, 4)], DrawsInRange (f.2 + 1) (1 - bias f.1) d := by
  unfold TypeTest.ieeeMain
  rw [TypeTest.seqCheck_iff, TypeTest.ieeeTestSingle_pass, OpTest.forAll_iff]
  simp only [true_and]
  have hf : ∀ f ∈ TypeTest.ieeeFormats, 3 ≤ f.1 ∧ 3 ≤ f.2 := by decide
  exact forall_congr' fun f => forall_congr' fun h => C85_ieee_test_iff (hf f h).1 (hf f h).2 hd

/-- Numbers at least `2^-15` and their products stay in range of every format with a least number of at most `2^-30`. -/
theorem drawsInRange_of_large {p : ℕ} {k : ℤ} (hp : 1 ≤ p) (hk : k ≤ -30) {d : ℕ → ℚ} (hd : ∀ i, d i = 0 ∨ (2 : ℚ) ^ (-15 : ℤ) ≤ d i) :
    DrawsInRange p k d := by
  have big : ∀ {x : ℚ}, x = 0 ∨ (2 : ℚ) ^ (-30 : ℤ) ≤ x → Reaches p k x := by
    rintro x (h | h)
    · exact Or.inl h
    · right
      have h1 : (2 : ℚ) ^ k ≤ 2 ^ (-30 : ℤ) := zpow_le_zpow_right₀ (by norm_num) hk
      have h2 : (0 : ℚ) < 2 ^ k := two_zpow_pos _
      have h3 : (0 : ℚ) < 2 ^ (-(p : ℤ) - 1) := two_zpow_pos _
      nlinarith
  have rnd : ∀ {x a : ℚ}, (x = 0 ∨ (2 : ℚ) ^ (-15 : ℤ) ≤ x) → RoundsTo p x a → a = 0 ∨ (2 : ℚ) ^ (-15 : ℤ) ≤ a := by
    rintro x a hx (⟨-, h⟩ | ⟨h0, m, e, h1, rfl⟩)
    · exact Or.inl h
    · right
      refine (nearest_reaches hp h1).2 ?_
      have h2 : (0 : ℚ) < 2 ^ (-15 : ℤ) := two_zpow_pos _
      have h3 : (0 : ℚ) < 2 ^ (-(p : ℤ) - 1) := two_zpow_pos _
      rcases hx with hx | hx
      · linarith
      · nlinarith
  have h15 : (2 : ℚ) ^ (-15 : ℤ) * 2 ^ (-15 : ℤ) = 2 ^ (-30 : ℤ) := by rw [← zpow_add₀ (by norm_num)]; norm_num
  have h0 : (0 : ℚ) < 2 ^ (-15 : ℤ) := two_zpow_pos _
  refine ⟨fun i _ => big ?_, fun i _ a b ha hb => big ?_⟩
  · rcases hd i with h | h
    · exact Or.inl h
    · exact Or.inr (le_trans (zpow_le_zpow_right₀ (by norm_num) (by norm_num)) h)
  · rcases rnd (hd _) ha with h | h
    · exact Or.inl (by rw [h, zero_mul])
    rcases rnd (hd _) hb with h' | h'
    · exact Or.inl (by rw [h', mul_zero])
    · exact Or.inr (by rw [← h15]; exact mul_le_mul h h' h0.le (le_trans h0.le h))

/-- **C85.** If every draw is zero or at least `2^-15`, both programs pass. -/
theorem C85_programs_pass {draws : ℕ → Ieee 11 52} {d : ℕ → ℚ} (hd : ∀ i, (draws i).datum.fin = some (d i) ∧ 0 ≤ d i ∧ d i < 1)
    (hl : ∀ i, d i = 0 ∨ (2 : ℚ) ^ (-15 : ℤ) ≤ d i) : TypeTest.main draws = some true ∧ TypeTest.ieeeMain draws = some true := by
  rw [C85_flopoco_program_iff hd, C85_ieee_program_iff hd]
  constructor
  · intro f hf
    refine drawsInRange_of_large (by omega) ?_ hl
    revert f; unfold bias; decide
  · intro f hf
    refine drawsInRange_of_large (by omega) ?_ hl
    revert f; unfold bias; decide

/-- **C85.** A draw of `2^-20` in both places of a pair makes both programs fail, at the product of two numbers of format (6, 4): the
product `2^-40` becomes a zero. -/
theorem C85_small_draws_fail {draws : ℕ → Ieee 11 52} {d : ℕ → ℚ} (hd : ∀ i, (draws i).datum.fin = some (d i) ∧ 0 ≤ d i ∧ d i < 1)
    (i : ℕ) (hi : i < 100) (h1 : d (2 * i) = 2 ^ (-20 : ℤ)) (h2 : d (2 * i + 1) = 2 ^ (-20 : ℤ)) :
    TypeTest.main draws ≠ some true ∧ TypeTest.ieeeMain draws ≠ some true := by
  have hr : ∀ k : ℤ, -31 ≤ k → ¬ DrawsInRange 5 k d := by
    rintro k hk ⟨-, h⟩
    have hn : RoundsTo 5 (2 ^ (-20 : ℤ)) (2 ^ (-20 : ℤ)) := by
      right
      refine ⟨two_zpow_pos _, 16, -24, nearest_self (by norm_num) ⟨by norm_num, by norm_num⟩ (by norm_num), by norm_num⟩
    have := h i hi (2 ^ (-20 : ℤ)) (2 ^ (-20 : ℤ)) (by rw [h1]; exact hn) (by rw [h2]; exact hn)
    have h31 : (2 : ℚ) ^ (-31 : ℤ) ≤ 2 ^ k := zpow_le_zpow_right₀ (by norm_num) hk
    rcases this with h0 | h0
    · norm_num at h0
    · norm_num at h0 h31
      linarith
  rw [Ne, Ne, C85_flopoco_program_iff hd, C85_ieee_program_iff hd]
  constructor
  · intro h
    exact hr _ (by unfold bias; norm_num) (h (6, 4) (by simp))
  · intro h
    exact hr _ (by unfold bias; norm_num) (h (6, 4) (by simp))

/-- **C85.** The comparisons of the test programs: `mpfr_equal_p` is equality of numbers, which no NaN satisfies; `mpfr_cmp(x,y)==0` is
equality of numbers or a NaN on either side. -/
theorem C85_comparisons {x y : Mpfr} (hx : x.Ok) (hy : y.Ok) :
    (TypeTest.equalP x y = true ↔ x.datum.RealEq y.datum) ∧
    (TypeTest.cmpZero x y = true ↔ x.datum.RealEq y.datum ∨ x.datum = .nan ∨ y.datum = .nan) := by
  have tri : ∀ a b : ℚ, (if a < b then (-1 : ℤ) else if b < a then 1 else 0) = 0 ↔ a = b := by
    intro a b
    split_ifs with h1 h2
    · exact ⟨fun h => absurd h (by norm_num), fun h => absurd h h1.ne⟩
    · exact ⟨fun h => absurd h (by norm_num), fun h => absurd h h2.ne'⟩
    · exact ⟨fun _ => le_antisymm (not_lt.1 h2) (not_lt.1 h1), fun _ => rfl⟩
  have nz : ∀ (s : Bool) (m : ℕ) (e : ℤ), 0 < m → (if s then (-1 : ℚ) else 1) * ((m : ℚ) * 2 ^ e) ≠ 0 := by
    intro s m e hm
    have h1 : (0 : ℚ) < m := by exact_mod_cast hm
    have h2 := two_zpow_pos e
    have h3 : (m : ℚ) * 2 ^ e ≠ 0 := (mul_pos h1 h2).ne'
    cases s
    · simpa using h3
    · simpa using h3
  have key : x.isNan = false → y.isNan = false → (Mpfr.cmp x y = 0 ↔ x.datum.RealEq y.datum) := by
    intro h1 h2
    cases x with
    | nan => cases h1
    | inf s =>
      cases y with
      | nan => cases h2
      | inf t => cases s <;> cases t <;> simp [Mpfr.cmp, Mpfr.datum, Datum.RealEq]
      | zero t => cases s <;> simp [Mpfr.cmp, Mpfr.datum, Datum.RealEq]
      | num t m e => cases s <;> simp [Mpfr.cmp, Mpfr.datum, Datum.RealEq]
    | zero s =>
      cases y with
      | nan => cases h2
      | inf t => cases t <;> simp [Mpfr.cmp, Mpfr.datum, Datum.RealEq]
      | zero t => simp [Mpfr.cmp, Mpfr.datum, Datum.RealEq, Mpfr.value]
      | num t m e =>
        have : Mpfr.cmp (.zero s) (.num t m e) = 0 ↔ (0 : ℚ) = (if t then (-1 : ℚ) else 1) * ((m : ℚ) * 2 ^ e) := tri _ _
        rw [this]
        constructor
        · exact fun h => absurd h.symm (nz t m e hy)
        · exact fun h => Datum.noConfusion (show Datum.zero s = .num _ from h)
    | num s m e =>
      cases y with
      | nan => cases h2
      | inf t => cases t <;> simp [Mpfr.cmp, Mpfr.datum, Datum.RealEq]
      | zero t =>
        have : Mpfr.cmp (.num s m e) (.zero t) = 0 ↔ (if s then (-1 : ℚ) else 1) * ((m : ℚ) * 2 ^ e) = 0 := tri _ _
        rw [this]
        constructor
        · exact fun h => absurd h (nz s m e hx)
        · exact fun h => Datum.noConfusion (show Datum.num _ = .zero t from h)
      | num t n d =>
        have : Mpfr.cmp (.num s m e) (.num t n d) = 0 ↔
            (if s then (-1 : ℚ) else 1) * ((m : ℚ) * 2 ^ e) = (if t then (-1 : ℚ) else 1) * ((n : ℚ) * 2 ^ d) := tri _ _
        rw [this]
        constructor
        · exact fun h => congrArg Datum.num h
        · exact fun h => Datum.num.inj h
  have nanx : x.isNan = true ↔ x.datum = .nan := by cases x <;> simp [Mpfr.isNan, Mpfr.datum]
  have nany : y.isNan = true ↔ y.datum = .nan := by cases y <;> simp [Mpfr.isNan, Mpfr.datum]
  have req : ∀ d d' : Datum, d.RealEq d' → d ≠ .nan ∧ d' ≠ .nan := by
    intro d d' h
    cases d <;> cases d' <;> simp_all [Datum.RealEq]
  have cmpn : x.isNan = true ∨ y.isNan = true → Mpfr.cmp x y = 0 := by
    rintro (h | h)
    · cases x <;> first | rfl | cases h
    · cases y <;> first | (cases x <;> rfl) | cases h
  constructor
  · unfold TypeTest.equalP
    cases hx' : x.isNan <;> cases hy' : y.isNan
    · simp only [Bool.not_false, Bool.true_and, decide_eq_true_eq]; exact key hx' hy'
    · simp only [Bool.not_true, Bool.and_false, Bool.false_and]
      exact ⟨fun h => Bool.noConfusion h, fun h => absurd (nany.1 hy') (req _ _ h).2⟩
    · simp only [Bool.not_true, Bool.false_and]
      exact ⟨fun h => Bool.noConfusion h, fun h => absurd (nanx.1 hx') (req _ _ h).1⟩
    · simp only [Bool.not_true, Bool.false_and]
      exact ⟨fun h => Bool.noConfusion h, fun h => absurd (nanx.1 hx') (req _ _ h).1⟩
  · unfold TypeTest.cmpZero
    rw [decide_eq_true_eq]
    by_cases h : x.isNan = true ∨ y.isNan = true
    · exact ⟨fun _ => Or.inr (h.imp nanx.1 nany.1), fun _ => cmpn h⟩
    · rw [not_or, Bool.not_eq_true, Bool.not_eq_true] at h
      rw [key h.1 h.2]
      refine ⟨Or.inl, ?_⟩
      rintro (g | g | g)
      · exact g
      · rw [← nanx, h.1] at g; cases g
      · rw [← nany, h.2] at g; cases g

/-- **C85.** `test2` notices a wrong multiplication: for any type, conversions and operator it passes exactly if none of the hundred
products throws and each, read back, is the number that MPFR computes. -/
theorem C85_product_test_iff {T : Type} {ofM : Mpfr → Option T} {toM : T → Mpfr} (mul : T → T → Option T) {p : ℕ} (hp : 2 ≤ p)
    (hto : ∀ r, (toM r).Ok) (draws : ℕ → Ieee 11 52) :
    TypeTest.test2 ofM toM mul p draws = some true ↔ ∀ i < 100, ∃ x y r,
      ofM (TypeTest.setD p (draws (2 * i))) = some x ∧ ofM (TypeTest.setD p (draws (2 * i + 1))) = some y ∧ mul x y = some r ∧
      (Mpfr.mul p (TypeTest.setD p (draws (2 * i))) (TypeTest.setD p (draws (2 * i + 1)))).datum.RealEq (toM r).datum := by
  have rok : ∀ v, (Mpfr.rndn p v).Ok := by
    intro v
    unfold Mpfr.rndn
    split_ifs with h
    · trivial
    · have := (Mpfr.rndnPos_spec hp (abs_pos.2 h)).1.1
      exact lt_of_lt_of_le (Nat.two_pow_pos _) this
  have mok : ∀ a b, (Mpfr.mul p a b).Ok := by
    intro a b
    cases a <;> cases b <;> first | trivial | exact rok _
  unfold TypeTest.test2
  rw [OpTest.forAll_iff]
  simp only [List.mem_range]
  refine forall_congr' fun i => forall_congr' fun _ => ?_
  have hok : (Mpfr.mul p (TypeTest.setD p (draws (2 * i))) (TypeTest.setD p (draws (2 * i + 1)))).Ok := mok _ _
  generalize TypeTest.setD p (draws (2 * i)) = a at *
  generalize TypeTest.setD p (draws (2 * i + 1)) = b at *
  unfold TypeTest.productCheck
  cases ha : ofM a with
  | none => simp
  | some x =>
    cases hb : ofM b with
    | none => simp
    | some y =>
      cases hr : mul x y with
      | none => simp [hr]
      | some r =>
        simp only [Option.bind_eq_bind, Option.bind_some, Option.some.injEq, hr]
        rw [(C85_comparisons hok (hto r)).1]
        exact ⟨fun h => ⟨x, y, r, rfl, rfl, hr, h⟩, fun ⟨x', y', r', e1, e2, e3, h⟩ => by
          subst e1; subst e2; rw [hr] at e3; rwa [Option.some.inj e3]⟩

/-- A multiplication that returns its left operand is noticed. -/
example : TypeTest.test2 (ofMpfr 8 23 false) toMpfr (fun x _ => some x) 24 (fun _ => Ieee.mk3 11 52 0 1022 0) = some false ∧
    TypeTest.test2 (ofMpfr 8 23 false) toMpfr (fun _ _ => some (Limits.quietNaN 8 23)) 24 (fun _ => Ieee.mk3 11 52 0 1022 0) = some false := by
  decide +kernel

/-- Every draw 0.5: the hypotheses hold and both programs pass. -/
example : TypeTest.main (fun _ => Ieee.mk3 11 52 0 1022 0) = some true ∧ TypeTest.ieeeMain (fun _ => Ieee.mk3 11 52 0 1022 0) = some true := by
  have h : (Ieee.mk3 11 52 0 1022 0).datum.fin = some (1 / 2) := by decide +kernel
  exact C85_programs_pass (d := fun _ => 1 / 2) (fun _ => ⟨h, by norm_num, by norm_num⟩) (fun _ => Or.inr (by norm_num))

end Thls
