import Verif.Proofs.PolicySoft

/-! # Lemmas about the exchange with MPFR of the native policies -/

namespace Thls
open Spec

/-- A rounded number is not a NaN. -/
theorem roundedG_not_nan {E F : ℕ} {q : ℚ} (h : RoundedGradual E F q .nan) : False := by
  obtain ⟨m, e, -, h⟩ := h
  split_ifs at h

/-- `to_mpfr` returns nothing but the exact value, whatever the precision of its destination. -/
theorem toMpfr_exact {E F p w : ℕ} (hE : 2 ≤ E) {x : Mpfr} (h : Native.toMpfr E F p w = some x) : x.datum = wordDatum E F w := by
  rw [← floatValue_datum hE]
  obtain ⟨hok, hb⟩ := floatValue_ok (E := E) (F := F) (w := w)
  unfold Native.toMpfr at h
  simp only at h
  split_ifs at h with ht
  rw [not_not] at ht
  obtain rfl := Option.some.inj h
  cases hv : floatValue E F w with
  | num s m e =>
    rw [hv] at ht hok
    have h0 : (Mpfr.num s m e).value ≠ 0 := Mpfr.num_ne_zero hok (rfl : (Mpfr.num s m e).datum = .num _)
    simp only [Mpfr.setT, Mpfr.roundT] at ht ⊢
    have hd : (Mpfr.num s m e).datum = .num (Mpfr.num s m e).value := rfl
    rw [hd]
    generalize (Mpfr.num s m e).value = v at *
    obtain ⟨k, l, hr⟩ : ∃ k l, Mpfr.rndn p v = .num (decide (v < 0)) k l := ⟨_, _, if_neg h0⟩
    rw [hr] at ht ⊢
    simp only [Mpfr.ternary] at ht
    have : (Mpfr.num (decide (v < 0)) k l).datum = .num (Mpfr.num (decide (v < 0)) k l).value := rfl
    rw [this]
    split_ifs at ht with h1 h2
    · exact absurd ht (by norm_num)
    · rw [le_antisymm (not_lt.1 h2) (not_lt.1 h1)]
  | _ => rfl

/-- What `from_mpfr` of `policy_native_single` rounds to. -/
theorem native_single_round {x : Mpfr} (hx : x.Ok) {q : ℚ} (hq : x.datum = .num q) :
    RoundedGradual 8 23 q (wordDatum 8 23 (floatRound 8 23 (Mpfr.subnormalize (-148) (Mpfr.setT (Mpfr.rndnRange (-148) 128 24) x).2
      (Mpfr.setT (Mpfr.rndnRange (-148) 128 24) x).1))) := by
  have q0 := Mpfr.num_ne_zero hx hq
  have hg := Mpfr.rndnRange_gradual (E := 8) (F := 23) (emin := -148) (emax := 128) (by norm_num) (by norm_num) q0 (by norm_num [leastExp, bias])
    (by norm_num [bias])
  cases x with
  | num s m e =>
    have hv : (Mpfr.num s m e).value = q := by injection hq
    simp only [Mpfr.setT]
    rw [hv]
    rw [show 23 + 1 = 24 from rfl] at hg
    rw [floatRound_rep (by norm_num) (by norm_num)]
    · exact hg
    · -- the rounded value is that of a word
      have hf : RoundedGradual 8 23 q (wordDatum 8 23 (floatRound 8 23 (Mpfr.num s m e))) := by
        have := floatRound_num (E := 8) (F := 23) (by norm_num) (by norm_num) hx s e
        rw [← hv]; exact this
      rw [roundedG_unique (by norm_num) hg hf]
      exact soft_rep32 (floatRound_lt (E := 8) (F := 23) (by norm_num) (by norm_num) _)
  | _ => cases hq

theorem native_double_round {x : Mpfr} (hx : x.Ok) {q : ℚ} (hq : x.datum = .num q) :
    RoundedGradual 11 52 q (wordDatum 11 52 (floatRound 11 52 x)) := by
  cases x with
  | num s m e =>
    have hv : (Mpfr.num s m e).value = q := by injection hq
    have := floatRound_num (E := 11) (F := 52) (by norm_num) (by norm_num) hx s e
    rw [← hv]; exact this
  | _ => cases hq

/-- The comparison that decides whether the conversion was exact. -/
theorem cmp_word {E F w : ℕ} (hE : 2 ≤ E) {x : Mpfr} (hx : x.Ok) {q : ℚ} (hq : x.datum = .num q)
    (hr : RoundedGradual E F q (wordDatum E F w)) : Mpfr.cmp x (floatValue E F w) = 0 ↔ wordDatum E F w = .num q := by
  have hn : (floatValue E F w).datum ≠ .nan := by
    rw [floatValue_datum hE]; intro h; rw [h] at hr; exact roundedG_not_nan hr
  rw [(Mpfr.cmp_spec hx floatValue_ok.1 (by rw [hq]; exact fun h => by cases h) hn).2.1, floatValue_datum hE, hq]
  have q0 := Mpfr.num_ne_zero hx hq
  cases wordDatum E F w <;> simp [Datum.RealEq, eq_comm]

theorem toMpfr_at {E F w : ℕ} (hE : 2 ≤ E) (hF : 1 ≤ F) {x : Mpfr} (h : Native.toMpfr E F (F + 1) w = some x) :
    x.datum = wordDatum E F w ∧ x.Ok := by
  obtain ⟨y, hy, h1, h2⟩ := native_toMpfr (E := E) (F := F) (w := w) hE hF
  obtain rfl : y = x := Option.some.inj (hy.symm.trans h)
  exact ⟨h1, h2⟩

theorem fromMpfrSingle_allow {x : Mpfr} (hr : Rep 8 23 x.datum) : ∃ w, wordDatum 8 23 w = x.datum ∧ w < 2 ^ 32 ∧
    ∀ allow, Native.fromMpfrSingle x allow = some w := by
  have h1 := Mpfr.setT_ieee (E := 8) (F := 23) (emin := -148) (emax := 128) (by norm_num) (by norm_num) (by norm_num [leastExp, bias])
    (by norm_num [bias]) hr
  rw [show 23 + 1 = 24 from rfl] at h1
  have h2 : wordDatum 8 23 (floatRound 8 23 (Mpfr.subnormalize (-148) (Mpfr.setT (Mpfr.rndnRange (-148) 128 24) x).2
      (Mpfr.setT (Mpfr.rndnRange (-148) 128 24) x).1)) = x.datum := by
    rw [floatRound_rep (by norm_num) (by norm_num) (by rw [h1]; exact hr), h1]
  refine ⟨_, h2, floatRound_lt (E := 8) (F := 23) (by norm_num) (by norm_num) _, fun allow => ?_⟩
  rw [← floatValue_datum (by norm_num)] at h2
  unfold Native.fromMpfrSingle
  simp only
  rw [if_neg (not_not.2 (Mpfr.cmp_same h2.symm))]

theorem fromMpfrDouble_allow {x : Mpfr} (hr : Rep 11 52 x.datum) : ∃ w, wordDatum 11 52 w = x.datum ∧ w < 2 ^ 64 ∧
    ∀ allow, Native.fromMpfrDouble x allow = some w := by
  have h2 := floatRound_rep (E := 11) (F := 52) (by norm_num) (by norm_num) hr
  refine ⟨_, h2, floatRound_lt (E := 11) (F := 52) (by norm_num) (by norm_num) _, fun allow => ?_⟩
  rw [← floatValue_datum (by norm_num)] at h2
  unfold Native.fromMpfrDouble
  simp only
  rw [if_neg (not_not.2 (Mpfr.cmp_same h2.symm))]

/-- Rounding a power of two. -/
theorem rndnPos_pow {F : ℕ} (hF : 1 ≤ F) (k : ℤ) : Mpfr.rndnPos (F + 1) ((2 : ℚ) ^ k) = (2 ^ F, k - F) := by
  have hn := Mpfr.rndnPos_spec (p := F + 1) (by omega) (two_zpow_pos k)
  obtain ⟨c1, c2⟩ := nearest_cross (by omega) hn (j := 1) k (by norm_num) (Nat.one_lt_two_pow (by omega))
  have hval := le_antisymm (c1 (by simp)) (c2 (by simp))
  obtain ⟨m1, m2⟩ := hn.1
  generalize Mpfr.rndnPos (F + 1) ((2 : ℚ) ^ k) = t at *
  obtain ⟨m, e⟩ := t
  simp only [Nat.cast_one, one_mul, Nat.add_sub_cancel] at hval m1 m2
  have h1 : (2 : ℚ) ^ (F + e) ≤ 2 ^ k := by
    rw [← hval, zpow_add₀ (by norm_num), zpow_natCast]
    exact mul_le_mul_of_nonneg_right (by exact_mod_cast m1) (two_zpow_pos e).le
  have h2 : (2 : ℚ) ^ k < 2 ^ (F + 1 + e) := by
    rw [← hval, show ((F : ℤ) + 1 + e) = ((F + 1 : ℕ) : ℤ) + e by push_cast; ring, zpow_add₀ (by norm_num), zpow_natCast]
    exact mul_lt_mul_of_pos_right (by exact_mod_cast m2) (two_zpow_pos e)
  have g1 := (zpow_le_zpow_iff_right₀ (by norm_num : (1 : ℚ) < 2)).1 h1
  have g2 := (zpow_lt_zpow_iff_right₀ (by norm_num : (1 : ℚ) < 2)).1 h2
  obtain rfl : e = k - F := by omega
  have : (m : ℚ) = 2 ^ F := by
    rw [zpow_sub₀ (by norm_num), zpow_natCast] at hval
    have := two_zpow_pos k
    field_simp at hval
    linarith
  have hm : m = 2 ^ F := by exact_mod_cast this
  rw [hm]

end Thls
