import Verif.Proofs.DoubleRound

/-! # Rounding twice at the same exponent width, away from underflow (lemmas) -/

namespace Thls
open Spec

theorem double_round_same_exp {E F G : ℕ} (hE : 1 ≤ E) (hF : 1 ≤ F) (hFG : F < G) {q : ℚ} (hq : (2 : ℚ) ^ (-bias E) ≤ |q|) {d' d : Datum}
    (h1 : Rounded E G q d') (hd : ∀ w, d' = .num w → Rounded E F w d) (hd2 : (∀ w, d' ≠ .num w) → d = d') :
    Rounded E F q d ↔ ¬ RoundsTwice E F G q := by
  obtain ⟨M, k, hM, rfl⟩ := h1
  have hq0 : q ≠ 0 := by
    rintro rfl
    rw [abs_zero] at hq
    exact absurd (two_zpow_pos (-bias E)) (not_lt.mpr hq)
  have hbs := bias_succ hE
  have hb := two_bias hE
  have hsig : ∀ p, 1 ≤ p → IsSig p (2 ^ (p - 1)) := fun p hp => ⟨le_rfl, Nat.pow_lt_pow_right (by norm_num) (by omega)⟩
  have reach : ∀ {p m : ℕ} {e K : ℤ} {x : ℚ}, 1 ≤ p → (2 : ℚ) ^ K ≤ x → NearestEven p x m e → (2 : ℚ) ^ K ≤ m * 2 ^ e := by
    intro p m e K x hp hx hn
    have := nearest_mono hp hx (nearest_self hp (hsig p hp) (e := K - (p - 1 : ℕ)) (t := 2 ^ K) (by
      push_cast [zpow_sub₀ (show (2 : ℚ) ≠ 0 by norm_num)]
      rw [zpow_natCast]; field_simp)) hn
    refine le_trans (le_of_eq ?_) this
    push_cast [zpow_sub₀ (show (2 : ℚ) ≠ 0 by norm_num)]
    rw [zpow_natCast]; field_simp
  have hlo := (sig_ge_iff hM.1 _ _).mp (reach (by omega) hq hM)
  have hT : (2 : ℤ) ^ (E + 1) = 2 * 2 ^ E := by ring
  have hu : ¬ k + G + bias E < 0 := by omega
  have hu' : ¬ k + G + bias (E + 1) < 0 := by omega
  refine double_round_iff hE hF (show E < E + 1 by omega) hFG hq0 ⟨M, k, hM, rfl⟩ (fun w hw => ?_) (fun hn => ?_)
  · unfold rangeCheck at hw
    rw [if_neg hu'] at hw
    have h2 : ¬ 2 ^ (E + 1) ≤ k + G + bias (E + 1) := by
      intro h2
      rw [if_pos h2] at hw
      exact absurd hw (by simp)
    rw [if_neg h2] at hw
    by_cases h3 : 2 ^ E ≤ k + G + bias E
    · have hdi : d = .inf (decide (q < 0)) := by
        have : rangeCheck E G (decide (q < 0)) M k = .inf (decide (q < 0)) := by unfold rangeCheck; rw [if_neg hu, if_pos h3]
        rw [hd2 (by intro w; rw [this]; simp), this]
      have hMp : 0 < (M : ℚ) * 2 ^ k := by
        have := sig_lower hM.1 k
        have := two_zpow_pos (k + G)
        linarith
      injection hw with hw
      have hwa : |w| = M * 2 ^ k := by
        rw [← hw, abs_mul, abs_of_pos hMp]; split <;> norm_num
      have hws : decide (w < 0) = decide (q < 0) := by
        rw [← hw]
        by_cases hqn : q < 0
        · simp only [hqn, decide_true, if_true, decide_eq_true_eq]; linarith
        · simp only [hqn, decide_false, Bool.false_eq_true, if_false, decide_eq_false_iff_not, not_lt]; linarith
      obtain ⟨m, e, hme⟩ := nearest_exists (p := F + 1) (by omega) (show 0 < |w| by rw [hwa]; exact hMp)
      refine ⟨m, e, hme, ?_⟩
      have hge : (2 : ℚ) ^ ((2 : ℤ) ^ E - bias E) ≤ |w| := by
        rw [hwa, sig_ge_iff hM.1]; omega
      have := (sig_ge_iff hme.1 _ _).mp (reach (by omega) hge hme)
      rw [hdi, hws]
      unfold rangeCheck
      rw [if_neg (by have : (0 : ℤ) < 2 ^ E := by positivity
                     omega), if_pos (by omega)]
    · refine hd w ?_
      unfold rangeCheck
      rw [if_neg hu, if_neg h3, hw]
  · have h2 : 2 ^ (E + 1) ≤ k + G + bias (E + 1) := by
      by_contra h2
      exact hn _ (by unfold rangeCheck; rw [if_neg hu', if_neg h2])
    have : rangeCheck E G (decide (q < 0)) M k = .inf (decide (q < 0)) := by unfold rangeCheck; rw [if_neg hu, if_pos (by omega)]
    rw [hd2 (by intro w; rw [this]; simp), this]
    unfold rangeCheck
    rw [if_neg hu', if_pos h2]

end Thls
