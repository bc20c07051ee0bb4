import Verif.SpecTwice
import Verif.Proofs.Fma
import Verif.Proofs.Mono
import Verif.Proofs.RefAgree
import Verif.Proofs.RoundErr

/-! Rounding twice: exactly when the result differs from rounding once. -/

namespace Thls
open Spec

/-- A significand of `F+1` bits, written with `G+1` bits. -/
theorem sig_widen {F G m : ℕ} (h : F ≤ G) (hm : IsSig (F + 1) m) (e : ℤ) :
    IsSig (G + 1) (m * 2 ^ (G - F)) ∧ ((m * 2 ^ (G - F) : ℕ) : ℚ) * 2 ^ (e + F - G) = m * 2 ^ e := by
  obtain ⟨k, rfl⟩ := Nat.exists_eq_add_of_le h
  rw [Nat.add_sub_cancel_left]
  have hk : 0 < 2 ^ k := by positivity
  obtain ⟨h1, h2⟩ := hm
  rw [Nat.add_sub_cancel] at h1
  refine ⟨⟨?_, ?_⟩, ?_⟩
  · rw [Nat.add_sub_cancel, pow_add]
    exact Nat.mul_le_mul_right _ h1
  · rw [show F + k + 1 = F + 1 + k by ring, pow_add]
    exact Nat.mul_lt_mul_of_pos_right h2 hk
  · push_cast
    rw [mul_assoc, ← zpow_natCast, ← zpow_add₀ (by norm_num)]
    congr 2
    ring

/-- The midpoint above a significand of `F+1` bits, written with `G+1` bits. -/
theorem sig_mid {F G m : ℕ} (h : F < G) (hm : IsSig (F + 1) m) (e : ℤ) :
    IsSig (G + 1) ((2 * m + 1) * 2 ^ (G - F - 1)) ∧
      (((2 * m + 1) * 2 ^ (G - F - 1) : ℕ) : ℚ) * 2 ^ (e + F - G) = ((m : ℚ) + 1 / 2) * 2 ^ e ∧
      2 ^ G < (2 * m + 1) * 2 ^ (G - F - 1) ∧ (F + 1 < G → Even ((2 * m + 1) * 2 ^ (G - F - 1))) ∧
      (G = F + 1 → ¬ Even ((2 * m + 1) * 2 ^ (G - F - 1))) := by
  obtain ⟨k, rfl⟩ := Nat.exists_eq_add_of_lt h
  rw [show F + k + 1 - F - 1 = k by omega]
  have hk : 0 < 2 ^ k := by positivity
  obtain ⟨h1, h2⟩ := hm
  rw [Nat.add_sub_cancel] at h1
  have hlt : 2 ^ (F + k + 1) < (2 * m + 1) * 2 ^ k := by
    rw [show F + k + 1 = F + 1 + k by ring, pow_add]
    exact Nat.mul_lt_mul_of_pos_right (by rw [pow_succ]; omega) hk
  refine ⟨⟨?_, ?_⟩, ?_, hlt, ?_, ?_⟩
  · rw [Nat.add_sub_cancel]; exact hlt.le
  · rw [show F + k + 1 + 1 = F + 1 + 1 + k by ring, pow_add]
    exact Nat.mul_lt_mul_of_pos_right (by rw [pow_succ 2 (F + 1)]; omega) hk
  · have : (2 : ℚ) ^ e = 2 * (2 ^ k * 2 ^ (e + F - ((F + k + 1 : ℕ) : ℤ))) := by
      rw [← zpow_natCast, ← zpow_add₀ (by norm_num), ← two_zpow_succ]
      congr 1; push_cast; ring
    rw [this]; push_cast; ring
  · intro hh
    have : Even (2 ^ k) := by rw [Nat.even_pow]; exact ⟨even_two, by omega⟩
    exact this.mul_left _
  · intro hh
    have : k = 0 := by omega
    subst this
    simp

/-- The nearest of two neighbours, anywhere between them. -/
theorem nearest_pick {p m n : ℕ} {e e' : ℤ} {v : ℚ} (hp : 2 ≤ p) (hm : IsSig p m) (hn : IsSig p n)
    (hv : (n : ℚ) * 2 ^ e' = ((m : ℚ) + 1) * 2 ^ e) (hpar : Even n ↔ ¬ Even m) (h1 : (m : ℚ) * 2 ^ e ≤ v)
    (h2 : v ≤ ((m : ℚ) + 1) * 2 ^ e) :
    (v < ((m : ℚ) + 1 / 2) * 2 ^ e ∨ v = ((m : ℚ) + 1 / 2) * 2 ^ e ∧ Even m → NearestEven p v m e) ∧
    (((m : ℚ) + 1 / 2) * 2 ^ e < v ∨ v = ((m : ℚ) + 1 / 2) * 2 ^ e ∧ ¬ Even m → NearestEven p v n e') := by
  have hu := two_zpow_pos e
  constructor
  · intro h
    refine nearest_down (by omega) hm h1 ?_ ?_
    · rcases h with h | ⟨h, -⟩ <;> linarith
    · intro h'
      rcases h with h | ⟨-, h⟩
      · linarith
      · exact h
  · intro h
    refine nearest_up (by omega) hm hn hv h2 ?_ ?_
    · rcases h with h | ⟨h, -⟩ <;> linarith
    · intro h'
      rcases h with h | ⟨-, h⟩
      · linarith
      · exact hpar.mpr h

theorem sig_succ_parity {p m : ℕ} (hp : 2 ≤ p) (hm : IsSig p m) (e : ℤ) :
    ∃ (n : ℕ) (e' : ℤ), IsSig p n ∧ (n : ℚ) * 2 ^ e' = ((m : ℚ) + 1) * 2 ^ e ∧ (Even n ↔ ¬ Even m) := by
  obtain ⟨n, e', h1, h2, h3, h4⟩ := sig_succ (show 1 ≤ p by omega) hm e
  refine ⟨n, e', h1, h2, ?_⟩
  by_cases h : m + 1 < 2 ^ p
  · rw [h3 h, Nat.even_add_one]
  · have h5 : m + 1 = 2 ^ p := by have := hm.2; omega
    have e1 : Even (2 ^ p) := by rw [Nat.even_pow]; exact ⟨even_two, by omega⟩
    have e2 : Even (2 ^ (p - 1)) := by rw [Nat.even_pow]; exact ⟨even_two, by omega⟩
    rw [h4 (by omega)]
    rw [← h5, Nat.even_add_one] at e1
    simp [e1, e2]

/-- The significand below a number is unique. -/
theorem floor_unique {F m m' : ℕ} {e e' : ℤ} {A : ℚ} (hm : IsSig (F + 1) m) (hm' : IsSig (F + 1) m')
    (h1 : (m : ℚ) * 2 ^ e ≤ A) (h2 : A < ((m : ℚ) + 1) * 2 ^ e) (h1' : (m' : ℚ) * 2 ^ e' ≤ A)
    (h2' : A < ((m' : ℚ) + 1) * 2 ^ e') : m = m' ∧ e = e' := by
  rcases lt_trichotomy ((m : ℚ) * 2 ^ e) (m' * 2 ^ e') with h | h | h
  · have := sig_gap (by omega) hm hm' h; linarith
  · exact sig_unique (by omega) hm hm' h
  · have := sig_gap (by omega) hm' hm h; linarith

/-- The first rounding lands on a midpoint exactly when it is near enough. -/
theorem nearest_mid_iff {F G m : ℕ} {e k : ℤ} {M : ℕ} {A : ℚ} (hFG : F < G) (hm : IsSig (F + 1) m)
    (hM : NearestEven (G + 1) A M k) :
    (M : ℚ) * 2 ^ k = ((m : ℚ) + 1 / 2) * 2 ^ e ↔
      (abs (A - ((m : ℚ) + 1 / 2) * 2 ^ e) < 2 ^ (e + F - G) / 2 ∨
        (abs (A - ((m : ℚ) + 1 / 2) * 2 ^ e) = 2 ^ (e + F - G) / 2 ∧ F + 1 < G)) := by
  obtain ⟨hs, hv, hgt, hev, hodd⟩ := sig_mid hFG hm e
  generalize (2 * m + 1) * 2 ^ (G - F - 1) = t at *
  generalize e + F - G = j at *
  rw [← hv]
  have hu := two_zpow_pos j
  have hd : IsSig (G + 1) (t - 1) := ⟨by rw [Nat.add_sub_cancel]; omega, by have := hs.2; omega⟩
  have ht0 : 1 ≤ t := by have h2 : 0 < 2 ^ G := by positivity
                         omega
  have ht1 : ((t - 1 : ℕ) : ℚ) = t - 1 := by rw [Nat.cast_sub ht0]; simp
  constructor
  · intro h
    obtain ⟨rfl, rfl⟩ := sig_unique (by omega) hM.1 hs h
    obtain ⟨n, e', hn, hnv, -⟩ := sig_succ (show 1 ≤ G + 1 by omega) hs k
    have c1 := hM.2.1 n e' hn
    have c2 := hM.2.1 (M - 1) k hd
    have d1 := hM.2.2 n e' hn
    have d2 := hM.2.2 (M - 1) k hd
    rw [hnv] at c1 d1
    rw [ht1] at c2 d2
    have key : abs (A - M * 2 ^ k) ≤ 2 ^ k / 2 := by
      rcases abs_cases (A - M * 2 ^ k) with ⟨p1, p2⟩ | ⟨p1, p2⟩
      · rcases abs_cases (A - ((M : ℚ) + 1) * 2 ^ k) with ⟨q1, q2⟩ | ⟨q1, q2⟩ <;> linarith
      · rcases abs_cases (A - ((M : ℚ) - 1) * 2 ^ k) with ⟨q1, q2⟩ | ⟨q1, q2⟩ <;> linarith
    rcases lt_or_eq_of_le key with h | h
    · exact Or.inl h
    · refine Or.inr ⟨h, ?_⟩
      by_contra hc
      refine hodd (by omega) ?_
      rcases abs_cases (A - M * 2 ^ k) with ⟨p1, p2⟩ | ⟨p1, p2⟩
      · refine d1 ?_ ?_
        · rw [h, show A - ((M : ℚ) + 1) * 2 ^ k = -(2 ^ k / 2) by linarith, abs_neg, abs_of_pos (by positivity)]
        · intro hh; linarith
      · refine d2 ?_ ?_
        · rw [h, show A - ((M : ℚ) - 1) * 2 ^ k = 2 ^ k / 2 by linarith, abs_of_pos (by positivity)]
        · intro hh; linarith
  · intro h
    have hn : NearestEven (G + 1) A t j := by
      have hle : abs (A - t * 2 ^ j) ≤ 2 ^ j / 2 := by rcases h with h | ⟨h, -⟩ <;> linarith
      have htie : abs (A - t * 2 ^ j) = 2 ^ j / 2 → Even t := by
        intro h'
        rcases h with h | ⟨-, h⟩
        · linarith
        · exact hev h
      rcases abs_cases (A - t * 2 ^ j) with ⟨p1, p2⟩ | ⟨p1, p2⟩
      · rw [p1] at hle htie
        exact nearest_down (by omega) hs (by linarith) hle htie
      · rw [p1] at hle htie
        refine nearest_up (m := t - 1) (e := j) (by omega) hd hs (by rw [ht1]; ring) ?_ ?_ ?_ <;> rw [ht1]
        · linarith
        · linarith
        · intro h'; exact htie (by linarith)
    obtain ⟨rfl, rfl⟩ := nearest_unique (by omega) hM hn
    rfl

theorem sig_ge_iff {F m : ℕ} (hm : IsSig (F + 1) m) (e k : ℤ) : (2 : ℚ) ^ k ≤ (m : ℚ) * 2 ^ e ↔ k ≤ e + F := by
  constructor
  · intro h
    have h1 := lt_of_le_of_lt h (sig_upper hm e)
    have := (zpow_lt_zpow_iff_right₀ (by norm_num : (1 : ℚ) < 2)).mp h1
    omega
  · intro h
    exact le_trans (zpow_le_zpow_right₀ (by norm_num) h) (sig_lower hm e)

/-- Two neighbours are different data unless both underflow or both overflow. -/
theorem rangeCheck_neighbours {E F m n : ℕ} {e e' : ℤ} (b : Bool) (hE : 1 ≤ E) (hm : IsSig (F + 1) m) (hn : IsSig (F + 1) n)
    (hv : (n : ℚ) * 2 ^ e' = ((m : ℚ) + 1) * 2 ^ e) :
    rangeCheck E F b m e ≠ rangeCheck E F b n e' ↔
      (2 : ℚ) ^ (-bias E) ≤ ((m : ℚ) + 1) * 2 ^ e ∧ (m : ℚ) * 2 ^ e < 2 ^ ((2 : ℤ) ^ E - bias E) := by
  have hu := two_zpow_pos e
  have hle := sig_exp_le (e := e) (e' := e') (show 1 ≤ F + 1 by omega) hm hn (by rw [hv]; linarith)
  have hup := sig_upper hm e
  have hb := two_bias hE
  have hge : (m : ℚ) * 2 ^ e < n * 2 ^ e' := by rw [hv]; linarith
  rw [← hv, sig_ge_iff hn, ← not_le, sig_ge_iff hm]
  have h1 : (m : ℚ) + 1 ≤ 2 ^ (F + 1) := by exact_mod_cast hm.2
  have h2 := mul_le_mul_of_nonneg_right h1 hu.le
  rw [← hv, ← zpow_natCast, ← zpow_add₀ (by norm_num)] at h2
  have h3 := (zpow_le_zpow_iff_right₀ (by norm_num : (1 : ℚ) < 2)).mp (le_trans (sig_lower hn e') h2)
  push_cast at h3
  unfold rangeCheck
  generalize (2 : ℤ) ^ E = T at *
  split_ifs <;> simp <;> first | omega | skip
  all_goals
    exact ⟨fun _ => ⟨by omega, by omega⟩, fun _ => hge.ne⟩

/-- **Rounding twice.** A non-zero number is rounded to a wider format (more exponent bits and more fraction bits) and the outcome to
`(E, F)`. The result is the number correctly rounded to `(E, F)` exactly when the number is not one of those described by
`RoundsTwice`. -/
theorem double_round_iff {E F E' G : ℕ} (hE : 1 ≤ E) (hF : 1 ≤ F) (hEE : E < E') (hFG : F < G) {q : ℚ} (hq : q ≠ 0) {d' d : Datum}
    (h1 : Rounded E' G q d') (hd : ∀ w, d' = .num w → Rounded E F w d) (hd2 : (∀ w, d' ≠ .num w) → d = d') :
    Rounded E F q d ↔ ¬ RoundsTwice E F G q := by
  obtain ⟨M, k, hM, rfl⟩ := h1
  have hA : 0 < |q| := abs_pos.mpr hq
  obtain ⟨hb1, hb2⟩ := two_bias hE
  obtain ⟨hb3, hb4⟩ := two_bias (show 1 ≤ E' by omega)
  have hbw : 2 * bias E + 1 ≤ bias E' := by
    rw [← bias_succ hE]; exact bias_mono (by omega)
  obtain ⟨m, e, hm, hlo, hhi⟩ := sig_floor (show 1 ≤ F + 1 by omega) hA
  obtain ⟨n, e', hn, hv, hpar⟩ := sig_succ_parity (show 2 ≤ F + 1 by omega) hm e
  have hu := two_zpow_pos e
  -- the description, for the neighbours of `q`
  have htw : RoundsTwice E F G q ↔ (2 : ℚ) ^ (-bias E) ≤ ((m : ℚ) + 1) * 2 ^ e ∧ (m : ℚ) * 2 ^ e < 2 ^ ((2 : ℤ) ^ E - bias E) ∧
      (if Even m then ((m : ℚ) + 1 / 2) * 2 ^ e < |q| else |q| < ((m : ℚ) + 1 / 2) * 2 ^ e) ∧
      (M : ℚ) * 2 ^ k = ((m : ℚ) + 1 / 2) * 2 ^ e := by
    constructor
    · rintro ⟨m0, e0, hm0, r1, r2, r3, r4⟩
      have hu0 := two_zpow_pos e0
      have hsm : (2 : ℚ) ^ (e0 + F - G) ≤ 2 ^ e0 / 2 := by
        rw [← two_zpow_pred]; exact zpow_le_zpow_right₀ (by norm_num) (by omega)
      have hab : abs (|q| - ((m0 : ℚ) + 1 / 2) * 2 ^ e0) ≤ 2 ^ e0 / 4 := by
        rcases r4 with h | ⟨h, -⟩ <;> linarith
      rw [abs_le] at hab
      obtain ⟨rfl, rfl⟩ := floor_unique (e' := e0) hm hm0 hlo hhi (by linarith) (by linarith)
      exact ⟨r1, r2, r3, (nearest_mid_iff hFG hm hM).mpr r4⟩
    · rintro ⟨r1, r2, r3, r4⟩
      exact ⟨m, e, hm, r1, r2, r3, (nearest_mid_iff hFG hm hM).mp r4⟩
  -- the first rounding keeps within the neighbours and on the side of the midpoint
  obtain ⟨w1, w2⟩ := sig_widen hFG.le hm e
  obtain ⟨w3, w4⟩ := sig_widen hFG.le hn e'
  obtain ⟨w5, w6, -⟩ := sig_mid hFG hm e
  have W1 : (m : ℚ) * 2 ^ e ≤ M * 2 ^ k := by
    rw [← w2] at hlo ⊢
    exact nearest_mono (by omega) hlo (nearest_self (by omega) w1 rfl) hM
  have W2 : (M : ℚ) * 2 ^ k ≤ ((m : ℚ) + 1) * 2 ^ e := by
    rw [← hv, ← w4] at hhi ⊢
    exact nearest_mono (by omega) hhi.le hM (nearest_self (by omega) w3 rfl)
  have W3 : |q| ≤ ((m : ℚ) + 1 / 2) * 2 ^ e → (M : ℚ) * 2 ^ k ≤ ((m : ℚ) + 1 / 2) * 2 ^ e := by
    intro h
    rw [← w6] at h ⊢
    exact nearest_mono (by omega) h hM (nearest_self (by omega) w5 rfl)
  have W4 : ((m : ℚ) + 1 / 2) * 2 ^ e ≤ |q| → ((m : ℚ) + 1 / 2) * 2 ^ e ≤ (M : ℚ) * 2 ^ k := by
    intro h
    rw [← w6] at h ⊢
    exact nearest_mono (by omega) h (nearest_self (by omega) w5 rfl) hM
  have hnb := rangeCheck_neighbours (E := E) (decide (q < 0)) hE hm hn hv
  obtain ⟨pA1, pA2⟩ := nearest_pick (show 2 ≤ F + 1 by omega) hm hn hv hpar hlo hhi.le
  obtain ⟨pW1, pW2⟩ := nearest_pick (show 2 ≤ F + 1 by omega) hm hn hv hpar W1 W2
  have hM0 : 0 < (M : ℚ) * 2 ^ k := by
    have := sig_lower hM.1 k
    have := two_zpow_pos (k + G)
    linarith
  by_cases hz : k + G + bias E' < 0
  · -- the first rounding underflows
    have hd0 : d = .zero (decide (q < 0)) := by
      rw [hd2 (by intro w; unfold rangeCheck; rw [if_pos hz]; simp)]
      unfold rangeCheck; rw [if_pos hz]
    have hWs : (M : ℚ) * 2 ^ k < 2 ^ (-bias E') := by
      rw [← not_le, sig_ge_iff hM.1]; omega
    have hms : e + F < -bias E' := by
      rw [← not_le, ← sig_ge_iff hm]; linarith
    have hns : e' + F ≤ -bias E' := by
      have h1 : (m : ℚ) + 1 ≤ 2 ^ (F + 1) := by exact_mod_cast hm.2
      have h2 := mul_le_mul_of_nonneg_right h1 hu.le
      rw [← hv, ← zpow_natCast, ← zpow_add₀ (by norm_num)] at h2
      have h3 := (zpow_le_zpow_iff_right₀ (by norm_num : (1 : ℚ) < 2)).mp (le_trans (sig_lower hn e') h2)
      push_cast at h3
      omega
    have hnot : ¬ RoundsTwice E F G q := by
      rw [htw, ← hv, sig_ge_iff hn]
      rintro ⟨h, -⟩
      omega
    refine ⟨fun _ => hnot, fun _ => ?_⟩
    by_cases hc : |q| < ((m : ℚ) + 1 / 2) * 2 ^ e ∨ |q| = ((m : ℚ) + 1 / 2) * 2 ^ e ∧ Even m
    · refine ⟨m, e, pA1 hc, ?_⟩
      rw [hd0]; unfold rangeCheck; rw [if_pos (by omega)]
    · refine ⟨n, e', pA2 ?_, ?_⟩
      · push Not at hc
        rcases lt_or_eq_of_le hc.1 with h | h
        · exact Or.inl h
        · exact Or.inr ⟨h.symm, by simpa using hc.2 h.symm⟩
      · rw [hd0]; unfold rangeCheck; rw [if_pos (by omega)]
  by_cases hi : 2 ^ E' ≤ k + G + bias E'
  · -- the first rounding overflows
    have hd0 : d = .inf (decide (q < 0)) := by
      rw [hd2 (by intro w; unfold rangeCheck; rw [if_neg hz, if_pos hi]; simp)]
      unfold rangeCheck; rw [if_neg hz, if_pos hi]
    have hWs : (2 : ℚ) ^ ((2 : ℤ) ^ E' - bias E') ≤ (M : ℚ) * 2 ^ k := by
      rw [sig_ge_iff hM.1]; omega
    have hns : (2 : ℤ) ^ E' - bias E' ≤ e' + F := by
      rw [← sig_ge_iff hn, hv]; linarith
    have hms : (2 : ℤ) ^ E' - bias E' ≤ e + F + 1 := by
      have h1 := le_trans hWs W2
      have h3 : (m : ℚ) + 1 ≤ 2 ^ (F + 1) := by exact_mod_cast hm.2
      have h2 := mul_le_mul_of_nonneg_right h3 hu.le
      rw [← zpow_natCast, ← zpow_add₀ (by norm_num)] at h2
      have h4 := (zpow_le_zpow_iff_right₀ (by norm_num : (1 : ℚ) < 2)).mp (le_trans h1 h2)
      push_cast at h4
      omega
    have hmE : (2 : ℤ) ^ E - bias E ≤ e + F := by omega
    have hnot : ¬ RoundsTwice E F G q := by
      rw [htw]
      rintro ⟨-, h, -⟩
      rw [← not_le, sig_ge_iff hm] at h
      exact h hmE
    refine ⟨fun _ => hnot, fun _ => ?_⟩
    obtain ⟨c, hc⟩ := rounded_exists (E := E) hF hq
    have := rounded_overflow hc (le_trans ((sig_ge_iff hm e _).mpr hmE) hlo)
    rw [hd0, ← this]; exact hc
  · -- the first rounding stays in range
    set W : ℚ := (if decide (q < 0) then -1 else 1) * ((M : ℚ) * 2 ^ k) with hWdef
    have hdW : rangeCheck E' G (decide (q < 0)) M k = .num W := by
      unfold rangeCheck; rw [if_neg hz, if_neg hi]
    have habs : |W| = M * 2 ^ k := by
      rw [hWdef]; split_ifs <;> simp [abs_mul]
    have hneg : decide (W < 0) = decide (q < 0) := by
      rw [hWdef]
      by_cases h : q < 0
      · simp only [h, decide_true, if_true]
        rw [decide_eq_true_iff]; linarith
      · simp only [h, decide_false, Bool.false_eq_true, if_false]
        rw [decide_eq_false_iff_not]; linarith
    have hr := hd W hdW
    have setW : ∀ {a : ℕ} {b : ℤ}, NearestEven (F + 1) (M * 2 ^ k) a b → d = rangeCheck E F (decide (q < 0)) a b := by
      intro a b h
      refine rounded_unique hr ⟨a, b, by rw [habs]; exact h, by rw [hneg]⟩
    have setA : ∀ {a : ℕ} {b : ℤ}, NearestEven (F + 1) |q| a b → (Rounded E F q d ↔ d = rangeCheck E F (decide (q < 0)) a b) := by
      intro a b h
      refine ⟨fun h' => rounded_unique h' ⟨a, b, h, rfl⟩, fun h' => ⟨a, b, h, h'⟩⟩
    rw [htw]
    rcases lt_trichotomy |q| (((m : ℚ) + 1 / 2) * 2 ^ e) with h | h | h
    · -- below the midpoint
      rw [setA (pA1 (Or.inl h))]
      rcases lt_or_eq_of_le (W3 h.le) with h' | h'
      · rw [setW (pW1 (Or.inl h'))]
        exact ⟨fun _ hh => h'.ne hh.2.2.2, fun _ => rfl⟩
      · by_cases hev : Even m
        · rw [setW (pW1 (Or.inr ⟨h', hev⟩))]
          simp only [hev, if_true, true_iff]
          rintro ⟨-, -, hh, -⟩
          linarith
        · rw [setW (pW2 (Or.inr ⟨h', hev⟩))]
          simp only [hev, if_false]
          rw [eq_comm, ← not_iff_not, not_not]
          exact hnb.trans ⟨fun hh => ⟨hh.1, hh.2, h, h'⟩, fun hh => ⟨hh.1, hh.2.1⟩⟩
    · -- at the midpoint
      have h' : (M : ℚ) * 2 ^ k = ((m : ℚ) + 1 / 2) * 2 ^ e := le_antisymm (W3 h.le) (W4 h.ge)
      have hno : ¬ (if Even m then ((m : ℚ) + 1 / 2) * 2 ^ e < |q| else |q| < ((m : ℚ) + 1 / 2) * 2 ^ e) := by
        split_ifs <;> linarith
      refine ⟨fun _ hh => hno hh.2.2.1, fun _ => ?_⟩
      by_cases hev : Even m
      · rw [setA (pA1 (Or.inr ⟨h, hev⟩))]
        exact setW (pW1 (Or.inr ⟨h', hev⟩))
      · rw [setA (pA2 (Or.inr ⟨h, hev⟩))]
        exact setW (pW2 (Or.inr ⟨h', hev⟩))
    · -- above the midpoint
      rw [setA (pA2 (Or.inl h))]
      rcases lt_or_eq_of_le (W4 h.le) with h' | h'
      · rw [setW (pW2 (Or.inl h'))]
        exact ⟨fun _ hh => h'.ne' hh.2.2.2, fun _ => rfl⟩
      · by_cases hev : Even m
        · rw [setW (pW1 (Or.inr ⟨h'.symm, hev⟩))]
          simp only [hev, if_true]
          rw [← not_iff_not, not_not]
          exact hnb.trans ⟨fun hh => ⟨hh.1, hh.2, h, h'.symm⟩, fun hh => ⟨hh.1, hh.2.1⟩⟩
        · rw [setW (pW2 (Or.inr ⟨h'.symm, hev⟩))]
          simp only [hev, if_false, true_iff]
          rintro ⟨-, -, hh, -⟩
          linarith

end Thls
