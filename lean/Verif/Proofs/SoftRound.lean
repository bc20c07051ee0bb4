import Verif.Model.SoftFloat
import Verif.SpecSoft
import Verif.Proofs.Double

/-! # Rounding with gradual underflow: the choice of the nearest word -/

namespace Thls
open Spec

/-- Numbers of the format are on the grid of `2^qe` around a normalised significand. -/
theorem gridG {E F n m' : ℕ} {qe e' : ℤ} (hn : 2 ^ F ≤ n ∨ qe = leastExp E F) (h : IsGradual E F m' e') :
    (m' : ℚ) * 2 ^ e' ≤ n * 2 ^ qe ∨ ((n : ℚ) + 1) * 2 ^ qe ≤ m' * 2 ^ e' := by
  obtain ⟨h1, h2⟩ := h
  have hu := two_zpow_pos qe
  rcases le_or_gt qe e' with hle | hlt
  · obtain ⟨k, rfl⟩ : ∃ k : ℕ, e' = qe + k := ⟨(e' - qe).toNat, by omega⟩
    rw [zpow_add₀ (by norm_num), zpow_natCast]
    have e1 : (m' : ℚ) * (2 ^ qe * 2 ^ k) = ((m' * 2 ^ k : ℕ) : ℚ) * 2 ^ qe := by push_cast; ring
    rw [e1]
    rcases Nat.lt_or_ge n (m' * 2 ^ k) with h | h
    · right
      refine mul_le_mul_of_nonneg_right ?_ hu.le
      exact_mod_cast h
    · left
      refine mul_le_mul_of_nonneg_right ?_ hu.le
      exact_mod_cast h
  · left
    rcases hn with hn | hn
    · have a1 : (m' : ℚ) ≤ 2 ^ (F + 1) := by exact_mod_cast h1.le
      have a2 : (2 : ℚ) ^ F ≤ n := by exact_mod_cast hn
      have a3 : (2 : ℚ) ^ e' ≤ 2 ^ (qe - 1) := zpow_le_zpow_right₀ (by norm_num) (by omega)
      rw [two_zpow_pred] at a3
      calc (m' : ℚ) * 2 ^ e' ≤ 2 ^ (F + 1) * (2 ^ qe / 2) := mul_le_mul a1 a3 (two_zpow_pos _).le (by positivity)
        _ = 2 ^ F * 2 ^ qe := by ring
        _ ≤ n * 2 ^ qe := mul_le_mul_of_nonneg_right a2 hu.le
    · omega

/-- The canonical form of a significand of at most `2^(F+1)`. -/
def canonG (F q : ℕ) (qe : ℤ) : ℕ × ℤ := if q = 2 ^ (F + 1) then (2 ^ F, qe + 1) else (q, qe)

theorem canonG_value (F q : ℕ) (qe : ℤ) : ((canonG F q qe).1 : ℚ) * 2 ^ (canonG F q qe).2 = q * 2 ^ qe := by
  unfold canonG
  split_ifs with h
  · rw [h, two_zpow_succ]; push_cast; ring
  · rfl

theorem canonG_zero (F q : ℕ) (qe : ℤ) : (canonG F q qe).1 = 0 ↔ q = 0 := by
  unfold canonG
  split_ifs with h
  · rw [h]; simp
  · rfl

/-- `q` is `x / 2^qe` rounded to the nearest integer, ties to even; `n` is its floor. -/
def Choice (n q : ℕ) (qe : ℤ) (x : ℚ) : Prop :=
  (n : ℚ) * 2 ^ qe ≤ x ∧ x < ((n : ℚ) + 1) * 2 ^ qe ∧
    ((q = n ∧ x - n * 2 ^ qe ≤ 2 ^ qe / 2 ∧ (x - n * 2 ^ qe = 2 ^ qe / 2 → n % 2 = 0)) ∨
      (q = n + 1 ∧ ((n : ℚ) + 1) * 2 ^ qe - x ≤ 2 ^ qe / 2 ∧ (((n : ℚ) + 1) * 2 ^ qe - x = 2 ^ qe / 2 → n % 2 = 1)))

theorem nearestG {E F n q : ℕ} {qe : ℤ} {x : ℚ} (hF : 1 ≤ F) (hn : 2 ^ F ≤ n ∨ qe = leastExp E F) (hn2 : n < 2 ^ (F + 1))
    (hq : leastExp E F ≤ qe) (hc : Choice n q qe x) : NearestGradual E F x (canonG F q qe).1 (canonG F q qe).2 := by
  obtain ⟨lo, hi, h⟩ := hc
  have hu := two_zpow_pos qe
  have h2F : 2 ^ (F + 1) = 2 * 2 ^ F := by rw [pow_succ]; ring
  have hev : 2 ^ F % 2 = 0 := by
    obtain ⟨k, rfl⟩ : ∃ k, F = k + 1 := ⟨F - 1, by omega⟩
    rw [pow_succ]; omega
  have hc : IsGradual E F (canonG F q qe).1 (canonG F q qe).2 ∧ (2 ^ F ≤ (canonG F q qe).1 ∨ (canonG F q qe).2 = leastExp E F) := by
    unfold canonG
    split_ifs with h53
    · exact ⟨⟨by simp only; have := Nat.two_pow_pos F; omega, by simp only; omega⟩, Or.inl le_rfl⟩
    · refine ⟨⟨?_, hq⟩, ?_⟩
      · simp only; omega
      · simp only; omega
  refine ⟨hc.1, hc.2, ?_⟩
  rw [canonG_value]
  rcases h with ⟨rfl, h1, h2⟩ | ⟨rfl, h1, h2⟩
  · have hab : |x - q * 2 ^ qe| = x - q * 2 ^ qe := abs_of_nonneg (by linarith)
    rw [hab]
    constructor
    · intro m' e' hb
      rcases gridG hn hb with g | g
      · rw [abs_of_nonneg (by linarith)]; linarith
      · rw [abs_of_nonpos (by linarith)]; linarith
    · intro m' e' hb he hne
      have ev : q % 2 = 0 := by
        rcases gridG hn hb with g | g
        · rw [abs_of_nonneg (by linarith)] at he
          exact absurd (by linarith) hne
        · rw [abs_of_nonpos (by linarith)] at he
          exact h2 (by linarith)
      unfold canonG
      split_ifs with h53
      · omega
      · exact Nat.even_iff.mpr ev
  · push_cast
    have hab : |x - ((n : ℚ) + 1) * 2 ^ qe| = ((n : ℚ) + 1) * 2 ^ qe - x := by
      rw [abs_of_nonpos (by linarith)]; ring
    rw [hab]
    constructor
    · intro m' e' hb
      rcases gridG hn hb with g | g
      · rw [abs_of_nonneg (by linarith)]; linarith
      · rw [abs_of_nonpos (by linarith)]; linarith
    · intro m' e' hb he hne
      have ev : n % 2 = 1 := by
        rcases gridG hn hb with g | g
        · rw [abs_of_nonneg (by linarith)] at he
          exact h2 (by linarith)
        · rw [abs_of_nonpos (by linarith)] at he
          exact absurd (by linarith) hne
      unfold canonG
      split_ifs with h53
      · exact Nat.even_iff.mpr (by simp only; exact hev)
      · exact Nat.even_iff.mpr (by simp only; omega)

/-- The datum of a word given by its sign and the rest. -/
theorem wordDatum_split {E F s M : ℕ} (hM : M < 2 ^ (E + F)) :
    wordDatum E F (s * 2 ^ (E + F) + M) = ieeeDenote E F s (M / 2 ^ F) (M % 2 ^ F) := by
  unfold wordDatum
  have hp := Nat.two_pow_pos F
  have hpe : 2 ^ (E + F) = 2 ^ E * 2 ^ F := by rw [pow_add]
  have h1 : (s * 2 ^ (E + F) + M) / 2 ^ (E + F) = s := by
    rw [Nat.add_comm, Nat.add_mul_div_right _ _ (by positivity), Nat.div_eq_of_lt hM, Nat.zero_add]
  have h2 : (s * 2 ^ (E + F) + M) / 2 ^ F % 2 ^ E = M / 2 ^ F := by
    rw [hpe, ← Nat.mul_assoc, Nat.add_comm, Nat.add_mul_div_right _ _ hp, Nat.add_mul_mod_self_right]
    apply Nat.mod_eq_of_lt
    rw [Nat.div_lt_iff_lt_mul hp, ← hpe]; exact hM
  have h3 : (s * 2 ^ (E + F) + M) % 2 ^ F = M % 2 ^ F := by
    rw [hpe, ← Nat.mul_assoc, Nat.add_comm, Nat.add_mul_mod_self_right]
  rw [h1, h2, h3]

/-- The datum of the packed word of a significand `q` at the exponent `t` above the least one. -/
theorem wordDatum_num {E F q t : ℕ} (hE : 2 ≤ E) (neg : Bool) (hq : q ≤ 2 ^ (F + 1)) (hn : 2 ^ F ≤ q ∨ t = 0) :
    wordDatum E F (neg.toNat * 2 ^ (E + F) +
        (if (2 ^ E - 1) * 2 ^ F ≤ q + t * 2 ^ F then (2 ^ E - 1) * 2 ^ F else q + t * 2 ^ F))
      = if q = 0 then .zero neg
        else if ieeeLimit E ≤ q * 2 ^ ((t : ℤ) + leastExp E F) then .inf neg
        else .num ((if neg then -1 else 1) * ((q : ℚ) * 2 ^ ((t : ℤ) + leastExp E F))) := by
  have hF := Nat.two_pow_pos F
  have h2F : 2 ^ (F + 1) = 2 * 2 ^ F := by rw [pow_succ]; ring
  have hs1 : decide (neg.toNat = 1) = neg := by cases neg <;> rfl
  have hs2 : (if neg.toNat = 1 then (-1 : ℚ) else 1) = if neg then -1 else 1 := by cases neg <;> rfl
  obtain ⟨T, hT, hT2⟩ : ∃ T, 2 ^ E = T + 2 ∧ 2 ≤ T := by
    have : 2 ^ 2 ≤ 2 ^ E := Nat.pow_le_pow_right (by norm_num) hE
    exact ⟨2 ^ E - 2, by omega, by omega⟩
  have hb : 2 * bias E = T := by
    have h1 : (2 : ℤ) ^ E = 2 * 2 ^ (E - 1) := by
      rw [← pow_succ']; congr 1; omega
    have h2 : ((2 ^ E : ℕ) : ℤ) = T + 2 := by rw [hT]; push_cast; ring
    push_cast at h2
    unfold bias; linarith
  have hT1 : 2 ^ E - 1 = T + 1 := by omega
  have hover : ((2 ^ E - 1) * 2 ^ F ≤ q + t * 2 ^ F) ↔ ieeeLimit E ≤ q * 2 ^ ((t : ℤ) + leastExp E F) := by
    have e1 : ieeeLimit E = 2 ^ (F + T) * 2 ^ leastExp E F := by
      unfold ieeeLimit leastExp
      rw [← zpow_natCast (2 : ℚ) (F + T), ← zpow_add₀ (by norm_num)]; congr 1; push_cast; linarith
    have e2 : (q : ℚ) * 2 ^ ((t : ℤ) + leastExp E F) = (q * 2 ^ t) * 2 ^ leastExp E F := by
      rw [zpow_add₀ (by norm_num), zpow_natCast]; ring
    rw [e1, e2, mul_le_mul_iff_left₀ (two_zpow_pos _)]
    rw [show ((2 : ℚ) ^ (F + T) ≤ q * 2 ^ t) ↔ (2 ^ (F + T) ≤ q * 2 ^ t) by exact_mod_cast Iff.rfl]
    rw [hT1]
    have e3 : (T + 1) * 2 ^ F = T * 2 ^ F + 2 ^ F := by ring
    constructor
    · intro h
      have hc : T ≤ t ∨ (t + 1 = T ∧ q = 2 ^ (F + 1)) := by
        rcases Nat.lt_or_ge t T with ht | ht
        · right
          rcases Nat.lt_or_ge (t + 1) T with ht2 | ht2
          · have : (t + 2) * 2 ^ F ≤ T * 2 ^ F := Nat.mul_le_mul_right _ ht2
            have e4 : (t + 2) * 2 ^ F = t * 2 ^ F + 2 * 2 ^ F := by ring
            omega
          · have ht3 : t + 1 = T := by omega
            subst ht3
            have e4 : (t + 1) * 2 ^ F = t * 2 ^ F + 2 ^ F := by ring
            exact ⟨rfl, by omega⟩
        · exact Or.inl ht
      rcases hc with hc | ⟨rfl, rfl⟩
      · have : 2 ^ F ≤ q := by omega
        calc 2 ^ (F + T) = 2 ^ F * 2 ^ T := by rw [← pow_add]
          _ ≤ q * 2 ^ t := Nat.mul_le_mul this (Nat.pow_le_pow_right (by norm_num) (by omega))
      · rw [← pow_add]
        exact Nat.pow_le_pow_right (by norm_num) (by omega)
    · intro h
      by_contra hlt
      have hc : t + 2 ≤ T ∨ (t + 1 = T ∧ q < 2 ^ (F + 1)) := by
        rcases Nat.lt_or_ge t T with ht | ht
        · rcases Nat.lt_or_ge (t + 1) T with ht2 | ht2
          · exact Or.inl ht2
          · right
            have ht3 : t + 1 = T := by omega
            subst ht3
            have e4 : (t + 1) * 2 ^ F = t * 2 ^ F + 2 ^ F := by ring
            exact ⟨rfl, by omega⟩
        · exfalso
          have : T * 2 ^ F ≤ t * 2 ^ F := Nat.mul_le_mul_right _ ht
          omega
      rcases hc with hc | ⟨hc, hq53⟩
      · have h1 : q * 2 ^ t ≤ 2 ^ (F + 1) * 2 ^ t := Nat.mul_le_mul hq le_rfl
        rw [← pow_add] at h1
        exact absurd (le_trans h h1) (by rw [Nat.pow_le_pow_iff_right (by norm_num)]; omega)
      · have h1 : q * 2 ^ t < 2 ^ (F + 1) * 2 ^ t :=
          Nat.mul_lt_mul_of_lt_of_le hq53 le_rfl (by positivity)
        rw [← pow_add] at h1
        have h2 := lt_of_le_of_lt h h1
        rw [Nat.pow_lt_pow_iff_right (by norm_num)] at h2
        omega
  have hpe : 2 ^ (E + F) = T * 2 ^ F + 2 * 2 ^ F := by rw [pow_add, hT]; ring
  have hpt : (2 ^ E - 1) * 2 ^ F = T * 2 ^ F + 2 ^ F := by rw [hT1]; ring
  by_cases ho : (2 ^ E - 1) * 2 ^ F ≤ q + t * 2 ^ F
  · have hq0 : q ≠ 0 := by
      rintro rfl
      have : t = 0 := by omega
      subst this
      omega
    rw [if_pos ho, if_neg hq0, if_pos (hover.mp ho), wordDatum_split (by omega)]
    rw [Nat.mul_div_cancel _ hF, Nat.mul_mod_left]
    unfold ieeeDenote
    rw [if_neg (by omega), if_pos rfl, if_pos rfl, hs1]
  · rw [if_neg ho, if_neg (mt hover.mpr ho), wordDatum_split (by omega)]
    rcases Nat.lt_or_ge q (2 ^ F) with hlt | hge
    · have t0 : t = 0 := by omega
      subst t0
      rw [Nat.zero_mul, Nat.add_zero, Nat.div_eq_of_lt hlt, Nat.mod_eq_of_lt hlt]
      unfold ieeeDenote
      rw [if_pos rfl, hs1, hs2]
      simp only [leastExp, Nat.cast_zero, zero_add]
    · have hq0 : q ≠ 0 := by omega
      rw [if_neg hq0]
      have hd : (q + t * 2 ^ F) / 2 ^ F = q / 2 ^ F + t := by rw [Nat.add_mul_div_right _ _ hF]
      have hm : (q + t * 2 ^ F) % 2 ^ F = q % 2 ^ F := by rw [Nat.add_mul_mod_self_right]
      have hd2 : (q + t * 2 ^ F) / 2 ^ F < 2 ^ E - 1 := by rw [Nat.div_lt_iff_lt_mul hF]; omega
      rw [hd, hm]
      rw [hd] at hd2
      have hq1 : 1 ≤ q / 2 ^ F := by rw [Nat.le_div_iff_mul_le hF]; omega
      unfold ieeeDenote
      rw [if_neg (by omega), if_neg (by omega), hs2]
      congr 2
      rcases Nat.lt_or_ge q (2 ^ (F + 1)) with hl | hg
      · have d : q / 2 ^ F = 1 := by
          have : q / 2 ^ F < 2 := by rw [Nat.div_lt_iff_lt_mul hF]; omega
          omega
        have m : 2 ^ F + q % 2 ^ F = q := by
          have := Nat.div_add_mod q (2 ^ F)
          rw [d] at this; omega
        rw [d, m]
        congr 2
        unfold leastExp
        push_cast; ring
      · have hq' : q = 2 * 2 ^ F := by omega
        have d : q / 2 ^ F = 2 := by rw [hq', Nat.mul_div_cancel _ hF]
        have m : q % 2 ^ F = 0 := by rw [hq', Nat.mul_mod_left]
        rw [d, m, hq', show ((2 + t : ℕ) : ℤ) - bias E - F = (t : ℤ) + leastExp E F + 1 by unfold leastExp; push_cast; ring,
          two_zpow_succ]
        push_cast; ring

/-- A word made from the nearest significand is the rounded datum. -/
theorem rounded_of_choice {E F n q t : ℕ} {x : ℚ} (hE : 2 ≤ E) (hF : 1 ≤ F) (neg : Bool) (hx : 0 < x)
    (hn : 2 ^ F ≤ n ∨ t = 0) (hn2 : n < 2 ^ (F + 1)) (hc : Choice n q ((t : ℤ) + leastExp E F) x) :
    RoundedGradual E F ((if neg then -1 else 1) * x) (wordDatum E F (neg.toNat * 2 ^ (E + F) +
        (if (2 ^ E - 1) * 2 ^ F ≤ q + t * 2 ^ F then (2 ^ E - 1) * 2 ^ F else q + t * 2 ^ F))) := by
  have habs : |(if neg then (-1 : ℚ) else 1) * x| = x := by
    cases neg
    · simp only [Bool.false_eq_true, if_false, one_mul]; exact abs_of_pos hx
    · simp only [if_true, neg_one_mul, abs_neg]; exact abs_of_pos hx
  have hneg' : ((if neg then (-1 : ℚ) else 1) * x < 0) ↔ neg = true := by
    cases neg
    · simp only [Bool.false_eq_true, if_false, one_mul, iff_false, not_lt]; exact hx.le
    · simp only [if_true, neg_one_mul, iff_true]; linarith
  have hneg : decide ((if neg then (-1 : ℚ) else 1) * x < 0) = neg := by
    rw [Bool.eq_iff_iff, decide_eq_true_iff]; exact hneg'
  have hqn : q ≤ 2 ^ (F + 1) := by rcases hc.2.2 with h | h <;> omega
  have hqn2 : 2 ^ F ≤ q ∨ t = 0 := by rcases hc.2.2 with h | h <;> omega
  refine ⟨(canonG F q (t + leastExp E F)).1, (canonG F q (t + leastExp E F)).2, ?_, ?_⟩
  · rw [habs]
    exact nearestG hF (by omega) hn2 (by omega) hc
  · rw [wordDatum_num hE neg hqn hqn2, canonG_value, hneg]
    simp only [canonG_zero, hneg']

end Thls
