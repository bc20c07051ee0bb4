import Verif.Model.Double
import Verif.SpecDouble
import Verif.Proofs.Ieee
import Verif.Proofs.Fma
import Verif.Rounding

/-! # Helper lemmas for the exchange with `double` -/

namespace Thls
open Spec

/-- Binary64 magnitudes are on the grid of `2^qe` around a normalised significand. -/
theorem grid64 {n m' : ℕ} {qe e' : ℤ} (hn : 2 ^ 52 ≤ n ∨ qe = -1074) (h : IsBinary64 m' e') :
    (m' : ℚ) * 2 ^ e' ≤ n * 2 ^ qe ∨ ((n : ℚ) + 1) * 2 ^ qe ≤ m' * 2 ^ e' := by
  obtain ⟨h1, h2⟩ := h
  have hu := two_zpow_pos qe
  rcases le_or_gt qe e' with hle | hlt
  · obtain ⟨k, rfl⟩ : ∃ k : ℕ, e' = qe + k := ⟨(e' - qe).toNat, by omega⟩
    rw [zpow_add₀ (by norm_num), zpow_natCast]
    have e1 : (m' : ℚ) * (2 ^ qe * 2 ^ k) = ((m' * 2 ^ k : ℕ) : ℚ) * 2 ^ qe := by push_cast; ring
    rw [e1]
    rcases Nat.lt_or_ge n (m' * 2 ^ k) with h | h
    · right
      refine mul_le_mul_of_nonneg_right ?_ hu.le
      exact_mod_cast h
    · left
      refine mul_le_mul_of_nonneg_right ?_ hu.le
      exact_mod_cast h
  · left
    rcases hn with hn | hn
    · have a1 : (m' : ℚ) ≤ 2 ^ 53 := by exact_mod_cast h1.le
      have a2 : (2 : ℚ) ^ 52 ≤ n := by exact_mod_cast hn
      have a3 : (2 : ℚ) ^ e' ≤ 2 ^ (qe - 1) := zpow_le_zpow_right₀ (by norm_num) (by omega)
      rw [two_zpow_pred] at a3
      calc (m' : ℚ) * 2 ^ e' ≤ 2 ^ 53 * (2 ^ qe / 2) := mul_le_mul a1 a3 (two_zpow_pos _).le (by positivity)
        _ = 2 ^ 52 * 2 ^ qe := by ring
        _ ≤ n * 2 ^ qe := mul_le_mul_of_nonneg_right a2 hu.le
    · omega

/-- The canonical form of a significand of at most `2^53`. -/
def canon64 (q : ℕ) (qe : ℤ) : ℕ × ℤ := if q = 2 ^ 53 then (2 ^ 52, qe + 1) else (q, qe)

theorem canon64_value (q : ℕ) (qe : ℤ) : ((canon64 q qe).1 : ℚ) * 2 ^ (canon64 q qe).2 = q * 2 ^ qe := by
  unfold canon64
  split_ifs with h
  · rw [h, two_zpow_succ]; push_cast; ring
  · rfl

theorem nearest64 {n q : ℕ} {qe : ℤ} {x : ℚ} (hn : 2 ^ 52 ≤ n ∨ qe = -1074) (hn2 : n < 2 ^ 53) (hq : -1074 ≤ qe)
    (lo : (n : ℚ) * 2 ^ qe ≤ x) (hi : x < ((n : ℚ) + 1) * 2 ^ qe)
    (h : (q = n ∧ x - n * 2 ^ qe ≤ 2 ^ qe / 2 ∧ (x - n * 2 ^ qe = 2 ^ qe / 2 → n % 2 = 0)) ∨
      (q = n + 1 ∧ ((n : ℚ) + 1) * 2 ^ qe - x ≤ 2 ^ qe / 2 ∧ (((n : ℚ) + 1) * 2 ^ qe - x = 2 ^ qe / 2 → n % 2 = 1))) :
    NearestBinary64 x (canon64 q qe).1 (canon64 q qe).2 := by
  have hu := two_zpow_pos qe
  have hc : IsBinary64 (canon64 q qe).1 (canon64 q qe).2 ∧ (2 ^ 52 ≤ (canon64 q qe).1 ∨ (canon64 q qe).2 = -1074) := by
    unfold canon64
    split_ifs with h53
    · exact ⟨⟨by norm_num, by simp only; omega⟩, Or.inl le_rfl⟩
    · refine ⟨⟨?_, hq⟩, ?_⟩
      · simp only; omega
      · simp only; omega
  refine ⟨hc.1, hc.2, ?_⟩
  rw [canon64_value]
  rcases h with ⟨rfl, h1, h2⟩ | ⟨rfl, h1, h2⟩
  · have hab : |x - q * 2 ^ qe| = x - q * 2 ^ qe := abs_of_nonneg (by linarith)
    rw [hab]
    constructor
    · intro m' e' hb
      rcases grid64 hn hb with g | g
      · rw [abs_of_nonneg (by linarith)]; linarith
      · rw [abs_of_nonpos (by linarith)]; linarith
    · intro m' e' hb he hne
      have ev : q % 2 = 0 := by
        rcases grid64 hn hb with g | g
        · rw [abs_of_nonneg (by linarith)] at he
          exact absurd (by linarith) hne
        · rw [abs_of_nonpos (by linarith)] at he
          exact h2 (by linarith)
      unfold canon64
      split_ifs with h53
      · omega
      · exact Nat.even_iff.mpr ev
  · push_cast
    have hab : |x - ((n : ℚ) + 1) * 2 ^ qe| = ((n : ℚ) + 1) * 2 ^ qe - x := by
      rw [abs_of_nonpos (by linarith)]; ring
    rw [hab]
    constructor
    · intro m' e' hb
      rcases grid64 hn hb with g | g
      · rw [abs_of_nonneg (by linarith)]; linarith
      · rw [abs_of_nonpos (by linarith)]; linarith
    · intro m' e' hb he hne
      have ev : n % 2 = 1 := by
        rcases grid64 hn hb with g | g
        · rw [abs_of_nonneg (by linarith)] at he
          exact h2 (by linarith)
        · rw [abs_of_nonpos (by linarith)] at he
          exact absurd (by linarith) hne
      unfold canon64
      split_ifs with h53
      · exact ⟨2 ^ 51, by norm_num⟩
      · exact Nat.even_iff.mpr (by simp only; omega)

/-- The datum of the packed word of a significand at an exponent. -/
theorem word64_datum {q : ℕ} {qe : ℤ} (neg : Bool) (hq : q ≤ 2 ^ 53) (hqe : -1074 ≤ qe) (hn : 2 ^ 52 ≤ q ∨ qe = -1074) :
    (Ieee.ofBits 11 52 (concat 63 neg.toNat
        (if 2047 * 2 ^ 52 ≤ q + (qe + 1074).toNat * 2 ^ 52 then 2047 * 2 ^ 52 else q + (qe + 1074).toNat * 2 ^ 52))).datum
      = if q = 0 then .zero neg
        else if (2 : ℚ) ^ (1024 : ℤ) ≤ q * 2 ^ qe then .inf neg
        else .num ((if neg then -1 else 1) * ((q : ℚ) * 2 ^ qe)) := by
  obtain ⟨t, rfl⟩ : ∃ t : ℕ, qe = (t : ℤ) - 1074 := ⟨(qe + 1074).toNat, by omega⟩
  have ht : ((t : ℤ) - 1074 + 1074).toNat = t := by omega
  rw [ht]
  have hbit : ∀ w, w < 2048 * 2 ^ 52 → Ieee.ofBits 11 52 (concat 63 neg.toNat w) = Ieee.mk3 11 52 neg.toNat (w / 2 ^ 52) (w % 2 ^ 52) := by
    intro w hw
    unfold Ieee.mk3
    rw [show concat 52 (w / 2 ^ 52) (w % 2 ^ 52) = w by unfold concat; omega]
  have hs : neg.toNat < 2 := by cases neg <;> simp
  have hs1 : decide (neg.toNat = 1) = neg := by cases neg <;> rfl
  have hs2 : (if neg.toNat = 1 then (-1 : ℚ) else 1) = if neg then -1 else 1 := by cases neg <;> rfl
  have hb : bias 11 = 1023 := by norm_num [bias]
  have hover : (2047 * 2 ^ 52 ≤ q + t * 2 ^ 52) ↔ (2 : ℚ) ^ (1024 : ℤ) ≤ q * 2 ^ ((t : ℤ) - 1074) := by
    have e1 : (2 : ℚ) ^ (1024 : ℤ) = 2 ^ 2098 * 2 ^ (-1074 : ℤ) := by
      rw [← zpow_natCast (2 : ℚ) 2098, ← zpow_add₀ (by norm_num)]; norm_num
    have e2 : (q : ℚ) * 2 ^ ((t : ℤ) - 1074) = (q * 2 ^ t) * 2 ^ (-1074 : ℤ) := by
      rw [sub_eq_add_neg, zpow_add₀ (by norm_num), zpow_natCast]; ring
    rw [e1, e2, mul_le_mul_iff_left₀ (two_zpow_pos _)]
    rw [show ((2 : ℚ) ^ 2098 ≤ q * 2 ^ t) ↔ (2 ^ 2098 ≤ q * 2 ^ t) by exact_mod_cast Iff.rfl]
    constructor
    · intro h
      have hc : 2046 ≤ t ∨ (2045 ≤ t ∧ q = 2 ^ 53) := by omega
      rcases hc with hc | ⟨hc, rfl⟩
      · have : 2 ^ 52 ≤ q := by omega
        calc 2 ^ 2098 = 2 ^ 52 * 2 ^ 2046 := by rw [← pow_add]
          _ ≤ q * 2 ^ t := Nat.mul_le_mul this (Nat.pow_le_pow_right (by norm_num) hc)
      · calc 2 ^ 2098 = 2 ^ 53 * 2 ^ 2045 := by rw [← pow_add]
          _ ≤ 2 ^ 53 * 2 ^ t := Nat.mul_le_mul le_rfl (Nat.pow_le_pow_right (by norm_num) hc)
    · intro h
      by_contra hlt
      have hc : t ≤ 2044 ∨ (t ≤ 2045 ∧ q < 2 ^ 53) := by omega
      rcases hc with hc | ⟨hc, hq53⟩
      · have h1 : q * 2 ^ t ≤ 2 ^ 53 * 2 ^ 2044 := Nat.mul_le_mul hq (Nat.pow_le_pow_right (by norm_num) hc)
        rw [← pow_add] at h1
        exact absurd (le_trans h h1) (by rw [Nat.pow_le_pow_iff_right (by norm_num)]; norm_num)
      · have h1 : q * 2 ^ t < 2 ^ 53 * 2 ^ 2045 :=
          Nat.mul_lt_mul_of_lt_of_le hq53 (Nat.pow_le_pow_right (by norm_num) hc) (by positivity)
        rw [← pow_add] at h1
        exact absurd (lt_of_le_of_lt h h1) (lt_irrefl _)
  by_cases ho : 2047 * 2 ^ 52 ≤ q + t * 2 ^ 52
  · have hq0 : q ≠ 0 := by omega
    rw [if_pos ho, if_neg hq0, if_pos (hover.mp ho), hbit _ (by norm_num), Ieee.mk3_datum (by norm_num) (by norm_num) hs (by norm_num) (by norm_num)]
    unfold ieeeDenote
    norm_num [hs1]
  · rw [if_neg ho, if_neg (mt hover.mpr ho), hbit _ (by omega),
      Ieee.mk3_datum (by norm_num) (by norm_num) hs (by omega) (Nat.mod_lt _ (by norm_num))]
    rcases Nat.lt_or_ge q (2 ^ 52) with hlt | hge
    · have t0 : t = 0 := by omega
      subst t0
      have d0 : (q + 0 * 2 ^ 52) / 2 ^ 52 = 0 := by omega
      have m0 : (q + 0 * 2 ^ 52) % 2 ^ 52 = q := by omega
      rw [d0, m0]
      unfold ieeeDenote
      rw [if_pos rfl, hs1, hs2, hb]
      norm_num
    · have hq0 : q ≠ 0 := by omega
      rw [if_neg hq0]
      have d1 : (q + t * 2 ^ 52) / 2 ^ 52 ≠ 0 := by omega
      have d2 : (q + t * 2 ^ 52) / 2 ^ 52 ≠ 2 ^ 11 - 1 := by omega
      unfold ieeeDenote
      rw [if_neg d1, if_neg d2, hs2, hb]
      congr 2
      rcases Nat.lt_or_ge q (2 ^ 53) with hl | hg
      · have d : (q + t * 2 ^ 52) / 2 ^ 52 = t + 1 := by omega
        have m : 2 ^ 52 + (q + t * 2 ^ 52) % 2 ^ 52 = q := by omega
        rw [d, m]
        congr 2
        push_cast; ring
      · have d : (q + t * 2 ^ 52) / 2 ^ 52 = t + 2 := by omega
        have m : 2 ^ 52 + (q + t * 2 ^ 52) % 2 ^ 52 = 2 ^ 52 := by omega
        have hq' : q = 2 ^ 53 := by omega
        rw [d, m, hq', show ((t + 2 : ℕ) : ℤ) - 1023 - (52 : ℕ) = (t : ℤ) - 1074 + 1 by push_cast; ring, two_zpow_succ]
        push_cast; ring

/-- `roundShift` is rounding to the nearest multiple of `2^k`, ties to even. -/
theorem roundShift_spec (n k : ℕ) :
    (roundShift n k = n / 2 ^ k ∧ 2 * (n % 2 ^ k) ≤ 2 ^ k ∧ (2 * (n % 2 ^ k) = 2 ^ k → n / 2 ^ k % 2 = 0)) ∨
      (roundShift n k = n / 2 ^ k + 1 ∧ 2 ^ k ≤ 2 * (n % 2 ^ k) ∧ (2 * (n % 2 ^ k) = 2 ^ k → n / 2 ^ k % 2 = 1)) := by
  unfold roundShift
  simp only
  split_ifs with h
  · right
    refine ⟨rfl, ?_, ?_⟩ <;> omega
  · left
    push Not at h
    refine ⟨rfl, ?_, ?_⟩
    · omega
    · intro h2
      have := h.2 h2.symm
      omega

/-- The significand chosen by `dblRound`, against the exact value. -/
theorem dbl_choice {k : ℕ} {e qe : ℤ} :
    let q := if qe ≤ e then k * 2 ^ (e - qe).toNat else roundShift k (qe - e).toNat
    ∃ n : ℕ, (n : ℚ) * 2 ^ qe ≤ k * 2 ^ e ∧ (k : ℚ) * 2 ^ e < ((n : ℚ) + 1) * 2 ^ qe ∧
      ((q = n ∧ (k : ℚ) * 2 ^ e - n * 2 ^ qe ≤ 2 ^ qe / 2 ∧ ((k : ℚ) * 2 ^ e - n * 2 ^ qe = 2 ^ qe / 2 → n % 2 = 0)) ∨
      (q = n + 1 ∧ ((n : ℚ) + 1) * 2 ^ qe - k * 2 ^ e ≤ 2 ^ qe / 2 ∧ (((n : ℚ) + 1) * 2 ^ qe - k * 2 ^ e = 2 ^ qe / 2 → n % 2 = 1))) := by
  intro q
  have hu := two_zpow_pos qe
  by_cases hle : qe ≤ e
  · refine ⟨k * 2 ^ (e - qe).toNat, ?_⟩
    have hq : q = k * 2 ^ (e - qe).toNat := if_pos hle
    have hv : ((k * 2 ^ (e - qe).toNat : ℕ) : ℚ) * 2 ^ qe = k * 2 ^ e := by
      push_cast
      rw [mul_assoc, ← zpow_natCast (2 : ℚ) (e - qe).toNat, ← zpow_add₀ (by norm_num)]
      congr 2; omega
    refine ⟨hv.le, ?_, Or.inl ⟨hq, ?_, ?_⟩⟩
    · rw [add_mul, hv]; linarith
    · rw [hv]; linarith
    · rw [hv]; intro h; linarith
  · obtain ⟨s, hs⟩ : ∃ s : ℕ, qe = e + s := ⟨(qe - e).toNat, by omega⟩
    have hst : (qe - e).toNat = s := by omega
    have hq : q = roundShift k s := by rw [← hst]; exact if_neg hle
    have hv : (2 : ℚ) ^ qe = 2 ^ s * 2 ^ e := by
      rw [hs, add_comm, zpow_add₀ (by norm_num), zpow_natCast]
    have he := two_zpow_pos e
    have hdm : 2 ^ s * (k / 2 ^ s) + k % 2 ^ s = k := Nat.div_add_mod _ _
    have hml : k % 2 ^ s < 2 ^ s := Nat.mod_lt _ (by positivity)
    have hdq : (k : ℚ) = 2 ^ s * ((k / 2 ^ s : ℕ) : ℚ) + ((k % 2 ^ s : ℕ) : ℚ) := by exact_mod_cast hdm.symm
    have hmq : ((k % 2 ^ s : ℕ) : ℚ) < 2 ^ s := by exact_mod_cast hml
    have hm0 : (0 : ℚ) ≤ ((k % 2 ^ s : ℕ) : ℚ) := by positivity
    have d1 : (k : ℚ) * 2 ^ e - ((k / 2 ^ s : ℕ) : ℚ) * 2 ^ qe = ((k % 2 ^ s : ℕ) : ℚ) * 2 ^ e := by
      rw [hv]; linear_combination (2 : ℚ) ^ e * hdq
    have d2 : (((k / 2 ^ s : ℕ) : ℚ) + 1) * 2 ^ qe - (k : ℚ) * 2 ^ e = (2 ^ s - ((k % 2 ^ s : ℕ) : ℚ)) * 2 ^ e := by
      rw [hv]; linear_combination -(2 : ℚ) ^ e * hdq
    have half : (2 : ℚ) ^ qe / 2 = (2 ^ s / 2) * 2 ^ e := by rw [hv]; ring
    refine ⟨k / 2 ^ s, ?_, ?_, ?_⟩
    · have : 0 ≤ ((k % 2 ^ s : ℕ) : ℚ) * 2 ^ e := by positivity
      linarith
    · have : 0 < (2 ^ s - ((k % 2 ^ s : ℕ) : ℚ)) * 2 ^ e := mul_pos (by linarith) he
      linarith
    · rw [d1, d2, half, hq]
      rcases roundShift_spec k s with ⟨r1, r2, r3⟩ | ⟨r1, r2, r3⟩
      · left
        have r2q : 2 * ((k % 2 ^ s : ℕ) : ℚ) ≤ 2 ^ s := by exact_mod_cast r2
        refine ⟨r1, mul_le_mul_of_nonneg_right (by linarith) he.le, fun h => r3 ?_⟩
        have h' := mul_right_cancel₀ he.ne' h
        have : 2 * ((k % 2 ^ s : ℕ) : ℚ) = 2 ^ s := by linarith
        exact_mod_cast this
      · right
        have r2q : (2 : ℚ) ^ s ≤ 2 * ((k % 2 ^ s : ℕ) : ℚ) := by exact_mod_cast r2
        refine ⟨r1, mul_le_mul_of_nonneg_right (by linarith) he.le, fun h => r3 ?_⟩
        have h' := mul_right_cancel₀ he.ne' h
        have : 2 * ((k % 2 ^ s : ℕ) : ℚ) = 2 ^ s := by linarith
        exact_mod_cast this

/-- `dblRound` is rounding to nearest in binary64. -/
theorem dblRound_rounded {k : ℕ} (hk : 0 < k) (neg : Bool) (e : ℤ) :
    RoundedBinary64 ((if neg then -1 else 1) * ((k : ℚ) * 2 ^ e)) (dblRound neg k e).datum := by
  have hkq : (0 : ℚ) < k := by exact_mod_cast hk
  have hx : (0 : ℚ) < (k : ℚ) * 2 ^ e := mul_pos hkq (two_zpow_pos e)
  have habs : |(if neg then (-1 : ℚ) else 1) * ((k : ℚ) * 2 ^ e)| = k * 2 ^ e := by
    cases neg
    · simp only [Bool.false_eq_true, if_false, one_mul]; exact abs_of_pos hx
    · simp only [if_true, neg_one_mul, abs_neg]; exact abs_of_pos hx
  have hneg : decide ((if neg then (-1 : ℚ) else 1) * ((k : ℚ) * 2 ^ e) < 0) = neg := by
    cases neg
    · simp only [Bool.false_eq_true, if_false, one_mul, decide_eq_false_iff_not, not_lt]; exact hx.le
    · simp only [if_true, neg_one_mul, decide_eq_true_eq]; linarith
  have hneg' : ((if neg then (-1 : ℚ) else 1) * ((k : ℚ) * 2 ^ e) < 0) ↔ neg = true := by
    constructor
    · intro h; rw [← hneg]; exact decide_eq_true h
    · intro h; rw [← hneg] at h; exact of_decide_eq_true h
  obtain ⟨qe, hqe⟩ : ∃ qe : ℤ, qe = max (e + Nat.log2 k - 52) (-1074) := ⟨_, rfl⟩
  obtain ⟨q, hq⟩ : ∃ q, q = if qe ≤ e then k * 2 ^ (e - qe).toNat else roundShift k (qe - e).toNat := ⟨_, rfl⟩
  obtain ⟨n, lo, hi, ch⟩ := dbl_choice (k := k) (e := e) (qe := qe)
  rw [← hq] at ch
  have l1 : 2 ^ Nat.log2 k ≤ k := Nat.log2_self_le hk.ne'
  have l2 : k < 2 ^ (Nat.log2 k + 1) := Nat.lt_log2_self
  have b1 : (2 : ℚ) ^ (e + Nat.log2 k) ≤ k * 2 ^ e := by
    rw [add_comm, zpow_add₀ (by norm_num), zpow_natCast]
    exact mul_le_mul_of_nonneg_right (by exact_mod_cast l1) (two_zpow_pos _).le
  have b2 : (k : ℚ) * 2 ^ e < (2 : ℚ) ^ (e + Nat.log2 k + 1) := by
    rw [show e + (Nat.log2 k : ℤ) + 1 = ((Nat.log2 k + 1 : ℕ) : ℤ) + e by push_cast; ring, zpow_add₀ (by norm_num), zpow_natCast]
    exact mul_lt_mul_of_pos_right (by exact_mod_cast l2) (two_zpow_pos _)
  have hqlo : -1074 ≤ qe := by omega
  have hu := two_zpow_pos qe
  have hn2 : n < 2 ^ 53 := by
    have h1 : (2 : ℚ) ^ (e + Nat.log2 k + 1) ≤ 2 ^ (qe + 53) := zpow_le_zpow_right₀ (by norm_num) (by omega)
    have h0 : (2 : ℚ) ^ (qe + 53) = 2 ^ 53 * 2 ^ qe := by
      rw [show qe + 53 = ((53 : ℕ) : ℤ) + qe by push_cast; ring, zpow_add₀ (by norm_num), zpow_natCast]
    rw [h0] at h1
    have h2 : (n : ℚ) * 2 ^ qe < 2 ^ 53 * 2 ^ qe := by linarith
    exact_mod_cast lt_of_mul_lt_mul_right h2 hu.le
  have hn : 2 ^ 52 ≤ n ∨ qe = -1074 := by
    rcases eq_or_ne qe (-1074) with h | h
    · exact Or.inr h
    · left
      have h1 : qe = e + Nat.log2 k - 52 := by omega
      have h2 : (2 : ℚ) ^ (e + Nat.log2 k) = 2 ^ 52 * 2 ^ qe := by
        rw [h1, ← zpow_natCast (2 : ℚ) 52, ← zpow_add₀ (by norm_num)]; congr 1; push_cast; ring
      have h3 : (2 : ℚ) ^ 52 * 2 ^ qe < ((n : ℚ) + 1) * 2 ^ qe := by linarith
      have h4 := lt_of_mul_lt_mul_right h3 hu.le
      have h5 : 2 ^ 52 < n + 1 := by exact_mod_cast h4
      omega
  have hq53 : q ≤ 2 ^ 53 := by omega
  have hqn : 2 ^ 52 ≤ q ∨ qe = -1074 := by omega
  refine ⟨(canon64 q qe).1, (canon64 q qe).2, ?_, ?_⟩
  · rw [habs]
    exact nearest64 hn hn2 hqlo lo hi ch
  · have hw : dblRound neg k e = Ieee.ofBits 11 52 (concat 63 neg.toNat
        (if 2047 * 2 ^ 52 ≤ q + (qe + 1074).toNat * 2 ^ 52 then 2047 * 2 ^ 52 else q + (qe + 1074).toNat * 2 ^ 52)) := by
      rw [hq, hqe]; rfl
    have hc0 : (canon64 q qe).1 = 0 ↔ q = 0 := by
      unfold canon64
      split_ifs with h
      · rw [h]; norm_num
      · rfl
    rw [hw, word64_datum neg hq53 hqlo hqn, canon64_value, hneg]
    simp only [hc0, hneg']

/-- A binary64 magnitude not above the exact one is not above the rounded one. -/
theorem nearest64_ge {x : ℚ} {m m' : ℕ} {e e' : ℤ} (h : NearestBinary64 x m e) (hb : IsBinary64 m' e') (hle : (m' : ℚ) * 2 ^ e' ≤ x) :
    (m' : ℚ) * 2 ^ e' ≤ m * 2 ^ e := by
  by_contra hlt
  push Not at hlt
  have h1 := h.2.2.1 m' e' hb
  rw [abs_of_nonneg (show 0 ≤ x - m * 2 ^ e by linarith), abs_of_nonneg (show 0 ≤ x - m' * 2 ^ e' by linarith)] at h1
  linarith

/-- Rounding a binary64 number leaves it as it is. -/
theorem rounded64_self {m' : ℕ} {e' : ℤ} {q : ℚ} {d : Datum} (h0 : q ≠ 0) (hb : IsBinary64 m' e') (hq : |q| = (m' : ℚ) * 2 ^ e')
    (hlt : |q| < (2 : ℚ) ^ (1024 : ℤ)) (h : RoundedBinary64 q d) : d = .num q := by
  obtain ⟨m, e, hn, hd⟩ := h
  have h1 := hn.2.2.1 m' e' hb
  rw [← hq, sub_self, abs_zero] at h1
  have h2 : |q| = m * 2 ^ e := by
    have := abs_nonneg (|q| - (m : ℚ) * 2 ^ e)
    have h3 : |q| - (m : ℚ) * 2 ^ e = 0 := abs_eq_zero.mp (le_antisymm h1 this)
    linarith
  have hm : m ≠ 0 := by
    rintro rfl
    simp at h2
    exact h0 h2
  rw [hd, if_neg hm, ← h2, if_neg (not_le.mpr hlt)]
  congr 1
  split_ifs with hs
  · rw [abs_of_neg hs]; ring
  · rw [abs_of_nonneg (by linarith)]; ring

/-- The fraction of a double cut to `F` bits, with the leading one. -/
theorem cut_roundDown {F f : ℕ} (hf : f < 2 ^ 52) (g : ℤ) :
    f * 2 ^ F / 2 ^ 52 < 2 ^ F ∧
      RoundDown (F + 1) (((2 ^ 52 + f : ℕ) : ℚ) * 2 ^ (g - 52)) (2 ^ F + f * 2 ^ F / 2 ^ 52) (g - F) := by
  have pF : 0 < 2 ^ F := by positivity
  obtain ⟨c, hc⟩ : ∃ c, c = f * 2 ^ F / 2 ^ 52 := ⟨_, rfl⟩
  have h1 : c * 2 ^ 52 ≤ f * 2 ^ F := by rw [hc]; exact Nat.div_mul_le_self _ _
  have h2 : f * 2 ^ F < (c + 1) * 2 ^ 52 := by rw [hc, Nat.mul_comm (_ + 1)]; exact Nat.lt_mul_div_succ _ (by positivity)
  have hcl : c < 2 ^ F := by
    rw [hc, Nat.div_lt_iff_lt_mul (by positivity), Nat.mul_comm]
    exact Nat.mul_lt_mul_of_pos_left hf pF
  rw [← hc]
  have hu : (0 : ℚ) < 2 ^ (g - 52 - F) := two_zpow_pos _
  have e1 : (2 : ℚ) ^ (g - F) = 2 ^ 52 * 2 ^ (g - 52 - F) := by
    rw [← zpow_natCast (2 : ℚ) 52, ← zpow_add₀ (by norm_num)]; congr 1; push_cast; ring
  have e2 : (2 : ℚ) ^ (g - 52) = 2 ^ F * 2 ^ (g - 52 - F) := by
    rw [← zpow_natCast (2 : ℚ) F, ← zpow_add₀ (by norm_num)]; congr 1; ring
  have h1q : (c : ℚ) * 2 ^ 52 ≤ f * 2 ^ F := by exact_mod_cast h1
  have h2q : (f : ℚ) * 2 ^ F < (c + 1) * 2 ^ 52 := by exact_mod_cast h2
  have hsig : IsSig (F + 1) (2 ^ F + c) := by
    refine ⟨by simp, ?_⟩
    rw [pow_succ]; omega
  refine ⟨hcl, hsig, ?_, ?_⟩
  · rw [e1, e2, ← mul_assoc, ← mul_assoc]
    refine mul_le_mul_of_nonneg_right ?_ hu.le
    push_cast
    linarith
  · intro m' e' hm' hle
    rcases sig_le_or_ge (p := F + 1) (e := g - F) (e' := e') (by omega) hsig hm' with h | h
    · exact h
    · exfalso
      have h3 : (((2 ^ F + c : ℕ) : ℚ) + 1) * 2 ^ (g - F) ≤ ((2 ^ 52 + f : ℕ) : ℚ) * 2 ^ (g - 52) := le_trans h hle
      rw [e1, e2, ← mul_assoc, ← mul_assoc] at h3
      have h4 := le_of_mul_le_mul_right h3 hu
      push_cast at h4
      linarith

end Thls
