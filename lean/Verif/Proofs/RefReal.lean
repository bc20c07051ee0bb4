import Verif.SpecReal
import Verif.Model.RefReal
import Verif.Proofs.RefOps

/-! # Rounding of reals -/

namespace Thls
open Spec

namespace Mpfr

theorem two_zpow_posR (e : ℤ) : (0 : ℝ) < 2 ^ e := by positivity

theorem scaledR_bounds {p : ℕ} (hp : 1 ≤ p) {a : ℝ} (ha : 0 < a) :
    (2 : ℝ) ^ (p - 1) ≤ scaledR p a ∧ scaledR p a < 2 ^ p ∧ a = scaledR p a * 2 ^ ulpExpR p a := by
  have h1 := Int.zpow_log_le_self (b := 2) (by norm_num) ha
  have h2 := Int.lt_zpow_succ_log_self (b := 2) (by norm_num) a
  push_cast at h1 h2
  have hu := two_zpow_posR (ulpExpR p a)
  have e1 : (2 : ℝ) ^ (p - 1) * 2 ^ ulpExpR p a = 2 ^ Int.log 2 a := by
    rw [← zpow_natCast, ← zpow_add₀ (by norm_num), ulpExpR]; congr 1; omega
  have e2 : (2 : ℝ) ^ p * 2 ^ ulpExpR p a = 2 ^ (Int.log 2 a + 1) := by
    rw [← zpow_natCast, ← zpow_add₀ (by norm_num), ulpExpR]; congr 1; omega
  refine ⟨?_, ?_, ?_⟩
  · rw [scaledR, le_div_iff₀ hu, e1]; exact h1
  · rw [scaledR, div_lt_iff₀ hu, e2]; exact h2
  · rw [scaledR, div_mul_cancel₀ _ hu.ne']

theorem floor_sigR {p : ℕ} (hp : 1 ≤ p) {a : ℝ} (ha : 0 < a) :
    IsSig p ⌊scaledR p a⌋.toNat ∧ ((⌊scaledR p a⌋.toNat : ℕ) : ℝ) ≤ scaledR p a ∧
      scaledR p a < ((⌊scaledR p a⌋.toNat : ℕ) : ℝ) + 1 := by
  obtain ⟨h1, h2, _⟩ := scaledR_bounds hp ha
  have h0 : 0 ≤ ⌊scaledR p a⌋ := Int.floor_nonneg.mpr (le_trans (by positivity) h1)
  have hk : ((⌊scaledR p a⌋.toNat : ℕ) : ℝ) = (⌊scaledR p a⌋ : ℝ) := by
    have : ((⌊scaledR p a⌋.toNat : ℕ) : ℤ) = ⌊scaledR p a⌋ := Int.toNat_of_nonneg h0
    exact_mod_cast this
  have l1 := Int.floor_le (scaledR p a)
  have l2 := Int.lt_floor_add_one (scaledR p a)
  refine ⟨⟨?_, ?_⟩, by rw [hk]; exact l1, by rw [hk]; exact l2⟩
  · have : ((2 ^ (p - 1) : ℕ) : ℤ) ≤ ⌊scaledR p a⌋ := Int.le_floor.mpr (by push_cast; exact h1)
    omega
  · have : ⌊scaledR p a⌋ < ((2 ^ p : ℕ) : ℤ) := Int.floor_lt.mpr (by push_cast; exact h2)
    omega

theorem sig_le_or_geR {p m m' : ℕ} {e e' : ℤ} (hp : 1 ≤ p) (hm : IsSig p m) (hm' : IsSig p m') :
    (m' : ℝ) * 2 ^ e' ≤ m * 2 ^ e ∨ ((m : ℝ) + 1) * 2 ^ e ≤ m' * 2 ^ e' := by
  rcases sig_le_or_ge (e := e) (e' := e') hp hm hm' with h | h
  · left
    have := (Rat.cast_le (K := ℝ)).2 h
    push_cast at this; exact this
  · right
    have := (Rat.cast_le (K := ℝ)).2 h
    push_cast at this; exact this

theorem nearest_downR {p m : ℕ} {e : ℤ} {x : ℝ} (hp : 1 ≤ p) (hm : IsSig p m)
    (hL : (m : ℝ) * 2 ^ e ≤ x) (hh : x - m * 2 ^ e ≤ 2 ^ e / 2)
    (ht : x - m * 2 ^ e = 2 ^ e / 2 → Even m) : NearestEvenReal p x m e := by
  have hu := two_zpow_posR e
  have hab : |x - m * 2 ^ e| = x - m * 2 ^ e := abs_of_nonneg (by linarith)
  refine ⟨hm, ?_, ?_⟩
  · intro m' e' hm'
    rw [hab]
    rcases sig_le_or_geR (e := e) (e' := e') hp hm hm' with h | h
    · rw [abs_of_nonneg (by linarith)]; linarith
    · rw [abs_of_nonpos (by linarith)]; linarith
  · intro m' e' hm' heq hne
    rw [hab] at heq
    rcases sig_le_or_geR (e := e) (e' := e') hp hm hm' with h | h
    · rw [abs_of_nonneg (by linarith)] at heq
      exact absurd (by linarith) hne
    · rw [abs_of_nonpos (by linarith)] at heq
      apply ht; linarith

theorem nearest_upR {p m n : ℕ} {e e' : ℤ} {x : ℝ} (hp : 1 ≤ p) (hm : IsSig p m) (hn : IsSig p n)
    (hU : (n : ℝ) * 2 ^ e' = ((m : ℝ) + 1) * 2 ^ e)
    (hx : x ≤ ((m : ℝ) + 1) * 2 ^ e) (hh : ((m : ℝ) + 1) * 2 ^ e - x ≤ 2 ^ e / 2)
    (ht : ((m : ℝ) + 1) * 2 ^ e - x = 2 ^ e / 2 → Even n) : NearestEvenReal p x n e' := by
  have hu := two_zpow_posR e
  have hab : |x - n * 2 ^ e'| = ((m : ℝ) + 1) * 2 ^ e - x := by
    rw [hU, abs_of_nonpos (by linarith)]; ring
  refine ⟨hn, ?_, ?_⟩
  · intro m' e'' hm'
    rw [hab]
    rcases sig_le_or_geR (e := e) (e' := e'') hp hm hm' with h | h
    · rw [abs_of_nonneg (by linarith)]; linarith
    · rw [abs_of_nonpos (by linarith)]; linarith
  · intro m' e'' hm' heq hne
    rw [hab] at heq
    rcases sig_le_or_geR (e := e) (e' := e'') hp hm hm' with h | h
    · rw [abs_of_nonneg (by linarith)] at heq
      apply ht; linarith
    · rw [abs_of_nonpos (by linarith)] at heq
      exact absurd (by linarith) hne

theorem rndnPosR_spec {p : ℕ} (hp : 2 ≤ p) {a : ℝ} (ha : 0 < a) :
    NearestEvenReal p a (rndnPosR p a).1 (rndnPosR p a).2 := by
  have hp1 : 1 ≤ p := by omega
  obtain ⟨hs, l1, l2⟩ := floor_sigR hp1 ha
  obtain ⟨_, _, hv⟩ := scaledR_bounds hp1 ha
  have hu := two_zpow_posR (ulpExpR p a)
  obtain ⟨n1, n2, n3⟩ := succSig_spec hp1 (ulpExpR p a) hs
  have n2' : ((succSig p ⌊scaledR p a⌋.toNat (ulpExpR p a)).1 : ℝ) * 2 ^ (succSig p ⌊scaledR p a⌋.toNat (ulpExpR p a)).2
      = ((⌊scaledR p a⌋.toNat : ℝ) + 1) * 2 ^ ulpExpR p a := by
    have := congrArg (fun q : ℚ => (q : ℝ)) n2
    push_cast at this; exact this
  clear n2
  rw [rndnPosR]
  generalize hk : ⌊scaledR p a⌋.toNat = k at *
  generalize scaledR p a = t at *
  generalize ulpExpR p a = e at *
  split
  · rename_i hup
    refine nearest_upR hp1 hs n1 n2' ?_ ?_ ?_
    · rw [hv]; exact mul_le_mul_of_nonneg_right l2.le hu.le
    · have : (1 : ℝ) / 2 ≤ t - k := by rcases hup with h | h <;> linarith [h]
      rw [hv, ← sub_mul, div_eq_mul_one_div, mul_comm]
      exact mul_le_mul_of_nonneg_left (by linarith) hu.le
    · intro heq
      have : (k : ℝ) + 1 - t = 1 / 2 := by
        rw [hv, ← sub_mul] at heq
        have h3 : ((k : ℝ) + 1 - t) * 2 ^ e = 1 / 2 * 2 ^ e := by rw [heq]; ring
        exact mul_right_cancel₀ hu.ne' h3
      refine n3 ⟨?_, hp⟩
      rcases hup with h | h
      · linarith
      · exact h.2
  · rename_i hup
    push Not at hup
    refine nearest_downR hp1 hs ?_ ?_ ?_
    · rw [hv]; exact mul_le_mul_of_nonneg_right l1 hu.le
    · rw [hv, ← sub_mul, div_eq_mul_one_div, mul_comm]
      exact mul_le_mul_of_nonneg_left hup.1 hu.le
    · intro heq
      have : t - k = 1 / 2 := by
        rw [hv, ← sub_mul] at heq
        have h3 : (t - k) * 2 ^ e = 1 / 2 * 2 ^ e := by rw [heq]; ring
        exact mul_right_cancel₀ hu.ne' h3
      exact Nat.even_iff.mpr (by have := hup.2 this; omega)

end Mpfr

theorem ofMpfr_rndnR {E F : ℕ} (hE : 1 ≤ E) (hF : 1 ≤ F) (v : ℝ) :
    ∃ r : Fp E F, ofMpfr E F true (Mpfr.rndnR (F + 1) v) = some r ∧ RoundedReal E F v r.datum := by
  by_cases hv : v = 0
  · obtain ⟨r, hr, hd⟩ := ofMpfr_zero (E := E) (F := F) (by omega) hF false
    exact ⟨r, by rw [Mpfr.rndnR, if_pos hv, hr], by rw [RoundedReal, if_pos hv, hd]⟩
  · have hn := Mpfr.rndnPosR_spec (p := F + 1) (by omega) (abs_pos.mpr hv)
    have h := C47_of_mpfr hE hF true (decide (v < 0)) (Mpfr.rndnPosR (F + 1) |v|).2 hn.1
    rw [if_pos (Or.inr rfl)] at h
    obtain ⟨r, hr, hd⟩ := h
    refine ⟨r, ?_, ?_⟩
    · rw [Mpfr.rndnR, if_neg hv, ← hr]
    · rw [RoundedReal, if_neg hv]
      refine ⟨_, _, hn, ?_⟩
      rw [hd]

/-- On the rationals the rounding of reals is the rounding of rationals. -/
theorem nearestEvenReal_rat {p : ℕ} {q : ℚ} {m : ℕ} {e : ℤ} : NearestEvenReal p (q : ℝ) m e ↔ NearestEven p q m e := by
  unfold NearestEvenReal NearestEven
  have h1 : ∀ (m' : ℕ) (e' : ℤ), |(q : ℝ) - m' * 2 ^ e'| = ((|q - m' * 2 ^ e'| : ℚ) : ℝ) := by
    intro m' e'; push_cast; rfl
  have h2 : ∀ (m' : ℕ) (e' : ℤ), (m' : ℝ) * 2 ^ e' = (((m' : ℚ) * 2 ^ e' : ℚ) : ℝ) := by
    intro m' e'; push_cast; rfl
  simp only [h1, Rat.cast_le, Rat.cast_inj]
  simp only [h2, ne_eq, Rat.cast_inj]

theorem roundedReal_rat {E F : ℕ} {q : ℚ} (hq : q ≠ 0) {d : Datum} : RoundedReal E F (q : ℝ) d ↔ Rounded E F q d := by
  rw [RoundedReal, if_neg (by exact_mod_cast hq), Rounded]
  have : |(q : ℝ)| = ((|q| : ℚ) : ℝ) := by push_cast; rfl
  have hn : decide ((q : ℝ) < 0) = decide (q < 0) := by
    have : ((q : ℝ) < 0) ↔ q < 0 := by exact_mod_cast Iff.rfl
    simp [this]
  simp only [this, nearestEvenReal_rat, hn]

end Thls
