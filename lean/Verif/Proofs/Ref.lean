import Verif.Model.Ref
import Verif.Props.Flopoco

/-! # The MPFR reference functions: rounding -/

namespace Thls
open Spec

namespace Mpfr

theorem scaled_bounds {p : ℕ} (hp : 1 ≤ p) {a : ℚ} (ha : 0 < a) :
    (2 : ℚ) ^ (p - 1) ≤ scaled p a ∧ scaled p a < 2 ^ p ∧ a = scaled p a * 2 ^ ulpExp p a := by
  have h1 := Int.zpow_log_le_self (b := 2) (by norm_num) ha
  have h2 := Int.lt_zpow_succ_log_self (b := 2) (by norm_num) a
  push_cast at h1 h2
  have hu := two_zpow_pos (ulpExp p a)
  have e1 : (2 : ℚ) ^ (p - 1) * 2 ^ ulpExp p a = 2 ^ Int.log 2 a := by
    rw [← zpow_natCast, ← zpow_add₀ (by norm_num), ulpExp]; congr 1; omega
  have e2 : (2 : ℚ) ^ p * 2 ^ ulpExp p a = 2 ^ (Int.log 2 a + 1) := by
    rw [← zpow_natCast, ← zpow_add₀ (by norm_num), ulpExp]; congr 1; omega
  refine ⟨?_, ?_, ?_⟩
  · rw [scaled, le_div_iff₀ hu, e1]; exact h1
  · rw [scaled, div_lt_iff₀ hu, e2]; exact h2
  · rw [scaled, div_mul_cancel₀ _ hu.ne']

/-- The truncated significand. -/
theorem floor_sig {p : ℕ} (hp : 1 ≤ p) {a : ℚ} (ha : 0 < a) :
    IsSig p ⌊scaled p a⌋.toNat ∧ ((⌊scaled p a⌋.toNat : ℕ) : ℚ) ≤ scaled p a ∧
      scaled p a < ((⌊scaled p a⌋.toNat : ℕ) : ℚ) + 1 := by
  obtain ⟨h1, h2, _⟩ := scaled_bounds hp ha
  have h0 : 0 ≤ ⌊scaled p a⌋ := Int.floor_nonneg.mpr (le_trans (by positivity) h1)
  have hk : ((⌊scaled p a⌋.toNat : ℕ) : ℚ) = (⌊scaled p a⌋ : ℚ) := by
    have : ((⌊scaled p a⌋.toNat : ℕ) : ℤ) = ⌊scaled p a⌋ := Int.toNat_of_nonneg h0
    exact_mod_cast this
  have l1 := Int.floor_le (scaled p a)
  have l2 := Int.lt_floor_add_one (scaled p a)
  refine ⟨⟨?_, ?_⟩, by rw [hk]; exact l1, by rw [hk]; exact l2⟩
  · have : ((2 ^ (p - 1) : ℕ) : ℤ) ≤ ⌊scaled p a⌋ := Int.le_floor.mpr (by push_cast; exact h1)
    omega
  · have : ⌊scaled p a⌋ < ((2 ^ p : ℕ) : ℤ) := Int.floor_lt.mpr (by push_cast; exact h2)
    omega

/-- The next significand is a significand and its value is one unit more. -/
theorem succSig_spec {p k : ℕ} (hp : 1 ≤ p) (e : ℤ) (hk : IsSig p k) :
    IsSig p (succSig p k e).1 ∧ ((succSig p k e).1 : ℚ) * 2 ^ (succSig p k e).2 = ((k : ℚ) + 1) * 2 ^ e ∧
      (k % 2 = 1 ∧ 2 ≤ p → Even (succSig p k e).1) := by
  obtain ⟨k1, k2⟩ := hk
  have hpow : 2 ^ p = 2 * 2 ^ (p - 1) := by
    obtain ⟨q, rfl⟩ : ∃ q, p = q + 1 := ⟨p - 1, by omega⟩
    rw [Nat.add_sub_cancel, pow_succ]; ring
  rw [succSig]
  by_cases h : k + 1 = 2 ^ p
  · rw [if_pos h]
    refine ⟨⟨le_refl _, by simp only; omega⟩, ?_, ?_⟩
    · simp only
      have : (k : ℚ) + 1 = 2 * 2 ^ (p - 1) := by
        have : ((k + 1 : ℕ) : ℚ) = ((2 * 2 ^ (p - 1) : ℕ) : ℚ) := by rw [h, hpow]
        push_cast at this; exact this
      rw [this, two_zpow_succ]; push_cast; ring
    · rintro ⟨_, h2⟩
      simp only
      exact (Nat.even_pow.mpr ⟨even_two, by omega⟩)
  · rw [if_neg h]
    refine ⟨⟨by simp only; omega, by simp only; omega⟩, by push_cast; ring, ?_⟩
    rintro ⟨h1, _⟩
    exact Nat.even_iff.mpr (by simp only; omega)

theorem rndnPos_spec {p : ℕ} (hp : 2 ≤ p) {a : ℚ} (ha : 0 < a) :
    NearestEven p a (rndnPos p a).1 (rndnPos p a).2 := by
  have hp1 : 1 ≤ p := by omega
  obtain ⟨hs, l1, l2⟩ := floor_sig hp1 ha
  obtain ⟨_, _, hv⟩ := scaled_bounds hp1 ha
  have hu := two_zpow_pos (ulpExp p a)
  obtain ⟨n1, n2, n3⟩ := succSig_spec hp1 (ulpExp p a) hs
  rw [rndnPos]
  generalize hk : ⌊scaled p a⌋.toNat = k at *
  generalize scaled p a = t at *
  generalize ulpExp p a = e at *
  split
  · rename_i hup
    refine nearest_up hp1 hs n1 n2 ?_ ?_ ?_
    · rw [hv]; exact mul_le_mul_of_nonneg_right l2.le hu.le
    · have : (1 : ℚ) / 2 ≤ t - k := by rcases hup with h | h <;> linarith [h]
      rw [hv, ← sub_mul, div_eq_mul_one_div, mul_comm]
      exact mul_le_mul_of_nonneg_left (by linarith) hu.le
    · intro heq
      have : (k : ℚ) + 1 - t = 1 / 2 := by
        rw [hv, ← sub_mul] at heq
        have h3 : ((k : ℚ) + 1 - t) * 2 ^ e = 1 / 2 * 2 ^ e := by rw [heq]; ring
        exact mul_right_cancel₀ hu.ne' h3
      refine n3 ⟨?_, hp⟩
      rcases hup with h | h
      · linarith
      · exact h.2
  · rename_i hup
    push Not at hup
    refine nearest_down hp1 hs ?_ ?_ ?_
    · rw [hv]; exact mul_le_mul_of_nonneg_right l1 hu.le
    · rw [hv, ← sub_mul, div_eq_mul_one_div, mul_comm]
      exact mul_le_mul_of_nonneg_left hup.1 hu.le
    · intro heq
      have : t - k = 1 / 2 := by
        rw [hv, ← sub_mul] at heq
        have h3 : (t - k) * 2 ^ e = 1 / 2 * 2 ^ e := by rw [heq]; ring
        exact mul_right_cancel₀ hu.ne' h3
      exact Nat.even_iff.mpr (by have := hup.2 this; omega)

end Mpfr

/-- Converting back a rounded nonzero number gives the correctly rounded datum. -/
theorem ofMpfr_rndn {E F : ℕ} (hE : 1 ≤ E) (hF : 1 ≤ F) {v : ℚ} (hv : v ≠ 0) :
    ∃ r : Fp E F, ofMpfr E F true (Mpfr.rndn (F + 1) v) = some r ∧ Rounded E F v r.datum := by
  have hn := Mpfr.rndnPos_spec (p := F + 1) (by omega) (abs_pos.mpr hv)
  have h := C47_of_mpfr hE hF true (decide (v < 0)) (Mpfr.rndnPos (F + 1) |v|).2 hn.1
  rw [if_pos (Or.inr rfl)] at h
  obtain ⟨r, hr, hd⟩ := h
  exact ⟨r, by rw [Mpfr.rndn, if_neg hv, hr], _, _, hn, hd⟩

theorem ofMpfr_zero {E F : ℕ} (hE : 1 ≤ E) (hF : 1 ≤ F) (s : Bool) :
    ∃ r : Fp E F, ofMpfr E F true (.zero s) = some r ∧ r.datum = .zero s := by
  refine ⟨_, rfl, ?_⟩
  have : Fp.ofBits E F (concat (1 + E + F) 0 (concat (E + F) s.toNat 0)) = Fp.mk4 E F 0 s.toNat 0 0 := by
    rw [Fp.mk4]
    congr 1
    simp only [concat]
    ring_nf
  rw [this, Fp.mk4_datum (by decide) (by cases s <;> decide) (by positivity) (by positivity) hE hF, denote]
  cases s <;> rfl

theorem ofMpfr_inf {E F : ℕ} (hE : 1 ≤ E) (hF : 1 ≤ F) (s : Bool) :
    ∃ r : Fp E F, ofMpfr E F true (.inf s) = some r ∧ r.datum = .inf s := by
  obtain ⟨_, _, _, _, _, i1, i2, i3, _, _⟩ := C46_limits_values_partial (E := E) (F := F) hE hF
  refine ⟨_, rfl, ?_⟩
  cases s
  · simpa using i1
  · simpa using i2

theorem ofMpfr_nan {E F : ℕ} (hE : 1 ≤ E) (hF : 1 ≤ F) :
    ∃ r : Fp E F, ofMpfr E F true .nan = some r ∧ r.datum = .nan := by
  obtain ⟨_, _, _, _, _, i1, i2, i3, _, _⟩ := C46_limits_values_partial (E := E) (F := F) hE hF
  exact ⟨_, rfl, i3⟩

/-- Converting back anything that is not a number keeps the datum. -/
theorem ofMpfr_special {E F : ℕ} (hE : 1 ≤ E) (hF : 1 ≤ F) {m : Mpfr} {d : Datum} (hm : m.datum = d) (hd : ∀ w, d ≠ .num w) :
    ∃ r : Fp E F, ofMpfr E F true m = some r ∧ r.datum = d := by
  subst hm
  cases m with
  | nan => exact ofMpfr_nan hE hF
  | inf s => exact ofMpfr_inf hE hF s
  | zero s => exact ofMpfr_zero hE hF s
  | num s m e => exact absurd rfl (hd _)

/-- The MPFR numbers the reference functions read: the number case is nonzero. -/
def Mpfr.Ok : Mpfr → Prop
  | .num _ m _ => 0 < m
  | _ => True

theorem toMpfr_ok {E F : ℕ} (x : Fp E F) : (toMpfr x).Ok := by
  rw [toMpfr]
  split_ifs <;> simp [Mpfr.Ok]

theorem Mpfr.neg_eq {x : Mpfr} (h : x.Ok) : x.neg = x.datum.isNeg := by
  cases x with
  | num s m e =>
    have hm : (0 : ℚ) < m := by exact_mod_cast h
    have hp : (0 : ℚ) < m * 2 ^ e := by positivity
    cases s
    · simp only [neg, datum, Datum.isNeg]
      rw [eq_comm, decide_eq_false_iff_not]
      simp; positivity
    · simp only [neg, datum, Datum.isNeg]
      rw [eq_comm, decide_eq_true_iff]
      simp; exact hp
  | _ => rfl

theorem Mpfr.value_eq {x : Mpfr} {v : ℚ} (h : x.datum = .num v) : x.value = v := by
  cases x <;> simp_all [datum, value]

theorem Mpfr.num_ne_zero {x : Mpfr} (ok : x.Ok) {v : ℚ} (h : x.datum = .num v) : v ≠ 0 := by
  cases x with
  | num s m e =>
    have hm : (0 : ℚ) < m := by exact_mod_cast ok
    have hp : (0 : ℚ) < m * 2 ^ e := by positivity
    simp only [datum, Datum.num.injEq] at h
    rw [← h]
    refine mul_ne_zero (by cases s <;> norm_num) hp.ne'
  | _ => simp [datum] at h

end Thls
