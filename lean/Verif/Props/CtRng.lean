import Verif.Proofs.CtRng

/-! # C39: skipping ahead in the compile-time generators -/

namespace Thls.Ct
open Spec

/-- C39: for the generator modulo `2^32` and any parameters, skipping forward is stepping that many times. -/
theorem C39_lcg_forward (a c : ℕ) {s : ℕ} (hs : s < 2 ^ 32) (n : ℕ) :
    lcgSkip s a c n = (lcgStep a c (2 ^ 32))^[n] s := by
  have hn : ¬ ((n : ℤ) < 0) := by omega
  rw [lcgSkip, lcgMultiplier, if_neg hn, Int.toNat_natCast, lcgSkip_nat s a c n hs]

/-- Skipping by any `int` distance is stepping by the distance modulo `2^32`. -/
theorem lcgSkip_eq {a c s : ℕ} (ha : a % 2 = 1) (hs : s < 2 ^ 32) {d : ℤ} (hd : -2 ^ 32 ≤ d) :
    lcgSkip s a c d = (lcgStep a c (2 ^ 32))^[(d % 2 ^ 32).toNat] s := by
  rw [lcgSkip, lcgMultiplier, lcgSkip_nat s a c _ hs]
  by_cases h : d < 0
  · rw [if_pos h]
    by_cases h' : d = -2 ^ 32
    · subst h'; rfl
    · congr 1
      have : d % 2 ^ 32 = 2 ^ 32 + d := by omega
      rw [this]
  · rw [if_neg h]
    have e : (d % 2 ^ 32).toNat = d.toNat % 2 ^ 32 := by omega
    rw [e, iterate_mod ha hs]

/-- C39: for the generator modulo `2^32` with any odd multiplier (the library's is 1664525), skips by any `int`
distances, positive or negative, compose additively. -/
theorem C39_lcg_additive {a c s : ℕ} (ha : a % 2 = 1) (hs : s < 2 ^ 32) {d e : ℤ}
    (hd : -2 ^ 31 ≤ d ∧ d < 2 ^ 31) (he : -2 ^ 31 ≤ e ∧ e < 2 ^ 31) :
    lcgSkip (lcgSkip s a c d) a c e = lcgSkip s a c (d + e) := by
  have h1 : lcgSkip s a c d < 2 ^ 32 := Nat.mod_lt _ (by positivity)
  rw [lcgSkip_eq ha h1 (by omega), lcgSkip_eq ha hs (by omega), lcgSkip_eq ha hs (by omega), ← Function.iterate_add_apply]
  have e1 : ((d + e) % 2 ^ 32).toNat = ((e % 2 ^ 32).toNat + (d % 2 ^ 32).toNat) % 2 ^ 32 := by omega
  rw [e1, iterate_mod ha hs]

/-- C39: a negative skip undoes the positive one. -/
theorem C39_lcg_undo {a c s : ℕ} (ha : a % 2 = 1) (hs : s < 2 ^ 32) {n : ℕ} (hn : n < 2 ^ 31) :
    lcgSkip (lcgSkip s a c n) a c (-n) = s ∧ lcgSkip (lcgSkip s a c (-n)) a c n = s := by
  have h0 : lcgSkip s a c 0 = s := C39_lcg_forward a c hs 0
  constructor
  · rw [C39_lcg_additive ha hs (by omega) (by omega), add_neg_cancel, h0]
  · rw [C39_lcg_additive ha hs (by omega) (by omega), neg_add_cancel, h0]

/-- The library's generator meets the hypotheses. -/
example (s : ℕ) (n : ℕ) (hn : n < 2 ^ 31) : lcgSkip (lcgSkip (quickAndDirty s) lcgA lcgC n) lcgA lcgC (-n) = quickAndDirty s :=
  (C39_lcg_undo (by decide) (Nat.mod_lt _ (by positivity)) hn).1

/-- C39: distinct `unsigned` seeds give generators that differ after every number of steps. -/
theorem C39_quick_seed {s t : ℕ} (hs : s < 2 ^ 32) (ht : t < 2 ^ 32) {n : ℕ} (hn : n < 2 ^ 31)
    (h : lcgSkip (quickAndDirty s) lcgA lcgC n = lcgSkip (quickAndDirty t) lcgA lcgC n) : s = t := by
  have es : quickAndDirty s = s := Nat.mod_eq_of_lt hs
  have et : quickAndDirty t = t := Nat.mod_eq_of_lt ht
  rw [es, et] at h
  have h1 := (C39_lcg_undo (a := lcgA) (c := lcgC) (by decide) hs hn).1
  rwa [h, (C39_lcg_undo (a := lcgA) (c := lcgC) (by decide) ht hn).1, eq_comm] at h1

/-- C39: the period of the generator divides `2^32` steps, whatever the seed. -/
theorem C39_lcg_period {a c s : ℕ} (ha : a % 2 = 1) (hs : s < 2 ^ 32) : (lcgStep a c (2 ^ 32))^[2 ^ 32] s = s :=
  iterate_period ha hs

/-- With an even multiplier a negative skip is not the inverse of the positive one: the states 0 and 2^31 have
the same successor. -/
theorem C39_lcg_even_no_undo {a c : ℕ} (ha : a % 2 = 0) :
    ¬ ∀ s < 2 ^ 32, lcgSkip (lcgSkip s a c 1) a c (-1) = s := by
  intro h
  have e : lcgSkip (2 ^ 31) a c 1 = lcgSkip 0 a c 1 := by
    have h1 := C39_lcg_forward a c (s := 2 ^ 31) (by norm_num) 1
    have h2 := C39_lcg_forward a c (s := 0) (by norm_num) 1
    rw [Nat.cast_one] at h1 h2
    rw [h1, h2]
    simp only [Function.iterate_one, lcgStep]
    obtain ⟨k, hk⟩ : 2 ∣ a := by omega
    rw [hk, show 2 * k * 2 ^ 31 + c = 2 * k * 0 + c + 2 ^ 32 * k by ring, Nat.add_mul_mod_self_left]
  have h3 := h (2 ^ 31) (by norm_num)
  rw [e, h 0 (by norm_num)] at h3
  omega

/-- The multiplier and modulus of the two generators modulo a prime: `2^32 - 5` and `2^31 - 1`. -/
def PrimeGenerator (a m : ℕ) : Prop := (a = 1588635695 ∧ m = 2 ^ 32 - 5) ∨ (a = 16807 ∧ m = 2 ^ 31 - 1)

theorem PrimeGenerator.inv {a m : ℕ} (h : PrimeGenerator a m) : ∃ ai, invMod a m = some ai := by
  rcases h with ⟨rfl, rfl⟩ | ⟨rfl, rfl⟩
  · exact ⟨_, rfl⟩
  · exact ⟨_, rfl⟩

/-- C39: for both generators modulo a prime, skipping forward is stepping that many times. -/
theorem C39_p_forward {a m s : ℕ} (h : PrimeGenerator a m) (hs : s < m) (n : ℕ) :
    pSkip s a m n = some ((lcgStep a 0 m)^[n] s) := by
  obtain ⟨ai, hi⟩ := h.inv
  exact pSkip_nonneg hi hs n

/-- C39: for both generators modulo a prime, skips by positive or negative distances compose additively. -/
theorem C39_p_additive {a m s : ℕ} (h : PrimeGenerator a m) (hs : s < m) {d e : ℤ} (hd : -2 ^ 31 < d)
    (he : -2 ^ 31 < e) (hde : -2 ^ 31 < d + e) :
    ∃ t, pSkip s a m d = some t ∧ t < m ∧ pSkip t a m e = pSkip s a m (d + e) := by
  obtain ⟨ai, hi⟩ := h.inv
  refine ⟨_, pSkip_eq hi hs hd, zskip_lt d hs, ?_⟩
  rw [pSkip_eq hi (zskip_lt d hs) he, pSkip_eq hi hs hde, zskip_add hi hs]

/-- C39: for both generators modulo a prime, a negative skip undoes the positive one and conversely. -/
theorem C39_p_undo {a m s : ℕ} (h : PrimeGenerator a m) (hs : s < m) {d : ℤ} (hd : -2 ^ 31 < d ∧ d < 2 ^ 31) :
    ∃ t, pSkip s a m d = some t ∧ t < m ∧ pSkip t a m (-d) = some s := by
  obtain ⟨t, h1, h2, h3⟩ := C39_p_additive h hs (d := d) (e := -d) (by omega) (by omega) (by omega)
  refine ⟨t, h1, h2, ?_⟩
  rw [h3, add_neg_cancel]
  exact C39_p_forward h hs 0

/-- C39: from a seed the library accepts, no skip reaches the fixed point zero. -/
theorem C39_p_nonzero {a m s t : ℕ} (h : PrimeGenerator a m) (hs : s < m) (h0 : s ≠ 0) {d : ℤ}
    (hd : -2 ^ 31 < d ∧ d < 2 ^ 31) (ht : pSkip s a m d = some t) : t ≠ 0 := by
  obtain ⟨t', h1, -, h3⟩ := C39_p_undo h hs hd
  rw [ht] at h1; cases h1
  rintro rfl
  apply h0
  unfold pSkip at h3
  cases hp : pMultiplier (-d) a m with
  | none => rw [hp] at h3; simp at h3
  | some v =>
    rw [hp] at h3
    simp only [Option.map_some, Nat.zero_mul, u64, u32, Nat.zero_mod, Option.some.injEq] at h3
    exact h3.symm

/-- Seeds are accepted unless they are a multiple of the modulus, and are then a state below it. -/
theorem C39_p_seed (s : ℕ) :
    (s % (2 ^ 31 - 1) ≠ 0 → minstdrand0 s = some (s % (2 ^ 31 - 1))) ∧ (s % (2 ^ 31 - 1) = 0 → minstdrand0 s = none) ∧
    (s % (2 ^ 32 - 5) ≠ 0 → lcgMod2y32m5 s = some (s % (2 ^ 32 - 5))) ∧ (s % (2 ^ 32 - 5) = 0 → lcgMod2y32m5 s = none) := by
  have e1 : pM2 = 2 ^ 31 - 1 := rfl
  have e2 : pM1 = 2 ^ 32 - 5 := rfl
  rw [minstdrand0, lcgMod2y32m5, e1, e2]
  refine ⟨fun h => if_pos h, fun h => if_neg (fun hn => hn h), fun h => if_pos h, fun h => if_neg (fun hn => hn h)⟩

/-- The shortest distance has no opposite in `int`: skipping by it does not compile. -/
theorem C39_p_int_min (s a m : ℕ) : pSkip s a m (-2 ^ 31) = none := by
  simp [pSkip, pMultiplier]

/-- **C39.** The values the library compares against at compile time. ct_rng_lcg_mod_2y32.hpp:110-113,
ct_rng_lcg_mod_p.hpp:113-116,123-126. -/
theorem C39_listed_values : lcgSkip 949333985 lcgA lcgC 1 = 3977611212 ∧ lcgSkip 949333985 lcgA lcgC 2 = 495853755 ∧
    lcgSkip 949333985 lcgA lcgC 19937 = 513342252 ∧ lcgSkip 949333985 lcgA lcgC (2 ^ 24) = 563458017 := by
  decide +kernel

example : pSkip 2013771743 pA2 pM2 1 = some 1119407881 ∧ pSkip 2013771743 pA2 pM2 2 = some 1931508247 ∧
    pSkip 2013771743 pA2 pM2 19937 = some 1009599722 ∧ pSkip 2013771743 pA2 pM2 (2 ^ 24) = some 246285303 := by
  decide +kernel

example : pSkip 3922919429 pA1 pM1 1 = some 4020269147 ∧ pSkip 3922919429 pA1 pM1 2 = some 2884350374 ∧
    pSkip 3922919429 pA1 pM1 19937 = some 3384465501 ∧ pSkip 3922919429 pA1 pM1 (2 ^ 24) = some 906608749 := by
  decide +kernel

end Thls.Ct
