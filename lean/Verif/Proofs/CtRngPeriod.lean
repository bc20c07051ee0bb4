import Verif.Proofs.CtRng
import Mathlib.NumberTheory.LucasPrimality
import Mathlib.Data.ZMod.Basic
import Mathlib.Tactic.IntervalCases

/-! # Periods of the compile-time generators -/

namespace Thls.Ct
open Spec

theorem pow_mod_four {a : ℕ} (ha : a % 4 = 1) (n : ℕ) : a ^ n % 4 = 1 := by
  induction n with
  | zero => rfl
  | succ n ih => rw [pow_succ, Nat.mul_mod, ih, ha]

theorem geo_parity {a : ℕ} (ha : a % 4 = 1) (n : ℕ) : geo a n % 2 = n % 2 := by
  induction n with
  | zero => rfl
  | succ n ih =>
    rw [geo, Nat.add_mod, Nat.mul_mod, ih]
    have : a % 2 = 1 := by omega
    rw [this]; omega

/-- `1 + a + ... + a^(n-1)` is divisible by the same powers of two as `n`, if `a` is one modulo four. -/
theorem two_pow_dvd_geo {a : ℕ} (ha : a % 4 = 1) (k n : ℕ) : 2 ^ k ∣ geo a n ↔ 2 ^ k ∣ n := by
  induction k generalizing n with
  | zero => simp
  | succ k ih =>
    have hp := geo_parity ha n
    rcases Nat.mod_two_eq_zero_or_one n with h | h
    · obtain ⟨m, rfl⟩ : ∃ m, n = 2 * m := ⟨n / 2, by omega⟩
      have e : geo a (2 * m) = geo a m * (1 + a ^ m) := by
        rw [two_mul, geo_add]; ring
      obtain ⟨j, hj⟩ : ∃ j, 1 + a ^ m = 2 * (2 * j + 1) := by
        have := pow_mod_four ha m
        exact ⟨(1 + a ^ m) / 4, by omega⟩
      rw [e, hj, pow_succ, mul_comm (2 ^ k) 2, show geo a m * (2 * (2 * j + 1)) = 2 * (geo a m * (2 * j + 1)) by ring,
        Nat.mul_dvd_mul_iff_left (by norm_num), Nat.mul_dvd_mul_iff_left (by norm_num), ← ih m]
      refine ⟨fun hd => ?_, fun hd => Dvd.dvd.mul_right hd _⟩
      refine Nat.Coprime.dvd_of_dvd_mul_right ?_ hd
      refine Nat.Coprime.pow_left k ?_
      exact (Nat.coprime_two_left).2 ⟨j, rfl⟩
    · constructor
      · intro hd
        have : 2 ∣ geo a n := dvd_trans (Dvd.intro_left (2 ^ k) (pow_succ 2 k).symm) hd
        omega
      · intro hd
        have : 2 ∣ n := dvd_trans (Dvd.intro_left (2 ^ k) (pow_succ 2 k).symm) hd
        omega

/-- The generator modulo a power of two comes back after `n` steps exactly if its modulus divides `n`. -/
theorem iterate_fixed_iff {a c x k : ℕ} (ha : a % 4 = 1) (hc : c % 2 = 1) (hk : 1 ≤ k) (hx : x < 2 ^ k) (n : ℕ) :
    (lcgStep a c (2 ^ k))^[n] x = x ↔ 2 ^ k ∣ n := by
  have h1 := iterate_modEq a c (2 ^ k) n x
  have hlt : (lcgStep a c (2 ^ k))^[n] x < 2 ^ k := iterate_lt (by positivity) hx
  obtain ⟨b, rfl⟩ : ∃ b, a = b + 1 := ⟨a - 1, by omega⟩
  have hg := pow_geo (b + 1) n
  have hpg : (b + 1) ^ n = 1 + b * geo (b + 1) n := by
    rw [add_mul, one_mul] at hg; omega
  have e : (b + 1) ^ n * x + c * geo (b + 1) n = x + geo (b + 1) n * (b * x + c) := by
    rw [hpg]; ring
  rw [e] at h1
  have hodd : Nat.Coprime (2 ^ k) (b * x + c) := by
    refine Nat.Coprime.pow_left k ?_
    rw [Nat.coprime_two_left, Nat.odd_iff]
    have : b % 2 = 0 := by omega
    rw [Nat.add_mod, Nat.mul_mod, this]; omega
  rw [← two_pow_dvd_geo ha k n]
  constructor
  · intro h
    rw [h] at h1
    have : 2 ^ k ∣ geo (b + 1) n * (b * x + c) := by
      have := (Nat.modEq_iff_dvd' (Nat.le_add_right x (geo (b + 1) n * (b * x + c)))).1 h1
      rwa [Nat.add_sub_cancel_left] at this
    exact hodd.dvd_of_dvd_mul_right this
  · intro h
    have h2 : x + geo (b + 1) n * (b * x + c) ≡ x [MOD 2 ^ k] := by
      have : geo (b + 1) n * (b * x + c) ≡ 0 [MOD 2 ^ k] := (Nat.modEq_zero_iff_dvd).2 (Dvd.dvd.mul_right h _)
      simpa using this.add_left x
    have := h1.trans h2
    rwa [Nat.ModEq, Nat.mod_eq_of_lt hlt, Nat.mod_eq_of_lt hx] at this

/-- An orbit that comes back only after multiples of `N` steps has `N` different states. -/
theorem orbit_inj {f : ℕ → ℕ} {N x : ℕ} {S : Finset ℕ} (hmem : ∀ n, f^[n] x ∈ S)
    (hfix : ∀ y ∈ S, ∀ n, f^[n] y = y ↔ N ∣ n) {i j : ℕ} (hi : i < N) (hj : j < N) (hij : f^[i] x = f^[j] x) : i = j := by
  wlog h : i ≤ j generalizing i j
  · exact (this hj hi hij.symm (by omega)).symm
  · have e : f^[j] x = f^[j - i] (f^[i] x) := by
      rw [← Function.iterate_add_apply]; congr 1; omega
    rw [e] at hij
    obtain ⟨k, hk⟩ := (hfix _ (hmem i) (j - i)).1 hij.symm
    rcases Nat.eq_zero_or_pos k with h0 | h0
    · subst h0; omega
    · have : N ≤ N * k := Nat.le_mul_of_pos_right N h0
      omega

/-- An orbit that comes back only after multiples of `N` steps and stays in a set of `N` elements fills the set. -/
theorem orbit_fills {f : ℕ → ℕ} {N x : ℕ} {S : Finset ℕ} (hS : S.card = N) (hmem : ∀ n, f^[n] x ∈ S)
    (hfix : ∀ y ∈ S, ∀ n, f^[n] y = y ↔ N ∣ n) {y : ℕ} (hy : y ∈ S) : ∃ n < N, f^[n] x = y := by
  have hinj : Set.InjOn (fun n => f^[n] x) (Finset.range N : Set ℕ) := by
    intro i hi j hj hij
    simp only [Finset.coe_range, Set.mem_Iio] at hi hj
    exact orbit_inj hmem hfix hi hj hij
  have hcard : ((Finset.range N).image fun n => f^[n] x).card = N := by
    rw [Finset.card_image_of_injOn hinj, Finset.card_range]
  have hsub : (Finset.range N).image (fun n => f^[n] x) ⊆ S := by
    intro z hz
    obtain ⟨n, -, rfl⟩ := Finset.mem_image.1 hz
    exact hmem n
  have heq := Finset.eq_of_subset_of_card_le hsub (by rw [hcard, hS])
  rw [← heq] at hy
  obtain ⟨n, hn, h⟩ := Finset.mem_image.1 hy
  exact ⟨n, Finset.mem_range.1 hn, h⟩

/-- A multiplier whose powers are known is a generator of the non-zero residues. -/
theorem order_of_table {a m : ℕ} (hm : 2 ≤ m) (h1 : a ^ (m - 1) ≡ 1 [MOD m])
    (hd : ∀ q, q.Prime → q ∣ m - 1 → ¬ a ^ ((m - 1) / q) ≡ 1 [MOD m]) :
    m.Prime ∧ ∀ n, a ^ n ≡ 1 [MOD m] ↔ m - 1 ∣ n := by
  have e : ∀ n, (a : ZMod m) ^ n = 1 ↔ a ^ n ≡ 1 [MOD m] := by
    intro n
    rw [← ZMod.natCast_eq_natCast_iff]; push_cast; rfl
  have hp : m.Prime := lucas_primality m (a : ZMod m) ((e _).2 h1) (fun q hq hqd h => hd q hq hqd ((e _).1 h))
  refine ⟨hp, fun n => ?_⟩
  have ho : orderOf (a : ZMod m) = m - 1 :=
    orderOf_eq_of_pow_and_pow_div_prime (by omega) ((e _).2 h1) (fun q hq hqd h => hd q hq hqd ((e _).1 h))
  rw [← e, ← orderOf_dvd_iff_pow_eq_one, ho]

end Thls.Ct
