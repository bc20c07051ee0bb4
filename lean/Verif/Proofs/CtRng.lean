import Verif.Model.CtRng
import Verif.SpecCt
import Mathlib.Data.Int.ModEq
import Mathlib.Data.Nat.ModEq
import Mathlib.Algebra.Order.Ring.Nat
import Mathlib.Tactic.Ring
import Mathlib.Tactic.Linarith
import Mathlib.Tactic.NormNum

/-! # Lemmas about the compile-time generators -/

namespace Thls.Ct
open Spec

/-- `1 + A + ... + A^(n-1)`. -/
def geo (a : ℕ) : ℕ → ℕ
  | 0 => 0
  | n + 1 => 1 + a * geo a n

theorem geo_add (a m n : ℕ) : geo a (m + n) = geo a m + a ^ m * geo a n := by
  induction m with
  | zero => simp [geo]
  | succ m ih => rw [show m + 1 + n = (m + n) + 1 by ring, geo, geo, ih, pow_succ]; ring

theorem geo_succ' (a n : ℕ) : geo a (n + 1) = geo a n + a ^ n := by
  rw [geo_add]; simp [geo]

theorem modEq_of_eq {m a b : ℕ} (h : a = b) : a ≡ b [MOD m] := h ▸ rfl

theorem iterate_modEq (a c m n x : ℕ) : (lcgStep a c m)^[n] x ≡ a ^ n * x + c * geo a n [MOD m] := by
  induction n with
  | zero => simp [geo]; rfl
  | succ n ih =>
    rw [Function.iterate_succ_apply']
    refine (Nat.mod_modEq _ _).trans ?_
    have := (ih.mul_left a).add_right c
    refine this.trans ?_
    rw [geo, pow_succ]
    exact modEq_of_eq (by ring)

theorem iterate_lt {a c m n x : ℕ} (hm : 0 < m) (hx : x < m) : (lcgStep a c m)^[n] x < m := by
  cases n with
  | zero => exact hx
  | succ n => rw [Function.iterate_succ_apply']; exact Nat.mod_lt _ hm

theorem u32_modEq (x : ℕ) : u32 x ≡ x [MOD 2 ^ 32] := Nat.mod_modEq _ _

theorem lcgMultiplierNat_spec (n a c : ℕ) : (lcgMultiplierNat n a c).1 ≡ a ^ n [MOD 2 ^ 32] ∧
    (lcgMultiplierNat n a c).2 ≡ c * geo a n [MOD 2 ^ 32] := by
  induction n using Nat.strong_induction_on with
  | _ n ih =>
    rw [lcgMultiplierNat]
    by_cases h0 : n = 0
    · subst h0; simp [geo, Nat.ModEq]
    · by_cases h1 : n = 1
      · subst h1; simp [geo, Nat.ModEq]
      · rw [if_neg h0, if_neg h1]
        obtain ⟨i1, i2⟩ := ih (n / 2) (by omega)
        generalize lcgMultiplierNat (n / 2) a c = p at i1 i2
        have hA : u32 (p.1 * p.1) ≡ a ^ (n / 2 + n / 2) [MOD 2 ^ 32] := by
          rw [pow_add]; exact (u32_modEq _).trans (i1.mul i1)
        have hC : u32 (p.1 * p.2 + p.2) ≡ c * geo a (n / 2 + n / 2) [MOD 2 ^ 32] := by
          rw [geo_add]
          refine (u32_modEq _).trans (((i1.mul i2).add i2).trans ?_)
          exact modEq_of_eq (by ring)
        rcases Nat.mod_two_eq_zero_or_one n with h | h
        · have hn : n / 2 + n / 2 = n := by omega
          rw [hn] at hA hC
          simp only [h, if_true, mul_one, mul_zero, zero_add]
          exact ⟨(u32_modEq _).trans hA, (u32_modEq _).trans hC⟩
        · have hn : n = n / 2 + n / 2 + 1 := by omega
          have hne : ¬ ((1 : ℕ) = 0) := by omega
          simp only [h, if_neg hne]
          constructor
          · refine (u32_modEq _).trans ?_
            conv_rhs => rw [hn, pow_succ]
            exact hA.mul_right a
          · refine (u32_modEq _).trans ?_
            conv_rhs => rw [hn, geo_succ']
            refine ((hA.mul_right c).add hC).trans ?_
            exact modEq_of_eq (by ring)

theorem geo_two_pow {a : ℕ} (ha : a % 2 = 1) (n : ℕ) : 2 ^ n ∣ geo a (2 ^ n) := by
  induction n with
  | zero => simp
  | succ n ih =>
    rw [pow_succ, mul_two, geo_add, show geo a (2 ^ n) + a ^ 2 ^ n * geo a (2 ^ n) = geo a (2 ^ n) * (1 + a ^ 2 ^ n) by ring,
      ← mul_two]
    refine Nat.mul_dvd_mul ih ?_
    have : a ^ 2 ^ n % 2 = 1 := by simp [Nat.pow_mod, ha]
    omega

theorem pow_geo (a n : ℕ) : a ^ n + geo a n = 1 + a * geo a n := by
  rw [add_comm, ← geo_succ', geo]

theorem pow_two_pow {a : ℕ} (ha : a % 2 = 1) (n : ℕ) : a ^ 2 ^ n ≡ 1 [MOD 2 ^ n] := by
  have h := geo_two_pow ha n
  have e := pow_geo a (2 ^ n)
  have h0 : geo a (2 ^ n) ≡ 0 [MOD 2 ^ n] := (Nat.modEq_zero_iff_dvd).mpr h
  have h1 : a ^ 2 ^ n + geo a (2 ^ n) ≡ a ^ 2 ^ n + 0 [MOD 2 ^ n] := h0.add_left _
  have h2 : 1 + a * geo a (2 ^ n) ≡ 1 + a * 0 [MOD 2 ^ n] := (h0.mul_left a).add_left 1
  rw [e] at h1
  simpa using h1.symm.trans h2

theorem iterate_period {a c x : ℕ} (ha : a % 2 = 1) (hx : x < 2 ^ 32) : (lcgStep a c (2 ^ 32))^[2 ^ 32] x = x := by
  have h := iterate_modEq a c (2 ^ 32) (2 ^ 32) x
  have h1 := (pow_two_pow ha 32).mul_right x
  have h2 := ((Nat.modEq_zero_iff_dvd).mpr (geo_two_pow ha 32)).mul_left c
  have h3 := h.trans (h1.add h2)
  rw [one_mul, mul_zero, add_zero] at h3
  exact Nat.ModEq.eq_of_lt_of_lt h3 (iterate_lt (by positivity) hx) hx

theorem iterate_mul_period {a c x : ℕ} (ha : a % 2 = 1) (hx : x < 2 ^ 32) (k : ℕ) :
    (lcgStep a c (2 ^ 32))^[2 ^ 32 * k] x = x := by
  induction k with
  | zero => rfl
  | succ k ih => rw [Nat.mul_succ, Function.iterate_add_apply, iterate_period ha hx, ih]

theorem iterate_mod {a c x : ℕ} (ha : a % 2 = 1) (hx : x < 2 ^ 32) (n : ℕ) :
    (lcgStep a c (2 ^ 32))^[n % 2 ^ 32] x = (lcgStep a c (2 ^ 32))^[n] x := by
  conv_rhs => rw [← Nat.mod_add_div n (2 ^ 32), Function.iterate_add_apply, iterate_mul_period ha hx]

theorem lcgSkip_nat (s a c n : ℕ) (hs : s < 2 ^ 32) :
    u32 (s * (lcgMultiplierNat n a c).1 + (lcgMultiplierNat n a c).2) = (lcgStep a c (2 ^ 32))^[n] s := by
  obtain ⟨h1, h2⟩ := lcgMultiplierNat_spec n a c
  have h3 := (h1.mul_left s).add h2
  have h4 := iterate_modEq a c (2 ^ 32) n s
  refine Nat.ModEq.eq_of_lt_of_lt ?_ (Nat.mod_lt _ (by positivity)) (iterate_lt (by positivity) hs)
  refine (u32_modEq _).trans (h3.trans ?_)
  rw [mul_comm s]; exact h4.symm

/-! ## The generators modulo a prime -/

theorem invMod_spec {a m ai : ℕ} (h : invMod a m = some ai) :
    a * ai ≡ 1 [MOD m] ∧ 2 ≤ m ∧ m < 2 ^ 32 ∧ a < 2 ^ 32 ∧ ai < 2 ^ 32 ∧ invMod ai m = some a := by
  unfold invMod at h
  split_ifs at h with h1 h2 h3 h4 <;> cases h
  · obtain ⟨rfl, rfl⟩ := h1; decide
  · obtain ⟨rfl, rfl⟩ := h2; decide
  · obtain ⟨rfl, rfl⟩ := h3; decide
  · obtain ⟨rfl, rfl⟩ := h4; decide

theorem mulmod_exact {m x y : ℕ} (hm0 : 0 < m) (hm : m < 2 ^ 32) (hx : x < 2 ^ 32) (hy : y < 2 ^ 32) :
    u64 (x * y) % m = x * y % m ∧ u32 (u64 (x * y) % m) = x * y % m := by
  have h64 : u64 (x * y) = x * y := Nat.mod_eq_of_lt (by
    calc x * y < 2 ^ 32 * 2 ^ 32 := Nat.mul_lt_mul'' hx hy
      _ = 2 ^ 64 := by norm_num)
  rw [h64]
  exact ⟨rfl, Nat.mod_eq_of_lt (lt_trans (Nat.mod_lt _ hm0) hm)⟩

/-- The last factor of the multiplier recursion. -/
theorem pStep_spec {a m p n : ℕ} (hm0 : 0 < m) (hm : m < 2 ^ 32) (ha : a < 2 ^ 32) (hp : p < m) (hpa : p ≡ a ^ (n / 2) [MOD m]) :
    u32 (u64 (u64 (p * p) % m * (if n % 2 = 1 then a else 1)) % m) < m ∧
    u32 (u64 (u64 (p * p) % m * (if n % 2 = 1 then a else 1)) % m) ≡ a ^ n [MOD m] := by
  have hp32 := lt_trans hp hm
  have hf : (if n % 2 = 1 then a else 1) < 2 ^ 32 := by split_ifs <;> omega
  rw [(mulmod_exact hm0 hm hp32 hp32).1, (mulmod_exact hm0 hm (lt_trans (Nat.mod_lt _ hm0) hm) hf).2]
  refine ⟨Nat.mod_lt _ hm0, (Nat.mod_modEq _ _).trans ?_⟩
  have h1 : p * p % m ≡ a ^ (n / 2 + n / 2) [MOD m] := by
    rw [pow_add]; exact (Nat.mod_modEq _ _).trans (hpa.mul hpa)
  rcases Nat.mod_two_eq_zero_or_one n with h | h
  · rw [if_neg (by omega), mul_one]
    rwa [show n / 2 + n / 2 = n by omega] at h1
  · rw [if_pos h]
    conv_rhs => rw [show n = n / 2 + n / 2 + 1 by omega, pow_succ]
    exact h1.mul_right a

theorem pMultiplierNat_spec {a m ai : ℕ} (h : invMod a m = some ai) (n : ℕ) :
    ∃ v, pMultiplierNat n a m = some v ∧ v < m ∧ v ≡ a ^ n [MOD m] := by
  obtain ⟨-, h2, h3, h4, -, -⟩ := invMod_spec h
  induction n using Nat.strong_induction_on with
  | _ n ih =>
    rw [pMultiplierNat]
    by_cases h0 : n = 0
    · subst h0; exact ⟨1, by simp, by omega, by simp [Nat.ModEq]⟩
    · obtain ⟨p, hp, hpm, hpa⟩ := ih (n / 2) (by omega)
      rw [if_neg h0, h, Option.bind_some, hp, Option.map_some]
      exact ⟨_, rfl, pStep_spec (by omega) h3 h4 hpm hpa⟩

theorem pSkip_nonneg {a m ai s : ℕ} (h : invMod a m = some ai) (hs : s < m) (n : ℕ) :
    pSkip s a m n = some ((lcgStep a 0 m)^[n] s) := by
  obtain ⟨-, h2, h3, h4, -, -⟩ := invMod_spec h
  obtain ⟨v, hv, hvm, hva⟩ := pMultiplierNat_spec h n
  have hn : ¬ ((n : ℤ) < 0) := by omega
  rw [pSkip, pMultiplier, if_neg hn, Int.toNat_natCast, hv, Option.map_some, (mulmod_exact (by omega) h3 (by omega) (by omega)).2]
  congr 1
  refine Nat.ModEq.eq_of_lt_of_lt ?_ (Nat.mod_lt _ (by omega)) (iterate_lt (by omega) hs)
  have h5 := iterate_modEq a 0 m n s
  rw [zero_mul, add_zero] at h5
  refine (Nat.mod_modEq _ _).trans ((hva.mul_left s).trans ?_)
  rw [mul_comm]; exact h5.symm

theorem pSkip_neg {a m ai s : ℕ} (h : invMod a m = some ai) (hs : s < m) (n : ℕ) (hn : n < 2 ^ 31) :
    pSkip s a m (-n) = some ((lcgStep ai 0 m)^[n] s) := by
  obtain ⟨-, h2, h3, h4, h5, h6⟩ := invMod_spec h
  by_cases h0 : n = 0
  · subst h0; exact pSkip_nonneg h hs 0
  · obtain ⟨p, hp, hpm, hpa⟩ := pMultiplierNat_spec h6 (n / 2)
    have hneg : (-(n : ℤ)) < 0 := by omega
    have hge : ¬ (-(n : ℤ) ≤ -2 ^ 31) := by omega
    have hto : (- -(n : ℤ)).toNat = n := by omega
    rw [pSkip, pMultiplier, if_pos hneg, if_neg hge, h, Option.bind_some, hto, hp, Option.map_some, Option.map_some]
    obtain ⟨q1, q2⟩ := pStep_spec (n := n) (by omega) h3 h5 hpm hpa
    simp only
    generalize u32 (u64 (u64 (p * p) % m * (if n % 2 = 1 then ai else 1)) % m) = v at q1 q2
    rw [(mulmod_exact (by omega) h3 (by omega) (by omega)).2]
    congr 1
    refine Nat.ModEq.eq_of_lt_of_lt ?_ (Nat.mod_lt _ (by omega)) (iterate_lt (by omega) hs)
    have h7 := iterate_modEq ai 0 m n s
    rw [zero_mul, add_zero] at h7
    refine (Nat.mod_modEq _ _).trans ((q2.mul_left s).trans ?_)
    rw [mul_comm]; exact h7.symm

theorem pStep_inv {a m ai x : ℕ} (h : invMod a m = some ai) (hx : x < m) : lcgStep ai 0 m (lcgStep a 0 m x) = x := by
  obtain ⟨h1, h2, -⟩ := invMod_spec h
  unfold lcgStep
  refine Nat.ModEq.eq_of_lt_of_lt ?_ (Nat.mod_lt _ (by omega)) hx
  refine (Nat.mod_modEq _ _).trans ?_
  rw [add_zero, add_zero]
  refine ((Nat.mod_modEq (a * x) m).mul_left ai).trans ?_
  have := h1.mul_right x
  rw [one_mul] at this
  refine Nat.ModEq.trans (modEq_of_eq ?_) this
  ring

theorem iterate_inv {a m ai x : ℕ} (h : invMod a m = some ai) (hx : x < m) (n : ℕ) :
    (lcgStep ai 0 m)^[n] ((lcgStep a 0 m)^[n] x) = x := by
  have hm : 0 < m := by omega
  induction n with
  | zero => rfl
  | succ n ih => rw [Function.iterate_succ_apply' (lcgStep a 0 m), Function.iterate_succ_apply, pStep_inv h (iterate_lt hm hx), ih]

/-- Skipping as an action of the integers. -/
def zskip (a ai m : ℕ) (d : ℤ) (x : ℕ) : ℕ :=
  if 0 ≤ d then (lcgStep a 0 m)^[d.toNat] x else (lcgStep ai 0 m)^[(-d).toNat] x

theorem pSkip_eq {a m ai s : ℕ} (h : invMod a m = some ai) (hs : s < m) {d : ℤ} (hd : -2 ^ 31 < d) :
    pSkip s a m d = some (zskip a ai m d s) := by
  unfold zskip
  by_cases h0 : 0 ≤ d
  · rw [if_pos h0]
    have := pSkip_nonneg h hs d.toNat
    rwa [Int.toNat_of_nonneg h0] at this
  · rw [if_neg h0]
    have := pSkip_neg h hs (-d).toNat (by omega)
    rwa [Int.toNat_of_nonneg (by omega), neg_neg] at this

theorem zskip_lt {a ai m x : ℕ} (d : ℤ) (hx : x < m) : zskip a ai m d x < m := by
  unfold zskip; split_ifs <;> exact iterate_lt (by omega) hx

theorem zskip_nat (a ai m n x : ℕ) : zskip a ai m n x = (lcgStep a 0 m)^[n] x := by
  simp [zskip]

theorem zskip_negnat (a ai m n x : ℕ) : zskip a ai m (-n) x = (lcgStep ai 0 m)^[n] x := by
  unfold zskip
  by_cases h : n = 0
  · subst h; simp
  · rw [if_neg (by omega)]; simp

/-- A forward skip after a backward one, and conversely. -/
theorem iterate_mixed {a m ai x : ℕ} (h : invMod a m = some ai) (hx : x < m) (j k : ℕ) :
    (lcgStep ai 0 m)^[k] ((lcgStep a 0 m)^[j] x) = zskip a ai m (j - k) x := by
  have hm : 0 < m := by omega
  rcases le_total k j with hkj | hkj
  · obtain ⟨i, rfl⟩ := Nat.exists_eq_add_of_le hkj
    rw [show ((k + i : ℕ) : ℤ) - k = (i : ℕ) by push_cast; ring, zskip_nat, Function.iterate_add_apply, iterate_inv h (iterate_lt hm hx)]
  · obtain ⟨i, rfl⟩ := Nat.exists_eq_add_of_le hkj
    rw [show (j : ℤ) - ((j + i : ℕ) : ℤ) = -(i : ℕ) by push_cast; ring, zskip_negnat, add_comm j i, Function.iterate_add_apply, iterate_inv h hx]

theorem zskip_swap (a ai m : ℕ) (d : ℤ) (x : ℕ) : zskip ai a m (-d) x = zskip a ai m d x := by
  rcases le_total 0 d with h | h
  · obtain ⟨n, rfl⟩ := Int.eq_ofNat_of_zero_le h
    rw [zskip_negnat, zskip_nat]
  · obtain ⟨n, hn⟩ := Int.eq_ofNat_of_zero_le (neg_nonneg.mpr h)
    rw [show d = -(n : ℤ) by omega, zskip_negnat, neg_neg, zskip_nat]

theorem zskip_add {a m ai x : ℕ} (h : invMod a m = some ai) (hx : x < m) (d e : ℤ) :
    zskip a ai m e (zskip a ai m d x) = zskip a ai m (d + e) x := by
  have h' := (invMod_spec h).2.2.2.2.2
  rcases le_total 0 d with hd | hd <;> rcases le_total 0 e with he | he
  · obtain ⟨j, rfl⟩ := Int.eq_ofNat_of_zero_le hd
    obtain ⟨k, rfl⟩ := Int.eq_ofNat_of_zero_le he
    rw [zskip_nat, zskip_nat, ← Function.iterate_add_apply, ← Nat.cast_add, zskip_nat, add_comm]
  · obtain ⟨j, rfl⟩ := Int.eq_ofNat_of_zero_le hd
    obtain ⟨k, hk⟩ := Int.eq_ofNat_of_zero_le (neg_nonneg.mpr he)
    rw [show e = -(k : ℤ) by omega, zskip_nat, zskip_negnat, iterate_mixed h hx]; rfl
  · obtain ⟨k, rfl⟩ := Int.eq_ofNat_of_zero_le he
    obtain ⟨j, hj⟩ := Int.eq_ofNat_of_zero_le (neg_nonneg.mpr hd)
    rw [show d = -(j : ℤ) by omega, zskip_nat, zskip_negnat, iterate_mixed h' hx, ← zskip_swap]
    congr 1; ring
  · obtain ⟨j, hj⟩ := Int.eq_ofNat_of_zero_le (neg_nonneg.mpr hd)
    obtain ⟨k, hk⟩ := Int.eq_ofNat_of_zero_le (neg_nonneg.mpr he)
    rw [show d = -(j : ℤ) by omega, show e = -(k : ℤ) by omega, zskip_negnat, zskip_negnat, ← Function.iterate_add_apply,
      show -(j : ℤ) + -(k : ℤ) = -((j + k : ℕ) : ℤ) by push_cast; ring, zskip_negnat, add_comm]

end Thls.Ct
