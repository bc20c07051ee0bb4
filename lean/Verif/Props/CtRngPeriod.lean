import Verif.Props.CtRng
import Verif.Proofs.CtRngPeriod
import Verif.Model.CtRngTest
import Mathlib.Tactic.NormNum.Prime

/-! # C94, C95: the periods of the compile-time generators, and their self-check -/

namespace Thls.Ct
open Spec

/-- **C94.** The generator modulo `2^32` returns to a state after `n` steps exactly if `n` is a multiple of `2^32`, whatever
the state. -/
theorem C94_lcg_period (s n : ℕ) (hs : s < 2 ^ 32) :
    (lcgStep 1664525 1013904223 (2 ^ 32))^[n] s = s ↔ 2 ^ 32 ∣ n :=
  iterate_fixed_iff (by norm_num) (by norm_num) (by norm_num) hs n

theorem lcg_mem (s n : ℕ) (hs : s < 2 ^ 32) :
    (lcgStep 1664525 1013904223 (2 ^ 32))^[n] s ∈ Finset.range (2 ^ 32) :=
  Finset.mem_range.2 (iterate_lt (by positivity) hs)

/-- **C94.** Every state of the generator modulo `2^32` is reached from every other by exactly one skip with an `int`
distance. -/
theorem C94_lcg_reaches (s t : ℕ) (hs : s < 2 ^ 32) (ht : t < 2 ^ 32) :
    ∃! d : ℤ, (-2 ^ 31 ≤ d ∧ d < 2 ^ 31) ∧ lcgSkip s lcgA lcgC d = t := by
  have hfix : ∀ y ∈ Finset.range (2 ^ 32), ∀ n, (lcgStep 1664525 1013904223 (2 ^ 32))^[n] y = y ↔ 2 ^ 32 ∣ n :=
    fun y hy n => C94_lcg_period y n (Finset.mem_range.1 hy)
  obtain ⟨n, hn, hnt⟩ := orbit_fills (Finset.card_range _) (fun n => lcg_mem s n hs) hfix (Finset.mem_range.2 ht)
  have hskip : ∀ d : ℤ, -2 ^ 31 ≤ d → lcgSkip s lcgA lcgC d = (lcgStep 1664525 1013904223 (2 ^ 32))^[(d % 2 ^ 32).toNat] s :=
    fun d hd => lcgSkip_eq (by decide) hs (by omega)
  have huniq : ∀ d : ℤ, -2 ^ 31 ≤ d → lcgSkip s lcgA lcgC d = t → (d % 2 ^ 32).toNat = n := by
    intro d hd h
    rw [hskip d hd, ← hnt] at h
    exact orbit_inj (fun n => lcg_mem s n hs) hfix (by omega) hn h
  by_cases h : n < 2 ^ 31
  · refine ⟨n, ⟨by omega, ?_⟩, ?_⟩
    · rw [hskip _ (by omega), ← hnt]; congr 1; omega
    · rintro d ⟨hd, hdt⟩
      have := huniq d hd.1 hdt
      omega
  · refine ⟨(n : ℤ) - 2 ^ 32, ⟨by omega, ?_⟩, ?_⟩
    · rw [hskip _ (by omega), ← hnt]; congr 1; omega
    · rintro d ⟨hd, hdt⟩
      have := huniq d hd.1 hdt
      omega

/-- From 0 to 1. -/
example : ∃ d : ℤ, lcgSkip 0 lcgA lcgC d = 1 := by
  obtain ⟨d, ⟨-, h⟩, -⟩ := C94_lcg_reaches 0 1 (by norm_num) (by norm_num)
  exact ⟨d, h⟩

theorem pow_of_table {a m ai n v : ℕ} (h : invMod a m = some ai) (hv : pMultiplierNat n a m = some v) :
    a ^ n ≡ 1 [MOD m] ↔ v = 1 := by
  obtain ⟨v', h1, h2, h3⟩ := pMultiplierNat_spec h n
  rw [hv] at h1
  cases h1
  have hm := (invMod_spec h).2.1
  constructor
  · intro h4
    have := h3.trans h4
    rwa [Nat.ModEq, Nat.mod_eq_of_lt h2, Nat.mod_eq_of_lt (by omega)] at this
  · rintro rfl
    exact h3.symm

theorem prime_dvd_m2 {q : ℕ} (hq : q.Prime) (h : q ∣ 2 ^ 31 - 1 - 1) :
    q = 2 ∨ q = 3 ∨ q = 7 ∨ q = 11 ∨ q = 31 ∨ q = 151 ∨ q = 331 := by
  have e : 2 ^ 31 - 1 - 1 = 2 * 3 * 3 * 7 * 11 * 31 * 151 * 331 := by norm_num
  rw [e] at h
  simp only [hq.dvd_mul] at h
  have p : ∀ r, r.Prime → q ∣ r → q = r := fun r hr hd => (Nat.prime_dvd_prime_iff_eq hq hr).1 hd
  rcases h with ((((((h | h) | h) | h) | h) | h) | h) | h
  · exact Or.inl (p _ (by norm_num) h)
  · exact Or.inr (Or.inl (p _ (by norm_num) h))
  · exact Or.inr (Or.inl (p _ (by norm_num) h))
  · exact Or.inr (Or.inr (Or.inl (p _ (by norm_num) h)))
  · exact Or.inr (Or.inr (Or.inr (Or.inl (p _ (by norm_num) h))))
  · exact Or.inr (Or.inr (Or.inr (Or.inr (Or.inl (p _ (by norm_num) h)))))
  · exact Or.inr (Or.inr (Or.inr (Or.inr (Or.inr (Or.inl (p _ (by norm_num) h))))))
  · exact Or.inr (Or.inr (Or.inr (Or.inr (Or.inr (Or.inr (p _ (by norm_num) h))))))

theorem prime_dvd_m1 {q : ℕ} (hq : q.Prime) (h : q ∣ 2 ^ 32 - 5 - 1) : q = 2 ∨ q = 5 ∨ q = 19 ∨ q = 22605091 := by
  have e : 2 ^ 32 - 5 - 1 = 2 * 5 * 19 * 22605091 := by norm_num
  rw [e] at h
  simp only [hq.dvd_mul] at h
  have p : ∀ r, r.Prime → q ∣ r → q = r := fun r hr hd => (Nat.prime_dvd_prime_iff_eq hq hr).1 hd
  rcases h with ((h | h) | h) | h
  · exact Or.inl (p _ (by norm_num) h)
  · exact Or.inr (Or.inl (p _ (by norm_num) h))
  · exact Or.inr (Or.inr (Or.inl (p _ (by norm_num) h)))
  · exact Or.inr (Or.inr (Or.inr (p _ (by norm_num) h)))

/-- Both moduli are prime and both multipliers generate all non-zero residues. -/
theorem PrimeGenerator.order {a m : ℕ} (h : PrimeGenerator a m) :
    m.Prime ∧ ∀ n, a ^ n ≡ 1 [MOD m] ↔ m - 1 ∣ n := by
  have hi := h.inv
  obtain ⟨ai, hi⟩ := hi
  have no : ∀ n v, pMultiplierNat n a m = some v → v ≠ 1 → ¬ a ^ n ≡ 1 [MOD m] :=
    fun n v hv h1 hc => h1 ((pow_of_table hi hv).1 hc)
  rcases h with ⟨rfl, rfl⟩ | ⟨rfl, rfl⟩
  · refine order_of_table (by norm_num) ((pow_of_table hi (v := 1) (by decide +kernel)).2 rfl) ?_
    intro q hq hd
    rcases prime_dvd_m1 hq hd with rfl | rfl | rfl | rfl
    · exact no _ 4294967290 (by decide +kernel) (by norm_num)
    · exact no _ 3451601923 (by decide +kernel) (by norm_num)
    · exact no _ 2325764882 (by decide +kernel) (by norm_num)
    · exact no _ 1180988926 (by decide +kernel) (by norm_num)
  · refine order_of_table (by norm_num) ((pow_of_table hi (v := 1) (by decide +kernel)).2 rfl) ?_
    intro q hq hd
    rcases prime_dvd_m2 hq hd with rfl | rfl | rfl | rfl | rfl | rfl | rfl
    · exact no _ 2147483646 (by decide +kernel) (by norm_num)
    · exact no _ 634005911 (by decide +kernel) (by norm_num)
    · exact no _ 1600955193 (by decide +kernel) (by norm_num)
    · exact no _ 298192073 (by decide +kernel) (by norm_num)
    · exact no _ 16384 (by decide +kernel) (by norm_num)
    · exact no _ 1013763951 (by decide +kernel) (by norm_num)
    · exact no _ 759513457 (by decide +kernel) (by norm_num)

/-- **C94.** The generators modulo `2^32 - 5` and `2^31 - 1` return to a non-zero state after `n` steps exactly if `n` is a
multiple of the modulus minus one: their period is as long as possible. -/
theorem C94_p_period {a m s : ℕ} (h : PrimeGenerator a m) (h0 : s ≠ 0) (hs : s < m) (n : ℕ) :
    (lcgStep a 0 m)^[n] s = s ↔ m - 1 ∣ n := by
  obtain ⟨hp, ho⟩ := h.order
  rw [← ho n]
  have h1 := iterate_modEq a 0 m n s
  rw [zero_mul, add_zero] at h1
  have hlt : (lcgStep a 0 m)^[n] s < m := iterate_lt (by omega) hs
  have hcop : Nat.gcd m s = 1 := by
    rw [← Nat.Coprime, Nat.coprime_comm]
    exact (hp.coprime_iff_not_dvd.2 (fun hd => by have := Nat.le_of_dvd (Nat.pos_of_ne_zero h0) hd; omega)).symm
  constructor
  · intro hc
    rw [hc] at h1
    refine Nat.ModEq.cancel_right_of_coprime hcop ?_
    rw [one_mul]; exact h1.symm
  · intro hc
    have := h1.trans (hc.mul_right s)
    rw [one_mul] at this
    exact Nat.ModEq.eq_of_lt_of_lt this hlt hs

theorem p_mem {a m s : ℕ} (h : PrimeGenerator a m) (h0 : s ≠ 0) (hs : s < m) (n : ℕ) :
    (lcgStep a 0 m)^[n] s ∈ Finset.Ioo 0 m := by
  have hne : ∀ n, (lcgStep a 0 m)^[n] s ≠ 0 := by
    intro n hc
    have hz : (lcgStep a 0 m)^[n * (m - 1)] s = s := (C94_p_period h h0 hs _).2 (Dvd.intro_left _ rfl)
    have hm : 2 ≤ m := by rcases h with ⟨-, rfl⟩ | ⟨-, rfl⟩ <;> norm_num
    have hst : ∀ k, (lcgStep a 0 m)^[k] 0 = 0 := by
      intro k
      induction k with
      | zero => rfl
      | succ k ih => rw [Function.iterate_succ_apply, show lcgStep a 0 m 0 = 0 by simp [lcgStep]]; exact ih
    have e : n * (m - 1) = n * (m - 2) + n := by
      obtain ⟨j, rfl⟩ := Nat.exists_eq_add_of_le hm
      rw [show 2 + j - 1 = j + 1 by omega, show 2 + j - 2 = j by omega]; ring
    rw [e, Function.iterate_add_apply, hc, hst] at hz
    exact h0 hz.symm
  exact Finset.mem_Ioo.2 ⟨Nat.pos_of_ne_zero (hne n), iterate_lt (by omega) hs⟩

/-- **C94.** Every non-zero state of both generators modulo a prime is reached from every other by a skip with an `int`
distance. -/
theorem C94_p_reaches {a m s t : ℕ} (h : PrimeGenerator a m) (hs0 : s ≠ 0) (hs : s < m) (ht0 : t ≠ 0) (ht : t < m) :
    ∃ d : ℤ, (-2 ^ 31 < d ∧ d < 2 ^ 31) ∧ pSkip s a m d = some t := by
  have hfix : ∀ y ∈ Finset.Ioo 0 m, ∀ n, (lcgStep a 0 m)^[n] y = y ↔ m - 1 ∣ n := fun y hy n => by
    obtain ⟨h1, h2⟩ := Finset.mem_Ioo.1 hy
    exact C94_p_period h h1.ne' h2 n
  have hcard : (Finset.Ioo 0 m).card = m - 1 := by rw [Nat.card_Ioo]; rfl
  obtain ⟨n, hn, hnt⟩ := orbit_fills hcard (fun n => p_mem h hs0 hs n) hfix
    (Finset.mem_Ioo.2 ⟨Nat.pos_of_ne_zero ht0, ht⟩)
  have hm : m < 2 ^ 32 - 4 := by rcases h with ⟨-, rfl⟩ | ⟨-, rfl⟩ <;> norm_num
  by_cases hlt : n < 2 ^ 31
  · exact ⟨n, ⟨by omega, by omega⟩, by rw [C39_p_forward h hs, hnt]⟩
  · refine ⟨-((m - 1 - n : ℕ) : ℤ), ⟨by omega, by omega⟩, ?_⟩
    obtain ⟨u, h1, h2, h3⟩ := C39_p_undo h ht (d := ((m - 1 - n : ℕ) : ℤ)) ⟨by omega, by omega⟩
    rw [C39_p_forward h ht] at h1
    have hu : u = s := by
      injection h1 with h1
      rw [← h1, ← hnt, ← Function.iterate_add_apply, show m - 1 - n + n = m - 1 by omega]
      exact (C94_p_period h hs0 hs _).2 dvd_rfl
    rw [hu] at h3
    exact h3

/-- The default seed of the minimal standard generator can be turned into 1. -/
example : ∃ d : ℤ, (-2 ^ 31 < d ∧ d < 2 ^ 31) ∧ pSkip 2013771743 pA2 pM2 d = some 1 :=
  C94_p_reaches (Or.inr ⟨rfl, rfl⟩) (by norm_num) (by decide) (by norm_num) (by decide)

/-- The self-check of a generator whose skips compose. -/
theorem verifyRun_of_orbit {skip : ℕ → ℤ → Option ℕ} {g : ℤ → ℕ}
    (hg : ∀ d e : ℤ, 0 ≤ d → d ≤ 6 → -5 ≤ e → e ≤ 2 ^ 24 → 0 ≤ d + e → skip (g d) e = some (g (d + e)))
    (hne : g 1 ≠ g 0) (fixed : Fixed) :
    verifyRun skip fixed (g 0) = some (decide (fixed.value1 = g 1 ∧ fixed.value2 = g 2 ∧ fixed.value19937 = g 19937 ∧
      fixed.value2y24 = g (2 ^ 24))) := by
  have h0 : ∀ e : ℤ, 0 ≤ e → e ≤ 2 ^ 24 → skip (g 0) e = some (g e) := by
    intro e h1 h2
    have := hg 0 e le_rfl (by norm_num) (by omega) h2 (by omega)
    rwa [zero_add] at this
  have h1 : ∀ d : ℤ, 0 ≤ d → d ≤ 5 → skip (g d) 1 = some (g (d + 1)) := fun d h1 h2 =>
    hg d 1 h1 (by omega) (by norm_num) (by norm_num) (by omega)
  have e1 := h1 1 (by norm_num) (by norm_num)
  have e2 := h1 2 (by norm_num) (by norm_num)
  have e3 := h1 3 (by norm_num) (by norm_num)
  have e4 := h1 4 (by norm_num) (by norm_num)
  have e5 := h1 5 (by norm_num) (by norm_num)
  have b1 := hg 6 (-1) (by norm_num) (by norm_num) (by norm_num) (by norm_num) (by norm_num)
  have b5 := hg 6 (-5) (by norm_num) (by norm_num) (by norm_num) (by norm_num) (by norm_num)
  norm_num at e1 e2 e3 e4 e5 b1 b5
  have f0 := h0 0 (by norm_num) (by norm_num)
  have f1 := h0 1 (by norm_num) (by norm_num)
  have f2 := h0 2 (by norm_num) (by norm_num)
  have f3 := h0 3 (by norm_num) (by norm_num)
  have f4 := h0 4 (by norm_num) (by norm_num)
  have f5 := h0 5 (by norm_num) (by norm_num)
  have f6 := h0 6 (by norm_num) (by norm_num)
  have f7 := h0 19937 (by norm_num) (by norm_num)
  have f8 := h0 (2 ^ 24) (by norm_num) (by norm_num)
  simp only [verifyRun, sampleAt, Option.bind_eq_bind, Option.bind_some, f0, f1, f2, f3, f4, f5, f6, f7, f8, e1, e2, e3, e4, e5,
    b1, b5, hne, decide_true, decide_false, Bool.not_false, Bool.and_true, Bool.true_and, Option.pure_def, Option.some.injEq]
  rw [← Bool.decide_and, ← Bool.decide_and, ← Bool.decide_and]
  congr 1
  simp only [and_assoc]

/-- **C95.** The self-check of the generator modulo `2^32`, for any seed and any listed values: it succeeds exactly if they
are the states after 1, 2, 19937 and `2^24` steps. -/
theorem C95_quick_check (fixed : Fixed) (s : ℕ) (hs : s < 2 ^ 32) :
    verifyRun quickSkip fixed s = some (decide (fixed.value1 = lcgStep 1664525 1013904223 (2 ^ 32) s ∧
      fixed.value2 = (lcgStep 1664525 1013904223 (2 ^ 32))^[2] s ∧
      fixed.value19937 = (lcgStep 1664525 1013904223 (2 ^ 32))^[19937] s ∧
      fixed.value2y24 = (lcgStep 1664525 1013904223 (2 ^ 32))^[2 ^ 24] s)) := by
  have hp := C94_lcg_period s 1 hs
  have hf : ∀ n : ℕ, lcgSkip s lcgA lcgC n = (lcgStep 1664525 1013904223 (2 ^ 32))^[n] s := C39_lcg_forward lcgA lcgC hs
  have hadd : ∀ d e : ℤ, (-2 ^ 31 ≤ d ∧ d < 2 ^ 31) → (-2 ^ 31 ≤ e ∧ e < 2 ^ 31) →
      lcgSkip (lcgSkip s lcgA lcgC d) lcgA lcgC e = lcgSkip s lcgA lcgC (d + e) := fun d e h1 h2 =>
    C39_lcg_additive (by decide) hs h1 h2
  generalize lcgStep 1664525 1013904223 (2 ^ 32) = step at *
  have key := verifyRun_of_orbit (skip := quickSkip) (g := fun d => step^[d.toNat] s) (by
    intro d e hd hd6 he he24 hde
    have h1 := hf d.toNat
    rw [Int.toNat_of_nonneg hd] at h1
    have h2 := hf (d + e).toNat
    rw [Int.toNat_of_nonneg hde] at h2
    rw [← h1, ← h2, ← hadd d e (by omega) (by omega)]
    rfl) (by
    intro hc
    have := hp.1 hc
    norm_num at this) fixed
  have t0 : Int.toNat 0 = 0 := rfl
  have t1 : Int.toNat 1 = 1 := rfl
  have t2 : Int.toNat 2 = 2 := rfl
  have t3 : Int.toNat 19937 = 19937 := rfl
  have t4 : Int.toNat (2 ^ 24) = 2 ^ 24 := by norm_num; rfl
  simp only [t0, t1, t2, t3, t4] at key
  rw [Function.iterate_zero, id_eq, Function.iterate_one] at key
  exact key

/-- **C95.** The self-check of both generators modulo a prime, for any seed they accept. -/
theorem C95_prime_check {a m : ℕ} (h : PrimeGenerator a m) (fixed : Fixed) (s : ℕ) (h0 : s ≠ 0) (hs : s < m) :
    verifyRun (fun s d => pSkip s a m d) fixed s = some (decide (fixed.value1 = a * s % m ∧
      fixed.value2 = a * (a * s % m) % m ∧ fixed.value19937 = (lcgStep a 0 m)^[19937] s ∧
      fixed.value2y24 = (lcgStep a 0 m)^[2 ^ 24] s)) := by
  have key := verifyRun_of_orbit (skip := fun s d => pSkip s a m d) (g := fun d => (lcgStep a 0 m)^[d.toNat] s) (by
    intro d e hd hd6 he he24 hde
    obtain ⟨t, h1, h2, h3⟩ := C39_p_additive h hs (d := d) (e := e) (by omega) (by omega) (by omega)
    have h4 := C39_p_forward h hs d.toNat
    rw [Int.toNat_of_nonneg hd, h1] at h4
    injection h4 with h4
    have h5 := C39_p_forward h hs (d + e).toNat
    rw [Int.toNat_of_nonneg hde] at h5
    rw [← h4, h3, h5]) (by
    intro hc
    have := (C94_p_period h h0 hs 1).1 hc
    have hm : 2 < m - 1 := by rcases h with ⟨-, rfl⟩ | ⟨-, rfl⟩ <;> norm_num
    have := Nat.le_of_dvd one_pos this
    omega) fixed
  have t0 : Int.toNat 0 = 0 := rfl
  have t1 : Int.toNat 1 = 1 := rfl
  have t2 : Int.toNat 2 = 2 := rfl
  have t3 : Int.toNat 19937 = 19937 := rfl
  have t4 : Int.toNat (2 ^ 24) = 2 ^ 24 := by norm_num; rfl
  have i2 : (lcgStep a 0 m)^[2] s = lcgStep a 0 m (lcgStep a 0 m s) := rfl
  simp only [t0, t1, t2, t3, t4] at key
  rw [i2, Function.iterate_zero, id_eq, Function.iterate_one] at key
  simpa only [lcgStep, add_zero] using key

/-- **C95.** The three default generators pass with the values listed in the library. -/
theorem C95_default_checks : verifyRun quickSkip quickFixed (quickAndDirty 949333985) = some true ∧
    (minstdrand0 2013771743).bind (verifyRun minstdSkip minstdFixed) = some true ∧
    (lcgMod2y32m5 3922919429).bind (verifyRun m5Skip m5Fixed) = some true := by
  decide +kernel

/-- **C95.** What the self-check demands of any generator, with its own reference values: a skip by zero stays, the first
step moves, the skips by two to six are single steps in a row, and stepping back by one and by five undoes them. -/
theorem C95_check_iff (skip : ℕ → ℤ → Option ℕ) (fixed : Fixed) (s0 : ℕ) :
    verifyRun skip fixed s0 = some true ↔
      skip s0 0 = some s0 ∧ skip s0 1 = some fixed.value1 ∧ fixed.value1 ≠ s0 ∧ skip s0 2 = some fixed.value2 ∧
        skip s0 19937 = some fixed.value19937 ∧ skip s0 (2 ^ 24) = some fixed.value2y24 ∧
        skip fixed.value1 1 = some fixed.value2 ∧ ∃ s3 s4 s5 s6, skip s0 3 = some s3 ∧ skip s0 4 = some s4 ∧
          skip s0 5 = some s5 ∧ skip s0 6 = some s6 ∧ skip fixed.value2 1 = some s3 ∧ skip s3 1 = some s4 ∧
          skip s4 1 = some s5 ∧ skip s5 1 = some s6 ∧ skip s6 (-1) = some s5 ∧ skip s6 (-5) = some fixed.value1 := by
  constructor
  · intro h
    unfold verifyRun sampleAt at h
    obtain ⟨id0, h0, h⟩ := Option.bind_eq_some_iff.1 h
    obtain ⟨s1, h1, h⟩ := Option.bind_eq_some_iff.1 h
    obtain ⟨s2, h2, h⟩ := Option.bind_eq_some_iff.1 h
    obtain ⟨s2', h2', h⟩ := Option.bind_eq_some_iff.1 h
    obtain ⟨p2, hp2, h⟩ := Option.bind_eq_some_iff.1 h
    obtain ⟨s3, h3, h⟩ := Option.bind_eq_some_iff.1 h
    obtain ⟨s3', h3', h⟩ := Option.bind_eq_some_iff.1 h
    obtain ⟨p3, hp3, h⟩ := Option.bind_eq_some_iff.1 h
    obtain ⟨s4, h4, h⟩ := Option.bind_eq_some_iff.1 h
    obtain ⟨s4', h4', h⟩ := Option.bind_eq_some_iff.1 h
    obtain ⟨p4, hp4, h⟩ := Option.bind_eq_some_iff.1 h
    obtain ⟨s5, h5, h⟩ := Option.bind_eq_some_iff.1 h
    obtain ⟨s5', h5', h⟩ := Option.bind_eq_some_iff.1 h
    obtain ⟨p5, hp5, h⟩ := Option.bind_eq_some_iff.1 h
    obtain ⟨s6, h6, h⟩ := Option.bind_eq_some_iff.1 h
    obtain ⟨s6', h6', h⟩ := Option.bind_eq_some_iff.1 h
    obtain ⟨p6, hp6, h⟩ := Option.bind_eq_some_iff.1 h
    obtain ⟨far, hf, h⟩ := Option.bind_eq_some_iff.1 h
    obtain ⟨farther, hff, h⟩ := Option.bind_eq_some_iff.1 h
    obtain ⟨b5, hb5, h⟩ := Option.bind_eq_some_iff.1 h
    obtain ⟨b1, hb1, h⟩ := Option.bind_eq_some_iff.1 h
    rename' h => e
    simp only [Option.pure_def, Option.some.injEq, Bool.and_eq_true, decide_eq_true_eq, Bool.not_eq_true',
      decide_eq_false_iff_not] at e
    obtain ⟨⟨⟨⟨⟨⟨⟨⟨⟨⟨⟨⟨⟨⟨⟨⟨⟨e1, e2⟩, e3⟩, e4⟩, e5⟩, e6⟩, e7⟩, e8⟩, e9⟩, e10⟩, e11⟩, e12⟩, e13⟩, e14⟩, e15⟩, e16⟩, e17⟩, e18⟩ := e
    subst e1 e4 e7 e9 e11 e13 e17 e3 e6 e15 e16
    rw [← e18] at hb1
    exact ⟨h0, h1, e2, h2, hf, hff, h2', _, _, _, _, h3, h4, h5, h6, h3', h4', h5', h6', hb5, hb1⟩
  · rintro ⟨h0, h1, e2, h2, hf, hff, h2', s3, s4, s5, s6, h3, h4, h5, h6, h3', h4', h5', h6', hb5, hb1⟩
    rw [show (2 : ℤ) ^ 24 = 16777216 from rfl] at hff
    simp [verifyRun, sampleAt, h0, h1, h2, h2', h3, h3', h4, h4', h5, h5', h6, h6', hf, hff, hb5, hb1, e2]

/-- A generator that never moves does not pass, whatever values are listed; counting modulo `2^30` does. -/
example (fixed : Fixed) (s : ℕ) : verifyRun (fun s _ => some s) fixed s ≠ some true := by
  intro h
  obtain ⟨-, h1, h2, -⟩ := (C95_check_iff _ _ _).1 h
  exact h2 (Option.some.inj h1).symm

example : verifyRun (fun s d => some (((s : ℤ) + d) % 2 ^ 30).toNat) ⟨8, 9, 19944, 7 + 2 ^ 24⟩ 7 = some true := by decide

end Thls.Ct
