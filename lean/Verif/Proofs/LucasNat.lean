import Mathlib.NumberTheory.LucasPrimality
import Mathlib.Tactic.NormNum.Prime

/-! # Primality of the large numbers met in the format table of `inv_direct` -/

namespace Thls

/-- Repeated squaring. -/
def powMod (p : ℕ) : ℕ → ℕ → ℕ → ℕ
  | 0, _, _ => 1 % p
  | k + 1, a, n => if n % 2 = 1 then a * powMod p k (a * a % p) (n / 2) % p else powMod p k (a * a % p) (n / 2)

theorem powMod_eq (p : ℕ) : ∀ (k a n : ℕ), n < 2 ^ k → powMod p k a n = a ^ n % p := by
  intro k
  induction k with
  | zero =>
    intro a n h
    have : n = 0 := by simpa using h
    subst this
    rfl
  | succ k ih =>
    intro a n h
    unfold powMod
    rw [ih _ _ (by rw [pow_succ] at h; omega)]
    have hn := Nat.div_add_mod n 2
    have e : (a * a % p) ^ (n / 2) % p = a ^ (2 * (n / 2)) % p := by
      rw [← Nat.pow_mod, ← pow_two, ← pow_mul]
    rw [e]
    split
    · rename_i h1
      rw [h1] at hn
      conv_rhs => rw [← hn]
      rw [pow_succ, Nat.mul_comm (a ^ _) a, Nat.mul_mod a (a ^ _)]
      rw [Nat.mul_mod]
      simp
    · have h0 : n % 2 = 0 := by omega
      rw [h0, Nat.add_zero] at hn
      rw [hn]

theorem lucas_nat {p a : ℕ} (k : ℕ) (qs : List ℕ) (hp : p - 1 < 2 ^ k) (ha : powMod p k a (p - 1) = 1 % p)
    (hq : ∀ q : ℕ, q.Prime → q ∣ p - 1 → q ∈ qs)
    (hd : ∀ q ∈ qs, powMod p k a ((p - 1) / q) ≠ 1 % p) : p.Prime := by
  rw [powMod_eq p k a _ hp] at ha
  refine lucas_primality p (a : ZMod p) ?_ ?_
  · have : ((a ^ (p - 1) : ℕ) : ZMod p) = ((1 : ℕ) : ZMod p) := (ZMod.natCast_eq_natCast_iff' _ _ _).2 ha
    simpa using this
  · intro q h1 h2 h3
    apply hd q (hq q h1 h2)
    rw [powMod_eq p k a _ (lt_of_le_of_lt (Nat.div_le_self _ _) hp)]
    have : ((a ^ ((p - 1) / q) : ℕ) : ZMod p) = ((1 : ℕ) : ZMod p) := by simpa using h3
    exact (ZMod.natCast_eq_natCast_iff' _ _ _).1 this

/-- The prime divisors of a product of primes. -/
theorem prime_mem_of_dvd_prod {q : ℕ} (hq : q.Prime) : ∀ (qs : List ℕ), (∀ r ∈ qs, r.Prime) → q ∣ qs.prod → q ∈ qs := by
  intro qs
  induction qs with
  | nil => intro _ h; exact absurd (Nat.dvd_one.mp h) hq.one_lt.ne'
  | cons r rs ih =>
    intro h hd
    rw [List.prod_cons, hq.dvd_mul] at hd
    rcases hd with hd | hd
    · rw [(Nat.prime_dvd_prime_iff_eq hq (h r (by simp))).mp hd]; simp
    · exact List.mem_cons_of_mem _ (ih (fun s hs => h s (List.mem_cons_of_mem _ hs)) hd)

theorem lucas_list {p a : ℕ} (k : ℕ) (qs : List ℕ) (hp : p - 1 < 2 ^ k) (ha : powMod p k a (p - 1) = 1 % p)
    (hprod : qs.prod = p - 1) (hqs : ∀ q ∈ qs, q.Prime) (hd : ∀ q ∈ qs, powMod p k a ((p - 1) / q) ≠ 1 % p) : p.Prime :=
  lucas_nat k qs hp ha (fun _ h1 h2 => prime_mem_of_dvd_prod h1 qs hqs (hprod ▸ h2)) hd

theorem prime_36028797018963971 : Nat.Prime 36028797018963971 := by
  refine lucas_list (a := 2) 56 [2, 5, 13, 37, 109, 246241, 279073] (by norm_num) (by decide +kernel) (by norm_num) ?_
    (by decide +kernel)
  simp only [List.mem_cons, List.not_mem_nil, or_false, forall_eq_or_imp, forall_eq]
  norm_num

theorem prime_54410972897 : Nat.Prime 54410972897 := by
  refine lucas_list (a := 3) 36 [2, 2, 2, 2, 2, 7, 242906129] (by norm_num) (by decide +kernel) (by norm_num) ?_
    (by decide +kernel)
  simp only [List.mem_cons, List.not_mem_nil, or_false, forall_eq_or_imp, forall_eq]
  norm_num

theorem prime_914935739527 : Nat.Prime 914935739527 := by
  refine lucas_list (a := 3) 40 [2, 3, 3, 23, 28123, 78583] (by norm_num) (by decide +kernel) (by norm_num) ?_
    (by decide +kernel)
  simp only [List.mem_cons, List.not_mem_nil, or_false, forall_eq_or_imp, forall_eq]
  norm_num

theorem prime_8006399337547549 : Nat.Prime 8006399337547549 := by
  refine lucas_list (a := 2) 53 [2, 2, 3, 3, 7, 19, 73, 87211, 262657] (by norm_num) (by decide +kernel) (by norm_num) ?_
    (by decide +kernel)
  simp only [List.mem_cons, List.not_mem_nil, or_false, forall_eq_or_imp, forall_eq]
  norm_num

/-- A divisor of a product of primes is the product of some of them. -/
theorem dvd_prime_mul {p m d : ℕ} (hp : p.Prime) (h : d ∣ p * m) : d ∣ m ∨ ∃ c, c ∣ m ∧ d = p * c := by
  obtain ⟨a, b, ha, hb, rfl⟩ := (Nat.dvd_mul).mp h
  rcases (Nat.dvd_prime hp).mp ha with rfl | rfl
  · left; simpa using hb
  · right; exact ⟨b, hb, rfl⟩

/-- The divisors of a product, as a list. -/
def divList : List ℕ → List ℕ
  | [] => [1]
  | p :: ps => divList ps ++ (divList ps).map (p * ·)

theorem mem_divList : ∀ (ps : List ℕ), (∀ p ∈ ps, p.Prime) → ∀ d, d ∣ ps.prod → d ∈ divList ps := by
  intro ps
  induction ps with
  | nil => intro _ d h; rw [Nat.dvd_one.mp h]; simp [divList]
  | cons p ps ih =>
    intro hp d h
    rw [List.prod_cons] at h
    have ih := ih (fun q hq => hp q (List.mem_cons_of_mem _ hq))
    unfold divList
    rw [List.mem_append, List.mem_map]
    rcases dvd_prime_mul (hp p (by simp)) h with h | ⟨c, hc, rfl⟩
    · exact Or.inl (ih d h)
    · exact Or.inr ⟨c, ih c hc, rfl⟩

end Thls
