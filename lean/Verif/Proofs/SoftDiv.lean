import Verif.Proofs.SoftMul
import Verif.Proofs.SoftRecip

/-! # `f32_div`, `f64_div` -/

namespace Thls
open Spec

/-- An integer and a quotient strictly between the same two multiples. -/
theorem sim_between {h s N B k : ℕ} (hB : 0 < B) (h1 : k * h < s) (h2 : s < (k + 1) * h) (h3 : k * h * B < N)
    (h4 : N < (k + 1) * h * B) : Sim h s ((N : ℚ) / B) := by
  have hBq : (0 : ℚ) < B := by exact_mod_cast hB
  have q3 : ((k : ℚ) * h) < (N : ℚ) / B := by rw [lt_div_iff₀ hBq]; exact_mod_cast h3
  have q4 : (N : ℚ) / B < ((k : ℚ) + 1) * h := by rw [div_lt_iff₀ hBq]; exact_mod_cast h4
  have q1 : ((k : ℚ) * h) < s := by exact_mod_cast h1
  have q2 : (s : ℚ) < ((k : ℚ) + 1) * h := by exact_mod_cast h2
  have hh : (0 : ℚ) ≤ h := Nat.cast_nonneg h
  intro j
  rcases le_or_gt j (k : ℤ) with hj | hj
  · have : (j : ℚ) * h ≤ k * h := mul_le_mul_of_nonneg_right (by exact_mod_cast hj) hh
    exact ⟨⟨fun _ => by linarith, fun _ => by linarith⟩, ⟨fun h => by linarith, fun h => by linarith⟩⟩
  · have : ((k : ℚ) + 1) * h ≤ j * h := mul_le_mul_of_nonneg_right (by exact_mod_cast hj) hh
    exact ⟨⟨fun h => by linarith, fun h => by linarith⟩, ⟨fun _ => by linarith, fun _ => by linarith⟩⟩

theorem sim_exact {h s N B : ℕ} (hB : 0 < B) (he : N = s * B) : Sim h s ((N : ℚ) / B) := by
  have hBq : (B : ℚ) ≠ 0 := by exact_mod_cast hB.ne'
  rw [he, Nat.cast_mul, mul_div_cancel_right₀ _ hBq]
  exact sim_self _ _

namespace SoftFmt
variable {f : SoftFmt}

/-- The requirement on the quotient of significands. -/
def QuotOk (f : SoftFmt) (quot : ℕ → ℕ → Bool × ℕ) : Prop :=
  ∀ m n, 2 ^ f.F ≤ m → m < 2 ^ (f.F + 1) → 2 ^ f.F ≤ n → n < 2 ^ (f.F + 1) →
    (quot m n).1 = decide (m < n) ∧
    Sim (2 ^ (f.G - 1)) (quot m n).2 ((m : ℚ) / n * 2 ^ (f.F + f.G + if m < n then 1 else 0))

theorem div_finite (ok : f.Ok) {quot : ℕ → ℕ → Bool × ℕ} (hp : QuotOk f quot) {a b : ℕ}
    (hea : f.exp a < f.top) (heb : f.exp b < f.top) (ha0 : ¬ (f.exp a = 0 ∧ f.frac a = 0)) (hb0 : ¬ (f.exp b = 0 ∧ f.frac b = 0)) :
    ∃ z, f.divWith quot a b = some z ∧ z < 2 ^ f.W ∧
      RoundedGradual f.E f.F (sg (f.sign a) * f.mag (f.exp a) (f.frac a) / (sg (f.sign b) * f.mag (f.exp b) (f.frac b)))
        (wordDatum f.E f.F z) := by
  obtain ⟨w1, w2, w3, g3, eg⟩ := ok.facts
  obtain ⟨T, hT, htop, hpe, hT4⟩ := top_pow ok
  have hcb := ok.cast_bounds
  have hone := one_bounds ok
  obtain ⟨x, m, u1, m1, m2, v1, x1, x2⟩ := unpackNorm_spec ok hea (fields_lt f a).2 ha0
  obtain ⟨y, n, u2, n1, n2, v2, y1, y2⟩ := unpackNorm_spec ok heb (fields_lt f b).2 hb0
  obtain ⟨hl, hsim⟩ := hp m n m1 m2 n1 n2
  unfold divWith
  simp only
  rw [if_neg (by omega), if_neg (by omega), if_neg hb0, if_neg ha0, u1, u2]
  simp only [Option.bind_eq_bind, Option.bind_some, hl, Option.pure_def]
  refine ⟨_, rfl, ?_⟩
  have hn0 : (0 : ℚ) < n := by exact_mod_cast lt_of_lt_of_le (Nat.two_pow_pos _) n1
  have hF := Nat.two_pow_pos f.F
  have h2F : 2 ^ (f.F + 1) = 2 ^ f.F * 2 := pow_succ _ _
  generalize (quot m n).2 = sig at *
  have hd : ∀ c, f.G - 1 ≤ c → 2 ^ (f.G - 1) ∣ 2 ^ c := fun c h => pow_dvd_pow 2 h
  have s1 : 2 ^ (f.F + f.G) ≤ sig := by
    rw [sim_ge hsim (hd _ (by omega))]
    by_cases h : m < n
    · rw [if_pos h, div_mul_eq_mul_div, le_div_iff₀ hn0]
      have : 2 ^ (f.F + f.G) * n ≤ m * 2 ^ (f.F + f.G + 1) := by
        rw [pow_succ, show m * (2 ^ (f.F + f.G) * 2) = 2 ^ (f.F + f.G) * (m * 2) by ring]
        exact Nat.mul_le_mul_left _ (by omega)
      exact_mod_cast this
    · rw [if_neg h, div_mul_eq_mul_div, le_div_iff₀ hn0, add_zero]
      have : 2 ^ (f.F + f.G) * n ≤ m * 2 ^ (f.F + f.G) := by
        rw [Nat.mul_comm m]; exact Nat.mul_le_mul_left _ (by omega)
      exact_mod_cast this
  have s2 : sig < 2 ^ (f.E + f.F) := by
    rw [show f.E + f.F = f.F + f.G + 1 by omega, sim_lt hsim (hd _ (by omega))]
    by_cases h : m < n
    · rw [if_pos h, div_mul_eq_mul_div, div_lt_iff₀ hn0]
      have : m * 2 ^ (f.F + f.G + 1) < 2 ^ (f.F + f.G + 1) * n := by
        rw [Nat.mul_comm m]; exact Nat.mul_lt_mul_of_pos_left h (by positivity)
      exact_mod_cast this
    · rw [if_neg h, div_mul_eq_mul_div, div_lt_iff₀ hn0, add_zero]
      have : m * 2 ^ (f.F + f.G) < 2 ^ (f.F + f.G + 1) * n := by
        rw [pow_succ, show 2 ^ (f.F + f.G) * 2 * n = n * 2 * 2 ^ (f.F + f.G) by ring]
        exact Nat.mul_lt_mul_of_pos_right (by omega) (by positivity)
      exact_mod_cast this
  have hval : sg (f.sign a) * f.mag (f.exp a) (f.frac a) / (sg (f.sign b) * f.mag (f.exp b) (f.frac b)) =
      sg (f.sign a != f.sign b) * ((m : ℚ) / n * 2 ^ (x - y)) := by
    rw [sg_xor, v1, v2, show x - 1 + leastExp f.E f.F = (x - y) + (y - 1 + leastExp f.E f.F) by ring, zpow_add₀ (by norm_num) (x - y)]
    have h1 := (two_zpow_pos (y - 1 + leastExp f.E f.F)).ne'
    have h2 : sg (f.sign a) / sg (f.sign b) = sg (f.sign a) * sg (f.sign b) := by
      cases f.sign b <;> cases f.sign a <;> norm_num [sg]
    rw [← h2]
    have h3 := sg_ne (f.sign b)
    field_simp
  rw [hval]
  rw [hT] at hone hcb
  push_cast at hone hcb
  have hle := one_eq ok
  have := roundPack_rounded ok (f.sign a != f.sign b) (exp := if decide (m < n) = true then x - y + (f.one - 1) - 1 else x - y + (f.one - 1))
    hsim s1 s2 (by split_ifs <;> omega) (by split_ifs <;> omega)
  refine ⟨this.2, ?_⟩
  convert this.1 using 2
  · rw [sg_if]
  have hG : (2 : ℚ) ^ f.G ≠ 0 := by positivity
  by_cases h : m < n
  · rw [if_pos h, if_pos (decide_eq_true h), pow_add, pow_add, hle,
      show x - y + (f.one - 1) - 1 + (1 - (f.F : ℤ) - f.one) = (x - y) - (f.F + 1) by ring, zpow_sub₀ (by norm_num) (x - y),
      zpow_add₀ (by norm_num) (f.F : ℤ), zpow_natCast]
    have hF' : (2 : ℚ) ^ f.F ≠ 0 := by positivity
    field_simp
  · rw [if_neg h, if_neg (by simpa using h), pow_add, pow_add, hle,
      show x - y + (f.one - 1) + (1 - (f.F : ℤ) - f.one) = (x - y) - f.F by ring, zpow_sub₀ (by norm_num) (x - y), zpow_natCast]
    have hF' : (2 : ℚ) ^ f.F ≠ 0 := by positivity
    field_simp

theorem div_nan (ok : f.Ok) (quot : ℕ → ℕ → Bool × ℕ) (a b : ℕ) (h : f.isNaN a = true ∨ f.isNaN b = true) :
    f.divWith quot a b = some (f.propagateNaN a b) := by
  rw [isNaN_iff, isNaN_iff] at h
  unfold divWith
  simp only
  by_cases h1 : f.exp a = f.top
  · rw [if_pos h1]
    by_cases h2 : f.frac a = 0
    · rw [if_neg (by simpa using h2), if_pos (by tauto), if_pos (by tauto)]
    · rw [if_pos h2]
  · rw [if_neg h1, if_pos (by tauto), if_pos (by tauto)]

/-- `f32_div`, `f64_div` give the IEEE 754 quotient. -/
theorem div_ieee (ok : f.Ok) {quot : ℕ → ℕ → Bool × ℕ} (hp : QuotOk f quot) {a b : ℕ} (ha : a < 2 ^ f.W) (hb : b < 2 ^ f.W) :
    ∃ z, f.divWith quot a b = some z ∧ z < 2 ^ f.W ∧
      IeeeQuotient f.E f.F (wordDatum f.E f.F a) (wordDatum f.E f.F b) (wordDatum f.E f.F z) := by
  have ht0 : 0 < f.top := Nat.pos_of_ne_zero (top_ne_zero ok)
  have hnan : f.isNaN a = true ∨ f.isNaN b = true →
      ∃ z, f.divWith quot a b = some z ∧ z < 2 ^ f.W ∧ wordDatum f.E f.F z = .nan := by
    intro h
    have := propagateNaN_datum ok ha hb h
    exact ⟨_, div_nan ok quot a b h, this.2, this.1⟩
  have dn := defaultNaN_datum ok
  have pz := pack_zero ok (f.sign a != f.sign b)
  have pI := pack_inf ok (f.sign a != f.sign b)
  rcases kind ok ha with ⟨h, d⟩ | ⟨h, hf, d⟩ | ⟨h, hf, d⟩ | ⟨h, h0, d⟩
  · obtain ⟨z, h1, h2, h3⟩ := hnan (Or.inl h)
    exact ⟨z, h1, h2, by rw [d, h3]; rfl⟩
  · rcases kind ok hb with ⟨h', d'⟩ | ⟨h', hf', d'⟩ | ⟨h', hf', d'⟩ | ⟨h', h0', d'⟩
    · obtain ⟨z, h1, h2, h3⟩ := hnan (Or.inr h')
      exact ⟨z, h1, h2, by rw [d, d', h3]; rfl⟩
    · refine ⟨f.defaultNaN, ?_, dn.2, by rw [d, d', dn.1]; rfl⟩
      unfold divWith
      simp only
      rw [if_pos h, if_neg (show ¬ f.frac a ≠ 0 by omega), if_pos h', if_neg (show ¬ f.frac b ≠ 0 by omega)]
    · refine ⟨f.pack (f.sign a != f.sign b) f.top 0, ?_, pI.2, by rw [d, d', pI.1]; rfl⟩
      unfold divWith
      simp only
      rw [if_pos h, if_neg (show ¬ f.frac a ≠ 0 by omega), if_neg (by omega)]
    · refine ⟨f.pack (f.sign a != f.sign b) f.top 0, ?_, pI.2, ?_⟩
      · unfold divWith
        simp only
        rw [if_pos h, if_neg (show ¬ f.frac a ≠ 0 by omega), if_neg (by omega)]
      · rw [d, d', pI.1]
        simp only [IeeeQuotient, divSpecial, Datum.isNeg, neg_num h0']
  · rcases kind ok hb with ⟨h', d'⟩ | ⟨h', hf', d'⟩ | ⟨h', hf', d'⟩ | ⟨h', h0', d'⟩
    · obtain ⟨z, h1, h2, h3⟩ := hnan (Or.inr h')
      exact ⟨z, h1, h2, by rw [d, d', h3]; rfl⟩
    · refine ⟨f.pack (f.sign a != f.sign b) 0 0, ?_, pz.2, by rw [d, d', pz.1]; rfl⟩
      unfold divWith
      simp only
      rw [if_neg (by omega), if_pos h', if_neg (show ¬ f.frac b ≠ 0 by omega)]
    · refine ⟨f.defaultNaN, ?_, dn.2, by rw [d, d', dn.1]; rfl⟩
      unfold divWith
      simp only
      rw [if_neg (by omega), if_neg (by omega), if_pos ⟨h', hf'⟩, if_pos ⟨h, hf⟩]
    · refine ⟨f.pack (f.sign a != f.sign b) 0 0, ?_, pz.2, ?_⟩
      · unfold divWith
        simp only
        rw [if_neg (by omega), if_neg (by omega), if_neg h0', if_pos ⟨h, hf⟩]
      · rw [d, d', pz.1]
        simp only [IeeeQuotient, divSpecial, Datum.isNeg, neg_num h0']
  · rcases kind ok hb with ⟨h', d'⟩ | ⟨h', hf', d'⟩ | ⟨h', hf', d'⟩ | ⟨h', h0', d'⟩
    · obtain ⟨z, h1, h2, h3⟩ := hnan (Or.inr h')
      exact ⟨z, h1, h2, by rw [d, d', h3]; rfl⟩
    · refine ⟨f.pack (f.sign a != f.sign b) 0 0, ?_, pz.2, ?_⟩
      · unfold divWith
        simp only
        rw [if_neg (by omega), if_pos h', if_neg (show ¬ f.frac b ≠ 0 by omega)]
      · rw [d, d', pz.1]
        simp only [IeeeQuotient, divSpecial, Datum.isNeg, neg_num h0]
    · refine ⟨f.pack (f.sign a != f.sign b) f.top 0, ?_, pI.2, ?_⟩
      · unfold divWith
        simp only
        rw [if_neg (by omega), if_neg (by omega), if_pos ⟨h', hf'⟩, if_neg h0]
      · rw [d, d', pI.1]
        simp only [IeeeQuotient, divSpecial, Datum.isNeg, neg_num h0]
    · obtain ⟨z, h1, h2, h3⟩ := div_finite ok hp (a := a) (b := b) h h' h0 h0'
      refine ⟨z, h1, h2, ?_⟩
      rw [d, d']
      exact h3

end SoftFmt

/-! ## The quotient of the 32-bit significands -/

theorem quot32_core {sigA a r : ℕ} (hA : sigA < a) (ha : a < 2 ^ 32) (ha1 : 2 ^ 31 ≤ a) (hA0 : 0 < sigA) (h1 : r * a < 2 ^ 63)
    (h2 : 2 ^ 63 ≤ r * a + 2 ^ 33) :
    sigA * r / 2 ^ 32 * a < sigA * 2 ^ 31 ∧ sigA * 2 ^ 31 < (sigA * r / 2 ^ 32 + 3) * a := by
  have d1 : 2 ^ 32 * (sigA * r / 2 ^ 32) ≤ sigA * r := Nat.mul_div_le _ _
  have d2 : sigA * r < 2 ^ 32 * (sigA * r / 2 ^ 32 + 1) := Nat.lt_mul_div_succ _ (by norm_num)
  generalize sigA * r / 2 ^ 32 = q at *
  have e1 := Nat.mul_le_mul_right a d1
  have e2 := Nat.mul_lt_mul_of_pos_right d2 (show 0 < a by omega)
  have p1 : sigA * (r * a) < sigA * 2 ^ 63 := Nat.mul_lt_mul_of_pos_left h1 hA0
  have p2 : sigA * 2 ^ 63 ≤ sigA * (r * a + 2 ^ 33) := Nat.mul_le_mul_left _ h2
  have p3 : sigA * (r * a) = sigA * r * a := by ring
  have p4 : sigA * (r * a + 2 ^ 33) = sigA * r * a + sigA * 2 ^ 33 := by ring
  have p5 : 2 ^ 32 * q * a = 2 ^ 32 * (q * a) := by ring
  have p6 : 2 ^ 32 * (q + 1) * a = 2 ^ 32 * (q * a) + 2 ^ 32 * a := by ring
  have p7 : (q + 3) * a = q * a + 3 * a := by ring
  constructor
  · omega
  · omega

/-- The end of `f32_div`, given the first quotient. -/
theorem quot32_finish {sigA a q : ℕ} (ha : a < 2 ^ 32) (ha1 : 0 < a) (hA : sigA < 2 ^ 32) (h1 : q * a < sigA * 2 ^ 31)
    (h2 : sigA * 2 ^ 31 < (q + 3) * a) :
    Sim (2 ^ 6)
      (if (q + 2) % 2 ^ 6 < 2 then
        if (sigA * 2 ^ 32 + (2 ^ 64 - (q + 2) / 4 * 4 * 2 * a % 2 ^ 64)) % 2 ^ 64 / 2 ^ 63 = 1 then (q + 2) / 4 * 4 - 4
        else if (sigA * 2 ^ 32 + (2 ^ 64 - (q + 2) / 4 * 4 * 2 * a % 2 ^ 64)) % 2 ^ 64 ≠ 0 then (q + 2) / 4 * 4 ||| 1
        else (q + 2) / 4 * 4
      else q + 2) (((sigA * 2 ^ 31 : ℕ) : ℚ) / a) := by
  obtain ⟨k, i, hki, hi⟩ : ∃ k i, q + 2 = k * 2 ^ 6 + i ∧ i < 2 ^ 6 := ⟨(q + 2) / 2 ^ 6, (q + 2) % 2 ^ 6, by omega, by omega⟩
  have hmod : (q + 2) % 2 ^ 6 = i := by omega
  rw [hmod]
  have e1 : (q + 2) * a = k * 2 ^ 6 * a + i * a := by rw [hki]; ring
  have e2 : (q + 2) * a = q * a + 2 * a := by ring
  have e3 : (q + 3) * a = q * a + 3 * a := by ring
  have e4 : (k + 1) * 2 ^ 6 * a = k * 2 ^ 6 * a + 64 * a := by ring
  split_ifs with hc h3 h4
  · have hz : (q + 2) / 4 * 4 = k * 2 ^ 6 := by omega
    rw [hz] at h3 ⊢
    have e5 : k * 2 ^ 6 * 2 * a = 2 * (k * 2 ^ 6 * a) := by ring
    have hi2 : i * a ≤ 1 * a := Nat.mul_le_mul_right _ (by omega)
    rw [e5] at h3
    have hneg : sigA * 2 ^ 31 < k * 2 ^ 6 * a := by
      by_contra hcon
      generalize k * 2 ^ 6 * a = K at *
      generalize i * a = I at *
      generalize q * a = Q at *
      omega
    have hk : 0 < k := by
      rcases Nat.eq_zero_or_pos k with h | h
      · rw [h] at hneg; simp at hneg
      · exact h
    obtain ⟨j, rfl⟩ : ∃ j, k = j + 1 := ⟨k - 1, by omega⟩
    have e6 : (j + 1) * 2 ^ 6 * a = j * 2 ^ 6 * a + 64 * a := by ring
    exact sim_between ha1 (k := j) (by omega) (by omega) (by omega) hneg
  · have hz : (q + 2) / 4 * 4 = k * 2 ^ 6 := by omega
    rw [hz] at h3 h4 ⊢
    have e5 : k * 2 ^ 6 * 2 * a = 2 * (k * 2 ^ 6 * a) := by ring
    have hi2 : i * a ≤ 1 * a := Nat.mul_le_mul_right _ (by omega)
    rw [e5] at h3 h4
    have hpos : k * 2 ^ 6 * a < sigA * 2 ^ 31 := by
      by_contra hcon
      generalize k * 2 ^ 6 * a = K at *
      generalize i * a = I at *
      generalize q * a = Q at *
      omega
    have hor : k * 2 ^ 6 ||| 1 = k * 2 ^ 6 + 1 := by rw [lor_one]; omega
    rw [hor]
    exact sim_between ha1 (k := k) (by omega) (by omega) hpos (by omega)
  · have hz : (q + 2) / 4 * 4 = k * 2 ^ 6 := by omega
    rw [hz] at h3 h4 ⊢
    have e5 : k * 2 ^ 6 * 2 * a = 2 * (k * 2 ^ 6 * a) := by ring
    have hi2 : i * a ≤ 1 * a := Nat.mul_le_mul_right _ (by omega)
    rw [e5] at h3 h4
    refine sim_exact ha1 ?_
    generalize k * 2 ^ 6 * a = K at *
    generalize i * a = I at *
    generalize q * a = Q at *
    omega
  · have hi2 : 2 * a ≤ i * a := Nat.mul_le_mul_right _ (by omega)
    have hi3 : i * a ≤ 63 * a := Nat.mul_le_mul_right _ (by omega)
    exact sim_between ha1 (k := k) (by omega) (by omega) (by omega) (by omega)

theorem quot32_sim {A B r : ℕ} (hA : A < B) (hB : B < 2 ^ 32) (hB1 : 2 ^ 31 ≤ B) (hA0 : 0 < A) (h1 : r * B < 2 ^ 63)
    (h2 : 2 ^ 63 ≤ r * B + 2 ^ 33) {sig : ℕ}
    (hs : sig = if (A * r / 2 ^ 32 + 2) % 2 ^ 6 < 2 then
        if (A * 2 ^ 32 + (2 ^ 64 - (A * r / 2 ^ 32 + 2) / 4 * 4 * 2 * B % 2 ^ 64)) % 2 ^ 64 / 2 ^ 63 = 1 then (A * r / 2 ^ 32 + 2) / 4 * 4 - 4
        else if (A * 2 ^ 32 + (2 ^ 64 - (A * r / 2 ^ 32 + 2) / 4 * 4 * 2 * B % 2 ^ 64)) % 2 ^ 64 ≠ 0 then (A * r / 2 ^ 32 + 2) / 4 * 4 ||| 1
        else (A * r / 2 ^ 32 + 2) / 4 * 4
      else A * r / 2 ^ 32 + 2) : Sim (2 ^ 6) sig (((A * 2 ^ 31 : ℕ) : ℚ) / B) := by
  obtain ⟨c1, c2⟩ := quot32_core hA hB hB1 hA0 h1 h2
  rw [hs]
  exact quot32_finish hB (by omega) (by omega) c1 c2

theorem quotOk32 (fast : ℕ) : (soft32 fast).QuotOk softQuot32 := by
  intro m n m1 m2 n1 n2
  simp only [soft32, Nat.reduceAdd] at m1 m2 n1 n2
  have r1 := (approxRecip_spec (a := n * 2 ^ 8) (by omega) (by omega)).1
  have r2 := approxRecip_mult n1 n2
  have hfst : (softQuot32 m n).1 = decide (m < n) := by
    unfold softQuot32
    simp only
    split_ifs <;> rfl
  refine ⟨hfst, ?_⟩
  have hA : m * 2 ^ (if decide (m < n) = true then 8 else 7) < n * 2 ^ 8 := by
    by_cases h : m < n
    · rw [if_pos (decide_eq_true h)]; omega
    · rw [if_neg (by simpa using h)]; omega
  have hA0 : 0 < m * 2 ^ (if decide (m < n) = true then 8 else 7) := by
    have : 0 < m := by omega
    positivity
  have hX : (m : ℚ) / n * 2 ^ ((soft32 fast).F + (soft32 fast).G + if m < n then 1 else 0) =
      ((m * 2 ^ (if decide (m < n) = true then 8 else 7) * 2 ^ 31 : ℕ) : ℚ) / (n * 2 ^ 8 : ℕ) := by
    have hn : (n : ℚ) ≠ 0 := by have : n ≠ 0 := by omega
                                exact_mod_cast this
    have hFG : (soft32 fast).F + (soft32 fast).G = 30 := rfl
    rw [hFG]
    by_cases h : m < n
    · rw [if_pos h, if_pos (decide_eq_true h)]
      push_cast
      field_simp
      norm_num
    · rw [if_neg h, if_neg (by simpa using h)]
      push_cast
      field_simp
      norm_num
  rw [hX]
  have hG : 2 ^ ((soft32 fast).G - 1) = 2 ^ 6 := rfl
  rw [hG]
  refine quot32_sim hA (by omega) (by omega) hA0 r1 r2 ?_
  unfold softQuot32
  simp only
  generalize m * 2 ^ (if decide (m < n) = true then 8 else 7) = A
  generalize approxRecip (n * 2 ^ 8) = r
  generalize A * r / 2 ^ 32 = q
  by_cases hc : (q + 2) % 2 ^ 6 < 2
  · rw [if_pos hc, if_pos hc]
  · rw [if_neg hc, if_neg hc]

/-! ## The quotient of the 64-bit significands -/

theorem rem_cast (M C r P Q : ℕ) (hM : 0 < M) :
    ((((r + (M - P % M)) % M * C % M + (M - Q % M)) % M : ℕ) : ℤ) = ((r : ℤ) * C - ((P : ℤ) * C + Q)) % M := by
  have hP := (Nat.mod_lt P hM).le
  have hQ := (Nat.mod_lt Q hM).le
  push_cast [Nat.cast_sub hP, Nat.cast_sub hQ]
  have a1 : ((P : ℤ) % M) ≡ P [ZMOD M] := Int.mod_modEq _ _
  have a2 : ((Q : ℤ) % M) ≡ Q [ZMOD M] := Int.mod_modEq _ _
  have a0 : (M : ℤ) ≡ 0 [ZMOD M] := by simp [Int.ModEq]
  have a3 : ((r : ℤ) + (M - (P : ℤ) % M)) % M ≡ r + (0 - P) [ZMOD M] :=
    (Int.mod_modEq _ _).trans ((Int.ModEq.refl _).add (a0.sub a1))
  have a4 : ((r : ℤ) + (M - (P : ℤ) % M)) % M * C % M ≡ (r + (0 - P)) * C [ZMOD M] :=
    (Int.mod_modEq _ _).trans (a3.mul_right _)
  have a5 := a4.add (a0.sub a2)
  have e : ((r : ℤ) + (0 - P)) * C + (0 - Q) = r * C - (P * C + Q) := by ring
  rw [e] at a5
  exact a5

theorem softRem64_eq {r q B : ℕ} (hB : B % 16 = 0) (hq : q * 2 < 2 ^ 32) :
    ((softRem64 r q B : ℕ) : ℤ) = ((r : ℤ) * 2 ^ 28 - q * 2 * (B / 16 : ℕ)) % 2 ^ 64 := by
  unfold softRem64
  simp only
  rw [Nat.mod_eq_of_lt hq]
  have e : (q : ℤ) * 2 * (B / 16 : ℕ) = (q * 2 * (B / 2 ^ 32) : ℕ) * 2 ^ 28 + (q * 2 * (B % 2 ^ 32 / 2 ^ 4) : ℕ) := by
    have : B / 16 = B / 2 ^ 32 * 2 ^ 28 + B % 2 ^ 32 / 2 ^ 4 := by omega
    rw [this]
    push_cast
    ring
  rw [e]
  generalize q * 2 * (B / 2 ^ 32) = P
  generalize q * 2 * (B % 2 ^ 32 / 2 ^ 4) = Q
  have := rem_cast (2 ^ 64) (2 ^ 28) r P Q (by positivity)
  rw [this]
  norm_num

theorem quot64_recip {a r B : ℕ} (ha1 : 2 ^ 31 ≤ a) (ha2 : a < 2 ^ 32) (hB : a = B / 2 ^ 32) (h1 : r * a < 2 ^ 63)
    (h2 : 2 ^ 63 ≤ r * a + 2 * a + 2 ^ 24 + 2 ^ 16) :
    2 ≤ r ∧ r < 2 ^ 32 ∧ ∃ w, (r - 2) * B + w = 2 ^ 95 ∧ 0 < w ∧ w ≤ 4 * B + 2 ^ 57 := by
  have r2 : 2 ≤ r := by
    by_contra h
    have : r * a ≤ 1 * a := Nat.mul_le_mul_right _ (by omega)
    omega
  have r3 : r < 2 ^ 32 := by
    by_contra h
    have : 2 ^ 32 * a ≤ r * a := Nat.mul_le_mul_right _ (by omega)
    omega
  refine ⟨r2, r3, ?_⟩
  obtain ⟨R, rfl⟩ : ∃ R, r = R + 2 := ⟨r - 2, by omega⟩
  obtain ⟨l, hl, hBl⟩ : ∃ l, l < 2 ^ 32 ∧ B = a * 2 ^ 32 + l := ⟨B % 2 ^ 32, by omega, by omega⟩
  have e1 : (R + 2) * a = R * a + 2 * a := by ring
  have e2 : (R + 2 - 2) * B = R * a * 2 ^ 32 + R * l := by
    rw [Nat.add_sub_cancel, hBl]; ring
  have e3 : R * l ≤ R * 2 ^ 32 := Nat.mul_le_mul_left _ hl.le
  rw [e2]
  generalize R * a = P at *
  generalize R * l = Q at *
  exact ⟨2 ^ 95 - (P * 2 ^ 32 + Q), by omega, by omega, by omega⟩

theorem quot64_step {N R B w : ℕ} (h : R * B + w = 2 ^ 95) :
    2 ^ 64 * (N / 2 ^ 32 * R / 2 ^ 32 * B) + N * w ≤ 2 ^ 95 * N ∧
    2 ^ 95 * N < 2 ^ 64 * (N / 2 ^ 32 * R / 2 ^ 32 * B) + N * w + 2 ^ 127 + 2 ^ 64 * B + 1 := by
  have d1 : 2 ^ 32 * (N / 2 ^ 32 * R / 2 ^ 32) ≤ N / 2 ^ 32 * R := Nat.mul_div_le _ _
  have d2 : N / 2 ^ 32 * R < 2 ^ 32 * (N / 2 ^ 32 * R / 2 ^ 32 + 1) := Nat.lt_mul_div_succ _ (by norm_num)
  have n1 : 2 ^ 32 * (N / 2 ^ 32) ≤ N := Nat.mul_div_le _ _
  have n2 : N ≤ 2 ^ 32 * (N / 2 ^ 32) + 2 ^ 32 := by omega
  generalize N / 2 ^ 32 * R / 2 ^ 32 = z at *
  generalize N / 2 ^ 32 = n at *
  have m1 := Nat.mul_le_mul_right B d1
  have m2 := Nat.mul_le_mul_right B d2.le
  have k1 := Nat.mul_le_mul_right (R * B) n1
  have k2 := Nat.mul_le_mul_right (R * B) n2
  have e1 : 2 ^ 32 * z * B = 2 ^ 32 * (z * B) := by ring
  have e2 : 2 ^ 32 * (z + 1) * B = 2 ^ 32 * (z * B) + 2 ^ 32 * B := by ring
  have e3 : 2 ^ 32 * n * (R * B) = 2 ^ 32 * (n * R * B) := by ring
  have e4 : (2 ^ 32 * n + 2 ^ 32) * (R * B) = 2 ^ 32 * (n * R * B) + 2 ^ 32 * (R * B) := by ring
  have e5 : 2 ^ 95 * N = N * (R * B) + N * w := by rw [← h]; ring
  rw [e5]
  rw [e1] at m1
  rw [e2] at m2
  rw [e3] at k1
  rw [e4] at k2
  generalize n * R * B = P at *
  generalize N * (R * B) = Q at *
  generalize N * w = V at *
  generalize z * B = Z at *
  generalize R * B = X at *
  constructor
  · omega
  · omega

/-- The first half of the quotient. -/
theorem quot64_first {A B R w z : ℕ} (hA : A < B) (hA0 : 0 < A) (hB : B < 2 ^ 64) (hB1 : 2 ^ 63 ≤ B)
    (h : R * B + w = 2 ^ 95) (hw0 : 0 < w) (hw : w ≤ 4 * B + 2 ^ 57) (hz : z = A / 2 ^ 32 * R / 2 ^ 32) :
    z < 2 ^ 31 ∧ z * B < 2 ^ 31 * A ∧ 2 ^ 31 * A < z * B + 5 * B + 2 ^ 63 + 2 ^ 58 := by
  obtain ⟨s1, s2⟩ := quot64_step (N := A) h
  rw [← hz] at s1 s2
  have w1 : 1 ≤ A * w := Nat.mul_pos hA0 hw0
  have w2 : A * w ≤ 2 ^ 64 * (4 * B + 2 ^ 57) := Nat.mul_le_mul (by omega) hw
  generalize A * w = V at *
  have c : z * B < 2 ^ 31 * A := by
    generalize z * B = Z at *
    omega
  refine ⟨?_, c, ?_⟩
  · by_contra hcon
    have : 2 ^ 31 * B ≤ z * B := Nat.mul_le_mul_right _ (by omega)
    generalize z * B = Z at *
    omega
  · generalize z * B = Z at *
    omega

/-- The second half. -/
theorem quot64_second {rem B R w q : ℕ} (h0 : 0 < rem) (hr : 2 ^ 3 * rem < 5 * B + 2 ^ 63 + 2 ^ 58) (hB : B < 2 ^ 64) (hB1 : 2 ^ 63 ≤ B)
    (h : R * B + w = 2 ^ 95) (hw0 : 0 < w) (hw : w ≤ 4 * B + 2 ^ 57) (hq : q = rem / 2 ^ 32 * R / 2 ^ 32) :
    (q + 4) * 2 < 2 ^ 32 ∧ q * B < 2 ^ 31 * rem ∧ 2 ^ 31 * rem < (q + 5) * B := by
  obtain ⟨s1, s2⟩ := quot64_step (N := rem) h
  rw [← hq] at s1 s2
  have w1 : 1 ≤ rem * w := Nat.mul_pos h0 hw0
  have w2 : rem * w ≤ 2 ^ 55 * 353 * (4 * B + 2 ^ 57) := Nat.mul_le_mul (by omega) hw
  generalize rem * w = V at *
  have e : (q + 5) * B = q * B + 5 * B := by ring
  have c : q * B < 2 ^ 31 * rem := by
    generalize q * B = Z at *
    omega
  refine ⟨?_, c, ?_⟩
  · by_contra hcon
    have : (2 ^ 31 - 4) * B ≤ q * B := Nat.mul_le_mul_right _ (by omega)
    generalize q * B = Z at *
    omega
  · rw [e]
    generalize q * B = Z at *
    omega

/-- The value read back from the remainder modulo 2^64. -/
theorem rem_of_emod {x : ℤ} {t : ℕ} (ht : (t : ℤ) = x % 2 ^ 64) (h1 : -2 ^ 63 ≤ x) (h2 : x < 2 ^ 63) :
    (t / 2 ^ 63 = 1 ↔ x < 0) ∧ (t = 0 ↔ x = 0) := by
  have key : (x < 0 ∧ (t : ℤ) = x + 2 ^ 64) ∨ (0 ≤ x ∧ (t : ℤ) = x) := by
    rcases lt_or_ge x 0 with h | h
    · left
      refine ⟨h, ?_⟩
      rw [ht, ← Int.add_emod_right]
      exact Int.emod_eq_of_lt (by linarith) (by linarith)
    · right
      refine ⟨h, ?_⟩
      rw [ht]
      exact Int.emod_eq_of_lt h (by linarith)
  constructor
  · rw [Nat.div_eq_iff (by norm_num)]
    omega
  · omega

theorem quot64_cases {A B rem K U J t : ℕ} (hB : B < 2 ^ 64) (hB0 : 0 < B) (hN : A * 2 ^ 63 = U + 2 ^ 35 * rem)
    (hK : K * 2 ^ 9 * B = U + 2 ^ 9 * J) (hK1 : (K + 1) * 2 ^ 9 * B = U + 2 ^ 9 * J + 2 ^ 9 * B)
    (hlo : 32 * J < 2 ^ 31 * rem + 4 * B) (hhi : 2 ^ 31 * rem < 32 * J + 4 * B)
    (ht : (t : ℤ) = ((rem : ℤ) * 2 ^ 28 - 4 * J) % 2 ^ 64) :
    Sim (2 ^ 9) (if t / 2 ^ 63 = 1 then K * 2 ^ 9 - 2 ^ 7 else if t ≠ 0 then K * 2 ^ 9 ||| 1 else K * 2 ^ 9)
      (((A * 2 ^ 63 : ℕ) : ℚ) / B) := by
  obtain ⟨k1, k2⟩ := rem_of_emod ht (by omega) (by omega)
  simp only [k1, ne_eq, k2]
  split_ifs with h3 h4
  · have hk : 0 < K := by
      rcases Nat.eq_zero_or_pos K with h | h
      · rw [h] at hK; simp at hK; omega
      · exact h
    obtain ⟨j, rfl⟩ : ∃ j, K = j + 1 := ⟨K - 1, by omega⟩
    have e6 : (j + 1) * 2 ^ 9 * B = j * 2 ^ 9 * B + 2 ^ 9 * B := by ring
    exact sim_between hB0 (k := j) (by omega) (by omega) (by omega) (by omega)
  · refine sim_exact hB0 ?_
    rw [hK]
    omega
  · have hor : K * 2 ^ 9 ||| 1 = K * 2 ^ 9 + 1 := by rw [lor_one]; omega
    rw [hor]
    exact sim_between hB0 (k := K) (by omega) (by omega) (by omega) (by omega)

theorem quot64_rem {A B z rem : ℕ} {Y : ℤ} (hB : B < 2 ^ 64) (c2 : z * B < 2 ^ 31 * A)
    (c3 : 2 ^ 31 * A < z * B + 5 * B + 2 ^ 63 + 2 ^ 58) (h : (rem : ℤ) = ((A : ℤ) * 2 ^ 28 - Y) % 2 ^ 64) (hY : Y * 8 = (z * B : ℕ)) :
    2 ^ 31 * A = z * B + 8 * rem ∧ rem < 2 ^ 64 := by
  have hlt : (rem : ℤ) < 2 ^ 64 := by rw [h]; exact Int.emod_lt_of_pos _ (by norm_num)
  rw [Int.emod_eq_of_lt (by omega) (by omega)] at h
  generalize z * B = V at *
  omega

theorem quot64_lo {U V V2 V3 B rem : ℕ} (e : 32 * V + V2 = V3 + 4 * B) (h1 : V3 < 2 ^ 31 * rem) (h2 : 4 * B ≤ V2) :
    U + 2 ^ 9 * V < U + 2 ^ 35 * rem := by omega

theorem quot64_hi {U V V2 V3 B rem : ℕ} (e : 32 * V + V2 = V3 + 4 * B) (h1 : 2 ^ 31 * rem < V3 + 5 * B) (h2 : V2 ≤ 31 * B) :
    U + 2 ^ 35 * rem < U + 2 ^ 9 * V + 2 ^ 9 * B := by omega

/-- The end of `f64_div`, given the two partial quotients. -/
theorem quot64_finish {A B z rem q : ℕ} (hB : B < 2 ^ 64) (hB0 : 0 < B) (hB16 : B % 16 = 0) (hz : z < 2 ^ 31) (hr : 2 ^ 31 * A = z * B + 8 * rem)
    (hq : (q + 4) * 2 < 2 ^ 32) (h1 : q * B < 2 ^ 31 * rem) (h2 : 2 ^ 31 * rem < (q + 5) * B) (hrem : rem < 2 ^ 64) :
    Sim (2 ^ 9)
      (if (z * 2 ^ 32 + (q + 4) * 2 ^ 4) % 2 ^ 9 < 2 ^ 6 then
        if softRem64 rem ((q + 4) / 8 * 8) B / 2 ^ 63 = 1 then (z * 2 ^ 32 + (q + 4) * 2 ^ 4) / 2 ^ 7 * 2 ^ 7 - 2 ^ 7
        else if softRem64 rem ((q + 4) / 8 * 8) B ≠ 0 then (z * 2 ^ 32 + (q + 4) * 2 ^ 4) / 2 ^ 7 * 2 ^ 7 ||| 1
        else (z * 2 ^ 32 + (q + 4) * 2 ^ 4) / 2 ^ 7 * 2 ^ 7
      else z * 2 ^ 32 + (q + 4) * 2 ^ 4) (((A * 2 ^ 63 : ℕ) : ℚ) / B) := by
  obtain ⟨j, i, hji, hi⟩ : ∃ j i, q + 4 = j * 32 + i ∧ i < 32 := ⟨(q + 4) / 32, (q + 4) % 32, by omega, by omega⟩
  have hs : z * 2 ^ 32 + (q + 4) * 2 ^ 4 = (z * 2 ^ 23 + j) * 2 ^ 9 + i * 2 ^ 4 := by omega
  rw [hs]
  have hN : A * 2 ^ 63 = z * 2 ^ 23 * 2 ^ 9 * B + 2 ^ 35 * rem := by
    calc A * 2 ^ 63 = 2 ^ 32 * (2 ^ 31 * A) := by ring
      _ = _ := by rw [hr]; ring
  have hK : (z * 2 ^ 23 + j) * 2 ^ 9 * B = z * 2 ^ 23 * 2 ^ 9 * B + 2 ^ 9 * (j * B) := by ring
  have hK1 : (z * 2 ^ 23 + j + 1) * 2 ^ 9 * B = z * 2 ^ 23 * 2 ^ 9 * B + 2 ^ 9 * (j * B) + 2 ^ 9 * B := by ring
  have e1 : (q + 4) * B = 32 * (j * B) + i * B := by rw [hji]; ring
  have e2 : (q + 4) * B = q * B + 4 * B := by ring
  have e3 : (q + 5) * B = q * B + 5 * B := by ring
  have hm : ((z * 2 ^ 23 + j) * 2 ^ 9 + i * 2 ^ 4) % 2 ^ 9 = i * 2 ^ 4 := by
    rw [Nat.mul_comm, Nat.mul_add_mod]
    exact Nat.mod_eq_of_lt (by omega)
  have hd : ((z * 2 ^ 23 + j) * 2 ^ 9 + i * 2 ^ 4) / 2 ^ 7 * 2 ^ 7 = (z * 2 ^ 23 + j) * 2 ^ 9 + i * 2 ^ 4 / 2 ^ 7 * 2 ^ 7 := by omega
  rw [hm, hd]
  by_cases hc : i * 2 ^ 4 < 2 ^ 6
  · rw [if_pos hc]
    have hi4 : i * 2 ^ 4 / 2 ^ 7 * 2 ^ 7 = 0 := by omega
    have hq8 : (q + 4) / 8 * 8 = j * 32 := by omega
    have hi2 : i * B ≤ 3 * B := Nat.mul_le_mul_right _ (by omega)
    rw [hi4, hq8, Nat.add_zero]
    have hR := softRem64_eq (r := rem) (q := j * 32) (B := B) hB16 (by omega)
    have eB : ((j * 32 : ℕ) : ℤ) * 2 * (B / 16 : ℕ) = 4 * (j * B : ℕ) := by
      obtain ⟨c, rfl⟩ : ∃ c, B = 16 * c := ⟨B / 16, by omega⟩
      rw [Nat.mul_div_cancel_left _ (by norm_num)]
      push_cast
      ring
    rw [eB] at hR
    generalize softRem64 rem (j * 32) B = t at *
    exact quot64_cases hB hB0 hN hK hK1 (J := j * B) (by omega) (by omega) hR
  · rw [if_neg hc]
    have hi2 : 4 * B ≤ i * B := Nat.mul_le_mul_right _ (by omega)
    have hi3 : i * B ≤ 31 * B := Nat.mul_le_mul_right _ (by omega)
    refine sim_between hB0 (k := z * 2 ^ 23 + j) (by omega) (by omega) ?_ ?_
    · rw [hN, hK]
      exact quot64_lo (e1.symm.trans e2) h1 hi2
    · rw [hN, hK1]
      exact quot64_hi (e1.symm.trans e2) (by rw [← e3]; exact h2) hi3

theorem quot64_sim {A B r : ℕ} (hA : A < B) (hA0 : 0 < A) (hA8 : A % 16 = 0) (hB : B < 2 ^ 64) (hB1 : 2 ^ 63 ≤ B) (hB16 : B % 16 = 0)
    (h1 : r * (B / 2 ^ 32) < 2 ^ 63) (h2 : 2 ^ 63 ≤ r * (B / 2 ^ 32) + 2 * (B / 2 ^ 32) + 2 ^ 24 + 2 ^ 16) {R z rem q sig : ℕ}
    (hR : R = (r + 2 ^ 32 - 2) % 2 ^ 32) (hz : z = A / 2 ^ 32 * R / 2 ^ 32) (hrem : rem = softRem64 A z B)
    (hq : q = (rem / 2 ^ 32 * R / 2 ^ 32 + 4) % 2 ^ 32)
    (hs : sig = if (z * 2 ^ 32 + q * 2 ^ 4) % 2 ^ 64 % 2 ^ 9 < 2 ^ 6 then
        if softRem64 rem (q / 8 * 8) B / 2 ^ 63 = 1 then (z * 2 ^ 32 + q * 2 ^ 4) % 2 ^ 64 / 2 ^ 7 * 2 ^ 7 - 2 ^ 7
        else if softRem64 rem (q / 8 * 8) B ≠ 0 then (z * 2 ^ 32 + q * 2 ^ 4) % 2 ^ 64 / 2 ^ 7 * 2 ^ 7 ||| 1
        else (z * 2 ^ 32 + q * 2 ^ 4) % 2 ^ 64 / 2 ^ 7 * 2 ^ 7
      else (z * 2 ^ 32 + q * 2 ^ 4) % 2 ^ 64) : Sim (2 ^ 9) sig (((A * 2 ^ 63 : ℕ) : ℚ) / B) := by
  obtain ⟨r1, r2, w, w1, w2, w3⟩ := quot64_recip (a := B / 2 ^ 32) (r := r) (B := B) (by omega) (by omega) rfl h1 h2
  have hR' : R = r - 2 := by omega
  rw [← hR'] at w1
  obtain ⟨c1, c2, c3⟩ := quot64_first hA hA0 hB hB1 w1 w2 w3 hz
  have hrm := softRem64_eq (r := A) (q := z) (B := B) hB16 (by omega)
  rw [← hrem] at hrm
  have eB : (z : ℤ) * 2 * (B / 16 : ℕ) * 8 = (z * B : ℕ) := by
    obtain ⟨c, rfl⟩ : ∃ c, B = 16 * c := ⟨B / 16, by omega⟩
    rw [Nat.mul_div_cancel_left _ (by norm_num)]
    push_cast
    ring
  obtain ⟨g1, g2⟩ := quot64_rem hB c2 c3 hrm eB
  obtain ⟨f1, f2, f3⟩ := quot64_second (rem := rem) (q := rem / 2 ^ 32 * R / 2 ^ 32) (by omega) (by omega) hB hB1 w1 w2 w3 rfl
  generalize rem / 2 ^ 32 * R / 2 ^ 32 = q0 at *
  have hq' : q = q0 + 4 := by rw [hq]; exact Nat.mod_eq_of_lt (by omega)
  have hmod : (z * 2 ^ 32 + q * 2 ^ 4) % 2 ^ 64 = z * 2 ^ 32 + q * 2 ^ 4 := Nat.mod_eq_of_lt (by omega)
  rw [hs, hmod, hq']
  exact quot64_finish hB (by omega) hB16 c1 g1 f1 f2 f3 g2

theorem quotOk64 (fast : ℕ) : (soft64 fast).QuotOk softQuot64 := by
  intro m n m1 m2 n1 n2
  simp only [soft64, Nat.reduceAdd] at m1 m2 n1 n2
  obtain ⟨r1, r2⟩ := approxRecip_spec (a := n * 2 ^ 11 / 2 ^ 32) (by omega) (by omega)
  have hfst : (softQuot64 m n).1 = decide (m < n) := by
    unfold softQuot64
    simp only
    split_ifs <;> rfl
  refine ⟨hfst, ?_⟩
  have hA : m * 2 ^ (if decide (m < n) = true then 11 else 10) < n * 2 ^ 11 := by
    by_cases h : m < n
    · rw [if_pos (decide_eq_true h)]; omega
    · rw [if_neg (by simpa using h)]; omega
  have hA0 : 0 < m * 2 ^ (if decide (m < n) = true then 11 else 10) := by
    have : 0 < m := by omega
    positivity
  have hA16 : m * 2 ^ (if decide (m < n) = true then 11 else 10) % 16 = 0 := by
    split_ifs <;> omega
  have hX : (m : ℚ) / n * 2 ^ ((soft64 fast).F + (soft64 fast).G + if m < n then 1 else 0) =
      ((m * 2 ^ (if decide (m < n) = true then 11 else 10) * 2 ^ 63 : ℕ) : ℚ) / (n * 2 ^ 11 : ℕ) := by
    have hn : (n : ℚ) ≠ 0 := by have : n ≠ 0 := by omega
                                exact_mod_cast this
    have hFG : (soft64 fast).F + (soft64 fast).G = 62 := rfl
    rw [hFG]
    by_cases h : m < n
    · rw [if_pos h, if_pos (decide_eq_true h)]
      push_cast
      field_simp
      norm_num
    · rw [if_neg h, if_neg (by simpa using h)]
      push_cast
      field_simp
      norm_num
  rw [hX]
  have hG : 2 ^ ((soft64 fast).G - 1) = 2 ^ 9 := rfl
  rw [hG]
  refine quot64_sim hA hA0 hA16 (by omega) (by omega) (by omega) r1 r2 rfl rfl rfl rfl ?_
  unfold softQuot64
  simp only
  generalize m * 2 ^ (if decide (m < n) = true then 11 else 10) = A
  generalize (approxRecip (n * 2 ^ 11 / 2 ^ 32) + 2 ^ 32 - 2) % 2 ^ 32 = R
  generalize A / 2 ^ 32 * R / 2 ^ 32 = z
  generalize softRem64 A z (n * 2 ^ 11) = rem
  generalize (rem / 2 ^ 32 * R / 2 ^ 32 + 4) % 2 ^ 32 = q
  by_cases hc : (z * 2 ^ 32 + q * 2 ^ 4) % 2 ^ 64 % 2 ^ 9 < 2 ^ 6
  · rw [if_pos hc, if_pos hc]
  · rw [if_neg hc, if_neg hc]

end Thls
