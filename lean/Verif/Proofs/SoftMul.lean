import Verif.Proofs.SoftSum

/-! # `f32_mul`, `f64_mul` -/

namespace Thls
open Spec

theorem lor_top {s F : ℕ} (h1 : 2 ^ F ≤ s) (h2 : s < 2 ^ (F + 1)) : s ||| 2 ^ F = s := by
  obtain ⟨r, rfl⟩ : ∃ r, s = 2 ^ F + r := ⟨s - 2 ^ F, by omega⟩
  have h := Nat.two_pow_add_eq_or_of_lt (show r < 2 ^ F by rw [pow_succ] at h2; omega) 1
  rw [Nat.mul_one] at h
  rw [h, Nat.or_assoc, Nat.or_comm r, ← Nat.or_assoc, Nat.or_self]

theorem lor_low {s F : ℕ} (h : s < 2 ^ F) : s ||| 2 ^ F = 2 ^ F + s := by
  have h := Nat.two_pow_add_eq_or_of_lt h 1
  rw [Nat.mul_one] at h
  rw [h, Nat.or_comm]

namespace SoftFmt
variable {f : SoftFmt}

/-- The normalised significand and exponent of a finite number. -/
theorem unpackNorm_spec (ok : f.Ok) {e s : ℕ} (he : e < f.top) (hs : s < 2 ^ f.F) (h0 : ¬ (e = 0 ∧ s = 0)) :
    ∃ (x : ℤ) (m : ℕ), f.unpackNorm e s = some (x, m) ∧ 2 ^ f.F ≤ m ∧ m < 2 ^ (f.F + 1) ∧
      f.mag e s = m * 2 ^ (x - 1 + leastExp f.E f.F) ∧ 1 - (f.F : ℤ) ≤ x ∧ x < f.top := by
  have h2F : 2 ^ (f.F + 1) = 2 * 2 ^ f.F := by rw [pow_succ]; ring
  have hE := ok.hE
  have hEF := ok.hF
  have hfast := ok.hfast
  have hfl := ok.fast_le
  have hW : f.W = 1 + f.E + f.F := rfl
  obtain ⟨T, hT, htop, hpe, hT4⟩ := top_pow ok
  unfold unpackNorm
  by_cases h : e = 0
  · have hs0 : s ≠ 0 := fun h' => h0 ⟨h, h'⟩
    rw [if_pos h]
    have hsE : s < 2 ^ (f.E + f.F) := lt_of_lt_of_le hs (Nat.pow_le_pow_right (by norm_num) (by omega))
    obtain ⟨hc, hlog⟩ := clz_eq ok hs0 hsE
    obtain ⟨l1, l2⟩ := log2_spec hs0
    have hkF : Nat.log2 s < f.F := (Nat.log2_lt hs0).mpr hs
    set k := Nat.log2 s with hk
    obtain ⟨sh, hsh⟩ : ∃ sh, k + sh = f.F := ⟨f.F - k, by omega⟩
    have hshd : (f.clz s : ℤ) - f.E = sh := by rw [hc]; omega
    have m1 : 2 ^ f.F ≤ s * 2 ^ sh := by rw [← hsh, pow_add]; exact Nat.mul_le_mul_right _ l1
    have m2 : s * 2 ^ sh < 2 ^ (f.F + 1) := by
      rw [show f.F + 1 = k + 1 + sh by omega, pow_add]; exact Nat.mul_lt_mul_of_pos_right l2 (by positivity)
    have hFE : 2 ^ (f.F + 1) ≤ 2 ^ (f.E + f.F) := Nat.pow_le_pow_right (by norm_num) (by omega)
    have hshl : f.shl s (sh : ℤ) = some (s * 2 ^ sh) := by
      unfold shl
      rw [if_pos ⟨by omega, by omega⟩, Int.toNat_natCast, Nat.mod_eq_of_lt (by omega)]
    refine ⟨1 - sh, s * 2 ^ sh, ?_, m1, m2, ?_, by omega, by omega⟩
    · unfold normSubnormal
      simp only
      rw [hshd, hshl]
      simp only [Option.map_some]
      rw [lor_top m1 m2]
    · unfold mag sigOf tOf
      rw [if_pos h, if_pos h, show (1 : ℤ) - sh - 1 + leastExp f.E f.F = -(sh : ℤ) + leastExp f.E f.F by ring,
        zpow_add₀ (by norm_num) (-(sh : ℤ)), zpow_neg, zpow_natCast, Nat.cast_zero, zero_add]
      push_cast
      have : (2 : ℚ) ^ sh ≠ 0 := by positivity
      field_simp
  · rw [if_neg h]
    refine ⟨e, 2 ^ f.F + s, by rw [lor_low hs], by omega, by omega, ?_, by omega, by omega⟩
    rw [mag_pos_value h]

theorem one_eq (ok : f.Ok) : leastExp f.E f.F = 1 - f.F - f.one := by
  unfold leastExp bias
  simp only [one]; ring

/-- The requirement on the product of significands. -/
def ProdOk (f : SoftFmt) (prod : ℕ → ℕ → Option ℕ) : Prop :=
  ∀ m n, 2 ^ f.F ≤ m → m < 2 ^ (f.F + 1) → 2 ^ f.F ≤ n → n < 2 ^ (f.F + 1) →
    prod m n = some (sticky (m * n) (f.F - f.G + 1))

theorem one_bounds (ok : f.Ok) : 0 ≤ f.one ∧ f.one < ((2 ^ f.E : ℕ) : ℤ) := by
  have hE := ok.hE
  have h1 : (2 : ℤ) ^ f.E = 2 * 2 ^ (f.E - 1) := by rw [← pow_succ']; congr 1; omega
  have : (0 : ℤ) < 2 ^ (f.E - 1) := by positivity
  simp only [one]
  push_cast
  constructor <;> linarith

/-- Rounding a significand whose leading bit is in one of two places. -/
theorem shiftRound (ok : f.Ok) (s : Bool) {exp : ℤ} {sig : ℕ} {X : ℚ} (hsim : Sim 2 sig X)
    (s1 : 2 ^ (f.F + f.G - 1) ≤ sig) (s2 : sig < 2 ^ (f.E + f.F)) (he1 : -2 ^ (f.cast - 1) < exp) (he2 : exp < 2 ^ (f.cast - 1)) :
    RoundedGradual f.E f.F (sg s * (X / 2 ^ f.G * 2 ^ (exp + leastExp f.E f.F)))
      (wordDatum f.E f.F (if sig < 2 ^ (f.F + f.G) then f.roundPack s (exp - 1) (sig * 2 % 2 ^ f.fast) else f.roundPack s exp sig)) ∧
    (if sig < 2 ^ (f.F + f.G) then f.roundPack s (exp - 1) (sig * 2 % 2 ^ f.fast) else f.roundPack s exp sig) < 2 ^ f.W := by
  obtain ⟨w1, w2, w3, g3, eg⟩ := ok.facts
  have hfl := ok.fast_le
  have hd4 : 2 * 2 ∣ 2 ^ (f.G - 1) := by
    obtain ⟨k, hk⟩ : ∃ k, f.G - 1 = k + 2 := ⟨f.G - 3, by omega⟩
    rw [hk]
    exact ⟨2 ^ k, by rw [pow_add]; ring⟩
  have hpp : 2 ^ (f.F + f.G) = 2 ^ (f.F + f.G - 1) * 2 := by rw [← pow_succ]; congr 1; omega
  have hpq : 2 ^ (f.E + f.F) = 2 ^ (f.F + f.G) * 2 := by rw [← pow_succ]; congr 1; omega
  split_ifs with hc
  · rw [Nat.mod_eq_of_lt (show sig * 2 < 2 ^ f.fast by omega)]
    have := roundPack_rounded ok s (exp := exp - 1)
      (sim_mono hd4 (sim_mul (c := 2) (by norm_num) hsim)) (by omega) (by omega) (by omega) (by omega)
    refine ⟨?_, this.2⟩
    have h2 : X / 2 ^ f.G * 2 ^ (exp + leastExp f.E f.F) = X * (2 : ℕ) / 2 ^ f.G * 2 ^ (exp - 1 + leastExp f.E f.F) := by
      rw [show exp + leastExp f.E f.F = 1 + (exp - 1 + leastExp f.E f.F) by ring,
        zpow_add₀ (by norm_num) (1 : ℤ)]
      push_cast; ring
    rw [h2]
    exact this.1
  · exact roundPack_rounded ok s (exp := exp)
      (sim_mono ((by norm_num : (2 : ℕ) ∣ 2 * 2).trans hd4) hsim) (by omega) (by omega) (by omega) (by omega)

/-- The product of two numbers. -/
theorem mul_finite (ok : f.Ok) {prod : ℕ → ℕ → Option ℕ} (hp : ProdOk f prod) {a b : ℕ}
    (hea : f.exp a < f.top) (heb : f.exp b < f.top) (ha0 : ¬ (f.exp a = 0 ∧ f.frac a = 0)) (hb0 : ¬ (f.exp b = 0 ∧ f.frac b = 0)) :
    ∃ z, f.mulWith prod a b = some z ∧ z < 2 ^ f.W ∧
      RoundedGradual f.E f.F (sg (f.sign a) * f.mag (f.exp a) (f.frac a) * (sg (f.sign b) * f.mag (f.exp b) (f.frac b)))
        (wordDatum f.E f.F z) := by
  obtain ⟨w1, w2, w3, g3, eg⟩ := ok.facts
  obtain ⟨T, hT, htop, hpe, hT4⟩ := top_pow ok
  have hEF := ok.hF
  have hfl := ok.fast_le
  have hcb := ok.cast_bounds
  have hone := one_bounds ok
  obtain ⟨x, m, u1, m1, m2, v1, x1, x2⟩ := unpackNorm_spec ok hea (fields_lt f a).2 ha0
  obtain ⟨y, n, u2, n1, n2, v2, y1, y2⟩ := unpackNorm_spec ok heb (fields_lt f b).2 hb0
  have hprod := hp m n m1 m2 n1 n2
  unfold mulWith
  simp only
  rw [if_neg (by omega), if_neg (by omega), if_neg (by tauto), u1, u2]
  simp only [Option.bind_eq_bind, Option.bind_some, hprod, Option.pure_def]
  set d := f.F - f.G + 1 with hd
  set N := m * n with hN
  have q1 : 2 ^ (f.F + f.G - 1 + d) ≤ N := by
    rw [show f.F + f.G - 1 + d = f.F + f.F by omega, pow_add]; exact Nat.mul_le_mul m1 n1
  have q2 : N < 2 ^ (f.E + f.F + d) := by
    rw [show f.E + f.F + d = (f.F + 1) + (f.F + 1) by omega, pow_add]; exact Nat.mul_lt_mul'' m2 n2
  have hsim := sim_sticky N d
  have hP : (0 : ℚ) < 2 ^ d := by positivity
  have s1 : 2 ^ (f.F + f.G - 1) ≤ sticky N d := by
    rw [sim_ge hsim ⟨2 ^ (f.F + f.G - 2), by rw [← pow_succ']; congr 1; omega⟩, le_div_iff₀ hP]
    rw [pow_add] at q1
    exact_mod_cast q1
  have s2 : sticky N d < 2 ^ (f.E + f.F) := by
    rw [sim_lt hsim ⟨2 ^ (f.E + f.F - 1), by rw [← pow_succ']; congr 1; omega⟩, div_lt_iff₀ hP]
    rw [pow_add] at q2
    exact_mod_cast q2
  have hval : sg (f.sign a) * f.mag (f.exp a) (f.frac a) * (sg (f.sign b) * f.mag (f.exp b) (f.frac b)) =
      sg (f.sign a != f.sign b) * ((N : ℚ) / 2 ^ d / 2 ^ f.G * 2 ^ (x + y - f.one + leastExp f.E f.F)) := by
    rw [sg_xor, v1, v2, hN]
    have e1 : x + y - f.one + leastExp f.E f.F = (d : ℤ) + (f.G : ℤ) + ((x - 1 + leastExp f.E f.F) + (y - 1 + leastExp f.E f.F)) := by
      have := one_eq ok
      have hd' : (d : ℤ) = f.F - f.G + 1 := by omega
      rw [hd']; linarith
    rw [e1, zpow_add₀ (by norm_num) ((d : ℤ) + f.G), zpow_add₀ (by norm_num) (d : ℤ), zpow_natCast, zpow_natCast,
      zpow_add₀ (by norm_num) (x - 1 + leastExp f.E f.F)]
    have : (2 : ℚ) ^ f.G ≠ 0 := by positivity
    push_cast
    field_simp
  rw [hval]
  rw [w2]
  have hr := shiftRound ok (f.sign a != f.sign b) hsim s1 s2 (exp := x + y - f.one)
    (by rw [hT] at hone hcb; push_cast at hone hcb; omega) (by rw [hT] at hone hcb; push_cast at hone hcb; omega)
  split_ifs with hc
  · rw [if_pos hc] at hr
    exact ⟨_, rfl, hr.2, hr.1⟩
  · rw [if_neg hc] at hr
    exact ⟨_, rfl, hr.2, hr.1⟩

theorem mul_nan (prod : ℕ → ℕ → Option ℕ) (a b : ℕ) (h : f.isNaN a = true ∨ f.isNaN b = true) :
    f.mulWith prod a b = some (f.propagateNaN a b) := by
  rw [isNaN_iff, isNaN_iff] at h
  unfold mulWith
  simp only
  by_cases h1 : f.exp a = f.top
  · rw [if_pos h1, if_pos (by tauto)]
  · rw [if_neg h1, if_pos (by tauto), if_pos (by tauto)]

theorem neg_num {s : Bool} {e r : ℕ} (h : ¬ (e = 0 ∧ r = 0)) : decide (sg s * f.mag e r < 0) = s := by
  have := mag_pos (f := f) h
  cases s
  · simp only [sg, Bool.false_eq_true, if_false, one_mul]
    simp [this.le]
  · simp only [sg, if_true]
    simp [this]

/-- `f32_mul`, `f64_mul` give the IEEE 754 product. -/
theorem mul_ieee (ok : f.Ok) {prod : ℕ → ℕ → Option ℕ} (hp : ProdOk f prod) {a b : ℕ} (ha : a < 2 ^ f.W) (hb : b < 2 ^ f.W) :
    ∃ z, f.mulWith prod a b = some z ∧ z < 2 ^ f.W ∧
      IeeeProduct f.E f.F (wordDatum f.E f.F a) (wordDatum f.E f.F b) (wordDatum f.E f.F z) := by
  have ht0 : 0 < f.top := Nat.pos_of_ne_zero (top_ne_zero ok)
  have hnan : f.isNaN a = true ∨ f.isNaN b = true →
      ∃ z, f.mulWith prod a b = some z ∧ z < 2 ^ f.W ∧ wordDatum f.E f.F z = .nan := by
    intro h
    have := propagateNaN_datum ok ha hb h
    exact ⟨_, mul_nan prod a b h, this.2, this.1⟩
  have dn := defaultNaN_datum ok
  have pz := pack_zero ok (f.sign a != f.sign b)
  have pI := pack_inf ok (f.sign a != f.sign b)
  rcases kind ok ha with ⟨h, d⟩ | ⟨h, hf, d⟩ | ⟨h, hf, d⟩ | ⟨h, h0, d⟩
  · obtain ⟨z, h1, h2, h3⟩ := hnan (Or.inl h)
    exact ⟨z, h1, h2, by rw [d, h3]; rfl⟩
  · rcases kind ok hb with ⟨h', d'⟩ | ⟨h', hf', d'⟩ | ⟨h', hf', d'⟩ | ⟨h', h0', d'⟩
    · obtain ⟨z, h1, h2, h3⟩ := hnan (Or.inr h')
      exact ⟨z, h1, h2, by rw [d, d', h3]; rfl⟩
    · refine ⟨f.pack (f.sign a != f.sign b) f.top 0, ?_, pI.2, by rw [d, d', pI.1]; rfl⟩
      unfold mulWith
      simp only
      rw [if_pos h, if_neg (by omega), if_neg (by simp; omega)]
    · refine ⟨f.defaultNaN, ?_, dn.2, by rw [d, d', dn.1]; rfl⟩
      unfold mulWith
      simp only
      rw [if_pos h, if_neg (by omega), if_pos (by simp [h', hf'])]
    · refine ⟨f.pack (f.sign a != f.sign b) f.top 0, ?_, pI.2, ?_⟩
      · unfold mulWith
        simp only
        rw [if_pos h, if_neg (by omega), if_neg (by simpa using h0')]
      · rw [d, d', pI.1]
        simp only [IeeeProduct, mulSpecial, Datum.isNeg, neg_num h0']
  · rcases kind ok hb with ⟨h', d'⟩ | ⟨h', hf', d'⟩ | ⟨h', hf', d'⟩ | ⟨h', h0', d'⟩
    · obtain ⟨z, h1, h2, h3⟩ := hnan (Or.inr h')
      exact ⟨z, h1, h2, by rw [d, d', h3]; rfl⟩
    · refine ⟨f.defaultNaN, ?_, dn.2, by rw [d, d', dn.1]; rfl⟩
      unfold mulWith
      simp only
      rw [if_neg (by omega), if_pos h', if_neg (by omega), if_pos (by simp [h, hf])]
    · refine ⟨f.pack (f.sign a != f.sign b) 0 0, ?_, pz.2, by rw [d, d', pz.1]; rfl⟩
      unfold mulWith
      simp only
      rw [if_neg (by omega), if_neg (by omega), if_pos (Or.inl ⟨h, hf⟩)]
    · refine ⟨f.pack (f.sign a != f.sign b) 0 0, ?_, pz.2, ?_⟩
      · unfold mulWith
        simp only
        rw [if_neg (by omega), if_neg (by omega), if_pos (Or.inl ⟨h, hf⟩)]
      · rw [d, d', pz.1]
        simp only [IeeeProduct, mulSpecial, Datum.isNeg, neg_num h0']
  · rcases kind ok hb with ⟨h', d'⟩ | ⟨h', hf', d'⟩ | ⟨h', hf', d'⟩ | ⟨h', h0', d'⟩
    · obtain ⟨z, h1, h2, h3⟩ := hnan (Or.inr h')
      exact ⟨z, h1, h2, by rw [d, d', h3]; rfl⟩
    · refine ⟨f.pack (f.sign a != f.sign b) f.top 0, ?_, pI.2, ?_⟩
      · unfold mulWith
        simp only
        rw [if_neg (by omega), if_pos h', if_neg (by omega), if_neg (by simpa using h0)]
      · rw [d, d', pI.1]
        simp only [IeeeProduct, mulSpecial, Datum.isNeg, neg_num h0]
    · refine ⟨f.pack (f.sign a != f.sign b) 0 0, ?_, pz.2, ?_⟩
      · unfold mulWith
        simp only
        rw [if_neg (by omega), if_neg (by omega), if_pos (Or.inr ⟨h', hf'⟩)]
      · rw [d, d', pz.1]
        simp only [IeeeProduct, mulSpecial, Datum.isNeg, neg_num h0]
    · obtain ⟨z, h1, h2, h3⟩ := mul_finite ok hp (a := a) (b := b) h h' h0 h0'
      refine ⟨z, h1, h2, ?_⟩
      rw [d, d']
      exact h3

end SoftFmt

theorem sticky_scale (a d k : ℕ) : sticky (a * 2 ^ k) (d + k) = sticky a d := by
  unfold sticky
  rw [pow_add, Nat.mul_div_mul_right _ _ (by positivity), Nat.mul_mod_mul_right]
  have : 2 ^ k ≠ 0 := by positivity
  simp [this]

theorem prodOk32 (fast : ℕ) : (soft32 fast).ProdOk softProd32 := by
  intro m n m1 m2 n1 n2
  simp only [soft32, Nat.reduceAdd] at m1 m2 n1 n2
  unfold softProd32
  rw [if_pos ⟨m2, n2⟩]
  have h : m * n < 2 ^ 24 * 2 ^ 24 := Nat.mul_lt_mul'' m2 n2
  have h2 : m * n * 2 ^ 15 < 2 ^ 64 := by omega
  rw [Nat.mod_eq_of_lt (show m * n < 2 ^ 64 by omega), Nat.mod_eq_of_lt h2]
  unfold shortJam64
  rw [lor_sticky, show (32 : ℕ) = 17 + 15 by norm_num, sticky_scale]
  rfl

theorem high_sticky {N : ℕ} (h : N < 2 ^ 127) :
    (if N / 2 ^ 32 % 2 ^ 32 ≠ 0 ∨ N % 2 ^ 32 ≠ 0 then (N / 2 ^ 96 % 2 ^ 32 * 2 ^ 32 ||| N / 2 ^ 64 % 2 ^ 32) ||| 1
      else (N / 2 ^ 96 % 2 ^ 32 * 2 ^ 32 ||| N / 2 ^ 64 % 2 ^ 32)) = sticky N (43 + 21) := by
  have e1 : (N / 2 ^ 96 % 2 ^ 32 * 2 ^ 32 ||| N / 2 ^ 64 % 2 ^ 32) = N / 2 ^ 64 := by
    have h3 := Nat.two_pow_add_eq_or_of_lt (show N / 2 ^ 64 % 2 ^ 32 < 2 ^ 32 from Nat.mod_lt _ (by norm_num)) (N / 2 ^ 96 % 2 ^ 32)
    rw [Nat.mul_comm, ← h3]
    omega
  rw [e1, ← lor_sticky]
  by_cases hz : N % 2 ^ 64 = 0
  · rw [if_neg (show ¬ (N / 2 ^ 32 % 2 ^ 32 ≠ 0 ∨ N % 2 ^ 32 ≠ 0) by omega), if_neg (by simpa using hz), Nat.or_zero]
  · rw [if_pos (show (N / 2 ^ 32 % 2 ^ 32 ≠ 0 ∨ N % 2 ^ 32 ≠ 0) by omega), if_pos hz]

theorem prodOk64 (fast : ℕ) : (soft64 fast).ProdOk softProd64 := by
  intro m n m1 m2 n1 n2
  simp only [soft64, Nat.reduceAdd] at m1 m2 n1 n2
  unfold softProd64 mul64To128M
  simp only
  have h : m * n < 2 ^ 53 * 2 ^ 53 := Nat.mul_lt_mul'' m2 n2
  rw [Nat.mod_eq_of_lt (show m * 2 ^ 10 < 2 ^ 64 by omega), Nat.mod_eq_of_lt (show n * 2 ^ 11 < 2 ^ 64 by omega),
    show m * 2 ^ 10 * (n * 2 ^ 11) = m * n * 2 ^ 21 by ring]
  have h2 : m * n * 2 ^ 21 < 2 ^ 127 := by omega
  rw [Nat.mod_eq_of_lt (show m * n * 2 ^ 21 < 2 ^ 128 by omega)]
  congr 1
  have hs := sticky_scale (m * n) 43 21
  have hd : (soft64 fast).F - (soft64 fast).G + 1 = 43 := rfl
  rw [hd, ← hs]
  exact high_sticky h2

end Thls
