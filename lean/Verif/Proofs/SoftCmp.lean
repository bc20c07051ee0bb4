import Verif.Proofs.SoftMul
import Verif.SpecOrder

/-! # The comparisons, and the symmetry of sums and products -/

namespace Thls
open Spec

namespace SoftFmt
variable {f : SoftFmt}

/-- The value of a word that is not a NaN, where infinities count as the number their fields would denote. -/
def xval (f : SoftFmt) (w : ℕ) : ℚ := sg (f.sign w) * f.mag (f.exp w) (f.frac w)

theorem lt_iff_xval (ok : f.Ok) {a b : ℕ} (ha : a < 2 ^ f.W) (hb : b < 2 ^ f.W) (na : f.isNaN a = false) (nb : f.isNaN b = false) :
    ((wordDatum f.E f.F a).Lt (wordDatum f.E f.F b) ↔ f.xval a < f.xval b) ∧
    ((wordDatum f.E f.F a).RealEq (wordDatum f.E f.F b) ↔ f.xval a = f.xval b) := by
  have hL : 0 < f.mag f.top 0 := mag_pos (by have := top_ne_zero ok; tauto)
  have hz : f.mag 0 0 = 0 := mag_eq_zero.mpr ⟨rfl, rfl⟩
  have la := fun h : f.exp a < f.top => mag_lt_exp (f := f) (big := 0) h (fields_lt f a).2
  have lb := fun h : f.exp b < f.top => mag_lt_exp (f := f) (big := 0) h (fields_lt f b).2
  unfold xval
  rcases kind ok ha with ⟨h, d⟩ | ⟨h, hf, d⟩ | ⟨h, hf, d⟩ | ⟨h, h0, d⟩
  · rw [h] at na; cases na
  all_goals
    rcases kind ok hb with ⟨h', d'⟩ | ⟨h', hf', d'⟩ | ⟨h', hf', d'⟩ | ⟨h', h0', d'⟩
    · rw [h'] at nb; cases nb
    all_goals
      rw [d, d']
  · rw [h, hf, h', hf']
    generalize f.mag f.top 0 = L at *
    cases f.sign a <;> cases f.sign b <;> simp [Datum.Lt, Datum.RealEq, sg] <;> constructor <;> linarith
  · rw [h, hf, h', hf', hz]
    generalize f.mag f.top 0 = L at *
    cases f.sign a <;> cases f.sign b <;> simp [Datum.Lt, Datum.RealEq, sg] <;> constructor <;> linarith
  · have l := lb h'
    have p := mag_pos (f := f) h0'
    rw [h, hf]
    generalize f.mag f.top 0 = L at *
    generalize f.mag (f.exp b) (f.frac b) = q at *
    cases f.sign a <;> cases f.sign b <;> simp [Datum.Lt, Datum.RealEq, sg] <;> constructor <;> linarith
  · rw [h, hf, h', hf', hz]
    generalize f.mag f.top 0 = L at *
    cases f.sign a <;> cases f.sign b <;> simp [Datum.Lt, Datum.RealEq, sg] <;> constructor <;> linarith
  · rw [h, hf, h', hf', hz]
    simp [Datum.Lt, Datum.RealEq]
  · have p := mag_pos (f := f) h0'
    rw [h, hf, hz]
    have q := sg_num_ne (f := f) (s := f.sign b) h0'
    simp only [Datum.Lt, Datum.RealEq, mul_zero, reduceCtorEq, false_iff, true_and]
    exact fun h => q h.symm
  · have l := la h
    have p := mag_pos (f := f) h0
    rw [h', hf']
    generalize f.mag f.top 0 = L at *
    generalize f.mag (f.exp a) (f.frac a) = q at *
    cases f.sign a <;> cases f.sign b <;> simp [Datum.Lt, Datum.RealEq, sg] <;> constructor <;> linarith
  · have p := mag_pos (f := f) h0
    rw [h', hf', hz]
    have q := sg_num_ne (f := f) (s := f.sign a) h0
    simp only [Datum.Lt, Datum.RealEq, mul_zero, reduceCtorEq, false_iff, true_and]
    exact q
  · simp only [Datum.Lt, Datum.RealEq, Datum.num.injEq, and_self]

/-- The magnitude bits of a word order the magnitudes. -/
theorem mag_lt_iff (a b : ℕ) : f.mag (f.exp a) (f.frac a) < f.mag (f.exp b) (f.frac b) ↔ a % 2 ^ (f.W - 1) < b % 2 ^ (f.W - 1) := by
  have key : ∀ a b, a % 2 ^ (f.W - 1) < b % 2 ^ (f.W - 1) → f.mag (f.exp a) (f.frac a) < f.mag (f.exp b) (f.frac b) := by
    intro a b h
    rcases (exp_le_of_mag h.le).lt_or_eq with he | he
    · exact mag_lt_exp he (fields_lt f a).2
    · rw [mag_mod, mag_mod, he] at h
      rw [he]
      exact mag_lt_frac (by omega)
  constructor
  · intro h
    by_contra hc
    rcases (not_lt.mp hc).lt_or_eq with h' | h'
    · exact absurd h (not_lt.mpr (key b a h').le)
    · have e1 := exp_le_of_mag h'.le
      have e2 := exp_le_of_mag h'.ge
      rw [mag_mod, mag_mod, le_antisymm e1 e2] at h'
      rw [le_antisymm e2 e1, show f.frac a = f.frac b by omega] at h
      exact lt_irrefl _ h
  · exact key a b

theorem mag_eq_iff (a b : ℕ) : f.mag (f.exp a) (f.frac a) = f.mag (f.exp b) (f.frac b) ↔ a % 2 ^ (f.W - 1) = b % 2 ^ (f.W - 1) := by
  have h1 := mag_lt_iff (f := f) a b
  have h2 := mag_lt_iff (f := f) b a
  constructor
  · intro h
    rw [h] at h1 h2
    simp only [lt_irrefl, false_iff] at h1 h2
    omega
  · intro h
    rw [h] at h1 h2
    simp only [lt_irrefl, iff_false] at h1 h2
    linarith

theorem mag_zero_iff (a : ℕ) : f.mag (f.exp a) (f.frac a) = 0 ↔ a % 2 ^ (f.W - 1) = 0 := by
  rw [mag_eq_zero, mag_mod]
  have := Nat.two_pow_pos f.F
  constructor
  · rintro ⟨h1, h2⟩; rw [h1, h2]; simp
  · intro h
    have h2 : f.exp a * 2 ^ f.F = 0 := by omega
    exact ⟨by rcases Nat.mul_eq_zero.mp h2 with h | h <;> omega, by omega⟩

theorem both_zero (a b : ℕ) : ((a ||| b) * 2 % 2 ^ f.W == 0) = true ↔ a % 2 ^ (f.W - 1) = 0 ∧ b % 2 ^ (f.W - 1) = 0 := by
  rw [beq_iff_eq, show f.W = f.W - 1 + 1 by simp only [W]; omega, pow_succ, Nat.mul_mod_mul_right, Nat.add_sub_cancel, Nat.or_mod_two_pow]
  rw [Nat.mul_eq_zero, Nat.or_eq_zero_iff]
  simp

theorem word_split {w : ℕ} (hw : w < 2 ^ f.W) : w = (f.sign w).toNat * 2 ^ (f.W - 1) + w % 2 ^ (f.W - 1) := by
  conv_lhs => rw [(word_fields w hw).1]
  rw [mag_mod, show f.W - 1 = f.E + f.F by simp only [W]; omega]

theorem lt_iff_words (ok : f.Ok) {a b : ℕ} (ha : a < 2 ^ f.W) (hb : b < 2 ^ f.W) (na : f.isNaN a = false) (nb : f.isNaN b = false) :
    f.lt a b = true ↔ f.xval a < f.xval b := by
  have h1 := mag_lt_iff (f := f) a b
  have h2 := mag_lt_iff (f := f) b a
  have za := mag_zero_iff (f := f) a
  have zb := mag_zero_iff (f := f) b
  have bz := both_zero (f := f) a b
  have wa := word_split ha
  have wb := word_split hb
  have pa := mag_nonneg (f := f) (f.exp a) (f.frac a)
  have pb := mag_nonneg (f := f) (f.exp b) (f.frac b)
  unfold lt xval
  rw [na, nb]
  simp only [Bool.or_self, Bool.false_eq_true, if_false]
  generalize hma : f.mag (f.exp a) (f.frac a) = x at *
  generalize hmb : f.mag (f.exp b) (f.frac b) = y at *
  generalize a % 2 ^ (f.W - 1) = A at *
  generalize b % 2 ^ (f.W - 1) = B at *
  cases hsa : f.sign a <;> cases hsb : f.sign b <;> rw [hsa] at wa <;> rw [hsb] at wb <;>
    simp only [Bool.toNat_false, Bool.toNat_true, Nat.zero_mul, Nat.one_mul, Nat.zero_add] at wa wb
  · simp only [sg, bne_self_eq_false, Bool.false_eq_true, if_false, one_mul]
    rw [h1]
    simp only [Bool.and_eq_true, bne_iff_ne]
    constructor
    · rintro ⟨-, h⟩
      have : decide (a < b) = true := by cases h' : decide (a < b) <;> simp_all
      have := of_decide_eq_true this
      omega
    · intro h
      refine ⟨by omega, ?_⟩
      rw [decide_eq_true (show a < b by omega)]; simp
  · simp only [sg, Bool.false_bne, if_true, Bool.false_eq_true, if_false, Bool.false_and, false_iff]
    linarith
  · simp only [sg, Bool.true_bne, Bool.not_false, if_true, Bool.true_and, Bool.false_eq_true, if_false]
    have : (((a ||| b) * 2 % 2 ^ f.W != 0) = true) ↔ ¬ (A = 0 ∧ B = 0) := by rw [← bz]; simp
    rw [this, ← za, ← zb]
    constructor
    · intro h
      by_contra hc
      exact h ⟨by linarith, by linarith⟩
    · rintro h ⟨rfl, rfl⟩
      linarith
  · simp only [sg, bne_self_eq_false, Bool.false_eq_true, if_false, if_true]
    rw [show ((-1 : ℚ) * x < -1 * y ↔ y < x) from ⟨fun h => by linarith, fun h => by linarith⟩, h2]
    simp only [Bool.and_eq_true, bne_iff_ne, Bool.true_bne, Bool.not_eq_true', decide_eq_false_iff_not]
    constructor
    · rintro ⟨h, h'⟩
      have : ¬ a < b := by simpa using h'
      omega
    · intro h
      exact ⟨by omega, by simp; omega⟩

theorem eq_iff_words (ok : f.Ok) {a b : ℕ} (ha : a < 2 ^ f.W) (hb : b < 2 ^ f.W) (na : f.isNaN a = false) (nb : f.isNaN b = false) :
    f.eq a b = true ↔ f.xval a = f.xval b := by
  have h1 := mag_eq_iff (f := f) a b
  have za := mag_zero_iff (f := f) a
  have zb := mag_zero_iff (f := f) b
  have bz := both_zero (f := f) a b
  have wa := word_split ha
  have wb := word_split hb
  have pa := mag_nonneg (f := f) (f.exp a) (f.frac a)
  have pb := mag_nonneg (f := f) (f.exp b) (f.frac b)
  have hp := Nat.two_pow_pos (f.W - 1)
  have la : a % 2 ^ (f.W - 1) < 2 ^ (f.W - 1) := Nat.mod_lt _ hp
  have lb : b % 2 ^ (f.W - 1) < 2 ^ (f.W - 1) := Nat.mod_lt _ hp
  unfold eq xval
  rw [na, nb]
  simp only [Bool.or_self, Bool.false_eq_true, if_false]
  rw [Bool.or_eq_true, bz, beq_iff_eq]
  generalize f.mag (f.exp a) (f.frac a) = x at *
  generalize f.mag (f.exp b) (f.frac b) = y at *
  generalize a % 2 ^ (f.W - 1) = A at *
  generalize b % 2 ^ (f.W - 1) = B at *
  cases hsa : f.sign a <;> cases hsb : f.sign b <;> rw [hsa] at wa <;> rw [hsb] at wb <;>
    simp only [Bool.toNat_false, Bool.toNat_true, Nat.zero_mul, Nat.one_mul, Nat.zero_add] at wa wb
  · simp only [sg, Bool.false_eq_true, if_false, one_mul]
    rw [h1]; omega
  · simp only [sg, Bool.false_eq_true, if_false, if_true, one_mul, neg_one_mul]
    rw [← za, ← zb]
    constructor
    · rintro (h | ⟨rfl, rfl⟩)
      · omega
      · simp
    · intro h
      right
      exact ⟨by linarith, by linarith⟩
  · simp only [sg, Bool.false_eq_true, if_false, if_true, one_mul, neg_one_mul]
    rw [← za, ← zb]
    constructor
    · rintro (h | ⟨rfl, rfl⟩)
      · omega
      · simp
    · intro h
      right
      exact ⟨by linarith, by linarith⟩
  · simp only [sg, if_true, neg_one_mul, neg_inj]
    rw [h1]; omega

theorem nan_false {w : ℕ} (h : ¬ f.isNaN w = true) : f.isNaN w = false := by simpa using h

theorem nan_datum (ok : f.Ok) {w : ℕ} (hw : w < 2 ^ f.W) (h : f.isNaN w = true) : wordDatum f.E f.F w = .nan := by
  rw [isNaN_iff] at h
  exact datum_nan ok hw h.1 h.2

theorem not_lt_nan (d : Datum) : ¬ d.Lt .nan := by
  cases d <;> simp [Datum.Lt]
theorem not_eq_nan (d : Datum) : ¬ d.RealEq .nan := by
  cases d <;> simp [Datum.RealEq]

theorem lt_spec (ok : f.Ok) {a b : ℕ} (ha : a < 2 ^ f.W) (hb : b < 2 ^ f.W) :
    f.lt a b = true ↔ (wordDatum f.E f.F a).Lt (wordDatum f.E f.F b) := by
  by_cases na : f.isNaN a = true
  · rw [nan_datum ok ha na]; unfold lt; rw [na]; simp [Datum.Lt]
  · by_cases nb : f.isNaN b = true
    · rw [nan_datum ok hb nb]; unfold lt; rw [nb]; simp [not_lt_nan]
    · rw [(lt_iff_xval ok ha hb (nan_false na) (nan_false nb)).1, lt_iff_words ok ha hb (nan_false na) (nan_false nb)]

theorem eq_spec (ok : f.Ok) {a b : ℕ} (ha : a < 2 ^ f.W) (hb : b < 2 ^ f.W) :
    f.eq a b = true ↔ (wordDatum f.E f.F a).RealEq (wordDatum f.E f.F b) := by
  by_cases na : f.isNaN a = true
  · rw [nan_datum ok ha na]; unfold eq; rw [na]; simp [Datum.RealEq]
  · by_cases nb : f.isNaN b = true
    · rw [nan_datum ok hb nb]; unfold eq; rw [nb]; simp [not_eq_nan]
    · rw [(lt_iff_xval ok ha hb (nan_false na) (nan_false nb)).2, eq_iff_words ok ha hb (nan_false na) (nan_false nb)]

/-- `le` is `lt` or `eq`. -/
theorem le_eq (ok : f.Ok) {a b : ℕ} (ha : a < 2 ^ f.W) (hb : b < 2 ^ f.W) : f.le a b = (f.lt a b || f.eq a b) := by
  have bz := both_zero (f := f) a b
  have wa := word_split ha
  have wb := word_split hb
  have hp := Nat.two_pow_pos (f.W - 1)
  have la : a % 2 ^ (f.W - 1) < 2 ^ (f.W - 1) := Nat.mod_lt _ hp
  have lb : b % 2 ^ (f.W - 1) < 2 ^ (f.W - 1) := Nat.mod_lt _ hp
  unfold le lt eq
  by_cases hn : (f.isNaN a || f.isNaN b) = true
  · rw [if_pos hn, if_pos hn, if_pos hn]; rfl
  · rw [if_neg hn, if_neg hn, if_neg hn]
    by_cases hs : f.sign a = f.sign b
    · rw [if_neg (by simp [hs]), if_neg (by simp [hs])]
      by_cases hab : a = b
      · simp [hab]
      · have : ((a ||| b) * 2 % 2 ^ f.W == 0) = false := by
          rw [Bool.eq_false_iff, ne_eq, bz]
          rintro ⟨h1, h2⟩
          rw [← hs] at wb
          omega
        have e1 : (a == b) = false := by simpa using hab
        have e2 : (a != b) = true := by simpa using hab
        rw [this, e1, e2]
        simp
    · rw [if_pos (by simpa using hs), if_pos (by simpa using hs)]
      have hab : a ≠ b := fun h => hs (by rw [h])
      cases f.sign a <;> simp [hab]
      exact (em _).symm

theorem le_spec (ok : f.Ok) {a b : ℕ} (ha : a < 2 ^ f.W) (hb : b < 2 ^ f.W) :
    f.le a b = true ↔ (wordDatum f.E f.F a).Le (wordDatum f.E f.F b) := by
  rw [le_eq ok ha hb, Bool.or_eq_true, lt_spec ok ha hb, eq_spec ok ha hb]
  rfl

/-- The word of an infinity. -/
theorem inf_word (ok : f.Ok) {w : ℕ} (hw : w < 2 ^ f.W) (he : f.exp w = f.top) (hf : f.frac w = 0) :
    f.pack (f.sign w) f.top 0 = w := by
  obtain ⟨T, hT, htop, hpe, -⟩ := top_pow ok
  have hF := Nat.two_pow_pos f.F
  have hp : f.top * 2 ^ f.F = T * 2 ^ f.F + 3 * 2 ^ f.F := by rw [htop]; ring
  rw [pack_eq ok _ (by omega)]
  conv_rhs => rw [(word_fields w hw).1, he, hf]

theorem addMags_comm (ok : f.Ok) {a b : ℕ} (ha : a < 2 ^ f.W) (hb : b < 2 ^ f.W) (hs : f.sign a = f.sign b) :
    f.addMags a b = f.addMags b a := by
  have ea := exp_le_top f a
  have eb := exp_le_top f b
  have wa := (word_fields a ha).1
  have wb := (word_fields b hb).1
  have ia := inf_word ok ha
  have ib := inf_word ok hb
  unfold addMags
  simp only
  rw [propagateNaN_comm b a, hs]
  rw [hs] at wa ia
  by_cases he : f.exp a = f.exp b
  · rw [if_pos he, if_pos he.symm, he]
    rw [he] at wa
    by_cases h0 : f.exp b = 0
    · rw [if_pos h0, if_pos h0]; congr 1; omega
    · rw [if_neg h0, if_neg h0]
      by_cases ht : f.exp b = f.top
      · rw [if_pos ht, if_pos ht]
        by_cases hn : f.frac a ≠ 0 ∨ f.frac b ≠ 0
        · rw [if_pos hn, if_pos hn.symm]
        · rw [if_neg hn, if_neg (fun h => hn h.symm)]
          have h1 : f.frac a = 0 := by omega
          have h2 : f.frac b = 0 := by omega
          rw [h1] at wa
          rw [h2] at wb
          omega
      · rw [if_neg ht, if_neg ht, Nat.add_right_comm]
  · rw [if_neg he, if_neg (Ne.symm he)]
    by_cases hlt : f.exp a < f.exp b
    · rw [if_pos hlt, if_neg (show ¬ f.exp b < f.exp a by omega)]
      by_cases ht : f.exp b = f.top
      · rw [if_pos ht, if_pos ht]
        by_cases hn : f.frac b = 0
        · rw [if_neg (by simpa using hn), if_neg (by simpa using hn), ib ht hn]
        · rw [if_pos hn, if_pos hn]
      · rw [if_neg ht, if_neg ht]
    · rw [if_neg hlt, if_pos (show f.exp b < f.exp a by omega)]
      by_cases ht : f.exp a = f.top
      · rw [if_pos ht, if_pos ht]
        by_cases hn : f.frac a = 0
        · rw [if_neg (by simpa using hn), if_neg (by simpa using hn), ia ht hn]
        · rw [if_pos hn, if_pos hn]
      · rw [if_neg ht, if_neg ht]

theorem subNear_comm (s : Bool) (e x y : ℕ) : f.subNear s e x y = f.subNear (!s) e y x := by
  unfold subNear
  simp only
  rcases lt_trichotomy x y with h | h | h
  · rw [if_neg (show ¬ ((x : ℤ) - y = 0) by omega), if_neg (show ¬ ((y : ℤ) - x = 0) by omega), if_pos (show (x : ℤ) - y < 0 by omega), if_neg (show ¬ ((y : ℤ) - x < 0) by omega),
      show ((x : ℤ) - y).natAbs = ((y : ℤ) - x).natAbs by omega]
  · rw [h, if_pos (by omega), if_pos (by omega)]
  · rw [if_neg (show ¬ ((x : ℤ) - y = 0) by omega), if_neg (show ¬ ((y : ℤ) - x = 0) by omega), if_neg (show ¬ ((x : ℤ) - y < 0) by omega), if_pos (show (y : ℤ) - x < 0 by omega),
      show ((x : ℤ) - y).natAbs = ((y : ℤ) - x).natAbs by omega, Bool.not_not]

theorem subMags_comm (ok : f.Ok) {a b : ℕ} (ha : a < 2 ^ f.W) (hb : b < 2 ^ f.W) (hs : f.sign b = !f.sign a) :
    f.subMags a b = f.subMags b a := by
  have ia := inf_word ok ha
  have ib := inf_word ok hb
  unfold subMags
  simp only
  rw [propagateNaN_comm b a, hs]
  rw [hs] at ib
  by_cases he : f.exp a = f.exp b
  · rw [if_pos he, if_pos he.symm, he]
    by_cases ht : f.exp b = f.top
    · rw [if_pos ht, if_pos ht]
      by_cases hn : f.frac a ≠ 0 ∨ f.frac b ≠ 0
      · rw [if_pos hn, if_pos hn.symm]
      · rw [if_neg hn, if_neg (fun h => hn h.symm)]
    · rw [if_neg ht, if_neg ht, subNear_comm]
  · rw [if_neg he, if_neg (Ne.symm he), Bool.not_not]
    by_cases hlt : f.exp a < f.exp b
    · rw [if_pos hlt, if_neg (show ¬ f.exp b < f.exp a by omega)]
      by_cases ht : f.exp b = f.top
      · rw [if_pos ht, if_pos ht]
        by_cases hn : f.frac b = 0
        · rw [if_neg (by simpa using hn), if_neg (by simpa using hn), ib ht hn]
        · rw [if_pos hn, if_pos hn]
      · rw [if_neg ht, if_neg ht]
    · rw [if_neg hlt, if_pos (show f.exp b < f.exp a by omega)]
      by_cases ht : f.exp a = f.top
      · rw [if_pos ht, if_pos ht]
        by_cases hn : f.frac a = 0
        · rw [if_neg (by simpa using hn), if_neg (by simpa using hn), ia ht hn]
        · rw [if_pos hn, if_pos hn]
      · rw [if_neg ht, if_neg ht]

theorem add_comm (ok : f.Ok) {a b : ℕ} (ha : a < 2 ^ f.W) (hb : b < 2 ^ f.W) : f.add a b = f.add b a := by
  unfold add
  by_cases hs : f.sign a = f.sign b
  · rw [if_neg (by simp [hs]), if_neg (by simp [hs]), addMags_comm ok ha hb hs]
  · rw [if_pos (by simpa using hs), if_pos (by simpa using fun h => hs h.symm)]
    exact subMags_comm ok ha hb (by cases h : f.sign a <;> cases h' : f.sign b <;> simp_all)

theorem mul_comm (ok : f.Ok) {prod : ℕ → ℕ → Option ℕ} (hp : ProdOk f prod) (a b : ℕ) : f.mulWith prod a b = f.mulWith prod b a := by
  by_cases hn : f.isNaN a = true ∨ f.isNaN b = true
  · rw [mul_nan _ _ _ hn, mul_nan _ _ _ hn.symm, propagateNaN_comm]
  · rw [not_or, isNaN_iff, isNaN_iff] at hn
    have ht0 := top_ne_zero ok
    have hx : (f.sign a != f.sign b) = (f.sign b != f.sign a) := by cases f.sign a <;> cases f.sign b <;> rfl
    have ea := exp_le_top f a
    have eb := exp_le_top f b
    unfold mulWith
    simp only
    rw [hx]
    by_cases h1 : f.exp a = f.top
    · by_cases h2 : f.exp b = f.top
      · have za : (f.exp a == 0) = false := by simp; omega
        have zb : (f.exp b == 0) = false := by simp; omega
        rw [if_pos h1, if_pos h2, if_neg (show ¬ (f.frac a ≠ 0 ∨ f.exp b = f.top ∧ f.frac b ≠ 0) by omega), if_neg (show ¬ (f.frac b ≠ 0 ∨ f.exp a = f.top ∧ f.frac a ≠ 0) by omega), za, zb]
        rfl
      · rw [if_pos h1, if_neg h2, if_pos h1, if_neg (show ¬ (f.frac a ≠ 0 ∨ f.exp b = f.top ∧ f.frac b ≠ 0) by omega), if_neg (show ¬ (f.frac a ≠ 0) by omega)]
    · by_cases h2 : f.exp b = f.top
      · rw [if_neg h1, if_pos h2, if_pos h2, if_neg (show ¬ (f.frac b ≠ 0) by omega), if_neg (show ¬ (f.frac b ≠ 0 ∨ f.exp a = f.top ∧ f.frac a ≠ 0) by omega)]
      · rw [if_neg h1, if_neg h2, if_neg h2, if_neg h1]
        by_cases hz : (f.exp a = 0 ∧ f.frac a = 0) ∨ (f.exp b = 0 ∧ f.frac b = 0)
        · rw [if_pos hz, if_pos hz.symm]
        · rw [if_neg hz, if_neg (fun h => hz h.symm)]
          rw [not_or] at hz
          obtain ⟨x, m, u1, m1, m2, -⟩ := unpackNorm_spec ok (show f.exp a < f.top by omega) (fields_lt f a).2 hz.1
          obtain ⟨y, n, u2, n1, n2, -⟩ := unpackNorm_spec ok (show f.exp b < f.top by omega) (fields_lt f b).2 hz.2
          rw [u1, u2]
          simp only [Option.bind_eq_bind, Option.bind_some, hp m n m1 m2 n1 n2, hp n m n1 n2 m1 m2]
          rw [Nat.mul_comm n m, _root_.add_comm y x]

end SoftFmt
end Thls
