import Verif.Proofs.SoftPack

/-! # The fields of a word and the number they denote -/

namespace Thls
open Spec

/-- Rounding a number of the format leaves it as it is. -/
theorem roundedG_self {E F m : ℕ} {e : ℤ} {q : ℚ} {d : Datum} (h : RoundedGradual E F q d) (hg : IsGradual E F m e)
    (hq : |q| = m * 2 ^ e) (h0 : q ≠ 0) (hl : |q| < ieeeLimit E) : d = .num q := by
  obtain ⟨m', e', hn, rfl⟩ := h
  have h1 := hn.2.2.1 m e hg
  rw [← hq, sub_self, abs_zero] at h1
  have h2 : |q| = m' * 2 ^ e' := by
    have := abs_nonpos_iff.mp h1
    linarith
  have hm : m' ≠ 0 := by
    rintro rfl
    rw [Nat.cast_zero, zero_mul, abs_eq_zero] at h2
    exact h0 h2
  rw [if_neg hm, ← h2, if_neg (not_le.mpr hl)]
  congr 1
  split_ifs with hs
  · rw [abs_of_neg hs]; ring
  · rw [abs_of_nonneg (not_lt.mp hs)]; ring

/-- A representable significand is its own choice. -/
theorem choice_exact (q : ℕ) (e : ℤ) : Choice q q e (q * 2 ^ e) := by
  have hu := two_zpow_pos e
  refine ⟨le_rfl, ?_, Or.inl ⟨rfl, ?_, ?_⟩⟩
  · rw [add_mul]; linarith
  · rw [sub_self]; linarith
  · rw [sub_self]; intro h; linarith

namespace SoftFmt
variable {f : SoftFmt}

/-- The integer significand of a finite word. -/
def sigOf (f : SoftFmt) (exp frac : ℕ) : ℕ := if exp = 0 then frac else 2 ^ f.F + frac
/-- Its exponent above the least one. -/
def tOf (exp : ℕ) : ℕ := if exp = 0 then 0 else exp - 1
/-- The magnitude of a finite word. -/
def mag (f : SoftFmt) (exp frac : ℕ) : ℚ := (f.sigOf exp frac : ℚ) * 2 ^ ((tOf exp : ℤ) + leastExp f.E f.F)
/-- The sign as a factor. -/
def sg (s : Bool) : ℚ := if s then -1 else 1

theorem mag_nonneg (exp frac : ℕ) : 0 ≤ f.mag exp frac :=
  mul_nonneg (Nat.cast_nonneg _) (two_zpow_pos _).le

theorem mag_eq_zero {exp frac : ℕ} : f.mag exp frac = 0 ↔ exp = 0 ∧ frac = 0 := by
  unfold mag sigOf
  rw [mul_eq_zero]
  have hF := Nat.two_pow_pos f.F
  constructor
  · rintro (h | h)
    · rw [Nat.cast_eq_zero] at h
      split_ifs at h <;> omega
    · exact absurd h (two_zpow_pos _).ne'
  · rintro ⟨rfl, rfl⟩
    left; simp

theorem fields_lt (f : SoftFmt) (w : ℕ) : f.exp w < 2 ^ f.E ∧ f.frac w < 2 ^ f.F :=
  ⟨Nat.mod_lt _ (by positivity), Nat.mod_lt _ (by positivity)⟩

theorem word_fields (w : ℕ) (hw : w < 2 ^ f.W) :
    w = (f.sign w).toNat * 2 ^ (f.E + f.F) + (f.frac w + f.exp w * 2 ^ f.F) ∧ w / 2 ^ (f.E + f.F) = (f.sign w).toNat := by
  have h1 : w / 2 ^ (f.E + f.F) < 2 := by
    rw [Nat.div_lt_iff_lt_mul (by positivity), Nat.mul_comm, ← W_pow]; exact hw
  have hs : (f.sign w).toNat = w / 2 ^ (f.E + f.F) := by
    unfold sign
    rw [show f.W - 1 = f.E + f.F by simp only [W]; omega]
    generalize w / 2 ^ (f.E + f.F) = v at *
    have : v = 0 ∨ v = 1 := by omega
    rcases this with h | h <;> rw [h] <;> rfl
  refine ⟨?_, hs.symm⟩
  rw [hs]
  unfold frac exp
  have h2 := Nat.div_add_mod w (2 ^ f.F)
  have h3 := Nat.div_add_mod (w / 2 ^ f.F) (2 ^ f.E)
  rw [Nat.div_div_eq_div_mul, ← pow_add, Nat.add_comm f.F f.E] at h3
  have h4 : 2 ^ (f.E + f.F) = 2 ^ f.F * 2 ^ f.E := by rw [pow_add]; ring
  calc w = 2 ^ f.F * (w / 2 ^ f.F) + w % 2 ^ f.F := h2.symm
    _ = 2 ^ f.F * (2 ^ f.E * (w / 2 ^ (f.E + f.F)) + w / 2 ^ f.F % 2 ^ f.E) + w % 2 ^ f.F := by rw [h3]
    _ = _ := by rw [h4]; ring

theorem sg_eq (s : Bool) : (if s.toNat = 1 then (-1 : ℚ) else 1) = sg s := by cases s <;> rfl

theorem datum_eq {w : ℕ} (hw : w < 2 ^ f.W) :
    wordDatum f.E f.F w = ieeeDenote f.E f.F (f.sign w).toNat (f.exp w) (f.frac w) := by
  unfold wordDatum
  rw [(word_fields w hw).2]
  rfl

theorem datum_nan {w : ℕ} (ok : f.Ok) (hw : w < 2 ^ f.W) (he : f.exp w = f.top) (hf : f.frac w ≠ 0) :
    wordDatum f.E f.F w = .nan := by
  obtain ⟨T, hT, htop, -, -⟩ := top_pow ok
  rw [datum_eq hw, he, htop]
  unfold ieeeDenote
  rw [if_neg (by omega), if_pos (by omega), if_neg hf]

theorem datum_inf {w : ℕ} (ok : f.Ok) (hw : w < 2 ^ f.W) (he : f.exp w = f.top) (hf : f.frac w = 0) :
    wordDatum f.E f.F w = .inf (f.sign w) := by
  obtain ⟨T, hT, htop, -, -⟩ := top_pow ok
  rw [datum_eq hw, he, htop]
  unfold ieeeDenote
  rw [if_neg (by omega), if_pos (by omega), if_pos hf]
  cases f.sign w <;> rfl

theorem datum_zero {w : ℕ} (hw : w < 2 ^ f.W) (he : f.exp w = 0) (hf : f.frac w = 0) :
    wordDatum f.E f.F w = .zero (f.sign w) := by
  rw [datum_eq hw, he, hf]
  unfold ieeeDenote
  rw [if_pos rfl, if_pos rfl]
  cases f.sign w <;> rfl

theorem datum_num {w : ℕ} (hw : w < 2 ^ f.W) (he : f.exp w ≠ f.top) (h0 : ¬ (f.exp w = 0 ∧ f.frac w = 0)) :
    wordDatum f.E f.F w = .num (sg (f.sign w) * f.mag (f.exp w) (f.frac w)) := by
  rw [datum_eq hw]
  unfold ieeeDenote mag sigOf tOf
  by_cases h : f.exp w = 0
  · rw [if_pos h, if_neg (by omega), sg_eq, if_pos h, if_pos h]
    simp only [leastExp, Nat.cast_zero, zero_add]
  · rw [if_neg h, if_neg he, sg_eq, if_neg h, if_neg h]
    congr 4
    unfold leastExp
    have : ((f.exp w - 1 : ℕ) : ℤ) = f.exp w - 1 := by omega
    rw [this]; ring

/-- The magnitude of a finite word is below the limit and a number of the format. -/
theorem mag_props (ok : f.Ok) {e s : ℕ} (he : e < f.top) (hs : s < 2 ^ f.F) :
    IsGradual f.E f.F (f.sigOf e s) ((tOf e : ℤ) + leastExp f.E f.F) ∧ f.mag e s < ieeeLimit f.E := by
  have h2F : 2 ^ (f.F + 1) = 2 * 2 ^ f.F := by rw [pow_succ]; ring
  have hsig : f.sigOf e s < 2 ^ (f.F + 1) := by unfold sigOf; split_ifs <;> omega
  refine ⟨⟨hsig, by omega⟩, ?_⟩
  obtain ⟨T, hT, htop, -, -⟩ := top_pow ok
  have ht : tOf e ≤ T + 1 := by unfold tOf; split_ifs <;> omega
  have hb : 2 * bias f.E = T + 2 := by
    have h1 : (2 : ℤ) ^ f.E = 2 * 2 ^ (f.E - 1) := by
      rw [← pow_succ']; congr 1; have := ok.hE; omega
    have h2 : ((2 ^ f.E : ℕ) : ℤ) = T + 4 := by rw [hT]; push_cast; ring
    push_cast at h2
    unfold bias; linarith
  have hu := two_zpow_pos ((tOf e : ℤ) + leastExp f.E f.F)
  unfold mag ieeeLimit
  calc (f.sigOf e s : ℚ) * 2 ^ ((tOf e : ℤ) + leastExp f.E f.F)
      < (2 : ℚ) ^ (f.F + 1) * 2 ^ ((tOf e : ℤ) + leastExp f.E f.F) :=
        mul_lt_mul_of_pos_right (by exact_mod_cast hsig) hu
    _ = 2 ^ (((f.F + 1 : ℕ) : ℤ) + ((tOf e : ℤ) + leastExp f.E f.F)) := by
        rw [zpow_add₀ (by norm_num) ((f.F + 1 : ℕ) : ℤ), zpow_natCast]
    _ ≤ 2 ^ (bias f.E + 1) := by
        apply zpow_le_zpow_right₀ (by norm_num)
        unfold leastExp; push_cast; omega

theorem sg_mul_self (s : Bool) : sg s * sg s = 1 := by cases s <;> norm_num [sg]
theorem sg_ne (s : Bool) : sg s ≠ 0 := by cases s <;> norm_num [sg]
theorem abs_sg (s : Bool) (x : ℚ) : |sg s * x| = |x| := by
  cases s <;> simp [sg]
theorem sg_not (s : Bool) : sg (!s) = - sg s := by cases s <;> norm_num [sg]
theorem sg_xor (s t : Bool) : sg (s != t) = sg s * sg t := by cases s <;> cases t <;> norm_num [sg]

/-- The words with the top exponent. -/
theorem pack_inf (ok : f.Ok) (s : Bool) :
    wordDatum f.E f.F (f.pack s f.top 0) = .inf s ∧ f.pack s f.top 0 < 2 ^ f.W := by
  obtain ⟨T, hT, htop, hpe, -⟩ := top_pow ok
  have hp : f.top * 2 ^ f.F = T * 2 ^ f.F + 3 * 2 ^ f.F := by rw [htop]; ring
  have hF := Nat.two_pow_pos f.F
  rw [pack_eq ok s (by omega), Nat.zero_add, wordDatum_split (by omega), Nat.mul_div_cancel _ hF, Nat.mul_mod_left]
  constructor
  · unfold ieeeDenote
    rw [if_neg (by omega), if_pos rfl, if_pos rfl]
    cases s <;> rfl
  · rw [W_pow]
    have : s.toNat ≤ 1 := by cases s <;> simp
    have : s.toNat * 2 ^ (f.E + f.F) ≤ 1 * 2 ^ (f.E + f.F) := Nat.mul_le_mul_right _ this
    omega

theorem pack_zero (ok : f.Ok) (s : Bool) :
    wordDatum f.E f.F (f.pack s 0 0) = .zero s ∧ f.pack s 0 0 < 2 ^ f.W := by
  have h := pack_eq ok s (t := 0) (sig := 0) (by simp)
  rw [Nat.cast_zero] at h
  rw [h, wordDatum_split (by have := Nat.two_pow_pos (f.E + f.F); omega)]
  constructor
  · unfold ieeeDenote
    cases s <;> simp
  · rw [W_pow]
    have hp := Nat.two_pow_pos (f.E + f.F)
    have : s.toNat ≤ 1 := by cases s <;> simp
    have : s.toNat * 2 ^ (f.E + f.F) ≤ 1 * 2 ^ (f.E + f.F) := Nat.mul_le_mul_right _ this
    omega

end SoftFmt
end Thls
