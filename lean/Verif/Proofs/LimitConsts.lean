import Verif.SpecLimits
import Verif.Proofs.Ieee
import Verif.SpecSoft
import Verif.Model.LimitConsts

/-! # Lemmas on the sets of normalised values -/

namespace Thls
open Spec

/-- The numbers with `F+1` significant bits and exponents from `lo` to `hi`. -/
def normalSet (F : ℕ) (lo hi : ℤ) : Set ℚ :=
  {v | ∃ (m : ℕ) (e : ℤ), 2 ^ F ≤ m ∧ m < 2 ^ (F + 1) ∧ lo ≤ e ∧ e ≤ hi ∧ v = m * 2 ^ (e - F)}

theorem normalSet_binade {F m : ℕ} {e k : ℤ} (h1 : 2 ^ F ≤ m) (h2 : m < 2 ^ (F + 1)) (h3 : (2 : ℚ) ^ k ≤ m * 2 ^ (e - F))
    (h4 : (m : ℚ) * 2 ^ (e - F) < 2 ^ (k + 1)) : e = k := by
  have p := two_zpow_pos (e - F)
  have a : (2 : ℚ) ^ e ≤ m * 2 ^ (e - F) := by
    have h : ((2 ^ F : ℕ) : ℚ) ≤ m := by exact_mod_cast h1
    calc (2 : ℚ) ^ e = ((2 ^ F : ℕ) : ℚ) * 2 ^ (e - F) := by
          rw [zpow_sub₀ (by norm_num), zpow_natCast]; push_cast; field_simp
      _ ≤ _ := mul_le_mul_of_nonneg_right h p.le
  have b : (m : ℚ) * 2 ^ (e - F) < 2 ^ (e + 1) := by
    have h : (m : ℚ) < ((2 ^ (F + 1) : ℕ) : ℚ) := by exact_mod_cast h2
    calc _ < ((2 ^ (F + 1) : ℕ) : ℚ) * 2 ^ (e - F) := mul_lt_mul_of_pos_right h p
      _ = (2 : ℚ) ^ (e + 1) := by
          rw [zpow_sub₀ (by norm_num), zpow_natCast, zpow_add₀ (by norm_num)]; push_cast; rw [pow_succ]; field_simp
  have c := (zpow_lt_zpow_iff_right₀ (by norm_num : (1 : ℚ) < 2)).1 (lt_of_le_of_lt a h4)
  have d := (zpow_lt_zpow_iff_right₀ (by norm_num : (1 : ℚ) < 2)).1 (lt_of_le_of_lt h3 b)
  omega

theorem normalSet_pow {F : ℕ} {lo hi k : ℤ} : (2 : ℚ) ^ k ∈ normalSet F lo hi ↔ lo ≤ k ∧ k ≤ hi := by
  constructor
  · rintro ⟨m, e, h1, h2, h3, h4, h5⟩
    have := normalSet_binade (k := k) h1 h2 h5.le (by rw [← h5]; exact zpow_lt_zpow_right₀ (by norm_num) (by omega))
    omega
  · rintro ⟨h1, h2⟩
    refine ⟨2 ^ F, k, le_rfl, by rw [pow_succ]; have : 0 < 2 ^ F := by positivity
                                 omega, h1, h2, ?_⟩
    rw [zpow_sub₀ (by norm_num), zpow_natCast]; push_cast; field_simp

theorem normalSet_min {F : ℕ} {lo hi n : ℤ} (h : lo ≤ hi) : MinExponentOf (normalSet F lo hi) n ↔ n = lo + 1 := by
  have key : IsLeast {n : ℤ | (2 : ℚ) ^ (n - 1) ∈ normalSet F lo hi} (lo + 1) := by
    refine ⟨?_, ?_⟩
    · show (2 : ℚ) ^ (lo + 1 - 1) ∈ normalSet F lo hi
      rw [normalSet_pow]; omega
    · intro k hk
      have := (normalSet_pow.1 hk)
      omega
  exact ⟨fun hn => hn.unique key, fun hn => hn ▸ key⟩

theorem normalSet_max {F : ℕ} {lo hi n : ℤ} (h : lo ≤ hi) : MaxExponentOf (normalSet F lo hi) n ↔ n = hi + 1 := by
  have key : IsGreatest {n : ℤ | (2 : ℚ) ^ (n - 1) ∈ normalSet F lo hi} (hi + 1) := by
    refine ⟨?_, ?_⟩
    · show (2 : ℚ) ^ (hi + 1 - 1) ∈ normalSet F lo hi
      rw [normalSet_pow]; omega
    · intro k hk
      have := (normalSet_pow.1 hk)
      omega
  exact ⟨fun hn => hn.unique key, fun hn => hn ▸ key⟩

theorem normalSet_digits {F : ℕ} {lo hi : ℤ} (h : lo ≤ hi) : DigitsOf (normalSet F lo hi) (F + 1) := by
  refine ⟨⟨2 ^ lo, normalSet_pow.2 ⟨le_rfl, h⟩⟩, ?_⟩
  rintro k ⟨w, ⟨m, e, h1, h2, h3, h4, rfl⟩, h5, h6⟩ v hv1 hv2
  have he := normalSet_binade h1 h2 h5 h6
  subst he
  have ee : e + 1 - ((F + 1 : ℕ) : ℤ) = e - F := by push_cast; ring
  rw [ee]
  constructor
  · rintro ⟨m', e', a1, a2, a3, a4, rfl⟩
    have := normalSet_binade a1 a2 hv1 hv2
    subst this
    exact ⟨m', by push_cast; rfl⟩
  · rintro ⟨n, rfl⟩
    have p := two_zpow_pos (e - F)
    have q : (2 : ℚ) ^ e = 2 ^ F * 2 ^ (e - F) := by
      rw [zpow_sub₀ (by norm_num), zpow_natCast]; field_simp
    rw [q] at hv1
    rw [zpow_add₀ (by norm_num), q] at hv2
    have b1 : (2 : ℚ) ^ F ≤ n := le_of_mul_le_mul_right hv1 p
    have b2 : (n : ℚ) < 2 ^ (F + 1) := by
      refine lt_of_mul_lt_mul_right ?_ p.le
      rw [pow_succ]; calc _ < _ := hv2
        _ = _ := by rw [zpow_one]; ring
    have c1 : (2 : ℤ) ^ F ≤ n := by exact_mod_cast b1
    have c2 : n < (2 : ℤ) ^ (F + 1) := by exact_mod_cast b2
    have n0 : 0 ≤ n := le_trans (by positivity) c1
    refine ⟨n.toNat, e, ?_, ?_, h3, h4, ?_⟩
    · zify; rw [Int.toNat_of_nonneg n0]; exact c1
    · zify; rw [Int.toNat_of_nonneg n0]; exact c2
    · have : ((n.toNat : ℕ) : ℚ) = n := by
        have : ((n.toNat : ℕ) : ℤ) = n := Int.toNat_of_nonneg n0
        exact_mod_cast this
      rw [this]

/-- A set of values has at most one number of digits, if it reaches a value that is not a power of two or has several binades:
here, the digits of a normal set. -/
theorem normalSet_digits_iff {F d : ℕ} {lo hi : ℤ} (h : lo ≤ hi) (hd : 1 ≤ d) : DigitsOf (normalSet F lo hi) d ↔ d = F + 1 := by
  constructor
  · intro hD
    have hD' := normalSet_digits (F := F) h
    have hb : ∃ v ∈ normalSet F lo hi, 2 ^ lo ≤ v ∧ v < 2 ^ (lo + 1) :=
      ⟨2 ^ lo, normalSet_pow.2 ⟨le_rfl, h⟩, le_rfl, zpow_lt_zpow_right₀ (by norm_num) (by omega)⟩
    -- the least value above `2^lo` with `d` digits
    have key : ∀ a b : ℕ, 1 ≤ a → DigitsOf (normalSet F lo hi) a → DigitsOf (normalSet F lo hi) b → a ≤ b := by
      intro a b ha hA hB
      by_contra hlt
      push Not at hlt
      have v1 : (2 : ℚ) ^ lo ≤ 2 ^ lo + 2 ^ (lo + 1 - a) := by
        have := two_zpow_pos (lo + 1 - a); linarith
      have v2 : (2 : ℚ) ^ lo + 2 ^ (lo + 1 - a) < 2 ^ (lo + 1) ∨ a = 1 := by
        rcases Nat.lt_or_ge 1 a with h | h
        · left
          have : (2 : ℚ) ^ (lo + 1 - a) < 2 ^ lo := zpow_lt_zpow_right₀ (by norm_num) (by omega)
          rw [zpow_add₀ (by norm_num)]; norm_num; linarith
        · right; omega
      rcases v2 with v2 | v2
      · have m1 := (hA.2 lo hb _ v1 v2).2 ⟨2 ^ (a - 1) + 1, by
          push_cast
          have : (2 : ℚ) ^ lo = 2 ^ (a - 1) * 2 ^ (lo + 1 - a) := by
            rw [← zpow_natCast, ← zpow_add₀ (by norm_num)]; congr 1
            push_cast [ha]; ring
          rw [add_mul, ← this]; ring⟩
        obtain ⟨n, hn⟩ := (hB.2 lo hb _ v1 v2).1 m1
        -- `2^(a-1) + 1 = n * 2^(a-b)`: odd = even
        have p := two_zpow_pos (lo + 1 - a)
        have e1 : (2 : ℚ) ^ lo = 2 ^ (a - 1) * 2 ^ (lo + 1 - a) := by
          rw [← zpow_natCast, ← zpow_add₀ (by norm_num)]; congr 1
          push_cast [ha]; ring
        have e2 : (2 : ℚ) ^ (lo + 1 - b) = 2 ^ (a - b) * 2 ^ (lo + 1 - a) := by
          rw [← zpow_natCast, ← zpow_add₀ (by norm_num)]; congr 1
          push_cast [hlt.le]; ring
        rw [e1, e2] at hn
        have e3 : (2 : ℚ) ^ (a - 1) + 1 = n * 2 ^ (a - b) := by
          refine mul_right_cancel₀ p.ne' ?_
          linear_combination hn
        have e4 : (2 : ℤ) ^ (a - 1) + 1 = n * 2 ^ (a - b) := by exact_mod_cast e3
        have e5 : (2 : ℤ) ∣ 2 ^ (a - 1) := dvd_pow_self _ (by
          rcases Nat.lt_or_ge 1 a with h | h
          · omega
          · have : a = 1 := by omega
            subst this
            exfalso
            norm_num at v2
            have e6 : (2 : ℚ) ^ (lo + 1) = 2 ^ lo * 2 := by rw [zpow_add₀ (by norm_num)]; norm_num
            rw [e6] at v2; linarith)
        have e6 : (2 : ℤ) ∣ n * 2 ^ (a - b) := (dvd_pow_self _ (by omega)).mul_left _
        omega
      · -- `a = 1`, `b = 0`: with no digits there would be no value at all
        have b0 : b = 0 := by omega
        subst b0
        obtain ⟨n, hn⟩ := (hB.2 lo hb (2 ^ lo) le_rfl (zpow_lt_zpow_right₀ (by norm_num) (by omega))).1
          (normalSet_pow.2 ⟨le_rfl, h⟩)
        rw [Nat.cast_zero, sub_zero, zpow_add₀ (by norm_num), zpow_one] at hn
        have p := two_zpow_pos lo
        have : (1 : ℚ) = n * 2 := by
          refine mul_right_cancel₀ p.ne' ?_
          linear_combination hn
        have : (1 : ℤ) = n * 2 := by exact_mod_cast this
        omega
    exact le_antisymm (key _ _ hd hD hD') (key _ _ (by omega) hD' hD)
  · rintro rfl
    exact normalSet_digits h

/-- The positive values of the FloPoCo format. -/
theorem fp_values {E F : ℕ} (hE : 1 ≤ E) (hF : 1 ≤ F) :
    {v : ℚ | 0 < v ∧ ∃ x : Fp E F, x.datum = .num v} = normalSet F (-bias E) (bias E + 1) := by
  obtain ⟨hb, hb0⟩ := two_bias hE
  ext v
  constructor
  · rintro ⟨hv, x, hx⟩
    obtain ⟨hf, rfl⟩ := datum_num_iff.1 hx
    have h1 := x.frac_lt hF
    have h2 := x.exp_lt (by omega : 1 ≤ E)
    have p := two_zpow_pos ((x.exp : ℤ) - bias E - F)
    have q : (0 : ℚ) < ((2 ^ F + x.frac : ℕ) : ℚ) := by positivity
    have hs : x.sign ≠ 1 := by
      intro hs
      rw [if_pos hs] at hv
      have := mul_pos q p
      linarith
    have h2' : (x.exp : ℤ) < 2 ^ E := by exact_mod_cast h2
    refine ⟨2 ^ F + x.frac, x.exp - bias E, by omega, by rw [pow_succ]; omega, by omega, by omega, ?_⟩
    rw [if_neg hs, one_mul]
  · rintro ⟨m, e, h1, h2, h3, h4, rfl⟩
    have p := two_zpow_pos (e - F)
    have q : (0 : ℚ) < (m : ℚ) := by exact_mod_cast (lt_of_lt_of_le (by positivity) h1)
    refine ⟨by positivity, Fp.mk3 E F 0b010 (e + bias E).toNat (m - 2 ^ F), ?_⟩
    have he : (e + bias E).toNat < 2 ^ E := by
      zify; rw [Int.toNat_of_nonneg (by omega)]; omega
    have hm : m - 2 ^ F < 2 ^ F := by rw [pow_succ] at h2; omega
    obtain ⟨a, b, c⟩ := Fp.mk3_fields (E := E) (F := F) (fs := 2) hE (by decide) he hm
    have hx : (Fp.mk3 E F 2 (e + bias E).toNat (m - 2 ^ F)).exp = (e + bias E).toNat := by
      rw [← Fp.expFrac_div hE hF, c]; exact concat_div hm
    have hf : (Fp.mk3 E F 2 (e + bias E).toNat (m - 2 ^ F)).frac = m - 2 ^ F := by
      rw [← Fp.expFrac_mod hE hF, c]; exact concat_mod hm
    rw [Fp.datum, a, b, hx, hf]
    simp only [denote]
    rw [Int.toNat_of_nonneg (by omega), show e + bias E - bias E - (F : ℤ) = e - F by ring, Nat.add_sub_cancel' h1]
    norm_num

/-- The positive normalised values among the data of the fields of an IEEE format. -/
theorem ieee_values {E F : ℕ} (hE : 2 ≤ E) :
    {v : ℚ | ieeeMin E ≤ v ∧ ∃ s e f : ℕ, s < 2 ∧ e < 2 ^ E ∧ f < 2 ^ F ∧ ieeeDenote E F s e f = .num v}
      = normalSet F (1 - bias E) (bias E) := by
  obtain ⟨hb, hb0⟩ := two_bias (show 1 ≤ E by omega)
  ext v
  constructor
  · rintro ⟨hv, s, e, f, h1, h2, h3, h4⟩
    have hv0 : 0 < v := lt_of_lt_of_le (two_zpow_pos _) hv
    have pF : 0 < 2 ^ F := by positivity
    unfold ieeeDenote at h4
    split_ifs at h4 <;> first | (exact Datum.noConfusion h4) | skip
    · -- negative denormal
      have := Datum.num.inj h4
      have p := two_zpow_pos (1 - bias E - F)
      have : v ≤ 0 := by rw [← this]; nlinarith [mul_nonneg (Nat.cast_nonneg (α := ℚ) f) p.le]
      linarith
    · -- positive denormal: too small
      have hv' := Datum.num.inj h4
      rw [one_mul] at hv'
      exfalso
      have : v < ieeeMin E := by
        rw [← hv', ieeeMin, zpow_sub₀ (by norm_num) (1 - bias E), zpow_natCast]
        have p := two_zpow_pos (1 - bias E)
        have hf : (f : ℚ) < 2 ^ F := by exact_mod_cast h3
        have pq : (0 : ℚ) < 2 ^ F := by positivity
        rw [mul_div_assoc', div_lt_iff₀ pq, mul_comm]
        exact mul_lt_mul_of_pos_left hf p
      linarith
    · have := Datum.num.inj h4
      have p := two_zpow_pos ((e : ℤ) - bias E - F)
      have q : (0 : ℚ) < ((2 ^ F + f : ℕ) : ℚ) := by positivity
      have := mul_pos q p
      linarith
    · have := Datum.num.inj h4
      rw [one_mul] at this
      have h2' : (e : ℤ) < 2 ^ E := by exact_mod_cast h2
      have c' : (e : ℤ) ≠ 2 ^ E - 1 := by
        intro h; apply ‹¬ e = 2 ^ E - 1›; zify [show 1 ≤ 2 ^ E from Nat.one_le_two_pow]; exact h
      exact ⟨2 ^ F + f, e - bias E, by omega, by rw [pow_succ]; omega, by omega, by omega, this.symm⟩
  · rintro ⟨m, e, h1, h2, h3, h4, rfl⟩
    have p := two_zpow_pos (e - F)
    refine ⟨?_, 0, (e + bias E).toNat, m - 2 ^ F, by omega, ?_, by rw [pow_succ] at h2; omega, ?_⟩
    · have h : ((2 ^ F : ℕ) : ℚ) ≤ m := by exact_mod_cast h1
      calc ieeeMin E ≤ 2 ^ e := zpow_le_zpow_right₀ (by norm_num) h3
        _ = ((2 ^ F : ℕ) : ℚ) * 2 ^ (e - F) := by
          rw [zpow_sub₀ (by norm_num), zpow_natCast]; push_cast; field_simp
        _ ≤ _ := mul_le_mul_of_nonneg_right h p.le
    · zify; rw [Int.toNat_of_nonneg (by omega)]; omega
    · have e0 : (e + bias E).toNat ≠ 0 := by omega
      have e1 : (e + bias E).toNat ≠ 2 ^ E - 1 := by
        intro h; zify [show 1 ≤ 2 ^ E from Nat.one_le_two_pow] at h
        rw [Int.toNat_of_nonneg (by omega)] at h; omega
      unfold ieeeDenote
      rw [if_neg e0, if_neg e1, Int.toNat_of_nonneg (by omega), show e + bias E - bias E - (F : ℤ) = e - F by ring,
        Nat.add_sub_cancel' h1]
      norm_num

end Thls
