import Verif.Proofs.SoftAdd

/-! # `f32_add`, `f64_add` -/

namespace Thls
open Spec

namespace SoftFmt
variable {f : SoftFmt}

theorem mag_lt_exp {e1 e2 big small : ℕ} (h : e2 < e1) (hs : small < 2 ^ f.F) : f.mag e2 small < f.mag e1 big := by
  unfold mag
  rw [zpow_add₀ (by norm_num), zpow_add₀ (by norm_num), zpow_natCast, zpow_natCast, ← mul_assoc, ← mul_assoc]
  refine mul_lt_mul_of_pos_right ?_ (two_zpow_pos _)
  have key : f.sigOf e2 small * 2 ^ tOf e2 < f.sigOf e1 big * 2 ^ tOf e1 := by
    have h1 : 2 ^ f.F * 2 ^ (e1 - 1) ≤ f.sigOf e1 big * 2 ^ tOf e1 := by
      unfold sigOf tOf
      rw [if_neg (by omega), if_neg (by omega)]
      exact Nat.mul_le_mul_right _ (by omega)
    refine lt_of_lt_of_le ?_ h1
    unfold sigOf tOf
    split_ifs with h0
    · rw [pow_zero, Nat.mul_one]
      exact lt_of_lt_of_le hs (Nat.le_mul_of_pos_right _ (by positivity))
    · calc (2 ^ f.F + small) * 2 ^ (e2 - 1) < 2 ^ (f.F + 1) * 2 ^ (e2 - 1) :=
            Nat.mul_lt_mul_of_pos_right (by rw [pow_succ]; omega) (by positivity)
        _ = 2 ^ f.F * 2 ^ e2 := by rw [← pow_add, ← pow_add]; congr 1; omega
        _ ≤ _ := Nat.mul_le_mul_left _ (Nat.pow_le_pow_right (by norm_num) (by omega))
  exact_mod_cast key

theorem mag_lt_frac {e s s' : ℕ} (h : s < s') : f.mag e s < f.mag e s' := by
  unfold mag
  refine mul_lt_mul_of_pos_right ?_ (two_zpow_pos _)
  unfold sigOf
  split_ifs <;> exact_mod_cast (by omega)

/-- The sum of two finite words of the same sign. -/
theorem addMags_finite (ok : f.Ok) {a b : ℕ} (ha : a < 2 ^ f.W) (hs : f.sign a = f.sign b)
    (hea : f.exp a < f.top) (heb : f.exp b < f.top) :
    f.addMags a b < 2 ^ f.W ∧
      if f.mag (f.exp a) (f.frac a) + f.mag (f.exp b) (f.frac b) = 0 then wordDatum f.E f.F (f.addMags a b) = .zero (f.sign a)
      else RoundedGradual f.E f.F (sg (f.sign a) * (f.mag (f.exp a) (f.frac a) + f.mag (f.exp b) (f.frac b)))
        (wordDatum f.E f.F (f.addMags a b)) := by
  obtain ⟨w1, w2, w3, g3, eg⟩ := ok.facts
  obtain ⟨T, hT, htop, hpe, hT4⟩ := top_pow ok
  have hfl := ok.fast_le
  have hcb := ok.cast_bounds
  have fa := (fields_lt f a).2
  have fb := (fields_lt f b).2
  have hF := Nat.two_pow_pos f.F
  have h2F : 2 ^ (f.F + 1) = 2 * 2 ^ f.F := by rw [pow_succ]; ring
  obtain ⟨hw, -⟩ := word_fields a ha
  have hma := mag_nonneg (f := f) (f.exp a) (f.frac a)
  have hmb := mag_nonneg (f := f) (f.exp b) (f.frac b)
  have hne : ¬ (f.exp a = 0 ∧ f.frac a = 0 ∧ f.exp b = 0 ∧ f.frac b = 0) →
      f.mag (f.exp a) (f.frac a) + f.mag (f.exp b) (f.frac b) ≠ 0 := by
    intro hn hz
    have h1 : f.mag (f.exp a) (f.frac a) = 0 := by linarith
    have h2 : f.mag (f.exp b) (f.frac b) = 0 := by linarith
    rw [mag_eq_zero] at h1 h2
    exact hn ⟨h1.1, h1.2, h2.1, h2.2⟩
  have htF : f.top * 2 ^ f.F = T * 2 ^ f.F + 3 * 2 ^ f.F := by rw [htop]; ring
  unfold addMags
  simp only
  by_cases he : f.exp a = f.exp b
  · rw [if_pos he]
    by_cases h0 : f.exp a = 0
    · have hb0 : f.exp b = 0 := by omega
      rw [if_pos h0]
      have hsum : (a + f.frac b) % 2 ^ f.W = (f.sign a).toNat * 2 ^ (f.E + f.F) + (f.frac a + f.frac b + 0 * 2 ^ f.F) := by
        rw [Nat.mod_eq_of_lt]
        · rw [h0] at hw; omega
        · rw [h0] at hw
          rw [W_pow]
          have : (f.sign a).toNat ≤ 1 := by cases f.sign a <;> simp
          have : (f.sign a).toNat * 2 ^ (f.E + f.F) ≤ 1 * 2 ^ (f.E + f.F) := Nat.mul_le_mul_right _ this
          omega
      have hpk := pack_eq ok (f.sign a) (t := 0) (sig := f.frac a + f.frac b) (by omega)
      rw [← hsum] at hpk
      rw [Nat.cast_zero] at hpk
      rw [← hpk]
      by_cases hz : f.frac a = 0 ∧ f.frac b = 0
      · rw [hz.1, hz.2, Nat.add_zero, if_pos (by rw [h0, hb0, mag_eq_zero.mpr ⟨rfl, rfl⟩, add_zero])]
        exact ⟨(pack_zero ok _).2, (pack_zero ok _).1⟩
      · rw [if_neg (hne (by tauto))]
        have := exact_rounded ok (f.sign a) (q := f.frac a + f.frac b) (t := 0) (by omega) (Or.inr rfl) (by omega) (by omega)
        rw [Nat.cast_zero] at this
        refine ⟨this.2, ?_⟩
        convert this.1 using 2
        unfold mag sigOf tOf
        rw [h0, hb0, if_pos rfl, if_pos rfl]
        push_cast; ring_nf
    · rw [if_neg h0, if_neg (by omega), if_neg (hne (by tauto))]
      have hval : f.mag (f.exp a) (f.frac a) + f.mag (f.exp b) (f.frac b) =
          ((2 ^ (f.F + 1) + f.frac a + f.frac b : ℕ) : ℚ) / 2 * 2 ^ ((f.exp a : ℤ) + leastExp f.E f.F) := by
        rw [← he, mag_pos_value h0, mag_pos_value h0,
          show (f.exp a : ℤ) + leastExp f.E f.F = 1 + ((f.exp a : ℤ) - 1 + leastExp f.E f.F) by ring,
          zpow_add₀ (by norm_num) (1 : ℤ), pow_succ]
        push_cast; ring
      rw [hval]
      generalize hZ : 2 ^ (f.F + 1) + f.frac a + f.frac b = Z at *
      have hexb : (f.exp a + 2) * 2 ^ f.F ≤ (f.top + 1) * 2 ^ f.F := Nat.mul_le_mul_right _ (by omega)
      split_ifs with hsh
      · have h3 : (f.exp a + 2) * 2 ^ f.F ≤ f.top * 2 ^ f.F := Nat.mul_le_mul_right _ (by omega)
        rw [Nat.add_mul] at h3
        have := exact_rounded ok (f.sign a) (q := Z / 2) (t := f.exp a) (by omega) (Or.inl (by omega)) (by omega) (by omega)
        refine ⟨this.2, ?_⟩
        convert this.1 using 3
        have h4 : (Z : ℚ) = 2 * ((Z / 2 : ℕ) : ℚ) := by exact_mod_cast (show Z = 2 * (Z / 2) by omega)
        rw [h4]; ring
      · obtain ⟨g, hg⟩ : ∃ g, f.G = g + 1 := ⟨f.G - 1, by omega⟩
        have hgp := Nat.two_pow_pos g
        have p2 : 2 ^ (f.F + f.G) = 2 ^ (f.F + 1) * 2 ^ g := by rw [hg, ← pow_add]; congr 1; omega
        have p3 : 2 ^ (f.E + f.F) = 2 ^ (f.F + 2) * 2 ^ g := by rw [eg, hg, ← pow_add]; congr 1; omega
        have m1 : 2 ^ (f.F + 1) * 2 ^ g ≤ Z * 2 ^ g := Nat.mul_le_mul_right _ (by omega)
        have m2 : Z * 2 ^ g < 2 ^ (f.F + 2) * 2 ^ g := Nat.mul_lt_mul_of_pos_right (by rw [pow_succ]; omega) hgp
        have := roundPack_rounded ok (f.sign a) (exp := (f.exp a : ℤ)) (sim_self (2 ^ (f.G - 1)) (Z * 2 ^ g)) (by omega) (by omega)
          (by have : (0 : ℤ) < 2 ^ (f.cast - 1) := by positivity
              omega) (by rw [hT] at hcb; push_cast at hcb; omega)
        rw [hg, Nat.add_sub_cancel, Nat.mod_eq_of_lt (by omega)]
        refine ⟨this.2, ?_⟩
        convert this.1 using 2
        rw [sg_if]
        rw [hg, pow_succ]
        push_cast
        have : (2 : ℚ) ^ g ≠ 0 := by positivity
        field_simp
  · rw [if_neg he]
    by_cases hlt : f.exp a < f.exp b
    · rw [if_pos hlt, if_neg (by omega), if_neg (hne (by omega))]
      have := addFar_rounded ok (f.sign a) hlt heb fb fa
      refine ⟨this.2, ?_⟩
      rw [add_comm]; exact this.1
    · rw [if_neg hlt, if_neg (by omega), if_neg (hne (by omega))]
      have := addFar_rounded ok (f.sign a) (show f.exp b < f.exp a by omega) hea fa fb
      exact ⟨this.2, this.1⟩

/-- The difference of two finite words. -/
theorem subMags_finite (ok : f.Ok) {a b : ℕ} (hea : f.exp a < f.top) (heb : f.exp b < f.top) :
    ∃ z, f.subMags a b = some z ∧ z < 2 ^ f.W ∧
      if f.mag (f.exp a) (f.frac a) - f.mag (f.exp b) (f.frac b) = 0 then wordDatum f.E f.F z = .zero false
      else RoundedGradual f.E f.F (sg (f.sign a) * (f.mag (f.exp a) (f.frac a) - f.mag (f.exp b) (f.frac b)))
        (wordDatum f.E f.F z) := by
  have fa := (fields_lt f a).2
  have fb := (fields_lt f b).2
  unfold subMags
  simp only
  by_cases he : f.exp a = f.exp b
  · rw [if_pos he, if_neg (by omega)]
    obtain ⟨z, h1, h2, h3⟩ := subNear_rounded ok (f.sign a) hea fa fb
    refine ⟨z, h1, h2, ?_⟩
    rw [← he]
    rcases lt_trichotomy (f.frac a) (f.frac b) with h | h | h
    · rw [if_neg (by omega)] at h3
      have := mag_lt_frac (f := f) (e := f.exp a) h
      rw [if_neg (by intro hz; linarith)]; exact h3
    · rw [if_pos h] at h3
      rw [if_pos (by rw [h]; ring)]; exact h3
    · rw [if_neg (by omega)] at h3
      have := mag_lt_frac (f := f) (e := f.exp a) h
      rw [if_neg (by intro hz; linarith)]; exact h3
  · rw [if_neg he]
    by_cases hlt : f.exp a < f.exp b
    · rw [if_pos hlt, if_neg (by omega)]
      obtain ⟨z, h1, h2, h3⟩ := subFar_rounded ok (!f.sign a) hlt heb fb fa
      refine ⟨z, h1, h3, ?_⟩
      have := mag_lt_exp (f := f) (big := f.frac b) hlt fa
      rw [if_neg (by intro hz; linarith)]
      convert h2 using 1
      rw [sg_not]; ring
    · rw [if_neg hlt, if_neg (by omega)]
      have hlt' : f.exp b < f.exp a := by omega
      obtain ⟨z, h1, h2, h3⟩ := subFar_rounded ok (f.sign a) hlt' hea fa fb
      refine ⟨z, h1, h3, ?_⟩
      have := mag_lt_exp (f := f) (big := f.frac a) hlt' fb
      rw [if_neg (by intro hz; linarith)]
      exact h2

/-- The sum of two finite words. -/
theorem add_finite (ok : f.Ok) {a b : ℕ} (ha : a < 2 ^ f.W)
    (hea : f.exp a < f.top) (heb : f.exp b < f.top) :
    ∃ z, f.add a b = some z ∧ z < 2 ^ f.W ∧
      if sg (f.sign a) * f.mag (f.exp a) (f.frac a) + sg (f.sign b) * f.mag (f.exp b) (f.frac b) = 0
      then wordDatum f.E f.F z = .zero (f.sign a && f.sign b)
      else RoundedGradual f.E f.F (sg (f.sign a) * f.mag (f.exp a) (f.frac a) + sg (f.sign b) * f.mag (f.exp b) (f.frac b))
        (wordDatum f.E f.F z) := by
  unfold add
  by_cases hs : f.sign a = f.sign b
  · rw [if_neg (by simp [hs])]
    obtain ⟨h1, h2⟩ := addMags_finite ok ha hs hea heb
    refine ⟨_, rfl, h1, ?_⟩
    rw [← hs, ← mul_add, Bool.and_self]
    simp only [mul_eq_zero, sg_ne, false_or]
    exact h2
  · rw [if_pos (by simpa using hs)]
    obtain ⟨z, h1, h2, h3⟩ := subMags_finite ok (a := a) (b := b) hea heb
    refine ⟨z, h1, h2, ?_⟩
    have hb : f.sign b = !f.sign a := by cases h : f.sign a <;> cases h' : f.sign b <;> simp_all
    rw [hb, sg_not, neg_mul, ← sub_eq_add_neg, ← mul_sub, Bool.and_not_self]
    simp only [mul_eq_zero, sg_ne, false_or]
    exact h3

theorem exp_le_top (f : SoftFmt) (a : ℕ) : f.exp a ≤ f.top := by
  have := (fields_lt f a).1
  simp only [top]; omega

theorem top_ne_zero (ok : f.Ok) : f.top ≠ 0 := by
  obtain ⟨T, -, htop, -, -⟩ := top_pow ok
  omega

theorem add_nan (ok : f.Ok) (a b : ℕ) (h : f.isNaN a = true ∨ f.isNaN b = true) :
    f.add a b = some (f.propagateNaN a b) := by
  rw [isNaN_iff, isNaN_iff] at h
  have ht := top_ne_zero ok
  have ea := exp_le_top f a
  have eb := exp_le_top f b
  unfold add subMags addMags
  simp only
  generalize f.exp a = x at *
  generalize f.exp b = y at *
  generalize f.top = t at *
  by_cases hxy : x = y
  · split_ifs <;> first | rfl | (exfalso; omega)
  · rw [if_neg hxy, if_neg hxy]
    split_ifs <;> first | rfl | (exfalso; omega)

/-- The data of a word. -/
inductive Kind (f : SoftFmt) (w : ℕ) : Prop
  | nan (h : f.isNaN w = true) (d : wordDatum f.E f.F w = .nan)
  | inf (h : f.exp w = f.top) (hf : f.frac w = 0) (d : wordDatum f.E f.F w = .inf (f.sign w))
  | zero (h : f.exp w = 0) (hf : f.frac w = 0) (d : wordDatum f.E f.F w = .zero (f.sign w))
  | num (h : f.exp w < f.top) (h0 : ¬ (f.exp w = 0 ∧ f.frac w = 0))
      (d : wordDatum f.E f.F w = .num (sg (f.sign w) * f.mag (f.exp w) (f.frac w)))

theorem kind (ok : f.Ok) {w : ℕ} (hw : w < 2 ^ f.W) : Kind f w := by
  have ht := exp_le_top f w
  by_cases h : f.exp w = f.top
  · by_cases hf : f.frac w = 0
    · exact .inf h hf (datum_inf ok hw h hf)
    · exact .nan ((isNaN_iff w).mpr ⟨h, hf⟩) (datum_nan ok hw h hf)
  · by_cases h0 : f.exp w = 0 ∧ f.frac w = 0
    · exact .zero h0.1 h0.2 (datum_zero hw h0.1 h0.2)
    · exact .num (by omega) h0 (datum_num hw h h0)

theorem mag_pos {e s : ℕ} (h : ¬ (e = 0 ∧ s = 0)) : 0 < f.mag e s :=
  lt_of_le_of_ne (mag_nonneg _ _) (fun h' => h (mag_eq_zero.mp h'.symm))

theorem sg_num_ne {s : Bool} {e r : ℕ} (h : ¬ (e = 0 ∧ r = 0)) : sg s * f.mag e r ≠ 0 :=
  mul_ne_zero (sg_ne s) (mag_pos h).ne'

/-- Rounding a finite word gives the word. -/
theorem rounded_word (ok : f.Ok) {s : Bool} {e r : ℕ} {d : Datum} (he : e < f.top) (hr : r < 2 ^ f.F) (h0 : ¬ (e = 0 ∧ r = 0))
    (h : RoundedGradual f.E f.F (sg s * f.mag e r) d) : d = .num (sg s * f.mag e r) := by
  have hp := mag_props ok he hr
  refine roundedG_self h hp.1 ?_ (sg_num_ne h0) ?_
  · rw [abs_sg, abs_of_nonneg (mag_nonneg _ _)]; rfl
  · rw [abs_sg, abs_of_nonneg (mag_nonneg _ _)]; exact hp.2

theorem add_inf (ok : f.Ok) {a b : ℕ} (ha : f.exp a = f.top) (hfa : f.frac a = 0) (hw : a < 2 ^ f.W) (hb : f.isNaN b = false) :
    ∃ z, f.add a b = some z ∧ z < 2 ^ f.W ∧
      wordDatum f.E f.F z = if f.exp b = f.top ∧ f.sign a ≠ f.sign b then .nan else .inf (f.sign a) := by
  have hb' : ¬ (f.exp b = f.top ∧ f.frac b ≠ 0) := by rw [← isNaN_iff, hb]; simp
  have ht := top_ne_zero ok
  have eb := exp_le_top f b
  have da := datum_inf ok hw ha hfa
  have dn := defaultNaN_datum ok
  unfold add subMags addMags
  simp only
  by_cases hs : f.sign a = f.sign b
  · rw [if_neg (by simp [hs])]
    refine ⟨_, rfl, ?_⟩
    rw [if_neg (show ¬ (f.exp b = f.top ∧ f.sign a ≠ f.sign b) from fun h => h.2 hs)]
    by_cases he : f.exp a = f.exp b
    · rw [if_pos he, if_neg (by omega), if_pos ha, if_neg (by push Not at hb' ⊢; exact ⟨hfa, hb' (by omega)⟩)]
      exact ⟨hw, da⟩
    · rw [if_neg he, if_neg (by omega), if_pos ha, if_neg (by simp [hfa])]
      exact ⟨hw, da⟩
  · rw [if_pos (by simpa using hs)]
    by_cases he : f.exp a = f.exp b
    · rw [if_pos he, if_pos ha, if_neg (by push Not at hb' ⊢; exact ⟨hfa, hb' (by omega)⟩)]
      refine ⟨_, rfl, dn.2, ?_⟩
      rw [if_pos ⟨by omega, hs⟩]; exact dn.1
    · rw [if_neg he, if_neg (by omega), if_pos ha, if_neg (by simp [hfa])]
      refine ⟨_, rfl, hw, ?_⟩
      rw [if_neg (by intro h; omega)]; exact da

theorem add_inf_right (ok : f.Ok) {a b : ℕ} (hb : f.exp b = f.top) (hfb : f.frac b = 0) (ha : f.exp a < f.top) :
    ∃ z, f.add a b = some z ∧ z < 2 ^ f.W ∧ wordDatum f.E f.F z = .inf (f.sign b) := by
  unfold add subMags addMags
  simp only
  by_cases hs : f.sign a = f.sign b
  · rw [if_neg (by simp [hs])]
    refine ⟨_, rfl, ?_⟩
    rw [if_neg (by omega), if_pos (by omega), if_pos hb, if_neg (by simp [hfb]), ← hs]
    exact ⟨(pack_inf ok _).2, (pack_inf ok _).1⟩
  · rw [if_pos (by simpa using hs), if_neg (by omega), if_pos (by omega), if_pos hb, if_neg (by simp [hfb])]
    have hb : f.sign b = !f.sign a := by cases h : f.sign a <;> cases h' : f.sign b <;> simp_all
    rw [hb]
    exact ⟨_, rfl, (pack_inf ok _).2, (pack_inf ok _).1⟩

/-- `f32_add`, `f64_add` give the IEEE 754 sum. -/
theorem add_ieee (ok : f.Ok) {a b : ℕ} (ha : a < 2 ^ f.W) (hb : b < 2 ^ f.W) :
    ∃ z, f.add a b = some z ∧ z < 2 ^ f.W ∧
      IeeeSum f.E f.F (wordDatum f.E f.F a) (wordDatum f.E f.F b) (wordDatum f.E f.F z) := by
  have fra := (fields_lt f a).2
  have frb := (fields_lt f b).2
  have ht0 : 0 < f.top := Nat.pos_of_ne_zero (top_ne_zero ok)
  have hnan : f.isNaN a = true ∨ f.isNaN b = true → ∃ z, f.add a b = some z ∧ z < 2 ^ f.W ∧ wordDatum f.E f.F z = .nan := by
    intro h
    have := propagateNaN_datum ok ha hb h
    exact ⟨_, add_nan ok a b h, this.2, this.1⟩
  rcases kind ok ha with ⟨h, d⟩ | ⟨h, hf, d⟩ | ⟨h, hf, d⟩ | ⟨h, h0, d⟩
  · obtain ⟨z, h1, h2, h3⟩ := hnan (Or.inl h)
    exact ⟨z, h1, h2, by rw [d, h3]; rfl⟩
  · rcases kind ok hb with ⟨h', d'⟩ | ⟨h', hf', d'⟩ | ⟨h', hf', d'⟩ | ⟨h', h0', d'⟩
    · obtain ⟨z, h1, h2, h3⟩ := hnan (Or.inr h')
      exact ⟨z, h1, h2, by rw [d, d', h3]; rfl⟩
    · obtain ⟨z, h1, h2, h3⟩ := add_inf ok h hf ha (b := b) (by unfold isNaN; simp [hf'])
      refine ⟨z, h1, h2, ?_⟩
      rw [d, d', h3]
      simp only [IeeeSum, addSpecial, h', true_and]
      split_ifs <;> tauto
    · obtain ⟨z, h1, h2, h3⟩ := add_inf ok h hf ha (b := b) (by unfold isNaN; simp [hf'])
      refine ⟨z, h1, h2, ?_⟩
      rw [d, d', h3, if_neg (by omega)]
      rfl
    · obtain ⟨z, h1, h2, h3⟩ := add_inf ok h hf ha (b := b) (by unfold isNaN; simp; omega)
      refine ⟨z, h1, h2, ?_⟩
      rw [d, d', h3, if_neg (by omega)]
      rfl
  · rcases kind ok hb with ⟨h', d'⟩ | ⟨h', hf', d'⟩ | ⟨h', hf', d'⟩ | ⟨h', h0', d'⟩
    · obtain ⟨z, h1, h2, h3⟩ := hnan (Or.inr h')
      exact ⟨z, h1, h2, by rw [d, d', h3]; rfl⟩
    · obtain ⟨z, h1, h2, h3⟩ := add_inf_right ok (a := a) h' hf' (by omega)
      exact ⟨z, h1, h2, by rw [d, d', h3]; rfl⟩
    · obtain ⟨z, h1, h2, h3⟩ := add_finite ok (a := a) (b := b) ha (by omega) (by omega)
      refine ⟨z, h1, h2, ?_⟩
      rw [h, hf, h', hf', mag_eq_zero.mpr ⟨rfl, rfl⟩, mul_zero, mul_zero, add_zero, if_pos rfl] at h3
      rw [d, d', h3]; rfl
    · obtain ⟨z, h1, h2, h3⟩ := add_finite ok (a := a) (b := b) ha (by omega) (by omega)
      refine ⟨z, h1, h2, ?_⟩
      rw [h, hf, mag_eq_zero.mpr ⟨rfl, rfl⟩, mul_zero, zero_add, if_neg (sg_num_ne h0')] at h3
      rw [d, d', rounded_word ok h' frb h0' h3]; rfl
  · rcases kind ok hb with ⟨h', d'⟩ | ⟨h', hf', d'⟩ | ⟨h', hf', d'⟩ | ⟨h', h0', d'⟩
    · obtain ⟨z, h1, h2, h3⟩ := hnan (Or.inr h')
      exact ⟨z, h1, h2, by rw [d, d', h3]; rfl⟩
    · obtain ⟨z, h1, h2, h3⟩ := add_inf_right ok (a := a) h' hf' (by omega)
      exact ⟨z, h1, h2, by rw [d, d', h3]; rfl⟩
    · obtain ⟨z, h1, h2, h3⟩ := add_finite ok (a := a) (b := b) ha (by omega) (by omega)
      refine ⟨z, h1, h2, ?_⟩
      rw [h', hf', mag_eq_zero.mpr ⟨rfl, rfl⟩, mul_zero, add_zero, if_neg (sg_num_ne h0)] at h3
      rw [d, d', rounded_word ok h fra h0 h3]; rfl
    · obtain ⟨z, h1, h2, h3⟩ := add_finite ok (a := a) (b := b) ha (by omega) (by omega)
      refine ⟨z, h1, h2, ?_⟩
      rw [d, d']
      simp only [IeeeSum]
      split_ifs with hz
      · rw [if_pos hz] at h3
        rw [h3]
        congr 1
        have p1 := mag_pos (f := f) h0
        have p2 := mag_pos (f := f) h0'
        cases h5 : f.sign a <;> cases h6 : f.sign b <;> try rfl
        rw [h5, h6] at hz
        simp only [sg, if_true] at hz
        linarith
      · rw [if_neg hz] at h3; exact h3

end SoftFmt
end Thls
