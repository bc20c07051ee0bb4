import Verif.Proofs.Order

/-! # Properties C06-C09, C46, C47, C49, C50: the FloPoCo number format -/

namespace Thls
open Spec

/-! ## C06: fields and packed word -/

/-- **C06.** Reading back the fields of a number built from four fields gives those fields. -/
theorem C06_fields_of_pack {E F fl s e f : ℕ} (hE : 1 ≤ E) (hF : 1 ≤ F) (hfl : fl < 4) (hs : s < 2)
    (he : e < 2 ^ E) (hf : f < 2 ^ F) :
    (Fp.mk4 E F fl s e f).flags = fl ∧ (Fp.mk4 E F fl s e f).sign = s ∧ (Fp.mk4 E F fl s e f).exp = e ∧
    (Fp.mk4 E F fl s e f).frac = f :=
  ⟨Fp.mk4_flags hfl hs he hf, Fp.mk4_sign hfl hs he hf, Fp.mk4_exp hfl hs he hf hE, Fp.mk4_frac hfl hs he hf hF⟩

example : (Fp.mk4 4 3 1 1 9 5).exp = 9 := by decide

/-- **C06.** Re-packing the fields of any word gives the same word. -/
theorem C06_pack_of_fields {E F : ℕ} (hE : 1 ≤ E) (hF : 1 ≤ F) (x : Fp E F) :
    Fp.mk4 E F x.flags x.sign x.exp x.frac = x := Fp.mk4_eta hE hF x

/-- **C06.** Every word is exactly one of zero, normal, infinity and NaN, and the predicate that holds agrees
with what the word denotes. -/
theorem C06_classes {E F : ℕ} (x : Fp E F) :
    (x.isZero = true ↔ ∃ s, x.datum = .zero s) ∧ (x.isNormal = true ↔ ∃ q, x.datum = .num q) ∧
    (x.isInf = true ↔ ∃ s, x.datum = .inf s) ∧ (x.isNan = true ↔ x.datum = .nan) := by
  rcases flags_cases x with h | h | h | h
  · rw [datum_flags0 x h]; simp [Fp.isZero, Fp.isNormal, Fp.isInf, Fp.isNan, h]
  · rw [datum_normal x h]; simp [Fp.isZero, Fp.isNormal, Fp.isInf, Fp.isNan, h]
  · rw [datum_flags2 x h]; simp [Fp.isZero, Fp.isNormal, Fp.isInf, Fp.isNan, h]
  · rw [datum_flags3 x h]; simp [Fp.isZero, Fp.isNormal, Fp.isInf, Fp.isNan, h]

/-- **C06.** The value of a normal number is `±1.frac * 2^(exp-bias)`. -/
theorem C06_normal_value {E F : ℕ} (x : Fp E F) (h : x.isNormal = true) :
    x.datum = .num ((-1) ^ x.sign * (1 + (x.frac : ℚ) / 2 ^ F) * 2 ^ ((x.exp : ℤ) - bias E)) := by
  have hn : x.flags = 1 := by simpa [Fp.isNormal] using h
  have hs := x.sign_lt
  have e : ((2 ^ F + x.frac : ℕ) : ℚ) * 2 ^ ((x.exp : ℤ) - bias E - F)
      = (1 + (x.frac : ℚ) / 2 ^ F) * 2 ^ ((x.exp : ℤ) - bias E) := by
    rw [zpow_sub₀ (by norm_num : (2 : ℚ) ≠ 0), zpow_natCast]; push_cast; field_simp
  rw [datum_normal x hn, e]
  obtain sx | sx : x.sign = 0 ∨ x.sign = 1 := by omega
  · simp [sx]
  · rw [sx, if_pos rfl]; ring

example : (Fp.mk4 4 3 1 1 9 5).isNormal = true := by decide

/-! ## C07: equals -/

/-- **C07.** `equals` holds exactly when the two encodings denote the same datum. -/
theorem C07_equals_iff_same_datum {E F : ℕ} (hE : 1 ≤ E) (hF : 1 ≤ F) (x y : Fp E F) :
    x.equals y = true ↔ x.datum = y.datum := by
  rw [Fp.datum_inj hE hF, Fp.expFrac_eq hE hF, Fp.expFrac_eq hE hF]
  have hcat : concat F x.exp x.frac = concat F y.exp y.frac ↔ x.exp = y.exp ∧ x.frac = y.frac := by
    constructor
    · intro h
      exact ⟨by rw [← concat_div (x.frac_lt hF) (a := x.exp), h, concat_div (y.frac_lt hF)],
        by rw [← concat_mod (x.frac_lt hF) (a := x.exp), h, concat_mod (y.frac_lt hF)]⟩
    · rintro ⟨a, b⟩; rw [a, b]
  rw [hcat]
  unfold Fp.equals Fp.isNan Fp.isNormal
  by_cases h1 : x.flags = y.flags
  · rw [← h1]
    rcases flags_cases x with fx | fx | fx | fx <;> simp [fx]
  · simp [h1]

/-- **C07.** `equals` is an equivalence relation (so, unlike IEEE `==`, a NaN equals itself). -/
theorem C07_equals_equivalence {E F : ℕ} (hE : 1 ≤ E) (hF : 1 ≤ F) :
    Equivalence (fun x y : Fp E F => x.equals y = true) where
  refl x := (C07_equals_iff_same_datum hE hF x x).mpr rfl
  symm h := (C07_equals_iff_same_datum hE hF _ _).mpr ((C07_equals_iff_same_datum hE hF _ _).mp h).symm
  trans h h' := (C07_equals_iff_same_datum hE hF _ _).mpr
    (((C07_equals_iff_same_datum hE hF _ _).mp h).trans ((C07_equals_iff_same_datum hE hF _ _).mp h'))

/-- **C07.** The exponent and fraction bits of a zero or infinity, and everything but the flags of a NaN, do
not matter. -/
theorem C07_equals_ignores_dont_care {E F fl s e f e' f' : ℕ} (hE : 1 ≤ E) (hF : 1 ≤ F) (hfl : fl < 4) (hs : s < 2)
    (he : e < 2 ^ E) (hf : f < 2 ^ F) (he' : e' < 2 ^ E) (hf' : f' < 2 ^ F) (hn : fl ≠ 1) :
    (Fp.mk4 E F fl s e f).equals (Fp.mk4 E F fl s e' f') = true := by
  rw [C07_equals_iff_same_datum hE hF, Fp.mk4_datum hfl hs he hf hE hF, Fp.mk4_datum hfl hs he' hf' hE hF]
  interval_cases fl
  · rfl
  · exact absurd rfl hn
  · rfl
  · rfl

example : (Fp.mk4 4 3 0 1 9 5).equals (Fp.mk4 4 3 0 1 2 0) = true := by decide
example : (Fp.mk4 4 3 0 1 9 5).equals (Fp.mk4 4 3 0 0 9 5) = false := by decide

/-! ## C08, C09: nextup and nextdown -/

/-- **C08.** For every number below +infinity, `nextup x` is above `x` and no representable number lies
strictly between them (in the order in which -0 immediately precedes +0). -/
theorem C08_nextup_successor {E F : ℕ} (hE : 1 ≤ E) (hF : 1 ≤ F) (x : Fp E F) (hx : x.datum ≠ .nan)
    (hi : x.datum ≠ .inf false) :
    x.datum.Below (nextup x).datum ∧
    ∀ y : Fp E F, ¬ (x.datum.Below y.datum ∧ y.datum.Below (nextup x).datum) := by
  have hx' : x.flags ≠ 3 := fun h => hx (datum_flags3 x h)
  obtain ⟨h1, h2⟩ := nextup_key hE hF x hx' hi
  refine ⟨by rw [Fp.below_iff hE hF _ _ hx' h1]; omega, ?_⟩
  rintro y ⟨a, b⟩
  have hy : y.flags ≠ 3 := by
    intro h
    rw [datum_flags3 y h] at b
    exact b
  rw [Fp.below_iff hE hF _ _ hx' hy] at a
  rw [Fp.below_iff hE hF _ _ hy h1] at b
  omega

example : (Fp.mk4 4 3 1 0 7 7).datum ≠ .nan ∧ (Fp.mk4 4 3 1 0 7 7).datum ≠ .inf false ∧
    nextup (Fp.mk4 4 3 1 0 7 7) = Fp.mk4 4 3 1 0 8 0 := by
  rw [datum_normal _ (by decide)]; exact ⟨by simp, by simp, by decide⟩

/-- **C08.** +infinity is a fixed point and NaN gives NaN. -/
theorem C08_nextup_special {E F : ℕ} (hE : 1 ≤ E) (hF : 1 ≤ F) (x : Fp E F) :
    (x.datum = .inf false → nextup x = x) ∧ (x.datum = .nan → (nextup x).datum = .nan) := by
  constructor
  · intro h
    have hs := x.sign_lt
    have : x.flags = 2 ∧ x.sign = 0 := by
      rcases flags_cases x with fx | fx | fx | fx
      · rw [datum_flags0 x fx] at h; cases h
      · rw [datum_normal x fx] at h; cases h
      · rw [datum_flags2 x fx] at h
        simp at h
        exact ⟨fx, by omega⟩
      · rw [datum_flags3 x fx] at h; cases h
    simp [nextup, Fp.isPosInf, Fp.isPositive, Fp.isInf, this]
  · intro h
    have fx : x.flags = 3 := by
      have := (C06_classes x).2.2.2.mpr h
      simpa [Fp.isNan] using this
    exact datum_flags3 _ ((nextup_not_nan hE hF x).mpr fx)

example : (Limits.infinity 4 3).datum = .inf false := by decide +kernel
example : (Limits.quietNaN 4 3).datum = .nan := by decide +kernel

/-- **C08.** `nextup` is injective on the numbers below +infinity, as far as data are concerned. -/
theorem C08_nextup_strictly_increasing {E F : ℕ} (hE : 1 ≤ E) (hF : 1 ≤ F) (x y : Fp E F) (hx : x.datum ≠ .nan)
    (hy : y.datum ≠ .nan) (hi : x.datum ≠ .inf false) (hi' : y.datum ≠ .inf false) :
    x.datum.Below y.datum ↔ (nextup x).datum.Below (nextup y).datum := by
  have hx' : x.flags ≠ 3 := fun h => hx (datum_flags3 x h)
  have hy' : y.flags ≠ 3 := fun h => hy (datum_flags3 y h)
  obtain ⟨h1, h2⟩ := nextup_key hE hF x hx' hi
  obtain ⟨h3, h4⟩ := nextup_key hE hF y hy' hi'
  rw [Fp.below_iff hE hF _ _ hx' hy', Fp.below_iff hE hF _ _ h1 h3]
  omega

example : (Limits.min 4 3).datum ≠ .nan ∧ (Limits.min 4 3).datum ≠ .inf false := by
  rw [datum_normal _ (by decide)]; exact ⟨by simp, by simp⟩

/-- **C09 (partial).** `nextdown x` is the predecessor of `x`, except for positive powers of two above the
smallest normal and for negative numbers whose fraction is all ones and whose exponent is not.
Missing: those two families, on which the code is wrong (`C09_nextdown_wrong_at_powers_of_two`,
`C09_nextdown_wrong_below_negative_binade`). -/
theorem C09_nextdown_predecessor_partial {E F : ℕ} (hE : 1 ≤ E) (hF : 1 ≤ F) (x : Fp E F) (hx : x.datum ≠ .nan)
    (hi : x.datum ≠ .inf true)
    (hp : x.isNormal → x.isPositive → x.frac = 0 → x.exp = 0)
    (hn : x.isNormal → x.isNegative → x.frac = 2 ^ F - 1 → x.exp = 2 ^ E - 1) :
    (nextdown x).datum.Below x.datum ∧
    ∀ y : Fp E F, ¬ ((nextdown x).datum.Below y.datum ∧ y.datum.Below x.datum) := by
  have hx' : x.flags ≠ 3 := fun h => hx (datum_flags3 x h)
  simp only [Fp.isNormal, Fp.isPositive, Fp.isNegative, beq_iff_eq] at hp hn
  obtain ⟨h1, h2⟩ := nextdown_key hE hF x hx' hi hp hn
  refine ⟨by rw [Fp.below_iff hE hF _ _ h1 hx']; omega, ?_⟩
  rintro y ⟨a, b⟩
  have hy : y.flags ≠ 3 := by
    intro h
    rw [datum_flags3 y h] at b
    exact b
  rw [Fp.below_iff hE hF _ _ h1 hy] at a
  rw [Fp.below_iff hE hF _ _ hy hx'] at b
  omega

example : let x := Fp.mk4 4 3 1 0 8 1
    x.datum ≠ .nan ∧ x.datum ≠ .inf true ∧ (x.isNormal → x.isPositive → x.frac = 0 → x.exp = 0) ∧
    (x.isNormal → x.isNegative → x.frac = 2 ^ 3 - 1 → x.exp = 2 ^ 4 - 1) := by
  refine ⟨?_, ?_, ?_, ?_⟩
  · rw [datum_normal _ (by decide)]; simp
  · rw [datum_normal _ (by decide)]; simp
  · decide
  · decide

/-- **C09 (partial).** Outside the two wrong families, `nextdown (nextup x)` denotes the same datum as `x`. -/
theorem C09_nextdown_nextup_partial {E F : ℕ} (hE : 1 ≤ E) (hF : 1 ≤ F) (x : Fp E F) (hx : x.datum ≠ .nan)
    (hi : x.datum ≠ .inf false)
    (hp : (nextup x).isNormal → (nextup x).isPositive → (nextup x).frac = 0 → (nextup x).exp = 0)
    (hn : (nextup x).isNormal → (nextup x).isNegative → (nextup x).frac = 2 ^ F - 1 → (nextup x).exp = 2 ^ E - 1) :
    (nextdown (nextup x)).datum = x.datum := by
  have hx' : x.flags ≠ 3 := fun h => hx (datum_flags3 x h)
  simp only [Fp.isNormal, Fp.isPositive, Fp.isNegative, beq_iff_eq] at hp hn
  obtain ⟨h1, h2⟩ := nextup_key hE hF x hx' hi
  have hi2 : (nextup x).datum ≠ .inf true := by
    intro h
    have := (C08_nextup_successor hE hF x hx hi).1
    rw [h] at this
    cases hd : x.datum with
    | nan => rw [hd] at this; exact this
    | inf s => rw [hd] at this; cases s <;> exact this
    | zero s => rw [hd] at this; exact this
    | num q => rw [hd] at this; exact this
  obtain ⟨h3, h4⟩ := nextdown_key hE hF _ h1 hi2 hp hn
  rw [datum_of_key hE hF _ _ h3 hx']
  omega

example : let x := Fp.mk4 4 3 1 0 7 6
    ((nextup x).isNormal → (nextup x).isPositive → (nextup x).frac = 0 → (nextup x).exp = 0) ∧
    ((nextup x).isNormal → (nextup x).isNegative → (nextup x).frac = 2 ^ 3 - 1 → (nextup x).exp = 2 ^ 4 - 1) := by
  decide

/-- **C09, the part that fails.** Below a positive power of two `nextdown` skips a whole binade: there is
always a representable number strictly between. -/
theorem C09_nextdown_wrong_at_powers_of_two {E F : ℕ} (hE : 1 ≤ E) (hF : 1 ≤ F) (x : Fp E F)
    (h1 : x.isNormal = true) (h2 : x.isPositive = true) (h3 : x.frac = 0) (h4 : x.exp ≠ 0) :
    ∃ y : Fp E F, (nextdown x).datum.Below y.datum ∧ y.datum.Below x.datum := by
  have fx : x.flags = 1 := by simpa [Fp.isNormal] using h1
  have sx : x.sign = 0 := by simpa [Fp.isPositive] using h2
  have pF : 0 < 2 ^ F := by positivity
  have he := x.exp_lt hE
  have h5 := subW_one he h4
  have hf1 : 1 < 2 ^ F := Nat.one_lt_two_pow (by omega)
  have hef : x.expFrac = x.exp * 2 ^ F + 0 := by rw [Fp.expFrac_eq hE hF, h3]; rfl
  obtain ⟨a, b, c⟩ := Fp.mk3_fields (E := E) (F := F) (fs := 2) (e := x.exp - 1) (f := 0) hE (by decide) (by omega) pF
  obtain ⟨a', b', c'⟩ := Fp.mk3_fields (E := E) (F := F) (fs := 2) (e := x.exp - 1) (f := 1) hE (by decide) (by omega) hf1
  have hnd : nextdown x = Fp.mk3 E F 2 (x.exp - 1) 0 := by
    simp [nextdown, Fp.isPosInf, Fp.isPosNormal, Fp.isPositive, Fp.isInf, Fp.isNormal, fx, sx, h3, h4, h5]
  refine ⟨Fp.mk3 E F 2 (x.exp - 1) 1, ?_, ?_⟩
  · rw [hnd, Fp.below_iff hE hF _ _ (by rw [a]; decide) (by rw [a']; decide)]
    simp [Fp.key, a, b, c, a', b', c']
  · rw [Fp.below_iff hE hF _ _ (by rw [a']; decide) (by rw [fx]; decide)]
    simp [Fp.key, fx, sx, a', b', c', hef]
    obtain ⟨k, hk⟩ : ∃ k, x.exp = k + 1 := ⟨x.exp - 1, by omega⟩
    rw [hk]
    push_cast
    have : (1 : ℤ) < 2 ^ F := by exact_mod_cast hf1
    nlinarith

example : let x := Fp.mk4 4 3 1 0 7 0
    x.isNormal = true ∧ x.isPositive = true ∧ x.frac = 0 ∧ x.exp ≠ 0 := by decide

/-- **C09, the part that fails.** For negative numbers at the bottom of a binade `nextdown` skips the whole
next binade. -/
theorem C09_nextdown_wrong_below_negative_binade {E F : ℕ} (hE : 1 ≤ E) (hF : 1 ≤ F) (x : Fp E F)
    (h1 : x.isNormal = true) (h2 : x.isNegative = true) (h3 : x.frac = 2 ^ F - 1) (h4 : x.exp ≠ 2 ^ E - 1) :
    ∃ y : Fp E F, (nextdown x).datum.Below y.datum ∧ y.datum.Below x.datum := by
  have fx : x.flags = 1 := by simpa [Fp.isNormal] using h1
  have sx : x.sign = 1 := by simpa [Fp.isNegative] using h2
  have pF : 0 < 2 ^ F := by positivity
  have he := x.exp_lt hE
  have he' : x.exp + 1 < 2 ^ E := by omega
  have h5 : addW E x.exp 1 = x.exp + 1 := Nat.mod_eq_of_lt he'
  have hf1 : 1 < 2 ^ F := Nat.one_lt_two_pow (by omega)
  have oF : ones F < 2 ^ F := by unfold ones; omega
  have hef : x.expFrac = x.exp * 2 ^ F + ones F := by rw [Fp.expFrac_eq hE hF, h3]; rfl
  obtain ⟨a, b, c⟩ := Fp.mk3_fields (E := E) (F := F) (fs := 3) hE (by decide) he' oF
  obtain ⟨a', b', c'⟩ := Fp.mk3_fields (E := E) (F := F) (fs := 3) hE (by decide) he' pF
  have hnd : nextdown x = Fp.mk3 E F 3 (x.exp + 1) (ones F) := by
    have h4' : x.exp ≠ ones E := h4
    have h3' : x.frac = ones F := h3
    simp [nextdown, Fp.isPosInf, Fp.isPosNormal, Fp.isPosZero, Fp.isNegZero, Fp.isNegNormal, Fp.isPositive,
      Fp.isNegative, Fp.isInf, Fp.isNormal, Fp.isZero, fx, sx, h3', h4', h5]
  have hones : ((ones F : ℕ) : ℤ) + 1 = 2 ^ F := by
    have : ones F + 1 = 2 ^ F := by unfold ones; omega
    exact_mod_cast this
  have hf1' : (1 : ℤ) < 2 ^ F := by exact_mod_cast hf1
  refine ⟨Fp.mk3 E F 3 (x.exp + 1) 0, ?_, ?_⟩
  · rw [hnd, Fp.below_iff hE hF _ _ (by rw [a]; decide) (by rw [a']; decide)]
    simp [Fp.key, a, b, c, a', b', c']
    omega
  · rw [Fp.below_iff hE hF _ _ (by rw [a']; decide) (by rw [fx]; decide)]
    simp [Fp.key, fx, sx, a', b', c', hef]
    nlinarith

example : let x := Fp.mk4 4 3 1 1 7 7
    x.isNormal = true ∧ x.isNegative = true ∧ x.frac = 2 ^ 3 - 1 ∧ x.exp ≠ 2 ^ 4 - 1 := by decide

/-! ## C46: numeric_limits -/

/-- **C46 (partial).** The values of the `numeric_limits` constants. Missing: `epsilon`, which is wrong
(`C46_epsilon_and_snan_wrong`). -/
theorem C46_limits_values_partial {E F : ℕ} (hE : 1 ≤ E) (hF : 1 ≤ F) :
    (Limits.min E F).datum = .num (2 ^ (-bias E)) ∧
    (Limits.negMin E F).datum = .num (-2 ^ (-bias E)) ∧
    (Limits.max E F).datum = .num ((2 - 1 / 2 ^ F) * 2 ^ ((2 : ℤ) ^ E - 1 - bias E)) ∧
    (Limits.lowest E F).datum = .num (-((2 - 1 / 2 ^ F) * 2 ^ ((2 : ℤ) ^ E - 1 - bias E))) ∧
    Limits.negMax E F = Limits.lowest E F ∧
    (Limits.infinity E F).datum = .inf false ∧ (Limits.negInfinity E F).datum = .inf true ∧
    (Limits.quietNaN E F).datum = .nan ∧
    (Limits.posZero E F).datum = .zero false ∧ (Limits.negZero E F).datum = .zero true ∧
    (Limits.posOne E F).datum = .num 1 ∧ (Limits.negOne E F).datum = .num (-1) := by
  have pE : 0 < 2 ^ E := by positivity
  have pF : 0 < 2 ^ F := by positivity
  have oE : ones E < 2 ^ E := by unfold ones; omega
  have oF : ones F < 2 ^ F := by unfold ones; omega
  have mk : ∀ fs e f, fs < 8 → e < 2 ^ E → f < 2 ^ F → (Fp.mk3 E F fs e f).datum = denote E F (fs / 2) (fs % 2) e f := by
    intro fs e f h1 h2 h3
    obtain ⟨a, b, c⟩ := Fp.mk3_fields (E := E) (F := F) hE h1 h2 h3
    have hx : (Fp.mk3 E F fs e f).exp = e := by
      rw [← Fp.expFrac_div hE hF, c]; exact concat_div h3
    have hf : (Fp.mk3 E F fs e f).frac = f := by
      rw [← Fp.expFrac_mod hE hF, c]; exact concat_mod h3
    rw [Fp.datum, a, b, hx, hf]
  have hz : ((2 ^ F : ℕ) : ℚ) ≠ 0 := by positivity
  have hmin : ((2 ^ F + 0 : ℕ) : ℚ) * 2 ^ (((0 : ℕ) : ℤ) - bias E - F) = 2 ^ (-bias E) := by
    rw [Nat.add_zero, show ((0 : ℕ) : ℤ) - bias E - F = -bias E - F by simp, zpow_sub₀ (by norm_num), zpow_natCast]
    push_cast; field_simp
  have hone : ((2 ^ F + 0 : ℕ) : ℚ) * 2 ^ (((biasN E : ℕ) : ℤ) - bias E - F) = 1 := by
    rw [pow_bias, Nat.add_zero, show bias E - bias E - (F : ℤ) = -F by ring, zpow_neg, zpow_natCast]
    push_cast; field_simp
  have hmax : ((2 ^ F + ones F : ℕ) : ℚ) * 2 ^ (((ones E : ℕ) : ℤ) - bias E - F)
      = (2 - 1 / 2 ^ F) * 2 ^ ((2 : ℤ) ^ E - 1 - bias E) := by
    have h1 : ((ones E : ℕ) : ℤ) = 2 ^ E - 1 := by unfold ones; push_cast [show 1 ≤ 2 ^ E by omega]; rfl
    have h2 : ((ones F : ℕ) : ℚ) = 2 ^ F - 1 := by unfold ones; push_cast [show 1 ≤ 2 ^ F by omega]; rfl
    rw [h1, Nat.cast_add, h2, zpow_sub₀ (by norm_num), zpow_natCast]
    push_cast; field_simp; ring
  refine ⟨?_, ?_, ?_, ?_, rfl, ?_, ?_, ?_, ?_, ?_, ?_, ?_⟩
  · rw [Limits.min, mk _ _ _ (by decide) pE pF]; simp only [denote]; rw [hmin]; norm_num
  · rw [Limits.negMin, mk _ _ _ (by decide) pE pF]; simp only [denote]; rw [hmin]; norm_num
  · rw [Limits.max, mk _ _ _ (by decide) oE oF]; simp only [denote]; rw [hmax]; norm_num
  · rw [Limits.lowest, mk _ _ _ (by decide) oE oF]; simp only [denote]; rw [hmax]; norm_num
  · rw [Limits.infinity, mk _ _ _ (by decide) pE pF]; rfl
  · rw [Limits.negInfinity, mk _ _ _ (by decide) pE pF]; rfl
  · rw [Limits.quietNaN, mk _ _ _ (by decide) pE pF]; rfl
  · rw [Limits.posZero, mk _ _ _ (by decide) pE pF]; rfl
  · rw [Limits.negZero, mk _ _ _ (by decide) pE pF]; rfl
  · rw [Limits.posOne, mk _ _ _ (by decide) biasN_lt pF]; simp only [denote]; rw [hone]; norm_num
  · rw [Limits.negOne, mk _ _ _ (by decide) biasN_lt pF]; simp only [denote]; rw [hone]; norm_num

/-- **C46.** Every positive normal number is at least `min`, and every normal number lies between `lowest`
and `max`. -/
theorem C46_limits_bound {E F : ℕ} (hE : 1 ≤ E) (hF : 1 ≤ F) (x : Fp E F) (v : ℚ) (hx : x.datum = .num v) :
    ∃ mn mx lo : ℚ, (Limits.min E F).datum = .num mn ∧ (Limits.max E F).datum = .num mx ∧
      (Limits.lowest E F).datum = .num lo ∧ lo ≤ v ∧ v ≤ mx ∧ (0 < v → mn ≤ v) := by
  have fx : x.flags = 1 := (datum_num_iff.mp hx).1
  have hs := x.sign_lt
  have pE : 0 < 2 ^ E := by positivity
  have pF : 0 < 2 ^ F := by positivity
  have oE : ones E < 2 ^ E := by unfold ones; omega
  have oF : ones F < 2 ^ F := by unfold ones; omega
  obtain ⟨a, b, c⟩ := Fp.mk3_fields (E := E) (F := F) (fs := 2) hE (by decide) pE pF
  obtain ⟨a', b', c'⟩ := Fp.mk3_fields (E := E) (F := F) (fs := 2) hE (by decide) oE oF
  obtain ⟨a'', b'', c''⟩ := Fp.mk3_fields (E := E) (F := F) (fs := 3) hE (by decide) oE oF
  refine ⟨_, _, _, Fp.datum_normal_mag hE hF _ a, Fp.datum_normal_mag hE hF _ a', Fp.datum_normal_mag hE hF _ a'', ?_⟩
  unfold Limits.min Limits.max Limits.lowest
  rw [b, c, b', c', b'', c'']
  rw [Fp.datum_normal_mag hE hF x fx] at hx
  have hv := Datum.num.inj hx
  have hle : x.expFrac ≤ ones E * 2 ^ F + ones F := by
    have := x.expFrac_lt (by omega); have := ones_ones E F; omega
  have h1 := (mag_strictMono E F).monotone hle
  have h2 := (mag_strictMono E F).monotone (show 0 * 2 ^ F + 0 ≤ x.expFrac by omega)
  have h3 := mag_pos E F x.expFrac
  have h4 := mag_pos E F (ones E * 2 ^ F + ones F)
  rw [← hv]
  norm_num at *
  obtain sx | sx : x.sign = 0 ∨ x.sign = 1 := by omega
  · simp [sx]
    exact ⟨by linarith, h1, fun _ => h2⟩
  · simp [sx]
    exact ⟨h1, by linarith, fun h => by linarith⟩

/-- **C46, the part that fails.** `epsilon()` cannot be called (its first statement is `assert(0)`); the value
it would return is half the gap above one; and `signalling_NaN()` is a zero, not a NaN. -/
theorem C46_epsilon_and_snan_wrong {E F : ℕ} (hE : 1 ≤ E) (hF : 1 ≤ F) (h : F + 1 ≤ biasN E) :
    Limits.epsilon E F = none ∧ (Limits.epsilonBody E F).datum = .num (1 / 2 ^ F / 2) ∧
    (nextup (Limits.posOne E F)).datum = .num (1 + 1 / 2 ^ F) ∧ (Limits.signallingNaN E F).datum = .zero false := by
  have pE : 0 < 2 ^ E := by positivity
  have pF : 0 < 2 ^ F := by positivity
  have hf1 : 1 < 2 ^ F := Nat.one_lt_two_pow (by omega)
  have hb := biasN_lt (E := E)
  have mk : ∀ fs e f, fs < 8 → e < 2 ^ E → f < 2 ^ F → (Fp.mk3 E F fs e f).datum = denote E F (fs / 2) (fs % 2) e f ∧
      (Fp.mk3 E F fs e f).exp = e ∧ (Fp.mk3 E F fs e f).frac = f := by
    intro fs e f h1 h2 h3
    obtain ⟨a, b, c⟩ := Fp.mk3_fields (E := E) (F := F) hE h1 h2 h3
    have hx : (Fp.mk3 E F fs e f).exp = e := by
      rw [← Fp.expFrac_div hE hF, c]; exact concat_div h3
    have hf : (Fp.mk3 E F fs e f).frac = f := by
      rw [← Fp.expFrac_mod hE hF, c]; exact concat_mod h3
    rw [Fp.datum, a, b, hx, hf]
    exact ⟨rfl, rfl, rfl⟩
  refine ⟨rfl, ?_, ?_, ?_⟩
  · rw [Limits.epsilonBody, (mk _ _ _ (by decide) (by omega) pF).1]
    simp only [denote]
    have : (((biasN E - F - 1 : ℕ) : ℤ) - bias E - F) = - (F + 1 : ℕ) - (F : ℕ) := by
      rw [← pow_bias]; push_cast [show 1 ≤ biasN E - F by omega, show F ≤ biasN E by omega]; ring
    rw [this, zpow_sub₀ (by norm_num), zpow_neg, zpow_natCast, zpow_natCast, pow_succ]
    push_cast; norm_num; field_simp
  · obtain ⟨a, b, c⟩ := Fp.mk3_fields (E := E) (F := F) (fs := 2) hE (by decide) hb pF
    obtain ⟨_, e1, e2⟩ := mk 2 (biasN E) 0 (by decide) hb pF
    have hne : ¬ (0 = ones F) := by unfold ones; omega
    have hnu : nextup (Limits.posOne E F) = Fp.mk3 E F 2 (biasN E) 1 := by
      have hadd : addW F 0 1 = 1 := Nat.mod_eq_of_lt hf1
      simp [nextup, Limits.posOne, Fp.isPosInf, Fp.isPosNormal, Fp.isPositive, Fp.isInf, Fp.isNormal, a, b, e1, e2,
        hne, hadd]
    rw [hnu, (mk _ _ _ (by decide) hb hf1).1]
    simp only [denote]
    rw [pow_bias, show bias E - bias E - (F : ℤ) = -F by ring, zpow_neg, zpow_natCast]
    push_cast; norm_num; field_simp
  · rw [Limits.signallingNaN, (mk _ _ _ (by decide) pE pF).1]; rfl

example : (3 + 1 ≤ biasN 4) := by decide

/-! ## C47: MPFR exchange -/

/-- **C47.** Extraction into an MPFR number of precision `F+1` is exact. -/
theorem C47_to_mpfr_exact {E F : ℕ} (x : Fp E F) : (toMpfr x).datum = x.datum := by
  have hs := x.sign_lt
  rcases flags_cases x with fx | fx | fx | fx
  · rw [datum_flags0 x fx, toMpfr]; simp [fx, Mpfr.datum, beq_eq_decide]
  · rw [datum_normal x fx, toMpfr]
    simp only [fx, Mpfr.datum, ← pow_bias]
    rw [show (x.exp : ℤ) - F - biasN E = (x.exp : ℤ) - biasN E - F by ring]
    simp [beq_iff_eq]
  · rw [datum_flags2 x fx, toMpfr]; simp [fx, Mpfr.datum, beq_eq_decide]
  · rw [datum_flags3 x fx, toMpfr]; simp [fx, Mpfr.datum]

/-- **C47.** Constructing from the extracted MPFR number succeeds, whatever the underflow policy, and gives
an equal number. -/
theorem C47_mpfr_round_trip {E F : ℕ} (hE : 2 ≤ E) (hF : 1 ≤ F) (allow : Bool) (x : Fp E F) :
    ∃ y : Fp E F, ofMpfr E F allow (toMpfr x) = some y ∧ y.equals x = true := by
  have hE1 : 1 ≤ E := by omega
  have hs := x.sign_lt
  have he := x.exp_lt hE1
  have hf := x.frac_lt hF
  have pE : 0 < 2 ^ E := by positivity
  have pF : 0 < 2 ^ F := by positivity
  obtain ⟨_, _, _, _, _, i1, i2, i3, _, _⟩ := C46_limits_values_partial (E := E) (F := F) hE1 hF
  have hb := bias_bounds hE
  rw [← pow_bias] at hb
  have tn : (decide (x.sign = 1)).toNat = x.sign := by
    obtain h | h : x.sign = 0 ∨ x.sign = 1 := by omega
    all_goals simp [h]
  rcases flags_cases x with fx | fx | fx | fx
  · refine ⟨Fp.mk4 E F 0 x.sign 0 0, ?_, ?_⟩
    · simp [toMpfr, fx, ofMpfr, Fp.mk4, concat, beq_eq_decide, tn]
    · rw [C07_equals_iff_same_datum hE1 hF, Fp.mk4_datum (by decide) hs pE pF hE1 hF, datum_flags0 x fx]; rfl
  · have hx : ofMpfr E F allow (toMpfr x) = some (Fp.mk4 E F 1 x.sign x.exp x.frac) := by
      have h1 : (2 ^ F + x.frac) / 2 ^ F % 2 = 1 := by
        rw [Nat.add_div_left _ pF, Nat.div_eq_of_lt hf]
      have he' : (x.exp : ℤ) < 2 ^ E := by exact_mod_cast he
      have h2 : ¬ ((x.exp : ℤ) - F - biasN E + F < 0 - (biasN E : ℤ)) := by omega
      have h3 : ¬ ((x.exp : ℤ) - F - biasN E + F > 0 + (biasN E : ℤ) + 1) := by omega
      have h4 : ((x.exp : ℤ) - F - biasN E + F + biasN E).toNat = x.exp := by omega
      have h5 : toMpfr x = .num (decide (x.sign = 1)) (2 ^ F + x.frac) ((x.exp : ℤ) - F - biasN E) := by
        simp [toMpfr, fx, beq_eq_decide]
      rw [h5, ofMpfr, h1, if_neg (by decide)]
      dsimp only
      rw [Nat.add_sub_cancel_left, if_neg (Nat.not_le.mpr hf), if_neg h2, if_neg h3, h4, tn]
    refine ⟨_, hx, ?_⟩
    rw [C07_equals_iff_same_datum hE1 hF, ← fx, Fp.mk4_eta hE1 hF]
  · refine ⟨_, by simp only [toMpfr, fx, ofMpfr]; simp; rfl, ?_⟩
    rw [C07_equals_iff_same_datum hE1 hF, datum_flags2 x fx]
    obtain h | h : x.sign = 0 ∨ x.sign = 1 := by omega
    · simp [h, i1]
    · simp [h, i2]
  · refine ⟨_, by simp only [toMpfr, fx, ofMpfr]; simp; rfl, ?_⟩
    rw [C07_equals_iff_same_datum hE1 hF, datum_flags3 x fx, i3]

theorem bias_double {E : ℕ} (hE : 1 ≤ E) : (0 : ℤ) ≤ bias E ∧ 2 * bias E + 2 = 2 ^ E := by
  unfold bias
  have h1 : (2 : ℤ) ^ E = 2 * 2 ^ (E - 1) := by
    conv_lhs => rw [show E = (E - 1) + 1 by omega, pow_succ]
    ring
  have h2 : (1 : ℤ) ≤ 2 ^ (E - 1) := by
    have : 1 ≤ 2 ^ (E - 1) := Nat.one_le_two_pow
    exact_mod_cast this
  constructor <;> linarith

/-- **C47.** Constructing from any MPFR number of precision `F+1`: the value is kept when its exponent is
representable; otherwise the result is a zero or infinity of the right sign if under/overflow is allowed and
an exception if not. -/
theorem C47_of_mpfr {E F m : ℕ} (hE : 1 ≤ E) (hF : 1 ≤ F) (allow neg : Bool) (e : ℤ) (hm : IsSig (F + 1) m) :
    if 0 ≤ e + F + bias E ∧ e + F + bias E < 2 ^ E ∨ allow then
      ∃ y : Fp E F, ofMpfr E F allow (.num neg m e) = some y ∧ y.datum = rangeCheck E F neg m e
    else ofMpfr E F allow (.num neg m e) = none := by
  have hE1 : 1 ≤ E := by omega
  have pE : 0 < 2 ^ E := by positivity
  have hb := bias_double hE
  rw [← pow_bias] at hb
  rw [← pow_bias]
  obtain ⟨m1, m2⟩ := hm
  rw [Nat.add_sub_cancel] at m1
  rw [pow_succ] at m2
  have hbit : m / 2 ^ F % 2 = 1 := by
    have : m / 2 ^ F = 1 := Nat.div_eq_of_lt_le (by omega) (by omega)
    rw [this]
  have hfr : m - 2 ^ F < 2 ^ F := by omega
  have hs : neg.toNat < 2 := by cases neg <;> decide
  have hsd : decide (neg.toNat = 1) = neg := by cases neg <;> rfl
  simp only [ofMpfr, hbit, Nat.not_le.mpr hfr, one_ne_zero, if_false]
  by_cases h1 : e + F + biasN E < 0
  · have h2 : e + F < 0 - (biasN E : ℤ) := by omega
    cases allow
    · rw [if_neg (by simp; omega), if_pos h2]; rfl
    · simp only [h2, if_true, or_true]
      refine ⟨_, rfl, ?_⟩
      rw [Fp.mk4_datum (by decide) hs pE hfr hE1 hF, rangeCheck, ← pow_bias, if_pos h1, denote, hsd]
  · by_cases h3 : 2 ^ E ≤ e + F + (biasN E : ℤ)
    · have h2 : ¬ (e + F < 0 - (biasN E : ℤ)) := by omega
      have h4 : e + F > 0 + (biasN E : ℤ) + 1 := by omega
      cases allow
      · rw [if_neg (by simp; omega), if_neg h2, if_pos h4]; rfl
      · simp only [h2, h4, if_true, if_false, or_true]
        refine ⟨_, rfl, ?_⟩
        rw [Fp.mk4_datum (by decide) hs pE hfr hE1 hF, rangeCheck, ← pow_bias, if_neg h1, if_pos h3, denote, hsd]
    · have h2 : ¬ (e + F < 0 - (biasN E : ℤ)) := by omega
      have h4 : ¬ (e + F > 0 + (biasN E : ℤ) + 1) := by omega
      rw [if_pos (Or.inl ⟨by omega, by omega⟩), if_neg h2, if_neg h4]
      refine ⟨_, rfl, ?_⟩
      have hlt : (e + F + (biasN E : ℤ)).toNat < 2 ^ E := by
        have : (((e + F + (biasN E : ℤ)).toNat : ℕ) : ℤ) < ((2 ^ E : ℕ) : ℤ) := by push_cast; omega
        exact_mod_cast this
      rw [Fp.mk4_datum (by decide) hs hlt hfr hE1 hF, rangeCheck, ← pow_bias, if_neg h1, if_neg h3, denote, ← pow_bias,
        show 2 ^ F + (m - 2 ^ F) = m by omega,
        show (((e + F + (biasN E : ℤ)).toNat : ℕ) : ℤ) - biasN E - F = e by omega]
      cases neg <;> simp

example : IsSig (3 + 1) 13 := by unfold IsSig; decide

/-! ## C49: within_1ulp -/

/-- **C49.** `within_1ulp` of two non-NaN numbers holds exactly when no representable number lies strictly
between them in the order of the extended reals. -/
theorem C49_within_1ulp {E F : ℕ} (hE : 1 ≤ E) (hF : 1 ≤ F) (x o : Fp E F) (hx : x.datum ≠ .nan)
    (ho : o.datum ≠ .nan) :
    x.within1ulp o = true ↔ ¬ ∃ y : Fp E F, (x.datum.Lt y.datum ∧ y.datum.Lt o.datum) ∨
      (o.datum.Lt y.datum ∧ y.datum.Lt x.datum) := by
  have hx' : x.flags ≠ 3 := fun h => hx (datum_flags3 x h)
  have ho' : o.flags ≠ 3 := fun h => ho (datum_flags3 o h)
  have key : (∃ y : Fp E F, (x.datum.Lt y.datum ∧ y.datum.Lt o.datum) ∨ (o.datum.Lt y.datum ∧ y.datum.Lt x.datum)) ↔
      1 < |x.rkey - o.rkey| := by
    have bx := abs_le.mp (x.rkey_le hE)
    have bo := abs_le.mp (o.rkey_le hE)
    constructor
    · rintro ⟨y, h⟩
      have hy : y.flags ≠ 3 := by
        intro h3
        rw [datum_flags3 y h3] at h
        rcases h with h | h <;> exact h.2
      rw [Fp.lt_iff hE hF _ _ hx' hy, Fp.lt_iff hE hF _ _ hy ho', Fp.lt_iff hE hF _ _ ho' hy,
        Fp.lt_iff hE hF _ _ hy hx'] at h
      rcases h with h | h
      · rw [abs_of_neg (by omega)]; omega
      · rw [abs_of_pos (by omega)]; omega
    · intro h
      rcases lt_abs.mp h with h | h
      · obtain ⟨y, hy, hk⟩ := Fp.exists_rkey (F := F) hE (o.rkey + 1) (by rw [abs_le]; constructor <;> omega)
        exact ⟨y, Or.inr ⟨(Fp.lt_iff hE hF _ _ ho' hy).mpr (by omega), (Fp.lt_iff hE hF _ _ hy hx').mpr (by omega)⟩⟩
      · obtain ⟨y, hy, hk⟩ := Fp.exists_rkey (F := F) hE (x.rkey + 1) (by rw [abs_le]; constructor <;> omega)
        exact ⟨y, Or.inl ⟨(Fp.lt_iff hE hF _ _ hx' hy).mpr (by omega), (Fp.lt_iff hE hF _ _ hy ho').mpr (by omega)⟩⟩
  rw [key, Fp.within1ulp_iff hE hF x o hx' ho', not_lt]

example : (Fp.mk4 4 3 1 0 7 7).within1ulp (Fp.mk4 4 3 1 0 8 0) = true ∧ (Fp.mk4 4 3 1 0 7 7).datum ≠ .nan := by
  refine ⟨by decide, ?_⟩
  rw [datum_normal _ (by decide)]; simp

/-- **C49.** With a NaN operand `within_1ulp` holds exactly when both are NaN. -/
theorem C49_within_1ulp_nan {E F : ℕ} (x o : Fp E F) (h : x.datum = .nan ∨ o.datum = .nan) :
    x.within1ulp o = true ↔ x.datum = .nan ∧ o.datum = .nan := by
  rw [← (C06_classes x).2.2.2, ← (C06_classes o).2.2.2] at *
  unfold Fp.within1ulp
  by_cases h1 : o.isNan = true
  · simp [h1]
  · have h2 : x.isNan = true := h.resolve_right h1
    simp [h1, h2]

example : (Limits.quietNaN 4 3).datum = .nan ∨ (Limits.posOne 4 3).datum = .nan := Or.inl (by decide +kernel)

/-! ## C50: equality class -/

/-- **C50.** `get_equality_class` orders the classes NaN, -inf, negative, zero, positive, +inf. -/
theorem C50_equality_class {E F : ℕ} (x : Fp E F) :
    x.equalityClass = match x.datum with
      | .nan => 0
      | .inf true => 1
      | .num q => if q < 0 then 2 else 4
      | .zero _ => 3
      | .inf false => 5 := by
  have hs := x.sign_lt
  have hsf : getBits (E + F + 2) (E + F) x.bits = x.flags * 2 + x.sign := by
    unfold Fp.flags Fp.sign getBits
    rw [show E + F + 2 + 1 - (E + F) = 3 by omega, show E + F + 2 + 1 - (E + F + 1) = 2 by omega,
      show E + F + 1 - (E + F) = 1 by omega, pow_succ 2 (E + F), ← Nat.div_div_eq_div_mul]
    omega
  unfold Fp.equalityClass
  rw [hsf]
  obtain sx | sx : x.sign = 0 ∨ x.sign = 1 := by omega
  all_goals
    rcases flags_cases x with fx | fx | fx | fx
  · rw [datum_flags0 x fx]; simp [sx, fx]
  · rw [datum_normal x fx]
    have := signed_neg (s := x.sign) (sig_scaled_pos F x.frac ((x.exp : ℤ) - bias E - F))
    dsimp only
    rw [if_congr this rfl rfl, sx, fx]; rfl
  · rw [datum_flags2 x fx]; simp [sx, fx]
  · rw [datum_flags3 x fx]; simp [sx, fx]
  · rw [datum_flags0 x fx]; simp [sx, fx]
  · rw [datum_normal x fx]
    have := signed_neg (s := x.sign) (sig_scaled_pos F x.frac ((x.exp : ℤ) - bias E - F))
    dsimp only
    rw [if_congr this rfl rfl, sx, fx]; rfl
  · rw [datum_flags2 x fx]; simp [sx, fx]
  · rw [datum_flags3 x fx]; simp [sx, fx]

end Thls
