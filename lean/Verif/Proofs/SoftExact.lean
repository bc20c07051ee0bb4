import Verif.Proofs.SoftQuiet

/-! # Identities and exact results of the SoftFloat routines -/

namespace Thls
open Spec

/-- A value of the format below the limit is its own rounding. -/
theorem roundedG_exact {E F m : ℕ} {e : ℤ} {q : ℚ} {d : Datum} (hg : IsGradual E F m e) (hq : |q| = m * 2 ^ e) (h0 : q ≠ 0)
    (hl : |q| < ieeeLimit E) (h : RoundedGradual E F q d) : d = .num q :=
  roundedG_self h hg hq h0 hl

namespace SoftFmt
variable {f : SoftFmt}

/-- The value of a finite word is an integer multiple of its last place. -/
theorem num_form (ok : f.Ok) {w : ℕ} (hw : w < 2 ^ f.W) {v : ℚ} (hv : wordDatum f.E f.F w = .num v) :
    ∃ (n : ℤ) (t : ℕ), v = n * 2 ^ ((t : ℤ) + leastExp f.E f.F) ∧ n.natAbs < 2 ^ (f.F + 1) ∧ |v| < ieeeLimit f.E := by
  rcases kind ok hw with ⟨h1, d⟩ | ⟨h1, hf, d⟩ | ⟨h1, hf, d⟩ | ⟨h1, h0, d⟩
  · rw [d] at hv; cases hv
  · rw [d] at hv; cases hv
  · rw [d] at hv; cases hv
  · rw [d] at hv
    injection hv with hv
    subst hv
    have hp := mag_props ok h1 (fields_lt f w).2
    have habs : |sg (f.sign w) * f.mag (f.exp w) (f.frac w)| = f.mag (f.exp w) (f.frac w) := by
      rw [abs_sg, abs_of_pos (mag_pos h0)]
    refine ⟨(if f.sign w then -1 else 1) * (f.sigOf (f.exp w) (f.frac w) : ℤ), tOf (f.exp w), ?_, ?_, by rw [habs]; exact hp.2⟩
    · unfold mag sg
      cases f.sign w <;> simp
    · have := hp.1.1
      cases f.sign w <;> simp <;> omega

/-- A sum that is small compared with the last place of the smaller operand is exact. -/
theorem sum_exact_of_small (ok : f.Ok) {a b : ℕ} (ha : a < 2 ^ f.W) (hb : b < 2 ^ f.W) {p q : ℚ}
    {m n : ℤ} {t u : ℕ} (hp : p = m * 2 ^ ((t : ℤ) + leastExp f.E f.F)) (hq : q = n * 2 ^ ((u : ℤ) + leastExp f.E f.F))
    (hs : |p + q| < 2 ^ (f.F + 1) * 2 ^ (((min t u : ℕ) : ℤ) + leastExp f.E f.F)) (hl : |p + q| < ieeeLimit f.E) {d : Datum}
    (h0 : p + q ≠ 0) (h : RoundedGradual f.E f.F (p + q) d) : d = .num (p + q) := by
  obtain ⟨k, hk⟩ : ∃ k : ℤ, p + q = k * 2 ^ (((min t u : ℕ) : ℤ) + leastExp f.E f.F) := by
    obtain ⟨i, hi⟩ : ∃ i, t = i + min t u := ⟨t - min t u, by omega⟩
    obtain ⟨j, hj⟩ : ∃ j, u = j + min t u := ⟨u - min t u, by omega⟩
    refine ⟨m * 2 ^ i + n * 2 ^ j, ?_⟩
    rw [hp, hq]
    generalize min t u = M at *
    subst hi hj
    rw [show (((i + M : ℕ) : ℤ) + leastExp f.E f.F) = (i : ℤ) + ((M : ℤ) + leastExp f.E f.F) by push_cast; ring,
      show (((j + M : ℕ) : ℤ) + leastExp f.E f.F) = (j : ℤ) + ((M : ℤ) + leastExp f.E f.F) by push_cast; ring,
      zpow_add₀ (by norm_num) (i : ℤ), zpow_add₀ (by norm_num) (j : ℤ), zpow_natCast, zpow_natCast]
    push_cast
    ring
  have P := two_zpow_pos (((min t u : ℕ) : ℤ) + leastExp f.E f.F)
  have habs : |p + q| = (k.natAbs : ℚ) * 2 ^ (((min t u : ℕ) : ℤ) + leastExp f.E f.F) := by
    rw [hk, abs_mul, abs_of_pos P, Nat.cast_natAbs, Int.cast_abs]
  refine roundedG_exact (m := k.natAbs) (e := ((min t u : ℕ) : ℤ) + leastExp f.E f.F) ⟨?_, by omega⟩ habs h0 hl h
  rw [habs] at hs
  have := lt_of_mul_lt_mul_right hs P.le
  exact_mod_cast this

/-- Sterbenz: the difference of two numbers within a factor of two is exact. -/
theorem sterbenz (ok : f.Ok) {a b : ℕ} (ha : a < 2 ^ f.W) (hb : b < 2 ^ f.W) {p q : ℚ} (hp : wordDatum f.E f.F a = .num p)
    (hq : wordDatum f.E f.F b = .num q) (hsgn : p * q < 0) (h1 : |p| ≤ 2 * |q|) (h2 : |q| ≤ 2 * |p|) {d : Datum}
    (h : IeeeSum f.E f.F (wordDatum f.E f.F a) (wordDatum f.E f.F b) d) : d = if p + q = 0 then .zero false else .num (p + q) := by
  rw [hp, hq] at h
  simp only [IeeeSum] at h
  by_cases h0 : p + q = 0
  · rw [if_pos h0] at h ⊢; exact h
  · rw [if_neg h0] at h ⊢
    obtain ⟨m, t, hm, hm2, hml⟩ := num_form ok ha hp
    obtain ⟨n, u, hn, hn2, hnl⟩ := num_form ok hb hq
    have hle : |p + q| ≤ |p| ∧ |p + q| ≤ |q| := by
      rcases lt_or_ge p 0 with hp0 | hp0
      · have hq0 : 0 < q := by
          rcases lt_or_ge 0 q with h | h
          · exact h
          · nlinarith
        rw [abs_of_neg hp0, abs_of_pos hq0] at *
        constructor <;> rw [abs_le] <;> constructor <;> linarith
      · have hp1 : 0 < p := lt_of_le_of_ne hp0 fun h => by rw [← h, zero_mul] at hsgn; exact lt_irrefl _ hsgn
        have hq0 : q < 0 := by
          rcases lt_or_ge q 0 with h | h
          · exact h
          · nlinarith
        rw [abs_of_pos hp1, abs_of_neg hq0] at *
        constructor <;> rw [abs_le] <;> constructor <;> linarith
    refine sum_exact_of_small ok ha hb hm hn ?_ (lt_of_le_of_lt hle.1 hml) h0 h
    have bnd : ∀ {v : ℚ} {k : ℤ} {s : ℕ}, v = k * 2 ^ ((s : ℤ) + leastExp f.E f.F) → k.natAbs < 2 ^ (f.F + 1) →
        |v| < 2 ^ (f.F + 1) * 2 ^ ((s : ℤ) + leastExp f.E f.F) := by
      intro v k s hv hk
      have P := two_zpow_pos ((s : ℤ) + leastExp f.E f.F)
      rw [hv, abs_mul, abs_of_pos P, ← Int.cast_abs, ← Nat.cast_natAbs]
      have : (k.natAbs : ℚ) < 2 ^ (f.F + 1) := by exact_mod_cast hk
      exact mul_lt_mul_of_pos_right this P
    rcases Nat.le_total t u with htu | htu
    · rw [Nat.min_eq_left htu]; exact lt_of_le_of_lt hle.1 (bnd hm hm2)
    · rw [Nat.min_eq_right htu]; exact lt_of_le_of_lt hle.2 (bnd hn hn2)

/-- A sum below twice the least normal number is exact: addition does not lose precision by underflow. -/
theorem sum_tiny_exact (ok : f.Ok) {a b : ℕ} (ha : a < 2 ^ f.W) (hb : b < 2 ^ f.W) {p q : ℚ} (hp : wordDatum f.E f.F a = .num p)
    (hq : wordDatum f.E f.F b = .num q) (hs : |p + q| < 2 * 2 ^ (1 - bias f.E)) {d : Datum}
    (h : IeeeSum f.E f.F (wordDatum f.E f.F a) (wordDatum f.E f.F b) d) : d = if p + q = 0 then .zero false else .num (p + q) := by
  rw [hp, hq] at h
  simp only [IeeeSum] at h
  by_cases h0 : p + q = 0
  · rw [if_pos h0] at h ⊢; exact h
  · rw [if_neg h0] at h ⊢
    obtain ⟨m, t, hm, hm2, hml⟩ := num_form ok ha hp
    obtain ⟨n, u, hn, hn2, hnl⟩ := num_form ok hb hq
    have hlow : (2 : ℚ) ^ (f.F + 1) * 2 ^ leastExp f.E f.F = 2 * 2 ^ (1 - bias f.E) := by
      unfold leastExp
      rw [zpow_sub₀ (by norm_num) (1 - bias f.E), zpow_natCast, pow_succ]
      have : (2 : ℚ) ^ f.F ≠ 0 := by positivity
      field_simp
    have hlim : (2 : ℚ) * 2 ^ (1 - bias f.E) ≤ ieeeLimit f.E := by
      have hE := ok.hE
      unfold ieeeLimit bias
      rw [show (2 : ℚ) * 2 ^ (1 - ((2 : ℤ) ^ (f.E - 1) - 1)) = 2 ^ (1 + (1 - ((2 : ℤ) ^ (f.E - 1) - 1))) by
        rw [zpow_add₀ (by norm_num) 1, zpow_one]]
      refine zpow_le_zpow_right₀ (by norm_num) ?_
      have : (2 : ℤ) ^ 2 ≤ 2 ^ (f.E - 1) := pow_le_pow_right₀ (by norm_num) (by omega)
      linarith
    refine sum_exact_of_small ok ha hb hm hn ?_ (lt_of_lt_of_le hs hlim) h0 h
    refine lt_of_lt_of_le hs ?_
    rw [← hlow]
    refine mul_le_mul_of_nonneg_left (zpow_le_zpow_right₀ (by norm_num) (by omega)) (by positivity)

theorem add_eq_of (ok : f.Ok) {a b r : ℕ} (ha : a < 2 ^ f.W) (hb : b < 2 ^ f.W) (hr : r < 2 ^ f.W)
    (hn : wordDatum f.E f.F r ≠ .nan)
    (h : IeeeSum f.E f.F (wordDatum f.E f.F a) (wordDatum f.E f.F b) (wordDatum f.E f.F r)) : f.add a b = some r := by
  obtain ⟨z, h1, h2, h3⟩ := add_ieee ok ha hb
  have hF : 1 ≤ f.F := by have := ok.hF; have := ok.hE; omega
  have hd := ieeeSum_unique hF h3 h
  rw [h1, datum_inj ok h2 hr hd (by rw [hd]; exact hn)]

theorem mul_eq_of (ok : f.Ok) {prod : ℕ → ℕ → Option ℕ} (hp : ProdOk f prod) {a b r : ℕ} (ha : a < 2 ^ f.W) (hb : b < 2 ^ f.W)
    (hr : r < 2 ^ f.W) (hn : wordDatum f.E f.F r ≠ .nan)
    (h : IeeeProduct f.E f.F (wordDatum f.E f.F a) (wordDatum f.E f.F b) (wordDatum f.E f.F r)) : f.mulWith prod a b = some r := by
  obtain ⟨z, h1, h2, h3⟩ := mul_ieee ok hp ha hb
  have hF : 1 ≤ f.F := by have := ok.hF; have := ok.hE; omega
  have hd := ieeeProduct_unique hF h3 h
  rw [h1, datum_inj ok h2 hr hd (by rw [hd]; exact hn)]

theorem div_eq_of (ok : f.Ok) {quot : ℕ → ℕ → Bool × ℕ} (hp : QuotOk f quot) {a b r : ℕ} (ha : a < 2 ^ f.W) (hb : b < 2 ^ f.W)
    (hr : r < 2 ^ f.W) (hn : wordDatum f.E f.F r ≠ .nan)
    (h : IeeeQuotient f.E f.F (wordDatum f.E f.F a) (wordDatum f.E f.F b) (wordDatum f.E f.F r)) : f.divWith quot a b = some r := by
  obtain ⟨z, h1, h2, h3⟩ := div_ieee ok hp ha hb
  have hF : 1 ≤ f.F := by have := ok.hF; have := ok.hE; omega
  have hd := ieeeQuotient_unique hF h3 h
  rw [h1, datum_inj ok h2 hr hd (by rw [hd]; exact hn)]

theorem mul_one_word (ok : f.Ok) {prod : ℕ → ℕ → Option ℕ} (hp : ProdOk f prod) {a o : ℕ} (ha : a < 2 ^ f.W) (ho : o < 2 ^ f.W)
    (h1 : wordDatum f.E f.F o = .num 1) (hn : wordDatum f.E f.F a ≠ .nan) : f.mulWith prod a o = some a := by
  refine mul_eq_of ok hp ha ho ha hn ?_
  rw [h1]
  cases da : wordDatum f.E f.F a with
  | nan => exact absurd da hn
  | inf s => simp [IeeeProduct, mulSpecial, Datum.isNeg, show ¬ ((1 : ℚ) < 0) by norm_num]
  | zero s => simp [IeeeProduct, mulSpecial, Datum.isNeg, show ¬ ((1 : ℚ) < 0) by norm_num]
  | num v =>
    show RoundedGradual f.E f.F (v * 1) (.num v)
    rw [mul_one]
    exact (word_rounded ok ha da).2

theorem div_one_word (ok : f.Ok) {quot : ℕ → ℕ → Bool × ℕ} (hp : QuotOk f quot) {a o : ℕ} (ha : a < 2 ^ f.W) (ho : o < 2 ^ f.W)
    (h1 : wordDatum f.E f.F o = .num 1) (hn : wordDatum f.E f.F a ≠ .nan) : f.divWith quot a o = some a := by
  refine div_eq_of ok hp ha ho ha hn ?_
  rw [h1]
  cases da : wordDatum f.E f.F a with
  | nan => exact absurd da hn
  | inf s => simp [IeeeQuotient, divSpecial, Datum.isNeg, show ¬ ((1 : ℚ) < 0) by norm_num]
  | zero s => simp [IeeeQuotient, divSpecial, Datum.isNeg, show ¬ ((1 : ℚ) < 0) by norm_num]
  | num v =>
    show RoundedGradual f.E f.F (v / 1) (.num v)
    rw [div_one]
    exact (word_rounded ok ha da).2

theorem div_self_word (ok : f.Ok) {quot : ℕ → ℕ → Bool × ℕ} (hp : QuotOk f quot) {a o : ℕ} {v : ℚ} (ha : a < 2 ^ f.W) (ho : o < 2 ^ f.W)
    (h1 : wordDatum f.E f.F o = .num 1) (hv : wordDatum f.E f.F a = .num v) : f.divWith quot a a = some o := by
  refine div_eq_of ok hp ha ha ho (by rw [h1]; simp) ?_
  rw [h1, hv]
  show RoundedGradual f.E f.F (v / v) (.num 1)
  rw [div_self (word_rounded ok ha hv).1]
  exact (word_rounded ok ho h1).2

theorem add_neg_zero_word (ok : f.Ok) {a o : ℕ} (ha : a < 2 ^ f.W) (ho : o < 2 ^ f.W) (h1 : wordDatum f.E f.F o = .zero true)
    (hn : wordDatum f.E f.F a ≠ .nan) : f.add a o = some a := by
  refine add_eq_of ok ha ho ha hn ?_
  rw [h1]
  cases da : wordDatum f.E f.F a with
  | nan => exact absurd da hn
  | inf s => simp [IeeeSum, addSpecial]
  | zero s => simp [IeeeSum, addSpecial]
  | num v => simp [IeeeSum, addSpecial]

theorem add_neg_word (ok : f.Ok) {a b o : ℕ} {v : ℚ} (ha : a < 2 ^ f.W) (hb : b < 2 ^ f.W) (ho : o < 2 ^ f.W)
    (h1 : wordDatum f.E f.F o = .zero false) (hv : wordDatum f.E f.F a = .num v) (hw : wordDatum f.E f.F b = .num (-v)) :
    f.add a b = some o := by
  refine add_eq_of ok ha hb ho (by rw [h1]; simp) ?_
  rw [h1, hv, hw]
  simp [IeeeSum]

end SoftFmt
end Thls
