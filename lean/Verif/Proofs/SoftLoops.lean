import Verif.Proofs.GenLoops
import Verif.Proofs.SoftAgree
import Verif.Proofs.SoftMono
import Verif.SpecSoftLoops

/-! # Errors of single SoftFloat operations -/

namespace Thls
open Spec

theorem gradual_err_normal {E F m : ℕ} {e : ℤ} {x : ℚ} (hx : ieeeMin E ≤ x) (h : NearestGradual E F x m e) :
    |x - m * 2 ^ e| ≤ uro F * x := by
  have h0 : 0 < x := lt_of_lt_of_le (two_zpow_pos _) hx
  obtain ⟨-, -, hn, -⟩ := h
  obtain ⟨b1, b2, b3⟩ := Mpfr.scaled_bounds (p := F + 1) (by omega) h0
  obtain ⟨hs, l1, l2⟩ := Mpfr.floor_sig (p := F + 1) (by omega) h0
  have hL : leastExp E F ≤ Mpfr.ulpExp (F + 1) x := by
    by_contra hc
    push Not at hc
    have a1 : (2 : ℚ) ^ (Mpfr.ulpExp (F + 1) x + 1) ≤ 2 ^ leastExp E F := zpow_le_zpow_right₀ (by norm_num) (by omega)
    rw [two_zpow_succ] at a1
    rw [← leastExp_min E F] at hx
    have a2 : x < 2 ^ (F + 1) * 2 ^ Mpfr.ulpExp (F + 1) x := by
      calc x = Mpfr.scaled (F + 1) x * 2 ^ Mpfr.ulpExp (F + 1) x := b3
        _ < _ := mul_lt_mul_of_pos_right b2 (two_zpow_pos _)
    have a3 : (2 : ℚ) ^ (F + 1) * 2 ^ Mpfr.ulpExp (F + 1) x = 2 ^ F * (2 * 2 ^ Mpfr.ulpExp (F + 1) x) := by rw [pow_succ]; ring
    have a4 : (2 : ℚ) ^ F * (2 * 2 ^ Mpfr.ulpExp (F + 1) x) ≤ 2 ^ F * 2 ^ leastExp E F := by gcongr
    linarith
  have h1 := hn _ (Mpfr.ulpExp (F + 1) x) ⟨hs.2, hL⟩
  have h2 : |x - m * 2 ^ e| ≤ |x - (((⌊Mpfr.scaled (F + 1) x⌋.toNat : ℕ) : ℚ) + 1) * 2 ^ Mpfr.ulpExp (F + 1) x| := by
    by_cases hk : ⌊Mpfr.scaled (F + 1) x⌋.toNat + 1 = 2 ^ (F + 1)
    · have := hn (2 ^ F) (Mpfr.ulpExp (F + 1) x + 1) ⟨Nat.pow_lt_pow_right (by norm_num) (by omega), by omega⟩
      have e : ((2 ^ F : ℕ) : ℚ) * 2 ^ (Mpfr.ulpExp (F + 1) x + 1) =
          (((⌊Mpfr.scaled (F + 1) x⌋.toNat : ℕ) : ℚ) + 1) * 2 ^ Mpfr.ulpExp (F + 1) x := by
        have : (((⌊Mpfr.scaled (F + 1) x⌋.toNat : ℕ) : ℚ) + 1) = 2 ^ (F + 1) := by exact_mod_cast hk
        rw [this, two_zpow_succ, pow_succ]; push_cast; ring
      rwa [e] at this
    · have := hn (⌊Mpfr.scaled (F + 1) x⌋.toNat + 1) (Mpfr.ulpExp (F + 1) x) ⟨by have := hs.2; omega, hL⟩
      push_cast at this
      exact this
  generalize ((⌊Mpfr.scaled (F + 1) x⌋.toNat : ℕ) : ℚ) = k at *
  generalize Mpfr.scaled (F + 1) x = t at *
  have hu := two_zpow_pos (Mpfr.ulpExp (F + 1) x)
  generalize (2 : ℚ) ^ (Mpfr.ulpExp (F + 1) x) = w at *
  have e1 : |x - k * w| = (t - k) * w := by
    rw [b3, ← sub_mul, abs_of_nonneg (mul_nonneg (by linarith) hu.le)]
  have e2 : |x - (k + 1) * w| = (k + 1 - t) * w := by
    rw [b3, ← sub_mul, abs_of_nonpos (mul_nonpos_of_nonpos_of_nonneg (by linarith) hu.le)]
    ring
  rw [e1] at h1
  rw [e2] at h2
  have e3 : uro F * x = uro F * t * w := by rw [mul_assoc, ← b3]
  have e4 : (1 : ℚ) / 2 ≤ uro F * t := by
    have : uro F * 2 ^ F ≤ uro F * t := by
      apply mul_le_mul_of_nonneg_left _ (uro_pos F).le
      simpa using b1
    have e5 : uro F * 2 ^ F = 1 / 2 := by
      unfold uro
      rw [← zpow_natCast, ← zpow_add₀ (by norm_num), show -(F : ℤ) - 1 + F = -1 by ring]
      norm_num
    linarith
  have e6 : 1 / 2 * w ≤ uro F * t * w := mul_le_mul_of_nonneg_right e4 hu.le
  rw [e3]
  linarith

theorem gradual_err_tiny {E F m : ℕ} {e : ℤ} {x : ℚ} (h0 : 0 < x) (hx : x < ieeeMin E) (h : NearestGradual E F x m e) :
    |x - m * 2 ^ e| ≤ halfDenorm E F := by
  obtain ⟨-, -, hn, -⟩ := h
  have hw := two_zpow_pos (leastExp E F)
  have hh : halfDenorm E F = 2 ^ leastExp E F / 2 := two_zpow_pred _
  rw [hh]
  rw [← leastExp_min E F] at hx
  have hlt : x / 2 ^ leastExp E F < 2 ^ F := by rw [div_lt_iff₀ hw]; exact hx
  have hnn : 0 ≤ ⌊x / 2 ^ leastExp E F⌋ := Int.floor_nonneg.2 (by positivity)
  obtain ⟨k, hk⟩ : ∃ k : ℕ, (k : ℤ) = ⌊x / 2 ^ leastExp E F⌋ := ⟨_, Int.toNat_of_nonneg hnn⟩
  have l1 := Int.floor_le (x / 2 ^ leastExp E F)
  have l2 := Int.lt_floor_add_one (x / 2 ^ leastExp E F)
  have hkq : ((⌊x / 2 ^ leastExp E F⌋ : ℤ) : ℚ) = k := by rw [← hk]; simp
  rw [hkq] at l1 l2
  have hk2 : k < 2 ^ F := by
    have : (k : ℚ) < 2 ^ F := lt_of_le_of_lt l1 hlt
    exact_mod_cast this
  have hF : 2 ^ F < 2 ^ (F + 1) := Nat.pow_lt_pow_right (by norm_num) (by omega)
  have h1 := hn k (leastExp E F) ⟨by omega, le_refl _⟩
  have h2 := hn (k + 1) (leastExp E F) ⟨by omega, le_refl _⟩
  push_cast at h2
  have hxt : x = x / 2 ^ leastExp E F * 2 ^ leastExp E F := by field_simp
  generalize (2 : ℚ) ^ leastExp E F = w at *
  generalize x / w = t at *
  have e1 : |x - k * w| = (t - k) * w := by
    rw [hxt, ← sub_mul, abs_of_nonneg (mul_nonneg (by linarith) hw.le)]
  have e2 : |x - (k + 1) * w| = (k + 1 - t) * w := by
    rw [hxt, ← sub_mul, abs_of_nonpos (mul_nonpos_of_nonpos_of_nonneg (by linarith) hw.le)]
    ring
  rw [e1] at h1
  rw [e2] at h2
  linarith

theorem gradual_signed {q t : ℚ} : |(if q < 0 then (-1 : ℚ) else 1) * t - q| = |(|q| - t)| := by
  by_cases hq : q < 0
  · rw [if_pos hq, abs_of_neg hq, neg_one_mul]
    congr 1; ring
  · rw [if_neg hq, abs_of_nonneg (not_lt.1 hq), one_mul, abs_sub_comm]

/-- A finite rounded result is the signed nearest number. -/
theorem roundedG_fin {E F : ℕ} {q s : ℚ} {d : Datum} (h : RoundedGradual E F q d) (hs : d.fin = some s) :
    ∃ (m : ℕ) (e : ℤ), NearestGradual E F |q| m e ∧ |s - q| = |(|q| - m * 2 ^ e)| := by
  obtain ⟨m, e, hn, rfl⟩ := h
  refine ⟨m, e, hn, ?_⟩
  by_cases h0 : m = 0
  · subst h0
    rw [if_pos rfl] at hs
    cases hs
    simp
  · rw [if_neg h0] at hs
    by_cases h1 : ieeeLimit E ≤ m * 2 ^ e
    · rw [if_pos h1] at hs; cases hs
    · rw [if_neg h1] at hs
      cases hs
      exact gradual_signed

theorem roundedG_err_normal {E F : ℕ} {q s : ℚ} {d : Datum} (hq : ieeeMin E ≤ |q|) (h : RoundedGradual E F q d) (hs : d.fin = some s) :
    |s - q| ≤ uro F * |q| := by
  obtain ⟨m, e, hn, he⟩ := roundedG_fin h hs
  rw [he]
  exact gradual_err_normal hq hn

theorem halfDenorm_pos (E F : ℕ) : 0 < halfDenorm E F := two_zpow_pos _

theorem roundedG_err {E F : ℕ} {q s : ℚ} {d : Datum} (hq : q ≠ 0) (h : RoundedGradual E F q d) (hs : d.fin = some s) :
    |s - q| ≤ uro F * |q| + halfDenorm E F := by
  have h1 := uro_pos F
  have h2 := halfDenorm_pos E F
  have h3 := abs_pos.2 hq
  rcases le_or_gt (ieeeMin E) |q| with hc | hc
  · have := roundedG_err_normal hc h hs
    linarith
  · obtain ⟨m, e, hn, he⟩ := roundedG_fin h hs
    rw [he]
    have := gradual_err_tiny h3 hc hn
    have : 0 ≤ uro F * |q| := by positivity
    linarith

theorem ieeeMax_lt_limit {E F : ℕ} : ieeeMax E F < ieeeLimit E := by
  unfold ieeeMax ieeeLimit
  have h1 : ((2 ^ (F + 1) - 1 : ℕ) : ℚ) < 2 ^ (F + 1) := by
    have : 2 ^ (F + 1) - 1 < 2 ^ (F + 1) := Nat.sub_lt (by positivity) (by norm_num)
    exact_mod_cast this
  calc ((2 ^ (F + 1) - 1 : ℕ) : ℚ) * 2 ^ (bias E - F) < 2 ^ (F + 1) * 2 ^ (bias E - F) := mul_lt_mul_of_pos_right h1 (two_zpow_pos _)
    _ = 2 ^ (bias E + 1) := by rw [← zpow_natCast, ← zpow_add₀ (by norm_num)]; congr 1; push_cast; ring

theorem roundedG_finite {E F : ℕ} (hE : 2 ≤ E) {q : ℚ} {d : Datum} (h : RoundedGradual E F q d) (hb : |q| ≤ ieeeMax E F) :
    ∃ s, d.fin = some s := by
  obtain ⟨m, e, hn, rfl⟩ := h
  by_cases h0 : m = 0
  · rw [if_pos h0]; exact ⟨0, rfl⟩
  · rw [if_neg h0]
    by_cases h1 : ieeeLimit E ≤ m * 2 ^ e
    · exfalso
      have hbias : (1 : ℤ) ≤ bias E := by
        have : (2 : ℤ) ^ 1 ≤ 2 ^ (E - 1) := pow_le_pow_right₀ (by norm_num) (by omega)
        unfold bias; linarith
      have := hn.2.2.1 (2 ^ (F + 1) - 1) (bias E - F)
        ⟨Nat.sub_lt (by positivity) (by norm_num), by unfold leastExp; linarith⟩
      have hl := ieeeMax_lt_limit (E := E) (F := F)
      change |(|q| - m * 2 ^ e)| ≤ |(|q| - ieeeMax E F)| at this
      generalize |q| = x at *
      rw [abs_of_nonpos (by linarith), abs_of_nonpos (by linarith)] at this
      linarith
    · rw [if_neg h1]; exact ⟨_, rfl⟩

namespace SoftFmt
variable {f : SoftFmt}

/-- The value of a finite datum, zero or not. -/
theorem fin_cases {d : Datum} {a : ℚ} (h : d.fin = some a) : (∃ s, d = .zero s ∧ a = 0) ∨ d = .num a := by
  rcases d with _ | s | s | q
  · cases h
  · cases h
  · cases h; exact Or.inl ⟨s, rfl, rfl⟩
  · cases h; exact Or.inr rfl

theorem soft_adder (ok : f.Ok) : GAdder (fun w => w < 2 ^ f.W) (wordFin f.E f.F) (uro f.F) 0 (ieeeMax f.E f.F) f.add := by
  have hE : 2 ≤ f.E := by have := ok.hE; omega
  have hmin : (0 : ℚ) < ieeeMin f.E := two_zpow_pos _
  refine ⟨?_, ?_, ?_, ?_, ?_⟩
  · intro x y hx hy
    obtain ⟨z, h1, h2, -⟩ := add_ieee ok hx hy
    exact ⟨z, h1, h2⟩
  · intro x y r a b s hx hy ha hb hr hs
    obtain ⟨z, h1, h2, h3⟩ := add_ieee ok hx hy
    obtain rfl := Option.some.inj (h1.symm.trans hr)
    have hu : 0 ≤ uro f.F * |a + b| + 0 := by have := uro_pos f.F; positivity
    rcases fin_cases ha with ⟨t, e1, rfl⟩ | e1 <;> rcases fin_cases hb with ⟨t', e2, rfl⟩ | e2
    · rw [e1, e2] at h3
      have h4 := Option.some.inj h3
      unfold wordFin at hs; rw [← h4] at hs; cases hs
      simp
    · rw [e1, e2] at h3
      have h4 := Option.some.inj h3
      unfold wordFin at hs; rw [← h4] at hs; cases hs
      simpa using hu
    · rw [e1, e2] at h3
      have h4 := Option.some.inj h3
      unfold wordFin at hs; rw [← h4] at hs; cases hs
      simpa using hu
    · rcases lt_or_ge |a + b| (2 * 2 ^ (1 - bias f.E)) with hc | hc
      · have := sum_tiny_exact ok hx hy e1 e2 hc h3
        unfold wordFin at hs
        rw [this] at hs
        split_ifs at hs with h0
        · cases hs; rw [h0]; simp
        · cases hs; simpa using hu
      · have hc' : ieeeMin f.E ≤ |a + b| := by change 2 * ieeeMin f.E ≤ _ at hc; linarith
        rw [e1, e2] at h3
        simp only [IeeeSum] at h3
        have h0 : a + b ≠ 0 := by
          intro h0; rw [h0, abs_zero] at hc'; linarith
        rw [if_neg h0] at h3
        have := roundedG_err_normal hc' h3 hs
        linarith
  · intro x y r b hx hy ha hb hr
    obtain ⟨z, h1, h2, h3⟩ := add_ieee ok hx hy
    obtain rfl := Option.some.inj (h1.symm.trans hr)
    rcases fin_cases ha with ⟨t, e1, -⟩ | e1
    · rcases fin_cases hb with ⟨t', e2, rfl⟩ | e2
      · rw [e1, e2] at h3
        unfold wordFin; rw [← Option.some.inj h3]; rfl
      · rw [e1, e2] at h3
        unfold wordFin; rw [← Option.some.inj h3]; rfl
    · exfalso
      exact num_word_ne ok hx e1 rfl
  · intro x y r hx hy hr hn
    obtain ⟨z, h1, h2, h3⟩ := add_ieee ok hx hy
    obtain rfl := Option.some.inj (h1.symm.trans hr)
    unfold wordFin at hn ⊢
    revert h3 hn
    generalize wordDatum f.E f.F x = dx; generalize wordDatum f.E f.F y = dy; generalize wordDatum f.E f.F z = dz
    intro hn h3
    rcases dx with _ | s | s | p <;> rcases dy with _ | t | t | q <;> simp [Datum.fin, IeeeSum, addSpecial] at hn h3 <;>
      first
      | (subst h3; rfl)
      | (subst h3; split_ifs <;> rfl)
  · intro x y r a b hx hy ha hb hr hle
    obtain ⟨z, h1, h2, h3⟩ := add_ieee ok hx hy
    obtain rfl := Option.some.inj (h1.symm.trans hr)
    unfold wordFin
    rcases fin_cases ha with ⟨t, e1, rfl⟩ | e1 <;> rcases fin_cases hb with ⟨t', e2, rfl⟩ | e2
    · rw [e1, e2] at h3; rw [← Option.some.inj h3]; exact ⟨_, rfl⟩
    · rw [e1, e2] at h3; rw [← Option.some.inj h3]; exact ⟨_, rfl⟩
    · rw [e1, e2] at h3; rw [← Option.some.inj h3]; exact ⟨_, rfl⟩
    · rw [e1, e2] at h3
      simp only [IeeeSum] at h3
      split_ifs at h3 with h0
      · rw [h3]; exact ⟨_, rfl⟩
      · exact roundedG_finite hE h3 hle

theorem product_err {x y d : Datum} {E F : ℕ} {a b s : ℚ} (h : IeeeProduct E F x y d) (hab : ∀ q, x = .num q → q ≠ 0)
    (hab' : ∀ q, y = .num q → q ≠ 0) (hx : x.fin = some a) (hy : y.fin = some b) (hs : d.fin = some s) :
    |s - a * b| ≤ uro F * |a * b| + halfDenorm E F := by
  have hu : 0 ≤ uro F * |a * b| + halfDenorm E F := by
    have := uro_pos F; have := halfDenorm_pos E F; positivity
  rcases fin_cases hx with ⟨t, e1, rfl⟩ | e1 <;> rcases fin_cases hy with ⟨t', e2, rfl⟩ | e2
  · rw [e1, e2] at h; rw [← Option.some.inj h] at hs; cases hs; simpa using hu
  · rw [e1, e2] at h; rw [← Option.some.inj h] at hs; cases hs; simpa using hu
  · rw [e1, e2] at h; rw [← Option.some.inj h] at hs; cases hs; simpa using hu
  · rw [e1, e2] at h
    exact roundedG_err (mul_ne_zero (hab a e1) (hab' b e2)) h hs

theorem product_finite {x y d : Datum} {E F : ℕ} (hE : 2 ≤ E) {a b : ℚ} (h : IeeeProduct E F x y d) (hx : x.fin = some a) (hy : y.fin = some b)
    (hb : |a * b| ≤ ieeeMax E F) : ∃ s, d.fin = some s := by
  rcases fin_cases hx with ⟨t, e1, rfl⟩ | e1 <;> rcases fin_cases hy with ⟨t', e2, rfl⟩ | e2
  · rw [e1, e2] at h; rw [← Option.some.inj h]; exact ⟨_, rfl⟩
  · rw [e1, e2] at h; rw [← Option.some.inj h]; exact ⟨_, rfl⟩
  · rw [e1, e2] at h; rw [← Option.some.inj h]; exact ⟨_, rfl⟩
  · rw [e1, e2] at h
    exact roundedG_finite hE h hb

end SoftFmt
end Thls
