import Verif.Proofs.Convert
import Mathlib.Data.Prod.Lex
import Mathlib.Order.Lattice

/-! # The comparison functions compare a format-independent key -/

namespace Thls
open Spec

namespace Fp
variable {E F : ℕ}

/-- Class and magnitude with the sign applied, independent of the format. -/
def lexKey (x : Fp E F) : ℤ ×ₗ ℚ :=
  let s : ℤ := if x.sign = 1 then -1 else 1
  toLex (s * x.flags, if x.flags = 0 then 0 else (s : ℚ) * mag E F x.expFrac)

theorem promote_lexKey {dE dF : ℕ} (hE : 1 ≤ E) (hF : 1 ≤ F) (h1 : E ≤ dE) (h2 : F ≤ dF) (x : Fp E F) :
    (promote dE dF x).lexKey = x.lexKey := by
  obtain ⟨a, b, c, d⟩ := promote_fields hE hF h1 h2 x
  have hb := biasN_mono h1
  have hm : mag dE dF (promote dE dF x).expFrac = mag E F x.expFrac := by
    unfold mag
    rw [expFrac_div (by omega) (by omega), expFrac_mod (by omega) (by omega), expFrac_div hE hF, expFrac_mod hE hF, c, d,
      ← pow_bias, ← pow_bias]
    have e1 : ((2 ^ dF + x.frac * 2 ^ (dF - F) : ℕ) : ℚ) = ((2 ^ F + x.frac : ℕ) : ℚ) * 2 ^ (dF - F) := by
      have : 2 ^ dF = 2 ^ F * 2 ^ (dF - F) := by rw [← pow_add]; congr 1; omega
      rw [this]; push_cast; ring
    rw [e1, mul_assoc, ← zpow_natCast (2 : ℚ) (dF - F), ← zpow_add₀ (by norm_num)]
    congr 2
    omega
  unfold lexKey
  rw [a, b, hm]

end Fp

theorem cmpN_lex {E F : ℕ} (hE : 1 ≤ E) (hF : 1 ≤ F) (a b : Fp E F) (ha : a.flags ≠ 3) (hb : b.flags ≠ 3) :
    (Ord.ltN a b = true ↔ a.lexKey < b.lexKey) ∧ (Ord.leN a b = true ↔ a.lexKey ≤ b.lexKey) ∧
    (Ord.gtN a b = true ↔ b.lexKey < a.lexKey) ∧ (Ord.geN a b = true ↔ b.lexKey ≤ a.lexKey) ∧
    (Ord.equalN a b = true ↔ a.lexKey = b.lexKey) ∧ (Ord.notEqualN a b = true ↔ a.lexKey ≠ b.lexKey) := by
  have hsx := a.sign_lt
  have hsy := b.sign_lt
  have hxe : a.expFrac < 2 ^ (E + F) := a.expFrac_lt (by omega)
  have hye : b.expFrac < 2 ^ (E + F) := b.expFrac_lt (by omega)
  have m1 := mag_pos E F a.expFrac
  have m2 := mag_pos E F b.expFrac
  have i1 : mag E F a.expFrac < mag E F b.expFrac ↔ a.expFrac < b.expFrac := (mag_strictMono E F).lt_iff_lt
  have i2 : mag E F b.expFrac < mag E F a.expFrac ↔ b.expFrac < a.expFrac := (mag_strictMono E F).lt_iff_lt
  have i3 : mag E F a.expFrac = mag E F b.expFrac ↔ a.expFrac = b.expFrac := (mag_strictMono E F).injective.eq_iff
  have i4 : mag E F a.expFrac ≤ mag E F b.expFrac ↔ a.expFrac ≤ b.expFrac := (mag_strictMono E F).le_iff_le
  have i5 : mag E F b.expFrac ≤ mag E F a.expFrac ↔ b.expFrac ≤ a.expFrac := (mag_strictMono E F).le_iff_le
  unfold Ord.ltN Ord.leN Ord.gtN Ord.geN Ord.equalN Ord.notEqualN Fp.lexKey Fp.flagsExpFrac concat
  generalize mag E F a.expFrac = ma at *
  generalize mag E F b.expFrac = mb at *
  generalize 2 ^ (E + F) = P at *
  rcases flags_cases a with fx | fx | fx | fx <;> rcases flags_cases b with fy | fy | fy | fy <;>
    first | exact absurd fx ha | exact absurd fy hb | skip
  all_goals
    simp only [Fp.isNan, Fp.isZero, Fp.isNegative, Fp.isPositive, fx, fy] at *
    obtain sx | sx : a.sign = 0 ∨ a.sign = 1 := by omega
  all_goals
    obtain sy | sy : b.sign = 0 ∨ b.sign = 1 := by omega
  all_goals simp [sx, sy, Prod.Lex.toLex_lt_toLex, Prod.Lex.toLex_le_toLex, i1, i2, i3, i4, i5]
  all_goals omega

section
variable {EA FA EB FB : ℕ} (hEA : 1 ≤ EA) (hFA : 1 ≤ FA) (hEB : 1 ≤ EB) (hFB : 1 ≤ FB) (a : Fp EA FA) (b : Fp EB FB)
include hEA hFA hEB hFB

theorem cmp_lex (ha : a.flags ≠ 3) (hb : b.flags ≠ 3) :
    (Ord.lessThan a b = true ↔ a.lexKey < b.lexKey) ∧ (Ord.lessThanEqual a b = true ↔ a.lexKey ≤ b.lexKey) ∧
    (Ord.greaterThan a b = true ↔ b.lexKey < a.lexKey) ∧ (Ord.greaterThanEqual a b = true ↔ b.lexKey ≤ a.lexKey) ∧
    (Ord.equal a b = true ↔ a.lexKey = b.lexKey) ∧ (Ord.notEqual a b = true ↔ a.lexKey ≠ b.lexKey) := by
  obtain ⟨fa, -⟩ := promote_fields hEA hFA (le_max_left EA EB) (le_max_left FA FB) a
  obtain ⟨fb, -⟩ := promote_fields hEB hFB (le_max_right EA EB) (le_max_right FA FB) b
  have := cmpN_lex (le_trans hEA (le_max_left _ _)) (le_trans hFA (le_max_left _ _))
    (promote (max EA EB) (max FA FB) a) (promote (max EA EB) (max FA FB) b) (by rwa [fa]) (by rwa [fb])
  rwa [Fp.promote_lexKey hEA hFA (le_max_left EA EB) (le_max_left FA FB),
    Fp.promote_lexKey hEB hFB (le_max_right EA EB) (le_max_right FA FB)] at this

theorem cmp_nan (h : a.flags = 3 ∨ b.flags = 3) :
    Ord.lessThan a b = false ∧ Ord.lessThanEqual a b = false ∧ Ord.greaterThan a b = false ∧
    Ord.greaterThanEqual a b = false ∧ Ord.equal a b = false ∧ Ord.notEqual a b = true := by
  obtain ⟨fa, -⟩ := promote_fields hEA hFA (le_max_left EA EB) (le_max_left FA FB) a
  obtain ⟨fb, -⟩ := promote_fields hEB hFB (le_max_right EA EB) (le_max_right FA FB) b
  have hn : ((promote (max EA EB) (max FA FB) a).isNan || (promote (max EA EB) (max FA FB) b).isNan) = true := by
    unfold Fp.isNan
    rw [fa, fb]
    rcases h with h | h <;> simp [h]
  unfold Ord.lessThan Ord.lessThanEqual Ord.greaterThan Ord.greaterThanEqual Ord.equal Ord.notEqual
    Ord.ltN Ord.leN Ord.gtN Ord.geN Ord.equalN Ord.notEqualN
  rw [hn]
  simp

end

theorem datum_nan_iff {E F : ℕ} (x : Fp E F) : x.datum = .nan ↔ x.flags = 3 := by
  constructor
  · intro hx
    rcases flags_cases x with f | f | f | f
    · rw [datum_flags0 x f] at hx; cases hx
    · rw [datum_normal x f] at hx; cases hx
    · rw [datum_flags2 x f] at hx; cases hx
    · exact f
  · exact datum_flags3 x

end Thls
