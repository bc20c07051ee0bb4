import Verif.Rounding
import Verif.Denote
import Mathlib.Tactic.LinearCombination
import Mathlib.Tactic.IntervalCases

/-! # Lemmas shared by all operators: integer form of the rounding lemma, and range decoding -/

namespace Thls
open Spec

/-- Integer form of `rounded_packed`: the magnitude is an integer `N` scaled by `2^g`; `N` is split into
significand, round bit and `k` low bits. -/
theorem rounded_of_int {E F : ℕ} (hF : 1 ≤ F) {q : ℚ} {N f low k : ℕ} {r : Bool} {be g : ℤ}
    (hf : f < 2 ^ F) (hq : |q| = (N : ℚ) * 2 ^ g)
    (hN : N = (2 * (2 ^ F + f) + r.toNat) * 2 ^ k + low) (hlow : low < 2 ^ k)
    (hg : g + k = be - bias E - F - 1) :
    Rounded E F q (packedDatum E F (decide (q < 0))
      (be * 2 ^ F + f + (if r && (decide (low ≠ 0) || decide (f % 2 = 1)) then 1 else 0))) := by
  have hpos : (0 : ℚ) < 2 ^ g := by positivity
  have hpow : (2 : ℚ) ^ (be - bias E - F - 1) = 2 ^ g * 2 ^ k := by
    rw [← hg, zpow_add₀ (by norm_num), zpow_natCast]
  have hr : (if r = true then (1 : ℚ) else 0) = (r.toNat : ℚ) := by cases r <;> simp
  have hNq : (N : ℚ) = (2 * ((2 ^ F + f : ℕ) : ℚ) + r.toNat) * 2 ^ k + low := by
    rw [hN]; push_cast; ring
  have hl0 : (0 : ℚ) ≤ low := by positivity
  have hl1 : (low : ℚ) < 2 ^ k := by exact_mod_cast hlow
  apply rounded_packed hF hf
  · rw [hr, hpow, hq, hNq]
    nlinarith
  · rw [hr, hpow, hq, hNq]
    nlinarith
  · rw [hr, hpow, hq, hNq]
    simp only [ne_eq, decide_not, Bool.not_eq_eq_eq_not, Bool.not_false, decide_eq_true_eq]
    constructor
    · rintro rfl; push_cast; ring
    · intro h
      have : (low : ℚ) * 2 ^ g = 0 := by linear_combination h
      rcases mul_eq_zero.mp this with h | h
      · exact_mod_cast h
      · exact absurd h hpos.ne'

/-- The result flags derived from the two bits above the exponent field (`00` normal, `01` overflow,
`1x` underflow), as in the rounding paths of the multiplier, divider and adders. -/
def rangeFlags (top : ℕ) : ℕ := if top = 0 then 1 else if top = 1 then 2 else 0

theorem denote_wrapped {E F T s : ℕ} {t : ℤ} (hT : (T : ℤ) = t % 2 ^ (E + F + 2))
    (hlo : -2 ^ (E + F + 1) ≤ t) (hhi : t < 2 ^ (E + F + 1)) :
    denote E F (rangeFlags (T / 2 ^ (E + F))) s (T / 2 ^ F % 2 ^ E) (T % 2 ^ F)
      = packedDatum E F (decide (s = 1)) t := by
  have hM : (2 : ℤ) ^ (E + F + 1) = 2 * 2 ^ (E + F) := by rw [pow_succ]; ring
  have hM2 : (2 : ℤ) ^ (E + F + 2) = 4 * 2 ^ (E + F) := by rw [pow_add]; ring
  have hP : (0 : ℤ) < 2 ^ (E + F) := by positivity
  have hPn : 0 < 2 ^ (E + F) := by positivity
  have hcast : ((2 ^ (E + F) : ℕ) : ℤ) = 2 ^ (E + F) := by push_cast; rfl
  unfold packedDatum
  by_cases h0 : t < 0
  · -- negative: T = t + 4P
    have hT' : (T : ℤ) = t + 4 * 2 ^ (E + F) := by
      rw [hT, hM2, ← Int.add_emod_right, Int.emod_eq_of_lt] <;> omega
    have h2 : 2 ≤ T / 2 ^ (E + F) := by
      rw [Nat.le_div_iff_mul_le hPn]
      zify; omega
    simp only [h0, ↓reduceIte, rangeFlags]
    rw [if_neg (by omega), if_neg (by omega)]
    rfl
  · have hT' : (T : ℤ) = t := by
      rw [hT, hM2, Int.emod_eq_of_lt] <;> omega
    by_cases h1 : 2 ^ (E + F) ≤ t
    · have h2 : T / 2 ^ (E + F) = 1 := by
        rw [Nat.div_eq_iff hPn]
        constructor <;> zify <;> omega
      simp only [h0, h1, ↓reduceIte, rangeFlags, h2]
      rfl
    · have hTlt : T < 2 ^ (E + F) := by zify; omega
      have h2 : T / 2 ^ (E + F) = 0 := Nat.div_eq_of_lt hTlt
      have h3 : T / 2 ^ F % 2 ^ E = T / 2 ^ F := by
        apply Nat.mod_eq_of_lt
        rw [Nat.div_lt_iff_lt_mul (by positivity), ← pow_add]
        exact hTlt
      simp only [h0, h1, ↓reduceIte, rangeFlags, h2, h3, denote, decide_eq_true_eq]
      rw [← hT']
      push_cast
      rfl

/-- The value of a normal number. -/
theorem datum_normal {E F : ℕ} (x : Fp E F) (h : x.flags = 1) :
    x.datum = .num ((if x.sign = 1 then -1 else 1) *
      (((2 ^ F + x.frac : ℕ) : ℚ) * 2 ^ ((x.exp : ℤ) - bias E - F))) := by
  unfold Fp.datum; rw [h]; rfl

theorem datum_num_iff {E F : ℕ} {x : Fp E F} {v : ℚ} : x.datum = .num v ↔
    x.flags = 1 ∧ v = (if x.sign = 1 then -1 else 1) *
      (((2 ^ F + x.frac : ℕ) : ℚ) * 2 ^ ((x.exp : ℤ) - bias E - F)) := by
  constructor
  · intro h
    have h4 := x.flags_lt
    unfold Fp.datum denote at h
    split at h
    · cases h
    · rename_i hf
      injection h with h
      exact ⟨hf, h.symm⟩
    · cases h
    · cases h
  · rintro ⟨h, rfl⟩; exact datum_normal x h

theorem pow_bias {E : ℕ} : ((biasN E : ℕ) : ℤ) = bias E := by
  unfold biasN bias
  rw [Nat.cast_sub Nat.one_le_two_pow]; push_cast; rfl

theorem cast_addW (w a b : ℕ) : ((addW w a b : ℕ) : ℤ) = ((a : ℤ) + b) % 2 ^ w := by
  unfold addW; push_cast; rfl

theorem cast_subW {w a b : ℕ} (hb : b ≤ 2 ^ w) : ((subW w a b : ℕ) : ℤ) = ((a : ℤ) - b) % 2 ^ w := by
  unfold subW
  push_cast [Nat.cast_sub hb]
  rw [show (a : ℤ) + (2 ^ w - b) = (a - b) + 2 ^ w by ring, Int.add_emod_right]

theorem addW_lt (w a b : ℕ) : addW w a b < 2 ^ w := Nat.mod_lt _ (by positivity)
theorem subW_lt (w a b : ℕ) : subW w a b < 2 ^ w := Nat.mod_lt _ (by positivity)

/-- Appending `F` low bits to a wrapped number and adding a carry, modulo the combined width. -/
theorem cast_addW_concat {w a F f c W : ℕ} {A : ℤ} (ha : (a : ℤ) = A % 2 ^ w) (hW : W = w + F) :
    ((addW W (concat F a f) c : ℕ) : ℤ) = (A * 2 ^ F + f + c) % 2 ^ W := by
  rw [cast_addW]
  unfold concat
  push_cast
  rw [ha, hW]
  have h1 : A % 2 ^ w = A - 2 ^ w * (A / 2 ^ w) := by
    have := Int.emod_add_mul_ediv A (2 ^ w); linarith
  rw [h1, pow_add]
  rw [show (A - 2 ^ w * (A / 2 ^ w)) * 2 ^ F + (f : ℤ) + c
    = (A * 2 ^ F + f + c) + (2 ^ w * 2 ^ F) * (-(A / 2 ^ w)) by ring, Int.add_mul_emod_self_left]

/-- Splitting a word into high part, round bit and low part. -/
theorem split_word (G k : ℕ) : G = G / 2 ^ (k + 1) * 2 ^ (k + 1) + (getBit k G).toNat * 2 ^ k + G % 2 ^ k := by
  have h1 : (getBit k G).toNat = G / 2 ^ k % 2 := by
    unfold getBit
    rcases Nat.mod_two_eq_zero_or_one (G / 2 ^ k) with h | h <;> simp [h]
  have h2 : G / 2 ^ (k + 1) = G / 2 ^ k / 2 := by rw [pow_succ, Nat.div_div_eq_div_mul]
  have h3 := Nat.div_add_mod G (2 ^ k)
  have h4 := Nat.div_add_mod (G / 2 ^ k) 2
  rw [h1, h2, pow_succ]
  calc G = 2 ^ k * (G / 2 ^ k) + G % 2 ^ k := h3.symm
    _ = 2 ^ k * (2 * (G / 2 ^ k / 2) + G / 2 ^ k % 2) + G % 2 ^ k := by rw [h4]
    _ = _ := by ring

theorem getBit_eq_odd (i x : ℕ) : getBit i x = decide (x / 2 ^ i % 2 = 1) := rfl

/-- A word made of two flag bits, a sign bit and the packed exponent and fraction. -/
theorem ofBits_concat {E F fl s ef : ℕ} :
    Fp.ofBits E F (concat (E + F) (concat 1 fl s) ef) = Fp.mk4 E F fl s (ef / 2 ^ F) (ef % 2 ^ F) := by
  unfold Fp.mk4
  congr 1
  unfold concat
  have := Nat.div_add_mod ef (2 ^ F)
  rw [show 1 + E + F = (E + F) + 1 by ring, pow_succ (n := E + F), pow_one]
  linarith

theorem sign_mul_sign {sx sy : ℕ} (hx : sx < 2) (hy : sy < 2) :
    ((if sx = 1 then (-1 : ℚ) else 1) * (if sy = 1 then -1 else 1)) = if (sx + sy) % 2 = 1 then -1 else 1 := by
  interval_cases sx <;> interval_cases sy <;> norm_num

theorem abs_signed {s : ℕ} {a : ℚ} (ha : 0 < a) : |(if s = 1 then (-1 : ℚ) else 1) * a| = a := by
  split <;> simp [abs_of_pos ha]

theorem signed_neg {s : ℕ} {a : ℚ} (ha : 0 < a) : ((if s = 1 then (-1 : ℚ) else 1) * a < 0) ↔ s = 1 := by
  split
  · simp [*]
  · simp [*]; exact ha.le

theorem getBits_zero_eq_mod (hi x : ℕ) : getBits hi 0 x = x % 2 ^ (hi + 1) := by
  unfold getBits; simp

theorem getBits_top {x hi lo : ℕ} (h : x < 2 ^ (hi + 1)) (hle : lo ≤ hi + 1) : getBits hi lo x = x / 2 ^ lo := by
  unfold getBits
  apply Nat.mod_eq_of_lt
  rw [Nat.div_lt_iff_lt_mul (by positivity), ← pow_add]
  refine h.trans_eq (by congr 1; omega)

theorem rangeFlags_lt (t : ℕ) : rangeFlags t < 4 := by
  unfold rangeFlags; split
  · omega
  · split <;> omega

/-- The common tail of the operators: exponent (wrapped to `E+2` bits) and fraction are concatenated, the
round-up bit is added, the two top bits decide between normal, infinity and zero. -/
theorem finish_datum {E F ep f s : ℕ} {be : ℤ} (up : Bool) (hE : 1 ≤ E) (hF : 1 ≤ F)
    (hep : (ep : ℤ) = be % 2 ^ (E + 2)) (hf : f < 2 ^ F) (hs : s < 2)
    (hlo : -(2 * 2 ^ E) ≤ be) (hhi : be + 1 < 2 * 2 ^ E) :
    (Fp.ofBits E F (concat (E + F) (concat 1
        (rangeFlags (getBits (E + F + 1) (E + F) (addW (E + F + 2) (concat F ep f) up.toNat))) s)
        (getBits (E + F - 1) 0 (addW (E + F + 2) (concat F ep f) up.toNat)))).datum
      = packedDatum E F (decide (s = 1)) (be * 2 ^ F + f + (if up then 1 else 0)) := by
  have hTlt := addW_lt (E + F + 2) (concat F ep f) up.toNat
  have hTc := cast_addW_concat (c := up.toNat) (f := f) hep (show E + F + 2 = E + 2 + F by omega)
  generalize addW (E + F + 2) (concat F ep f) up.toNat = T at *
  have hu : ((up.toNat : ℕ) : ℤ) = if up then 1 else 0 := by cases up <;> simp
  have hu0 : (0 : ℤ) ≤ if up then 1 else 0 := by split <;> norm_num
  have hu1 : (if up then 1 else 0 : ℤ) ≤ 1 := by split <;> norm_num
  rw [hu] at hTc
  generalize (if up then 1 else 0 : ℤ) = u at *
  have hf' : (f : ℤ) + 1 ≤ 2 ^ F := by exact_mod_cast hf
  have hFpos : (0 : ℤ) < 2 ^ F := by positivity
  have hpt : (2 : ℤ) ^ (E + F + 1) = 2 * 2 ^ E * 2 ^ F := by rw [pow_succ, pow_add]; ring
  have hthi : be * 2 ^ F + f + u < 2 ^ (E + F + 1) := by
    rw [hpt]
    have : (be + 1 + 1) * 2 ^ F ≤ 2 * 2 ^ E * 2 ^ F := mul_le_mul_of_nonneg_right (by omega) hFpos.le
    nlinarith
  have htlo : -2 ^ (E + F + 1) ≤ be * 2 ^ F + f + u := by
    rw [hpt]
    have : -(2 * 2 ^ E) * 2 ^ F ≤ be * 2 ^ F := mul_le_mul_of_nonneg_right hlo hFpos.le
    nlinarith
  rw [getBits_top hTlt (by omega), getBits_zero_eq_mod, Nat.sub_add_cancel (by omega), ofBits_concat,
    Nat.mod_mod_of_dvd _ (pow_dvd_pow 2 (by omega))]
  rw [Fp.mk4_datum (rangeFlags_lt _) hs _ (Nat.mod_lt _ (by positivity)) hE hF]
  · rw [mod_pow_div_pow (by omega), Nat.add_sub_cancel]
    exact denote_wrapped hTc htlo hthi
  · rw [Nat.div_lt_iff_lt_mul (by positivity), ← pow_add]
    exact Nat.mod_lt _ (by positivity)

/-- Splitting a left-justified fraction `G` of `k+1+F` bits into fraction, round bit and rest. -/
theorem split_fraction {G k F : ℕ} (hG : G < 2 ^ (k + 1 + F)) :
    G / 2 ^ (k + 1) < 2 ^ F ∧
    2 ^ (k + 1 + F) + G = (2 * (2 ^ F + G / 2 ^ (k + 1)) + (getBit k G).toNat) * 2 ^ k + G % 2 ^ k := by
  constructor
  · rw [Nat.div_lt_iff_lt_mul (by positivity), ← pow_add]
    rwa [Nat.add_comm F]
  · have := split_word G k
    have h2 : 2 ^ (k + 1 + F) = 2 * 2 ^ F * 2 ^ k := by rw [pow_add, pow_succ]; ring
    rw [h2]
    conv_lhs => rw [this]
    rw [pow_succ]; ring

theorem bias_bounds {E : ℕ} (hE : 2 ≤ E) : (1 : ℤ) ≤ bias E ∧ 2 * bias E + 2 = 2 ^ E := by
  unfold bias
  have h1 : (2 : ℤ) ^ E = 2 * 2 ^ (E - 1) := by
    conv_lhs => rw [show E = (E - 1) + 1 by omega, pow_succ]
    ring
  have h2 : (2 : ℤ) ≤ 2 ^ (E - 1) := by
    have : 2 ^ 1 ≤ 2 ^ (E - 1) := Nat.pow_le_pow_right (by norm_num) (by omega)
    exact_mod_cast this
  constructor <;> linarith

theorem biasN_lt {E : ℕ} : biasN E < 2 ^ E := by
  unfold biasN
  have : 2 ^ (E - 1) ≤ 2 ^ E := Nat.pow_le_pow_right (by norm_num) (by omega)
  have : 0 < 2 ^ (E - 1) := by positivity
  omega

/-! ## Special values -/

theorem datum_flags0 {E F : ℕ} (x : Fp E F) (h : x.flags = 0) : x.datum = .zero (decide (x.sign = 1)) := by
  unfold Fp.datum; rw [h]; rfl
theorem datum_flags2 {E F : ℕ} (x : Fp E F) (h : x.flags = 2) : x.datum = .inf (decide (x.sign = 1)) := by
  unfold Fp.datum; rw [h]; rfl
theorem datum_flags3 {E F : ℕ} (x : Fp E F) (h : x.flags = 3) : x.datum = .nan := by
  unfold Fp.datum; rw [h]; rfl

theorem flags_cases {E F : ℕ} (x : Fp E F) : x.flags = 0 ∨ x.flags = 1 ∨ x.flags = 2 ∨ x.flags = 3 := by
  have := x.flags_lt; omega

theorem sig_scaled_pos (F f : ℕ) (g : ℤ) : (0 : ℚ) < ((2 ^ F + f : ℕ) : ℚ) * 2 ^ g := by
  have : (0 : ℚ) < ((2 ^ F + f : ℕ) : ℚ) := by
    have : 0 < 2 ^ F + f := by positivity
    exact_mod_cast this
  positivity

theorem normal_ne_zero {E F : ℕ} {x : Fp E F} {v : ℚ} (h : x.datum = .num v) : v ≠ 0 := by
  obtain ⟨-, rfl⟩ := datum_num_iff.mp h
  have := sig_scaled_pos F x.frac ((x.exp : ℤ) - bias E - F)
  split <;> simp only [neg_mul, one_mul, ne_eq, neg_eq_zero] <;> exact this.ne'

/-- The sign of a datum that is not NaN is the sign bit. -/
theorem datum_isNeg {E F : ℕ} (x : Fp E F) (h : x.flags ≠ 3) : x.datum.isNeg = decide (x.sign = 1) := by
  rcases flags_cases x with h0 | h0 | h0 | h0
  · rw [datum_flags0 x h0]; rfl
  · rw [datum_normal x h0]
    unfold Datum.isNeg
    simp only [signed_neg (sig_scaled_pos F x.frac ((x.exp : ℤ) - bias E - F))]
  · rw [datum_flags2 x h0]; rfl
  · exact absurd h0 h

/-- Fields of a word assembled from flags, sign and a packed exponent/fraction. -/
theorem ofBits_concat_datum {E F fl s ef : ℕ} (hE : 1 ≤ E) (hF : 1 ≤ F) (hfl : fl < 4) (hs : s < 2)
    (hef : ef < 2 ^ (E + F)) :
    (Fp.ofBits E F (concat (E + F) (concat 1 fl s) ef)).datum = denote E F fl s (ef / 2 ^ F) (ef % 2 ^ F) := by
  rw [ofBits_concat]
  refine Fp.mk4_datum hfl hs ?_ (Nat.mod_lt _ (by positivity)) hE hF
  rw [Nat.div_lt_iff_lt_mul (by positivity), ← pow_add]
  exact hef

theorem getBits_lt' {E F x : ℕ} (h : 1 ≤ E + F) : getBits (E + F - 1) 0 x < 2 ^ (E + F) := by
  have := getBits_lt (E + F - 1) 0 x
  rwa [show E + F - 1 + 1 - 0 = E + F by omega] at this

end Thls
