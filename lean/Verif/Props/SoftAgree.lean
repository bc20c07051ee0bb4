import Verif.Proofs.SoftAgree
import Verif.Props.SoftFloat

/-! # Property C71: the two IEEE number types give the same results, up to denormals

`fp_ieee` with the FloPoCo operators (policy_ieee_on_flopoco.hpp) against `float32_t` and `float64_t` (policy_softfloat.hpp). The words are
the same; the first type reads every denormal as a zero (`Spec.flushWord`) and produces none. -/

namespace Thls
open Spec SoftFmt

theorem dual_8_23' : DualFormat 8 23 := by
  intro k hk
  exfalso
  have h1 : 4 < k := by by_contra h; have : 2 ^ k ≤ 2 ^ 4 := Nat.pow_le_pow_right (by norm_num) (by omega); omega
  have h2 : 2 ^ 5 ≤ 2 ^ k := Nat.pow_le_pow_right (by norm_num) (by omega)
  omega

theorem dual_11_52 : DualFormat 11 52 := by
  intro k hk
  exfalso
  have h1 : 5 < k := by by_contra h; have : 2 ^ k ≤ 2 ^ 5 := Nat.pow_le_pow_right (by norm_num) (by omega); omega
  have h2 : 2 ^ 6 ≤ 2 ^ k := Nat.pow_le_pow_right (by norm_num) (by omega)
  omega

/-- **C71.** For all single-precision words, sum, product and quotient of the two types agree once the denormal operands are read as zeros: the
same word, or two NaNs, or a zero of the right sign in place of a result in the denormal range. -/
theorem C71_operators_agree32 {fast : ℕ} (hfast : 32 ≤ fast) (a b : Ieee 8 23) :
    (∃ r z, IeeeOps.add a b = some r ∧ f32Add fast (flushWord 8 23 a.bits) (flushWord 8 23 b.bits) = some z ∧ SameUpToFlush 8 23 r.bits z) ∧
    (∃ r z, IeeeOps.mul a b = some r ∧ f32Mul fast (flushWord 8 23 a.bits) (flushWord 8 23 b.bits) = some z ∧ SameUpToFlush 8 23 r.bits z) ∧
    (∃ z, f32Div fast (flushWord 8 23 a.bits) (flushWord 8 23 b.bits) = some z ∧ SameUpToFlush 8 23 (IeeeOps.div a b).bits z) :=
  ⟨add_agree (soft32_ok hfast) dual_8_23' (by simp [soft32]) a b, mul_agree (soft32_ok hfast) (prodOk32 fast) a b,
    div_agree (soft32_ok hfast) (quotOk32 fast) a b⟩

/-- **C71.** The same in double precision. -/
theorem C71_operators_agree64 {fast : ℕ} (hfast : 64 ≤ fast) (a b : Ieee 11 52) :
    (∃ r z, IeeeOps.add a b = some r ∧ f64Add fast (flushWord 11 52 a.bits) (flushWord 11 52 b.bits) = some z ∧ SameUpToFlush 11 52 r.bits z) ∧
    (∃ r z, IeeeOps.mul a b = some r ∧ f64Mul fast (flushWord 11 52 a.bits) (flushWord 11 52 b.bits) = some z ∧ SameUpToFlush 11 52 r.bits z) ∧
    (∃ z, f64Div fast (flushWord 11 52 a.bits) (flushWord 11 52 b.bits) = some z ∧ SameUpToFlush 11 52 (IeeeOps.div a b).bits z) :=
  ⟨add_agree (soft64_ok hfast) dual_11_52 (by simp [soft64]) a b, mul_agree (soft64_ok hfast) (prodOk64 fast) a b,
    div_agree (soft64_ok hfast) (quotOk64 fast) a b⟩

/-- Not a denormal: the exponent field is not zero, or the fraction is. -/
def NotDenormal (E F w : ℕ) : Prop := w / 2 ^ F % 2 ^ E = 0 → w % 2 ^ F = 0

/-- Strictly above the least normal number in magnitude, or infinite. -/
def AboveMin (E F w : ℕ) : Prop := ∀ d, wordDatum E F w = d → d ≠ .nan ∧ (∀ s, d ≠ .zero s) ∧ ∀ q, d = .num q → ieeeMin E < |q|

theorem flushWord_of_notDenormal {E F w : ℕ} (h : NotDenormal E F w) : flushWord E F w = w := by
  unfold flushWord
  split_ifs with h0
  · have h1 := h h0
    have h2 := Nat.div_add_mod w (2 ^ F)
    have h3 := Nat.div_add_mod (w / 2 ^ F) (2 ^ E)
    rw [h0, Nat.div_div_eq_div_mul, ← pow_add, add_comm F E] at h3
    rw [h1] at h2
    calc w / 2 ^ (E + F) * 2 ^ (E + F) = 2 ^ F * (2 ^ E * (w / 2 ^ (E + F))) := by rw [pow_add]; ring
      _ = w := by rw [show 2 ^ E * (w / 2 ^ (E + F)) = w / 2 ^ F by omega]; omega
  · rfl

theorem same_of_above {E F r z : ℕ} (h : SameUpToFlush E F r z) (ha : AboveMin E F z) : r = z := by
  obtain ⟨h1, -, h3⟩ := ha _ rfl
  rcases h with h | ⟨-, h⟩ | ⟨q, h, hq, -⟩
  · exact h
  · exact absurd h h1
  · exact absurd hq (not_le.2 (h3 q h))

/-- **C71.** On operands that are not denormal, a sum, product or quotient of `float32_t` above the least normal number is the very word the
FloPoCo-based type computes. -/
theorem C71_same_word32 {fast z : ℕ} (hfast : 32 ≤ fast) (a b : Ieee 8 23) (ha : NotDenormal 8 23 a.bits) (hb : NotDenormal 8 23 b.bits)
    (hz : AboveMin 8 23 z) :
    (f32Add fast a.bits b.bits = some z → ∃ r, IeeeOps.add a b = some r ∧ r.bits = z) ∧
    (f32Mul fast a.bits b.bits = some z → ∃ r, IeeeOps.mul a b = some r ∧ r.bits = z) ∧
    (f32Div fast a.bits b.bits = some z → (IeeeOps.div a b).bits = z) := by
  obtain ⟨⟨r, y, h1, h2, h3⟩, ⟨r', y', h1', h2', h3'⟩, ⟨y'', h2'', h3''⟩⟩ := C71_operators_agree32 hfast a b
  rw [flushWord_of_notDenormal ha, flushWord_of_notDenormal hb] at h2 h2' h2''
  refine ⟨fun h => ⟨r, h1, ?_⟩, fun h => ⟨r', h1', ?_⟩, fun h => ?_⟩
  · obtain rfl := Option.some.inj (h2.symm.trans h); exact same_of_above h3 hz
  · obtain rfl := Option.some.inj (h2'.symm.trans h); exact same_of_above h3' hz
  · obtain rfl := Option.some.inj (h2''.symm.trans h); exact same_of_above h3'' hz

/-- **C71.** The same in double precision. -/
theorem C71_same_word64 {fast z : ℕ} (hfast : 64 ≤ fast) (a b : Ieee 11 52) (ha : NotDenormal 11 52 a.bits) (hb : NotDenormal 11 52 b.bits)
    (hz : AboveMin 11 52 z) :
    (f64Add fast a.bits b.bits = some z → ∃ r, IeeeOps.add a b = some r ∧ r.bits = z) ∧
    (f64Mul fast a.bits b.bits = some z → ∃ r, IeeeOps.mul a b = some r ∧ r.bits = z) ∧
    (f64Div fast a.bits b.bits = some z → (IeeeOps.div a b).bits = z) := by
  obtain ⟨⟨r, y, h1, h2, h3⟩, ⟨r', y', h1', h2', h3'⟩, ⟨y'', h2'', h3''⟩⟩ := C71_operators_agree64 hfast a b
  rw [flushWord_of_notDenormal ha, flushWord_of_notDenormal hb] at h2 h2' h2''
  refine ⟨fun h => ⟨r, h1, ?_⟩, fun h => ⟨r', h1', ?_⟩, fun h => ?_⟩
  · obtain rfl := Option.some.inj (h2.symm.trans h); exact same_of_above h3 hz
  · obtain rfl := Option.some.inj (h2'.symm.trans h); exact same_of_above h3' hz
  · obtain rfl := Option.some.inj (h2''.symm.trans h); exact same_of_above h3'' hz

theorem realEq_comm (a b : Datum) : a.RealEq b ↔ b.RealEq a := by
  rcases a with _ | s | s | p <;> rcases b with _ | t | t | q <;> simp [Datum.RealEq, eq_comm]

theorem lt_nan_false (a b : Datum) (h : a = .nan ∨ b = .nan) : ¬ a.Lt b ∧ ¬ a.RealEq b := by
  rcases h with rfl | rfl
  · simp [Datum.Lt, Datum.RealEq]
  · rcases a with _ | s | s | p <;> simp [Datum.Lt, Datum.RealEq]

/-- **C71.** All six comparisons of the two types give the same truth value on all words, denormal operands read as zeros. -/
theorem C71_comparisons_agree32 (a b : Ieee 8 23) :
    let x := flushWord 8 23 a.bits
    let y := flushWord 8 23 b.bits
    IeeeOps.lt a b = f32Lt x y ∧ IeeeOps.le a b = f32Le x y ∧ IeeeOps.gt a b = f32Gt x y ∧ IeeeOps.ge a b = f32Ge x y ∧
    IeeeOps.eq a b = f32Eq x y ∧ IeeeOps.ne a b = f32Ne x y := by
  intro x y
  obtain ⟨e1, e2, e3, e4, e5, e6⟩ := C64_soft_compare32 (flushWord_lt a.isLt) (flushWord_lt b.isLt)
  rw [flushWord_datum (by norm_num) (by norm_num), flushWord_datum (by norm_num) (by norm_num)] at e1 e2 e3 e4 e5 e6
  obtain ⟨h1, h2⟩ := C29_comparisons (by norm_num) (by norm_num) a b
  have hr : ∀ d : Datum, d = .nan → ieeeRange 8 d = .nan := by rintro d rfl; rfl
  by_cases hn : a.datum = .nan ∨ b.datum = .nan
  · obtain ⟨g1, g2, g3, g4, g5, g6⟩ := h2 hn
    have hn' : ieeeRange 8 a.datum = .nan ∨ ieeeRange 8 b.datum = .nan := hn.imp (hr _) (hr _)
    obtain ⟨l1, l2⟩ := lt_nan_false _ _ hn'
    obtain ⟨l3, l4⟩ := lt_nan_false _ _ hn'.symm
    simp only [Datum.Le, l1, l2, l3, l4, or_self, iff_false, not_false_eq_true, iff_true, Bool.not_eq_true] at e1 e2 e3 e4 e5 e6
    exact ⟨g1.trans e3.symm, g2.trans e5.symm, g3.trans e4.symm, g4.trans e6.symm, g5.trans e1.symm, g6.trans e2.symm⟩
  · push Not at hn
    obtain ⟨g1, g2, g3, g4, g5, g6⟩ := h1 hn.1 hn.2
    refine ⟨?_, ?_, ?_, ?_, ?_, ?_⟩ <;> rw [Bool.eq_iff_iff]
    · exact g1.trans e3.symm
    · exact g2.trans e5.symm
    · exact g3.trans e4.symm
    · rw [g4]; exact (e6.trans (by simp only [Datum.Le]; rw [realEq_comm])).symm
    · exact g5.trans e1.symm
    · exact g6.trans e2.symm

/-- **C71.** The same in double precision. -/
theorem C71_comparisons_agree64 (a b : Ieee 11 52) :
    let x := flushWord 11 52 a.bits
    let y := flushWord 11 52 b.bits
    IeeeOps.lt a b = f64Lt x y ∧ IeeeOps.le a b = f64Le x y ∧ IeeeOps.gt a b = f64Gt x y ∧ IeeeOps.ge a b = f64Ge x y ∧
    IeeeOps.eq a b = f64Eq x y ∧ IeeeOps.ne a b = f64Ne x y := by
  intro x y
  obtain ⟨e1, e2, e3, e4, e5, e6⟩ := C64_soft_compare64 (flushWord_lt a.isLt) (flushWord_lt b.isLt)
  rw [flushWord_datum (by norm_num) (by norm_num), flushWord_datum (by norm_num) (by norm_num)] at e1 e2 e3 e4 e5 e6
  obtain ⟨h1, h2⟩ := C29_comparisons (by norm_num) (by norm_num) a b
  have hr : ∀ d : Datum, d = .nan → ieeeRange 11 d = .nan := by rintro d rfl; rfl
  by_cases hn : a.datum = .nan ∨ b.datum = .nan
  · obtain ⟨g1, g2, g3, g4, g5, g6⟩ := h2 hn
    have hn' : ieeeRange 11 a.datum = .nan ∨ ieeeRange 11 b.datum = .nan := hn.imp (hr _) (hr _)
    obtain ⟨l1, l2⟩ := lt_nan_false _ _ hn'
    obtain ⟨l3, l4⟩ := lt_nan_false _ _ hn'.symm
    simp only [Datum.Le, l1, l2, l3, l4, or_self, iff_false, not_false_eq_true, iff_true, Bool.not_eq_true] at e1 e2 e3 e4 e5 e6
    exact ⟨g1.trans e3.symm, g2.trans e5.symm, g3.trans e4.symm, g4.trans e6.symm, g5.trans e1.symm, g6.trans e2.symm⟩
  · push Not at hn
    obtain ⟨g1, g2, g3, g4, g5, g6⟩ := h1 hn.1 hn.2
    refine ⟨?_, ?_, ?_, ?_, ?_, ?_⟩ <;> rw [Bool.eq_iff_iff]
    · exact g1.trans e3.symm
    · exact g2.trans e5.symm
    · exact g3.trans e4.symm
    · rw [g4]; exact (e6.trans (by simp only [Datum.Le]; rw [realEq_comm])).symm
    · exact g5.trans e1.symm
    · exact g6.trans e2.symm

/-- **C71, what is excluded does differ.** A denormal operand times one: kept by `float32_t`, a zero with the FloPoCo operators; and half the
least normal number, a denormal there and a zero here. -/
theorem C71_denormals_differ :
    (∃ r, IeeeOps.mul (Ieee.ofBits 8 23 0x00400000) (Ieee.ofBits 8 23 0x3F800000) = some r ∧ r.bits = 0) ∧
    f32Mul 64 0x00400000 0x3F800000 = some 0x00400000 ∧
    (∃ r, IeeeOps.mul (Ieee.ofBits 8 23 0x80800000) (Ieee.ofBits 8 23 0x3F000000) = some r ∧ r.bits = 0x80000000) ∧
    f32Mul 64 0x80800000 0x3F000000 = some 0x80400000 := by
  refine ⟨⟨Ieee.ofBits 8 23 0, ?_, ?_⟩, ?_, ⟨Ieee.ofBits 8 23 0x80000000, ?_, ?_⟩, ?_⟩ <;> decide +kernel

/-- The hypotheses are met: 1.5 and -1.25 are not denormal and their product is above the least normal number; the same word from both. -/
example : NotDenormal 8 23 0x3FC00000 ∧ NotDenormal 8 23 0xBFA00000 ∧ AboveMin 8 23 0xBFF00000 ∧
    f32Mul 32 0x3FC00000 0xBFA00000 = some 0xBFF00000 ∧
    (IeeeOps.mul (Ieee.ofBits 8 23 0x3FC00000) (Ieee.ofBits 8 23 0xBFA00000)).map Ieee.bits = some 0xBFF00000 := by
  refine ⟨by norm_num [NotDenormal], by norm_num [NotDenormal], ?_, by decide +kernel, by decide +kernel⟩
  rintro d rfl
  have h : wordDatum 8 23 0xBFF00000 = .num (-(15 / 8)) := by norm_num [wordDatum, ieeeDenote, bias]
  rw [h]
  refine ⟨nofun, nofun, ?_⟩
  rintro q ⟨⟩
  norm_num [ieeeMin, bias, abs_of_neg]

end Thls
