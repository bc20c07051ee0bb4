import Verif.Proofs.Compensated
import Verif.Props.Dekker

/-! # Property C106: compensated summation is as accurate as summation in twice the precision

The client program `compSum` of `SpecCompensated.lean` in the arithmetic of each number type. -/

namespace Thls
open Spec

variable {E F : ℕ}

/-- **C106, `fp_flopoco`.** -/
theorem C106_compensated_sum (hA : AdderFormat E F) (hF : 2 ≤ F) (z : Fp E F) (sg : Bool) (hz : z.datum = .zero sg) (xs : List (Fp E F)) (vals : List ℚ)
    (hx : List.Forall₂ (fun x v => x.datum.fin = some v ∧ (v = 0 ∨ (2 : ℚ) ^ ((F : ℤ) - bias E) ≤ |v|)) xs vals)
    (hb : 2 * (1 + 1 / 2 ^ (F + 1)) ^ (2 * xs.length) * (vals.map abs).sum < 2 ^ ((2 : ℤ) ^ E - bias E)) :
    ∃ r vr, compSum AddDual.addSame (negV1 E F) z xs = some r ∧ r.datum.fin = some vr ∧ CompError F xs.length vals.sum (vals.map abs).sum vr := by
  obtain ⟨a1, a2, -, -⟩ := id hA
  refine (flopoco_arith hA).compSum (flopoco_sum E F) hF ?_ trivial (by rw [hz]; rfl) xs vals (hx.imp fun x v h => ⟨trivial, h.1, ?_⟩) hb
  · rw [mul_comm, ← zpow_add_one₀ (by norm_num)]
    refine zpow_lt_zpow_right₀ (by norm_num) ?_
    have : (2 : ℤ) ^ 1 < 2 ^ E := pow_lt_pow_right₀ (by norm_num) (by omega)
    omega
  · exact flushValue_onGrid (flush_value (by omega) a2 h.1) h.2

/-- **C106, IEEE types.** -/
theorem C106_ieee_compensated_sum (hA : AdderFormat E F) (hF : 2 ≤ F) (z : Ieee E F) (sg : Bool) (hz : ieeeRange E z.datum = .zero sg) (xs : List (Ieee E F))
    (vals : List ℚ)
    (hx : List.Forall₂ (fun x v => (ieeeRange E x.datum).fin = some v ∧ (v = 0 ∨ (2 : ℚ) ^ ((F : ℤ) + 1 - bias E) ≤ |v|)) xs vals)
    (hb : 2 * (1 + 1 / 2 ^ (F + 1)) ^ (2 * xs.length) * (vals.map abs).sum < ieeeLimit E) :
    ∃ r vr, compSum IeeeOps.add ieeeFlip z xs = some r ∧ (ieeeRange E r.datum).fin = some vr ∧ CompError F xs.length vals.sum (vals.map abs).sum vr := by
  obtain ⟨a1, a2, -, -⟩ := id hA
  refine (ieee_arith hA).compSum (ieee_sum E F) hF ?_ trivial (by rw [hz]; rfl) xs vals (hx.imp fun x v h => ⟨trivial, h.1, ?_⟩) hb
  · unfold ieeeLimit
    rw [mul_comm, ← zpow_add_one₀ (by norm_num)]
    refine zpow_lt_zpow_right₀ (by norm_num) ?_
    have h1 := two_bias (E := E) (by omega)
    have : (2 : ℤ) ^ 3 ≤ 2 ^ E := pow_le_pow_right₀ (by norm_num) (by omega)
    omega
  · have hexp : (F : ℤ) + 1 - bias E = F + (1 - bias E) := by ring
    rw [hexp] at h
    exact flushValue_onGrid (ieee_value (by omega) a2 h.1) h.2

theorem soft_comp_sum {f : SoftFmt} (ok : f.Ok) {prod : ℕ → ℕ → Option ℕ} (hp : SoftFmt.ProdOk f prod) (hF : 2 ≤ f.F) (hbias : (f.F : ℤ) ≤ bias f.E)
    (xs : List ℕ) (vals : List ℚ) (h0 : (wordDatum f.E f.F 0).fin = some 0)
    (hx : List.Forall₂ (fun x v => x < 2 ^ f.W ∧ (wordDatum f.E f.F x).fin = some v) xs vals)
    (hb : 2 * (1 + 1 / 2 ^ (f.F + 1)) ^ (2 * xs.length) * (vals.map abs).sum < ieeeLimit f.E) :
    ∃ r vr, compSum f.add (flipWord f.W) 0 xs = some r ∧ (wordDatum f.E f.F r).fin = some vr ∧ CompError f.F xs.length vals.sum (vals.map abs).sum vr := by
  refine (soft_arith ok hp).compSum gradual_sum hF ?_ (by positivity) h0 xs vals
    (hx.imp fun x v h => ⟨h.1, h.2, gradValue_onGrid (soft_value ok h.1 h.2)⟩) hb
  unfold ieeeLimit leastExp
  rw [mul_comm, ← zpow_add_one₀ (by norm_num)]
  exact zpow_lt_zpow_right₀ (by norm_num) (by omega)

/-- **C106, `float32_t`.** All finite terms, denormals included. -/
theorem C106_soft_compensated_sum32 {fast : ℕ} (hfast : 32 ≤ fast) (xs : List ℕ) (vals : List ℚ)
    (hx : List.Forall₂ (fun x v => x < 2 ^ 32 ∧ (wordDatum 8 23 x).fin = some v) xs vals)
    (hb : 2 * (1 + 1 / 2 ^ 24) ^ (2 * xs.length) * (vals.map abs).sum < ieeeLimit 8) :
    ∃ r vr, compSum (f32Add fast) (flipWord 32) 0 xs = some r ∧ (wordDatum 8 23 r).fin = some vr ∧ CompError 23 xs.length vals.sum (vals.map abs).sum vr :=
  soft_comp_sum (f := soft32 fast) (soft32_ok hfast) (prodOk32 fast) (by simp [soft32]) (by norm_num [soft32, bias]) xs vals
    (by norm_num [soft32, wordDatum, ieeeDenote, Datum.fin]) hx hb

/-- **C106, `float64_t`.** -/
theorem C106_soft_compensated_sum64 {fast : ℕ} (hfast : 64 ≤ fast) (xs : List ℕ) (vals : List ℚ)
    (hx : List.Forall₂ (fun x v => x < 2 ^ 64 ∧ (wordDatum 11 52 x).fin = some v) xs vals)
    (hb : 2 * (1 + 1 / 2 ^ 53) ^ (2 * xs.length) * (vals.map abs).sum < ieeeLimit 11) :
    ∃ r vr, compSum (f64Add fast) (flipWord 64) 0 xs = some r ∧ (wordDatum 11 52 r).fin = some vr ∧ CompError 52 xs.length vals.sum (vals.map abs).sum vr :=
  soft_comp_sum (f := soft64 fast) (soft64_ok hfast) (prodOk64 fast) (by simp [soft64]) (by norm_num [soft64, bias]) xs vals
    (by norm_num [soft64, wordDatum, ieeeDenote, Datum.fin]) hx hb

/-- `2^24 + 1 - 2^24` in `float32_t`: the plain loop gives 0, the compensated sum 1. The hypotheses hold. -/
example : ([0x4B800000, 0x3F800000, 0xCB800000] : List ℕ).foldlM (f32Add 32) 0 = some 0 ∧
    compSum (f32Add 32) (flipWord 32) 0 [0x4B800000, 0x3F800000, 0xCB800000] = some 0x3F800000 := by decide +kernel
example : List.Forall₂ (fun x v => x < 2 ^ 32 ∧ (wordDatum 8 23 x).fin = some v) [0x4B800000, 0x3F800000, 0xCB800000] [2 ^ 24, 1, -2 ^ 24] ∧
    2 * (1 + 1 / 2 ^ 24) ^ (2 * 3) * (([2 ^ 24, 1, -2 ^ 24] : List ℚ).map abs).sum < ieeeLimit 8 := by
  constructor
  · refine .cons ?_ (.cons ?_ (.cons ?_ .nil)) <;> norm_num [wordDatum, ieeeDenote, bias, Datum.fin]
  · norm_num [ieeeLimit, bias]

/-- The same in `fp_flopoco<8,23>`. -/
example : compSum AddDual.addSame (negV1 8 23) (Fp.mk4 8 23 0 0 0 0) [Fp.mk4 8 23 1 0 151 0, Fp.mk4 8 23 1 0 127 0, Fp.mk4 8 23 1 1 151 0] =
    some (Fp.mk4 8 23 1 0 127 0) := by decide +kernel

end Thls
