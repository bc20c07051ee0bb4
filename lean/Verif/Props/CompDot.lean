import Verif.Proofs.CompDot
import Verif.Props.Compensated

/-! # Property C107: compensated dot products are as accurate as dot products in twice the precision

The client program `compDot` of `SpecCompensated.lean` in the arithmetic of each number type. -/

namespace Thls
open Spec

variable {E F : ℕ}

theorem safePair_term {g : ℤ} {top lo plo : ℚ} {s : ℕ} {v w : ℚ} (hv : v ≠ 0 → SigValue F v) (hw : w ≠ 0 → SigValue F w) (hlo : lo = 2 ^ ((F : ℤ) + g))
    (hplo : plo = 2 ^ (2 * (F : ℤ) + 1 + g)) (h : SafePair lo top plo s v w) : DotTerm F g top s v w := by
  obtain ⟨h1, h2, h3⟩ := h
  subst hlo hplo
  refine ⟨?_, ?_, h3⟩
  · by_cases h0 : v = 0
    · exact Or.inl h0
    · exact Or.inr ⟨hv h0, h1.resolve_left h0⟩
  · by_cases h0 : w = 0
    · exact Or.inl h0
    · exact Or.inr ⟨hw h0, h2.resolve_left h0⟩

/-- **C107, `fp_flopoco`.** `c` is `2^m + 1` with `m` half the number of significant bits, rounded up. -/
theorem C107_compensated_dot (hA : AdderFormat E F) {m : ℕ} (h1 : F + 1 ≤ 2 * m) (h2 : 2 * m ≤ F + 2) (h3 : m + 2 ≤ F) (c z : Fp E F) (sg : Bool)
    (hc : c.datum = .num (2 ^ m + 1)) (hz : z.datum = .zero sg) (xs : List (Fp E F × Fp E F)) (vals : List (ℚ × ℚ))
    (hx : List.Forall₂ (fun x v => x.1.datum.fin = some v.1 ∧ x.2.datum.fin = some v.2 ∧
      SafePair (2 ^ ((F : ℤ) - bias E)) (2 ^ ((2 : ℤ) ^ E - bias E)) (2 ^ (2 * (F : ℤ) + 1 - bias E)) m v.1 v.2) xs vals)
    (hb : 2 * (1 + 1 / 2 ^ (F + 1)) ^ (4 * xs.length) * (vals.map fun v => |v.1 * v.2|).sum < 2 ^ ((2 : ℤ) ^ E - bias E)) :
    ∃ r vr, compDot AddDual.addSame (negV1 E F) (mulV1 E F) c z xs = some r ∧ r.datum.fin = some vr ∧
      CompError F (2 * xs.length) (vals.map fun v => v.1 * v.2).sum (vals.map fun v => |v.1 * v.2|).sum vr := by
  obtain ⟨a1, a2, -, -⟩ := id hA
  have sig : ∀ {x : Fp E F} {v : ℚ}, x.datum.fin = some v → v ≠ 0 → SigValue F v := fun h h0 => ((flush_value (by omega) a2 h).resolve_left h0).1
  refine (flopoco_arith hA).compDot (flopoco_sum E F) h1 h2 h3 ?_ trivial (by rw [hc]; rfl) trivial (by rw [hz]; rfl) xs vals
    (hx.imp fun x v h => ⟨trivial, trivial, h.1, h.2.1, safePair_term (sig h.1) (sig h.2.1) (by rw [← sub_eq_add_neg]) (by rw [← sub_eq_add_neg]) h.2.2⟩) hb
  rw [mul_comm, ← zpow_add_one₀ (by norm_num)]
  refine zpow_lt_zpow_right₀ (by norm_num) ?_
  have : (2 : ℤ) ^ 1 < 2 ^ E := pow_lt_pow_right₀ (by norm_num) (by omega)
  omega

/-- **C107, IEEE types.** -/
theorem C107_ieee_compensated_dot (hA : AdderFormat E F) {m : ℕ} (h1 : F + 1 ≤ 2 * m) (h2 : 2 * m ≤ F + 2) (h3 : m + 2 ≤ F) (c z : Ieee E F) (sg : Bool)
    (hc : ieeeRange E c.datum = .num (2 ^ m + 1)) (hz : ieeeRange E z.datum = .zero sg) (xs : List (Ieee E F × Ieee E F)) (vals : List (ℚ × ℚ))
    (hx : List.Forall₂ (fun x v => (ieeeRange E x.1.datum).fin = some v.1 ∧ (ieeeRange E x.2.datum).fin = some v.2 ∧
      SafePair (2 ^ ((F : ℤ) + 1 - bias E)) (ieeeLimit E) (2 ^ (2 * (F : ℤ) + 2 - bias E)) m v.1 v.2) xs vals)
    (hb : 2 * (1 + 1 / 2 ^ (F + 1)) ^ (4 * xs.length) * (vals.map fun v => |v.1 * v.2|).sum < ieeeLimit E) :
    ∃ r vr, compDot IeeeOps.add ieeeFlip IeeeOps.mul c z xs = some r ∧ (ieeeRange E r.datum).fin = some vr ∧
      CompError F (2 * xs.length) (vals.map fun v => v.1 * v.2).sum (vals.map fun v => |v.1 * v.2|).sum vr := by
  obtain ⟨a1, a2, -, -⟩ := id hA
  have sig : ∀ {x : Ieee E F} {v : ℚ}, (ieeeRange E x.datum).fin = some v → v ≠ 0 → SigValue F v :=
    fun h h0 => ((ieee_value (by omega) a2 h).resolve_left h0).1
  refine (ieee_arith hA).compDot (ieee_sum E F) h1 h2 h3 ?_ trivial (by rw [hc]; rfl) trivial (by rw [hz]; rfl) xs vals
    (hx.imp fun x v h => ⟨trivial, trivial, h.1, h.2.1, safePair_term (sig h.1) (sig h.2.1) (by congr 1; ring) (by congr 1; ring) h.2.2⟩) hb
  unfold ieeeLimit
  rw [mul_comm, ← zpow_add_one₀ (by norm_num)]
  refine zpow_lt_zpow_right₀ (by norm_num) ?_
  have h1 := two_bias (E := E) (by omega)
  have : (2 : ℤ) ^ 3 ≤ 2 ^ E := pow_le_pow_right₀ (by norm_num) (by omega)
  omega

theorem soft_comp_dot {f : SoftFmt} (ok : f.Ok) {prod : ℕ → ℕ → Option ℕ} (hp : SoftFmt.ProdOk f prod) {m c : ℕ} (h1 : f.F + 1 ≤ 2 * m) (h2 : 2 * m ≤ f.F + 2)
    (h3 : m + 2 ≤ f.F) (hbias : (f.F : ℤ) ≤ bias f.E) (lc : c < 2 ^ f.W) (hc : wordDatum f.E f.F c = .num (2 ^ m + 1)) (h0 : (wordDatum f.E f.F 0).fin = some 0)
    (xs : List (ℕ × ℕ)) (vals : List (ℚ × ℚ))
    (hx : List.Forall₂ (fun x v => x.1 < 2 ^ f.W ∧ x.2 < 2 ^ f.W ∧ (wordDatum f.E f.F x.1).fin = some v.1 ∧ (wordDatum f.E f.F x.2).fin = some v.2 ∧
      SafePair (2 ^ (1 - bias f.E)) (ieeeLimit f.E) (2 ^ ((f.F : ℤ) + 2 - bias f.E)) m v.1 v.2) xs vals)
    (hb : 2 * (1 + 1 / 2 ^ (f.F + 1)) ^ (4 * xs.length) * (vals.map fun v => |v.1 * v.2|).sum < ieeeLimit f.E) :
    ∃ r vr, compDot f.add (flipWord f.W) (f.mulWith prod) c 0 xs = some r ∧ (wordDatum f.E f.F r).fin = some vr ∧
      CompError f.F (2 * xs.length) (vals.map fun v => v.1 * v.2).sum (vals.map fun v => |v.1 * v.2|).sum vr := by
  have sig : ∀ {x : ℕ} {v : ℚ}, x < 2 ^ f.W → (wordDatum f.E f.F x).fin = some v → v ≠ 0 → SigValue f.F v :=
    fun hl h h0 => onGrid_sig (gradValue_onGrid (soft_value ok hl h)) h0
  refine (soft_arith ok hp).compDot gradual_sum h1 h2 h3 ?_ lc (by rw [hc]; rfl) (by positivity) h0 xs vals
    (hx.imp fun x v h => ⟨h.1, h.2.1, h.2.2.1, h.2.2.2.1, safePair_term (sig h.1 h.2.2.1) (sig h.2.1 h.2.2.2.1) (by unfold leastExp; congr 1; ring)
      (by unfold leastExp; congr 1; ring) h.2.2.2.2⟩) hb
  unfold ieeeLimit leastExp
  rw [mul_comm, ← zpow_add_one₀ (by norm_num)]
  exact zpow_lt_zpow_right₀ (by norm_num) (by omega)

/-- **C107, `float32_t`.** The factors are zero or normal, the products zero or at least `2^(F+2-bias)`. -/
theorem C107_soft_compensated_dot32 {fast : ℕ} (hfast : 32 ≤ fast) (xs : List (ℕ × ℕ)) (vals : List (ℚ × ℚ))
    (hx : List.Forall₂ (fun x v => x.1 < 2 ^ 32 ∧ x.2 < 2 ^ 32 ∧ (wordDatum 8 23 x.1).fin = some v.1 ∧ (wordDatum 8 23 x.2).fin = some v.2 ∧
      SafePair (2 ^ (1 - bias 8)) (ieeeLimit 8) (2 ^ (((23 : ℕ) : ℤ) + 2 - bias 8)) 12 v.1 v.2) xs vals)
    (hb : 2 * (1 + 1 / 2 ^ 24) ^ (4 * xs.length) * (vals.map fun v => |v.1 * v.2|).sum < ieeeLimit 8) :
    ∃ r vr, compDot (f32Add fast) (flipWord 32) (f32Mul fast) 0x45800800 0 xs = some r ∧ (wordDatum 8 23 r).fin = some vr ∧
      CompError 23 (2 * xs.length) (vals.map fun v => v.1 * v.2).sum (vals.map fun v => |v.1 * v.2|).sum vr :=
  soft_comp_dot (f := soft32 fast) (soft32_ok hfast) (prodOk32 fast) (by simp [soft32]) (by simp [soft32]) (by simp [soft32]) (by norm_num [soft32, bias])
    (by norm_num [soft32, SoftFmt.W]) (by norm_num [soft32, wordDatum, ieeeDenote, bias]) (by norm_num [soft32, wordDatum, ieeeDenote, Datum.fin]) xs vals hx hb

/-- **C107, `float64_t`.** -/
theorem C107_soft_compensated_dot64 {fast : ℕ} (hfast : 64 ≤ fast) (xs : List (ℕ × ℕ)) (vals : List (ℚ × ℚ))
    (hx : List.Forall₂ (fun x v => x.1 < 2 ^ 64 ∧ x.2 < 2 ^ 64 ∧ (wordDatum 11 52 x.1).fin = some v.1 ∧ (wordDatum 11 52 x.2).fin = some v.2 ∧
      SafePair (2 ^ (1 - bias 11)) (ieeeLimit 11) (2 ^ (((52 : ℕ) : ℤ) + 2 - bias 11)) 27 v.1 v.2) xs vals)
    (hb : 2 * (1 + 1 / 2 ^ 53) ^ (4 * xs.length) * (vals.map fun v => |v.1 * v.2|).sum < ieeeLimit 11) :
    ∃ r vr, compDot (f64Add fast) (flipWord 64) (f64Mul fast) 0x41A0000002000000 0 xs = some r ∧ (wordDatum 11 52 r).fin = some vr ∧
      CompError 52 (2 * xs.length) (vals.map fun v => v.1 * v.2).sum (vals.map fun v => |v.1 * v.2|).sum vr :=
  soft_comp_dot (f := soft64 fast) (soft64_ok hfast) (prodOk64 fast) (by simp [soft64]) (by simp [soft64]) (by simp [soft64]) (by norm_num [soft64, bias])
    (by norm_num [soft64, SoftFmt.W]) (by norm_num [soft64, wordDatum, ieeeDenote, bias]) (by norm_num [soft64, wordDatum, ieeeDenote, Datum.fin]) xs vals hx hb

/-- `4097 * 4097 - 4096 * 4098` in `float32_t`, where both products need more than 24 bits or are exact: the exact value is 1. The hypotheses hold. -/
example : compDot (f32Add 32) (flipWord 32) (f32Mul 32) 0x45800800 0 [(0x45800800, 0x45800800), (0xC5800000, 0x45801000)] = some 0x3F800000 := by decide +kernel
example : List.Forall₂ (fun (x : ℕ × ℕ) (v : ℚ × ℚ) => x.1 < 2 ^ 32 ∧ x.2 < 2 ^ 32 ∧ (wordDatum 8 23 x.1).fin = some v.1 ∧ (wordDatum 8 23 x.2).fin = some v.2 ∧
      SafePair (2 ^ (1 - bias 8)) (ieeeLimit 8) (2 ^ (((23 : ℕ) : ℤ) + 2 - bias 8)) 12 v.1 v.2)
      [(0x45800800, 0x45800800), (0xC5800000, 0x45801000)] [(4097, 4097), (-4096, 4098)] ∧
    2 * (1 + 1 / 2 ^ 24) ^ (4 * 2) * (([(4097, 4097), (-4096, 4098)] : List (ℚ × ℚ)).map fun v => |v.1 * v.2|).sum < ieeeLimit 8 := by
  constructor
  · refine .cons ?_ (.cons ?_ .nil) <;> norm_num [wordDatum, ieeeDenote, bias, Datum.fin, SafePair, ieeeLimit]
  · norm_num [ieeeLimit, bias]

/-- The plain loop gives 0. -/
example : (do let p ← f32Mul 32 0x45800800 0x45800800; let q ← f32Mul 32 0xC5800000 0x45801000; f32Add 32 p q) = some 0 := by decide +kernel

end Thls
