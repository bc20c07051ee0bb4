import Verif.Proofs.TreeTerms
import Verif.Props.TreeSum

/-! # Property C113: dot products in any order and bracketing -/

namespace Thls
open Spec

variable {E F : ℕ}

/-- **C113, dot products.** The products of any number of pairs of numbers or zeros, added up in any order and with any bracketing: it
always returns; if the result is a number or a zero, it is within `(1+u)^(h+1) - 1` times the sum of the magnitudes of the products of the
exact value, where `h` is the number of additions on the longest path and where flushing to zero counts as one further product `minPos / u`
per operation; and it is a number or a zero if those sums are not near the largest finite number. -/
theorem C113_dot_schedule_error (hA : AdderFormat E F) (t : AddTree (Fp E F × Fp E F)) (v : Fp E F → ℚ)
    (hx : ∀ x ∈ t.leaves, x.1.datum.fin = some (v x.1) ∧ x.2.datum.fin = some (v x.2)) :
    ∃ r, t.computeTerms (fun x => mulV1 E F x.1 x.2) AddDual.addSame = some r ∧
      (∀ s, r.datum.fin = some s → |s - (t.leaves.map fun x => v x.1 * v x.2).sum| ≤
        ((1 + uro F) ^ (t.height + 1) - 1) *
          ((t.leaves.map fun x => |v x.1 * v x.2| + minPos E / uro F).sum + (t.leaves.length - 1) * (minPos E / uro F))) ∧
      ((1 + uro F) ^ (t.height + 1) *
          ((t.leaves.map fun x => |v x.1 * v x.2| + minPos E / uro F).sum + (t.leaves.length - 1) * (minPos E / uro F)) ≤ maxFin E F →
        ∃ s, r.datum.fin = some s) := by
  obtain ⟨hE, hF, hok, hfmt⟩ := id hA
  have hu := uro_pos F
  have hmp : 0 < minPos E := two_zpow_pos _
  have e : minPos E = uro F * (minPos E / uro F) := by field_simp
  have h1 : GAdder (fun _ => True) (fun x : Fp E F => x.datum.fin) (uro F) (uro F * (minPos E / uro F)) (maxFin E F) AddDual.addSame := by
    rw [← e]; exact (dual_adder (by omega) hF hok hfmt).general
  have h2 : GMul (fun _ => True) (fun x : Fp E F => x.datum.fin) (uro F) (uro F * (minPos E / uro F)) (maxFin E F) (mulV1 E F) := by
    rw [← e]; exact flopoco_gmul (by omega) hF
  obtain ⟨r, hr, -, h⟩ := GTree.dot_error h1 h2 hu (div_pos hmp hu).le (div_pos hmp hu).le v t (fun _ _ => ⟨trivial, trivial⟩) hx
  exact ⟨r, hr, h⟩

/-- **C113, exceptions of dot products.** No schedule of any products loses an exception: it always returns, and a pair with an operand
that is not finite leaves a result that is not finite. -/
theorem C113_dot_schedule_exceptions (hA : AdderFormat E F) (t : AddTree (Fp E F × Fp E F)) :
    ∃ r, t.computeTerms (fun x => mulV1 E F x.1 x.2) AddDual.addSame = some r ∧
      ((∃ x ∈ t.leaves, x.1.datum.fin = none ∨ x.2.datum.fin = none) → r.datum.fin = none) := by
  obtain ⟨hE, hF, hok, hfmt⟩ := id hA
  have h := (dual_adder (by omega : 2 ≤ E) hF hok hfmt).general
  have hM := flopoco_gmul (E := E) (F := F) (by omega) hF
  have hV : ∀ x ∈ t.leaves, ∃ r, mulV1 E F x.1 x.2 = some r ∧ True := fun x _ => hM.total _ _ trivial trivial
  obtain ⟨r, hr, -⟩ := GTree.terms_total h t hV
  refine ⟨r, hr, fun ⟨x, hx, hn⟩ => GTree.terms_sticky h t hV hr ⟨x, hx, ?_⟩⟩
  obtain ⟨p, hp, -⟩ := hV x hx
  refine ⟨p, hp, ?_⟩
  rcases hn with hn | hn
  · exact hM.sticky _ _ _ trivial trivial hp hn
  · exact hM.sticky _ _ _ trivial trivial ((C13_mul_comm _ _).trans hp) hn

theorem soft_dot_schedule {f : SoftFmt} (ok : f.Ok) {prod : ℕ → ℕ → Option ℕ} (hp : f.ProdOk prod) (t : AddTree (ℕ × ℕ)) (v : ℕ → ℚ)
    (hw : ∀ x ∈ t.leaves, x.1 < 2 ^ f.W ∧ x.2 < 2 ^ f.W)
    (hx : ∀ x ∈ t.leaves, wordFin f.E f.F x.1 = some (v x.1) ∧ wordFin f.E f.F x.2 = some (v x.2)) :
    ∃ r, t.computeTerms (fun x => f.mulWith prod x.1 x.2) f.add = some r ∧ r < 2 ^ f.W ∧
      (∀ s, wordFin f.E f.F r = some s → |s - (t.leaves.map fun x => v x.1 * v x.2).sum| ≤
        ((1 + uro f.F) ^ (t.height + 1) - 1) * (t.leaves.map fun x => |v x.1 * v x.2| + ieeeMin f.E).sum) ∧
      ((1 + uro f.F) ^ (t.height + 1) * (t.leaves.map fun x => |v x.1 * v x.2| + ieeeMin f.E).sum ≤ ieeeMax f.E f.F →
        ∃ s, wordFin f.E f.F r = some s) := by
  have hu := uro_pos f.F
  have hmin : 0 < ieeeMin f.E := two_zpow_pos _
  have h1 : GAdder (fun w => w < 2 ^ f.W) (wordFin f.E f.F) (uro f.F) (uro f.F * 0) (ieeeMax f.E f.F) f.add := by
    rw [mul_zero]; exact SoftFmt.soft_adder ok
  have h2 : GMul (fun w => w < 2 ^ f.W) (wordFin f.E f.F) (uro f.F) (uro f.F * ieeeMin f.E) (ieeeMax f.E f.F) (f.mulWith prod) := by
    have := SoftFmt.soft_mul ok hp
    rwa [show halfDenorm f.E f.F = uro f.F * ieeeMin f.E by rw [← halfDenorm_uro f.E f.F]; field_simp] at this
  have := GTree.dot_error h1 h2 hu le_rfl hmin.le v t hw hx
  simpa only [mul_zero, add_zero] using this

/-- **C113, dot products with `float32_t`.** Gradual underflow of a product counts as an enlargement by the least normal number; sums do
not underflow. -/
theorem C113_soft_dot_schedule32 {fast : ℕ} (hfast : 32 ≤ fast) (t : AddTree (ℕ × ℕ)) (v : ℕ → ℚ)
    (hw : ∀ x ∈ t.leaves, x.1 < 2 ^ 32 ∧ x.2 < 2 ^ 32) (hx : ∀ x ∈ t.leaves, wordFin 8 23 x.1 = some (v x.1) ∧ wordFin 8 23 x.2 = some (v x.2)) :
    ∃ r, t.computeTerms (fun x => f32Mul fast x.1 x.2) (f32Add fast) = some r ∧ r < 2 ^ 32 ∧
      (∀ s, wordFin 8 23 r = some s → |s - (t.leaves.map fun x => v x.1 * v x.2).sum| ≤
        ((1 + uro 23) ^ (t.height + 1) - 1) * (t.leaves.map fun x => |v x.1 * v x.2| + ieeeMin 8).sum) ∧
      ((1 + uro 23) ^ (t.height + 1) * (t.leaves.map fun x => |v x.1 * v x.2| + ieeeMin 8).sum ≤ ieeeMax 8 23 →
        ∃ s, wordFin 8 23 r = some s) :=
  soft_dot_schedule (soft32_ok hfast) (prodOk32 fast) t v hw hx

/-- **C113, dot products with `float64_t`.** -/
theorem C113_soft_dot_schedule64 {fast : ℕ} (hfast : 64 ≤ fast) (t : AddTree (ℕ × ℕ)) (v : ℕ → ℚ)
    (hw : ∀ x ∈ t.leaves, x.1 < 2 ^ 64 ∧ x.2 < 2 ^ 64)
    (hx : ∀ x ∈ t.leaves, wordFin 11 52 x.1 = some (v x.1) ∧ wordFin 11 52 x.2 = some (v x.2)) :
    ∃ r, t.computeTerms (fun x => f64Mul fast x.1 x.2) (f64Add fast) = some r ∧ r < 2 ^ 64 ∧
      (∀ s, wordFin 11 52 r = some s → |s - (t.leaves.map fun x => v x.1 * v x.2).sum| ≤
        ((1 + uro 52) ^ (t.height + 1) - 1) * (t.leaves.map fun x => |v x.1 * v x.2| + ieeeMin 11).sum) ∧
      ((1 + uro 52) ^ (t.height + 1) * (t.leaves.map fun x => |v x.1 * v x.2| + ieeeMin 11).sum ≤ ieeeMax 11 52 →
        ∃ s, wordFin 11 52 r = some s) :=
  soft_dot_schedule (soft64_ok hfast) (prodOk64 fast) t v hw hx

/-- `0 * ∞ + 1 * 1` meets the hypotheses. -/
example : ∃ r, (AddTree.node (.leaf (Fp.mk4 8 23 0 0 0 0, Fp.mk4 8 23 2 0 0 0))
    (.leaf (Fp.mk4 8 23 1 0 127 0, Fp.mk4 8 23 1 0 127 0))).computeTerms (fun x => mulV1 8 23 x.1 x.2) AddDual.addSame = some r ∧
    r.datum.fin = none := by
  obtain ⟨r, hr, h⟩ := C113_dot_schedule_exceptions (E := 8) (F := 23) ⟨by norm_num, by norm_num, dual_8_23, by norm_num⟩
    (.node (.leaf (Fp.mk4 8 23 0 0 0 0, Fp.mk4 8 23 2 0 0 0)) (.leaf (Fp.mk4 8 23 1 0 127 0, Fp.mk4 8 23 1 0 127 0)))
  exact ⟨r, hr, h ⟨_, List.mem_cons_self, Or.inr (by decide +kernel)⟩⟩

/-- `(3/2 * 2 + 1 * 1) + -3 * 2` in single precision meets the hypotheses, and the result is finite. -/
example : ∃ r s, (AddTree.node (.node (.leaf (Fp.mk4 8 23 1 0 127 (2 ^ 22), Fp.mk4 8 23 1 0 128 0))
    (.leaf (Fp.mk4 8 23 1 0 127 0, Fp.mk4 8 23 1 0 127 0))) (.leaf (Fp.mk4 8 23 1 1 128 (2 ^ 22), Fp.mk4 8 23 1 0 128 0))).computeTerms
    (fun x => mulV1 8 23 x.1 x.2) AddDual.addSame = some r ∧ r.datum.fin = some s := by
  obtain ⟨r, hr, -, h⟩ := C113_dot_schedule_error (E := 8) (F := 23) ⟨by norm_num, by norm_num, dual_8_23, by norm_num⟩
    (.node (.node (.leaf (Fp.mk4 8 23 1 0 127 (2 ^ 22), Fp.mk4 8 23 1 0 128 0)) (.leaf (Fp.mk4 8 23 1 0 127 0, Fp.mk4 8 23 1 0 127 0)))
      (.leaf (Fp.mk4 8 23 1 1 128 (2 ^ 22), Fp.mk4 8 23 1 0 128 0))) (fun x => (x.datum.fin).getD 0) (by decide +kernel)
  obtain ⟨s, hs⟩ := h (by decide +kernel)
  exact ⟨r, s, hr, hs⟩

/-- The same with `float32_t`. -/
example : ∃ r s, (AddTree.node (.node (.leaf (0x3fc00000, 0x40000000)) (.leaf (0x3f800000, 0x3f800000)))
    (.leaf (0xc0400000, 0x40000000))).computeTerms (fun x => f32Mul 64 x.1 x.2) (f32Add 64) = some r ∧ wordFin 8 23 r = some s := by
  obtain ⟨r, hr, -, -, h⟩ := C113_soft_dot_schedule32 (fast := 64) (by norm_num)
    (.node (.node (.leaf (0x3fc00000, 0x40000000)) (.leaf (0x3f800000, 0x3f800000))) (.leaf (0xc0400000, 0x40000000)))
    (fun x => (wordFin 8 23 x).getD 0) (by decide +kernel) (by decide +kernel)
  obtain ⟨s, hs⟩ := h (by decide +kernel)
  exact ⟨r, s, hr, hs⟩

end Thls
