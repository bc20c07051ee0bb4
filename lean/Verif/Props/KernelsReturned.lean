import Verif.Props.LoopsReturned
import Verif.Props.Kernels

/-! # Property C70 in every format with `F ≤ 2^(E+1)`: whatever a kernel returns obeys the bounds -/

namespace Thls
open Spec

variable {E F : ℕ}

/-- **C70, sums of an array and dot products, in every format with `F ≤ 2^(E+1)`.** Whatever the kernels return for finite elements is within the error bounds
of C57, and finite where C57 says so. -/
theorem C70_kernels_returned (hE : 3 < E) (hF : 1 ≤ F) (hfmt : F ≤ 2 ^ (E + 1)) (a b : ℕ → Fp E F) (p q : ℕ → ℚ) (n : ℕ)
    (ha : ∀ i < n, (a i).datum.fin = some (p i)) (hb : ∀ i < n, (b i).datum.fin = some (q i)) (r : Fp E F) :
    (Kernel.sumArray wrapAdd (Fp.default E F) a n = some r →
      (∀ s, r.datum.fin = some s → |s - ((List.range n).map p).sum| ≤
        ((1 + uro F) ^ (n - 1) - 1) * (((List.range n).map fun i => |p i|).sum + minPos E / uro F)) ∧
      ((1 + uro F) ^ (n - 1) * (((List.range n).map fun i => |p i|).sum + minPos E / uro F) ≤ maxFin E F → ∃ s, r.datum.fin = some s)) ∧
    (Kernel.dotProduct wrapAdd wrapMul (Fp.default E F) a b n = some r →
      (∀ s, r.datum.fin = some s → |s - ((List.range n).map fun i => p i * q i).sum| ≤
        ((1 + uro F) ^ n - 1) * (((List.range n).map fun i => |p i * q i|).sum + 2 * (minPos E / uro F))) ∧
      ((1 + uro F) ^ n * (((List.range n).map fun i => |p i * q i|).sum + 2 * (minPos E / uro F)) ≤ maxFin E F → ∃ s, r.datum.fin = some s)) := by
  constructor
  · intro hr
    rw [(C70_flopoco_kernels a a b n).1] at hr
    have := (C57_sum_returned hE hF hfmt _ r hr).1 ((List.range n).map p) (by
      rw [List.forall₂_map_left_iff, List.forall₂_map_right_iff]
      exact List.forall₂_same.mpr fun i hi => ha i (List.mem_range.mp hi))
    simpa [List.map_map, Function.comp_def] using this
  · intro hr
    rw [(C70_flopoco_kernels a a b n).2] at hr
    have := (C57_dot_returned hE hF hfmt _ r hr).1 ((List.range n).map fun i => (p i, q i)) (by
      rw [List.forall₂_map_left_iff, List.forall₂_map_right_iff]
      exact List.forall₂_same.mpr fun i hi => ⟨ha i (List.mem_range.mp hi), hb i (List.mem_range.mp hi)⟩)
    simpa [List.map_map, Function.comp_def] using this

/-- **C70, the sum of four with a balanced tree, in every format with `F ≤ 2^(E+1)`.** -/
theorem C70_sum_vec4_returned (hE : 3 < E) (hF : 1 ≤ F) (hfmt : F ≤ 2 ^ (E + 1))
    (a b c d r : Fp E F) (p q s t : ℚ) (ha : a.datum.fin = some p) (hb : b.datum.fin = some q) (hc : c.datum.fin = some s)
    (hd : d.datum.fin = some t) (hv4 : Kernel.sumVec4 wrapAdd a b c d = some r) (v : ℚ) (hv : r.datum.fin = some v) :
      |v - (p + q + (s + t))| ≤ ((1 + uro F) ^ 2 - 1) * (|p| + |q| + (|s| + |t|)) + 4 * minPos E := by
  have hA := totalAdd_adder hE hF hfmt
  have hu := uro_pos F
  have hm : 0 < minPos E := two_zpow_pos _
  have hu1 : uro F ≤ 1 / 2 := by
    unfold uro
    calc (2 : ℚ) ^ (-(F : ℤ) - 1) ≤ 2 ^ (-1 : ℤ) := zpow_le_zpow_right₀ (by norm_num) (by omega)
      _ = 1 / 2 := by norm_num
  unfold Kernel.sumVec4 at hv4
  obtain ⟨x, hx, hv4⟩ := Option.bind_eq_some_iff.1 hv4
  obtain ⟨y, hy, hr⟩ := Option.bind_eq_some_iff.1 hv4
  replace hx := totalAdd_of (by omega) hF hx
  replace hy := totalAdd_of (by omega) hF hy
  replace hr := totalAdd_of (by omega) hF hr
  rcases q0 : x.datum.fin with _ | s0
  · rw [hA.sticky _ _ _ hr (Or.inl q0)] at hv; cases hv
  rcases q1 : y.datum.fin with _ | s1
  · rw [hA.sticky _ _ _ hr (Or.inr q1)] at hv; cases hv
  have e0 := hA.err _ _ _ _ _ _ ha hb hx q0
  have e1 := hA.err _ _ _ _ _ _ hc hd hy q1
  have e2 := hA.err _ _ _ _ _ _ q0 q1 hr hv
  have t0 := abs_add_le p q
  have t1 := abs_add_le s t
  have k0 : |s0 - (p + q)| ≤ uro F * (|p| + |q|) + minPos E := by nlinarith
  have k1 : |s1 - (s + t)| ≤ uro F * (|s| + |t|) + minPos E := by nlinarith
  have k2 : |s0 + s1 - (p + q + (s + t))| ≤ uro F * (|p| + |q| + (|s| + |t|)) + 2 * minPos E := by
    have := abs_add_le (s0 - (p + q)) (s1 - (s + t))
    rw [show s0 - (p + q) + (s1 - (s + t)) = s0 + s1 - (p + q + (s + t)) by ring] at this
    linarith
  have k3 : |s0 + s1| ≤ (1 + uro F) * (|p| + |q| + (|s| + |t|)) + 2 * minPos E := by
    have h1 := abs_add_le (s0 + s1 - (p + q + (s + t))) (p + q + (s + t))
    rw [sub_add_cancel] at h1
    have h2 := abs_add_le (p + q) (s + t)
    linarith
  have k4 := abs_add_le (v - (s0 + s1)) (s0 + s1 - (p + q + (s + t)))
  rw [sub_add_sub_cancel] at k4
  have k5 := mul_le_mul_of_nonneg_left k3 hu.le
  have k6 : uro F * minPos E ≤ 1 / 2 * minPos E := mul_le_mul_of_nonneg_right hu1 hm.le
  linarith

/-- In format (7,61), in which the adder fails for some operands, `1 + 1 + 1` and `(1 + 1) + (1 + 1)` are returned. -/
example : 61 ≤ 2 ^ (7 + 1) ∧ Kernel.sumArray wrapAdd (Fp.default 7 61) (fun _ => Fp.mk4 7 61 1 0 63 0) 3 = some (Fp.mk4 7 61 1 0 64 (2 ^ 60)) ∧
    Kernel.sumVec4 wrapAdd (Fp.mk4 7 61 1 0 63 0) (Fp.mk4 7 61 1 0 63 0) (Fp.mk4 7 61 1 0 63 0) (Fp.mk4 7 61 1 0 63 0) =
      some (Fp.mk4 7 61 1 0 65 0) := by
  refine ⟨by norm_num, by decide +kernel, by decide +kernel⟩

end Thls
