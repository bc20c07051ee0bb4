import Verif.Proofs.GenHorner

/-! # Property C112: polynomials with the software floating-point types -/

namespace Thls
open Spec SoftFmt

/-- **C112, polynomials with `float32_t`.** Horner's rule for a polynomial of any degree `n` with any finite coefficients, denormals
included: it never runs into undefined behaviour; a finite result is within `(1+u)^(2n) - 1` times the sum of the magnitudes of the terms
of the exact value, where gradual underflow enters as if every coefficient but the leading one were larger by the least normal number; and
the result is finite if that sum, for every initial part of the computation, is at most the largest finite number. -/
theorem C112_soft_horner_error32 {fast : ℕ} (hfast : 32 ≤ fast) (x c : ℕ) (as : List ℕ) (vx vc : ℚ) (vs : List ℚ)
    (wx : x < 2 ^ 32) (wc : c < 2 ^ 32) (hx : wordFin 8 23 x = some vx) (hc : wordFin 8 23 c = some vc)
    (has : List.Forall₂ (fun a v => a < 2 ^ 32 ∧ wordFin 8 23 a = some v) as vs) :
    ∃ r, hornerWith (f32Mul fast) (f32Add fast) x c as = some r ∧ r < 2 ^ 32 ∧
      (∀ w, wordFin 8 23 r = some w → |w - polynomial vx vc vs| ≤
        ((1 + uro 23) ^ (2 * as.length) - 1) * polynomialSize (ieeeMin 8) vx vc vs) ∧
      ((∀ k ≤ as.length, 0 < k → (1 + uro 23) ^ (2 * k) * polynomialSize (ieeeMin 8) vx vc (vs.take k) ≤ ieeeMax 8 23) →
        ∃ w, wordFin 8 23 r = some w) :=
  soft_horner (soft32_ok hfast) (prodOk32 fast) as vs wx wc hx hc has

/-- **C112, polynomials with `float64_t`.** -/
theorem C112_soft_horner_error64 {fast : ℕ} (hfast : 64 ≤ fast) (x c : ℕ) (as : List ℕ) (vx vc : ℚ) (vs : List ℚ)
    (wx : x < 2 ^ 64) (wc : c < 2 ^ 64) (hx : wordFin 11 52 x = some vx) (hc : wordFin 11 52 c = some vc)
    (has : List.Forall₂ (fun a v => a < 2 ^ 64 ∧ wordFin 11 52 a = some v) as vs) :
    ∃ r, hornerWith (f64Mul fast) (f64Add fast) x c as = some r ∧ r < 2 ^ 64 ∧
      (∀ w, wordFin 11 52 r = some w → |w - polynomial vx vc vs| ≤
        ((1 + uro 52) ^ (2 * as.length) - 1) * polynomialSize (ieeeMin 11) vx vc vs) ∧
      ((∀ k ≤ as.length, 0 < k → (1 + uro 52) ^ (2 * k) * polynomialSize (ieeeMin 11) vx vc (vs.take k) ≤ ieeeMax 11 52) →
        ∃ w, wordFin 11 52 r = some w) :=
  soft_horner (soft64_ok hfast) (prodOk64 fast) as vs wx wc hx hc has

/-- `2 x^2 - 3 x + 1` at `x = 3/2` with `float32_t`. -/
example : ∃ r w, hornerWith (f32Mul 64) (f32Add 64) 0x3fc00000 0x40000000 [0xc0400000, 0x3f800000] = some r ∧
    wordFin 8 23 r = some w ∧ |w - 1| ≤ 1 / 2 ^ 18 := by
  obtain ⟨r, hr, -, k1, k2⟩ := C112_soft_horner_error32 (fast := 64) (by norm_num) 0x3fc00000 0x40000000 [0xc0400000, 0x3f800000]
    (3 / 2) 2 [-3, 1] (by norm_num) (by norm_num) (by decide +kernel) (by decide +kernel)
    (.cons (by decide +kernel) (.cons (by decide +kernel) .nil))
  obtain ⟨w, hw⟩ := k2 (by decide +kernel)
  refine ⟨r, w, hr, hw, ?_⟩
  have := k1 w hw
  rw [show polynomial (3 / 2) 2 [-3, 1] = 1 by norm_num [polynomial]] at this
  exact le_trans this (by decide +kernel)

end Thls
