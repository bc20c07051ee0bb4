import Verif.Props.Monomial
import Verif.Proofs.GenHorner

/-! # Property C114: products in any order and bracketing with the software floating-point types -/

namespace Thls
open Spec

theorem uro_lt_one (F : ℕ) : uro F < 1 := by
  unfold uro
  exact zpow_lt_one_of_neg₀ (by norm_num) (by omega)

/-- A rounded result that is normal is the exact value up to a factor of `1 / (1 - u)`. -/
theorem near_of_normal {E F : ℕ} {q w : ℚ} {d : Datum} (hq : q ≠ 0) (h : RoundedGradual E F q d) (hs : d.fin = some w) (hn : ieeeMin E ≤ |w|) :
    NearOne (1 / (1 - uro F)) (w / q) := by
  have hu := uro_pos F
  have hu1 := uro_lt_one F
  have hm : 0 < ieeeMin E := two_zpow_pos _
  have hw : w ≠ 0 := by rintro rfl; rw [abs_zero] at hn; linarith
  have hd : 0 < 1 - uro F := by linarith
  unfold NearOne
  rw [one_div_one_div]
  rcases le_or_gt (ieeeMin E) |q| with hc | hc
  · have h1 := roundedG_err_normal hc h hs
    have h2 : |w / q - 1| ≤ uro F := by
      rw [show w / q - 1 = (w - q) / q by field_simp, abs_div, div_le_iff₀ (abs_pos.mpr hq)]; exact h1
    have h3 := abs_le.mp h2
    refine ⟨by linarith, ?_⟩
    rw [le_div_iff₀ hd]
    nlinarith
  · obtain ⟨m, e, k1, k2⟩ := roundedG_fin h hs
    have h1 := gradual_err_tiny (abs_pos.mpr hq) hc k1
    rw [← k2] at h1
    have h0 : halfDenorm E F = uro F * ieeeMin E := by rw [← halfDenorm_uro E F]; field_simp
    have h2 : |q / w - 1| ≤ uro F := by
      rw [show q / w - 1 = -((w - q) / w) by field_simp; ring, abs_neg, abs_div, div_le_iff₀ (abs_pos.mpr hw)]
      exact h1.trans (h0.le.trans (mul_le_mul_of_nonneg_left hn hu.le))
    have h3 := abs_le.mp h2
    have h4 : 0 < q / w := by linarith
    rw [show w / q = 1 / (q / w) by field_simp]
    refine ⟨?_, one_div_le_one_div_of_le hd (by linarith)⟩
    rw [le_div_iff₀ h4]
    nlinarith

theorem soft_product_schedule {f : SoftFmt} (ok : f.Ok) {prod : ℕ → ℕ → Option ℕ} (hp : f.ProdOk prod) (t : AddTree ℕ) (v : ℕ → ℚ)
    (hw : ∀ x ∈ t.leaves, x < 2 ^ f.W) (hx : ∀ x ∈ t.leaves, wordFin f.E f.F x = some (v x) ∧ v x ≠ 0)
    (hn : ∀ p ∈ t.partials (f.mulWith prod), ∃ r s, p = some r ∧ wordFin f.E f.F r = some s ∧ ieeeMin f.E ≤ |s|) :
    ∃ r s, t.compute (f.mulWith prod) = some r ∧ r < 2 ^ f.W ∧ wordFin f.E f.F r = some s ∧
      (1 - uro f.F) ^ (t.leaves.length - 1) ≤ s / (t.leaves.map v).prod ∧
      s / (t.leaves.map v).prod ≤ 1 / (1 - uro f.F) ^ (t.leaves.length - 1) := by
  have hd : 0 < 1 - uro f.F := by have := uro_lt_one f.F; linarith
  have hm : 0 < ieeeMin f.E := two_zpow_pos _
  suffices h : ∃ r s, t.compute (f.mulWith prod) = some r ∧ r < 2 ^ f.W ∧ wordFin f.E f.F r = some s ∧ s ≠ 0 ∧ (t.leaves.map v).prod ≠ 0 ∧
      1 ≤ t.leaves.length ∧ NearOne ((1 / (1 - uro f.F)) ^ (t.leaves.length - 1)) (s / (t.leaves.map v).prod) by
    obtain ⟨r, s, h1, h2, h3, -, -, -, h4, h5⟩ := h
    rw [one_div_pow] at h4 h5
    rw [one_div_one_div] at h4
    exact ⟨r, s, h1, h2, h3, h4, h5⟩
  induction t with
  | leaf x =>
    have h1 := hw x (by simp [AddTree.leaves])
    obtain ⟨h2, h3⟩ := hx x (by simp [AddTree.leaves])
    refine ⟨x, v x, rfl, h1, h2, h3, ?_, ?_, ?_⟩ <;> simp [AddTree.leaves, h3, NearOne]
  | node l r hl hr =>
    simp only [AddTree.leaves, AddTree.partials, List.mem_append, List.mem_singleton] at hw hx hn
    obtain ⟨x, p, h1, h2, h3, h4, h5, h6, h7⟩ := hl (fun x hm => hw x (Or.inl hm)) (fun x hm => hx x (Or.inl hm))
      (fun x hm => hn x (Or.inl (Or.inl hm)))
    obtain ⟨y, q, k1, k2, k3, k4, k5, k6, k7⟩ := hr (fun x hm => hw x (Or.inr hm)) (fun x hm => hx x (Or.inr hm))
      (fun x hm => hn x (Or.inl (Or.inr hm)))
    obtain ⟨z, z1, z2, z3⟩ := SoftFmt.mul_ieee ok hp h2 k2
    have hz : (AddTree.node l r).compute (f.mulWith prod) = some z := by simp [AddTree.compute, h1, k1, z1]
    obtain ⟨z', s, e1, e2, e3⟩ := hn _ (Or.inr rfl)
    obtain rfl := Option.some.inj (hz.symm.trans e1)
    have hs0 : s ≠ 0 := by rintro rfl; rw [abs_zero] at e3; linarith
    have hround : RoundedGradual f.E f.F (p * q) (wordDatum f.E f.F z) := by
      have dx : wordDatum f.E f.F x = .num p := by
        rcases SoftFmt.fin_cases h3 with ⟨-, -, h⟩ | h
        · exact absurd h h4
        · exact h
      have dy : wordDatum f.E f.F y = .num q := by
        rcases SoftFmt.fin_cases k3 with ⟨-, -, h⟩ | h
        · exact absurd h k4
        · exact h
      rw [dx, dy] at z3
      exact z3
    have hnear := near_of_normal (mul_ne_zero h4 k4) hround e2 e3
    simp only [AddTree.leaves, List.map_append, List.prod_append, List.length_append]
    refine ⟨z, s, hz, z2, e2, hs0, mul_ne_zero h5 k5, by omega, ?_⟩
    have hg : 0 < 1 / (1 - uro f.F) := by positivity
    have := (NearOne.mul (by positivity) hg (NearOne.mul (by positivity) (by positivity) h7 k7) hnear)
    rw [← pow_add, ← pow_succ, show l.leaves.length - 1 + (r.leaves.length - 1) + 1 = l.leaves.length + r.leaves.length - 1 by omega] at this
    generalize (l.leaves.map v).prod = A at *
    generalize (r.leaves.map v).prod = B at *
    rwa [show p / A * (q / B) * (s / (p * q)) = s / (A * B) by field_simp] at this

/-- **C114, products with `float32_t`.** If no result of any multiplication is below the normal range or overflows, the product of any
numbers (denormal ones included) scheduled in any way is exact up to a factor of `1 / (1-u)^(n-1)`. -/
theorem C114_soft_product_schedule32 {fast : ℕ} (hfast : 32 ≤ fast) (t : AddTree ℕ) (v : ℕ → ℚ) (hw : ∀ x ∈ t.leaves, x < 2 ^ 32)
    (hx : ∀ x ∈ t.leaves, wordFin 8 23 x = some (v x) ∧ v x ≠ 0)
    (hn : ∀ p ∈ t.partials (f32Mul fast), ∃ r s, p = some r ∧ wordFin 8 23 r = some s ∧ ieeeMin 8 ≤ |s|) :
    ∃ r s, t.compute (f32Mul fast) = some r ∧ r < 2 ^ 32 ∧ wordFin 8 23 r = some s ∧
      (1 - uro 23) ^ (t.leaves.length - 1) ≤ s / (t.leaves.map v).prod ∧
      s / (t.leaves.map v).prod ≤ 1 / (1 - uro 23) ^ (t.leaves.length - 1) :=
  soft_product_schedule (soft32_ok hfast) (prodOk32 fast) t v hw hx hn

/-- **C114, products with `float64_t`.** -/
theorem C114_soft_product_schedule64 {fast : ℕ} (hfast : 64 ≤ fast) (t : AddTree ℕ) (v : ℕ → ℚ) (hw : ∀ x ∈ t.leaves, x < 2 ^ 64)
    (hx : ∀ x ∈ t.leaves, wordFin 11 52 x = some (v x) ∧ v x ≠ 0)
    (hn : ∀ p ∈ t.partials (f64Mul fast), ∃ r s, p = some r ∧ wordFin 11 52 r = some s ∧ ieeeMin 11 ≤ |s|) :
    ∃ r s, t.compute (f64Mul fast) = some r ∧ r < 2 ^ 64 ∧ wordFin 11 52 r = some s ∧
      (1 - uro 52) ^ (t.leaves.length - 1) ≤ s / (t.leaves.map v).prod ∧
      s / (t.leaves.map v).prod ≤ 1 / (1 - uro 52) ^ (t.leaves.length - 1) :=
  soft_product_schedule (soft64_ok hfast) (prodOk64 fast) t v hw hx hn

/-- `(3/2 * 2) * -3` with `float32_t` meets the hypotheses. -/
example : ∃ r s, (AddTree.node (.node (.leaf 0x3fc00000) (.leaf 0x40000000)) (.leaf 0xc0400000)).compute (f32Mul 64) = some r ∧
    wordFin 8 23 r = some s := by
  have hp : (AddTree.node (.node (.leaf 0x3fc00000) (.leaf 0x40000000)) (.leaf 0xc0400000)).partials (f32Mul 64) =
      [some 0x40400000, some 0xc1100000] := by decide +kernel
  obtain ⟨r, s, h1, -, h2, -⟩ := C114_soft_product_schedule32 (fast := 64) (by norm_num)
    (.node (.node (.leaf 0x3fc00000) (.leaf 0x40000000)) (.leaf 0xc0400000)) (fun x => (wordFin 8 23 x).getD 0)
    (by decide +kernel) (by decide +kernel) (by
      rw [hp]
      intro p hm
      simp only [List.mem_cons, List.not_mem_nil, or_false] at hm
      rcases hm with rfl | rfl
      · exact ⟨_, 3, rfl, by decide +kernel, by decide +kernel⟩
      · exact ⟨_, -9, rfl, by decide +kernel, by decide +kernel⟩)
  exact ⟨r, s, h1, h2⟩

end Thls
