import Verif.SpecExprSoft
import Verif.Props.ExprError
import Verif.Props.LoopMono
import Verif.Proofs.GenHorner

/-! # Property C112: error bounds of arbitrary expressions with the software floating-point types -/

namespace Thls
open Spec SoftFmt

theorem roundStep_gradual {E F : ℕ} (hE : 2 ≤ E) {q v b v' b' : ℚ} {d : Datum} (h : RoundedG0 E F q d) (hq : |q - v| ≤ b)
    (hs : roundStep (uro F) (halfDenorm E F) (ieeeMax E F) v b = some (v', b')) : v' = v ∧ ∃ w, d.fin = some w ∧ |w - v| ≤ b' := by
  unfold roundStep at hs
  split_ifs at hs with ht
  obtain ⟨rfl, rfl⟩ := Prod.mk.inj (Option.some.inj hs)
  have hu := uro_pos F
  have hh := halfDenorm_pos E F
  have hqa : |q| ≤ |v| + b := by
    have := abs_add_le (q - v) v
    rw [sub_add_cancel] at this
    linarith
  have main : ∃ w, d.fin = some w ∧ |w - q| ≤ uro F * |q| + halfDenorm E F := by
    unfold RoundedG0 at h
    by_cases h0 : q = 0
    · rw [if_pos h0] at h
      obtain ⟨s, rfl⟩ := h
      refine ⟨0, rfl, ?_⟩
      rw [h0]; simp; linarith
    · rw [if_neg h0] at h
      obtain ⟨w, hw⟩ := roundedG_finite hE h (by linarith)
      exact ⟨w, hw, roundedG_err h0 h hw⟩
  obtain ⟨w, hw, he⟩ := main
  refine ⟨rfl, w, hw, ?_⟩
  have h1 : uro F * |q| ≤ uro F * (|v| + b) := mul_le_mul_of_nonneg_left hqa hu.le
  have h2 := abs_add_le (w - q) (q - v)
  rw [sub_add_sub_cancel] at h2
  linarith

theorem quotient_fin0 {f : SoftFmt} (ok : f.Ok) {a c : ℕ} {v w : ℚ} {d : Datum} (ha : a < 2 ^ f.W) (hw : w ≠ 0)
    (hv : (wordDatum f.E f.F a).fin = some v) (hc : (wordDatum f.E f.F c).fin = some w)
    (h : IeeeQuotient f.E f.F (wordDatum f.E f.F a) (wordDatum f.E f.F c) d) : RoundedG0 f.E f.F (v / w) d := by
  rcases fin_cases hc with ⟨t, -, e⟩ | e2
  · exact absurd e hw
  unfold RoundedG0
  rcases fin_cases hv with ⟨t, e1, rfl⟩ | e1
  · rw [zero_div, if_pos rfl]
    exact ⟨_, ieeeQuotient_special h (by rw [e1, e2]; rfl)⟩
  · rw [if_neg (div_ne_zero (num_word_ne ok ha e1) hw)]
    rw [e1, e2] at h
    exact h

theorem soft_expression {f : SoftFmt} (ok : f.Ok) {prod : ℕ → ℕ → Option ℕ} (hp : ProdOk f prod) {quot : ℕ → ℕ → Bool × ℕ} (hqt : QuotOk f quot)
    (X : ℕ → ℕ) (ρ β : ℕ → ℚ) (hX : ∀ n, X n < 2 ^ f.W ∧ ∃ x, (wordDatum f.E f.F (X n)).fin = some x ∧ |x - ρ n| ≤ β n) (e : Expr) (he : e.Plain)
    (v b : ℚ) (hb : e.bound (uro f.F) (halfDenorm f.E f.F) (ieeeMax f.E f.F) ρ β = some (v, b)) :
    e.value ρ = some v ∧ ∃ r w, e.computeWords f.add (f.mulWith prod) (f.divWith quot) X = some r ∧ r < 2 ^ f.W ∧
      (wordDatum f.E f.F r).fin = some w ∧ |w - v| ≤ b := by
  have hE : 2 ≤ f.E := by have := ok.hE; omega
  induction e generalizing v b with
  | var n =>
    obtain ⟨rfl, rfl⟩ := Prod.mk.inj (Option.some.inj hb)
    obtain ⟨h0, x, h1, h2⟩ := hX n
    exact ⟨rfl, _, x, rfl, h0, h1, h2⟩
  | neg a iha => exact he.elim
  | sub a b iha ihb => exact he.elim
  | add a b iha ihb =>
    simp only [Expr.bound, Option.bind_eq_bind, Option.bind_eq_some_iff] at hb
    obtain ⟨⟨p, c⟩, hp', ⟨q, d⟩, hq, h⟩ := hb
    obtain ⟨h1, x, s, h2, hv, h3, h4⟩ := iha he.1 p c hp'
    obtain ⟨k1, y, t, k2, kv, k3, k4⟩ := ihb he.2 q d hq
    obtain ⟨r, hr, hrv, hR⟩ := add_ieee ok hv kv
    have hd : |s + t - (p + q)| ≤ c + d := by
      rw [show s + t - (p + q) = (s - p) + (t - q) by ring]
      exact le_trans (abs_add_le _ _) (add_le_add h4 k4)
    obtain ⟨rfl, w, hw, hb⟩ := roundStep_gradual hE (sum_fin ok hv kv h3 k3 hR) hd h
    exact ⟨by simp [Expr.value, h1, k1], r, w, by simp [Expr.computeWords, h2, k2, hr], hrv, hw, hb⟩
  | mul a b iha ihb =>
    simp only [Expr.bound, Option.bind_eq_bind, Option.bind_eq_some_iff] at hb
    obtain ⟨⟨p, c⟩, hp', ⟨q, d⟩, hq, h⟩ := hb
    obtain ⟨h1, x, s, h2, hv, h3, h4⟩ := iha he.1 p c hp'
    obtain ⟨k1, y, t, k2, kv, k3, k4⟩ := ihb he.2 q d hq
    obtain ⟨r, hr, hrv, hR⟩ := mul_ieee ok hp hv kv
    have hd : |s * t - p * q| ≤ |p| * d + |q| * c + c * d := by
      rw [show s * t - p * q = p * (t - q) + q * (s - p) + (s - p) * (t - q) by ring]
      refine le_trans (abs_add_three _ _ _) ?_
      rw [abs_mul, abs_mul, abs_mul]
      have a1 : |p| * |t - q| ≤ |p| * d := mul_le_mul_of_nonneg_left k4 (abs_nonneg _)
      have a2 : |q| * |s - p| ≤ |q| * c := mul_le_mul_of_nonneg_left h4 (abs_nonneg _)
      have a3 : |s - p| * |t - q| ≤ c * d := mul_le_mul h4 k4 (abs_nonneg _) (le_trans (abs_nonneg _) h4)
      linarith
    obtain ⟨rfl, w, hw, hb⟩ := roundStep_gradual hE (product_fin0 ok hv kv h3 k3 hR) hd h
    exact ⟨by simp [Expr.value, h1, k1], r, w, by simp [Expr.computeWords, h2, k2, hr], hrv, hw, hb⟩
  | div a b iha ihb =>
    simp only [Expr.bound, Option.bind_eq_bind, Option.bind_eq_some_iff, Option.ite_none_right_eq_some] at hb
    obtain ⟨⟨p, c⟩, hp', ⟨q, d⟩, hq, hc, h⟩ := hb
    obtain ⟨h1, x, s, h2, hv, h3, h4⟩ := iha he.1 p c hp'
    obtain ⟨k1, y, t, k2, kv, k3, k4⟩ := ihb he.2 q d hq
    simp only at hc
    have hd0 : 0 ≤ d := le_trans (abs_nonneg _) k4
    have hq0 : 0 < |q| := lt_of_le_of_lt hd0 hc
    have hta : |q| - d ≤ |t| := by
      have := abs_sub_abs_le_abs_sub q t
      rw [abs_sub_comm q t] at this
      linarith
    have ht0 : 0 < |t| := by linarith
    have ht : t ≠ 0 := abs_pos.mp ht0
    have hqn : q ≠ 0 := abs_pos.mp hq0
    obtain ⟨r, hr, hrv, hR⟩ := div_ieee ok hqt hv kv
    have hd : |s / t - p / q| ≤ (|p| * d + |q| * c) / (|q| * (|q| - d)) := by
      rw [show s / t - p / q = (q * (s - p) - p * (t - q)) / (q * t) by field_simp; ring, abs_div, abs_mul q t]
      have a1 : |p| * |t - q| ≤ |p| * d := mul_le_mul_of_nonneg_left k4 (abs_nonneg _)
      have a2 : |q| * |s - p| ≤ |q| * c := mul_le_mul_of_nonneg_left h4 (abs_nonneg _)
      refine div_le_div₀ ?_ ?_ (by apply mul_pos hq0; linarith) (mul_le_mul_of_nonneg_left hta hq0.le)
      · have := mul_nonneg (abs_nonneg p) hd0
        have := mul_nonneg (abs_nonneg q) (le_trans (abs_nonneg _) h4)
        linarith
      · refine le_trans (abs_sub _ _) ?_
        rw [abs_mul, abs_mul]
        linarith
    obtain ⟨rfl, w, hw, hb⟩ := roundStep_gradual hE (quotient_fin0 ok hv ht h3 k3 hR) hd h
    exact ⟨by simp [Expr.value, h1, k1, hqn], r, w, by simp [Expr.computeWords, h2, k2, hr], hrv, hw, hb⟩

/-- **C112, expressions with `float32_t`.** For every expression of sums, products and quotients, of any size, over inputs that are within `β n` of the
real numbers `ρ n`, denormals included: if the textbook bound exists, so does the exact value, the computation returns a finite word, and that is
within the bound of the exact value. Gradual underflow costs half the least denormal number per operation. -/
theorem C112_soft_expression_error32 {fast : ℕ} (hfast : 32 ≤ fast) (X : ℕ → ℕ) (ρ β : ℕ → ℚ)
    (hX : ∀ n, X n < 2 ^ 32 ∧ ∃ x, (wordDatum 8 23 (X n)).fin = some x ∧ |x - ρ n| ≤ β n) (e : Expr) (he : e.Plain)
    (v b : ℚ) (hb : e.bound (uro 23) (halfDenorm 8 23) (ieeeMax 8 23) ρ β = some (v, b)) :
    e.value ρ = some v ∧ ∃ r w, e.computeWords (f32Add fast) (f32Mul fast) (f32Div fast) X = some r ∧ r < 2 ^ 32 ∧
      (wordDatum 8 23 r).fin = some w ∧ |w - v| ≤ b :=
  soft_expression (soft32_ok hfast) (prodOk32 fast) (quotOk32 fast) X ρ β hX e he v b hb

/-- **C112, expressions with `float64_t`.** -/
theorem C112_soft_expression_error64 {fast : ℕ} (hfast : 64 ≤ fast) (X : ℕ → ℕ) (ρ β : ℕ → ℚ)
    (hX : ∀ n, X n < 2 ^ 64 ∧ ∃ x, (wordDatum 11 52 (X n)).fin = some x ∧ |x - ρ n| ≤ β n) (e : Expr) (he : e.Plain)
    (v b : ℚ) (hb : e.bound (uro 52) (halfDenorm 11 52) (ieeeMax 11 52) ρ β = some (v, b)) :
    e.value ρ = some v ∧ ∃ r w, e.computeWords (f64Add fast) (f64Mul fast) (f64Div fast) X = some r ∧ r < 2 ^ 64 ∧
      (wordDatum 11 52 r).fin = some w ∧ |w - v| ≤ b :=
  soft_expression (soft64_ok hfast) (prodOk64 fast) (quotOk64 fast) X ρ β hX e he v b hb

/-- `x*x/y + x` with `float32_t` at `x = 3/2`, `y = 5`: the bound exists, and the computed number is within `2^-22` of `39/20`. -/
example : ∃ r w, (Expr.add (.div (.mul (.var 0) (.var 0)) (.var 1)) (.var 0)).computeWords (f32Add 32) (f32Mul 32) (f32Div 32)
      (fun n => if n = 0 then 0x3FC00000 else 0x40A00000) = some r ∧
    (wordDatum 8 23 r).fin = some w ∧ |w - 39 / 20| ≤ 1 / 2 ^ 22 := by
  have h1 : wordDatum 8 23 0x3FC00000 = .num (3 / 2) := by decide +kernel
  have h2 : wordDatum 8 23 0x40A00000 = .num 5 := by decide +kernel
  have hb : ∃ b, (Expr.add (.div (.mul (.var 0) (.var 0)) (.var 1)) (.var 0)).bound (uro 23) (halfDenorm 8 23) (ieeeMax 8 23)
      (fun n => if n = 0 then 3 / 2 else 5) (fun _ => 0) = some (39 / 20, b) ∧ b ≤ 1 / 2 ^ 22 := by
    refine ⟨((Expr.add (.div (.mul (.var 0) (.var 0)) (.var 1)) (.var 0)).bound (uro 23) (halfDenorm 8 23) (ieeeMax 8 23)
      (fun n => if n = 0 then 3 / 2 else 5) (fun _ => 0)).get!.2, ?_, ?_⟩ <;> decide +kernel
  obtain ⟨b, hb, hb'⟩ := hb
  obtain ⟨-, r, w, h3, -, h4, h5⟩ := C112_soft_expression_error32 (fast := 32) le_rfl
    (fun n => if n = 0 then 0x3FC00000 else 0x40A00000) _ _ (by
      intro n
      by_cases hn : n = 0
      · simp only [if_pos hn, h1]; exact ⟨by norm_num, _, rfl, by simp⟩
      · simp only [if_neg hn, h2]; exact ⟨by norm_num, _, rfl, by simp⟩) _ (by simp [Expr.Plain]) _ _ hb
  exact ⟨r, w, h3, h4, le_trans h5 hb'⟩

end Thls
