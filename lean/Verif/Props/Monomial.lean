import Verif.SpecMonomial
import Verif.Props.ExprError
import Verif.Props.TreeSum
import Verif.Props.Algebra

/-! # Property C114: products and quotients in any order and bracketing -/

namespace Thls
open Spec

variable {E F : ℕ}

/-- The distance to the nearest number is at most half a unit of the last place of that number. -/
theorem nearest_err_result {F m : ℕ} {e : ℤ} {a : ℚ} (ha : 0 < a) (h : NearestEven (F + 1) a m e) : |a - m * 2 ^ e| ≤ uro F * (m * 2 ^ e) := by
  have hu := uro_pos F
  have h0 := nearest_err ha h
  by_cases hw : a ≤ m * 2 ^ e
  · exact h0.trans (mul_le_mul_of_nonneg_left hw hu.le)
  · push Not at hw
    obtain ⟨n1, n2, -⟩ := Mpfr.succSig_spec (by omega) e h.1
    have h2 := h.2.1 _ (Mpfr.succSig (F + 1) m e).2 n1
    rw [n2] at h2
    have h3 := sig_lower h.1 e
    have h4 : uro F * (2 : ℚ) ^ (e + F) = 2 ^ e / 2 := by
      unfold uro
      rw [← zpow_add₀ (by norm_num), show -(F : ℤ) - 1 + (e + F) = e - 1 by ring, zpow_sub₀ (by norm_num), zpow_one]
    have h5 := mul_le_mul_of_nonneg_left h3 hu.le
    have h6 := two_zpow_pos e
    generalize (2 : ℚ) ^ e = z at *
    rw [abs_of_pos (by linarith)] at h2 ⊢
    rcases le_total a ((m + 1) * z) with h7 | h7
    · rw [abs_of_nonpos (by linarith)] at h2; linarith
    · rw [abs_of_nonneg (by linarith)] at h2; linarith

/-- `x` is `1` up to a factor of at most `g`. -/
def NearOne (g x : ℚ) : Prop := 1 / g ≤ x ∧ x ≤ g

theorem NearOne.mul {g h x y : ℚ} (hg : 0 < g) (hh : 0 < h) (hx : NearOne g x) (hy : NearOne h y) : NearOne (g * h) (x * y) := by
  have h1 : 0 < 1 / g := by positivity
  have h2 : 0 < 1 / h := by positivity
  refine ⟨?_, mul_le_mul hx.2 hy.2 (h2.le.trans hy.1) hg.le⟩
  rw [show 1 / (g * h) = 1 / g * (1 / h) by field_simp]
  exact mul_le_mul hx.1 hy.1 h2.le (h1.le.trans hx.1)

theorem NearOne.inv {g x : ℚ} (hg : 0 < g) (hx : NearOne g x) : NearOne g x⁻¹ := by
  have h1 : 0 < 1 / g := by positivity
  have h0 : 0 < x := lt_of_lt_of_le h1 hx.1
  refine ⟨?_, ?_⟩
  · rw [one_div]; exact inv_anti₀ h0 hx.2
  · have := inv_anti₀ h1 hx.1
    rwa [one_div, inv_inv] at this

theorem rounded_near {q w : ℚ} (hq : q ≠ 0) (h : Rounded E F q (.num w)) : NearOne (1 + uro F) (w / q) := by
  have hu := uro_pos F
  obtain ⟨m, e, hn, he⟩ := h
  have ha := nearest_err (abs_pos.mpr hq) hn
  have hb := nearest_err_result (abs_pos.mpr hq) hn
  have hqp := abs_pos.mpr hq
  have hw : w = (if decide (q < 0) then -1 else 1) * (m * 2 ^ e) := by
    rcases rangeCheck_fin (s := w) (by rw [← he]; rfl) with ⟨h1, -⟩ | ⟨-, -, h2⟩
    · unfold rangeCheck at he
      rw [if_pos h1] at he; cases he
    · exact h2
  have hr : w / q = m * 2 ^ e / |q| := by
    rw [hw]
    by_cases hneg : q < 0
    · simp only [hneg, decide_true, if_true]; rw [abs_of_neg hneg]; field_simp
    · simp only [hneg, decide_false]; rw [abs_of_nonneg (not_lt.mp hneg)]; simp
  rw [hr]
  have a1 := abs_le.mp ha
  have b1 := abs_le.mp hb
  refine ⟨?_, ?_⟩
  · rw [div_le_div_iff₀ (by linarith) hqp]; linarith
  · rw [div_le_iff₀ hqp]; linarith

/-- A product that is a nonzero number has operands that are. -/
theorem mul_num_operands (hE : 2 ≤ E) (hF : 1 ≤ F) {x y r : Fp E F} {w : ℚ} (hr : mulV1 E F x y = some r) (hw : r.datum = .num w) :
    ∃ p q, x.datum = .num p ∧ y.datum = .num q := by
  have sp : ∀ d, mulSpecial x.datum y.datum = some d → r.datum = d := fun d hd => C12_mul_exceptions (by omega) hF (by omega) _ _ _ hr _ hd
  cases dx : x.datum <;> cases dy : y.datum <;> rw [dx, dy] at sp <;>
    first
    | exact ⟨_, _, rfl, rfl⟩
    | (rw [sp _ rfl] at hw; cases hw)

theorem div_num_operands (hE : 2 ≤ E) (hF : 1 ≤ F) {x y : Fp E F} {w : ℚ} (hw : (divV1 E F x y).datum = .num w) :
    ∃ p q, x.datum = .num p ∧ y.datum = .num q := by
  have sp : ∀ d, divSpecial x.datum y.datum = some d → (divV1 E F x y).datum = d := fun d hd =>
    C22_div_exceptions (by omega) hF (by omega) hF ⟨le_rfl, le_rfl⟩ ⟨le_rfl, le_rfl⟩ _ _ _ hd
  cases dx : x.datum <;> cases dy : y.datum <;> rw [dx, dy] at sp <;>
    first
    | exact ⟨_, _, rfl, rfl⟩
    | (rw [sp _ rfl] at hw; cases hw)

theorem mul_near (hE : 2 ≤ E) (hF : 1 ≤ F) {x y r : Fp E F} {p q w : ℚ} (hx : x.datum = .num p) (hy : y.datum = .num q)
    (hr : mulV1 E F x y = some r) (hw : r.datum = .num w) : NearOne (1 + uro F) (w / (p * q)) := by
  obtain ⟨r', h1, h2⟩ := C10_mul_correctly_rounded hE hF hF hF (by omega) x y p q hx hy
  obtain rfl := Option.some.inj (h1.symm.trans hr)
  rw [hw] at h2
  exact rounded_near (mul_ne_zero (num_ne_zero hx) (num_ne_zero hy)) h2

theorem div_near (hE : 2 ≤ E) (hF : 1 ≤ F) {x y : Fp E F} {p q w : ℚ} (hx : x.datum = .num p) (hy : y.datum = .num q)
    (hw : (divV1 E F x y).datum = .num w) : NearOne (1 + uro F) (w / (p / q)) := by
  have h2 := C20_div_correctly_rounded hE (by omega) hF (by omega) hF ⟨le_rfl, le_rfl⟩ ⟨le_rfl, le_rfl⟩ x y p q hx hy
  rw [hw] at h2
  exact rounded_near (div_ne_zero (num_ne_zero hx) (num_ne_zero hy)) h2

/-- **C114.** Any expression of products, quotients and negations returns a result, and if that is a number other than zero, then no input
was a zero, an infinity or a NaN, no division was by zero, and the result is the exact value up to a factor of `(1+u)^k`, where `k` is the
number of multiplications and divisions: in particular nothing was lost to underflow or overflow on the way, and the sign is right. -/
theorem C114_monomial_error (hE : 2 ≤ E) (hF : 1 ≤ F) (e : Expr) (hm : e.IsMonomial) (X : ℕ → Fp E F) :
    ∃ r, e.compute X = some r ∧ ∀ w, r.datum = .num w →
      (∀ n ∈ e.vars, ∃ q, (X n).datum = .num q) ∧
      ∀ ρ : ℕ → ℚ, (∀ n ∈ e.vars, (X n).datum = .num (ρ n)) →
        ∃ v, e.value ρ = some v ∧ v ≠ 0 ∧ 1 / (1 + uro F) ^ e.roundings ≤ w / v ∧ w / v ≤ (1 + uro F) ^ e.roundings := by
  have hu : 0 < 1 + uro F := by have := uro_pos F; linarith
  induction e with
  | var n =>
    refine ⟨X n, rfl, fun w hw => ⟨fun k hk => ?_, fun ρ hρ => ⟨ρ n, rfl, ?_, ?_⟩⟩⟩
    · rw [List.mem_singleton.mp hk]; exact ⟨w, hw⟩
    · exact num_ne_zero (hρ n (by simp [Expr.vars]))
    · have h1 := hρ n (by simp [Expr.vars])
      have h2 := num_ne_zero h1
      rw [hw] at h1
      rw [Datum.num.inj h1, div_self h2]
      simp [Expr.roundings]
  | neg a iha =>
    obtain ⟨x, hx, h⟩ := iha hm
    refine ⟨negV1 E F x, by simp [Expr.compute, hx], fun w hw => ?_⟩
    rw [C27_neg_datum (by omega) hF] at hw
    have hxw : x.datum = .num (-w) := by
      revert hw
      cases x.datum <;> simp [Datum.neg]
      rintro rfl; ring
    obtain ⟨h1, h2⟩ := h _ hxw
    refine ⟨h1, fun ρ hρ => ?_⟩
    obtain ⟨v, k1, k2, k3⟩ := h2 ρ hρ
    refine ⟨-v, by simp [Expr.value, k1], neg_ne_zero.mpr k2, ?_⟩
    rwa [show w / -v = -w / v by rw [div_neg, neg_div]]
  | add a b _ _ => exact hm.elim
  | sub a b _ _ => exact hm.elim
  | mul a b iha ihb =>
    obtain ⟨x, hx, ha⟩ := iha hm.1
    obtain ⟨y, hy, hb⟩ := ihb hm.2
    obtain ⟨r, hr⟩ := mulSame_total (by omega) x y
    refine ⟨r, by simp [Expr.compute, hx, hy, hr], fun w hw => ?_⟩
    obtain ⟨p, q, hp, hq⟩ := mul_num_operands hE hF hr hw
    obtain ⟨a1, a2⟩ := ha _ hp
    obtain ⟨b1, b2⟩ := hb _ hq
    have hn := mul_near hE hF hp hq hr hw
    refine ⟨fun n hn => (List.mem_append.mp hn).elim (a1 n) (b1 n), fun ρ hρ => ?_⟩
    obtain ⟨v, v1, v2, v3⟩ := a2 ρ fun n hn => hρ n (List.mem_append.mpr (Or.inl hn))
    obtain ⟨z, z1, z2, z3⟩ := b2 ρ fun n hn => hρ n (List.mem_append.mpr (Or.inr hn))
    have hp0 := num_ne_zero hp
    have hq0 := num_ne_zero hq
    refine ⟨v * z, by simp [Expr.value, v1, z1], mul_ne_zero v2 z2, ?_⟩
    have := (NearOne.mul (by positivity) (by positivity) (NearOne.mul (by positivity) (by positivity) v3 z3) hn)
    rw [← pow_add, ← pow_succ] at this
    rwa [show p / v * (q / z) * (w / (p * q)) = w / (v * z) by field_simp] at this
  | div a b iha ihb =>
    obtain ⟨x, hx, ha⟩ := iha hm.1
    obtain ⟨y, hy, hb⟩ := ihb hm.2
    refine ⟨divV1 E F x y, by simp [Expr.compute, hx, hy], fun w hw => ?_⟩
    obtain ⟨p, q, hp, hq⟩ := div_num_operands hE hF hw
    obtain ⟨a1, a2⟩ := ha _ hp
    obtain ⟨b1, b2⟩ := hb _ hq
    have hn := div_near hE hF hp hq hw
    refine ⟨fun n hn => (List.mem_append.mp hn).elim (a1 n) (b1 n), fun ρ hρ => ?_⟩
    obtain ⟨v, v1, v2, v3⟩ := a2 ρ fun n hn => hρ n (List.mem_append.mpr (Or.inl hn))
    obtain ⟨z, z1, z2, z3⟩ := b2 ρ fun n hn => hρ n (List.mem_append.mpr (Or.inr hn))
    have hp0 := num_ne_zero hp
    have hq0 := num_ne_zero hq
    refine ⟨v / z, by simp [Expr.value, v1, z1, z2], div_ne_zero v2 z2, ?_⟩
    have := (NearOne.mul (by positivity) (by positivity) (NearOne.mul (by positivity) (by positivity) v3 (NearOne.inv (by positivity) z3)) hn)
    rw [← pow_add, ← pow_succ] at this
    rwa [show p / v * (q / z)⁻¹ * (w / (p / q)) = w / (v / z) by field_simp] at this

/-- **C114, products.** The product of any numbers scheduled in any way: it returns a result, and if that is a number other than zero, it is
the exact product up to a factor of `(1+u)^(n-1)`, whatever the schedule. -/
theorem C114_product_schedule (hE : 2 ≤ E) (hF : 1 ≤ F) (t : AddTree (Fp E F)) :
    ∃ r, t.compute (mulV1 E F) = some r ∧ ∀ w, r.datum = .num w → ∃ v : Fp E F → ℚ, (∀ x ∈ t.leaves, x.datum = .num (v x)) ∧
      1 / (1 + uro F) ^ (t.leaves.length - 1) ≤ w / (t.leaves.map v).prod ∧
      w / (t.leaves.map v).prod ≤ (1 + uro F) ^ (t.leaves.length - 1) := by
  have hu : 0 < 1 + uro F := by have := uro_pos F; linarith
  suffices h : ∃ r, t.compute (mulV1 E F) = some r ∧ ∀ w, r.datum = .num w →
      (∀ x ∈ t.leaves, x.datum = .num ((x.datum.fin).getD 0)) ∧ (t.leaves.map fun x => (x.datum.fin).getD 0).prod ≠ 0 ∧ 1 ≤ t.leaves.length ∧
      NearOne ((1 + uro F) ^ (t.leaves.length - 1)) (w / (t.leaves.map fun x => (x.datum.fin).getD 0).prod) by
    obtain ⟨r, hr, h⟩ := h
    refine ⟨r, hr, fun w hw => ?_⟩
    obtain ⟨h1, -, -, h2⟩ := h w hw
    exact ⟨_, h1, h2⟩
  induction t with
  | leaf x =>
    refine ⟨x, rfl, fun w hw => ?_⟩
    have := num_ne_zero hw
    refine ⟨?_, ?_, ?_, ?_⟩ <;> simp [AddTree.leaves, hw, Datum.fin, this, NearOne]
  | node l r hl hr =>
    obtain ⟨x, hx, ha⟩ := hl
    obtain ⟨y, hy, hb⟩ := hr
    obtain ⟨z, hz⟩ := mulSame_total (by omega) x y
    refine ⟨z, by simp [AddTree.compute, hx, hy, hz], fun w hw => ?_⟩
    obtain ⟨p, q, hp, hq⟩ := mul_num_operands hE hF hz hw
    obtain ⟨a1, a2, a3, a4⟩ := ha _ hp
    obtain ⟨b1, b2, b3, b4⟩ := hb _ hq
    have hn := mul_near hE hF hp hq hz hw
    have hp0 := num_ne_zero hp
    have hq0 := num_ne_zero hq
    simp only [AddTree.leaves, List.map_append, List.prod_append, List.length_append]
    refine ⟨fun n hn => (List.mem_append.mp hn).elim (a1 n) (b1 n), mul_ne_zero a2 b2, by omega, ?_⟩
    have := (NearOne.mul (by positivity) (by positivity) (NearOne.mul (by positivity) (by positivity) a4 b4) hn)
    rw [← pow_add, ← pow_succ, show l.leaves.length - 1 + (r.leaves.length - 1) + 1 = l.leaves.length + r.leaves.length - 1 by omega] at this
    generalize (l.leaves.map fun x => (x.datum.fin).getD 0).prod = A at *
    generalize (r.leaves.map fun x => (x.datum.fin).getD 0).prod = B at *
    rwa [show p / A * (q / B) * (w / (p * q)) = w / (A * B) by field_simp] at this

/-- **C114, gradual underflow.** The software types do not have this property: `3 * 2^-149` times one half is a number other than zero, but
a third more than the exact product. -/
theorem C114_soft_underflow : ∃ x y r a b w, f32Mul 64 x y = some r ∧ wordFin 8 23 x = some a ∧ wordFin 8 23 y = some b ∧
    wordFin 8 23 r = some w ∧ w ≠ 0 ∧ w / (a * b) = 4 / 3 :=
  ⟨3, 0x3f000000, 2, 3 * 2 ^ (-149 : ℤ), 1 / 2, 2 * 2 ^ (-149 : ℤ), by decide +kernel, by decide +kernel, by decide +kernel, by decide +kernel,
    by norm_num, by norm_num⟩

/-- `(3/2 * 2) / (-3) * 2` in single precision meets the hypotheses, and the result is a number. -/
example : ∃ r w, (Expr.mul (.div (.mul (.var 0) (.var 1)) (.neg (.var 2))) (.var 1)).compute
    (fun n => if n = 0 then Fp.mk4 8 23 1 0 127 (2 ^ 22) else if n = 1 then Fp.mk4 8 23 1 0 128 0 else Fp.mk4 8 23 1 0 128 (2 ^ 22)) = some r ∧
    r.datum = .num w ∧ ∃ q, (Fp.mk4 8 23 1 0 127 (2 ^ 22)).datum = .num q := by
  have h := C114_monomial_error (E := 8) (F := 23) (by norm_num) (by norm_num)
    (Expr.mul (.div (.mul (.var 0) (.var 1)) (.neg (.var 2))) (.var 1)) ⟨⟨⟨trivial, trivial⟩, trivial⟩, trivial⟩
    (fun n => if n = 0 then Fp.mk4 8 23 1 0 127 (2 ^ 22) else if n = 1 then Fp.mk4 8 23 1 0 128 0 else Fp.mk4 8 23 1 0 128 (2 ^ 22))
  obtain ⟨r, hr, h⟩ := h
  have hw : (Expr.mul (.div (.mul (.var 0) (.var 1)) (.neg (.var 2))) (.var 1)).compute
    (fun n => if n = 0 then Fp.mk4 8 23 1 0 127 (2 ^ 22) else if n = 1 then Fp.mk4 8 23 1 0 128 0 else Fp.mk4 8 23 1 0 128 (2 ^ 22)) =
      some (Fp.mk4 8 23 1 1 128 0) := by decide +kernel
  obtain rfl := Option.some.inj (hr.symm.trans hw)
  exact ⟨_, -2, hr, by decide +kernel, (h (-2) (by decide +kernel)).1 0 (by decide)⟩

/-- `(3/2 * 2) * (3/2 * -3)` meets the hypotheses of the theorem about products, and the result is a number. -/
example : ∃ r w, (AddTree.node (.node (.leaf (Fp.mk4 8 23 1 0 127 (2 ^ 22))) (.leaf (Fp.mk4 8 23 1 0 128 0)))
    (.node (.leaf (Fp.mk4 8 23 1 0 127 (2 ^ 22))) (.leaf (Fp.mk4 8 23 1 1 128 (2 ^ 22))))).compute (mulV1 8 23) = some r ∧
    r.datum = .num w :=
  ⟨Fp.mk4 8 23 1 1 130 (11 * 2 ^ 19 + 0 * 2 ^ 18), -(27 / 2), by decide +kernel, by decide +kernel⟩

end Thls
