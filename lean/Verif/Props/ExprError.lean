import Verif.SpecExpr
import Verif.Props.Thresholds
import Verif.Props.Loops
import Verif.Proofs.SoftLoops

/-! # Property C112: error bounds of arbitrary expressions -/

namespace Thls
open Spec

variable {E F : ℕ}

/-- A rounding that cannot overflow gives a number or a zero within the bound. -/
theorem roundStep_sound (hF : 1 ≤ F) {q v b v' b' : ℚ} {d : Datum} (h : Rounded0 E F q d) (hq : |q - v| ≤ b)
    (hs : roundStep (uro F) (minPos E) (overflowAt E F) v b = some (v', b')) : v' = v ∧ ∃ w, d.fin = some w ∧ |w - v| ≤ b' := by
  unfold roundStep at hs
  split_ifs at hs with ht
  obtain ⟨rfl, rfl⟩ := Prod.mk.inj (Option.some.inj hs)
  have hu := uro_pos F
  have hqa : |q| ≤ |v| + b := by
    have := abs_add_le (q - v) v
    rw [sub_add_cancel] at this
    linarith
  have o := rounded0_outcome hF h
  have hfin : ∃ w, d.fin = some w := by
    cases hd : d with
    | nan => exact absurd hd o.not_nan
    | inf s => exact absurd (o.overflow.mp ⟨s, hd⟩) (not_le.mpr (lt_of_le_of_lt hqa ht))
    | zero s => exact ⟨0, rfl⟩
    | num w => exact ⟨w, rfl⟩
  obtain ⟨w, hw⟩ := hfin
  refine ⟨rfl, w, hw, ?_⟩
  have he := rounded0_err h hw
  have h1 : uro F * |q| ≤ uro F * (|v| + b) := mul_le_mul_of_nonneg_left hqa hu.le
  have h2 := abs_add_le (w - q) (q - v)
  rw [sub_add_sub_cancel] at h2
  linarith

/-- **C112.** For every expression of sums, differences, products, quotients and negations, of any size, over inputs that are within `β n`
of the real numbers `ρ n`: if the textbook bound exists, so does the exact value, the computation returns a number or a zero, and that is
within the bound of the exact value. -/
theorem C112_expression_error (hA : AdderFormat E F) (X : ℕ → Fp E F) (ρ β : ℕ → ℚ)
    (hX : ∀ n, ∃ x, (X n).datum.fin = some x ∧ |x - ρ n| ≤ β n) (e : Expr) (v b : ℚ)
    (hb : e.bound (uro F) (minPos E) (overflowAt E F) ρ β = some (v, b)) :
    e.value ρ = some v ∧ ∃ r w, e.compute X = some r ∧ r.datum.fin = some w ∧ |w - v| ≤ b := by
  obtain ⟨hE, hF, -, -⟩ := id hA
  induction e generalizing v b with
  | var n =>
    obtain ⟨rfl, rfl⟩ := Prod.mk.inj (Option.some.inj hb)
    obtain ⟨x, h1, h2⟩ := hX n
    exact ⟨rfl, _, x, rfl, h1, h2⟩
  | neg a iha =>
    obtain ⟨⟨p, c⟩, hp, h⟩ := Option.map_eq_some_iff.mp hb
    obtain ⟨rfl, rfl⟩ := Prod.mk.inj h
    obtain ⟨h1, x, w, h2, h3, h4⟩ := iha p c hp
    refine ⟨by simp [Expr.value, h1], negV1 E F x, -w, by simp [Expr.compute, h2], neg_fin (by omega) hF h3, ?_⟩
    rw [show -w - -p = -(w - p) by ring, abs_neg]; exact h4
  | add a b iha ihb =>
    simp only [Expr.bound, Option.bind_eq_bind, Option.bind_eq_some_iff] at hb
    obtain ⟨⟨p, c⟩, hp, ⟨q, d⟩, hq, h⟩ := hb
    obtain ⟨h1, x, s, h2, h3, h4⟩ := iha p c hp
    obtain ⟨k1, y, t, k2, k3, k4⟩ := ihb q d hq
    obtain ⟨r, hr, hR⟩ := adder_fin hA h3 k3
    have hd : |s + t - (p + q)| ≤ c + d := by
      rw [show s + t - (p + q) = (s - p) + (t - q) by ring]
      exact le_trans (abs_add_le _ _) (add_le_add h4 k4)
    obtain ⟨rfl, w, hw, hb⟩ := roundStep_sound hF hR hd h
    exact ⟨by simp [Expr.value, h1, k1], r, w, by simp [Expr.compute, h2, k2, hr], hw, hb⟩
  | sub a b iha ihb =>
    simp only [Expr.bound, Option.bind_eq_bind, Option.bind_eq_some_iff] at hb
    obtain ⟨⟨p, c⟩, hp, ⟨q, d⟩, hq, h⟩ := hb
    obtain ⟨h1, x, s, h2, h3, h4⟩ := iha p c hp
    obtain ⟨k1, y, t, k2, k3, k4⟩ := ihb q d hq
    obtain ⟨r, hr, hR⟩ := adder_fin hA h3 (neg_fin (by omega) hF k3)
    have hd : |s + -t - (p - q)| ≤ c + d := by
      rw [show s + -t - (p - q) = (s - p) - (t - q) by ring]
      exact le_trans (abs_sub _ _) (add_le_add h4 k4)
    obtain ⟨rfl, w, hw, hb⟩ := roundStep_sound hF hR hd h
    exact ⟨by simp [Expr.value, h1, k1], r, w, by simp [Expr.compute, h2, k2, hr], hw, hb⟩
  | mul a b iha ihb =>
    simp only [Expr.bound, Option.bind_eq_bind, Option.bind_eq_some_iff] at hb
    obtain ⟨⟨p, c⟩, hp, ⟨q, d⟩, hq, h⟩ := hb
    obtain ⟨h1, x, s, h2, h3, h4⟩ := iha p c hp
    obtain ⟨k1, y, t, k2, k3, k4⟩ := ihb q d hq
    obtain ⟨r, hr⟩ := mulSame_total (by omega) x y
    have hR := mul_fin (by omega) hF hF hF (by omega) x y h3 k3 hr
    have hd : |s * t - p * q| ≤ |p| * d + |q| * c + c * d := by
      rw [show s * t - p * q = p * (t - q) + q * (s - p) + (s - p) * (t - q) by ring]
      refine le_trans (abs_add_three _ _ _) ?_
      rw [abs_mul, abs_mul, abs_mul]
      have a1 : |p| * |t - q| ≤ |p| * d := mul_le_mul_of_nonneg_left k4 (abs_nonneg _)
      have a2 : |q| * |s - p| ≤ |q| * c := mul_le_mul_of_nonneg_left h4 (abs_nonneg _)
      have a3 : |s - p| * |t - q| ≤ c * d := mul_le_mul h4 k4 (abs_nonneg _) (le_trans (abs_nonneg _) h4)
      linarith
    obtain ⟨rfl, w, hw, hb⟩ := roundStep_sound hF hR hd h
    exact ⟨by simp [Expr.value, h1, k1], r, w, by simp [Expr.compute, h2, k2, hr], hw, hb⟩
  | div a b iha ihb =>
    simp only [Expr.bound, Option.bind_eq_bind, Option.bind_eq_some_iff, Option.ite_none_right_eq_some] at hb
    obtain ⟨⟨p, c⟩, hp, ⟨q, d⟩, hq, hc, h⟩ := hb
    obtain ⟨h1, x, s, h2, h3, h4⟩ := iha p c hp
    obtain ⟨k1, y, t, k2, k3, k4⟩ := ihb q d hq
    simp only at hc
    have hd0 : 0 ≤ d := le_trans (abs_nonneg _) k4
    have hq0 : 0 < |q| := lt_of_le_of_lt hd0 hc
    have hta : |q| - d ≤ |t| := by
      have := abs_sub_abs_le_abs_sub q t
      rw [abs_sub_comm q t] at this
      linarith
    have ht0 : 0 < |t| := by linarith
    have ht : t ≠ 0 := abs_pos.mp ht0
    have hqn : q ≠ 0 := abs_pos.mp hq0
    have hR := div_fin (by omega) hF x y h3 k3 ht
    have hd : |s / t - p / q| ≤ (|p| * d + |q| * c) / (|q| * (|q| - d)) := by
      rw [show s / t - p / q = (q * (s - p) - p * (t - q)) / (q * t) by field_simp; ring, abs_div, abs_mul q t]
      have a1 : |p| * |t - q| ≤ |p| * d := mul_le_mul_of_nonneg_left k4 (abs_nonneg _)
      have a2 : |q| * |s - p| ≤ |q| * c := mul_le_mul_of_nonneg_left h4 (abs_nonneg _)
      refine div_le_div₀ ?_ ?_ (by apply mul_pos hq0; linarith) (mul_le_mul_of_nonneg_left hta hq0.le)
      · have := mul_nonneg (abs_nonneg p) hd0
        have := mul_nonneg (abs_nonneg q) (le_trans (abs_nonneg _) h4)
        linarith
      · refine le_trans (abs_sub _ _) ?_
        rw [abs_mul, abs_mul]
        linarith
    obtain ⟨rfl, w, hw, hb⟩ := roundStep_sound hF hR hd h
    exact ⟨by simp [Expr.value, h1, k1, hqn], divV1 E F x y, w, by simp [Expr.compute, h2, k2], hw, hb⟩

/-- `x*x/y - x` in single precision at `x = 3/2`, `y = 5`: the bound exists, and the computed number is within `2^-22` of `-21/20`. -/
example : ∃ r w, (Expr.sub (.div (.mul (.var 0) (.var 0)) (.var 1)) (.var 0)).compute
      (fun n => if n = 0 then Fp.mk4 8 23 1 0 127 (2 ^ 22) else Fp.mk4 8 23 1 0 129 (2 ^ 21)) = some r ∧
    r.datum.fin = some w ∧ |w - -21 / 20| ≤ 1 / 2 ^ 22 := by
  have h1 : (Fp.mk4 8 23 1 0 127 (2 ^ 22)).datum = .num (3 / 2) := by decide +kernel
  have h2 : (Fp.mk4 8 23 1 0 129 (2 ^ 21)).datum = .num 5 := by decide +kernel
  have hb : ∃ b, (Expr.sub (.div (.mul (.var 0) (.var 0)) (.var 1)) (.var 0)).bound (uro 23) (minPos 8) (overflowAt 8 23)
      (fun n => if n = 0 then 3 / 2 else 5) (fun _ => 0) = some (-21 / 20, b) ∧ b ≤ 1 / 2 ^ 22 := by
    refine ⟨((Expr.sub (.div (.mul (.var 0) (.var 0)) (.var 1)) (.var 0)).bound (uro 23) (minPos 8) (overflowAt 8 23)
      (fun n => if n = 0 then 3 / 2 else 5) (fun _ => 0)).get!.2, ?_, ?_⟩ <;> decide +kernel
  obtain ⟨b, hb, hb'⟩ := hb
  obtain ⟨-, r, w, h3, h4, h5⟩ := C112_expression_error ⟨by norm_num, by norm_num, dual_8_23, by norm_num⟩
    (fun n => if n = 0 then Fp.mk4 8 23 1 0 127 (2 ^ 22) else Fp.mk4 8 23 1 0 129 (2 ^ 21)) _ _ (by
      intro n
      by_cases hn : n = 0
      · simp only [if_pos hn, h1]; exact ⟨_, rfl, by simp⟩
      · simp only [if_neg hn, h2]; exact ⟨_, rfl, by simp⟩) _ _ _ hb
  exact ⟨r, w, h3, h4, le_trans h5 hb'⟩

theorem polynomial_step (x c a : ℚ) (as : List ℚ) : polynomial x c (a :: as) = polynomial x (c * x + a) as := by
  induction as generalizing c a with
  | nil => simp [polynomial]
  | cons b as ih =>
    rw [polynomial, ih, polynomial]
    simp only [polynomial, List.length_cons] at ih ⊢
    rw [← ih]
    ring

theorem mul_nonfin (hE : 2 ≤ E) (hF : 1 ≤ F) {x y r : Fp E F} {v : ℚ} (hx : x.datum.fin = none) (hy : y.datum.fin = some v)
    (hr : mulV1 E F x y = some r) : r.datum.fin = none := by
  have sp : ∀ d, mulSpecial x.datum y.datum = some d → r.datum = d := fun d hd => C12_mul_exceptions (by omega) hF (by omega) _ _ _ hr _ hd
  cases dx : x.datum with
  | nan => rw [sp .nan (by rw [dx]; simp [mulSpecial])]; rfl
  | zero s => rw [dx] at hx; cases hx
  | num w => rw [dx] at hx; cases hx
  | inf s =>
    rcases SoftFmt.fin_cases hy with ⟨t, h4, -⟩ | h4
    · rw [sp _ (by rw [dx, h4]; rfl)]; rfl
    · rw [sp _ (by rw [dx, h4]; rfl)]; rfl

theorem add_nonfin (hE : 2 ≤ E) (hF : 1 ≤ F) {x y r : Fp E F} {v : ℚ} (hx : x.datum.fin = none) (hy : y.datum.fin = some v)
    (hr : AddDual.addSame x y = some r) : r.datum.fin = none := by
  have sp : ∀ d, addSpecial x.datum y.datum = some d → r.datum = d := fun d hd => AddDual.addSame_special_some hE hF hd hr
  cases dx : x.datum with
  | nan => rw [sp .nan (by rw [dx]; simp [addSpecial])]; rfl
  | zero s => rw [dx] at hx; cases hx
  | num w => rw [dx] at hx; cases hx
  | inf s =>
    rcases SoftFmt.fin_cases hy with ⟨t, h4, -⟩ | h4
    · rw [sp _ (by rw [dx, h4]; rfl)]; rfl
    · rw [sp _ (by rw [dx, h4]; rfl)]; rfl

theorem horner_cons {x c a p s : Fp E F} (as : List (Fp E F)) (hp : mulV1 E F c x = some p) (hs : AddDual.addSame p a = some s) :
    hornerLoop x c (a :: as) = hornerLoop x s as := by
  unfold hornerLoop
  rw [List.foldlM_cons]
  show ((mulV1 E F c x).bind fun p => AddDual.addSame p a).bind _ = _
  rw [hp, Option.bind_some, hs, Option.bind_some]

theorem horner_total (hA : AdderFormat E F) (x : Fp E F) (as : List (Fp E F)) (c : Fp E F) : ∃ r, hornerLoop x c as = some r := by
  obtain ⟨hE, hF, hok, hfmt⟩ := id hA
  induction as generalizing c with
  | nil => exact ⟨c, rfl⟩
  | cons a as ih =>
    obtain ⟨p, hp⟩ := mulSame_total (by omega) c x
    obtain ⟨s, hs⟩ := (dual_adder (by omega) hF hok hfmt).total p a
    obtain ⟨r, hr⟩ := ih s
    exact ⟨r, by rw [horner_cons as hp hs, hr]⟩

theorem horner_nonfin (hA : AdderFormat E F) {x : Fp E F} {vx : ℚ} (hx : x.datum.fin = some vx) (as : List (Fp E F))
    (has : ∀ a ∈ as, ∃ v, a.datum.fin = some v) {c r : Fp E F} (hc : c.datum.fin = none) (hr : hornerLoop x c as = some r) :
    r.datum.fin = none := by
  obtain ⟨hE, hF, hok, hfmt⟩ := id hA
  induction as generalizing c with
  | nil => rw [← Option.some.inj hr]; exact hc
  | cons a as ih =>
    obtain ⟨p, hp⟩ := mulSame_total (by omega) c x
    obtain ⟨s, hs⟩ := (dual_adder (by omega) hF hok hfmt).total p a
    obtain ⟨v, hv⟩ := has a (by simp)
    refine ih (fun b hb => has b (by simp [hb])) (c := s) ?_ ?_
    · exact add_nonfin (by omega) hF (mul_nonfin (by omega) hF hc hx hp) hv hs
    · rw [← horner_cons as hp hs, hr]

/-- One step: the product and the sum each add a factor `1 + u`. -/
theorem horner_step (hA : AdderFormat E F) {x c a p s : Fp E F} {vx vc va q g M : ℚ} (hx : x.datum.fin = some vx) (hc : c.datum.fin = some vc)
    (ha : a.datum.fin = some va) (hp : mulV1 E F c x = some p) (hs : AddDual.addSame p a = some s) (hg : 1 ≤ g) (hq : |q| ≤ M)
    (he : |vc - q| ≤ (g - 1) * M) :
    (∀ w, s.datum.fin = some w → |w - (q * vx + va)| ≤ (g * (1 + uro F) ^ 2 - 1) * (M * |vx| + (|va| + 2 * (minPos E / uro F)))) ∧
    (g * (1 + uro F) ^ 2 * (M * |vx| + (|va| + 2 * (minPos E / uro F))) < overflowAt E F → ∃ w, s.datum.fin = some w) := by
  obtain ⟨hE, hF, hok, hfmt⟩ := id hA
  have hu := uro_pos F
  have hmp : 0 < minPos E := two_zpow_pos _
  set u := uro F with hudef
  set κ := minPos E / u with hκ
  have hκ0 : 0 < κ := div_pos hmp hu
  have hκu : u * κ = minPos E := by rw [hκ]; field_simp
  have hM : 0 ≤ M := le_trans (abs_nonneg _) hq
  have hP := mul_fin (by omega) hF hF hF (by omega) c x hc hx hp
  have hX := abs_nonneg vx
  have hMX : 0 ≤ M * |vx| := mul_nonneg hM hX
  have hVA := abs_nonneg va
  have e1 : |vc * vx - q * vx| ≤ (g - 1) * M * |vx| := by
    rw [← sub_mul, abs_mul]; exact mul_le_mul_of_nonneg_right he hX
  have e2 : |q * vx| ≤ M * |vx| := by rw [abs_mul]; exact mul_le_mul_of_nonneg_right hq hX
  have e3 : |vc * vx| ≤ g * (M * |vx|) := by
    have := abs_add_le (vc * vx - q * vx) (q * vx)
    rw [sub_add_cancel] at this
    linarith
  have hgMX : 0 ≤ g * (M * |vx|) := mul_nonneg (by linarith) hMX
  have hgk : 0 ≤ (g - 1) * κ := mul_nonneg (by linarith) hκ0.le
  have hgu : 0 ≤ g * u := mul_nonneg (by linarith) hu.le
  have pfin : ∀ vp, p.datum.fin = some vp →
      |vp - q * vx| ≤ (g * (1 + u) - 1) * (M * |vx| + κ) ∧ |vp| ≤ g * (1 + u) * (M * |vx| + κ) := by
    intro vp hvp
    have f1 := rounded0_err hP hvp
    rw [← hudef, ← hκu] at f1
    have f2 : u * |vc * vx| ≤ u * (g * (M * |vx|)) := mul_le_mul_of_nonneg_left e3 hu.le
    have f3 := abs_add_le (vp - vc * vx) (vc * vx - q * vx)
    rw [sub_add_sub_cancel] at f3
    have f4 : 0 ≤ (g - 1) * (u * κ) := mul_nonneg (by linarith) (mul_nonneg hu.le hκ0.le)
    have f5 : |vp - q * vx| ≤ (g * (1 + u) - 1) * (M * |vx| + κ) := by nlinarith
    refine ⟨f5, ?_⟩
    have f6 := abs_add_le (vp - q * vx) (q * vx)
    rw [sub_add_cancel] at f6
    nlinarith
  constructor
  · intro w hw
    cases hvp : p.datum.fin with
    | none => rw [add_nonfin (by omega) hF hvp ha hs] at hw; cases hw
    | some vp =>
      obtain ⟨k1, k2⟩ := pfin vp hvp
      have hS := add_fin_returned (by omega) hF hfmt p a hvp ha hs
      have f1 := rounded0_err hS hw
      rw [← hudef, ← hκu] at f1
      have f2 := abs_add_le vp va
      have f3 : u * |vp + va| ≤ u * (g * (1 + u) * (M * |vx| + κ) + |va|) := mul_le_mul_of_nonneg_left (by linarith) hu.le
      have f4 := abs_add_le (w - (vp + va)) (vp - q * vx)
      rw [show w - (vp + va) + (vp - q * vx) = w - (q * vx + va) by ring] at f4
      have hh : 1 ≤ g * (1 + u) := by nlinarith
      have f5 : 0 ≤ (g * (1 + u) - 1) * (1 + u) * (|va| + κ) := by
        refine mul_nonneg (mul_nonneg (by linarith) (by linarith)) (by linarith)
      have : (g * (1 + u) ^ 2 - 1) * (M * |vx| + (|va| + 2 * κ)) = (g * (1 + u) - 1) * (M * |vx| + κ) +
          u * (g * (1 + u) * (M * |vx| + κ)) + (g * (1 + u) - 1) * (1 + u) * (|va| + κ) + u * (|va| + κ) := by ring
      rw [this]
      linarith
  · intro ht
    have hh : 1 ≤ g * (1 + u) := by nlinarith
    have hN : 0 ≤ M * |vx| + κ := by linarith
    have h1 : g * (1 + u) ^ 2 * (M * |vx| + (|va| + 2 * κ)) = g * (1 + u) * (M * |vx| + κ) + u * (g * (1 + u)) * (M * |vx| + κ) +
        |va| + κ + (g * (1 + u) ^ 2 - 1) * (|va| + κ) := by ring
    have h2 : 0 ≤ u * (g * (1 + u)) * (M * |vx| + κ) := mul_nonneg (mul_nonneg hu.le (by linarith)) hN
    have h3 : 0 ≤ (g * (1 + u) ^ 2 - 1) * (|va| + κ) := mul_nonneg (by nlinarith) (by linarith)
    have fin : ∀ {d : Datum} {z : ℚ}, Rounded0 E F z d → |z| < overflowAt E F → ∃ w, d.fin = some w := by
      intro d z hd hz
      have o := rounded0_outcome hF hd
      cases hd : d with
      | nan => exact absurd hd o.not_nan
      | inf s => exact absurd (o.overflow.mp ⟨s, hd⟩) (not_le.mpr hz)
      | zero s => exact ⟨0, rfl⟩
      | num w => exact ⟨w, rfl⟩
    have h4 : g * (M * |vx|) ≤ g * (1 + u) * (M * |vx| + κ) := by nlinarith
    obtain ⟨vp, hvp⟩ := fin hP (by linarith)
    obtain ⟨-, k2⟩ := pfin vp hvp
    have f2 := abs_add_le vp va
    exact fin (add_fin_returned (by omega) hF hfmt p a hvp ha hs) (by linarith)

theorem horner_run (hA : AdderFormat E F) {x : Fp E F} {vx : ℚ} (hx : x.datum.fin = some vx) (as : List (Fp E F)) (vs : List ℚ)
    (has : List.Forall₂ (fun a v => a.datum.fin = some v) as vs) {c r : Fp E F} {vc q g M : ℚ} (hc : c.datum.fin = some vc)
    (hr : hornerLoop x c as = some r) (hg : 1 ≤ g) (hq : |q| ≤ M) (he : |vc - q| ≤ (g - 1) * M) :
    (∀ w, r.datum.fin = some w → |w - polynomial vx q vs| ≤ (g * (1 + uro F) ^ (2 * as.length) - 1) *
      polynomial |vx| M (vs.map fun a => |a| + 2 * (minPos E / uro F))) ∧
    ((∀ k ≤ as.length, g * (1 + uro F) ^ (2 * k) * polynomial |vx| M ((vs.take k).map fun a => |a| + 2 * (minPos E / uro F)) <
      overflowAt E F) → ∃ w, r.datum.fin = some w) := by
  obtain ⟨hE, hF, hok, hfmt⟩ := id hA
  have hu := uro_pos F
  have hmp : 0 < minPos E := two_zpow_pos _
  induction has generalizing c vc q g M with
  | nil =>
    obtain rfl : c = r := Option.some.inj hr
    refine ⟨fun w hw => ?_, fun _ => ⟨vc, hc⟩⟩
    rw [hc] at hw
    obtain rfl : vc = w := Option.some.inj hw
    simpa [polynomial] using he
  | @cons a v as vs hav has ih =>
    obtain ⟨p, hp⟩ := mulSame_total (by omega) c x
    obtain ⟨s, hs⟩ := (dual_adder (by omega) hF hok hfmt).total p a
    have hr' : hornerLoop x s as = some r := by
      rw [← horner_cons as hp hs, hr]
    obtain ⟨st1, st2⟩ := horner_step hA hx hc hav hp hs hg hq he
    have hM : 0 ≤ M := le_trans (abs_nonneg _) hq
    have hκ : 0 < minPos E / uro F := div_pos hmp hu
    have hq' : |q * vx + v| ≤ M * |vx| + (|v| + 2 * (minPos E / uro F)) := by
      have h1 := abs_add_le (q * vx) v
      have h2 : |q * vx| ≤ M * |vx| := by rw [abs_mul]; exact mul_le_mul_of_nonneg_right hq (abs_nonneg _)
      linarith
    have hg' : 1 ≤ g * (1 + uro F) ^ 2 := by nlinarith
    have fin_of_none : s.datum.fin = none → r.datum.fin = none := fun h =>
      horner_nonfin hA hx as (fun b hb => by
        obtain ⟨i, hi, rfl⟩ := List.mem_iff_getElem.mp hb
        exact ⟨_, List.Forall₂.get has hi (by rw [← has.length_eq]; exact hi)⟩) h hr'
    have pw : ∀ n, g * (1 + uro F) ^ 2 * (1 + uro F) ^ (2 * n) = g * (1 + uro F) ^ (2 * (n + 1)) := by
      intro n; rw [mul_assoc, ← pow_add]; congr 2; ring
    constructor
    · intro w hw
      cases hsf : s.datum.fin with
      | none => rw [fin_of_none hsf] at hw; cases hw
      | some vs' =>
        have := (ih hsf hr' hg' hq' (st1 vs' hsf)).1 w hw
        rw [pw] at this
        rw [polynomial_step, List.length_cons, List.map_cons, polynomial_step]
        exact this
    · intro ht
      have h1 := ht 1 (by simp)
      simp only [List.take_succ_cons, List.take_zero, List.map_cons, List.map_nil, polynomial_step, mul_one] at h1
      rw [show polynomial |vx| (M * |vx| + (|v| + 2 * (minPos E / uro F))) [] = M * |vx| + (|v| + 2 * (minPos E / uro F)) from rfl] at h1
      obtain ⟨vs', hsf⟩ := st2 h1
      refine (ih hsf hr' hg' hq' (st1 vs' hsf)).2 fun k hk => ?_
      have := ht (k + 1) (by simpa using hk)
      rw [List.take_succ_cons, List.map_cons, polynomial_step] at this
      rw [pw]
      exact this

/-- **C112, polynomials.** Horner's rule for a polynomial of any degree `n`: if it returns a number or a zero, that is within
`(1+u)^(2n) - 1` times the sum of the magnitudes of the terms of the exact value, `u` half a unit in the last place; what can be lost by
flushing enters as if every coefficient but the leading one were larger by `2 * minPos / u`. It does return a number or a zero if that
sum, for every initial part of the computation, stays far enough from the overflow threshold. -/
theorem C112_horner_error (hA : AdderFormat E F) (x c : Fp E F) (as : List (Fp E F)) (vx vc : ℚ) (vs : List ℚ)
    (hx : x.datum.fin = some vx) (hc : c.datum.fin = some vc) (has : List.Forall₂ (fun a v => a.datum.fin = some v) as vs) :
    ∃ r, hornerLoop x c as = some r ∧
      (∀ w, r.datum.fin = some w → |w - polynomial vx vc vs| ≤
        ((1 + uro F) ^ (2 * as.length) - 1) * polynomialSize (2 * (minPos E / uro F)) vx vc vs) ∧
      ((∀ k ≤ as.length, (1 + uro F) ^ (2 * k) * polynomialSize (2 * (minPos E / uro F)) vx vc (vs.take k) < overflowAt E F) →
        ∃ w, r.datum.fin = some w) := by
  obtain ⟨r, hr⟩ := horner_total hA x as c
  obtain ⟨h1, h2⟩ := horner_run hA hx as vs has (q := vc) (g := 1) (M := |vc|) hc hr le_rfl le_rfl (by simp)
  simp only [one_mul] at h1 h2
  exact ⟨r, hr, h1, h2⟩

/-- `2 x^2 - 3 x + 1` at `x = 3/2` in single precision. -/
example : ∃ r w, hornerLoop (Fp.mk4 8 23 1 0 127 (2 ^ 22)) (Fp.mk4 8 23 1 0 128 0) [Fp.mk4 8 23 1 1 128 (2 ^ 22), Fp.mk4 8 23 1 0 127 0] = some r ∧
    r.datum.fin = some w ∧ |w - 1| ≤ 1 / 2 ^ 18 := by
  have h1 : (Fp.mk4 8 23 1 0 127 (2 ^ 22)).datum = .num (3 / 2) := by decide +kernel
  have h2 : (Fp.mk4 8 23 1 0 128 0).datum = .num 2 := by decide +kernel
  have h3 : (Fp.mk4 8 23 1 1 128 (2 ^ 22)).datum = .num (-3) := by decide +kernel
  have h4 : (Fp.mk4 8 23 1 0 127 0).datum = .num 1 := by decide +kernel
  obtain ⟨r, hr, k1, k2⟩ := C112_horner_error ⟨by norm_num, by norm_num, dual_8_23, by norm_num⟩ (Fp.mk4 8 23 1 0 127 (2 ^ 22))
    (Fp.mk4 8 23 1 0 128 0) [Fp.mk4 8 23 1 1 128 (2 ^ 22), Fp.mk4 8 23 1 0 127 0] (3 / 2) 2 [-3, 1] (by rw [h1]; rfl) (by rw [h2]; rfl)
    (.cons (by rw [h3]; rfl) (.cons (by rw [h4]; rfl) .nil))
  obtain ⟨w, hw⟩ := k2 (by decide +kernel)
  refine ⟨r, w, hr, hw, ?_⟩
  have := k1 w hw
  rw [show polynomial (3 / 2) 2 [-3, 1] = 1 by norm_num [polynomial]] at this
  exact le_trans this (by decide +kernel)

end Thls
