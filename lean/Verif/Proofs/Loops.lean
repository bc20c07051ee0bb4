import Verif.Proofs.RoundErr
import Verif.Model.Loops
import Verif.Props.Algebra
import Verif.Props.RefAgree
import Mathlib.Algebra.BigOperators.Group.List.Basic

/-! # Accumulated rounding error -/

namespace Thls

open Spec

/-- What the error analysis needs from an adder. -/
structure Adder (E F : ℕ) (u : ℚ) (add : Fp E F → Fp E F → Option (Fp E F)) : Prop where
  total : ∀ x y, ∃ r, add x y = some r
  err : ∀ x y r a b s, x.datum.fin = some a → y.datum.fin = some b → add x y = some r → r.datum.fin = some s →
    |s - (a + b)| ≤ u * |a + b| + minPos E
  zero : ∀ x y r b, x.datum.fin = some 0 → y.datum.fin = some b → add x y = some r → r.datum.fin = some b
  sticky : ∀ x y r, add x y = some r → x.datum.fin = none ∨ y.datum.fin = none → r.datum.fin = none
  nan : ∀ x y r, add x y = some r → x.datum = .nan ∨ y.datum = .nan → r.datum = .nan
  finite : ∀ x y r a b, x.datum.fin = some a → y.datum.fin = some b → add x y = some r → |a + b| ≤ maxFin E F →
    ∃ s, r.datum.fin = some s

theorem foldlM_terms {α β : Type} {f : α → Option β} {add : β → β → Option β} (hf : ∀ x, ∃ z, f x = some z) (xs : List α) :
    ∃ ps, List.Forall₂ (fun x z => f x = some z) xs ps ∧
      ∀ acc, xs.foldlM (fun acc x => (f x).bind (add acc)) acc = ps.foldlM add acc := by
  induction xs with
  | nil => exact ⟨[], List.Forall₂.nil, fun acc => rfl⟩
  | cons x xs ih =>
    obtain ⟨ps, h1, h2⟩ := ih
    obtain ⟨z, hz⟩ := hf x
    refine ⟨z :: ps, List.Forall₂.cons hz h1, fun acc => ?_⟩
    rw [List.foldlM_cons, List.foldlM_cons, hz]
    simp only [Option.bind_some]
    congr 1
    funext a
    exact h2 a

namespace Adder

variable {E F : ℕ} {u : ℚ} {add : Fp E F → Fp E F → Option (Fp E F)}

theorem fold_total (h : Adder E F u add) (xs : List (Fp E F)) (acc : Fp E F) : ∃ r, xs.foldlM add acc = some r := by
  induction xs generalizing acc with
  | nil => exact ⟨acc, rfl⟩
  | cons x xs ih =>
    obtain ⟨a, ha⟩ := h.total acc x
    obtain ⟨r, hr⟩ := ih a
    exact ⟨r, by rw [List.foldlM_cons, ha]; exact hr⟩

theorem fold_sticky (h : Adder E F u add) {xs : List (Fp E F)} {acc r : Fp E F} (hr : xs.foldlM add acc = some r)
    (hx : acc.datum.fin = none ∨ ∃ x ∈ xs, x.datum.fin = none) : r.datum.fin = none := by
  induction xs generalizing acc with
  | nil =>
    cases hr
    rcases hx with hx | ⟨x, hx, -⟩
    · exact hx
    · cases hx
  | cons x xs ih =>
    obtain ⟨a, ha⟩ := h.total acc x
    rw [List.foldlM_cons, ha] at hr
    refine ih hr ?_
    rcases hx with hx | ⟨y, hy, hn⟩
    · exact Or.inl (h.sticky _ _ _ ha (Or.inl hx))
    · rcases List.mem_cons.mp hy with rfl | hy
      · exact Or.inl (h.sticky _ _ _ ha (Or.inr hn))
      · exact Or.inr ⟨y, hy, hn⟩

theorem fold_nan (h : Adder E F u add) {xs : List (Fp E F)} {acc r : Fp E F} (hr : xs.foldlM add acc = some r)
    (hx : acc.datum = .nan ∨ ∃ x ∈ xs, x.datum = .nan) : r.datum = .nan := by
  induction xs generalizing acc with
  | nil =>
    cases hr
    rcases hx with hx | ⟨x, hx, -⟩
    · exact hx
    · cases hx
  | cons x xs ih =>
    obtain ⟨a, ha⟩ := h.total acc x
    rw [List.foldlM_cons, ha] at hr
    refine ih hr ?_
    rcases hx with hx | ⟨y, hy, hn⟩
    · exact Or.inl (h.nan _ _ _ ha (Or.inl hx))
    · rcases List.mem_cons.mp hy with rfl | hy
      · exact Or.inl (h.nan _ _ _ ha (Or.inr hn))
      · exact Or.inr ⟨y, hy, hn⟩

/-- `x` is finite and approximates the exact term `t`. -/
def Approx (w δ : ℚ) (x : Fp E F) (t : ℚ) : Prop := ∃ p, x.datum.fin = some p ∧ |p - t| ≤ w * |t| + δ

/-- The invariant of the accumulation: error of the accumulated value after `j+1` terms. -/
def Inv (u w δ γ : ℚ) (j : ℕ) (s T A : ℚ) : Prop :=
  |s - T| ≤ ((1 + u) ^ j * (1 + w) - 1) * A + ((1 + u) ^ j * (δ + γ) - γ) ∧ |T| ≤ A

theorem inv_step {u w δ γ η s T A p t s' : ℚ} {j : ℕ} (hu : 0 ≤ u) (hw : 0 ≤ w) (hδ : 0 ≤ δ) (hγ : u * γ = (1 + u) * δ + η)
    (hI : Inv u w δ γ j s T A) (hp : |p - t| ≤ w * |t| + δ) (hs : |s' - (s + p)| ≤ u * |s + p| + η) :
    Inv u w δ γ (j + 1) s' (T + t) (A + |t|) := by
  obtain ⟨h1, h2⟩ := hI
  refine ⟨?_, le_trans (abs_add_le _ _) (by linarith)⟩
  have a1 : |s' - (T + t)| ≤ |s' - (s + p)| + (|s - T| + |p - t|) := by
    calc |s' - (T + t)| = |(s' - (s + p)) + ((s - T) + (p - t))| := by congr 1; ring
      _ ≤ _ := le_trans (abs_add_le _ _) (by linarith [abs_add_le (s - T) (p - t)])
  have a2 : |s + p| ≤ |T| + |t| + (|s - T| + |p - t|) := by
    calc |s + p| = |(T + t) + ((s - T) + (p - t))| := by congr 1; ring
      _ ≤ _ := le_trans (abs_add_le _ _) (by linarith [abs_add_le (s - T) (p - t), abs_add_le T t])
  have a3 : u * |s + p| ≤ u * (A + |t| + (|s - T| + |p - t|)) := mul_le_mul_of_nonneg_left (by linarith) hu
  have a4 : (1 + u) * (|s - T| + |p - t|) ≤
      (1 + u) * (((1 + u) ^ j * (1 + w) - 1) * A + ((1 + u) ^ j * (δ + γ) - γ) + (w * |t| + δ)) :=
    mul_le_mul_of_nonneg_left (by linarith) (by linarith)
  have hone : (1 : ℚ) ≤ (1 + u) ^ j := one_le_pow₀ (by linarith)
  have a5 : 0 ≤ ((1 + u) ^ j - 1) * ((1 + u) * (1 + w) * |t|) :=
    mul_nonneg (by linarith) (mul_nonneg (mul_nonneg (by linarith) (by linarith)) (abs_nonneg t))
  have hA : 0 ≤ A := le_trans (abs_nonneg T) h2
  rw [pow_succ]
  generalize (1 + u) ^ j = P at *
  nlinarith [a1, a2, a3, a4, a5, hγ]

theorem inv_bound {u w δ γ s T A p t : ℚ} {j : ℕ} (hu : 0 ≤ u) (hw : 0 ≤ w) (hδ : δ ≤ γ)
    (hI : Inv u w δ γ j s T A) (hp : |p - t| ≤ w * |t| + δ) :
    |s + p| ≤ (1 + u) ^ j * (1 + w) * (A + |t|) + (1 + u) ^ j * (δ + γ) := by
  obtain ⟨h1, h2⟩ := hI
  have a2 : |s + p| ≤ |T| + |t| + (|s - T| + |p - t|) := by
    calc |s + p| = |(T + t) + ((s - T) + (p - t))| := by congr 1; ring
      _ ≤ _ := le_trans (abs_add_le _ _) (by linarith [abs_add_le (s - T) (p - t), abs_add_le T t])
  have hone : (1 : ℚ) ≤ (1 + u) ^ j := one_le_pow₀ (by linarith)
  have a5 : 0 ≤ ((1 + u) ^ j - 1) * ((1 + w) * |t|) := mul_nonneg (by linarith) (mul_nonneg (by linarith) (abs_nonneg t))
  generalize (1 + u) ^ j = P at *
  nlinarith [a2, a5]

theorem fold_err (h : Adder E F u add) {w δ γ : ℚ} (hu : 0 ≤ u) (hw : 0 ≤ w) (hδ : 0 ≤ δ)
    (hγ : u * γ = (1 + u) * δ + minPos E) {xs : List (Fp E F)} {ts : List ℚ} (hx : List.Forall₂ (Approx w δ) xs ts) :
    ∀ {acc r : Fp E F} {s T A q : ℚ} {j : ℕ}, acc.datum.fin = some s → Inv u w δ γ j s T A →
      xs.foldlM add acc = some r → r.datum.fin = some q →
      Inv u w δ γ (j + xs.length) q (T + ts.sum) (A + (ts.map abs).sum) := by
  induction hx with
  | nil =>
    intro acc r s T A q j hs hI hr hq
    cases hr
    rw [hs] at hq; cases hq
    simpa using hI
  | cons hxt hrest ih =>
    rename_i x t xs ts
    intro acc r s T A q j hs hI hr hq
    obtain ⟨a, ha⟩ := h.total acc x
    rw [List.foldlM_cons, ha] at hr
    obtain ⟨p, hp, hpt⟩ := hxt
    rcases hs' : a.datum.fin with _ | s'
    · have := h.fold_sticky (xs := xs) (acc := a) hr (Or.inl hs')
      rw [this] at hq; cases hq
    · have := ih hs' (inv_step hu hw hδ hγ hI hpt (h.err _ _ _ _ _ _ hs hp ha hs')) hr hq
      simp only [List.length_cons, List.sum_cons, List.map_cons]
      rwa [← add_assoc T, ← add_assoc A, show j + (xs.length + 1) = j + 1 + xs.length by ring]

theorem fold_finite (h : Adder E F u add) {w δ γ : ℚ} (hu : 0 ≤ u) (hw : 0 ≤ w) (hδ : 0 ≤ δ) (hδγ : δ ≤ γ)
    (hγ : u * γ = (1 + u) * δ + minPos E) {xs : List (Fp E F)} {ts : List ℚ} (hx : List.Forall₂ (Approx w δ) xs ts) :
    ∀ {acc r : Fp E F} {s T A : ℚ} {j : ℕ}, acc.datum.fin = some s → Inv u w δ γ j s T A →
      xs.foldlM add acc = some r →
      (1 + u) ^ (j + xs.length) * ((1 + w) * (A + (ts.map abs).sum) + (δ + γ)) ≤ maxFin E F →
      ∃ q, r.datum.fin = some q := by
  induction hx with
  | nil =>
    intro acc r s T A j hs hI hr hb
    cases hr
    exact ⟨s, hs⟩
  | cons hxt hrest ih =>
    rename_i x t xs ts
    intro acc r s T A j hs hI hr hb
    obtain ⟨a, ha⟩ := h.total acc x
    rw [List.foldlM_cons, ha] at hr
    obtain ⟨p, hp, hpt⟩ := hxt
    simp only [List.length_cons, List.map_cons, List.sum_cons] at hb
    have hsum : 0 ≤ (ts.map abs).sum := List.sum_nonneg (by simp)
    have hA : 0 ≤ A := le_trans (abs_nonneg T) hI.2
    have hb2 := inv_bound hu hw hδγ hI hpt
    have hmono : (1 + u) ^ j ≤ (1 + u) ^ (j + (xs.length + 1)) := pow_le_pow_right₀ (by linarith) (by omega)
    have hP : 0 ≤ (1 + u) ^ (j + (xs.length + 1)) := by positivity
    have hle : (1 + u) ^ j * (1 + w) * (A + |t|) + (1 + u) ^ j * (δ + γ) ≤
        (1 + u) ^ (j + (xs.length + 1)) * ((1 + w) * (A + (|t| + (ts.map abs).sum)) + (δ + γ)) := by
      have e1 : (1 + u) ^ j * (1 + w) * (A + |t|) + (1 + u) ^ j * (δ + γ) = (1 + u) ^ j * ((1 + w) * (A + |t|) + (δ + γ)) := by ring
      rw [e1]
      have e2 : (1 + w) * (A + |t|) ≤ (1 + w) * (A + (|t| + (ts.map abs).sum)) :=
        mul_le_mul_of_nonneg_left (by linarith) (by linarith)
      have e3 : 0 ≤ (1 + w) * (A + |t|) := mul_nonneg (by linarith) (by linarith [abs_nonneg t])
      exact mul_le_mul hmono (by linarith) (by linarith) hP
    obtain ⟨s', hs'⟩ := h.finite _ _ _ _ _ hs hp ha (by linarith)
    refine ih hs' (inv_step hu hw hδ hγ hI hpt (h.err _ _ _ _ _ _ hs hp ha hs')) hr ?_
    rwa [add_assoc A, show j + 1 + xs.length = j + (xs.length + 1) by ring]

/-- The loop from a zero accumulator: error and absence of overflow. -/
theorem loop (h : Adder E F u add) {w δ γ : ℚ} (hu : 0 ≤ u) (hw : 0 ≤ w) (hδ : 0 ≤ δ) (hδγ : δ ≤ γ)
    (hγ : u * γ = (1 + u) * δ + minPos E) {xs : List (Fp E F)} {ts : List ℚ} (hx : List.Forall₂ (Approx w δ) xs ts)
    {acc r : Fp E F} (hacc : acc.datum.fin = some 0) (hr : xs.foldlM add acc = some r) :
    (∀ q, r.datum.fin = some q → |q - ts.sum| ≤ ((1 + u) ^ (xs.length - 1) * (1 + w) - 1) * (ts.map abs).sum +
      ((1 + u) ^ (xs.length - 1) * (δ + γ) - γ)) ∧
    ((1 + u) ^ (xs.length - 1) * ((1 + w) * (ts.map abs).sum + (δ + γ)) ≤ maxFin E F → ∃ q, r.datum.fin = some q) := by
  cases hx with
  | nil =>
    cases hr
    rw [hacc]
    refine ⟨fun q hq => ?_, fun _ => ⟨0, rfl⟩⟩
    cases hq
    simp only [List.sum_nil, List.map_nil, List.length_nil, sub_zero, abs_zero, mul_zero]
    norm_num
    exact hδ
  | cons hxt hrest =>
    rename_i x t xs ts
    obtain ⟨a, ha⟩ := h.total acc x
    rw [List.foldlM_cons, ha] at hr
    obtain ⟨p, hp, hpt⟩ := hxt
    have hz := h.zero _ _ _ _ hacc hp ha
    have hI : Inv u w δ γ 0 p t |t| := ⟨by rw [pow_zero]; linarith, le_rfl⟩
    constructor
    · intro q hq
      have := (h.fold_err hu hw hδ hγ hrest hz hI hr hq).1
      simpa using this
    · intro hb
      exact h.fold_finite hu hw hδ hδγ hγ hrest hz hI hr (by simpa using hb)

end Adder

end Thls
