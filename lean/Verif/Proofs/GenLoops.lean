import Verif.Proofs.SoftExact
import Verif.Proofs.Loops

/-! # Accumulated rounding error over any number type

The same analysis as in `Proofs.Loops`, for a type `T` with a partial value function `val`, restricted to the valid elements `V`. -/

namespace Thls

open Spec

/-- What the error analysis needs from an adder: unit roundoff `u`, underflow error `η`, largest finite number `M`. -/
structure GAdder {T : Type} (V : T → Prop) (val : T → Option ℚ) (u η M : ℚ) (add : T → T → Option T) : Prop where
  total : ∀ x y, V x → V y → ∃ r, add x y = some r ∧ V r
  err : ∀ x y r a b s, V x → V y → val x = some a → val y = some b → add x y = some r → val r = some s →
    |s - (a + b)| ≤ u * |a + b| + η
  zero : ∀ x y r b, V x → V y → val x = some 0 → val y = some b → add x y = some r → val r = some b
  sticky : ∀ x y r, V x → V y → add x y = some r → val x = none ∨ val y = none → val r = none
  finite : ∀ x y r a b, V x → V y → val x = some a → val y = some b → add x y = some r → |a + b| ≤ M → ∃ s, val r = some s

namespace GAdder

variable {T : Type} {V : T → Prop} {val : T → Option ℚ} {u η M : ℚ} {add : T → T → Option T}

theorem fold_total (h : GAdder V val u η M add) (xs : List T) (acc : T) (hV : ∀ x ∈ xs, V x) (ha : V acc) :
    ∃ r, xs.foldlM add acc = some r ∧ V r := by
  induction xs generalizing acc with
  | nil => exact ⟨acc, rfl, ha⟩
  | cons x xs ih =>
    obtain ⟨a, h1, h2⟩ := h.total acc x ha (hV x (by simp))
    obtain ⟨r, hr, hv⟩ := ih a (fun y hy => hV y (by simp [hy])) h2
    exact ⟨r, by rw [List.foldlM_cons, h1]; exact hr, hv⟩

theorem fold_sticky (h : GAdder V val u η M add) {xs : List T} {acc r : T} (hV : ∀ x ∈ xs, V x) (hva : V acc)
    (hr : xs.foldlM add acc = some r) (hx : val acc = none ∨ ∃ x ∈ xs, val x = none) : val r = none := by
  induction xs generalizing acc with
  | nil =>
    cases hr
    rcases hx with hx | ⟨x, hx, -⟩
    · exact hx
    · cases hx
  | cons x xs ih =>
    obtain ⟨a, ha, hva'⟩ := h.total acc x hva (hV x (by simp))
    rw [List.foldlM_cons, ha] at hr
    refine ih (fun y hy => hV y (by simp [hy])) hva' hr ?_
    rcases hx with hx | ⟨y, hy, hn⟩
    · exact Or.inl (h.sticky _ _ _ hva (hV x (by simp)) ha (Or.inl hx))
    · rcases List.mem_cons.mp hy with rfl | hy
      · exact Or.inl (h.sticky _ _ _ hva (hV _ (by simp)) ha (Or.inr hn))
      · exact Or.inr ⟨y, hy, hn⟩

/-- `x` is finite and approximates the exact term `t`. -/
def Approx (V : T → Prop) (val : T → Option ℚ) (w δ : ℚ) (x : T) (t : ℚ) : Prop := V x ∧ ∃ p, val x = some p ∧ |p - t| ≤ w * |t| + δ

theorem approx_valid {w δ : ℚ} {xs : List T} {ts : List ℚ} (hx : List.Forall₂ (Approx V val w δ) xs ts) : ∀ x ∈ xs, V x := by
  induction hx with
  | nil => simp
  | cons h1 _ ih =>
    intro x hx
    rcases List.mem_cons.mp hx with rfl | hx
    · exact h1.1
    · exact ih x hx

theorem fold_err (h : GAdder V val u η M add) {w δ γ : ℚ} (hu : 0 ≤ u) (hw : 0 ≤ w) (hδ : 0 ≤ δ)
    (hγ : u * γ = (1 + u) * δ + η) {xs : List T} {ts : List ℚ} (hx : List.Forall₂ (Approx V val w δ) xs ts) :
    ∀ {acc r : T} {s S A q : ℚ} {j : ℕ}, V acc → val acc = some s → Adder.Inv u w δ γ j s S A →
      xs.foldlM add acc = some r → val r = some q →
      Adder.Inv u w δ γ (j + xs.length) q (S + ts.sum) (A + (ts.map abs).sum) := by
  induction hx with
  | nil =>
    intro acc r s S A q j hva hs hI hr hq
    cases hr
    rw [hs] at hq; cases hq
    simpa using hI
  | cons hxt hrest ih =>
    rename_i x t xs ts
    intro acc r s S A q j hva hs hI hr hq
    obtain ⟨hvx, p, hp, hpt⟩ := hxt
    obtain ⟨a, ha, hva'⟩ := h.total acc x hva hvx
    rw [List.foldlM_cons, ha] at hr
    rcases hs' : val a with _ | s'
    · have := h.fold_sticky (xs := xs) (acc := a) (approx_valid hrest) hva' hr (Or.inl hs')
      rw [this] at hq; cases hq
    · have := ih hva' hs' (Adder.inv_step hu hw hδ hγ hI hpt (h.err _ _ _ _ _ _ hva hvx hs hp ha hs')) hr hq
      simp only [List.length_cons, List.sum_cons, List.map_cons]
      rwa [← add_assoc S, ← add_assoc A, show j + (xs.length + 1) = j + 1 + xs.length by ring]

theorem fold_finite (h : GAdder V val u η M add) {w δ γ : ℚ} (hu : 0 ≤ u) (hw : 0 ≤ w) (hδ : 0 ≤ δ) (hδγ : δ ≤ γ)
    (hγ : u * γ = (1 + u) * δ + η) {xs : List T} {ts : List ℚ} (hx : List.Forall₂ (Approx V val w δ) xs ts) :
    ∀ {acc r : T} {s S A : ℚ} {j : ℕ}, V acc → val acc = some s → Adder.Inv u w δ γ j s S A →
      xs.foldlM add acc = some r →
      (1 + u) ^ (j + xs.length) * ((1 + w) * (A + (ts.map abs).sum) + (δ + γ)) ≤ M →
      ∃ q, val r = some q := by
  induction hx with
  | nil =>
    intro acc r s S A j hva hs hI hr hb
    cases hr
    exact ⟨s, hs⟩
  | cons hxt hrest ih =>
    rename_i x t xs ts
    intro acc r s S A j hva hs hI hr hb
    obtain ⟨hvx, p, hp, hpt⟩ := hxt
    obtain ⟨a, ha, hva'⟩ := h.total acc x hva hvx
    rw [List.foldlM_cons, ha] at hr
    simp only [List.length_cons, List.map_cons, List.sum_cons] at hb
    have hsum : 0 ≤ (ts.map abs).sum := List.sum_nonneg (by simp)
    have hA : 0 ≤ A := le_trans (abs_nonneg S) hI.2
    have hb2 := Adder.inv_bound hu hw hδγ hI hpt
    have hmono : (1 + u) ^ j ≤ (1 + u) ^ (j + (xs.length + 1)) := pow_le_pow_right₀ (by linarith) (by omega)
    have hP : 0 ≤ (1 + u) ^ (j + (xs.length + 1)) := by positivity
    have hle : (1 + u) ^ j * (1 + w) * (A + |t|) + (1 + u) ^ j * (δ + γ) ≤
        (1 + u) ^ (j + (xs.length + 1)) * ((1 + w) * (A + (|t| + (ts.map abs).sum)) + (δ + γ)) := by
      have e1 : (1 + u) ^ j * (1 + w) * (A + |t|) + (1 + u) ^ j * (δ + γ) = (1 + u) ^ j * ((1 + w) * (A + |t|) + (δ + γ)) := by ring
      rw [e1]
      have e2 : (1 + w) * (A + |t|) ≤ (1 + w) * (A + (|t| + (ts.map abs).sum)) :=
        mul_le_mul_of_nonneg_left (by linarith) (by linarith)
      have e3 : 0 ≤ (1 + w) * (A + |t|) := mul_nonneg (by linarith) (by linarith [abs_nonneg t])
      exact mul_le_mul hmono (by linarith) (by linarith) hP
    obtain ⟨s', hs'⟩ := h.finite _ _ _ _ _ hva hvx hs hp ha (by linarith)
    refine ih hva' hs' (Adder.inv_step hu hw hδ hγ hI hpt (h.err _ _ _ _ _ _ hva hvx hs hp ha hs')) hr ?_
    rwa [add_assoc A, show j + 1 + xs.length = j + (xs.length + 1) by ring]

/-- The loop from a zero accumulator: error and absence of overflow. -/
theorem loop (h : GAdder V val u η M add) {w δ γ : ℚ} (hu : 0 ≤ u) (hw : 0 ≤ w) (hδ : 0 ≤ δ) (hδγ : δ ≤ γ)
    (hγ : u * γ = (1 + u) * δ + η) {xs : List T} {ts : List ℚ} (hx : List.Forall₂ (Approx V val w δ) xs ts)
    {acc r : T} (hva : V acc) (hacc : val acc = some 0) (hr : xs.foldlM add acc = some r) :
    (∀ q, val r = some q → |q - ts.sum| ≤ ((1 + u) ^ (xs.length - 1) * (1 + w) - 1) * (ts.map abs).sum +
      ((1 + u) ^ (xs.length - 1) * (δ + γ) - γ)) ∧
    ((1 + u) ^ (xs.length - 1) * ((1 + w) * (ts.map abs).sum + (δ + γ)) ≤ M → ∃ q, val r = some q) := by
  cases hx with
  | nil =>
    cases hr
    rw [hacc]
    refine ⟨fun q hq => ?_, fun _ => ⟨0, rfl⟩⟩
    cases hq
    simp only [List.sum_nil, List.map_nil, List.length_nil, sub_zero, abs_zero, mul_zero]
    norm_num
    exact hδ
  | cons hxt hrest =>
    rename_i x t xs ts
    obtain ⟨hvx, p, hp, hpt⟩ := hxt
    obtain ⟨a, ha, hva'⟩ := h.total acc x hva hvx
    rw [List.foldlM_cons, ha] at hr
    have hz := h.zero _ _ _ _ hva hvx hacc hp ha
    have hI : Adder.Inv u w δ γ 0 p t |t| := ⟨by rw [pow_zero]; linarith, le_rfl⟩
    constructor
    · intro q hq
      have := (h.fold_err hu hw hδ hγ hrest hva' hz hI hr hq).1
      simpa using this
    · intro hb
      exact h.fold_finite hu hw hδ hδγ hγ hrest hva' hz hI hr (by simpa using hb)

/-- One addition node of a tree: relative errors compose. -/
theorem node (h : GAdder V val u η M add) (hu : 0 ≤ u) {x y r : T} {p p' t t' A A' α β : ℚ} (hvx : V x) (hvy : V y) (hx : val x = some p)
    (hy : val y = some p') (hr : add x y = some r)
    (h1 : |p - t| ≤ α * A + β) (h2 : |p' - t'| ≤ α * A' + β) (hA : |t| ≤ A) (hA' : |t'| ≤ A') :
    (∀ s, val r = some s → |s - (t + t')| ≤ ((1 + u) * (1 + α) - 1) * (A + A') + ((1 + u) * (2 * β) + η)) ∧
    ((1 + α) * (A + A') + 2 * β ≤ M → ∃ s, val r = some s) := by
  have a2 : |p + p'| ≤ |t| + |t'| + (|p - t| + |p' - t'|) := by
    calc |p + p'| = |(t + t') + ((p - t) + (p' - t'))| := by congr 1; ring
      _ ≤ _ := le_trans (abs_add_le _ _) (by linarith [abs_add_le (p - t) (p' - t'), abs_add_le t t'])
  constructor
  · intro s hs
    have he := h.err _ _ _ _ _ _ hvx hvy hx hy hr hs
    have a1 : |s - (t + t')| ≤ |s - (p + p')| + (|p - t| + |p' - t'|) := by
      calc |s - (t + t')| = |(s - (p + p')) + ((p - t) + (p' - t'))| := by congr 1; ring
        _ ≤ _ := le_trans (abs_add_le _ _) (by linarith [abs_add_le (p - t) (p' - t')])
    have a3 : u * |p + p'| ≤ u * (A + A' + (α * A + β + (α * A' + β))) := mul_le_mul_of_nonneg_left (by linarith) hu
    linarith
  · intro hb
    exact h.finite _ _ _ _ _ hvx hvy hx hy hr (by linarith)

end GAdder

theorem foldlM_terms_on {α β : Type} {f : α → Option β} {add : β → β → Option β} (xs : List α) (hf : ∀ x ∈ xs, ∃ z, f x = some z) :
    ∃ ps, List.Forall₂ (fun x z => f x = some z) xs ps ∧
      ∀ acc, xs.foldlM (fun acc x => (f x).bind (add acc)) acc = ps.foldlM add acc := by
  induction xs with
  | nil => exact ⟨[], List.Forall₂.nil, fun acc => rfl⟩
  | cons x xs ih =>
    obtain ⟨ps, h1, h2⟩ := ih fun y hy => hf y (by simp [hy])
    obtain ⟨z, hz⟩ := hf x (by simp)
    refine ⟨z :: ps, List.Forall₂.cons hz h1, fun acc => ?_⟩
    rw [List.foldlM_cons, List.foldlM_cons, hz]
    simp only [Option.bind_some]
    congr 1
    funext a
    exact h2 a

/-- `n` underflow errors, each enlarged by the later additions. -/
theorem underflow_sum {u δ : ℚ} (hu : 0 < u) (hδ : 0 ≤ δ) (n : ℕ) :
    (1 + u) ^ n * (δ + (1 + u) * δ / u) - (1 + u) * δ / u ≤ ((n + 1 : ℕ) : ℚ) * (1 + u) ^ n * δ := by
  have key : ∀ n : ℕ, (1 + u) ^ n * (1 + u) + u * (1 + u) ^ n - (1 + u) ≤ (n + 1) * u * (1 + u) ^ n := by
    intro n
    induction n with
    | zero => simp
    | succ n ih =>
      have hone : (1 : ℚ) ≤ (1 + u) ^ n := one_le_pow₀ (by linarith)
      rw [pow_succ]
      push_cast
      generalize (1 + u) ^ n = P at *
      have h1 := mul_le_mul_of_nonneg_right ih (by linarith : 0 ≤ 1 + u)
      have h2 : 0 ≤ u * (1 + u) * (P - 1) := by
        have : 0 ≤ P - 1 := by linarith
        positivity
      linarith
  have h := key n
  have e : (1 + u) ^ n * (δ + (1 + u) * δ / u) - (1 + u) * δ / u = ((1 + u) ^ n * (1 + u) + u * (1 + u) ^ n - (1 + u)) * (δ / u) := by
    field_simp; ring
  rw [e]
  have h' := mul_le_mul_of_nonneg_right h (by positivity : 0 ≤ δ / u)
  have e2 : ((n : ℚ) + 1) * u * (1 + u) ^ n * (δ / u) = ((n + 1 : ℕ) : ℚ) * (1 + u) ^ n * δ := by
    push_cast; field_simp
  linarith

end Thls
