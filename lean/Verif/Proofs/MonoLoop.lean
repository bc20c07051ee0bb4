import Verif.Props.AddMore
import Verif.Proofs.LoopAdders
import Verif.Model.Kernels

/-! # Order through accumulation loops

Over any type `T` with a datum function `val`, restricted to the valid elements `V`, for operations that return the exact result
rounded by a monotone relation `R`. -/

namespace Thls

open Spec

/-- What the order analysis needs from the results of an adder and a multiplier. -/
structure OrdCore {T : Type} (V : T → Prop) (val : T → Datum) (R : ℚ → Datum → Prop) (add mul : T → T → Option T) : Prop where
  mono : ∀ {q r : ℚ} {d d' : Datum}, q ≤ r → R q d → R r d' → d.Le d'
  add_valid : ∀ {x y r}, V x → V y → add x y = some r → V r
  add_spec : ∀ {x y r d}, V x → V y → add x y = some r → addSpecial (val x) (val y) = some d → val r = d
  add_fin : ∀ {x y r a b}, V x → V y → add x y = some r → (val x).fin = some a → (val y).fin = some b → R (a + b) (val r)
  mul_valid : ∀ {x y r}, V x → V y → mul x y = some r → V r
  mul_spec : ∀ {x y r d}, V x → V y → mul x y = some r → mulSpecial (val x) (val y) = some d → val r = d
  mul_fin : ∀ {x y r a b}, V x → V y → mul x y = some r → (val x).fin = some a → (val y).fin = some b → R (a * b) (val r)

/-- They always return. -/
structure OrdArith {T : Type} (V : T → Prop) (val : T → Datum) (R : ℚ → Datum → Prop) (add mul : T → T → Option T) : Prop
    extends OrdCore V val R add mul where
  add_total : ∀ {x y}, V x → V y → ∃ r, add x y = some r ∧ V r
  mul_total : ∀ {x y}, V x → V y → ∃ r, mul x y = some r ∧ V r

variable {T : Type} {V : T → Prop} {val : T → Datum} {R : ℚ → Datum → Prop} {add mul : T → T → Option T}

namespace OrdCore

theorem le_refl_datum {d : Datum} (h : d ≠ .nan) : d.Le d := by
  rcases d with _ | s | s | p
  · exact absurd rfl h
  · right; rfl
  · right; trivial
  · right; rfl

theorem inf_of_nonneg {s : Bool} (h : (Datum.zero false).Le (.inf s)) : s = false := by
  cases s
  · rfl
  · simp [Datum.Le, Datum.Lt, Datum.RealEq] at h

theorem add_nan (h : OrdCore V val R add mul) {x y r : T} (hx : V x) (hy : V y) (hr : add x y = some r) (hn : val r ≠ .nan) :
    val x ≠ .nan ∧ val y ≠ .nan := by
  constructor
  · intro e; exact hn (h.add_spec hx hy hr (addSpecial_nan_iff (Or.inl e)))
  · intro e; exact hn (h.add_spec hx hy hr (addSpecial_nan_iff (Or.inr e)))

theorem mul_nan (h : OrdCore V val R add mul) {x y r : T} (hx : V x) (hy : V y) (hr : mul x y = some r) (hn : val r ≠ .nan) :
    val x ≠ .nan ∧ val y ≠ .nan := by
  constructor
  · intro e; exact hn (h.mul_spec hx hy hr (by rw [e]; cases val y <;> rfl))
  · intro e; exact hn (h.mul_spec hx hy hr (by rw [e]; cases val x <;> rfl))

/-- Addition preserves order in both operands. -/
theorem add_le (h : OrdCore V val R add mul) {x y x' y' r r' : T} (hx : V x) (hy : V y) (hx' : V x') (hy' : V y')
    (h1 : (val x).Le (val x')) (h2 : (val y).Le (val y')) (hr : add x y = some r) (hr' : add x' y' = some r')
    (hn : val r ≠ .nan) (hn' : val r' ≠ .nan) : (val r).Le (val r') := by
  obtain ⟨nx, nx'⟩ := le_not_nan h1
  obtain ⟨ny, ny'⟩ := le_not_nan h2
  have bot : (val x = .inf true ∨ val y = .inf true) → val r = .inf true := by
    rintro (e | e)
    · by_cases e2 : val y = .inf false
      · exact absurd (h.add_spec hx hy hr (addSpecial_nan e e2)) hn
      · exact h.add_spec hx hy hr (addSpecial_inf_left e ny e2)
    · rcases hd : val x with _ | s | s | p
      · exact absurd hd nx
      · cases s
        · exact absurd (h.add_spec hx hy hr (addSpecial_nan hd e)) hn
        · exact h.add_spec hx hy hr (by rw [hd, e]; rfl)
      · exact h.add_spec hx hy hr (by rw [hd, e]; rfl)
      · exact h.add_spec hx hy hr (by rw [hd, e]; rfl)
  have top : (val x' = .inf false ∨ val y' = .inf false) → val r' = .inf false := by
    rintro (e | e)
    · by_cases e2 : val y' = .inf true
      · exact absurd (h.add_spec hx' hy' hr' (addSpecial_nan e e2)) hn'
      · exact h.add_spec hx' hy' hr' (addSpecial_inf_left e ny' e2)
    · rcases hd : val x' with _ | s | s | p
      · exact absurd hd nx'
      · cases s
        · exact h.add_spec hx' hy' hr' (by rw [hd, e]; rfl)
        · exact absurd (h.add_spec hx' hy' hr' (addSpecial_nan hd e)) hn'
      · exact h.add_spec hx' hy' hr' (by rw [hd, e]; rfl)
      · exact h.add_spec hx' hy' hr' (by rw [hd, e]; rfl)
  by_cases b : val x = .inf true ∨ val y = .inf true
  · rw [bot b]; exact bot_le hn'
  by_cases t : val x' = .inf false ∨ val y' = .inf false
  · rw [top t]; exact le_top hn
  push Not at b t
  have fin : ∀ {d d' : Datum}, d.Le d' → d ≠ .inf true → d' ≠ .inf false → ∃ u v, d.fin = some u ∧ d'.fin = some v ∧ u ≤ v := by
    intro d d' hle n1 n2
    obtain ⟨m1, m2⟩ := le_not_nan hle
    rcases fin_or m1 with ⟨u, hu⟩ | ⟨s, hs⟩
    · rcases fin_or m2 with ⟨v, hv⟩ | ⟨s, hs⟩
      · exact ⟨u, v, hu, hv, le_fin hu hv hle⟩
      · cases s
        · exact absurd hs n2
        · rw [hs] at hle; exact absurd (le_bot hle) n1
    · cases s
      · rw [hs] at hle; exact absurd (top_le hle) n2
      · exact absurd hs n1
  obtain ⟨u, u', e1, e2, e3⟩ := fin h1 b.1 t.1
  obtain ⟨v, v', f1, f2, f3⟩ := fin h2 b.2 t.2
  exact h.mono (by linarith) (h.add_fin hx hy hr e1 f1) (h.add_fin hx' hy' hr' e2 f2)

/-- Multiplication preserves the order of factors that are not negative. -/
theorem mul_le (h : OrdCore V val R add mul) {x y x' y' r r' : T} (hx : V x) (hy : V y) (hx' : V x') (hy' : V y')
    (px : (Datum.zero false).Le (val x)) (py : (Datum.zero false).Le (val y))
    (h1 : (val x).Le (val x')) (h2 : (val y).Le (val y')) (hr : mul x y = some r) (hr' : mul x' y' = some r')
    (hn : val r ≠ .nan) (hn' : val r' ≠ .nan) : (val r).Le (val r') := by
  obtain ⟨nx, nx'⟩ := le_not_nan h1
  obtain ⟨ny, ny'⟩ := le_not_nan h2
  have px' := le_trans_datum px h1
  have py' := le_trans_datum py h2
  have sgn : ∀ {q : ℚ}, (Datum.zero false).Le (.num q) → (Datum.num q).isNeg = false := by
    intro q hq
    have : 0 ≤ q := le_fin (a := .zero false) (b := .num q) rfl rfl hq
    simp [Datum.isNeg, this]
  have top : (val x' = .inf false ∨ val y' = .inf false) → val r' = .inf false := by
    rintro (e | e)
    · rcases hd : val y' with _ | s | s | p
      · exact absurd hd ny'
      · rw [hd] at py'; have := inf_of_nonneg py'; subst this
        exact h.mul_spec hx' hy' hr' (by rw [hd, e]; rfl)
      · exact absurd (h.mul_spec hx' hy' hr' (d := .nan) (by rw [hd, e]; rfl)) hn'
      · rw [hd] at py'
        exact h.mul_spec hx' hy' hr' (by rw [hd, e]; simp [mulSpecial, sgn py'])
    · rcases hd : val x' with _ | s | s | p
      · exact absurd hd nx'
      · rw [hd] at px'; have := inf_of_nonneg px'; subst this
        exact h.mul_spec hx' hy' hr' (by rw [hd, e]; rfl)
      · exact absurd (h.mul_spec hx' hy' hr' (d := .nan) (by rw [hd, e]; rfl)) hn'
      · rw [hd] at px'
        exact h.mul_spec hx' hy' hr' (by rw [hd, e]; simp [mulSpecial, sgn px'])
  by_cases t : val x' = .inf false ∨ val y' = .inf false
  · rw [top t]; exact le_top hn
  push Not at t
  have fin : ∀ {d d' : Datum}, (Datum.zero false).Le d → d.Le d' → d' ≠ .inf false →
      ∃ u v, d.fin = some u ∧ d'.fin = some v ∧ 0 ≤ u ∧ u ≤ v := by
    intro d d' hp hle n2
    obtain ⟨m1, m2⟩ := le_not_nan hle
    rcases fin_or m1 with ⟨u, hu⟩ | ⟨s, hs⟩
    · rcases fin_or m2 with ⟨v, hv⟩ | ⟨s, hs⟩
      · exact ⟨u, v, hu, hv, le_fin (a := .zero false) rfl hu hp, le_fin hu hv hle⟩
      · have := le_trans_datum hp hle
        rw [hs] at this; rw [inf_of_nonneg this] at hs
        exact absurd hs n2
    · rw [hs] at hp; rw [inf_of_nonneg hp] at hs; rw [hs] at hle
      exact absurd (top_le hle) n2
  obtain ⟨u, u', e1, e2, e3, e4⟩ := fin px h1 t.1
  obtain ⟨v, v', f1, f2, f3, f4⟩ := fin py h2 t.2
  exact h.mono (mul_le_mul e4 f4 f3 (by linarith)) (h.mul_fin hx hy hr e1 f1) (h.mul_fin hx' hy' hr' e2 f2)

/-- One step of a dot product. -/
def dotStep (add mul : T → T → Option T) (acc : T) (p : T × T) : Option T := (mul p.1 p.2).bind (add acc)

theorem fold_le_returned (h : OrdCore V val R add mul) {xs ys : List T}
    (hxy : List.Forall₂ (fun x y => V x ∧ V y ∧ (val x).Le (val y)) xs ys) :
    ∀ {a b r s : T}, V a → V b → (val a ≠ .nan → val b ≠ .nan → (val a).Le (val b)) →
      xs.foldlM add a = some r → ys.foldlM add b = some s →
      (val r ≠ .nan → val s ≠ .nan → (val r).Le (val s)) := by
  induction hxy with
  | nil =>
    intro a b r s ha hb hab hr hs
    cases hr; cases hs
    exact hab
  | cons hh _ ih =>
    rename_i x y xs ys _
    intro a b r s ha hb hab hr hs
    rw [List.foldlM_cons] at hr hs
    obtain ⟨p, e1, hr⟩ := Option.bind_eq_some_iff.mp hr
    obtain ⟨q, e2, hs⟩ := Option.bind_eq_some_iff.mp hs
    exact ih (h.add_valid ha hh.1 e1) (h.add_valid hb hh.2.1 e2) (fun n1 n2 =>
      h.add_le ha hh.1 hb hh.2.1 (hab (h.add_nan ha hh.1 e1 n1).1 (h.add_nan hb hh.2.1 e2 n2).1) hh.2.2 e1 e2 n1 n2) hr hs

theorem dot_le_returned (h : OrdCore V val R add mul) {xs ys : List (T × T)}
    (hxy : List.Forall₂ (fun p q => (V p.1 ∧ V p.2 ∧ V q.1 ∧ V q.2) ∧ (Datum.zero false).Le (val p.1) ∧ (Datum.zero false).Le (val p.2) ∧
      (val p.1).Le (val q.1) ∧ (val p.2).Le (val q.2)) xs ys) :
    ∀ {a b r s : T}, V a → V b → (val a ≠ .nan → val b ≠ .nan → (val a).Le (val b)) →
      xs.foldlM (dotStep add mul) a = some r → ys.foldlM (dotStep add mul) b = some s →
        (val r ≠ .nan → val s ≠ .nan → (val r).Le (val s)) := by
  induction hxy with
  | nil =>
    intro a b r s ha hb hab hr hs
    cases hr; cases hs
    exact hab
  | cons hh _ ih =>
    rename_i x y xs ys _
    intro a b r s ha hb hab hr hs
    obtain ⟨⟨w1, w2, w3, w4⟩, p1, p2, l1, l2⟩ := hh
    rw [List.foldlM_cons] at hr hs
    obtain ⟨p, e1, hr⟩ := Option.bind_eq_some_iff.mp hr
    obtain ⟨q, e2, hs⟩ := Option.bind_eq_some_iff.mp hs
    obtain ⟨m, d1, e1⟩ := Option.bind_eq_some_iff.mp e1
    obtain ⟨m', d2, e2⟩ := Option.bind_eq_some_iff.mp e2
    have v1 := h.mul_valid w1 w2 d1
    have v2 := h.mul_valid w3 w4 d2
    refine ih (h.add_valid ha v1 e1) (h.add_valid hb v2 e2) (fun n1 n2 => ?_) hr hs
    obtain ⟨c1, c2⟩ := h.add_nan ha v1 e1 n1
    obtain ⟨c3, c4⟩ := h.add_nan hb v2 e2 n2
    exact h.add_le ha v1 hb v2 (hab c1 c3) (h.mul_le w1 w2 w3 w4 p1 p2 l1 l2 d1 d2 c2 c4) e1 e2 n1 n2

end OrdCore

namespace OrdArith

open OrdCore

/-- A zero plus an element is the element. -/
theorem zero_add_le (h : OrdArith V val R add mul) {z x r : T} {s : Bool} (hz : V z) (hx : V x) (hz0 : val z = .zero s)
    (hr : add z x = some r) (hn : val x ≠ .nan) : (val x).Le (val r) ∧ (val r).Le (val x) := by
  rcases hd : val x with _ | t | t | p
  · exact absurd hd hn
  · rw [h.add_spec hz hx hr (d := .inf t) (by rw [hz0, hd]; rfl)]
    exact ⟨Or.inr rfl, Or.inr rfl⟩
  · rw [h.add_spec hz hx hr (d := .zero (s && t)) (by rw [hz0, hd]; rfl)]
    exact ⟨Or.inr trivial, Or.inr trivial⟩
  · rw [h.add_spec hz hx hr (d := .num p) (by rw [hz0, hd]; rfl)]
    exact ⟨Or.inr rfl, Or.inr rfl⟩

/-- The sum of elements that are not negative is neither a NaN nor negative, nor smaller than either of them. -/
theorem add_nonneg (h : OrdArith V val R add mul) {z x y r : T} {s : Bool} (hz : V z) (hz0 : val z = .zero s) (hx : V x) (hy : V y)
    (px : (Datum.zero false).Le (val x)) (py : (Datum.zero false).Le (val y)) (hr : add x y = some r) :
    (Datum.zero false).Le (val r) ∧ (val x).Le (val r) ∧ (val y).Le (val r) := by
  obtain ⟨-, nx⟩ := le_not_nan px
  obtain ⟨-, ny⟩ := le_not_nan py
  have z0 : ∀ {d : Datum}, (Datum.zero false).Le d → (val z).Le d := by
    intro d hd; rw [hz0]; exact le_trans_datum (b := .zero false) (Or.inr trivial) hd
  have hn : val r ≠ .nan := by
    rcases fin_or nx with ⟨u, hu⟩ | ⟨t, ht⟩
    · rcases fin_or ny with ⟨v, hv⟩ | ⟨t, ht⟩
      · obtain ⟨q, hq, hv'⟩ := h.add_total hz hz
        have e := h.add_spec hz hz hq (d := .zero (s && s)) (by rw [hz0]; rfl)
        have r0 := h.add_fin hz hz hq (a := 0) (b := 0) (by rw [hz0]; rfl) (by rw [hz0]; rfl)
        have u0 := le_fin (a := .zero false) rfl hu px
        have v0 := le_fin (a := .zero false) rfl hv py
        exact (le_not_nan (h.mono (by linarith) r0 (h.add_fin hx hy hr hu hv))).2
      · rw [h.add_spec hx hy hr (d := .inf t) (by
          rw [ht]; rcases hd : val x with _ | k | k | p
          · exact absurd hd nx
          · rw [hd] at hu; cases hu
          · rfl
          · rfl)]
        simp
    · rw [ht] at px; have := inf_of_nonneg px; subst this
      have e2 : val y ≠ .inf true := by
        intro e; rw [e] at py; cases inf_of_nonneg py
      rw [h.add_spec hx hy hr (addSpecial_inf_left ht ny e2)]
      simp
  obtain ⟨q, hq, -⟩ := h.add_total hz hy
  obtain ⟨a1, a2⟩ := h.zero_add_le hz hy hz0 hq ny
  have hqn : val q ≠ .nan := (le_not_nan a1).2
  have hyr := le_trans_datum a1 (h.add_le hz hy hx hy (z0 px) (le_refl_datum ny) hq hr hqn hn)
  obtain ⟨q', hq', -⟩ := h.add_total hx hz
  have e' : (val x).Le (val q') := by
    rcases hd : val x with _ | t | t | p
    · exact absurd hd nx
    · rw [h.add_spec hx hz hq' (d := .inf t) (by rw [hz0, hd]; rfl)]; exact Or.inr rfl
    · rw [h.add_spec hx hz hq' (d := .zero (t && s)) (by rw [hz0, hd]; rfl)]; exact Or.inr trivial
    · rw [h.add_spec hx hz hq' (d := .num p) (by rw [hz0, hd]; rfl)]; exact Or.inr rfl
  have hxr := le_trans_datum e' (h.add_le hx hz hx hy (le_refl_datum nx) (z0 py) hq' hr (le_not_nan e').2 hn)
  exact ⟨le_trans_datum px hxr, hxr, hyr⟩

/-- The product of factors that are not negative is not negative, unless it is a NaN. -/
theorem mul_nonneg' (h : OrdArith V val R add mul) {z x y r : T} {s : Bool} (hz : V z) (hz0 : val z = .zero s) (hx : V x) (hy : V y)
    (px : (Datum.zero false).Le (val x)) (py : (Datum.zero false).Le (val y)) (hr : mul x y = some r) (hn : val r ≠ .nan) :
    (Datum.zero false).Le (val r) := by
  obtain ⟨q, hq, -⟩ := h.mul_total hz hz
  have e := h.mul_spec hz hz hq (d := .zero (s != s)) (by rw [hz0]; rfl)
  have pz : (Datum.zero false).Le (val z) := by rw [hz0]; exact Or.inr trivial
  have z0 : ∀ {d : Datum}, (Datum.zero false).Le d → (val z).Le d := by
    intro d hd; rw [hz0]; exact le_trans_datum (b := .zero false) (Or.inr trivial) hd
  have := h.mul_le hz hz hx hy pz pz (z0 px) (z0 py) hq hr (by rw [e]; simp) hn
  rw [e] at this
  exact le_trans_datum (a := .zero false) (b := .zero (s != s)) (Or.inr trivial) this

/-! ## Loops over lists -/

theorem fold_le (h : OrdArith V val R add mul) {xs ys : List T} (hxy : List.Forall₂ (fun x y => V x ∧ V y ∧ (val x).Le (val y)) xs ys) :
    ∀ {a b : T}, V a → V b → (val a ≠ .nan → val b ≠ .nan → (val a).Le (val b)) →
      ∃ r s, xs.foldlM add a = some r ∧ ys.foldlM add b = some s ∧ (val r ≠ .nan → val s ≠ .nan → (val r).Le (val s)) ∧
        (val r ≠ .nan → val a ≠ .nan) ∧ (val s ≠ .nan → val b ≠ .nan) := by
  induction hxy with
  | nil => intro a b ha hb hab; exact ⟨a, b, rfl, rfl, hab, id, id⟩
  | cons hh _ ih =>
    rename_i x y xs ys _
    intro a b ha hb hab
    obtain ⟨p, e1, v1⟩ := h.add_total ha hh.1
    obtain ⟨q, e2, v2⟩ := h.add_total hb hh.2.1
    obtain ⟨r, s, f1, f2, f3, f4, f5⟩ := ih v1 v2 fun n1 n2 =>
      h.add_le ha hh.1 hb hh.2.1 (hab (h.add_nan ha hh.1 e1 n1).1 (h.add_nan hb hh.2.1 e2 n2).1) hh.2.2 e1 e2 n1 n2
    exact ⟨r, s, by rw [List.foldlM_cons, e1]; exact f1, by rw [List.foldlM_cons, e2]; exact f2, f3,
      fun n => (h.add_nan ha hh.1 e1 (f4 n)).1, fun n => (h.add_nan hb hh.2.1 e2 (f5 n)).1⟩

theorem fold_ge (h : OrdArith V val R add mul) {z : T} {s : Bool} (hz : V z) (hz0 : val z = .zero s) (xs : List T) :
    ∀ {a : T}, V a → (Datum.zero false).Le (val a) → (∀ x ∈ xs, V x ∧ (Datum.zero false).Le (val x)) →
      ∃ r, xs.foldlM add a = some r ∧ V r ∧ (Datum.zero false).Le (val r) ∧ (val a).Le (val r) ∧ ∀ x ∈ xs, (val x).Le (val r) := by
  induction xs with
  | nil => intro a ha pa _; exact ⟨a, rfl, ha, pa, le_refl_datum (le_not_nan pa).2, by simp⟩
  | cons x xs ih =>
    intro a ha pa hx
    obtain ⟨vx, px⟩ := hx x (by simp)
    obtain ⟨p, e1, v1⟩ := h.add_total ha vx
    obtain ⟨g1, g2, g3⟩ := h.add_nonneg hz hz0 ha vx pa px e1
    obtain ⟨r, f1, f2, f3, f4, f5⟩ := ih v1 g1 fun y hy => hx y (by simp [hy])
    refine ⟨r, by rw [List.foldlM_cons, e1]; exact f1, f2, f3, le_trans_datum g2 f4, ?_⟩
    intro y hy
    rcases List.mem_cons.mp hy with rfl | hy
    · exact le_trans_datum g3 f4
    · exact f5 y hy

theorem dot_le (h : OrdArith V val R add mul) {xs ys : List (T × T)}
    (hxy : List.Forall₂ (fun p q => (V p.1 ∧ V p.2 ∧ V q.1 ∧ V q.2) ∧ (Datum.zero false).Le (val p.1) ∧ (Datum.zero false).Le (val p.2) ∧
      (val p.1).Le (val q.1) ∧ (val p.2).Le (val q.2)) xs ys) :
    ∀ {a b : T}, V a → V b → (val a ≠ .nan → val b ≠ .nan → (val a).Le (val b)) →
      ∃ r s, xs.foldlM (dotStep add mul) a = some r ∧ ys.foldlM (dotStep add mul) b = some s ∧
        (val r ≠ .nan → val s ≠ .nan → (val r).Le (val s)) ∧ (val r ≠ .nan → val a ≠ .nan) ∧ (val s ≠ .nan → val b ≠ .nan) := by
  induction hxy with
  | nil => intro a b ha hb hab; exact ⟨a, b, rfl, rfl, hab, id, id⟩
  | cons hh _ ih =>
    rename_i x y xs ys _
    intro a b ha hb hab
    obtain ⟨⟨w1, w2, w3, w4⟩, p1, p2, l1, l2⟩ := hh
    obtain ⟨m, e1, v1⟩ := h.mul_total w1 w2
    obtain ⟨m', e2, v2⟩ := h.mul_total w3 w4
    obtain ⟨p, e3, v3⟩ := h.add_total ha v1
    obtain ⟨q, e4, v4⟩ := h.add_total hb v2
    obtain ⟨r, s, f1, f2, f3, f4, f5⟩ := ih v3 v4 fun n1 n2 => by
      obtain ⟨c1, c2⟩ := h.add_nan ha v1 e3 n1
      obtain ⟨c3, c4⟩ := h.add_nan hb v2 e4 n2
      exact h.add_le ha v1 hb v2 (hab c1 c3) (h.mul_le w1 w2 w3 w4 p1 p2 l1 l2 e1 e2 c2 c4) e3 e4 n1 n2
    have s1 : dotStep add mul a x = some p := by unfold dotStep; rw [e1]; exact e3
    have s2 : dotStep add mul b y = some q := by unfold dotStep; rw [e2]; exact e4
    exact ⟨r, s, by rw [List.foldlM_cons, s1]; exact f1, by rw [List.foldlM_cons, s2]; exact f2, f3,
      fun n => (h.add_nan ha v1 e3 (f4 n)).1, fun n => (h.add_nan hb v2 e4 (f5 n)).1⟩

/-! ## Loops over arrays -/

theorem sumArray_le (h : OrdArith V val R add mul) {z : T} (hz : V z) (x y : ℕ → T) (n : ℕ) (hx : ∀ i < n, V (x i)) (hy : ∀ i < n, V (y i))
    (hxy : ∀ i < n, (val (x i)).Le (val (y i))) :
    ∃ r s, Kernel.sumArray add z x n = some r ∧ Kernel.sumArray add z y n = some s ∧ (V r ∧ V s) ∧
      (val r ≠ .nan → val s ≠ .nan → (val r).Le (val s)) := by
  induction n with
  | zero => exact ⟨z, z, rfl, rfl, ⟨hz, hz⟩, fun h _ => le_refl_datum h⟩
  | succ n ih =>
    obtain ⟨r, s, h1, h2, ⟨h3, h4⟩, h5⟩ := ih (fun i hi => hx i (by omega)) (fun i hi => hy i (by omega)) (fun i hi => hxy i (by omega))
    obtain ⟨p, e1, v1⟩ := h.add_total h3 (hx n (by omega))
    obtain ⟨q, e2, v2⟩ := h.add_total h4 (hy n (by omega))
    refine ⟨p, q, by simp only [Kernel.sumArray, h1]; exact e1, by simp only [Kernel.sumArray, h2]; exact e2, ⟨v1, v2⟩, fun n1 n2 => ?_⟩
    obtain ⟨c1, -⟩ := h.add_nan h3 (hx n (by omega)) e1 n1
    obtain ⟨c2, -⟩ := h.add_nan h4 (hy n (by omega)) e2 n2
    exact h.add_le h3 (hx n (by omega)) h4 (hy n (by omega)) (h5 c1 c2) (hxy n (by omega)) e1 e2 n1 n2

theorem sumArray_ge (h : OrdArith V val R add mul) {z : T} {s : Bool} (hz : V z) (hz0 : val z = .zero s) (x : ℕ → T) (n : ℕ)
    (hx : ∀ i < n, V (x i) ∧ (Datum.zero false).Le (val (x i))) :
    ∃ r, Kernel.sumArray add z x n = some r ∧ V r ∧ (Datum.zero false).Le (val r) ∧ (∀ i < n, (val (x i)).Le (val r)) ∧
      ∀ m ≤ n, ∃ q, Kernel.sumArray add z x m = some q ∧ (val q).Le (val r) := by
  induction n with
  | zero =>
    refine ⟨z, rfl, hz, by rw [hz0]; exact Or.inr trivial, by simp, ?_⟩
    intro m hm
    obtain rfl : m = 0 := by omega
    exact ⟨z, rfl, by rw [hz0]; exact Or.inr trivial⟩
  | succ n ih =>
    obtain ⟨r, h1, h2, h3, h4, h5⟩ := ih fun i hi => hx i (by omega)
    obtain ⟨v, p⟩ := hx n (by omega)
    obtain ⟨q, e1, v1⟩ := h.add_total h2 v
    obtain ⟨g1, g2, g3⟩ := h.add_nonneg hz hz0 h2 v h3 p e1
    have e : Kernel.sumArray add z x (n + 1) = some q := by simp only [Kernel.sumArray, h1]; exact e1
    refine ⟨q, e, v1, g1, fun i hi => ?_, fun m hm => ?_⟩
    · rcases Nat.lt_succ_iff_lt_or_eq.1 hi with hi | rfl
      · exact le_trans_datum (h4 i hi) g2
      · exact g3
    · rcases Nat.lt_or_ge m (n + 1) with hm' | hm'
      · obtain ⟨t, a, b⟩ := h5 m (by omega)
        exact ⟨t, a, le_trans_datum b g2⟩
      · obtain rfl : m = n + 1 := by omega
        exact ⟨q, e, le_refl_datum (le_not_nan g1).2⟩

theorem dotProduct_le (h : OrdArith V val R add mul) {z : T} (hz : V z) (a b a' b' : ℕ → T) (n : ℕ)
    (hv : ∀ i < n, V (a i) ∧ V (b i) ∧ V (a' i) ∧ V (b' i))
    (hab : ∀ i < n, (Datum.zero false).Le (val (a i)) ∧ (Datum.zero false).Le (val (b i)) ∧ (val (a i)).Le (val (a' i)) ∧
      (val (b i)).Le (val (b' i))) :
    ∃ r s, Kernel.dotProduct add mul z a b n = some r ∧ Kernel.dotProduct add mul z a' b' n = some s ∧ (V r ∧ V s) ∧
      (val r ≠ .nan → val s ≠ .nan → (val r).Le (val s)) := by
  induction n with
  | zero => exact ⟨z, z, rfl, rfl, ⟨hz, hz⟩, fun h _ => le_refl_datum h⟩
  | succ n ih =>
    obtain ⟨r, s, h1, h2, ⟨h3, h4⟩, h5⟩ := ih (fun i hi => hv i (by omega)) (fun i hi => hab i (by omega))
    obtain ⟨w1, w2, w3, w4⟩ := hv n (by omega)
    obtain ⟨p1, p2, l1, l2⟩ := hab n (by omega)
    obtain ⟨m, d1, x1⟩ := h.mul_total w1 w2
    obtain ⟨m', d2, x2⟩ := h.mul_total w3 w4
    obtain ⟨p, e1, v1⟩ := h.add_total h3 x1
    obtain ⟨q, e2, v2⟩ := h.add_total h4 x2
    refine ⟨p, q, by simp only [Kernel.dotProduct, h1, d1]; exact e1, by simp only [Kernel.dotProduct, h2, d2]; exact e2, ⟨v1, v2⟩,
      fun n1 n2 => ?_⟩
    obtain ⟨c1, c2⟩ := h.add_nan h3 x1 e1 n1
    obtain ⟨c3, c4⟩ := h.add_nan h4 x2 e2 n2
    exact h.add_le h3 x1 h4 x2 (h5 c1 c3) (h.mul_le w1 w2 w3 w4 p1 p2 l1 l2 d1 d2 c2 c4) e1 e2 n1 n2

end OrdArith

end Thls
