import Verif.Proofs.Tree
import Verif.Proofs.GenHorner
import Verif.Props.Loops

/-! # Error analysis of sums of computed terms in any order and bracketing -/

namespace Thls
open Spec

namespace GTree

variable {A T : Type} {V : T → Prop} {val : T → Option ℚ} {u κ top : ℚ} {add : T → T → Option T} {term : A → Option T}

theorem terms_total {η : ℚ} (hA : GAdder V val u η top add) (t : AddTree A) (hV : ∀ x ∈ t.leaves, ∃ r, term x = some r ∧ V r) :
    ∃ r, t.computeTerms term add = some r ∧ V r := by
  induction t with
  | leaf x => exact hV x (by simp [AddTree.leaves])
  | node l r h1 h2 =>
    obtain ⟨a, ha, wa⟩ := h1 fun x hx => hV x (by simp [AddTree.leaves, hx])
    obtain ⟨b, hb, wb⟩ := h2 fun x hx => hV x (by simp [AddTree.leaves, hx])
    obtain ⟨s, hs, ws⟩ := hA.total a b wa wb
    exact ⟨s, by simp [AddTree.computeTerms, ha, hb, hs], ws⟩

theorem terms_sticky {η : ℚ} (hA : GAdder V val u η top add) (t : AddTree A) (hV : ∀ x ∈ t.leaves, ∃ r, term x = some r ∧ V r) {z : T}
    (hr : t.computeTerms term add = some z) (hn : ∃ x ∈ t.leaves, ∃ r, term x = some r ∧ val r = none) : val z = none := by
  induction t generalizing z with
  | leaf x =>
    obtain ⟨y, hy, r, h1, h2⟩ := hn
    rw [List.mem_singleton.mp hy] at h1
    obtain rfl := Option.some.inj (h1.symm.trans hr)
    exact h2
  | node l r h1 h2 =>
    have w1 : ∀ x ∈ l.leaves, ∃ r, term x = some r ∧ V r := fun x hx => hV x (by simp [AddTree.leaves, hx])
    have w2 : ∀ x ∈ r.leaves, ∃ r, term x = some r ∧ V r := fun x hx => hV x (by simp [AddTree.leaves, hx])
    obtain ⟨a, ha, wa⟩ := terms_total hA l w1
    obtain ⟨b, hb, wb⟩ := terms_total hA r w2
    simp only [AddTree.computeTerms, ha, hb, Option.bind_eq_bind, Option.bind_some] at hr
    obtain ⟨y, hy, h⟩ := hn
    refine hA.sticky _ _ _ wa wb hr ?_
    rcases List.mem_append.mp hy with hy | hy
    · exact Or.inl (h1 w1 ha ⟨y, hy, h⟩)
    · exact Or.inr (h2 w2 hb ⟨y, hy, h⟩)

/-- The terms are `w`, of size at most `W`, computed with the relative error `c - 1`. -/
theorem terms_error (hA : GAdder V val u (u * κ) top add) (hu : 0 < u) (hκ : 0 ≤ κ) {c : ℚ} (hc : 1 ≤ c) (w W : A → ℚ) (t : AddTree A)
    (hV : ∀ x ∈ t.leaves, ∃ r, term x = some r ∧ V r) (hW : ∀ x ∈ t.leaves, |w x| ≤ W x)
    (he : ∀ x ∈ t.leaves, ∀ r s, term x = some r → val r = some s → |s - w x| ≤ (c - 1) * W x)
    (hf : ∀ x ∈ t.leaves, ∀ r, term x = some r → c * W x ≤ top → ∃ s, val r = some s)
    {z : T} (hr : t.computeTerms term add = some z) :
    (∀ s, val z = some s → |s - (t.leaves.map w).sum| ≤
      (c * (1 + u) ^ t.height - 1) * ((t.leaves.map W).sum + (t.leaves.length - 1) * κ)) ∧
    (c * (1 + u) ^ t.height * ((t.leaves.map W).sum + (t.leaves.length - 1) * κ) ≤ top → ∃ s, val z = some s) := by
  induction t generalizing z with
  | leaf x =>
    have hx : x ∈ (AddTree.leaf x).leaves := by simp [AddTree.leaves]
    simp only [AddTree.leaves, AddTree.height, List.map_cons, List.map_nil, List.sum_cons, List.sum_nil, List.length_singleton,
      Nat.cast_one, sub_self, zero_mul, add_zero, pow_zero, mul_one]
    exact ⟨fun s hs => he x hx _ _ hr hs, fun ht => hf x hx _ hr ht⟩
  | node l r h1 h2 =>
    have m1 : ∀ x ∈ l.leaves, x ∈ (l.node r).leaves := fun x hx => by simp [AddTree.leaves, hx]
    have m2 : ∀ x ∈ r.leaves, x ∈ (l.node r).leaves := fun x hx => by simp [AddTree.leaves, hx]
    have w1 : ∀ x ∈ l.leaves, ∃ r, term x = some r ∧ V r := fun x hx => hV x (m1 x hx)
    have w2 : ∀ x ∈ r.leaves, ∃ r, term x = some r ∧ V r := fun x hx => hV x (m2 x hx)
    obtain ⟨a, ha, wa⟩ := terms_total hA l w1
    obtain ⟨b, hb, wb⟩ := terms_total hA r w2
    simp only [AddTree.computeTerms, ha, hb, Option.bind_eq_bind, Option.bind_some] at hr
    obtain ⟨e1, f1⟩ := h1 w1 (fun x hx => hW x (m1 x hx)) (fun x hx => he x (m1 x hx)) (fun x hx => hf x (m1 x hx)) ha
    obtain ⟨e2, f2⟩ := h2 w2 (fun x hx => hW x (m2 x hx)) (fun x hx => he x (m2 x hx)) (fun x hx => hf x (m2 x hx)) hb
    have nn : ∀ t : AddTree A, (∀ x ∈ t.leaves, |w x| ≤ W x) → |(t.leaves.map w).sum| ≤ (t.leaves.map W).sum := fun t h =>
      le_trans (abs_sum_map_le w _) (List.sum_le_sum h)
    have t1 := nn l (fun x hx => hW x (m1 x hx))
    have t2 := nn r (fun x hx => hW x (m2 x hx))
    have s1 := le_trans (abs_nonneg _) t1
    have s2 := le_trans (abs_nonneg _) t2
    have n1 : (0 : ℚ) ≤ (l.leaves.length : ℚ) - 1 := by have : ((1 : ℕ) : ℚ) ≤ l.leaves.length := by exact_mod_cast leaves_pos l
                                                        push_cast at this; linarith
    have n2 : (0 : ℚ) ≤ (r.leaves.length : ℚ) - 1 := by have : ((1 : ℕ) : ℚ) ≤ r.leaves.length := by exact_mod_cast leaves_pos r
                                                        push_cast at this; linarith
    simp only [AddTree.leaves, AddTree.height, List.map_append, List.sum_append, List.length_append, Nat.cast_add]
    generalize (l.leaves.map w).sum = p at *
    generalize (r.leaves.map w).sum = q at *
    generalize (l.leaves.map W).sum = P at *
    generalize (r.leaves.map W).sum = Q at *
    generalize (l.leaves.length : ℚ) = n at *
    generalize (r.leaves.length : ℚ) = m at *
    have c0 : (0 : ℚ) ≤ c := by linarith
    have gl : c * (1 + u) ^ l.height ≤ c * (1 + u) ^ max l.height r.height :=
      mul_le_mul_of_nonneg_left (pow_le_pow_right₀ (by linarith) (le_max_left _ _)) c0
    have gr : c * (1 + u) ^ r.height ≤ c * (1 + u) ^ max l.height r.height :=
      mul_le_mul_of_nonneg_left (pow_le_pow_right₀ (by linarith) (le_max_right _ _)) c0
    have gp : (1 : ℚ) ≤ c * (1 + u) ^ max l.height r.height := by
      have : (1 : ℚ) ≤ (1 + u) ^ max l.height r.height := one_le_pow₀ (by linarith)
      nlinarith
    rw [pow_succ, ← mul_assoc]
    generalize c * (1 + u) ^ max l.height r.height = g at *
    have P0 : 0 ≤ P + (n - 1) * κ := add_nonneg s1 (mul_nonneg n1 hκ)
    have Q0 : 0 ≤ Q + (m - 1) * κ := add_nonneg s2 (mul_nonneg n2 hκ)
    have p0 : P ≤ P + (n - 1) * κ := le_add_of_nonneg_right (mul_nonneg n1 hκ)
    have q0 : Q ≤ Q + (m - 1) * κ := le_add_of_nonneg_right (mul_nonneg n2 hκ)
    rw [show P + Q + (n + m - 1) * κ = (P + (n - 1) * κ) + (Q + (m - 1) * κ) + κ by ring]
    generalize P + (n - 1) * κ = X at *
    generalize Q + (m - 1) * κ = Y at *
    have key : ∀ x y, val a = some x → val b = some y → |x - p| ≤ (g - 1) * X ∧ |y - q| ≤ (g - 1) * Y ∧ |x + y| ≤ g * (X + Y) := by
      intro x y hx hy
      have a1 : |x - p| ≤ (g - 1) * X := le_trans (e1 x hx) (mul_le_mul_of_nonneg_right (by linarith) P0)
      have a2 : |y - q| ≤ (g - 1) * Y := le_trans (e2 y hy) (mul_le_mul_of_nonneg_right (by linarith) Q0)
      refine ⟨a1, a2, ?_⟩
      have b1 := abs_add_le (x - p) p
      have b2 := abs_add_le (y - q) q
      have b3 := abs_add_le x y
      rw [sub_add_cancel] at b1 b2
      have : g * (X + Y) = (g - 1) * X + (g - 1) * Y + X + Y := by ring
      linarith
    have g0 : 0 ≤ (g - 1) * κ := mul_nonneg (by linarith) hκ
    have g1 : 0 ≤ g * u * κ := mul_nonneg (mul_nonneg (by linarith) hu.le) hκ
    have g2 : 0 ≤ (g - 1) * (u * κ) := mul_nonneg (by linarith) (mul_nonneg hu.le hκ)
    constructor
    · intro s hs
      cases hav : val a with
      | none => rw [hA.sticky _ _ _ wa wb hr (Or.inl hav)] at hs; cases hs
      | some x =>
        cases hbv : val b with
        | none => rw [hA.sticky _ _ _ wa wb hr (Or.inr hbv)] at hs; cases hs
        | some y =>
          obtain ⟨k1, k2, k3⟩ := key x y hav hbv
          have k4 := hA.err _ _ _ _ _ _ wa wb hav hbv hr hs
          have k5 : u * |x + y| ≤ u * (g * (X + Y)) := mul_le_mul_of_nonneg_left k3 hu.le
          have k6 := abs_add_le (s - (x + y)) ((x - p) + (y - q))
          have k7 := abs_add_le (x - p) (y - q)
          rw [show s - (x + y) + ((x - p) + (y - q)) = s - (p + q) by ring] at k6
          have : (g * (1 + u) - 1) * (X + Y + κ) = (g - 1) * X + (g - 1) * Y + u * (g * (X + Y)) + (g - 1) * κ + (g - 1) * (u * κ) + u * κ := by
            ring
          linarith
    · intro ht
      have d1 : 0 ≤ g * X := mul_nonneg (by linarith) P0
      have d2 : 0 ≤ g * Y := mul_nonneg (by linarith) Q0
      have d3 : 0 ≤ u * (g * (X + Y)) := mul_nonneg hu.le (by rw [mul_add]; linarith)
      have d4 : g * (1 + u) * (X + Y + κ) = g * X + g * Y + u * (g * (X + Y)) + (g - 1) * κ + κ + g * u * κ := by ring
      have d5 : c * (1 + u) ^ l.height * X ≤ g * X := mul_le_mul_of_nonneg_right gl P0
      have d6 : c * (1 + u) ^ r.height * Y ≤ g * Y := mul_le_mul_of_nonneg_right gr Q0
      obtain ⟨x, hav⟩ := f1 (by linarith)
      obtain ⟨y, hbv⟩ := f2 (by linarith)
      obtain ⟨k1, k2, k3⟩ := key x y hav hbv
      exact hA.finite _ _ _ _ _ wa wb hav hbv hr (by rw [mul_add] at k3; linarith)

/-- Dot products: the terms are products. -/
theorem dot_error {mul : T → T → Option T} {κm : ℚ} (hA : GAdder V val u (u * κ) top add) (hM : GMul V val u (u * κm) top mul) (hu : 0 < u)
    (hκ : 0 ≤ κ) (hκm : 0 ≤ κm) (v : T → ℚ) (t : AddTree (T × T)) (hV : ∀ x ∈ t.leaves, V x.1 ∧ V x.2)
    (hx : ∀ x ∈ t.leaves, val x.1 = some (v x.1) ∧ val x.2 = some (v x.2)) :
    ∃ z, t.computeTerms (fun x => mul x.1 x.2) add = some z ∧ V z ∧
      (∀ s, val z = some s → |s - (t.leaves.map fun x => v x.1 * v x.2).sum| ≤
        ((1 + u) ^ (t.height + 1) - 1) * ((t.leaves.map fun x => |v x.1 * v x.2| + κm).sum + (t.leaves.length - 1) * κ)) ∧
      ((1 + u) ^ (t.height + 1) * ((t.leaves.map fun x => |v x.1 * v x.2| + κm).sum + (t.leaves.length - 1) * κ) ≤ top →
        ∃ s, val z = some s) := by
  have hterm : ∀ x ∈ t.leaves, ∃ r, mul x.1 x.2 = some r ∧ V r := fun x hx => hM.total _ _ (hV x hx).1 (hV x hx).2
  obtain ⟨z, hz, wz⟩ := terms_total hA t (term := fun x => mul x.1 x.2) hterm
  have := terms_error hA hu hκ (c := 1 + u) (by linarith) (fun x => v x.1 * v x.2) (fun x => |v x.1 * v x.2| + κm) t hterm
    (fun x _ => by linarith)
    (fun x hx' r s hr hs => by
      have := hM.err _ _ _ _ _ _ (hV x hx').1 (hV x hx').2 (hx x hx').1 (hx x hx').2 hr hs
      have e : (1 + u - 1) * (|v x.1 * v x.2| + κm) = u * |v x.1 * v x.2| + u * κm := by ring
      rw [e]; exact this)
    (fun x hx' r hr ht => hM.finite _ _ _ _ _ (hV x hx').1 (hV x hx').2 (hx x hx').1 (hx x hx').2 hr (by
      have h0 := abs_nonneg (v x.1 * v x.2)
      have e : (1 + u) * (|v x.1 * v x.2| + κm) = |v x.1 * v x.2| + u * |v x.1 * v x.2| + (1 + u) * κm := by ring
      have h1 : 0 ≤ u * |v x.1 * v x.2| := mul_nonneg hu.le h0
      have h2 : 0 ≤ (1 + u) * κm := mul_nonneg (by linarith) hκm
      linarith)) hz
  rw [← pow_succ'] at this
  exact ⟨z, hz, wz, this⟩

end GTree

/-- The FloPoCo product as one of the general kind. -/
theorem flopoco_gmul {E F : ℕ} (hE : 2 ≤ E) (hF : 1 ≤ F) :
    GMul (fun _ => True) (fun x : Fp E F => x.datum.fin) (uro F) (minPos E) (maxFin E F) (mulV1 E F) := by
  refine ⟨?_, ?_, ?_, ?_⟩
  · intro x y _ _
    obtain ⟨r, hr⟩ := mulSame_total (by omega) x y
    exact ⟨r, hr, trivial⟩
  · intro x y r a b s _ _ ha hb hr hs
    exact rounded0_err (mul_fin hE hF hF hF (by omega) x y ha hb hr) hs
  · intro x y r _ _ hr hx
    have sp : ∀ d, mulSpecial x.datum y.datum = some d → r.datum = d := fun d hd => C12_mul_exceptions (by omega) hF (by omega) _ _ _ hr _ hd
    show r.datum.fin = none
    change x.datum.fin = none at hx
    cases dx : x.datum with
    | nan => rw [sp .nan (by rw [dx]; simp [mulSpecial])]; rfl
    | zero s => rw [dx] at hx; cases hx
    | num w => rw [dx] at hx; cases hx
    | inf s =>
      cases dy : y.datum <;> rw [sp _ (by rw [dx, dy]; rfl)] <;> rfl
  · intro x y r a b _ _ ha hb hr hle
    exact rounded0_finite (by omega) (mul_fin hE hF hF hF (by omega) x y ha hb hr) hle

end Thls
