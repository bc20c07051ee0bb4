import Verif.SpecTree
import Verif.Proofs.GenLoops
import Verif.Proofs.LoopAdders

/-! # Error analysis of sums in any order and bracketing -/

namespace Thls
open Spec

namespace GTree

variable {T : Type} {V : T → Prop} {val : T → Option ℚ} {u κ top : ℚ} {add : T → T → Option T}

theorem abs_sum_map_le {R : Type} [AddCommGroup R] [LinearOrder R] [IsOrderedAddMonoid R] (v : T → R) (xs : List T) :
    |(xs.map v).sum| ≤ (xs.map fun x => |v x|).sum := by
  induction xs with
  | nil => simp
  | cons x xs ih =>
    simp only [List.map_cons, List.sum_cons]
    exact le_trans (abs_add_le _ _) (by gcongr)

theorem leaves_pos (t : AddTree T) : 1 ≤ t.leaves.length := by
  induction t with
  | leaf x => exact le_rfl
  | node l r h1 h2 => simp only [AddTree.leaves, List.length_append]; omega

theorem size_nonneg (v : T → ℚ) (t : AddTree T) : 0 ≤ (t.leaves.map fun x => |v x|).sum :=
  List.sum_nonneg (by simp only [List.mem_map]; rintro _ ⟨x, -, rfl⟩; exact abs_nonneg _)

theorem total {η : ℚ} (hA : GAdder V val u η top add) (t : AddTree T) (hV : ∀ x ∈ t.leaves, V x) : ∃ r, t.compute add = some r ∧ V r := by
  induction t with
  | leaf x => exact ⟨x, rfl, hV x (by simp [AddTree.leaves])⟩
  | node l r h1 h2 =>
    obtain ⟨a, ha, wa⟩ := h1 fun x hx => hV x (by simp [AddTree.leaves, hx])
    obtain ⟨b, hb, wb⟩ := h2 fun x hx => hV x (by simp [AddTree.leaves, hx])
    obtain ⟨s, hs, ws⟩ := hA.total a b wa wb
    exact ⟨s, by simp [AddTree.compute, ha, hb, hs], ws⟩

theorem sticky {η : ℚ} (hA : GAdder V val u η top add) (t : AddTree T) (hV : ∀ x ∈ t.leaves, V x) {z : T} (hr : t.compute add = some z)
    (hn : ∃ x ∈ t.leaves, val x = none) : val z = none := by
  induction t generalizing z with
  | leaf x =>
    obtain rfl := Option.some.inj hr
    obtain ⟨y, hy, h⟩ := hn
    rw [List.mem_singleton.mp hy] at h; exact h
  | node l r h1 h2 =>
    have w1 : ∀ x ∈ l.leaves, V x := fun x hx => hV x (by simp [AddTree.leaves, hx])
    have w2 : ∀ x ∈ r.leaves, V x := fun x hx => hV x (by simp [AddTree.leaves, hx])
    obtain ⟨a, ha, wa⟩ := total hA l w1
    obtain ⟨b, hb, wb⟩ := total hA r w2
    simp only [AddTree.compute, ha, hb, Option.bind_eq_bind, Option.bind_some] at hr
    obtain ⟨y, hy, h⟩ := hn
    refine hA.sticky _ _ _ wa wb hr ?_
    rcases List.mem_append.mp hy with hy | hy
    · exact Or.inl (h1 w1 ha ⟨y, hy, h⟩)
    · exact Or.inr (h2 w2 hb ⟨y, hy, h⟩)

theorem error (hA : GAdder V val u (u * κ) top add) (hu : 0 < u) (hκ : 0 ≤ κ) (v : T → ℚ) (t : AddTree T) (hV : ∀ x ∈ t.leaves, V x)
    (hx : ∀ x ∈ t.leaves, val x = some (v x)) {z : T} (hr : t.compute add = some z) :
    (∀ s, val z = some s → |s - (t.leaves.map v).sum| ≤
      ((1 + u) ^ t.height - 1) * ((t.leaves.map fun x => |v x|).sum + (t.leaves.length - 1) * κ)) ∧
    ((1 + u) ^ t.height * ((t.leaves.map fun x => |v x|).sum + (t.leaves.length - 1) * κ) ≤ top → ∃ s, val z = some s) := by
  induction t generalizing z with
  | leaf x =>
    obtain rfl := Option.some.inj hr
    have h := hx x (by simp [AddTree.leaves])
    refine ⟨fun s hs => ?_, fun _ => ⟨_, h⟩⟩
    rw [h] at hs
    obtain rfl := Option.some.inj hs
    simp [AddTree.leaves, AddTree.height]
  | node l r h1 h2 =>
    have w1 : ∀ x ∈ l.leaves, V x := fun x hx => hV x (by simp [AddTree.leaves, hx])
    have w2 : ∀ x ∈ r.leaves, V x := fun x hx => hV x (by simp [AddTree.leaves, hx])
    obtain ⟨a, ha, wa⟩ := total hA l w1
    obtain ⟨b, hb, wb⟩ := total hA r w2
    simp only [AddTree.compute, ha, hb, Option.bind_eq_bind, Option.bind_some] at hr
    obtain ⟨e1, f1⟩ := h1 w1 (fun x hx' => hx x (by simp [AddTree.leaves, hx'])) ha
    obtain ⟨e2, f2⟩ := h2 w2 (fun x hx' => hx x (by simp [AddTree.leaves, hx'])) hb
    have s1 := size_nonneg v l
    have s2 := size_nonneg v r
    have n1 : (0 : ℚ) ≤ (l.leaves.length : ℚ) - 1 := by have : ((1 : ℕ) : ℚ) ≤ l.leaves.length := by exact_mod_cast leaves_pos l
                                                        push_cast at this; linarith
    have n2 : (0 : ℚ) ≤ (r.leaves.length : ℚ) - 1 := by have : ((1 : ℕ) : ℚ) ≤ r.leaves.length := by exact_mod_cast leaves_pos r
                                                        push_cast at this; linarith
    have t1 : |(l.leaves.map v).sum| ≤ (l.leaves.map fun x => |v x|).sum := abs_sum_map_le v _
    have t2 : |(r.leaves.map v).sum| ≤ (r.leaves.map fun x => |v x|).sum := abs_sum_map_le v _
    simp only [AddTree.leaves, AddTree.height, List.map_append, List.sum_append, List.length_append, Nat.cast_add]
    generalize (l.leaves.map v).sum = p at *
    generalize (r.leaves.map v).sum = q at *
    generalize (l.leaves.map fun x => |v x|).sum = P at *
    generalize (r.leaves.map fun x => |v x|).sum = Q at *
    generalize (l.leaves.length : ℚ) = n at *
    generalize (r.leaves.length : ℚ) = m at *
    have gl : (1 + u) ^ l.height ≤ (1 + u) ^ max l.height r.height := pow_le_pow_right₀ (by linarith) (le_max_left _ _)
    have gr : (1 + u) ^ r.height ≤ (1 + u) ^ max l.height r.height := pow_le_pow_right₀ (by linarith) (le_max_right _ _)
    have gp : (1 : ℚ) ≤ (1 + u) ^ max l.height r.height := one_le_pow₀ (by linarith)
    rw [pow_succ]
    generalize (1 + u) ^ max l.height r.height = g at *
    have P0 : 0 ≤ P + (n - 1) * κ := add_nonneg s1 (mul_nonneg n1 hκ)
    have Q0 : 0 ≤ Q + (m - 1) * κ := add_nonneg s2 (mul_nonneg n2 hκ)
    have p0 : P ≤ P + (n - 1) * κ := le_add_of_nonneg_right (mul_nonneg n1 hκ)
    have q0 : Q ≤ Q + (m - 1) * κ := le_add_of_nonneg_right (mul_nonneg n2 hκ)
    rw [show P + Q + (n + m - 1) * κ = (P + (n - 1) * κ) + (Q + (m - 1) * κ) + κ by ring]
    generalize P + (n - 1) * κ = X at *
    generalize Q + (m - 1) * κ = Y at *
    have key : ∀ x y, val a = some x → val b = some y → |x - p| ≤ (g - 1) * X ∧ |y - q| ≤ (g - 1) * Y ∧ |x + y| ≤ g * (X + Y) := by
      intro x y hx hy
      have a1 : |x - p| ≤ (g - 1) * X := le_trans (e1 x hx) (mul_le_mul_of_nonneg_right (by linarith) P0)
      have a2 : |y - q| ≤ (g - 1) * Y := le_trans (e2 y hy) (mul_le_mul_of_nonneg_right (by linarith) Q0)
      refine ⟨a1, a2, ?_⟩
      have b1 := abs_add_le (x - p) p
      have b2 := abs_add_le (y - q) q
      have b3 := abs_add_le x y
      rw [sub_add_cancel] at b1 b2
      have : g * (X + Y) = (g - 1) * X + (g - 1) * Y + X + Y := by ring
      linarith
    have g0 : 0 ≤ (g - 1) * κ := mul_nonneg (by linarith) hκ
    have g1 : 0 ≤ g * u * κ := mul_nonneg (mul_nonneg (by linarith) hu.le) hκ
    have g2 : 0 ≤ (g - 1) * (u * κ) := mul_nonneg (by linarith) (mul_nonneg hu.le hκ)
    constructor
    · intro s hs
      cases hav : val a with
      | none => rw [hA.sticky _ _ _ wa wb hr (Or.inl hav)] at hs; cases hs
      | some x =>
        cases hbv : val b with
        | none => rw [hA.sticky _ _ _ wa wb hr (Or.inr hbv)] at hs; cases hs
        | some y =>
          obtain ⟨k1, k2, k3⟩ := key x y hav hbv
          have k4 := hA.err _ _ _ _ _ _ wa wb hav hbv hr hs
          have k5 : u * |x + y| ≤ u * (g * (X + Y)) := mul_le_mul_of_nonneg_left k3 hu.le
          have k6 := abs_add_le (s - (x + y)) ((x - p) + (y - q))
          have k7 := abs_add_le (x - p) (y - q)
          rw [show s - (x + y) + ((x - p) + (y - q)) = s - (p + q) by ring] at k6
          have : (g * (1 + u) - 1) * (X + Y + κ) = (g - 1) * X + (g - 1) * Y + u * (g * (X + Y)) + (g - 1) * κ + (g - 1) * (u * κ) + u * κ := by
            ring
          linarith
    · intro ht
      have d1 : 0 ≤ g * X := mul_nonneg (by linarith) P0
      have d2 : 0 ≤ g * Y := mul_nonneg (by linarith) Q0
      have d3 : 0 ≤ u * (g * (X + Y)) := mul_nonneg hu.le (by rw [mul_add]; linarith)
      have d4 : g * (1 + u) * (X + Y + κ) = g * X + g * Y + u * (g * (X + Y)) + (g - 1) * κ + κ + g * u * κ := by ring
      have d5 : (1 + u) ^ l.height * X ≤ g * X := mul_le_mul_of_nonneg_right gl P0
      have d6 : (1 + u) ^ r.height * Y ≤ g * Y := mul_le_mul_of_nonneg_right gr Q0
      obtain ⟨x, hav⟩ := f1 (by linarith)
      obtain ⟨y, hbv⟩ := f2 (by linarith)
      obtain ⟨k1, k2, k3⟩ := key x y hav hbv
      exact hA.finite _ _ _ _ _ wa wb hav hbv hr (by rw [mul_add] at k3; linarith)

/-- If the adder is exact on multiples of `2^k` up to `B`, so is every schedule. -/
theorem exact {B k : ℤ} (hX : ∀ x y m n, V x → V y → val x = some ((m : ℤ) * (2 : ℚ) ^ k) → val y = some ((n : ℤ) * (2 : ℚ) ^ k) → |m + n| ≤ B →
      ∃ r, add x y = some r ∧ V r ∧ val r = some (((m + n : ℤ) : ℚ) * 2 ^ k)) (m : T → ℤ) (t : AddTree T) (hV : ∀ x ∈ t.leaves, V x)
    (hx : ∀ x ∈ t.leaves, val x = some ((m x : ℚ) * 2 ^ k)) (hb : (t.leaves.map fun x => |m x|).sum ≤ B) :
    ∃ r, t.compute add = some r ∧ V r ∧ val r = some ((((t.leaves.map m).sum : ℤ) : ℚ) * 2 ^ k) := by
  induction t with
  | leaf x => exact ⟨x, rfl, hV x (by simp [AddTree.leaves]), by simpa [AddTree.leaves] using hx x (by simp [AddTree.leaves])⟩
  | node l r h1 h2 =>
    have nn : ∀ t : AddTree T, 0 ≤ (t.leaves.map fun x => |m x|).sum := fun t =>
      List.sum_nonneg (by simp only [List.mem_map]; rintro _ ⟨x, -, rfl⟩; exact abs_nonneg _)
    have ab : ∀ t : AddTree T, |(t.leaves.map m).sum| ≤ (t.leaves.map fun x => |m x|).sum := fun t => abs_sum_map_le m _
    simp only [AddTree.leaves, List.map_append, List.sum_append] at hb ⊢
    obtain ⟨a, ha, wa, va⟩ := h1 (fun x hx => hV x (by simp [AddTree.leaves, hx])) (fun x hx' => hx x (by simp [AddTree.leaves, hx']))
      (by have := nn r; omega)
    obtain ⟨b, hb', wb, vb⟩ := h2 (fun x hx => hV x (by simp [AddTree.leaves, hx])) (fun x hx' => hx x (by simp [AddTree.leaves, hx']))
      (by have := nn l; omega)
    obtain ⟨s, hs, ws, vs⟩ := hX a b _ _ wa wb va vb (by have := ab l; have := ab r; exact le_trans (abs_add_le _ _) (by omega))
    exact ⟨s, by simp [AddTree.compute, ha, hb', hs], ws, vs⟩

end GTree

/-- A FloPoCo adder as one of the general kind. -/
theorem Adder.general {E F : ℕ} {u : ℚ} {add : Fp E F → Fp E F → Option (Fp E F)} (h : Adder E F u add) :
    GAdder (fun _ => True) (fun x : Fp E F => x.datum.fin) u (minPos E) (maxFin E F) add :=
  ⟨fun x y _ _ => by obtain ⟨r, hr⟩ := h.total x y; exact ⟨r, hr, trivial⟩, fun x y r a b s _ _ => h.err x y r a b s,
    fun x y r b _ _ => h.zero x y r b, fun x y r _ _ => h.sticky x y r, fun x y r a b _ _ => h.finite x y r a b⟩

end Thls
