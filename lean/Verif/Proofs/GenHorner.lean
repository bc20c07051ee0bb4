import Verif.SpecHorner
import Verif.Props.ExprError
import Verif.Proofs.SoftDot

/-! # Error analysis of Horner's rule for any product and sum -/

namespace Thls
open Spec

/-- What the error analysis needs from a product. -/
structure GMul {T : Type} (V : T → Prop) (val : T → Option ℚ) (u η M : ℚ) (mul : T → T → Option T) : Prop where
  total : ∀ x y, V x → V y → ∃ r, mul x y = some r ∧ V r
  err : ∀ x y r a b s, V x → V y → val x = some a → val y = some b → mul x y = some r → val r = some s →
    |s - a * b| ≤ u * |a * b| + η
  sticky : ∀ x y r, V x → V y → mul x y = some r → val x = none → val r = none
  finite : ∀ x y r a b, V x → V y → val x = some a → val y = some b → mul x y = some r → |a * b| ≤ M → ∃ s, val r = some s

namespace GHorner

variable {T : Type} {V : T → Prop} {val : T → Option ℚ} {u κm κa top : ℚ} {add mul : T → T → Option T}

theorem cons {x c a p s : T} (as : List T) (hp : mul c x = some p) (hs : add p a = some s) :
    hornerWith mul add x c (a :: as) = hornerWith mul add x s as := by
  unfold hornerWith
  rw [List.foldlM_cons]
  show ((mul c x).bind fun p => add p a).bind _ = _
  rw [hp, Option.bind_some, hs, Option.bind_some]

theorem total (hA : GAdder V val u (u * κa) top add) (hM : GMul V val u (u * κm) top mul) {x : T} (hx : V x) (as : List T) (c : T)
    (has : ∀ a ∈ as, V a) (hc : V c) : ∃ r, hornerWith mul add x c as = some r ∧ V r := by
  induction as generalizing c with
  | nil => exact ⟨c, rfl, hc⟩
  | cons a as ih =>
    obtain ⟨p, hp, vp⟩ := hM.total c x hc hx
    obtain ⟨s, hs, vs⟩ := hA.total p a vp (has a (by simp))
    obtain ⟨r, hr, vr⟩ := ih s (fun b hb => has b (by simp [hb])) vs
    exact ⟨r, by rw [cons as hp hs, hr], vr⟩

theorem nonfin (hA : GAdder V val u (u * κa) top add) (hM : GMul V val u (u * κm) top mul) {x : T} (hx : V x) (as : List T)
    (has : ∀ a ∈ as, V a) {c r : T} (hc : V c) (hn : val c = none) (hr : hornerWith mul add x c as = some r) : val r = none := by
  induction as generalizing c with
  | nil => rw [← Option.some.inj hr]; exact hn
  | cons a as ih =>
    obtain ⟨p, hp, vp⟩ := hM.total c x hc hx
    obtain ⟨s, hs, vs⟩ := hA.total p a vp (has a (by simp))
    refine ih (fun b hb => has b (by simp [hb])) vs ?_ (by rw [← cons as hp hs, hr])
    exact hA.sticky _ _ _ vp (has a (by simp)) hs (Or.inl (hM.sticky _ _ _ hc hx hp hn))

theorem step (hA : GAdder V val u (u * κa) top add) (hM : GMul V val u (u * κm) top mul) (hu : 0 < u) (hκm : 0 ≤ κm) (hκa : 0 ≤ κa)
    {x c a p s : T} {vx vc va q g M : ℚ} (wx : V x) (wc : V c) (wa : V a) (hx : val x = some vx) (hc : val c = some vc)
    (ha : val a = some va) (hp : mul c x = some p) (hs : add p a = some s) (hg : 1 ≤ g) (hq : |q| ≤ M)
    (he : |vc - q| ≤ (g - 1) * M) :
    (∀ w, val s = some w → |w - (q * vx + va)| ≤ (g * (1 + u) ^ 2 - 1) * (M * |vx| + (|va| + (κm + κa)))) ∧
    (g * (1 + u) ^ 2 * (M * |vx| + (|va| + (κm + κa))) ≤ top → ∃ w, val s = some w) := by
  have wp : V p := by
    obtain ⟨p', h1, h2⟩ := hM.total c x wc wx
    obtain rfl := Option.some.inj (h1.symm.trans hp); exact h2
  have hM0 : 0 ≤ M := le_trans (abs_nonneg _) hq
  have hX := abs_nonneg vx
  have hMX : 0 ≤ M * |vx| := mul_nonneg hM0 hX
  have hVA := abs_nonneg va
  have e1 : |vc * vx - q * vx| ≤ (g - 1) * M * |vx| := by
    rw [← sub_mul, abs_mul]; exact mul_le_mul_of_nonneg_right he hX
  have e2 : |q * vx| ≤ M * |vx| := by rw [abs_mul]; exact mul_le_mul_of_nonneg_right hq hX
  have e3 : |vc * vx| ≤ g * (M * |vx|) := by
    have := abs_add_le (vc * vx - q * vx) (q * vx)
    rw [sub_add_cancel] at this
    linarith
  have hgMX : 0 ≤ g * (M * |vx|) := mul_nonneg (by linarith) hMX
  have hgk : 0 ≤ (g - 1) * κm := mul_nonneg (by linarith) hκm
  have hgu : 0 ≤ g * u := mul_nonneg (by linarith) hu.le
  have hguk : 0 ≤ g * u * κm := mul_nonneg hgu hκm
  have hh : 1 ≤ g * (1 + u) := by nlinarith
  have hN : 0 ≤ M * |vx| + κm := by linarith
  have pfin : ∀ vp, val p = some vp →
      |vp - q * vx| ≤ (g * (1 + u) - 1) * (M * |vx| + κm) ∧ |vp| ≤ g * (1 + u) * (M * |vx| + κm) := by
    intro vp hvp
    have f1 := hM.err _ _ _ _ _ _ wc wx hc hx hp hvp
    have f2 : u * |vc * vx| ≤ u * (g * (M * |vx|)) := mul_le_mul_of_nonneg_left e3 hu.le
    have f3 := abs_add_le (vp - vc * vx) (vc * vx - q * vx)
    rw [sub_add_sub_cancel] at f3
    have f4 : 0 ≤ (g - 1) * (u * κm) := mul_nonneg (by linarith) (mul_nonneg hu.le hκm)
    have f5 : |vp - q * vx| ≤ (g * (1 + u) - 1) * (M * |vx| + κm) := by
      have : (g * (1 + u) - 1) * (M * |vx| + κm) = u * (g * (M * |vx|)) + (g - 1) * M * |vx| + (g - 1) * κm + (g - 1) * (u * κm) + u * κm := by
        ring
      linarith
    refine ⟨f5, ?_⟩
    have f6 := abs_add_le (vp - q * vx) (q * vx)
    rw [sub_add_cancel] at f6
    have : (g * (1 + u) - 1) * (M * |vx| + κm) = g * (1 + u) * (M * |vx| + κm) - M * |vx| - κm := by ring
    linarith
  constructor
  · intro w hw
    cases hvp : val p with
    | none => rw [hA.sticky _ _ _ wp wa hs (Or.inl hvp)] at hw; cases hw
    | some vp =>
      obtain ⟨k1, k2⟩ := pfin vp hvp
      have f1 := hA.err _ _ _ _ _ _ wp wa hvp ha hs hw
      have f2 := abs_add_le vp va
      have f3 : u * |vp + va| ≤ u * (g * (1 + u) * (M * |vx| + κm) + |va|) := mul_le_mul_of_nonneg_left (by linarith) hu.le
      have f4 := abs_add_le (w - (vp + va)) (vp - q * vx)
      rw [show w - (vp + va) + (vp - q * vx) = w - (q * vx + va) by ring] at f4
      have f5 : 0 ≤ (g * (1 + u) - 1) * (1 + u) * (|va| + κa) := by
        refine mul_nonneg (mul_nonneg (by linarith) (by linarith)) (by linarith)
      have : (g * (1 + u) ^ 2 - 1) * (M * |vx| + (|va| + (κm + κa))) = (g * (1 + u) - 1) * (M * |vx| + κm) +
          u * (g * (1 + u) * (M * |vx| + κm)) + (g * (1 + u) - 1) * (1 + u) * (|va| + κa) + u * (|va| + κa) := by ring
      rw [this]
      linarith
  · intro ht
    have h1 : g * (1 + u) ^ 2 * (M * |vx| + (|va| + (κm + κa))) = g * (1 + u) * (M * |vx| + κm) + u * (g * (1 + u)) * (M * |vx| + κm) +
        |va| + κa + (g * (1 + u) ^ 2 - 1) * (|va| + κa) := by ring
    have h2 : 0 ≤ u * (g * (1 + u)) * (M * |vx| + κm) := mul_nonneg (mul_nonneg hu.le (by linarith)) hN
    have h3 : 0 ≤ (g * (1 + u) ^ 2 - 1) * (|va| + κa) := mul_nonneg (by nlinarith) (by linarith)
    have h4 : g * (M * |vx|) ≤ g * (1 + u) * (M * |vx| + κm) := by
      have : g * (1 + u) * (M * |vx| + κm) = g * (M * |vx|) + u * (g * (M * |vx|)) + (g - 1) * κm + κm + g * u * κm := by ring
      have : 0 ≤ u * (g * (M * |vx|)) := mul_nonneg hu.le hgMX
      linarith
    obtain ⟨vp, hvp⟩ := hM.finite _ _ _ _ _ wc wx hc hx hp (by linarith)
    obtain ⟨-, k2⟩ := pfin vp hvp
    have f2 := abs_add_le vp va
    exact hA.finite _ _ _ _ _ wp wa hvp ha hs (by linarith)

theorem run (hA : GAdder V val u (u * κa) top add) (hM : GMul V val u (u * κm) top mul) (hu : 0 < u) (hκm : 0 ≤ κm) (hκa : 0 ≤ κa)
    {x : T} {vx : ℚ} (wx : V x) (hx : val x = some vx) (as : List T) (vs : List ℚ)
    (has : List.Forall₂ (fun a v => V a ∧ val a = some v) as vs) {c r : T} {vc q g M : ℚ} (wc : V c) (hc : val c = some vc)
    (hr : hornerWith mul add x c as = some r) (hg : 1 ≤ g) (hq : |q| ≤ M) (he : |vc - q| ≤ (g - 1) * M) :
    (∀ w, val r = some w → |w - polynomial vx q vs| ≤ (g * (1 + u) ^ (2 * as.length) - 1) *
      polynomial |vx| M (vs.map fun a => |a| + (κm + κa))) ∧
    ((∀ k ≤ as.length, 0 < k → g * (1 + u) ^ (2 * k) * polynomial |vx| M ((vs.take k).map fun a => |a| + (κm + κa)) ≤ top) →
      ∃ w, val r = some w) := by
  induction has generalizing c vc q g M with
  | nil =>
    obtain rfl : c = r := Option.some.inj hr
    refine ⟨fun w hw => ?_, fun _ => ⟨vc, hc⟩⟩
    rw [hc] at hw
    obtain rfl : vc = w := Option.some.inj hw
    simpa [polynomial] using he
  | @cons a v as vs hav has ih =>
    obtain ⟨p, hp, wp⟩ := hM.total c x wc wx
    obtain ⟨s, hs, ws⟩ := hA.total p a wp hav.1
    have hr' : hornerWith mul add x s as = some r := by rw [← cons as hp hs, hr]
    obtain ⟨st1, st2⟩ := step hA hM hu hκm hκa wx wc hav.1 hx hc hav.2 hp hs hg hq he
    have hq' : |q * vx + v| ≤ M * |vx| + (|v| + (κm + κa)) := by
      have h1 := abs_add_le (q * vx) v
      have h2 : |q * vx| ≤ M * |vx| := by rw [abs_mul]; exact mul_le_mul_of_nonneg_right hq (abs_nonneg _)
      linarith
    have hg' : 1 ≤ g * (1 + u) ^ 2 := by nlinarith
    have hval : ∀ b ∈ as, V b := fun b hb => by
      obtain ⟨i, hi, rfl⟩ := List.mem_iff_getElem.mp hb
      exact (List.Forall₂.get has hi (by rw [← has.length_eq]; exact hi)).1
    have pw : ∀ n, g * (1 + u) ^ 2 * (1 + u) ^ (2 * n) = g * (1 + u) ^ (2 * (n + 1)) := by
      intro n; rw [mul_assoc, ← pow_add]; congr 2; ring
    constructor
    · intro w hw
      cases hsf : val s with
      | none => rw [nonfin hA hM wx as hval ws hsf hr'] at hw; cases hw
      | some vs' =>
        have := (ih ws hsf hr' hg' hq' (st1 vs' hsf)).1 w hw
        rw [pw] at this
        rw [polynomial_step, List.length_cons, List.map_cons, polynomial_step]
        exact this
    · intro ht
      have h1 := ht 1 (by simp) (by norm_num)
      simp only [List.take_succ_cons, List.take_zero, List.map_cons, List.map_nil, polynomial_step, mul_one] at h1
      rw [show polynomial |vx| (M * |vx| + (|v| + (κm + κa))) [] = M * |vx| + (|v| + (κm + κa)) from rfl] at h1
      obtain ⟨vs', hsf⟩ := st2 h1
      refine (ih ws hsf hr' hg' hq' (st1 vs' hsf)).2 fun k hk _ => ?_
      have := ht (k + 1) (by simpa using hk) (by omega)
      rw [List.take_succ_cons, List.map_cons, polynomial_step] at this
      rw [pw]
      exact this

end GHorner

namespace SoftFmt
variable {f : SoftFmt}

theorem soft_mul (ok : f.Ok) {prod : ℕ → ℕ → Option ℕ} (hp : ProdOk f prod) :
    GMul (fun w => w < 2 ^ f.W) (wordFin f.E f.F) (uro f.F) (halfDenorm f.E f.F) (ieeeMax f.E f.F) (f.mulWith prod) := by
  have hE : 2 ≤ f.E := by have := ok.hE; omega
  refine ⟨?_, ?_, ?_, ?_⟩
  · intro x y hx hy
    obtain ⟨z, h1, h2, -⟩ := mul_ieee ok hp hx hy
    exact ⟨z, h1, h2⟩
  · intro x y r a b s hx hy ha hb hr hs
    obtain ⟨z, h1, h2, h3⟩ := mul_ieee ok hp hx hy
    obtain rfl := Option.some.inj (h1.symm.trans hr)
    exact product_err h3 (fun v hv => num_word_ne ok hx hv) (fun v hv => num_word_ne ok hy hv) ha hb hs
  · intro x y r hx hy hr hn
    obtain ⟨z, h1, h2, h3⟩ := mul_ieee ok hp hx hy
    obtain rfl := Option.some.inj (h1.symm.trans hr)
    unfold wordFin at hn ⊢
    revert h3 hn
    generalize wordDatum f.E f.F x = dx; generalize wordDatum f.E f.F y = dy; generalize wordDatum f.E f.F z = dz
    intro hn h3
    rcases dx with _ | s | s | p <;> rcases dy with _ | t | t | q <;> simp [Datum.fin, IeeeProduct, mulSpecial] at hn h3 <;>
      first
      | (subst h3; rfl)
      | (subst h3; split_ifs <;> rfl)
  · intro x y r a b hx hy ha hb hr hle
    obtain ⟨z, h1, h2, h3⟩ := mul_ieee ok hp hx hy
    obtain rfl := Option.some.inj (h1.symm.trans hr)
    exact product_finite hE h3 ha hb hle

theorem soft_horner (ok : f.Ok) {prod : ℕ → ℕ → Option ℕ} (hp : ProdOk f prod) {x c : ℕ} (as : List ℕ) {vx vc : ℚ} (vs : List ℚ)
    (wx : x < 2 ^ f.W) (wc : c < 2 ^ f.W) (hx : wordFin f.E f.F x = some vx) (hc : wordFin f.E f.F c = some vc)
    (has : List.Forall₂ (fun a v => a < 2 ^ f.W ∧ wordFin f.E f.F a = some v) as vs) :
    ∃ r, hornerWith (f.mulWith prod) f.add x c as = some r ∧ r < 2 ^ f.W ∧
      (∀ w, wordFin f.E f.F r = some w → |w - polynomial vx vc vs| ≤
        ((1 + uro f.F) ^ (2 * as.length) - 1) * polynomialSize (ieeeMin f.E) vx vc vs) ∧
      ((∀ k ≤ as.length, 0 < k → (1 + uro f.F) ^ (2 * k) * polynomialSize (ieeeMin f.E) vx vc (vs.take k) ≤ ieeeMax f.E f.F) →
        ∃ w, wordFin f.E f.F r = some w) := by
  have hu := uro_pos f.F
  have hmin : 0 < ieeeMin f.E := two_zpow_pos _
  have hA : GAdder (fun w => w < 2 ^ f.W) (wordFin f.E f.F) (uro f.F) (uro f.F * 0) (ieeeMax f.E f.F) f.add := by
    rw [mul_zero]; exact soft_adder ok
  have hM : GMul (fun w => w < 2 ^ f.W) (wordFin f.E f.F) (uro f.F) (uro f.F * ieeeMin f.E) (ieeeMax f.E f.F) (f.mulWith prod) := by
    have := soft_mul ok hp
    rwa [show halfDenorm f.E f.F = uro f.F * ieeeMin f.E by rw [← halfDenorm_uro f.E f.F]; field_simp] at this
  have hval : ∀ b ∈ as, b < 2 ^ f.W := fun b hb => by
    obtain ⟨i, hi, rfl⟩ := List.mem_iff_getElem.mp hb
    exact (List.Forall₂.get has hi (by rw [← has.length_eq]; exact hi)).1
  obtain ⟨r, hr, wr⟩ := GHorner.total hA hM wx as c hval wc
  obtain ⟨h1, h2⟩ := GHorner.run hA hM hu hmin.le le_rfl wx hx as vs has wc (q := vc) (g := 1) (M := |vc|) hc hr le_rfl le_rfl (by simp)
  simp only [one_mul, add_zero] at h1 h2
  exact ⟨r, hr, wr, h1, h2⟩

end SoftFmt
end Thls
