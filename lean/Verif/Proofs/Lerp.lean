import Verif.SpecLerp
import Verif.Proofs.MonoLoop
import Verif.Proofs.Midpoint

/-! # Order through an interpolation `x + t * (y - x)` (lemmas) -/

namespace Thls
open Spec

variable {T : Type} {V : T → Prop} {val : T → Datum} {R : ℚ → Datum → Prop} {add mul : T → T → Option T} {W : ℚ → Prop}

theorem le_of_fin_eq {a b : Datum} {u : ℚ} (ha : a.fin = some u) (hb : b.fin = some u) (na : a ≠ .num 0) (nb : b ≠ .num 0) : a.Le b := by
  rcases a with _ | s | s | a <;> cases ha <;> rcases b with _ | s' | s' | b <;> cases hb
  · exact Or.inr trivial
  · exact absurd rfl nb
  · exact absurd rfl na
  · exact Or.inr rfl

namespace OrdArith

theorem rounded_ne_nan (h : OrdArith V val R add mul) {q : ℚ} {d : Datum} (hd : R q d) : d ≠ .nan :=
  (le_not_nan (h.mono le_rfl hd hd)).1

theorem sum_ne_nan (h : OrdArith V val R add mul) {x y r : T} {p : ℚ} (hx : V x) (hy : V y) (hp : (val x).fin = some p) (hn : val y ≠ .nan)
    (hr : add x y = some r) : val r ≠ .nan := by
  rcases fin_or hn with ⟨q, hq⟩ | ⟨s, hs⟩
  · exact h.rounded_ne_nan (h.add_fin hx hy hr hp hq)
  · have : val r = .inf s := h.add_spec hx hy hr (by
      rw [hs]; rcases hd : val x with _ | k | k | v
      · rw [hd] at hp; cases hp
      · rw [hd] at hp; cases hp
      · rfl
      · rfl)
    rw [this]; simp

theorem lerp_le (h : OrdArith V val R add mul) {x n y d t t' : T} {p q v u u' : ℚ} (hx : V x) (hn : V n) (hy : V y) (ht : V t) (ht' : V t')
    (hp : (val x).fin = some p) (hnp : (val n).fin = some (-p)) (hq : (val y).fin = some q) (hd : add y n = some d) (hv : (val d).fin = some v)
    (hu : (val t).fin = some u) (hu' : (val t').fin = some u') (huu : u ≤ u') (hzero : ∀ {e}, R 0 e → e.fin = some 0) :
    ∃ r r', lerp add mul x n y t = some r ∧ lerp add mul x n y t' = some r' ∧
      (p ≤ q → (val r).Le (val r')) ∧ (q ≤ p → (val r').Le (val r)) := by
  have hdv := h.add_valid hy hn hd
  obtain ⟨m, m1, m2⟩ := h.mul_total ht hdv
  obtain ⟨m', m1', m2'⟩ := h.mul_total ht' hdv
  obtain ⟨r, r1, r2⟩ := h.add_total hx m2
  obtain ⟨r', r1', r2'⟩ := h.add_total hx m2'
  have hR := h.add_fin hy hn hd hq hnp
  have hM := h.mul_fin ht hdv m1 hu hv
  have hM' := h.mul_fin ht' hdv m1' hu' hv
  have nr := h.sum_ne_nan hx m2 hp (h.rounded_ne_nan hM) r1
  have nr' := h.sum_ne_nan hx m2' hp (h.rounded_ne_nan hM') r1'
  have hxx : (val x).Le (val x) := OrdCore.le_refl_datum (by intro e; rw [e] at hp; cases hp)
  obtain ⟨z, z1⟩ : ∃ z, R 0 z := by
    obtain ⟨w, w1, w2⟩ := h.add_total hx hn
    exact ⟨_, by have := h.add_fin hx hn w1 hp hnp; rwa [add_neg_cancel] at this⟩
  refine ⟨r, r', by simp [lerp, hd, m1, r1], by simp [lerp, hd, m1', r1'], fun hpq => ?_, fun hpq => ?_⟩
  · have hv0 : 0 ≤ v := le_fin (hzero z1) hv (h.mono (by linarith) z1 hR)
    exact h.add_le hx m2 hx m2' hxx (h.mono (mul_le_mul_of_nonneg_right huu hv0) hM hM') r1 r1' nr nr'
  · have hv0 : v ≤ 0 := le_fin hv (hzero z1) (h.mono (by linarith) hR z1)
    exact h.add_le hx m2' hx m2 hxx (h.mono (mul_le_mul_of_nonpos_right huu hv0) hM' hM) r1' r1 nr' nr

theorem lerp_start (h : OrdArith V val R add mul) {x n y d t : T} {p v : ℚ} (hx : V x) (hn : V n) (hy : V y) (ht : V t)
    (hp : (val x).fin = some p) (hd : add y n = some d) (hv : (val d).fin = some v)
    (hu : (val t).fin = some 0) (hzero : ∀ {e}, R 0 e → e.fin = some 0) (hexact : ∀ {e}, R p e → e.fin = some p) :
    ∃ r, lerp add mul x n y t = some r ∧ (val r).fin = some p := by
  have hdv := h.add_valid hy hn hd
  obtain ⟨m, m1, m2⟩ := h.mul_total ht hdv
  obtain ⟨r, r1, r2⟩ := h.add_total hx m2
  have hM := h.mul_fin ht hdv m1 hu hv
  rw [zero_mul] at hM
  have hS := h.add_fin hx m2 r1 hp (hzero hM)
  rw [add_zero] at hS
  exact ⟨r, by simp [lerp, hd, m1, r1], hexact hS⟩

theorem lerp_side (h : OrdArith V val R add mul) {x n y d t : T} {p q v u : ℚ} (hx : V x) (hn : V n) (hy : V y) (ht : V t)
    (hp : (val x).fin = some p) (hnp : (val n).fin = some (-p)) (hq : (val y).fin = some q) (hd : add y n = some d) (hv : (val d).fin = some v)
    (hu : (val t).fin = some u) (hu0 : 0 ≤ u) (hnz : ∀ {x}, V x → val x ≠ .num 0) (hzero : ∀ {e}, R 0 e → e.fin = some 0)
    (hexact : ∀ {e}, R p e → e.fin = some p) :
    ∃ r, lerp add mul x n y t = some r ∧ (p ≤ q → (val x).Le (val r)) ∧ (q ≤ p → (val r).Le (val x)) := by
  have hdv := h.add_valid hy hn hd
  obtain ⟨m, m1, m2⟩ := h.mul_total ht hdv
  obtain ⟨r, r1, r2⟩ := h.add_total hx m2
  have hR := h.add_fin hy hn hd hq hnp
  have hM := h.mul_fin ht hdv m1 hu hv
  have nr := h.sum_ne_nan hx m2 hp (h.rounded_ne_nan hM) r1
  have hxx : (val x).Le (val x) := OrdCore.le_refl_datum (by intro e; rw [e] at hp; cases hp)
  obtain ⟨w, w1, w2⟩ := h.add_total hx hn
  have z1 := h.add_fin hx hn w1 hp hnp
  rw [add_neg_cancel] at z1
  have hw := hzero z1
  obtain ⟨k, k1, k2⟩ := h.add_total hx w2
  have hK := h.add_fin hx w2 k1 hp hw
  have nk := h.rounded_ne_nan hK
  rw [add_zero] at hK
  have hk := hexact hK
  have e1 : (val x).Le (val k) := le_of_fin_eq hp hk (hnz hx) (hnz k2)
  have e2 : (val k).Le (val x) := le_of_fin_eq hk hp (hnz k2) (hnz hx)
  refine ⟨r, by simp [lerp, hd, m1, r1], fun hpq => ?_, fun hpq => ?_⟩
  · have hv0 : 0 ≤ v := le_fin hw hv (h.mono (by linarith) z1 hR)
    exact le_trans_datum e1 (h.add_le hx w2 hx m2 hxx (h.mono (by positivity) z1 hM) k1 r1 nk nr)
  · have hv0 : v ≤ 0 := le_fin hv hw (h.mono (by linarith) hR z1)
    exact le_trans_datum (h.add_le hx m2 hx w2 hxx (h.mono (mul_nonpos_of_nonneg_of_nonpos hu0 hv0) hM z1) r1 k1 nr nk) e2

/-- With an exact difference the result stays between the end points, and reaches the second one at `1`. -/
theorem lerp_exact (h : OrdArith V val R add mul)
    (B : ∀ {p q x d}, W p → W q → p ≤ x → x ≤ q → R x d → ∃ k, d.fin = some k ∧ W k ∧ p ≤ k ∧ k ≤ q) (wz : W 0)
    (hW : ∀ {x v}, V x → (val x).fin = some v → W v) {x n y d t : T}
    {p q u : ℚ} (hx : V x) (hn : V n) (hy : V y) (ht : V t) (hp : (val x).fin = some p) (hq : (val y).fin = some q) (hd : add y n = some d)
    (hv : (val d).fin = some (q - p)) (hu : (val t).fin = some u) (hu0 : 0 ≤ u) (hu1 : u ≤ 1) :
    ∃ r v, lerp add mul x n y t = some r ∧ (val r).fin = some v ∧ min p q ≤ v ∧ v ≤ max p q ∧ (u = 1 → v = q) := by
  have hdv := h.add_valid hy hn hd
  obtain ⟨m, m1, m2⟩ := h.mul_total ht hdv
  obtain ⟨r, r1, r2⟩ := h.add_total hx m2
  have hM := h.mul_fin ht hdv m1 hu hv
  have w0 := hW hdv hv
  have wp := hW hx hp
  have wq := hW hy hq
  have one : u = 1 → ∀ {k v}, (val m).fin = some k → (val r).fin = some v → v = q := by
    intro hu k v hk hv
    rw [hu, one_mul] at hM
    obtain ⟨k', e1, -, e2, e3⟩ := B w0 w0 le_rfl le_rfl hM
    obtain rfl := Option.some.inj (hk.symm.trans e1)
    have hS := h.add_fin hx m2 r1 hp hk
    obtain ⟨v', f1, -, f2, f3⟩ := B wq wq (by linarith) (by linarith) hS
    obtain rfl := Option.some.inj (hv.symm.trans f1)
    linarith
  rcases le_total p q with hpq | hpq
  · obtain ⟨k, k1, -, k2, k3⟩ := B wz w0 (mul_nonneg hu0 (by linarith)) (by nlinarith) hM
    obtain ⟨v, v1, -, v2, v3⟩ := B wp wq (by linarith) (by linarith) (h.add_fin hx m2 r1 hp k1)
    exact ⟨r, v, by simp [lerp, hd, m1, r1], v1, by rwa [min_eq_left hpq], by rwa [max_eq_right hpq], fun e => one e k1 v1⟩
  · obtain ⟨k, k1, -, k2, k3⟩ := B w0 wz (by nlinarith) (mul_nonpos_of_nonneg_of_nonpos hu0 (by linarith)) hM
    obtain ⟨v, v1, -, v2, v3⟩ := B wq wp (by linarith) (by linarith) (h.add_fin hx m2 r1 hp k1)
    exact ⟨r, v, by simp [lerp, hd, m1, r1], v1, by rwa [min_eq_right hpq], by rwa [max_eq_left hpq], fun e => one e k1 v1⟩

/-- `s * x + t * y` is `x` for `s = 1`, `t = 0`, and `y` for `s = 0`, `t = 1`. -/
theorem blend_ends (h : OrdArith V val R add mul)
    (B : ∀ {p q x d}, W p → W q → p ≤ x → x ≤ q → R x d → ∃ k, d.fin = some k ∧ W k ∧ p ≤ k ∧ k ≤ q) (wz : W 0)
    (hW : ∀ {x v}, V x → (val x).fin = some v → W v) {x y o z : T} {p q : ℚ} (hx : V x) (hy : V y) (ho : V o) (hz : V z)
    (hp : (val x).fin = some p) (hq : (val y).fin = some q) (h1 : (val o).fin = some 1) (h0 : (val z).fin = some 0) :
    (∃ r, blend add mul x y o z = some r ∧ (val r).fin = some p) ∧ (∃ r, blend add mul x y z o = some r ∧ (val r).fin = some q) := by
  have ex : ∀ {v e}, W v → R v e → e.fin = some v := by
    intro v e hv he
    obtain ⟨k, k1, -, k2, k3⟩ := B hv hv le_rfl le_rfl he
    rw [k1, le_antisymm k3 k2]
  have wp := hW hx hp
  have wq := hW hy hq
  constructor
  · obtain ⟨a, a1, a2⟩ := h.mul_total ho hx
    obtain ⟨b, b1, b2⟩ := h.mul_total hz hy
    obtain ⟨r, r1, r2⟩ := h.add_total a2 b2
    have hA := h.mul_fin ho hx a1 h1 hp
    have hB := h.mul_fin hz hy b1 h0 hq
    rw [one_mul] at hA; rw [zero_mul] at hB
    have hS := h.add_fin a2 b2 r1 (ex wp hA) (ex wz hB)
    rw [add_zero] at hS
    exact ⟨r, by simp [blend, a1, b1, r1], ex wp hS⟩
  · obtain ⟨a, a1, a2⟩ := h.mul_total hz hx
    obtain ⟨b, b1, b2⟩ := h.mul_total ho hy
    obtain ⟨r, r1, r2⟩ := h.add_total a2 b2
    have hA := h.mul_fin hz hx a1 h0 hp
    have hB := h.mul_fin ho hy b1 h1 hq
    rw [zero_mul] at hA; rw [one_mul] at hB
    have hS := h.add_fin a2 b2 r1 (ex wz hA) (ex wq hB)
    rw [zero_add] at hS
    exact ⟨r, by simp [blend, a1, b1, r1], ex wq hS⟩

end OrdArith

end Thls
