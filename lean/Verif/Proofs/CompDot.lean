import Verif.Proofs.Compensated

/-! # Compensated dot products in a rounded arithmetic (lemmas) -/

namespace Thls
open Spec

variable {F : ℕ} {g : ℤ} {α : Type} {V : α → Prop} {dat : α → Datum} {add mul : α → α → Option α} {neg : α → α} {R : ℚ → Datum → Prop} {top : ℚ}

/-- Which pairs of numbers may be multiplied. -/
def DotTerm (F : ℕ) (g : ℤ) (top : ℚ) (s : ℕ) (v w : ℚ) : Prop :=
  Splittable F g top s v ∧ Splittable F g top s w ∧ (v * w = 0 ∨ (2 : ℚ) ^ (2 * (F : ℤ) + 1 + g) ≤ |v * w|)

set_option maxHeartbeats 1000000 in
-- one proof of many small inequalities
theorem dotStep_inv (A : Arith V dat add mul neg R) (M : SumRounding F g top R) {m : ℕ} (h1 : F + 1 ≤ 2 * m) (h2 : 2 * m ≤ F + 2) (h3 : m + 2 ≤ F)
    (htop : 2 * 2 ^ g < top) {c s e x y : α} {k : ℕ} {P B vs ve v w : ℚ} (hc : V c) (fc : (dat c).fin = some (2 ^ m + 1))
    (hs : V s) (he : V e) (hx : V x) (hy : V y) (fs : (dat s).fin = some vs) (fe : (dat e).fin = some ve) (fx : (dat x).fin = some v) (fy : (dat y).fin = some w)
    (ht : DotTerm F g top m v w) (hI : CompInv F g (2 * k) P B vs ve) (hb : 2 * (1 + 1 / 2 ^ (F + 1)) ^ (4 * (k + 1)) * (B + |v * w|) < top) :
    ∃ s' e' vs' ve', dotStep add neg mul c (s, e) (x, y) = some (s', e') ∧ V s' ∧ V e' ∧ (dat s').fin = some vs' ∧ (dat e').fin = some ve' ∧
      CompInv F g (2 * (k + 1)) (P + v * w) (B + |v * w|) vs' ve' := by
  obtain ⟨g1, g2, hP, T, hT1, hT2, hT3⟩ := hI
  obtain ⟨ht1, ht2, ht3⟩ := ht
  set u : ℚ := 1 / 2 ^ (F + 1) with hu
  have hu0 : 0 < u := by positivity
  have hqu : 1 + u ≤ (1 + u) ^ 2 := by nlinarith
  have hus : 0 ≤ u ^ 2 := by positivity
  set G : ℚ := (1 + u) ^ (2 * k) with hG
  have hG1 : 1 ≤ G := one_le_pow₀ (by linarith)
  have hpow : (1 + u) ^ (4 * (k + 1)) = ((1 + u) ^ 2 * G) * ((1 + u) ^ 2 * G) := by rw [hG]; ring
  rw [hpow] at hb
  set X := v * w with hX
  have hB0 : 0 ≤ B := (abs_nonneg _).trans hP
  have hv0 := abs_nonneg X
  have hT0 : 0 ≤ T := (abs_nonneg _).trans hT1
  set H : ℚ := (1 + u) ^ 2 * G with hH
  have hq1 : (1 : ℚ) ≤ (1 + u) ^ 2 := one_le_pow₀ (by linarith)
  have hHq : (1 + u) ^ 2 ≤ H := by rw [hH]; exact le_mul_of_one_le_right (by positivity) hG1
  have hH1 : 1 ≤ H := hq1.trans hHq
  have hC0 : 0 ≤ B + |X| := by linarith
  set C := B + |X| with hC
  have hHC0 : 0 ≤ H * C := by positivity
  have hCH : C ≤ H * C := by have := mul_le_mul_of_nonneg_right hH1 hC0; linarith
  have hHC : H * C ≤ H * H * C := by
    have := mul_le_mul_of_nonneg_right hH1 hHC0
    linarith
  have hbig : 2 * (H * C) < top := by linarith
  have hXC : |X| ≤ C := by rw [hC]; linarith
  have hqX : (1 + u) ^ 2 * |X| ≤ H * C := mul_le_mul hHq hXC hv0 (by linarith)
  -- the product
  obtain ⟨h, r, vh, p1, p2, p3, p4, p5, p6, p7, p8⟩ := A.twoProduct0 M h1 h2 h3 (lt_trans (by have := two_zpow_pos g; linarith) htop) hc hx hy fc fx fy ht1 ht2 ht3
    (by linarith)
  rw [← hX] at p5 p6 p7 p8
  have hrel := nearGrid_relative p6 p7
  rw [div_eq_inv_mul, ← one_div, ← hu] at hrel
  have hvh : |vh| ≤ (1 + u) * |X| := by
    have := abs_sub X (X - vh)
    rw [sub_sub_cancel] at this
    linarith
  -- the running sum
  have hvs : |vs| ≤ B + T := by
    have h := abs_sub P (P - vs)
    rw [sub_sub_cancel] at h
    linarith
  have hBT : B + T ≤ G * B := by linarith
  have hsum : |vs + vh| ≤ B + T + (1 + u) * |X| := (abs_add_le _ _).trans (by linarith)
  have hGX : |X| ≤ G * |X| := by have := mul_le_mul_of_nonneg_right hG1 hv0; linarith
  have hGB0 : 0 ≤ G * B := by positivity
  have hsG : |vs + vh| ≤ (1 + u) * (G * C) := by
    have e1 : (1 + u) * (G * C) = G * B + u * (G * B) + (1 + u) * (G * |X|) := by rw [hC]; ring
    have e2 : (1 + u) * |X| ≤ (1 + u) * (G * |X|) := mul_le_mul_of_nonneg_left hGX (by linarith)
    have e3 : 0 ≤ u * (G * B) := by positivity
    linarith
  have hHe : (1 + u) * ((1 + u) * (G * C)) = H * C := by rw [hH]; ring
  obtain ⟨s', t, vs', q1, q2, q3, q4, q5, q6, q7, q8⟩ := A.twoSum M (by omega) htop hs p2 fs p4 g1 p7.1
    (by
      have e1 : G * B ≤ G * C := mul_le_mul_of_nonneg_left (by rw [hC]; linarith) (by linarith)
      have e2 : G * C ≤ H * C := mul_le_mul_of_nonneg_right (by rw [hH]; exact le_mul_of_one_le_left (by linarith) hq1) hC0
      linarith)
    (by
      have e1 := mul_le_mul_of_nonneg_left hsG (by linarith : 0 ≤ 1 + u)
      linarith)
    (by
      have e1 := mul_le_mul_of_nonneg_left hvh (by linarith : 0 ≤ 1 + u)
      have e2 : (1 + u) * ((1 + u) * |X|) = (1 + u) ^ 2 * |X| := by ring
      linarith)
  set τ := vs + vh - vs' with hτ
  set ρ := X - vh with hρ
  have hτT : |τ| ≤ u * (B + T + (1 + u) * |X|) := q8.trans (mul_le_mul_of_nonneg_left hsum hu0.le)
  -- the sum of the errors
  set T' := T + (|τ| + |ρ|) with hT'
  have hT'0 : 0 ≤ T' := add_nonneg hT0 (add_nonneg (abs_nonneg _) (abs_nonneg _))
  have hT'2 : T' ≤ (H - 1) * C := by
    have e1 : T' ≤ (1 + u) * T + u * B + (2 * u + u ^ 2) * |X| := by
      have : u * (B + T + (1 + u) * |X|) + u * |X| = u * B + u * T + (2 * u + u ^ 2) * |X| := by ring
      rw [hT']; linarith
    have e2 : (1 + u) * T ≤ (1 + u) ^ 2 * ((G - 1) * B) := by
      have e3 : (1 + u) * T ≤ (1 + u) ^ 2 * T := mul_le_mul_of_nonneg_right hqu hT0
      exact e3.trans (mul_le_mul_of_nonneg_left hT2 (by positivity))
    have e4 : u * B ≤ (2 * u + u ^ 2) * B := mul_le_mul_of_nonneg_right (by linarith) hB0
    have e5 : 0 ≤ (1 + u) ^ 2 * ((G - 1) * |X|) := mul_nonneg (by positivity) (mul_nonneg (by linarith) hv0)
    have e6 : (H - 1) * C = (1 + u) ^ 2 * ((G - 1) * B) + (2 * u + u ^ 2) * B + (2 * u + u ^ 2) * |X| + (1 + u) ^ 2 * ((G - 1) * |X|) := by rw [hH, hC]; ring
    linarith
  have hD : P + X - vs' = P - vs + (τ + ρ) := by rw [hτ, hρ]; ring
  have hτρ : |τ + ρ| ≤ |τ| + |ρ| := abs_add_le _ _
  have hD' : |P + X - vs'| ≤ T' := by rw [hD]; exact (abs_add_le _ _).trans (by rw [hT']; linarith)
  have hTT : T ≤ T' := by rw [hT']; linarith [abs_nonneg τ, abs_nonneg ρ]
  have hτρT : |τ + ρ| ≤ T' := by rw [hT']; linarith
  have hHT : H * T' ≤ H * H * C := by
    have := mul_le_mul_of_nonneg_left hT'2 (by linarith : 0 ≤ H)
    have e1 : H * ((H - 1) * C) = H * H * C - H * C := by ring
    linarith
  have huH : 1 + u ≤ H := hqu.trans hHq
  have hHHC : 0 ≤ H * H * C := by linarith
  obtain ⟨z, vz, z1, z2, -, z4, z5, z6⟩ := A.sum M q3 p3 q5 p5 q7 p8 (by
    have e1 := mul_le_mul huH hτρT (abs_nonneg _) (by linarith)
    linarith)
  rw [← hu] at z6
  have hz : |vz - (τ + ρ)| ≤ u * T' := by
    rw [abs_sub_comm]; exact z6.trans (mul_le_mul_of_nonneg_left hτρT hu0.le)
  have hdev : |ve + vz - (P + X - vs')| ≤ (G - 1) * T + u * (|τ| + |ρ|) := by
    rw [hD, show ve + vz - (P - vs + (τ + ρ)) = (ve - (P - vs)) + (vz - (τ + ρ)) by ring]
    have hz' : |vz - (τ + ρ)| ≤ u * (|τ| + |ρ|) := by
      rw [abs_sub_comm]; exact z6.trans (mul_le_mul_of_nonneg_left hτρ hu0.le)
    exact (abs_add_le _ _).trans (by linarith)
  have hdev' : |ve + vz - (P + X - vs')| ≤ ((1 + u) * G - 1) * T' := by
    have e1 : ((1 + u) * G - 1) * T' = (G - 1) * T + u * (|τ| + |ρ|) + (u * (G * T) + (G - 1) * (1 + u) * (|τ| + |ρ|)) := by rw [hT']; ring
    have e2 : 0 ≤ u * (G * T) := by positivity
    have e3 : 0 ≤ (G - 1) * (1 + u) * (|τ| + |ρ|) := mul_nonneg (mul_nonneg (by linarith) (by linarith)) (by positivity)
    linarith
  have hvez : |ve + vz| ≤ (1 + u) * G * T' := by
    have := abs_add_le (ve + vz - (P + X - vs')) (P + X - vs')
    rw [sub_add_cancel] at this
    linarith
  have hH' : (1 + u) * ((1 + u) * G * T') = H * T' := by rw [hH]; ring
  obtain ⟨e', ve', r1, r2, -, r4, r5, r6⟩ := A.sum M he z2 fe z4 g2 z5.1 (by
    have e1 := mul_le_mul_of_nonneg_left hvez (by linarith : 0 ≤ 1 + u)
    linarith)
  rw [← hu] at r6
  have hpk : (1 + u) ^ (2 * (k + 1)) = H := by rw [hH, hG]; ring
  refine ⟨s', e', vs', ve', by simp [dotStep, p1, q1, z1, r1], q2, r2, q4, r4, q6, r5.1, (abs_add_le _ _).trans (by linarith), T', hD', ?_, ?_⟩
  · rw [← hu, hpk]; exact hT'2
  · rw [← hu, hpk]
    have e1 := abs_add_le (ve' - (ve + vz)) (ve + vz - (P + X - vs'))
    rw [sub_add_sub_cancel, abs_sub_comm ve' (ve + vz)] at e1
    have e2 := mul_le_mul_of_nonneg_left hvez hu0.le
    have e3 : (H - 1) * T' = u * ((1 + u) * G * T') + ((1 + u) * G - 1) * T' := by rw [hH]; ring
    rw [e3]
    linarith

theorem dotFold_inv (A : Arith V dat add mul neg R) (M : SumRounding F g top R) {m : ℕ} (h1 : F + 1 ≤ 2 * m) (h2 : 2 * m ≤ F + 2) (h3 : m + 2 ≤ F)
    (htop : 2 * 2 ^ g < top) {c : α} (hc : V c) (fc : (dat c).fin = some (2 ^ m + 1)) (xs : List (α × α)) :
    ∀ (vals : List (ℚ × ℚ)) (s e : α) (k : ℕ) (P B vs ve : ℚ), V s → V e → (dat s).fin = some vs → (dat e).fin = some ve →
      List.Forall₂ (fun x v => V x.1 ∧ V x.2 ∧ (dat x.1).fin = some v.1 ∧ (dat x.2).fin = some v.2 ∧ DotTerm F g top m v.1 v.2) xs vals →
      CompInv F g (2 * k) P B vs ve → 2 * (1 + 1 / 2 ^ (F + 1)) ^ (4 * (k + xs.length)) * (B + (vals.map fun v => |v.1 * v.2|).sum) < top →
      ∃ s' e' vs' ve', xs.foldlM (dotStep add neg mul c) (s, e) = some (s', e') ∧ V s' ∧ V e' ∧ (dat s').fin = some vs' ∧ (dat e').fin = some ve' ∧
        CompInv F g (2 * (k + xs.length)) (P + (vals.map fun v => v.1 * v.2).sum) (B + (vals.map fun v => |v.1 * v.2|).sum) vs' ve' := by
  induction xs with
  | nil =>
    intro vals s e k P B vs ve hs he fs fe hx hI hb
    cases hx
    exact ⟨s, e, vs, ve, rfl, hs, he, fs, fe, by simpa using hI⟩
  | cons x xs ih =>
    intro vals s e k P B vs ve hs he fs fe hx hI hb
    cases hx with
    | @cons _ v _ vals hx hxs =>
      obtain ⟨vx, vy, fx, fy, ht⟩ := hx
      obtain ⟨x, y⟩ := x
      obtain ⟨v, w⟩ := v
      have hu0 : (0 : ℚ) < 1 / 2 ^ (F + 1) := by positivity
      have hB0 : 0 ≤ B := (abs_nonneg _).trans hI.2.2.1
      have hS0 : 0 ≤ (vals.map fun v => |v.1 * v.2|).sum := List.sum_nonneg fun y hy => by
        obtain ⟨z, -, rfl⟩ := List.mem_map.mp hy
        exact abs_nonneg _
      simp only [List.length_cons, List.map_cons, List.sum_cons] at hb ⊢
      obtain ⟨s', e', vs', ve', p1, p2, p3, p4, p5, p6⟩ := dotStep_inv A M h1 h2 h3 htop hc fc hs he vx vy fs fe fx fy ht hI (by
        refine lt_of_le_of_lt (mul_le_mul (mul_le_mul_of_nonneg_left (pow_le_pow_right₀ (by linarith) (by omega)) (by norm_num)) (by linarith)
          (by linarith [abs_nonneg (v * w)]) (by positivity)) hb)
      obtain ⟨s2, e2, vs2, ve2, q1, q2, q3, q4, q5, q6⟩ := ih vals s' e' (k + 1) (P + v * w) (B + |v * w|) vs' ve' p2 p3 p4 p5 hxs p6 (by
        rw [show k + 1 + xs.length = k + (xs.length + 1) by omega, add_assoc]; exact hb)
      refine ⟨s2, e2, vs2, ve2, ?_, q2, q3, q4, q5, ?_⟩
      · rw [List.foldlM_cons, p1]; exact q1
      · rw [show k + (xs.length + 1) = k + 1 + xs.length by omega, ← add_assoc, ← add_assoc]; exact q6

/-- The last addition of both programs. -/
theorem Arith.compFinal (A : Arith V dat add mul neg R) (M : SumRounding F g top R) {k : ℕ} {S B vs ve : ℚ} {s e : α} (hs : V s) (he : V e)
    (fs : (dat s).fin = some vs) (fe : (dat e).fin = some ve) (hI : CompInv F g k S B vs ve) (hb : 2 * (1 + 1 / 2 ^ (F + 1)) ^ (2 * k) * B < top) :
    ∃ r vr, add s e = some r ∧ (dat r).fin = some vr ∧ CompError F k S B vr := by
  obtain ⟨g1, g2, hP, T, hT1, hT2, hT3⟩ := hI
  unfold CompError
  set u : ℚ := 1 / 2 ^ (F + 1) with hu
  have hu0 : 0 < u := by positivity
  have hu1 : u ≤ 1 := by
    rw [hu, div_le_one (by positivity)]
    exact one_le_pow₀ (by norm_num)
  set G : ℚ := (1 + u) ^ k with hG
  have hG1 : 1 ≤ G := one_le_pow₀ (by linarith)
  have hB0 : 0 ≤ B := (abs_nonneg _).trans hP
  have hpow : (1 + u) ^ (2 * k) = G * G := by rw [hG]; ring
  rw [hpow] at hb
  have hdev : |vs + ve - S| ≤ (G - 1) ^ 2 * B := by
    have h1 := mul_le_mul_of_nonneg_left hT2 (by linarith : 0 ≤ G - 1)
    rw [show vs + ve - S = ve - (S - vs) by ring]
    have h2 : (G - 1) ^ 2 * B = (G - 1) * ((G - 1) * B) := by ring
    linarith
  have hs' : |vs + ve| ≤ |S| + (G - 1) ^ 2 * B := by
    have := abs_add_le (vs + ve - S) S
    rw [sub_add_cancel] at this
    linarith
  have hGB : B + (G - 1) ^ 2 * B ≤ G * G * B := by
    have : 0 ≤ (G - 1) * B := mul_nonneg (by linarith) hB0
    have e1 : G * G * B = B + (G - 1) ^ 2 * B + 2 * ((G - 1) * B) := by ring
    linarith
  have hGG : 0 ≤ G * G * B := by positivity
  obtain ⟨r, vr, r1, -, -, r4, -, r6⟩ := A.sum M hs he fs fe g1 g2 (by
    have h1 : |vs + ve| ≤ G * G * B := by linarith
    have h2 := mul_le_mul_of_nonneg_left h1 (by linarith : 0 ≤ 1 + u)
    have h3 := mul_le_mul_of_nonneg_right hu1 hGG
    linarith)
  refine ⟨r, vr, r1, r4, ?_⟩
  have h1 := abs_add_le (vr - (vs + ve)) (vs + ve - S)
  rw [sub_add_sub_cancel, abs_sub_comm vr (vs + ve)] at h1
  have h2 := mul_le_mul_of_nonneg_left hs' hu0.le
  have h3 : (1 + u) * (G - 1) ^ 2 * B = (G - 1) ^ 2 * B + u * ((G - 1) ^ 2 * B) := by ring
  rw [h3]
  linarith

/-- The result of the whole program. -/
theorem Arith.compDot (A : Arith V dat add mul neg R) (M : SumRounding F g top R) {m : ℕ} (h1 : F + 1 ≤ 2 * m) (h2 : 2 * m ≤ F + 2) (h3 : m + 2 ≤ F)
    (htop : 2 * 2 ^ g < top) {c z : α} (hc : V c) (fc : (dat c).fin = some (2 ^ m + 1)) (vz : V z) (fz : (dat z).fin = some 0)
    (xs : List (α × α)) (vals : List (ℚ × ℚ))
    (hx : List.Forall₂ (fun x v => V x.1 ∧ V x.2 ∧ (dat x.1).fin = some v.1 ∧ (dat x.2).fin = some v.2 ∧ DotTerm F g top m v.1 v.2) xs vals)
    (hb : 2 * (1 + 1 / 2 ^ (F + 1)) ^ (4 * xs.length) * (vals.map fun v => |v.1 * v.2|).sum < top) :
    ∃ r vr, Spec.compDot add neg mul c z xs = some r ∧ (dat r).fin = some vr ∧
      CompError F (2 * xs.length) (vals.map fun v => v.1 * v.2).sum (vals.map fun v => |v.1 * v.2|).sum vr := by
  obtain ⟨s, e, vs, ve, p1, p2, p3, p4, p5, hI⟩ := dotFold_inv A M h1 h2 h3 htop hc fc xs vals z z 0 0 0 0 0 vz vz fz fz hx
    ⟨onGrid_zero, onGrid_zero, by simp, 0, by simp, by simp, by simp⟩ (by simpa using hb)
  simp only [zero_add] at hI
  obtain ⟨r, vr, r1, r2, r3⟩ := A.compFinal M p2 p3 p4 p5 hI (by rw [← mul_assoc]; exact hb)
  exact ⟨r, vr, by simp [Spec.compDot, p1, r1], r2, r3⟩

end Thls
