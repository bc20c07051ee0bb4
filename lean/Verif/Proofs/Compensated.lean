import Verif.Proofs.DekkerProg
import Verif.Proofs.TwoSum
import Verif.SpecCompensated

/-! # Compensated summation in a rounded arithmetic (lemmas) -/

namespace Thls
open Spec

variable {F : ℕ} {g : ℤ}

theorem exists_scale {x c : ℚ} (hc : 0 < c) (h : c * 2 ^ g ≤ x) : ∃ k : ℤ, g ≤ k ∧ c * 2 ^ k ≤ x ∧ x ≤ 2 * c * 2 ^ k := by
  have hg := two_zpow_pos g
  have key : ∀ n : ℕ, x ≤ 2 ^ n * (c * 2 ^ g) → ∃ k : ℤ, g ≤ k ∧ c * 2 ^ k ≤ x ∧ x ≤ 2 * c * 2 ^ k := by
    intro n
    induction n with
    | zero => intro hx; exact ⟨g, le_rfl, h, by rw [pow_zero, one_mul] at hx; nlinarith [mul_pos hc hg]⟩
    | succ n ih =>
      intro hx
      rcases le_total x (2 ^ n * (c * 2 ^ g)) with h1 | h1
      · exact ih h1
      · refine ⟨g + n, by omega, ?_, ?_⟩ <;> rw [zpow_add₀ (by norm_num), zpow_natCast]
        · linarith
        · rw [pow_succ] at hx; linarith
  obtain ⟨n, hn⟩ := pow_unbounded_of_one_lt (x / (c * 2 ^ g)) (by norm_num : (1 : ℚ) < 2)
  exact key n (by rw [div_lt_iff₀ (mul_pos hc hg)] at hn; exact hn.le)

/-- A sum that is rounded on its grid has a small relative error. -/
theorem nearGrid_relative {q t : ℚ} (hq : ∃ n : ℤ, q = n * 2 ^ g) (h : NearGrid F g q t) : |q - t| ≤ |q| / 2 ^ (F + 1) := by
  have hp : (0 : ℚ) < 2 ^ (F + 1) := by positivity
  rcases le_total |q| (2 ^ (F + 1) * 2 ^ g) with hs | hs
  · rw [nearGrid_exact (onGrid_mult le_rfl hq hs) h, sub_self, abs_zero]
    positivity
  · obtain ⟨k, k1, k2, k3⟩ := exists_scale hp hs
    rw [le_div_iff₀ hp]
    have := nearGrid_close k1 (by rw [pow_succ]; linarith) h
    nlinarith

variable {α : Type} {V : α → Prop} {dat : α → Datum} {add mul : α → α → Option α} {neg : α → α} {R : ℚ → Datum → Prop} {top : ℚ}

/-- A rounded sum. -/
theorem Arith.sum (A : Arith V dat add mul neg R) (M : SumRounding F g top R) {a b : α} {p q : ℚ} (ha : V a) (hb : V b) (hp : (dat a).fin = some p)
    (hq : (dat b).fin = some q) (gp : OnGrid F g p) (gq : OnGrid F g q) (ht : (1 + 1 / 2 ^ (F + 1)) * |p + q| < top) :
    ∃ r t, add a b = some r ∧ V r ∧ R (p + q) (dat r) ∧ (dat r).fin = some t ∧ NearGrid F g (p + q) t ∧ |p + q - t| ≤ 1 / 2 ^ (F + 1) * |p + q| := by
  obtain ⟨r, r1, r2, r3⟩ := A.add ha hb hp hq
  have hm := mult_add (grid_mult gp) (grid_mult gq)
  obtain ⟨t, t1, t2, -⟩ := M _ _ hm r3
  have he := nearGrid_relative hm t1
  rw [div_eq_inv_mul, ← one_div] at he
  refine ⟨r, t, r1, r2, r3, t2 ?_, t1, he⟩
  have := abs_sub (p + q) (p + q - t)
  rw [sub_sub_cancel] at this
  linarith

/-- The rounded sum and its error. -/
theorem Arith.twoSum (A : Arith V dat add mul neg R) (M : SumRounding F g top R) (hF : 2 ≤ F) (htop : 2 * 2 ^ g < top) {a b : α} {p q : ℚ} (ha : V a) (hb : V b)
    (hp : (dat a).fin = some p) (hq : (dat b).fin = some q) (gp : OnGrid F g p) (gq : OnGrid F g q) (hpt : |p| < top)
    (ht : (1 + 1 / 2 ^ (F + 1)) * |p + q| < top) (hqt : (1 + 1 / 2 ^ (F + 1)) * (2 * |q|) < top) :
    ∃ s t vs, Spec.twoSum add neg a b = some (s, t) ∧ V s ∧ V t ∧ (dat s).fin = some vs ∧ (dat t).fin = some (p + q - vs) ∧ OnGrid F g vs ∧
      OnGrid F g (p + q - vs) ∧ |p + q - vs| ≤ 1 / 2 ^ (F + 1) * |p + q| := by
  have hu : (0 : ℚ) < 1 / 2 ^ (F + 1) := by positivity
  obtain ⟨s, vs, s1, s2, s3, s4, s5, s6⟩ := A.sum M ha hb hp hq gp gq ht
  obtain ⟨e1, -, e3⟩ := onGrid_error gp gq s5
  obtain ⟨n1, n2⟩ := A.neg ha hp
  have hq1 : |q| < top := by nlinarith [abs_nonneg q]
  obtain ⟨v, vv, v1, v2, v3, v4, v5, -⟩ := A.sum M s2 n1 s4 n2 s5.1 (onGrid_neg gp) (by
    refine lt_of_le_of_lt (mul_le_mul_of_nonneg_left ?_ (by linarith)) hqt
    have : vs + -p = q - (p + q - vs) := by ring
    rw [this]
    have := abs_sub q (p + q - vs)
    linarith)
  rw [← sub_eq_add_neg] at v3
  obtain ⟨c1, c2, c3, c4⟩ := M.two hF htop gp gq hpt hq1 s3 s4 v3 v4
  obtain ⟨u, u1, u2, u3⟩ := A.sub s2 v2 s4 v4
  obtain ⟨w, w1, w2, w3⟩ := A.sub ha u2 hp (c1 _ u3)
  obtain ⟨z, z1, z2, z3⟩ := A.sub hb v2 hq v4
  obtain ⟨t, t1, t2, t3⟩ := A.add w2 z2 (c2 _ w3) (c3 _ z3)
  exact ⟨s, t, vs, by simp [Spec.twoSum, s1, v1, u1, w1, z1, t1], s2, t2, s4, c4 _ t3, s5.1, e1, s6⟩

/-- The invariant of the loop after `k` terms with exact sum `P` and sum of magnitudes `B`: `vs` and `ve` are the two running sums. -/
def CompInv (F : ℕ) (g : ℤ) (k : ℕ) (P B vs ve : ℚ) : Prop :=
  OnGrid F g vs ∧ OnGrid F g ve ∧ |P| ≤ B ∧ ∃ T, |P - vs| ≤ T ∧ T ≤ ((1 + 1 / 2 ^ (F + 1)) ^ k - 1) * B ∧
    |ve - (P - vs)| ≤ ((1 + 1 / 2 ^ (F + 1)) ^ k - 1) * T

theorem compStep_inv (A : Arith V dat add mul neg R) (M : SumRounding F g top R) (hF : 2 ≤ F) (htop : 2 * 2 ^ g < top) {s e x : α} {k : ℕ} {P B vs ve v : ℚ}
    (hs : V s) (he : V e) (hx : V x) (fs : (dat s).fin = some vs) (fe : (dat e).fin = some ve) (fx : (dat x).fin = some v) (gx : OnGrid F g v)
    (hI : CompInv F g k P B vs ve) (hb : 2 * (1 + 1 / 2 ^ (F + 1)) ^ (2 * (k + 1)) * (B + |v|) < top) :
    ∃ s' e' vs' ve', compStep add neg (s, e) x = some (s', e') ∧ V s' ∧ V e' ∧ (dat s').fin = some vs' ∧ (dat e').fin = some ve' ∧
      CompInv F g (k + 1) (P + v) (B + |v|) vs' ve' := by
  obtain ⟨g1, g2, hP, T, hT1, hT2, hT3⟩ := hI
  set u : ℚ := 1 / 2 ^ (F + 1) with hu
  have hu0 : 0 < u := by positivity
  set G : ℚ := (1 + u) ^ k with hG
  have hG1 : 1 ≤ G := one_le_pow₀ (by linarith)
  have hpow : (1 + u) ^ (2 * (k + 1)) = ((1 + u) * G) * ((1 + u) * G) := by rw [hG]; ring
  rw [hpow] at hb
  have hB0 : 0 ≤ B := (abs_nonneg _).trans hP
  have hv0 := abs_nonneg v
  have hT0 : 0 ≤ T := (abs_nonneg _).trans hT1
  set H : ℚ := (1 + u) * G with hH
  have hHG : G ≤ H := by rw [hH]; nlinarith
  have hHu : 1 + u ≤ H := by rw [hH]; nlinarith
  have hH1 : 1 ≤ H := hG1.trans hHG
  have hC0 : 0 ≤ B + |v| := by linarith
  -- the running sum
  have hvs : |vs| ≤ B + T := by
    have h := abs_sub P (P - vs)
    rw [sub_sub_cancel] at h
    linarith
  have hBT : B + T ≤ G * B := by linarith
  have hGB : G * B ≤ G * (B + |v|) := mul_le_mul_of_nonneg_left (by linarith) (by linarith)
  have hHC : H * (B + |v|) ≤ H * H * (B + |v|) := by
    have := mul_le_mul_of_nonneg_right hH1 (mul_nonneg (by linarith : 0 ≤ H) hC0)
    linarith
  have hGC : G * (B + |v|) ≤ H * (B + |v|) := mul_le_mul_of_nonneg_right hHG hC0
  have hHC0 : 0 ≤ H * (B + |v|) := by positivity
  have hsum : |vs + v| ≤ B + T + |v| := (abs_add_le _ _).trans (by linarith)
  have hsG : |vs + v| ≤ G * (B + |v|) := by nlinarith
  obtain ⟨s', t, vs', p1, p2, p3, p4, p5, p6, p7, p8⟩ := A.twoSum M hF htop hs hx fs fx g1 gx (by linarith)
    (by
      have h := mul_le_mul_of_nonneg_left hsG (by linarith : 0 ≤ 1 + u)
      have h' : (1 + u) * (G * (B + |v|)) = H * (B + |v|) := by rw [hH]; ring
      linarith)
    (by
      have h1 : (1 + u) * (2 * |v|) ≤ 2 * (H * (B + |v|)) := by
        have h := mul_le_mul hHu (by linarith : |v| ≤ B + |v|) hv0 (by linarith)
        linarith
      linarith)
  set τ := vs + v - vs' with hτ
  -- the sum of the errors
  set T' := T + |τ| with hT'
  have hτT : |τ| ≤ u * (B + T + |v|) := p8.trans (mul_le_mul_of_nonneg_left hsum hu0.le)
  have hT'0 : 0 ≤ T' := add_nonneg hT0 (abs_nonneg _)
  have hT'2 : T' ≤ (H - 1) * (B + |v|) := by
    have h1 : T' ≤ (1 + u) * T + u * (B + |v|) := by rw [hT']; linarith
    have h2 : (1 + u) * T ≤ (1 + u) * ((G - 1) * B) := mul_le_mul_of_nonneg_left hT2 (by linarith)
    have h3 : (1 + u) * ((G - 1) * B) ≤ (1 + u) * ((G - 1) * (B + |v|)) :=
      mul_le_mul_of_nonneg_left (mul_le_mul_of_nonneg_left (by linarith) (by linarith)) (by linarith)
    have h4 : (1 + u) * ((G - 1) * (B + |v|)) + u * (B + |v|) = (H - 1) * (B + |v|) := by rw [hH]; ring
    linarith
  have hD : P + v - vs' = P - vs + τ := by rw [hτ]; ring
  have hD' : |P + v - vs'| ≤ T' := by rw [hD]; exact (abs_add_le _ _).trans (by rw [hT']; linarith)
  have hTT : T ≤ T' := by rw [hT']; linarith [abs_nonneg τ]
  have hdev : |ve + τ - (P + v - vs')| ≤ (G - 1) * T' := by
    rw [hD, show ve + τ - (P - vs + τ) = ve - (P - vs) by ring]
    exact hT3.trans (mul_le_mul_of_nonneg_left hTT (by linarith))
  have hveτ : |ve + τ| ≤ G * T' := by
    have := abs_add_le (ve + τ - (P + v - vs')) (P + v - vs')
    rw [sub_add_cancel] at this
    linarith
  obtain ⟨e', ve', q1, q2, -, q4, q5, q6⟩ := A.sum M he p3 fe p5 g2 p7 (by
    have h1 := mul_le_mul_of_nonneg_left hveτ (by linarith : 0 ≤ 1 + u)
    have h2 : (1 + u) * (G * T') = H * T' := by rw [hH]; ring
    have h3 : H * T' ≤ H * ((H - 1) * (B + |v|)) := mul_le_mul_of_nonneg_left hT'2 (by linarith)
    have h4 : H * ((H - 1) * (B + |v|)) = H * H * (B + |v|) - H * (B + |v|) := by ring
    linarith)
  refine ⟨s', e', vs', ve', by simp [compStep, p1, q1], p2, q2, p4, q4, p6, q5.1, (abs_add_le _ _).trans (by linarith), T', hD', ?_, ?_⟩
  · rw [pow_succ, mul_comm ((1 + u) ^ k)]; exact hT'2
  · rw [pow_succ, mul_comm ((1 + u) ^ k)]
    have h1 := abs_add_le (ve' - (ve + τ)) (ve + τ - (P + v - vs'))
    rw [sub_add_sub_cancel, abs_sub_comm ve' (ve + τ)] at h1
    have h2 : u * |ve + τ| ≤ u * (G * T') := mul_le_mul_of_nonneg_left hveτ hu0.le
    have h3 : ((1 + u) * G - 1) * T' = u * (G * T') + (G - 1) * T' := by ring
    rw [← hG, h3]
    linarith

theorem compFold_inv (A : Arith V dat add mul neg R) (M : SumRounding F g top R) (hF : 2 ≤ F) (htop : 2 * 2 ^ g < top) (xs : List α) :
    ∀ (vals : List ℚ) (s e : α) (k : ℕ) (P B vs ve : ℚ), V s → V e → (dat s).fin = some vs → (dat e).fin = some ve →
      List.Forall₂ (fun x v => V x ∧ (dat x).fin = some v ∧ OnGrid F g v) xs vals → CompInv F g k P B vs ve →
      2 * (1 + 1 / 2 ^ (F + 1)) ^ (2 * (k + xs.length)) * (B + (vals.map abs).sum) < top →
      ∃ s' e' vs' ve', xs.foldlM (compStep add neg) (s, e) = some (s', e') ∧ V s' ∧ V e' ∧ (dat s').fin = some vs' ∧ (dat e').fin = some ve' ∧
        CompInv F g (k + xs.length) (P + vals.sum) (B + (vals.map abs).sum) vs' ve' := by
  induction xs with
  | nil =>
    intro vals s e k P B vs ve hs he fs fe hx hI hb
    cases hx
    exact ⟨s, e, vs, ve, rfl, hs, he, fs, fe, by simpa using hI⟩
  | cons x xs ih =>
    intro vals s e k P B vs ve hs he fs fe hx hI hb
    cases hx with
    | @cons _ v _ vals hx hxs =>
      obtain ⟨vx, fx, gx⟩ := hx
      have hu0 : (0 : ℚ) < 1 / 2 ^ (F + 1) := by positivity
      have hB0 : 0 ≤ B := (abs_nonneg _).trans hI.2.2.1
      have hS0 : 0 ≤ (vals.map abs).sum := List.sum_nonneg fun y hy => by
        obtain ⟨z, -, rfl⟩ := List.mem_map.mp hy
        exact abs_nonneg z
      simp only [List.length_cons, List.map_cons, List.sum_cons] at hb ⊢
      obtain ⟨s', e', vs', ve', p1, p2, p3, p4, p5, p6⟩ := compStep_inv A M hF htop hs he vx fs fe fx gx hI (by
        refine lt_of_le_of_lt (mul_le_mul (mul_le_mul_of_nonneg_left (pow_le_pow_right₀ (by linarith) (by omega)) (by norm_num)) (by linarith)
          (by linarith [abs_nonneg v]) (by positivity)) hb)
      obtain ⟨s2, e2, vs2, ve2, q1, q2, q3, q4, q5, q6⟩ := ih vals s' e' (k + 1) (P + v) (B + |v|) vs' ve' p2 p3 p4 p5 hxs p6 (by
        rw [show k + 1 + xs.length = k + (xs.length + 1) by omega, add_assoc]; exact hb)
      refine ⟨s2, e2, vs2, ve2, ?_, q2, q3, q4, q5, ?_⟩
      · rw [List.foldlM_cons, p1]; exact q1
      · rw [show k + (xs.length + 1) = k + 1 + xs.length by omega, ← add_assoc, ← add_assoc]; exact q6

/-- The result of the whole program. -/
theorem Arith.compSum (A : Arith V dat add mul neg R) (M : SumRounding F g top R) (hF : 2 ≤ F) (htop : 2 * 2 ^ g < top) {z : α} (vz : V z) (fz : (dat z).fin = some 0)
    (xs : List α) (vals : List ℚ) (hx : List.Forall₂ (fun x v => V x ∧ (dat x).fin = some v ∧ OnGrid F g v) xs vals)
    (hb : 2 * (1 + 1 / 2 ^ (F + 1)) ^ (2 * xs.length) * (vals.map abs).sum < top) :
    ∃ r vr, Spec.compSum add neg z xs = some r ∧ (dat r).fin = some vr ∧
      |vr - vals.sum| ≤ 1 / 2 ^ (F + 1) * |vals.sum| + (1 + 1 / 2 ^ (F + 1)) * ((1 + 1 / 2 ^ (F + 1)) ^ xs.length - 1) ^ 2 * (vals.map abs).sum := by
  obtain ⟨s, e, vs, ve, p1, p2, p3, p4, p5, g1, g2, hP, T, hT1, hT2, hT3⟩ := compFold_inv A M hF htop xs vals z z 0 0 0 0 0 vz vz fz fz hx
    ⟨onGrid_zero, onGrid_zero, by simp, 0, by simp, by simp, by simp⟩ (by simpa using hb)
  simp only [zero_add] at hP hT1 hT2 hT3
  set u : ℚ := 1 / 2 ^ (F + 1) with hu
  have hu0 : 0 < u := by positivity
  have hu1 : u ≤ 1 := by
    rw [hu, div_le_one (by positivity)]
    exact one_le_pow₀ (by norm_num)
  set G : ℚ := (1 + u) ^ xs.length with hG
  have hG1 : 1 ≤ G := one_le_pow₀ (by linarith)
  set S := vals.sum
  set B := (vals.map abs).sum
  have hB0 : 0 ≤ B := (abs_nonneg _).trans hP
  have hpow : (1 + u) ^ (2 * xs.length) = G * G := by rw [hG]; ring
  rw [hpow] at hb
  have hdev : |vs + ve - S| ≤ (G - 1) ^ 2 * B := by
    have h1 := mul_le_mul_of_nonneg_left hT2 (by linarith : 0 ≤ G - 1)
    rw [show vs + ve - S = ve - (S - vs) by ring]
    have h2 : (G - 1) ^ 2 * B = (G - 1) * ((G - 1) * B) := by ring
    linarith
  have hs : |vs + ve| ≤ |S| + (G - 1) ^ 2 * B := by
    have := abs_add_le (vs + ve - S) S
    rw [sub_add_cancel] at this
    linarith
  have hGB : B + (G - 1) ^ 2 * B ≤ G * G * B := by
    have : 0 ≤ (G - 1) * B := mul_nonneg (by linarith) hB0
    have e1 : G * G * B = B + (G - 1) ^ 2 * B + 2 * ((G - 1) * B) := by ring
    linarith
  have hGG : 0 ≤ G * G * B := by positivity
  obtain ⟨r, vr, r1, -, -, r4, -, r6⟩ := A.sum M p2 p3 p4 p5 g1 g2 (by
    have h1 : |vs + ve| ≤ G * G * B := by linarith
    have h2 := mul_le_mul_of_nonneg_left h1 (by linarith : 0 ≤ 1 + u)
    have h3 := mul_le_mul_of_nonneg_right hu1 hGG
    linarith)
  refine ⟨r, vr, by simp [Spec.compSum, p1, r1], r4, ?_⟩
  have h1 := abs_add_le (vr - (vs + ve)) (vs + ve - S)
  rw [sub_add_sub_cancel, abs_sub_comm vr (vs + ve)] at h1
  have h2 := mul_le_mul_of_nonneg_left hs hu0.le
  have h3 : (1 + u) * (G - 1) ^ 2 * B = (G - 1) ^ 2 * B + u * ((G - 1) ^ 2 * B) := by ring
  rw [h3]
  linarith

end Thls
