import Verif.Proofs.Dekker
import Verif.SpecDekker

/-! # The client programs in a rounded arithmetic (lemmas) -/

namespace Thls
open Spec

/-- An arithmetic whose sums and products are rounded by `R`. `V` are the valid words. -/
structure Arith {α : Type} (V : α → Prop) (dat : α → Datum) (add mul : α → α → Option α) (neg : α → α) (R : ℚ → Datum → Prop) : Prop where
  add : ∀ {a b p q}, V a → V b → (dat a).fin = some p → (dat b).fin = some q → ∃ r, add a b = some r ∧ V r ∧ R (p + q) (dat r)
  mul : ∀ {a b p q}, V a → V b → (dat a).fin = some p → (dat b).fin = some q → ∃ r, mul a b = some r ∧ V r ∧ R (p * q) (dat r)
  neg : ∀ {a p}, V a → (dat a).fin = some p → V (neg a) ∧ (dat (neg a)).fin = some (-p)

variable {α : Type} {V : α → Prop} {dat : α → Datum} {add mul : α → α → Option α} {neg : α → α} {R : ℚ → Datum → Prop} {F : ℕ} {g : ℤ} {top : ℚ}

theorem Arith.sub (A : Arith V dat add mul neg R) {a b : α} {p q : ℚ} (ha : V a) (hb : V b) (hp : (dat a).fin = some p) (hq : (dat b).fin = some q) :
    ∃ r, add a (neg b) = some r ∧ V r ∧ R (p - q) (dat r) := by
  obtain ⟨n1, n2⟩ := A.neg hb hq
  obtain ⟨r, r1, r2, r3⟩ := A.add ha n1 hp n2
  exact ⟨r, r1, r2, by rwa [← sub_eq_add_neg] at r3⟩

/-- The splitting. -/
theorem Arith.split (A : Arith V dat add mul neg R) (M : SumRounding F g top R) {e : ℤ} {s : ℕ} {c x : α} {v : ℚ} (hge : g ≤ e) (h1s : 1 ≤ s) (hsF : s ≤ F)
    (vc : V c) (vx : V x) (hc : (dat c).fin = some (2 ^ s + 1)) (hx : (dat x).fin = some v) (hn : NormAt F e v) (hb : 2 ^ (s + 1) * |v| < top) :
    ∃ h l vh, Spec.split add mul neg c x = some (h, l) ∧ V h ∧ V l ∧ (dat h).fin = some vh ∧ (dat l).fin = some (v - vh) ∧ SplitAt F e s v vh := by
  obtain ⟨p, p1, p2, p3⟩ := A.mul vc vx hc hx
  have hP : (2 : ℚ) ≤ 2 ^ s := by
    calc (2 : ℚ) = 2 ^ 1 := by norm_num
      _ ≤ 2 ^ s := pow_le_pow_right₀ (by norm_num) h1s
  have hPN : (2 : ℚ) ^ s ≤ 2 ^ F := pow_le_pow_right₀ (by norm_num) hsF
  have hu := two_zpow_pos e
  obtain ⟨b1, b2⟩ := normAt_bounds hn
  have hv0 : 0 < |v| := lt_of_lt_of_le (by positivity) b1
  rw [pow_succ] at hb
  have hvt : |v| < top := by nlinarith
  -- the first product is finite
  obtain ⟨t, t1, t2, -⟩ := M _ _ (by
    obtain ⟨n, hn⟩ := mult_le hge (normAt_mult hn)
    exact ⟨(2 ^ s + 1) * n, by rw [hn]; push_cast; ring⟩) p3
  have hes : (2 : ℚ) ^ (e + s) = 2 ^ e * 2 ^ s := by rw [zpow_add₀ (by norm_num), zpow_natCast]
  have herr : |(2 ^ s + 1) * v - t| ≤ |v| := by
    have hx0 : OnGrid F g (2 ^ s * v) := by
      obtain ⟨n, hn, h1, h2⟩ := hn
      refine ⟨n, e + s, by omega, h2.le, ?_⟩
      rw [hn, hes]; ring
    have := t1.2 _ hx0
    rwa [show (2 ^ s + 1) * v - 2 ^ s * v = v by ring] at this
  have htt : |t| < top := by
    have h1 : |t| ≤ |(2 ^ s + 1) * v| + |(2 ^ s + 1) * v - t| := by
      have := abs_sub ((2 ^ s + 1) * v) ((2 ^ s + 1) * v - t)
      rwa [sub_sub_cancel] at this
    rw [abs_mul, abs_of_pos (by positivity : (0 : ℚ) < 2 ^ s + 1)] at h1
    nlinarith
  have hp := t2 htt
  obtain ⟨d, d1, d2, d3⟩ := A.sub vx p2 hx hp
  obtain ⟨vd, e1, e2⟩ := M.split hge h1s hsF hn hvt p3 hp _ d3
  obtain ⟨h, h1, h2, h3⟩ := A.add p2 d2 hp e1
  obtain ⟨vh, f1, f2, f3⟩ := e2 _ h3
  obtain ⟨l, l1, l2, l3⟩ := A.sub vx h2 hx f1
  exact ⟨h, l, vh, by simp [Spec.split, p1, d1, h1, l1], h2, l2, f1, f3 _ l3, f2⟩

/-- The product and its error. -/
theorem Arith.twoProductFull (A : Arith V dat add mul neg R) (M : SumRounding F g top R) {s : ℕ} {c x y : α} {v w : ℚ} (h1 : F + 1 ≤ 2 * s)
    (h2 : 2 * s ≤ F + 2) (h3 : s + 2 ≤ F) (vc : V c) (vx : V x) (vy : V y) (hc : (dat c).fin = some (2 ^ s + 1)) (hx : (dat x).fin = some v)
    (hy : (dat y).fin = some w) (sv : SigValue F v) (sw : SigValue F w) (bv : (2 : ℚ) ^ ((F : ℤ) + g) ≤ |v|) (bw : (2 : ℚ) ^ ((F : ℤ) + g) ≤ |w|)
    (bvw : (2 : ℚ) ^ (2 * (F : ℤ) + 1 + g) ≤ |v * w|) (tv : 2 ^ (s + 1) * |v| < top) (tw : 2 ^ (s + 1) * |w| < top) (tvw : 2 * |v * w| < top) :
    ∃ r t vr, Spec.twoProduct add mul neg c x y = some (r, t) ∧ mul x y = some r ∧ (dat r).fin = some vr ∧ (dat t).fin = some (v * w - vr) ∧
      V r ∧ V t ∧ (∃ n : ℤ, v * w = n * 2 ^ g) ∧ NearGrid F g (v * w) vr ∧ OnGrid F g (v * w - vr) := by
  obtain ⟨e, ge, nv⟩ := sigValue_normAt sv bv
  obtain ⟨f, gf, nw⟩ := sigValue_normAt sw bw
  have hge := normAt_product nv nw bvw
  obtain ⟨hx', lx, vhx, px, ux1, ux2, ux3, ux4, sx⟩ := A.split M ge (by omega) (by omega) vc vx hc hx nv tv
  obtain ⟨hy', ly, vhy, py, uy1, uy2, uy3, uy4, sy⟩ := A.split M gf (by omega) (by omega) vc vy hc hy nw tw
  obtain ⟨r, r1, r2, r3⟩ := A.mul vx vy hx hy
  have he := two_zpow_pos e
  have hf := two_zpow_pos f
  obtain ⟨bv1, -⟩ := normAt_bounds nv
  obtain ⟨bw1, -⟩ := normAt_bounds nw
  have hPN : (4 : ℚ) * 2 ^ s ≤ 2 ^ F := by
    calc (4 : ℚ) * 2 ^ s = 2 ^ (s + 2) := by rw [pow_add]; ring
      _ ≤ 2 ^ F := pow_le_pow_right₀ (by norm_num) h3
  -- both products are below the limit
  have near : ∀ {x h : ℚ} {e : ℤ}, (2 : ℚ) ^ F * 2 ^ e ≤ |x| → SplitAt F e s x h → |h| ≤ 5 / 4 * |x| := by
    intro x h e hx hs
    obtain ⟨n, -, -, hd⟩ := hs
    have he := two_zpow_pos e
    have hes : (2 : ℚ) ^ (e + s) = 2 ^ e * 2 ^ s := by rw [zpow_add₀ (by norm_num), zpow_natCast]
    rw [hes] at hd
    have h4 : 4 * (2 ^ e * 2 ^ s) ≤ (2 : ℚ) ^ F * 2 ^ e := by
      have := mul_le_mul_of_nonneg_right hPN he.le
      linarith
    have h5 : |h| ≤ |x| + |x - h| := by
      have := abs_sub x (x - h)
      rwa [sub_sub_cancel] at this
    have := abs_nonneg x
    linarith
  have hq1 : |vhx * vhy| < top := by
    rw [abs_mul] at tvw ⊢
    have := mul_le_mul (near bv1 sx) (near bw1 sy) (abs_nonneg _) (by positivity)
    nlinarith [mul_nonneg (abs_nonneg v) (abs_nonneg w)]
  obtain ⟨tr, t1, t2, -⟩ := M _ _ (mult_le hge (mult_mul (normAt_mult nv) (normAt_mult nw))) r3
  have hrt : |tr| < top := by
    have h0 := t1.2 0 onGrid_zero
    rw [sub_zero] at h0
    have : |tr| ≤ |v * w| + |v * w - tr| := by
      have := abs_sub (v * w) (v * w - tr)
      rwa [sub_sub_cancel] at this
    linarith
  have hr := t2 hrt
  obtain ⟨q, q1, q2, q3⟩ := A.mul ux1 uy1 ux3 uy3
  obtain ⟨-, c2, c3, c4, c5, c6, c7, c8⟩ := M.product hge h1 h2 h3 nv nw sx sy r3 hr
  have hon : OnGrid F g (vhx * vhy) := (product_facts hge h1 h2 h3 nv nw sx sy t1).1
  have hq := M.exact hon hq1 q3
  obtain ⟨nr1, nr2⟩ := A.neg r2 hr
  obtain ⟨a1, a1e, a1v, a1r⟩ := A.add q2 nr1 hq nr2
  have f1 := c2 _ a1r
  obtain ⟨m1, m1e, m1v, m1r⟩ := A.mul ux1 uy2 ux3 uy4
  have f2 := c3 _ m1r
  obtain ⟨a2, a2e, a2v, a2r⟩ := A.add a1v m1v f1 f2
  have f3 := c4 _ a2r
  obtain ⟨m2, m2e, m2v, m2r⟩ := A.mul ux2 uy1 ux4 uy3
  have f4 := c5 _ m2r
  obtain ⟨a3, a3e, a3v, a3r⟩ := A.add a2v m2v f3 f4
  have f5 := c6 _ a3r
  obtain ⟨m3, m3e, m3v, m3r⟩ := A.mul ux2 uy2 ux4 uy4
  have f6 := c7 _ m3r
  obtain ⟨t, te, tv', tr'⟩ := A.add a3v m3v f5 f6
  exact ⟨r, t, tr, by simp [Spec.twoProduct, px, py, r1, q1, a1e, m1e, a2e, m2e, a3e, m3e, te], r1, hr, c8 _ tr',
    r2, tv', mult_le hge (mult_mul (normAt_mult nv) (normAt_mult nw)), t1, (product_facts hge h1 h2 h3 nv nw sx sy t1).2.2.2.2.2.2.2.1⟩

theorem Arith.twoProduct (A : Arith V dat add mul neg R) (M : SumRounding F g top R) {s : ℕ} {c x y : α} {v w : ℚ} (h1 : F + 1 ≤ 2 * s)
    (h2 : 2 * s ≤ F + 2) (h3 : s + 2 ≤ F) (vc : V c) (vx : V x) (vy : V y) (hc : (dat c).fin = some (2 ^ s + 1)) (hx : (dat x).fin = some v)
    (hy : (dat y).fin = some w) (sv : SigValue F v) (sw : SigValue F w) (bv : (2 : ℚ) ^ ((F : ℤ) + g) ≤ |v|) (bw : (2 : ℚ) ^ ((F : ℤ) + g) ≤ |w|)
    (bvw : (2 : ℚ) ^ (2 * (F : ℤ) + 1 + g) ≤ |v * w|) (tv : 2 ^ (s + 1) * |v| < top) (tw : 2 ^ (s + 1) * |w| < top) (tvw : 2 * |v * w| < top) :
    ∃ r t vr, Spec.twoProduct add mul neg c x y = some (r, t) ∧ mul x y = some r ∧ (dat r).fin = some vr ∧ (dat t).fin = some (v * w - vr) := by
  obtain ⟨r, t, vr, p1, p2, p3, p4, -⟩ := A.twoProductFull M h1 h2 h3 vc vx vy hc hx hy sv sw bv bw bvw tv tw tvw
  exact ⟨r, t, vr, p1, p2, p3, p4⟩

/-- A number that can be split: zero, or with all its bits and its product by `2^(s+1)` in the range. -/
def Splittable (F : ℕ) (g : ℤ) (top : ℚ) (s : ℕ) (v : ℚ) : Prop :=
  v = 0 ∨ (SigValue F v ∧ (2 : ℚ) ^ ((F : ℤ) + g) ≤ |v| ∧ 2 ^ (s + 1) * |v| < top)

theorem Arith.split0 (A : Arith V dat add mul neg R) (M : SumRounding F g top R) {s : ℕ} {c x : α} {v : ℚ} (h1s : 1 ≤ s) (hsF : s ≤ F) (htop : 0 < top)
    (vc : V c) (vx : V x) (hc : (dat c).fin = some (2 ^ s + 1)) (hx : (dat x).fin = some v) (hv : Splittable F g top s v) :
    ∃ h l vh, Spec.split add mul neg c x = some (h, l) ∧ V h ∧ V l ∧ (dat h).fin = some vh ∧ (dat l).fin = some (v - vh) ∧ (v = 0 → vh = 0) := by
  rcases hv with rfl | ⟨sv, bv, tv⟩
  · have hz : ∀ {q d}, q = 0 → R q d → d.fin = some 0 := by
      rintro q d rfl h
      exact M.exact onGrid_zero (by rwa [abs_zero]) h
    obtain ⟨p, p1, p2, p3⟩ := A.mul vc vx hc hx
    have fp := hz (by ring) p3
    obtain ⟨d, d1, d2, d3⟩ := A.sub vx p2 hx fp
    have fd := hz (by ring) d3
    obtain ⟨h, h1, h2, h3⟩ := A.add p2 d2 fp fd
    have fh := hz (by ring) h3
    obtain ⟨l, l1, l2, l3⟩ := A.sub vx h2 hx fh
    have fl := hz (by ring) l3
    exact ⟨h, l, 0, by simp [Spec.split, p1, d1, h1, l1], h2, l2, fh, by rw [fl]; simp, fun _ => rfl⟩
  · obtain ⟨e, ge, nv⟩ := sigValue_normAt sv bv
    obtain ⟨h, l, vh, p, q1, q2, q3, q4, -⟩ := A.split M ge h1s hsF vc vx hc hx nv tv
    refine ⟨h, l, vh, p, q1, q2, q3, q4, fun h0 => ?_⟩
    rw [h0, abs_zero] at bv
    exact absurd bv (not_le.mpr (two_zpow_pos _))

/-- The product and its error, zeros included. -/
theorem Arith.twoProduct0 (A : Arith V dat add mul neg R) (M : SumRounding F g top R) {s : ℕ} {c x y : α} {v w : ℚ} (h1 : F + 1 ≤ 2 * s)
    (h2 : 2 * s ≤ F + 2) (h3 : s + 2 ≤ F) (htop : 0 < top) (vc : V c) (vx : V x) (vy : V y) (hc : (dat c).fin = some (2 ^ s + 1)) (hx : (dat x).fin = some v)
    (hy : (dat y).fin = some w) (sv : Splittable F g top s v) (sw : Splittable F g top s w)
    (bvw : v * w = 0 ∨ (2 : ℚ) ^ (2 * (F : ℤ) + 1 + g) ≤ |v * w|) (tvw : 2 * |v * w| < top) :
    ∃ r t vr, Spec.twoProduct add mul neg c x y = some (r, t) ∧ V r ∧ V t ∧ (dat r).fin = some vr ∧ (dat t).fin = some (v * w - vr) ∧
      (∃ n : ℤ, v * w = n * 2 ^ g) ∧ NearGrid F g (v * w) vr ∧ OnGrid F g (v * w - vr) := by
  by_cases hvw : v * w = 0
  · have hz : ∀ {q d}, q = 0 → R q d → d.fin = some 0 := by
      rintro q d rfl h
      exact M.exact onGrid_zero (by rwa [abs_zero]) h
    obtain ⟨hx', lx, vhx, px, ux1, ux2, ux3, ux4, sx⟩ := A.split0 M (by omega) (by omega) htop vc vx hc hx sv
    obtain ⟨hy', ly, vhy, py, uy1, uy2, uy3, uy4, sy⟩ := A.split0 M (by omega) (by omega) htop vc vy hc hy sw
    have z : vhx * vhy = 0 ∧ vhx * (w - vhy) = 0 ∧ (v - vhx) * vhy = 0 ∧ (v - vhx) * (w - vhy) = 0 := by
      rcases mul_eq_zero.mp hvw with h | h
      · simp [sx h, h]
      · simp [sy h, h]
    obtain ⟨z1, z2, z3, z4⟩ := z
    obtain ⟨r, r1, r2, r3⟩ := A.mul vx vy hx hy
    have fr := hz hvw r3
    obtain ⟨q, q1, q2, q3⟩ := A.mul ux1 uy1 ux3 uy3
    have fq := hz z1 q3
    obtain ⟨a1, a1e, a1v, a1r⟩ := A.sub q2 r2 fq fr
    have f1 := hz (by ring) a1r
    obtain ⟨m1, m1e, m1v, m1r⟩ := A.mul ux1 uy2 ux3 uy4
    have f2 := hz z2 m1r
    obtain ⟨a2, a2e, a2v, a2r⟩ := A.add a1v m1v f1 f2
    have f3 := hz (by ring) a2r
    obtain ⟨m2, m2e, m2v, m2r⟩ := A.mul ux2 uy1 ux4 uy3
    have f4 := hz z3 m2r
    obtain ⟨a3, a3e, a3v, a3r⟩ := A.add a2v m2v f3 f4
    have f5 := hz (by ring) a3r
    obtain ⟨m3, m3e, m3v, m3r⟩ := A.mul ux2 uy2 ux4 uy4
    have f6 := hz z4 m3r
    obtain ⟨t, te, tv, tr⟩ := A.add a3v m3v f5 f6
    have ft := hz (by ring) tr
    refine ⟨r, t, 0, by simp [Spec.twoProduct, px, py, r1, q1, a1e, m1e, a2e, m2e, a3e, m3e, te], r2, tv, fr, by rw [ft, hvw]; simp, ?_, ?_, ?_⟩
    · exact ⟨0, by rw [hvw]; simp⟩
    · rw [hvw]; exact ⟨onGrid_zero, fun u _ => by simp⟩
    · rw [hvw, sub_zero]; exact onGrid_zero
  · have hv0 : v ≠ 0 := left_ne_zero_of_mul hvw
    have hw0 : w ≠ 0 := right_ne_zero_of_mul hvw
    obtain ⟨sv1, sv2, sv3⟩ := sv.resolve_left hv0
    obtain ⟨sw1, sw2, sw3⟩ := sw.resolve_left hw0
    obtain ⟨r, t, vr, p1, -, p3, p4, p5, p6, p7, p8, p9⟩ := A.twoProductFull M h1 h2 h3 vc vx vy hc hx hy sv1 sw1 sv2 sw2 (bvw.resolve_left hvw) sv3 sw3 tvw
    exact ⟨r, t, vr, p1, p5, p6, p3, p4, p7, p8, p9⟩

end Thls
