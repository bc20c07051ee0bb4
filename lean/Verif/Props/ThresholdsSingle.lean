import Verif.Props.Thresholds
import Verif.Props.Midpoint
import Verif.Props.AddSingleEdgeMono

/-! # Property C101 for the single-path adder

It rounds some differences wrongly (`ClampCase`, C15), but never by more than the greatest error of a correctly rounded sum: it overflows and underflows
exactly where the default adder does, and its relative error has the same bound. -/

namespace Thls
open Spec

variable {E F : ℕ}

/-- The greatest significand is all ones. -/
theorem sig_below_two_pow {v : ℚ} (h : SigValue F v) {j : ℤ} (hj : |v| < 2 ^ j) : |v| ≤ 2 ^ j * (1 - uro F) := by
  obtain ⟨m, e, hm, hv⟩ := h
  have h1 : (2 : ℚ) ^ F ≤ m := by exact_mod_cast hm.1
  have h2 : (m : ℚ) ≤ 2 ^ (F + 1) - 1 := by
    have : (m : ℚ) + 1 ≤ 2 ^ (F + 1) := by exact_mod_cast hm.2
    linarith
  have he : e + F < j := by
    have : (2 : ℚ) ^ (e + F) < 2 ^ j := by
      refine lt_of_le_of_lt ?_ hj
      rw [hv, zpow_add₀ (by norm_num), zpow_natCast, mul_comm]
      exact mul_le_mul_of_nonneg_right h1 (two_zpow_pos e).le
    exact (zpow_lt_zpow_iff_right₀ (by norm_num)).mp this
  have h0 : (0 : ℚ) ≤ m := Nat.cast_nonneg m
  rw [hv]
  calc (m : ℚ) * 2 ^ e ≤ m * 2 ^ (j - F - 1) := mul_le_mul_of_nonneg_left (zpow_le_zpow_right₀ (by norm_num) (by omega)) h0
    _ ≤ (2 ^ (F + 1) - 1) * 2 ^ (j - F - 1) := mul_le_mul_of_nonneg_right h2 (two_zpow_pos _).le
    _ = 2 ^ j * (1 - uro F) := by
      unfold uro
      rw [mul_sub, ← zpow_add₀ (by norm_num), sub_mul, one_mul, ← zpow_natCast, ← zpow_add₀ (by norm_num)]
      congr 2 <;> push_cast <;> ring

theorem clamp_outcome (hE : 1 ≤ E) (hF : 1 ≤ F) {x y : Fp E F} {a b : ℚ} (hx : x.datum = .num a) (hy : y.datum = .num b) (h : ClampCase F a b) :
    Outcome (overflowAt E F) (underflowAt E F) (uro F) (a + b) (.num a) := by
  obtain ⟨hab, k, hk, -, h2⟩ := h
  have hu0 := uro_pos F
  obtain ⟨x1, x2⟩ := C101_numbers_between hE hF x a hx
  obtain ⟨y1, -⟩ := C101_numbers_between hE hF y b hy
  have hbu : |b| < uro F * |a| := by
    rw [hk]; unfold uro
    rw [← zpow_add₀ (by norm_num)]
    convert h2 using 2; ring
  have ha0 : 0 < |a| := by rw [hk]; exact two_zpow_pos k
  have hu2 : uro F ≤ 1 / 4 := by
    unfold uro
    calc (2 : ℚ) ^ (-(F : ℤ) - 1) ≤ 2 ^ (-2 : ℤ) := zpow_le_zpow_right₀ (by norm_num) (by omega)
      _ = 1 / 4 := by norm_num
  have hq : |a + b| = |a| - |b| := by
    rcases lt_or_gt_of_ne (left_ne_zero_of_mul hab.ne) with h | h
    · have hb : 0 < b := by nlinarith
      rw [abs_of_neg h, abs_of_pos hb] at *
      rw [abs_of_neg (by nlinarith)]; ring
    · have hb : b < 0 := by nlinarith
      rw [abs_of_pos h, abs_of_neg hb] at *
      rw [abs_of_pos (by nlinarith)]; ring
  refine ⟨by simp, ?_, ?_, by simp, by simp, ?_⟩
  · constructor
    · rintro ⟨s, hs⟩; cases hs
    · intro h; exfalso; linarith [abs_nonneg b]
  · constructor
    · rintro ⟨s, hs⟩; cases hs
    · intro h; exfalso
      nlinarith
  · intro v hv
    injection hv with hv
    subst hv
    constructor
    · have hb := sig_below_two_pow (((flush_value hE hF (x := y) (by rw [hy]; rfl)).resolve_left (right_ne_zero_of_mul hab.ne)).1) h2
      have he : (2 : ℚ) ^ (k - F - 1) = uro F * |a| := by
        rw [hk]; unfold uro
        rw [← zpow_add₀ (by norm_num)]; congr 1; ring
      rw [show a - (a + b) = -b by ring, abs_neg, hq]
      rw [he] at hb
      have h5 : 0 ≤ uro F * |a| * (uro F * uro F) := by positivity
      have h6 := mul_le_mul_of_nonneg_left hb (show 0 ≤ 1 + uro F by linarith)
      linarith
    · have h1 : a * (a + b) = |a| * |a| + a * b := by rw [abs_mul_abs_self]; ring
      have h3 : -(a * b) = |a| * |b| := by rw [← abs_mul, abs_of_neg hab]
      have h4 := mul_lt_mul_of_pos_left (show |b| < |a| by nlinarith) ha0
      linarith

theorem orders_outcome {norm : ℕ → Option (ℕ × ℕ)} (hn : AddSingle.Normalises F norm) (hE : 1 ≤ E) (hF : 1 ≤ F) {x y r : Fp E F}
    (ho : AddSingle.Orders norm x y (some r)) {vx vy : ℚ} (hx : x.datum.fin = some vx) (hy : y.datum.fin = some vy) :
    Outcome (overflowAt E F) (underflowAt E F) (uro F) (vx + vy) r.datum := by
  have spec := fun (d : Datum) (hd : addSpecial x.datum y.datum = some d) => orders_special_returned hn hE hF ho hd
  have self : ∀ (z : Fp E F) (v : ℚ), z.datum = .num v → Outcome (overflowAt E F) (underflowAt E F) (uro F) v (.num v) := fun z v hz => by
    have := rounded_self hF hE z v hz
    rw [hz] at this
    exact rounded_outcome hF (num_ne_zero hz) this
  cases dx : x.datum with
  | nan => rw [dx] at hx; cases hx
  | inf s => rw [dx] at hx; cases hx
  | zero s =>
    rw [dx] at hx; injection hx with hx; subst hx
    cases dy : y.datum with
    | nan => rw [dy] at hy; cases hy
    | inf s => rw [dy] at hy; cases hy
    | zero t =>
      rw [dy] at hy; injection hy with hy; subst hy
      have hd := spec (.zero (s && t)) (by rw [dx, dy]; rfl)
      exact rounded0_outcome hF (by unfold Rounded0; rw [if_pos (by ring)]; exact ⟨_, hd⟩)
    | num v =>
      rw [dy] at hy; injection hy with hy; subst hy
      rw [spec (.num v) (by rw [dx, dy]; rfl), zero_add]; exact self y v dy
  | num u =>
    rw [dx] at hx; injection hx with hx; subst hx
    cases dy : y.datum with
    | nan => rw [dy] at hy; cases hy
    | inf s => rw [dy] at hy; cases hy
    | zero t =>
      rw [dy] at hy; injection hy with hy; subst hy
      rw [spec (.num u) (by rw [dx, dy]; rfl), add_zero]; exact self x u dx
    | num v =>
      rw [dy] at hy; injection hy with hy; subst hy
      have hO := mt (orders_none_iff hn hE hF ho).mpr (by simp)
      have hfmt := not_overshifts hO
      have hE2 : 2 ≤ E := by
        by_contra hc
        have : E = 1 := by omega
        rw [this] at hfmt; omega
      obtain ⟨w1, w2⟩ := orders_fits hE hF hO
      obtain ⟨r', hr, a1, a2, a3, a4⟩ := AddSingle.orders_num_of_fits hn hE2 hF hfmt w1 w2 ho dx dy
      obtain rfl := Option.some.inj hr
      by_cases c1 : AddSingle.Clamped x y
      · rw [a3 c1, dx]
        exact clamp_outcome hE hF dx dy ((AddSingle.clamped_iff hE hF dx dy).mp c1).2
      by_cases c2 : AddSingle.Clamped y x
      · rw [a4 c2, dy, add_comm]
        exact clamp_outcome hE hF dy dx ((AddSingle.clamped_iff hE hF dy dx).mp c2).2
      refine rounded0_outcome hF ?_
      unfold Rounded0
      split_ifs with h0
      · exact ⟨_, a1 h0⟩
      · exact a2 h0 c1 c2

/-- **C101, sums of the single-path adder**, in every format in which it always returns. -/
theorem C101_add_single (hE : 2 ≤ E) (hF : 1 ≤ F) (h1 : F + 3 < 2 ^ E) (h2 : F + 3 ≠ 2 ^ (E - 1)) (x y : Fp E F) (vx vy : ℚ) (hx : x.datum.fin = some vx)
    (hy : y.datum.fin = some vy) :
    ∃ r, AddSingle.addSame x y = some r ∧ Outcome (overflowAt E F) (underflowAt E F) (uro F) (vx + vy) r.datum := by
  obtain ⟨r, -, hr, -⟩ := C18_add_single_commutative hE hF h1 h2 x y
  exact ⟨r, hr, orders_outcome (AddSingle.lzoc_normalises F) (by omega) hF (hr ▸ AddSingle.addSame_orders (by omega) hF x y) hx hy⟩

/-- **C101, whatever `add_single` or its version 5 returns**, for operands of any two formats. -/
theorem C101_add_single_returned {wEX wFX wEY wFY : ℕ} (hEX : 1 ≤ wEX) (hFX : 1 ≤ wFX) (hEY : 1 ≤ wEY) (hFY : 1 ≤ wFY) (x : Fp wEX wFX) (y : Fp wEY wFY)
    (r : Fp (max wEX wEY) (max wFX wFY)) (vx vy : ℚ) (hx : x.datum.fin = some vx) (hy : y.datum.fin = some vy)
    (h : AddSingle.add x y = some r ∨ AddSingle.addV5 x y = some r) :
    Outcome (overflowAt (max wEX wEY) (max wFX wFY)) (underflowAt (max wEX wEY) (max wFX wFY)) (uro (max wFX wFY)) (vx + vy) r.datum := by
  refine orders_outcome (AddSingle.lzoc_normalises _) (by omega) (by omega) (x := promote (max wEX wEY) (max wFX wFY) x)
    (y := promote (max wEX wEY) (max wFX wFY) y) ?_ (by rw [promote_datum hEX hFX (by omega) (by omega), hx])
    (by rw [promote_datum hEY hFY (by omega) (by omega), hy])
  rcases h with h | h
  · rw [← h]; exact AddSingle.addSame_orders (by omega) (by omega) _ _
  · rw [← h]; exact AddSingle.addV5_orders hEX hFX hEY hFY x y

/-- **C101, version 3.** -/
theorem C101_add_single_v3_returned (u v : ℕ) (hE : 1 ≤ E) (h11 : 11 ≤ F) (h26 : F ≤ 26) (x y r : Fp E F) (vx vy : ℚ) (hx : x.datum.fin = some vx)
    (hy : y.datum.fin = some vy) (h : AddSingle.addSameV3 u v x y = some r) :
    Outcome (overflowAt E F) (underflowAt E F) (uro F) (vx + vy) r.datum :=
  orders_outcome (AddSingle.clz_normalises u v h11 h26) hE (by omega) (h ▸ AddSingle.addSameV3_orders u v hE (by omega) x y) hx hy

/-- The hypotheses are met by a difference that this adder rounds wrongly: `1 - 7/64` with two fraction bits is `1`, not `7/8`, a relative error of `7/57 < 1/8`. -/
example : (Fp.mk4 5 2 1 0 15 0).datum = .num 1 ∧ (Fp.mk4 5 2 1 1 11 3).datum = .num (-7 / 64) ∧
    AddSingle.addSame (Fp.mk4 5 2 1 0 15 0) (Fp.mk4 5 2 1 1 11 3) = some (Fp.mk4 5 2 1 0 15 0) := by
  refine ⟨?_, ?_, by decide +kernel⟩ <;> rw [Fp.mk4_datum (by decide) (by decide) (by decide) (by decide) (by decide) (by decide)] <;> norm_num [denote, bias]

end Thls
