import Verif.Props.AddSingleEdge
import Verif.Props.AddSingleMono

/-! # C44: the single-path adders are monotone in every format, whenever they return -/

namespace Thls
open Spec

theorem two_le_of_fmt {E F : ℕ} (hE : 1 ≤ E) (hfmt : F + 3 < 2 ^ E) : 2 ≤ E := by
  by_contra hc
  have : E = 1 := by omega
  rw [this] at hfmt; omega

theorem orders_special_returned {E F : ℕ} {norm : ℕ → Option (ℕ × ℕ)} (hn : AddSingle.Normalises F norm) (hE : 1 ≤ E) (hF : 1 ≤ F)
    {x y r : Fp E F} (ho : AddSingle.Orders norm x y (some r)) {d : Datum} (hd : addSpecial x.datum y.datum = some d) : r.datum = d := by
  have hO := mt (orders_none_iff hn hE hF ho).mpr (by simp)
  have hfmt := not_overshifts hO
  obtain ⟨w1, w2⟩ := orders_fits hE hF hO
  obtain ⟨r', hr', h⟩ := AddSingle.orders_special_of_fits hn (two_le_of_fmt hE hfmt) hF hfmt w1 w2 ho hd
  rw [Option.some.inj hr']; exact h

theorem orders_num_returned {E F : ℕ} {norm : ℕ → Option (ℕ × ℕ)} (hn : AddSingle.Normalises F norm) (hE : 1 ≤ E) (hF : 1 ≤ F)
    {x y r : Fp E F} (ho : AddSingle.Orders norm x y (some r)) {vx vy : ℚ} (hx : x.datum = .num vx) (hy : y.datum = .num vy) :
    (vx + vy = 0 → r.datum = .zero false) ∧
      (vx + vy ≠ 0 → ¬ AddSingle.Clamped x y → ¬ AddSingle.Clamped y x → Rounded E F (vx + vy) r.datum) ∧
      (AddSingle.Clamped x y → r.datum = x.datum) ∧ (AddSingle.Clamped y x → r.datum = y.datum) := by
  have hO := mt (orders_none_iff hn hE hF ho).mpr (by simp)
  have hfmt := not_overshifts hO
  obtain ⟨w1, w2⟩ := orders_fits hE hF hO
  obtain ⟨r', hr', h⟩ := AddSingle.orders_num_of_fits hn (two_le_of_fmt hE hfmt) hF hfmt w1 w2 ho hx hy
  rw [Option.some.inj hr']; exact h

theorem mono_of_special_pair {E F : ℕ} {x y z r s : Fp E F}
    (hr : ∀ {d : Datum}, addSpecial x.datum z.datum = some d → r.datum = d)
    (hs : ∀ {d : Datum}, addSpecial y.datum z.datum = some d → s.datum = d) (hxy : x.datum.Le y.datum)
    (hrn : r.datum ≠ .nan) (hsn : s.datum ≠ .nan)
    (fin : ∀ u v w, x.datum.fin = some u → y.datum.fin = some v → z.datum.fin = some w → u ≤ v → r.datum.Le s.datum) :
    r.datum.Le s.datum := by
  have nz : z.datum ≠ .nan := by
    intro h
    refine hrn (hr ?_)
    rw [h]; cases x.datum <;> rfl
  obtain ⟨nx, ny⟩ := le_not_nan hxy
  rcases fin_or ny with ⟨v, hv⟩ | ⟨c, hc⟩
  · rcases fin_or nx with ⟨u, hu⟩ | ⟨b, hb⟩
    · rcases fin_or nz with ⟨w, hw⟩ | ⟨d, hd⟩
      · exact fin u v w hu hv hw (le_fin hu hv hxy)
      · have f : ∀ {q : Datum} {k : ℚ}, q.fin = some k → addSpecial q z.datum = some (.inf d) := by
          intro q k hq
          rw [hd]; cases q <;> first | rfl | cases hq
        rw [hr (f hu), hs (f hv)]
        right; rfl
    · cases b with
      | false => rw [hb] at hxy; rw [top_le hxy] at hv; cases hv
      | true =>
        by_cases hz : z.datum = .inf false
        · exact absurd (hr (addSpecial_nan hb hz)) hrn
        · rw [hr (addSpecial_inf_left hb nz hz)]; exact bot_le hsn
  · cases c with
    | false =>
      by_cases hz : z.datum = .inf true
      · exact absurd (hs (addSpecial_nan hc hz)) hsn
      · rw [hs (addSpecial_inf_left hc nz hz)]; exact le_top hrn
    | true =>
      rw [hc] at hxy
      by_cases hz : z.datum = .inf false
      · exact absurd (hs (addSpecial_nan hc hz)) hsn
      · rw [hs (addSpecial_inf_left hc nz hz), hr (addSpecial_inf_left (le_bot hxy) nz hz)]
        right; rfl

/-- What the single-path adder returns for zeros and numbers: the rounding of the effective sum. -/
theorem single_effective_returned {E F : ℕ} {norm : ℕ → Option (ℕ × ℕ)} (hn : AddSingle.Normalises F norm) (hE : 1 ≤ E) (hF : 1 ≤ F)
    {x y r : Fp E F} {vx vy : ℚ}
    (ho : AddSingle.Orders norm x y (some r)) (hx : x.datum.fin = some vx) (hy : y.datum.fin = some vy) :
    ∃ h, EffectiveSum (F + 3 < 2 ^ (E - 1)) F vx vy h ∧ Rounded0 E F h r.datum := by
  have hz : vx * vy = 0 → EffectiveSum (F + 3 < 2 ^ (E - 1)) F vx vy (vx + vy) := by
    intro h
    refine Or.inr (Or.inr ⟨fun c => ?_, fun c => ?_, rfl⟩)
    · have := c.2.1; linarith
    · have := c.2.1; rw [mul_comm] at this; linarith
  have spec : ∀ {d}, addSpecial x.datum y.datum = some d → r.datum = d := by
    intro d hd
    exact orders_special_returned hn hE hF ho hd
  unfold Rounded0
  cases dx : x.datum with
  | nan => rw [dx] at hx; cases hx
  | inf s => rw [dx] at hx; cases hx
  | zero s =>
    rw [dx] at hx; injection hx with hx; subst hx
    refine ⟨_, hz (zero_mul _), ?_⟩
    cases dy : y.datum with
    | nan => rw [dy] at hy; cases hy
    | inf s => rw [dy] at hy; cases hy
    | zero t =>
      rw [dy] at hy; injection hy with hy; subst hy
      rw [if_pos (by ring)]
      exact ⟨_, spec (d := .zero (s && t)) (by rw [dx, dy]; rfl)⟩
    | num v =>
      rw [dy] at hy; injection hy with hy; subst hy
      rw [zero_add, if_neg (num_ne_zero dy), spec (d := .num v) (by rw [dx, dy]; rfl), ← dy]
      exact rounded_self hF (by omega) y v dy
  | num u =>
    rw [dx] at hx; injection hx with hx; subst hx
    cases dy : y.datum with
    | nan => rw [dy] at hy; cases hy
    | inf s => rw [dy] at hy; cases hy
    | zero t =>
      rw [dy] at hy; injection hy with hy; subst hy
      refine ⟨_, hz (mul_zero _), ?_⟩
      rw [add_zero, if_neg (num_ne_zero dx), spec (d := .num u) (by rw [dx, dy]; rfl), ← dx]
      exact rounded_self hF (by omega) x u dx
    | num v =>
      rw [dy] at hy; injection hy with hy; subst hy
      obtain ⟨a1, a2, a3, a4⟩ := orders_num_returned hn hE hF ho dx dy
      rw [AddSingle.clamped_iff (by omega) hF dx dy] at a2 a3
      rw [AddSingle.clamped_iff (by omega) hF dy dx] at a2 a4
      have nz : ∀ {w : ℚ}, w ≠ 0 → w * (1 - 2 ^ (-(F : ℤ) - 2)) ≠ 0 := by
        intro w hw
        refine mul_ne_zero hw (ne_of_gt ?_)
        have : (2 : ℚ) ^ (-(F : ℤ) - 2) < 1 := by
          rw [show (1 : ℚ) = 2 ^ (0 : ℤ) by norm_num]
          exact zpow_lt_zpow_right₀ (by norm_num) (by omega)
        linarith
      by_cases c1 : F + 3 < 2 ^ (E - 1) ∧ ClampCase F u v
      · refine ⟨_, Or.inl ⟨c1.1, c1.2, rfl⟩, ?_⟩
        rw [if_neg (nz (num_ne_zero dx)), a3 c1, dx]
        exact clamp_tie hF (by omega) dx c1.2
      by_cases c2 : F + 3 < 2 ^ (E - 1) ∧ ClampCase F v u
      · refine ⟨_, Or.inr (Or.inl ⟨c2.1, c2.2, rfl⟩), ?_⟩
        rw [if_neg (nz (num_ne_zero dy)), a4 c2, dy]
        exact clamp_tie hF (by omega) dy c2.2
      refine ⟨_, Or.inr (Or.inr ⟨c1, c2, rfl⟩), ?_⟩
      by_cases h0 : u + v = 0
      · rw [if_pos h0]; exact ⟨_, a1 h0⟩
      · rw [if_neg h0]; exact a2 h0 c1 c2

theorem single_mono_returned {E F : ℕ} {norm : ℕ → Option (ℕ × ℕ)} (hn : AddSingle.Normalises F norm) (hE : 1 ≤ E) (hF : 1 ≤ F)
    {x y z r s : Fp E F} (hxy : x.datum.Le y.datum) (h1 : AddSingle.Orders norm x z (some r)) (h2 : AddSingle.Orders norm y z (some s))
    (hrn : r.datum ≠ .nan) (hsn : s.datum ≠ .nan) : r.datum.Le s.datum := by
  refine mono_of_special_pair (orders_special_returned hn hE hF h1) (orders_special_returned hn hE hF h2) hxy hrn hsn ?_
  · intro u v w hu hv hw huv
    obtain ⟨p, e1, q1⟩ := single_effective_returned hn hE hF h1 hu hw
    obtain ⟨q, e2, q2⟩ := single_effective_returned hn hE hF h2 hv hw
    refine rounded0_mono (effectiveSum_mono hF huv ?_ ?_ e1 e2) q1 q2
    · intro k hk hlt
      cases dy : y.datum with
      | nan => rw [dy] at hv; cases hv
      | inf s => rw [dy] at hv; cases hv
      | zero s =>
        rw [dy] at hv; injection hv with hv; subst hv
        have : (0 : ℚ) < 2 ^ k := by positivity
        linarith
      | num b =>
        rw [dy] at hv; injection hv with hv; subst hv
        exact gap_above hF dy hk hlt
    · intro k hk hlt
      cases dx : x.datum with
      | nan => rw [dx] at hu; cases hu
      | inf s => rw [dx] at hu; cases hu
      | zero s =>
        rw [dx] at hu; injection hu with hu; subst hu
        have : (0 : ℚ) < 2 ^ k := by positivity
        linarith
      | num b =>
        rw [dx] at hu; injection hu with hu; subst hu
        exact gap_below (by omega) hF dx hk hlt

/-- **C44, single-path sums.** In every format, for operands of any two formats and all encodings: if `x ≤ y` and the sums are returned
and are not NaN, then `add(x, z) ≤ add(y, z)`; for `add_single` and for its version 5. -/
theorem C44_add_single_monotone_returned {wE wF wEZ wFZ : ℕ} (hEX : 1 ≤ wE) (hFX : 1 ≤ wF) (hEZ : 1 ≤ wEZ) (hFZ : 1 ≤ wFZ)
    (x y : Fp wE wF) (z : Fp wEZ wFZ) (hxy : x.datum.Le y.datum) (r s : Fp (max wE wEZ) (max wF wFZ))
    (h : AddSingle.add x z = some r ∧ AddSingle.add y z = some s ∨ AddSingle.addV5 x z = some r ∧ AddSingle.addV5 y z = some s)
    (hrn : r.datum ≠ .nan) (hsn : s.datum ≠ .nan) : r.datum.Le s.datum := by
  have hxy' : (promote (max wE wEZ) (max wF wFZ) x).datum.Le (promote (max wE wEZ) (max wF wFZ) y).datum := by
    rw [promote_datum hEX hFX (le_max_left wE wEZ) (le_max_left wF wFZ),
      promote_datum hEX hFX (le_max_left wE wEZ) (le_max_left wF wFZ)]
    exact hxy
  rcases h with ⟨hr, hs⟩ | ⟨hr, hs⟩
  · refine single_mono_returned (AddSingle.lzoc_normalises _) (by omega) (by omega) hxy' (z := promote (max wE wEZ) (max wF wFZ) z) ?_ ?_
      hrn hsn
    · rw [← hr]; exact AddSingle.addSame_orders (by omega) (by omega) _ _
    · rw [← hs]; exact AddSingle.addSame_orders (by omega) (by omega) _ _
  · refine single_mono_returned (AddSingle.lzoc_normalises _) (by omega) (by omega) hxy' (z := promote (max wE wEZ) (max wF wFZ) z) ?_ ?_
      hrn hsn
    · rw [← hr]; exact AddSingle.addV5_orders hEX hFX hEZ hFZ x z
    · rw [← hs]; exact AddSingle.addV5_orders hEX hFX hEZ hFZ y z

/-- **C44.** Version 3 is monotone too. -/
theorem C44_add_single_v3_monotone_returned (u v : ℕ) {E F : ℕ} (hE : 1 ≤ E) (h11 : 11 ≤ F) (h26 : F ≤ 26) (x y z r s : Fp E F)
    (hxy : x.datum.Le y.datum) (hr : AddSingle.addSameV3 u v x z = some r) (hs : AddSingle.addSameV3 u v y z = some s)
    (hrn : r.datum ≠ .nan) (hsn : s.datum ≠ .nan) : r.datum.Le s.datum := by
  refine single_mono_returned (AddSingle.clz_normalises u v h11 h26) hE (by omega) hxy (z := z) ?_ ?_ hrn hsn
  · rw [← hr]; exact AddSingle.addSameV3_orders u v hE (by omega) x z
  · rw [← hs]; exact AddSingle.addSameV3_orders u v hE (by omega) y z

/-- In the format (4,5), in which the adder can assert: three sums in order, and a fourth that is not returned. -/
example : AddSingle.addSame (Fp.mk4 4 5 1 1 8 0) (Fp.mk4 4 5 1 0 14 0) = some (Fp.mk4 4 5 1 0 13 31) ∧
    AddSingle.addSame (Fp.mk4 4 5 1 0 1 0) (Fp.mk4 4 5 1 0 14 0) = some (Fp.mk4 4 5 1 0 14 0) ∧
    AddSingle.addSame (Fp.mk4 4 5 1 0 14 1) (Fp.mk4 4 5 1 0 14 0) = some (Fp.mk4 4 5 1 0 15 0) ∧
    AddSingle.addSame (Fp.mk4 4 5 1 0 0 0) (Fp.mk4 4 5 1 0 14 0) = none := by decide +kernel

end Thls
