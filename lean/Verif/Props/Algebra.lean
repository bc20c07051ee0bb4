import Verif.Proofs.Mono

/-! # Properties C44 and C45: monotonicity and algebraic identities of the operators -/

namespace Thls
open Spec

/-! ## C44: monotonicity -/

theorem promote_fin {wE wF E F : ℕ} (hE : 1 ≤ wE) (hF : 1 ≤ wF) (h1 : wE ≤ E) (h2 : wF ≤ F) (x : Fp wE wF) :
    (promote E F x).datum = x.datum := promote_datum hE hF h1 h2 x

/-- The sum of two zeros or numbers is the rounded real sum, in one statement. -/
theorem add_fin {E F : ℕ} (hE : 2 ≤ E) (hF : 1 ≤ F) (hok : DualFormat E F) (hfmt : F ≤ 2 ^ (E + 1)) (x y : Fp E F)
    {vx vy : ℚ} (hx : x.datum.fin = some vx) (hy : y.datum.fin = some vy) {r : Fp E F}
    (hr : AddDual.addSame x y = some r) : Rounded0 E F (vx + vy) r.datum := by
  have num0 : ∀ {z : Fp E F} {v : ℚ}, z.datum = .num v → v ≠ 0 := by
    intro z v hz h0
    obtain ⟨-, hv⟩ := datum_num_iff.mp hz
    have := sig_scaled_pos F z.frac ((z.exp : ℤ) - bias E - F)
    rw [h0] at hv
    split_ifs at hv <;> linarith
  unfold Rounded0
  cases dx : x.datum with
  | nan => rw [dx] at hx; cases hx
  | inf s => rw [dx] at hx; cases hx
  | zero s =>
    rw [dx] at hx; injection hx with hx; subst hx
    cases dy : y.datum with
    | nan => rw [dy] at hy; cases hy
    | inf s => rw [dy] at hy; cases hy
    | zero t =>
      rw [dy] at hy; injection hy with hy; subst hy
      obtain ⟨r', h1, h2⟩ := AddDual.addSame_special hE hF hok (x := x) (y := y) (d := .zero (s && t)) (by rw [dx, dy]; rfl)
      rw [hr] at h1; injection h1 with h1; subst h1
      rw [if_pos (by ring)]; exact ⟨_, h2⟩
    | num v =>
      rw [dy] at hy; injection hy with hy; subst hy
      obtain ⟨r', h1, h2⟩ := AddDual.addSame_special hE hF hok (x := x) (y := y) (d := .num v) (by rw [dx, dy]; rfl)
      rw [hr] at h1; injection h1 with h1; subst h1
      rw [zero_add, if_neg (num0 dy), h2, ← dy]
      exact rounded_self hF (by omega) y v dy
  | num u =>
    rw [dx] at hx; injection hx with hx; subst hx
    cases dy : y.datum with
    | nan => rw [dy] at hy; cases hy
    | inf s => rw [dy] at hy; cases hy
    | zero t =>
      rw [dy] at hy; injection hy with hy; subst hy
      obtain ⟨r', h1, h2⟩ := AddDual.addSame_special hE hF hok (x := x) (y := y) (d := .num u) (by rw [dx, dy]; rfl)
      rw [hr] at h1; injection h1 with h1; subst h1
      rw [add_zero, if_neg (num0 dx), h2, ← dx]
      exact rounded_self hF (by omega) x u dx
    | num v =>
      rw [dy] at hy; injection hy with hy; subst hy
      obtain ⟨r', h1, h2, h3⟩ := AddDual.addSame_num hE hF hok (by rw [pow_succ] at hfmt; omega) dx dy
      rw [hr] at h1; injection h1 with h1; subst h1
      by_cases h0 : u + v = 0
      · rw [if_pos h0]; exact ⟨_, h2 h0⟩
      · rw [if_neg h0]; exact h3 h0

theorem fin_or {d : Datum} (h : d ≠ .nan) : (∃ v, d.fin = some v) ∨ ∃ s, d = .inf s := by
  cases d with
  | nan => exact absurd rfl h
  | inf s => exact Or.inr ⟨s, rfl⟩
  | zero s => exact Or.inl ⟨_, rfl⟩
  | num q => exact Or.inl ⟨_, rfl⟩

theorem le_fin {a b : Datum} {u v : ℚ} (ha : a.fin = some u) (hb : b.fin = some v) (h : a.Le b) : u ≤ v := by
  rcases a with _ | s | s | p <;> rcases b with _ | t | t | q <;> simp [Datum.fin] at ha hb <;> subst ha <;> subst hb <;>
    simp [Datum.Le, Datum.Lt, Datum.RealEq] at h ⊢
  · exact h.le
  · exact h.le
  · exact h.elim le_of_lt le_of_eq

theorem le_not_nan {a b : Datum} (h : a.Le b) : a ≠ .nan ∧ b ≠ .nan := by
  rcases a with _ | s | s | p <;> rcases b with _ | t | t | q <;> simp [Datum.Le, Datum.Lt, Datum.RealEq] at h ⊢
  all_goals (cases s <;> simp [Datum.Lt] at h)

theorem le_bot {d : Datum} (h : d.Le (.inf true)) : d = .inf true := by
  rcases d with _ | s | s | p <;> simp [Datum.Le, Datum.Lt, Datum.RealEq] at h ⊢
  cases s <;> simp [Datum.Lt] at h ⊢

theorem top_le {d : Datum} (h : (Datum.inf false).Le d) : d = .inf false := by
  rcases d with _ | s | s | p <;> simp [Datum.Le, Datum.Lt, Datum.RealEq] at h ⊢
  cases s <;> simp [Datum.Lt] at h ⊢

theorem addSpecial_inf_left {a b : Datum} {s : Bool} (ha : a = .inf s) (hb : b ≠ .nan) (hb' : b ≠ .inf (!s)) :
    addSpecial a b = some (.inf s) := by
  subst ha
  rcases b with _ | t | t | q
  · exact absurd rfl hb
  · cases s <;> cases t <;> simp [addSpecial] at hb' ⊢
  all_goals rfl

theorem addSpecial_nan {a b : Datum} {s : Bool} (ha : a = .inf s) (hb' : b = .inf (!s)) :
    addSpecial a b = some .nan := by
  subst ha; subst hb'; cases s <;> rfl

theorem add_mono_same {E F : ℕ} (hE : 2 ≤ E) (hF : 1 ≤ F) (hok : DualFormat E F) (hfmt : F ≤ 2 ^ (E + 1))
    (x y z r s : Fp E F) (hxy : x.datum.Le y.datum) (hr : AddDual.addSame x z = some r) (hs : AddDual.addSame y z = some s)
    (hrn : r.datum ≠ .nan) (hsn : s.datum ≠ .nan) : r.datum.Le s.datum := by
  have spec : ∀ {a b t : Fp E F} {d : Datum}, AddDual.addSame a b = some t → addSpecial a.datum b.datum = some d → t.datum = d := by
    intro a b t d h1 h2
    obtain ⟨r', h3, h4⟩ := AddDual.addSame_special hE hF hok h2
    rw [h1] at h3; injection h3 with h3; rw [h3]; exact h4
  have nz : z.datum ≠ .nan := by
    intro h
    refine hrn (spec hr ?_)
    rw [h]; cases x.datum <;> rfl
  obtain ⟨nx, ny⟩ := le_not_nan hxy
  rcases fin_or ny with ⟨v, hv⟩ | ⟨c, hc⟩
  · rcases fin_or nx with ⟨u, hu⟩ | ⟨b, hb⟩
    · rcases fin_or nz with ⟨w, hw⟩ | ⟨d, hd⟩
      · exact rounded0_mono (by have := le_fin hu hv hxy; linarith) (add_fin hE hF hok hfmt x z hu hw hr)
          (add_fin hE hF hok hfmt y z hv hw hs)
      · have f : ∀ {q : Datum} {k : ℚ}, q.fin = some k → addSpecial q z.datum = some (.inf d) := by
          intro q k hq
          rw [hd]; cases q <;> first | rfl | cases hq
        rw [spec hr (f hu), spec hs (f hv)]
        right; rfl
    · cases b with
      | false => rw [hb] at hxy; rw [top_le hxy] at hv; cases hv
      | true =>
        by_cases hz : z.datum = .inf false
        · exact absurd (spec hr (addSpecial_nan hb hz)) hrn
        · rw [spec hr (addSpecial_inf_left hb nz hz)]; exact bot_le hsn
  · cases c with
    | false =>
      by_cases hz : z.datum = .inf true
      · exact absurd (spec hs (addSpecial_nan hc hz)) hsn
      · rw [spec hs (addSpecial_inf_left hc nz hz)]; exact le_top hrn
    | true =>
      rw [hc] at hxy
      by_cases hz : z.datum = .inf false
      · exact absurd (spec hs (addSpecial_nan hc hz)) hsn
      · rw [spec hs (addSpecial_inf_left hc nz hz), spec hr (addSpecial_inf_left (le_bot hxy) nz hz)]
        right; rfl

/-- **C44, sums (partial).** For every pair of operand formats, `x ≤ y` implies `add(x, z) ≤ add(y, z)` in the
order of the extended reals, zeros and infinities included, unless one of the sums is NaN (`inf - inf` or a NaN
operand). Missing: the formats in which the adder asserts or is not correctly rounded (C14, C19). -/
theorem C44_add_monotone_partial {wE wF wEZ wFZ : ℕ} (hEX : 1 ≤ wE) (hFX : 1 ≤ wF) (hEZ : 1 ≤ wEZ) (hFZ : 1 ≤ wFZ)
    (hE : 3 < max wE wEZ) (hok : DualFormat (max wE wEZ) (max wF wFZ)) (hfmt : max wF wFZ ≤ 2 ^ (max wE wEZ + 1))
    (x y : Fp wE wF) (z : Fp wEZ wFZ) (hxy : x.datum.Le y.datum)
    (r s : Fp (max wE wEZ) (max wF wFZ)) (hr : AddDual.add x z = some r) (hs : AddDual.add y z = some s)
    (hrn : r.datum ≠ .nan) (hsn : s.datum ≠ .nan) : r.datum.Le s.datum := by
  refine add_mono_same (by omega) (by omega) hok hfmt _ _ _ r s ?_ hr hs hrn hsn
  rw [promote_datum hEX hFX (le_max_left wE wEZ) (le_max_left wF wFZ),
    promote_datum hEX hFX (le_max_left wE wEZ) (le_max_left wF wFZ)]
  exact hxy

theorem num_ne_zero {E F : ℕ} {z : Fp E F} {v : ℚ} (hz : z.datum = .num v) : v ≠ 0 := by
  intro h0
  obtain ⟨-, hv⟩ := datum_num_iff.mp hz
  have := sig_scaled_pos F z.frac ((z.exp : ℤ) - bias E - F)
  rw [h0] at hv
  split_ifs at hv <;> linarith

/-- **C44, products.** Multiplication by a positive number (or `+inf`) is monotone, for all formats sharing an
exponent width in which the product is rounded. -/
theorem C44_mul_monotone {wE wFR wF wFZ : ℕ} (hE : 2 ≤ wE) (hR : 1 ≤ wFR) (hX : 1 ≤ wF) (hZ : 1 ≤ wFZ)
    (hpath : wFR ≤ wF + wFZ) (x y : Fp wE wF) (z : Fp wE wFZ) (hxy : x.datum.Le y.datum) (hz : (Datum.zero false).Lt z.datum)
    (r s : Fp wE wFR) (hr : mulV1 wE wFR x z = some r) (hs : mulV1 wE wFR y z = some s)
    (hrn : r.datum ≠ .nan) (hsn : s.datum ≠ .nan) : r.datum.Le s.datum := by
  have spec : ∀ {a : Fp wE wF} {t : Fp wE wFR} {d : Datum}, mulV1 wE wFR a z = some t →
      mulSpecial a.datum z.datum = some d → t.datum = d :=
    fun h1 h2 => C12_mul_exceptions (by omega) hR (by omega) _ _ _ h1 _ h2
  have rnd : ∀ {a : Fp wE wF} {t : Fp wE wFR} {v w : ℚ}, mulV1 wE wFR a z = some t → a.datum.fin = some v →
      z.datum = .num w → Rounded0 wE wFR (v * w) t.datum := by
    intro a t v w h1 h2 h3
    unfold Rounded0
    cases da : a.datum with
    | nan => rw [da] at h2; cases h2
    | inf s => rw [da] at h2; cases h2
    | zero s =>
      rw [da] at h2; injection h2 with h2; subst h2
      rw [zero_mul, if_pos rfl]
      exact ⟨_, spec h1 (by rw [da, h3]; rfl)⟩
    | num q =>
      rw [da] at h2; injection h2 with h2; subst h2
      rw [if_neg (mul_ne_zero (num_ne_zero da) (num_ne_zero h3))]
      obtain ⟨t', h4, h5⟩ := C10_mul_correctly_rounded hE hR hX hZ hpath a z q w da h3
      rw [h1] at h4; injection h4 with h4; rw [h4]; exact h5
  obtain ⟨nx, ny⟩ := le_not_nan hxy
  have hzc : (∃ w, z.datum = .num w ∧ 0 < w) ∨ z.datum = .inf false := by
    cases dz : z.datum with
    | nan => rw [dz] at hz; cases hz
    | inf s => cases s
               · exact Or.inr rfl
               · rw [dz] at hz; cases hz
    | zero s => rw [dz] at hz; cases hz
    | num q => rw [dz] at hz; exact Or.inl ⟨q, rfl, hz⟩
  have infl : ∀ {a : Datum} {b : Bool}, a = .inf b → mulSpecial a z.datum = some (.inf b) := by
    intro a b ha
    rw [ha]
    rcases hzc with ⟨w, hw, h0⟩ | hw
    · rw [hw]; cases b <;> simp [mulSpecial, Datum.isNeg, h0.le]
    · rw [hw]; cases b <;> rfl
  rcases fin_or ny with ⟨v, hv⟩ | ⟨c, hc⟩
  · rcases fin_or nx with ⟨u, hu⟩ | ⟨b, hb⟩
    · have huv := le_fin hu hv hxy
      rcases hzc with ⟨w, hw, h0⟩ | hw
      · exact rounded0_mono (mul_le_mul_of_nonneg_right huv h0.le) (rnd hr hu hw) (rnd hs hv hw)
      · have sp : ∀ {a : Datum} {k : ℚ}, a.fin = some k →
            mulSpecial a z.datum = some .nan ∨ (a = .num k ∧ mulSpecial a z.datum = some (.inf (decide (k < 0)))) := by
          intro a k ha
          rw [hw]
          cases a with
          | nan => cases ha
          | inf s => cases ha
          | zero s => exact Or.inl rfl
          | num q => injection ha with ha; subst ha; exact Or.inr ⟨rfl, by simp [mulSpecial, Datum.isNeg]⟩
        rcases sp hu with h1 | ⟨g1, h1⟩
        · exact absurd (spec hr h1) hrn
        · rcases sp hv with h2 | ⟨g2, h2⟩
          · exact absurd (spec hs h2) hsn
          · rw [spec hr h1, spec hs h2]
            by_cases hu0 : u < 0
            · rw [decide_eq_true hu0]; exact bot_le (by simp)
            · have hv0 : ¬ v < 0 := by linarith
              rw [decide_eq_false hu0, decide_eq_false hv0]; right; rfl
    · cases b with
      | false => rw [hb] at hxy; rw [top_le hxy] at hv; cases hv
      | true => rw [spec hr (infl hb)]; exact bot_le hsn
  · cases c with
    | false => rw [spec hs (infl hc)]; exact le_top hrn
    | true =>
      rw [hc] at hxy
      rw [spec hs (infl hc), spec hr (infl (le_bot hxy))]
      right; rfl

/-- **C44, quotients.** Division by a positive number is monotone in the numerator. -/
theorem C44_div_monotone {wER wFR wE wF wEZ wFZ : ℕ} (hER : 2 ≤ wER) (hE : 1 ≤ wE) (hF : 1 ≤ wF) (hEZ : 1 ≤ wEZ) (hFZ : 1 ≤ wFZ)
    (hX : wE ≤ wER ∧ wF ≤ wFR) (hZ : wEZ ≤ wER ∧ wFZ ≤ wFR) (x y : Fp wE wF) (z : Fp wEZ wFZ) (w : ℚ)
    (hxy : x.datum.Le y.datum) (hz : z.datum = .num w) (hw : 0 < w) :
    (divV1 wER wFR x z).datum.Le (divV1 wER wFR y z).datum := by
  have spec : ∀ {a : Fp wE wF} {d : Datum}, divSpecial a.datum z.datum = some d → (divV1 wER wFR a z).datum = d :=
    fun h => C22_div_exceptions hE hF hEZ hFZ hX hZ _ _ _ h
  have rnd : ∀ {a : Fp wE wF} {v : ℚ}, a.datum.fin = some v → Rounded0 wER wFR (v / w) (divV1 wER wFR a z).datum := by
    intro a v h2
    unfold Rounded0
    cases da : a.datum with
    | nan => rw [da] at h2; cases h2
    | inf s => rw [da] at h2; cases h2
    | zero s =>
      rw [da] at h2; injection h2 with h2; subst h2
      rw [zero_div, if_pos rfl]
      exact ⟨_, spec (by rw [da, hz]; rfl)⟩
    | num q =>
      rw [da] at h2; injection h2 with h2; subst h2
      rw [if_neg (div_ne_zero (num_ne_zero da) hw.ne')]
      exact C20_div_correctly_rounded hER hE hF hEZ hFZ hX hZ a z q w da hz
  have infl : ∀ {a : Fp wE wF} {b : Bool}, a.datum = .inf b → (divV1 wER wFR a z).datum = .inf b := by
    intro a b ha
    refine spec ?_
    rw [ha, hz]; cases b <;> simp [divSpecial, Datum.isNeg, hw.le]
  have nn : ∀ {a : Fp wE wF}, a.datum ≠ .nan → (divV1 wER wFR a z).datum ≠ .nan := by
    intro a ha
    rcases fin_or ha with ⟨v, hv⟩ | ⟨b, hb⟩
    · have := rnd hv
      unfold Rounded0 at this
      split_ifs at this with h0
      · obtain ⟨s, hs⟩ := this; rw [hs]; simp
      · obtain ⟨m, e, -, h⟩ := this
        rw [h]; unfold rangeCheck; split_ifs <;> simp
    · rw [infl hb]; simp
  obtain ⟨nx, ny⟩ := le_not_nan hxy
  rcases fin_or ny with ⟨v, hv⟩ | ⟨c, hc⟩
  · rcases fin_or nx with ⟨u, hu⟩ | ⟨b, hb⟩
    · have huv := le_fin hu hv hxy
      exact rounded0_mono (div_le_div_of_nonneg_right huv hw.le) (rnd hu) (rnd hv)
    · cases b with
      | false => rw [hb] at hxy; rw [top_le hxy] at hv; cases hv
      | true => rw [infl hb]; exact bot_le (nn ny)
  · cases c with
    | false => rw [infl hc]; exact le_top (nn nx)
    | true =>
      rw [hc] at hxy
      rw [infl hc, infl (le_bot hxy)]
      right; rfl

/-- The hypotheses of C44 are met by three distinct numbers whose results differ. -/
example : (Fp.mk4 5 3 1 0 15 4).datum.Le (Fp.mk4 5 3 1 0 16 1).datum ∧ (Datum.zero false).Lt (Fp.mk4 5 3 1 0 15 2).datum ∧
    mulV1 5 3 (Fp.mk4 5 3 1 0 15 4) (Fp.mk4 5 3 1 0 15 2) = some (Fp.mk4 5 3 1 0 15 7) ∧
    mulV1 5 3 (Fp.mk4 5 3 1 0 16 1) (Fp.mk4 5 3 1 0 15 2) = some (Fp.mk4 5 3 1 0 16 3) ∧
    AddDual.add (Fp.mk4 5 3 1 0 15 4) (Fp.mk4 5 3 1 0 15 2) = some (Fp.mk4 5 3 1 0 16 3) ∧
    AddDual.add (Fp.mk4 5 3 1 0 16 1) (Fp.mk4 5 3 1 0 15 2) = some (Fp.mk4 5 3 1 0 16 6) := by
  refine ⟨Or.inl ?_, ?_, by decide, by decide, by decide, by decide⟩
  · rw [Fp.mk4_datum (by decide) (by decide) (by decide) (by decide) (by decide) (by decide),
      Fp.mk4_datum (by decide) (by decide) (by decide) (by decide) (by decide) (by decide)]
    norm_num [denote, bias, Datum.Lt]
  · rw [Fp.mk4_datum (by decide) (by decide) (by decide) (by decide) (by decide) (by decide)]
    norm_num [denote, bias, Datum.Lt]

/-! ## C45: identities -/

/-- **C45.** `x * 1 = x`, `1 * x = x` for every normal `x` and a one of any fraction width. -/
theorem C45_mul_one {E F G : ℕ} (hE : 2 ≤ E) (hF : 1 ≤ F) (hG : 1 ≤ G) (x : Fp E F) (v : ℚ) (hx : x.datum = .num v)
    (o : Fp E G) (ho : o.datum = .num 1) :
    (∃ r : Fp E F, mulV1 E F x o = some r ∧ r.equals x = true) ∧
    (∃ r : Fp E F, mulV1 E F o x = some r ∧ r.equals x = true) := by
  constructor
  · obtain ⟨r, h1, h2⟩ := C10_mul_correctly_rounded hE hF hF hG (by omega) x o v 1 hx ho
    refine ⟨r, h1, (C07_equals_iff_same_datum (by omega) hF r x).mpr ?_⟩
    rw [mul_one] at h2
    exact rounded_unique h2 (rounded_self hF (by omega) x v hx)
  · obtain ⟨r, h1, h2⟩ := C10_mul_correctly_rounded hE hF hG hF (by omega) o x 1 v ho hx
    refine ⟨r, h1, (C07_equals_iff_same_datum (by omega) hF r x).mpr ?_⟩
    rw [one_mul] at h2
    exact rounded_unique h2 (rounded_self hF (by omega) x v hx)

/-- **C45.** `x / 1 = x` and `x / x = 1` for every normal `x`. -/
theorem C45_div_identities {E F : ℕ} (hE : 2 ≤ E) (hF : 1 ≤ F) (x : Fp E F) (v : ℚ) (hx : x.datum = .num v) :
    (divV1 E F x (Limits.posOne E F)).equals x = true ∧ (divV1 E F x x).datum = .num 1 ∧
    (divV1 E F x x).equals (Limits.posOne E F) = true := by
  have h1 : (Limits.posOne E F).datum = .num 1 := by
    have := C46_limits_values_partial (show 1 ≤ E by omega) hF
    tauto
  have hE1 : 1 ≤ E := by omega
  have v0 := num_ne_zero hx
  have a := C20_div_correctly_rounded hE hE1 hF hE1 hF ⟨le_rfl, le_rfl⟩ ⟨le_rfl, le_rfl⟩ x (Limits.posOne E F) v 1 hx h1
  have b := C20_div_correctly_rounded hE hE1 hF hE1 hF ⟨le_rfl, le_rfl⟩ ⟨le_rfl, le_rfl⟩ x x v v hx hx
  rw [div_one] at a
  rw [div_self v0] at b
  have b2 := rounded_unique b (rounded_self hF hE1 _ _ h1)
  refine ⟨(C07_equals_iff_same_datum hE1 hF _ _).mpr (rounded_unique a (rounded_self hF hE1 x v hx)), ?_,
    (C07_equals_iff_same_datum hE1 hF _ _).mpr b2⟩
  rw [b2, h1]

/-- **C45.** `x + 0 = x` and `0 + x = x` for every normal `x` and either zero, in the formats supported by the
adder. -/
theorem C45_add_zero_partial {E F : ℕ} (hE : 2 ≤ E) (hF : 1 ≤ F) (hok : DualFormat E F) (x z : Fp E F) (v : ℚ) (t : Bool)
    (hx : x.datum = .num v) (hz : z.datum = .zero t) :
    (∃ r, AddDual.addSame x z = some r ∧ r.equals x = true) ∧ (∃ r, AddDual.addSame z x = some r ∧ r.equals x = true) := by
  have hE1 : 1 ≤ E := by omega
  constructor
  · obtain ⟨r, h1, h2⟩ := AddDual.addSame_special hE hF hok (x := x) (y := z) (d := .num v) (by rw [hx, hz]; rfl)
    exact ⟨r, h1, (C07_equals_iff_same_datum hE1 hF _ _).mpr (by rw [h2, hx])⟩
  · obtain ⟨r, h1, h2⟩ := AddDual.addSame_special hE hF hok (x := z) (y := x) (d := .num v) (by rw [hx, hz]; rfl)
    exact ⟨r, h1, (C07_equals_iff_same_datum hE1 hF _ _).mpr (by rw [h2, hx])⟩

theorem mulSpecial_neg (a b : Datum) (ha : a ≠ .num 0) : mulSpecial a.neg b = (mulSpecial a b).map Datum.neg := by
  have : ∀ s t : Bool, ((!s) != t) = !(s != t) := by decide
  rcases a with _ | s | s | p <;> rcases b with _ | t | t | q <;>
    simp [mulSpecial, Datum.neg, Datum.isNeg, this]
  all_goals
    have h0 : p ≠ 0 := fun h => ha (by rw [h])
    rcases lt_or_gt_of_ne h0 with h | h <;> cases t <;> simp [h, h.le]

theorem divSpecial_neg (a b : Datum) (ha : a ≠ .num 0) : divSpecial a.neg b = (divSpecial a b).map Datum.neg := by
  have : ∀ s t : Bool, ((!s) != t) = !(s != t) := by decide
  rcases a with _ | s | s | p <;> rcases b with _ | t | t | q <;>
    simp [divSpecial, Datum.neg, Datum.isNeg, this]
  all_goals
    have h0 : p ≠ 0 := fun h => ha (by rw [h])
    rcases lt_or_gt_of_ne h0 with h | h <;> cases t <;> simp [h, h.le]

/-- **C45.** `neg(x) * y = neg(x * y)` for all encodings (NaNs, infinities and zeros included) and all result
widths on the rounding path. -/
theorem C45_neg_mul {E FR FX FY : ℕ} (hE : 2 ≤ E) (hR : 1 ≤ FR) (hX : 1 ≤ FX) (hY : 1 ≤ FY) (hpath : FR ≤ FX + FY)
    (x : Fp E FX) (y : Fp E FY) (r s : Fp E FR) (hr : mulV1 E FR x y = some r) (hs : mulV1 E FR (negV1 E FX x) y = some s) :
    s.equals (negV1 E FR r) = true := by
  have hE1 : 1 ≤ E := by omega
  rw [C07_equals_iff_same_datum hE1 hR, C27_neg_datum hE1 hR]
  have hn := C27_neg_datum hE1 hX x
  cases hsp : mulSpecial x.datum y.datum with
  | some d =>
    rw [C12_mul_exceptions hE1 hR (by omega) _ _ r hr d hsp]
    refine C12_mul_exceptions hE1 hR (by omega) _ _ s hs _ ?_
    rw [hn, mulSpecial_neg _ _ (fun h => num_ne_zero h rfl), hsp]; rfl
  | none =>
    obtain ⟨p, q, hp, hq⟩ : ∃ p q, x.datum = .num p ∧ y.datum = .num q := by
      revert hsp
      rcases x.datum with _ | s | s | p <;> rcases y.datum with _ | t | t | q <;> simp [mulSpecial]
    obtain ⟨r', a1, a2⟩ := C10_mul_correctly_rounded hE hR hX hY hpath x y p q hp hq
    rw [hr] at a1; injection a1 with a1; subst a1
    obtain ⟨s', b1, b2⟩ := C10_mul_correctly_rounded hE hR hX hY hpath (negV1 E FX x) y (-p) q (by rw [hn, hp]; rfl) hq
    rw [hs] at b1; injection b1 with b1; subst b1
    rw [neg_mul] at b2
    exact rounded_unique b2 (rounded_neg (mul_ne_zero (num_ne_zero hp) (num_ne_zero hq)) a2)

/-- **C45.** `neg(x) / y = neg(x / y)` for all encodings. -/
theorem C45_neg_div {E F : ℕ} (hE : 2 ≤ E) (hF : 1 ≤ F) (x y : Fp E F) :
    (divV1 E F (negV1 E F x) y).equals (negV1 E F (divV1 E F x y)) = true := by
  have hE1 : 1 ≤ E := by omega
  rw [C07_equals_iff_same_datum hE1 hF, C27_neg_datum hE1 hF]
  have hn := C27_neg_datum hE1 hF x
  cases hsp : divSpecial x.datum y.datum with
  | some d =>
    rw [C22_div_exceptions hE1 hF hE1 hF ⟨le_rfl, le_rfl⟩ ⟨le_rfl, le_rfl⟩ x y d hsp]
    refine C22_div_exceptions hE1 hF hE1 hF ⟨le_rfl, le_rfl⟩ ⟨le_rfl, le_rfl⟩ _ _ _ ?_
    rw [hn, divSpecial_neg _ _ (fun h => num_ne_zero h rfl), hsp]; rfl
  | none =>
    obtain ⟨p, q, hp, hq⟩ := (C22_divSpecial_domain _ _).mp hsp
    have a := C20_div_correctly_rounded hE hE1 hF hE1 hF ⟨le_rfl, le_rfl⟩ ⟨le_rfl, le_rfl⟩ x y p q hp hq
    have b := C20_div_correctly_rounded hE hE1 hF hE1 hF ⟨le_rfl, le_rfl⟩ ⟨le_rfl, le_rfl⟩ (negV1 E F x) y (-p) q
      (by rw [hn, hp]; rfl) hq
    rw [neg_div] at b
    exact rounded_unique b (rounded_neg (div_ne_zero (num_ne_zero hp) (num_ne_zero hq)) a)

/-- **C45.** `neg(x) + neg(y) = neg(x + y)` for normal numbers that do not cancel exactly. -/
theorem C45_neg_add_partial {E F : ℕ} (hE : 2 ≤ E) (hF : 1 ≤ F) (hok : DualFormat E F) (hfmt : F ≤ 2 ^ (E + 1)) (x y : Fp E F)
    (p q : ℚ) (hp : x.datum = .num p) (hq : y.datum = .num q) (hpq : p + q ≠ 0) :
    ∃ r s, AddDual.addSame x y = some r ∧ AddDual.addSame (negV1 E F x) (negV1 E F y) = some s ∧
      s.equals (negV1 E F r) = true := by
  have hE1 : 1 ≤ E := by omega
  have hf : F ≤ 2 * 2 ^ E := by rw [pow_succ] at hfmt; omega
  obtain ⟨r, a1, -, a2⟩ := AddDual.addSame_num hE hF hok hf hp hq
  obtain ⟨s, b1, -, b2⟩ := AddDual.addSame_num hE hF hok hf (x := negV1 E F x) (y := negV1 E F y) (vx := -p) (vy := -q)
    (by rw [C27_neg_datum hE1 hF, hp]; rfl) (by rw [C27_neg_datum hE1 hF, hq]; rfl)
  refine ⟨r, s, a1, b1, ?_⟩
  rw [C07_equals_iff_same_datum hE1 hF, C27_neg_datum hE1 hF]
  have e : -p + -q = -(p + q) := by ring
  rw [e] at b2
  exact rounded_unique (b2 (neg_ne_zero.mpr hpq)) (rounded_neg hpq (a2 hpq))

example : (Limits.posOne 4 3).datum = .num 1 ∧ mulV1 4 3 (Fp.mk4 4 3 1 1 9 5) (Limits.posOne 4 3) = some (Fp.mk4 4 3 1 1 9 5) ∧
    divV1 4 3 (Fp.mk4 4 3 1 1 9 5) (Fp.mk4 4 3 1 1 9 5) = Limits.posOne 4 3 ∧
    AddDual.addSame (Fp.mk4 4 3 1 1 9 5) (Limits.negZero 4 3) = some (Fp.mk4 4 3 1 1 9 5) := by
  refine ⟨?_, by decide, by decide, by decide⟩
  have := C46_limits_values_partial (show 1 ≤ 4 by omega) (show 1 ≤ 3 by omega)
  tauto

end Thls
