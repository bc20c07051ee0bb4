import Verif.Props.AddSharp
import Verif.Props.Algebra
import Verif.Proofs.Ieee

/-! # Properties C19, C44, C45: the dual-path adder on all encodings, in formats in which it can assert -/

namespace Thls
open Spec

/-- The distance by which the adder shifts: between the exponent fields of the operand with the larger class (NaN, infinity, number,
zero) and of the other one, modulo `2^E`; of two operands of the same class, the absolute difference. -/
def ShiftDistance {E F : ℕ} (x y : Fp E F) (d : ℕ) : Prop :=
  if y.flags < x.flags then ((x.exp : ℤ) - y.exp) % 2 ^ E = d
  else if x.flags < y.flags then ((y.exp : ℤ) - x.exp) % 2 ^ E = d
  else |(x.exp : ℤ) - y.exp| = d

theorem subW_emod {E a b : ℕ} (ha : a < 2 ^ E) (hb : b < 2 ^ E) : ((subW E a b : ℕ) : ℤ) = ((a : ℤ) - b) % 2 ^ E := by
  have hp : (0 : ℤ) < 2 ^ E := by positivity
  unfold subW
  push_cast
  rw [Nat.cast_sub hb.le]
  push_cast
  rw [show (a : ℤ) + (2 ^ E - b) = a - b + 2 ^ E by ring, Int.add_emod_right]

/-- **C19, exactly, for all encodings.** The dual-path adder fails an assertion exactly if the format is not a `DualFormat` and the shift
distance of the operands is `2F+4` or `2F+5`. For a zero, an infinity or a NaN the exponent field counts, although it means nothing. -/
theorem C19_add_dual_asserts_all_iff {E F : ℕ} (hE : 3 < E) (hF : 1 ≤ F) (x y : Fp E F) :
    AddDual.addSame x y = none ↔ ¬ DualFormat E F ∧ (ShiftDistance x y (2 * F + 4) ∨ ShiftDistance x y (2 * F + 5)) := by
  have hxe := x.exp_lt (show 1 ≤ E by omega)
  have hye := y.exp_lt (show 1 ≤ E by omega)
  have core : ∀ X Y : Fp E F, AddDual.core X Y = none ↔
      ¬ AddDual.ShiftOk E F ∧ (subW E X.exp Y.exp = 2 * F + 4 ∨ subW E X.exp Y.exp = 2 * F + 5) := by
    intro X Y
    rw [← AddDual.not_shiftFits (by omega) (subW_lt _ _ _)]
    constructor
    · intro h hf
      obtain ⟨_, _, _, _, h'⟩ := AddDual.core_some (by omega) hF X Y hf
      rw [h] at h'; cases h'
    · exact AddDual.core_none X Y
  have cast : ∀ {a b : ℕ} (d : ℕ), a < 2 ^ E → b < 2 ^ E → (subW E a b = d ↔ ((a : ℤ) - b) % 2 ^ E = d) := by
    intro a b d ha hb
    rw [← subW_emod ha hb]; exact Nat.cast_inj.symm
  unfold DualFormat ShiftDistance
  rcases lt_trichotomy y.flags x.flags with h | h | h
  · rw [if_pos h, if_pos h, ← cast _ hxe hye, ← cast _ hxe hye]
    rcases AddDual.addSame_ordered (show 1 ≤ E by omega) x y with ⟨e, -, -⟩ | ⟨-, c, -⟩
    · rw [e]; exact core x y
    · omega
  · rw [if_neg (by omega), if_neg (by omega), if_neg (by omega), if_neg (by omega), AddDual.addSame_none (by omega) hF h.symm]
    have : |(x.exp : ℤ) - y.exp| = ((x.exp - y.exp + (y.exp - x.exp) : ℕ) : ℤ) := by
      rcases le_total x.exp y.exp with h | h
      · rw [abs_of_nonpos (by omega)]; omega
      · rw [abs_of_nonneg (by omega)]; omega
    rw [this, Nat.cast_inj, Nat.cast_inj]
  · rw [if_neg (by omega), if_pos h, if_neg (by omega), if_pos h, ← cast _ hye hxe, ← cast _ hye hxe]
    rcases AddDual.addSame_ordered (show 1 ≤ E by omega) x y with ⟨-, c, -⟩ | ⟨e, -, -⟩
    · omega
    · rw [e]; exact core y x

/-- In the format (8,61) the sum of a number and zero asserts, with the exponent field of the zero deciding. -/
example : AddDual.addSame (Fp.mk4 8 61 1 0 126 0) (Fp.mk4 8 61 0 0 0 0) = none ∧
    (AddDual.addSame (Fp.mk4 8 61 1 0 126 0) (Fp.mk4 8 61 0 0 1 0)).isSome = true ∧
    AddDual.addSame (Fp.mk4 8 61 1 0 0 0) (Fp.mk4 8 61 0 0 130 0) = none ∧ ((0 : ℤ) - 130) % 2 ^ 8 = 2 * 61 + 4 := by
  decide +kernel

/-- **C45.** In every format: whenever `x + 0` or `0 + x` returns, the result is `x`. It returns unless the shift distance of
`C19_add_dual_asserts_all_iff` is `2F+4` or `2F+5` in a format that is not a `DualFormat`. -/
theorem C45_add_zero_returned {E F : ℕ} (hE : 3 < E) (hF : 1 ≤ F) (x z r : Fp E F) (v : ℚ) (t : Bool) (hx : x.datum = .num v)
    (hz : z.datum = .zero t) (hr : AddDual.addSame x z = some r ∨ AddDual.addSame z x = some r) : r.equals x = true := by
  rw [C07_equals_iff_same_datum (by omega) hF, hx]
  rcases hr with hr | hr
  · exact AddDual.addSame_special_some (by omega) hF (by rw [hx, hz]; rfl) hr
  · exact AddDual.addSame_special_some (by omega) hF (by rw [hx, hz]; rfl) hr

example : (AddDual.addSame (Fp.mk4 8 61 1 0 126 7) (Fp.mk4 8 61 0 0 1 0)).map (fun r => r.equals (Fp.mk4 8 61 1 0 126 7)) = some true := by
  decide +kernel

theorem add_fin_returned {E F : ℕ} (hE : 2 ≤ E) (hF : 1 ≤ F) (hfmt : F ≤ 2 ^ (E + 1)) (x y : Fp E F)
    {vx vy : ℚ} (hx : x.datum.fin = some vx) (hy : y.datum.fin = some vy) {r : Fp E F}
    (hr : AddDual.addSame x y = some r) : Rounded0 E F (vx + vy) r.datum := by
  unfold Rounded0
  cases dx : x.datum with
  | nan => rw [dx] at hx; cases hx
  | inf s => rw [dx] at hx; cases hx
  | zero s =>
    rw [dx] at hx; injection hx with hx; subst hx
    cases dy : y.datum with
    | nan => rw [dy] at hy; cases hy
    | inf s => rw [dy] at hy; cases hy
    | zero t =>
      rw [dy] at hy; injection hy with hy; subst hy
      rw [if_pos (by ring)]
      exact ⟨_, AddDual.addSame_special_some hE hF (d := .zero (s && t)) (by rw [dx, dy]; rfl) hr⟩
    | num v =>
      rw [dy] at hy; injection hy with hy; subst hy
      rw [zero_add, if_neg (num_ne_zero dy), AddDual.addSame_special_some hE hF (d := .num v) (by rw [dx, dy]; rfl) hr, ← dy]
      exact rounded_self hF (by omega) y v dy
  | num u =>
    rw [dx] at hx; injection hx with hx; subst hx
    cases dy : y.datum with
    | nan => rw [dy] at hy; cases hy
    | inf s => rw [dy] at hy; cases hy
    | zero t =>
      rw [dy] at hy; injection hy with hy; subst hy
      rw [add_zero, if_neg (num_ne_zero dx), AddDual.addSame_special_some hE hF (d := .num u) (by rw [dx, dy]; rfl) hr, ← dx]
      exact rounded_self hF (by omega) x u dx
    | num v =>
      rw [dy] at hy; injection hy with hy; subst hy
      obtain ⟨h2, h3, -⟩ := AddDual.addSame_sharp hE hF dx dy hr
      by_cases h0 : u + v = 0
      · rw [if_pos h0]; exact ⟨_, h2 h0⟩
      · rw [if_neg h0]
        refine h3 h0 (le_trans (zpow_le_zpow_right₀ (by norm_num) ?_) (AddDual.sum_ge dx dy h0))
        have : (F : ℤ) ≤ 2 * 2 ^ E := by rw [pow_succ] at hfmt; exact_mod_cast (by omega : F ≤ 2 * 2 ^ E)
        omega

/-- An operation that obeys the table of exceptional sums and is monotone on zeros and numbers is monotone. -/
theorem mono_of_special {E F : ℕ} {op : Fp E F → Fp E F → Option (Fp E F)}
    (spec : ∀ {a b t : Fp E F} {d : Datum}, op a b = some t → addSpecial a.datum b.datum = some d → t.datum = d)
    (x y z r s : Fp E F) (hxy : x.datum.Le y.datum) (hr : op x z = some r) (hs : op y z = some s)
    (hrn : r.datum ≠ .nan) (hsn : s.datum ≠ .nan)
    (fin : ∀ u v w, x.datum.fin = some u → y.datum.fin = some v → z.datum.fin = some w → u ≤ v → r.datum.Le s.datum) :
    r.datum.Le s.datum := by
  have nz : z.datum ≠ .nan := by
    intro h
    refine hrn (spec hr ?_)
    rw [h]; cases x.datum <;> rfl
  obtain ⟨nx, ny⟩ := le_not_nan hxy
  rcases fin_or ny with ⟨v, hv⟩ | ⟨c, hc⟩
  · rcases fin_or nx with ⟨u, hu⟩ | ⟨b, hb⟩
    · rcases fin_or nz with ⟨w, hw⟩ | ⟨d, hd⟩
      · exact fin u v w hu hv hw (le_fin hu hv hxy)
      · have f : ∀ {q : Datum} {k : ℚ}, q.fin = some k → addSpecial q z.datum = some (.inf d) := by
          intro q k hq
          rw [hd]; cases q <;> first | rfl | cases hq
        rw [spec hr (f hu), spec hs (f hv)]
        right; rfl
    · cases b with
      | false => rw [hb] at hxy; rw [top_le hxy] at hv; cases hv
      | true =>
        by_cases hz : z.datum = .inf false
        · exact absurd (spec hr (addSpecial_nan hb hz)) hrn
        · rw [spec hr (addSpecial_inf_left hb nz hz)]; exact bot_le hsn
  · cases c with
    | false =>
      by_cases hz : z.datum = .inf true
      · exact absurd (spec hs (addSpecial_nan hc hz)) hsn
      · rw [spec hs (addSpecial_inf_left hc nz hz)]; exact le_top hrn
    | true =>
      rw [hc] at hxy
      by_cases hz : z.datum = .inf false
      · exact absurd (spec hs (addSpecial_nan hc hz)) hsn
      · rw [spec hs (addSpecial_inf_left hc nz hz), spec hr (addSpecial_inf_left (le_bot hxy) nz hz)]
        right; rfl

/-- **C44, sums.** In every format with `F ≤ 2^(E+1)`, also those in which the dual-path adder can assert: if `x ≤ y` and both sums
are returned and are not NaN, then `add(x, z) ≤ add(y, z)`. -/
theorem C44_add_monotone {wE wF wEZ wFZ : ℕ} (hEX : 1 ≤ wE) (hFX : 1 ≤ wF)
    (hE : 3 < max wE wEZ) (hfmt : max wF wFZ ≤ 2 ^ (max wE wEZ + 1))
    (x y : Fp wE wF) (z : Fp wEZ wFZ) (hxy : x.datum.Le y.datum)
    (r s : Fp (max wE wEZ) (max wF wFZ)) (hr : AddDual.add x z = some r) (hs : AddDual.add y z = some s)
    (hrn : r.datum ≠ .nan) (hsn : s.datum ≠ .nan) : r.datum.Le s.datum := by
  refine mono_of_special (op := AddDual.addSame)
    (fun h hd => AddDual.addSame_special_some (by omega) (by omega) hd h) (promote _ _ x) (promote _ _ y) (promote _ _ z) r s ?_ hr hs hrn hsn
    fun u v w hu hv hw h => rounded0_mono (by linarith)
      (add_fin_returned (by omega) (by omega) hfmt _ _ hu hw hr) (add_fin_returned (by omega) (by omega) hfmt _ _ hv hw hs)
  rw [promote_datum hEX hFX (le_max_left wE wEZ) (le_max_left wF wFZ),
    promote_datum hEX hFX (le_max_left wE wEZ) (le_max_left wF wFZ)]
  exact hxy

theorem num_exp_bounds {E F : ℕ} (hF : 1 ≤ F) {x : Fp E F} {v : ℚ} (hx : x.datum = .num v) :
    (2 : ℚ) ^ ((x.exp : ℤ) - bias E) ≤ |v| ∧ |v| < 2 ^ ((x.exp : ℤ) - bias E + 1) := by
  obtain ⟨-, rfl⟩ := datum_num_iff.mp hx
  rw [abs_mul, show |(if x.sign = 1 then (-1 : ℚ) else 1)| = 1 by split_ifs <;> norm_num, one_mul, abs_of_nonneg (by positivity)]
  exact sig_bounds (x.frac_lt hF) _

/-- The exponent field of a number is determined by its magnitude. -/
theorem num_exp_eq {E F : ℕ} (hF : 1 ≤ F) {x y : Fp E F} {v w : ℚ} (hx : x.datum = .num v) (hy : y.datum = .num w) (h : |v| = |w|) :
    x.exp = y.exp := by
  obtain ⟨a, b⟩ := num_exp_bounds hF hx
  obtain ⟨c, d⟩ := num_exp_bounds hF hy
  rw [h] at a b
  have h1 := (zpow_lt_zpow_iff_right₀ (by norm_num : (1 : ℚ) < 2)).mp (lt_of_le_of_lt a d)
  have h2 := (zpow_lt_zpow_iff_right₀ (by norm_num : (1 : ℚ) < 2)).mp (lt_of_le_of_lt c b)
  omega

/-- **C45.** `neg(x) + neg(y) = neg(x + y)` for numbers that do not cancel, in every format with `F ≤ 2^(E+1)`, assertion failures
included: both sums fail, or both return and the results are opposite. -/
theorem C45_neg_add {E F : ℕ} (hE : 3 < E) (hF : 1 ≤ F) (hfmt : F ≤ 2 ^ (E + 1)) (x y : Fp E F)
    (p q : ℚ) (hp : x.datum = .num p) (hq : y.datum = .num q) (hpq : p + q ≠ 0) :
    (AddDual.addSame (negV1 E F x) (negV1 E F y)).map Fp.datum = (AddDual.addSame x y).map fun r => (negV1 E F r).datum := by
  have hE1 : 1 ≤ E := by omega
  have hnx : (negV1 E F x).datum = .num (-p) := by rw [C27_neg_datum hE1 hF, hp]; rfl
  have hny : (negV1 E F y).datum = .num (-q) := by rw [C27_neg_datum hE1 hF, hq]; rfl
  have iff : AddDual.addSame (negV1 E F x) (negV1 E F y) = none ↔ AddDual.addSame x y = none := by
    rw [C19_add_dual_asserts_iff hE hF _ _ _ _ hnx hny, C19_add_dual_asserts_iff hE hF _ _ _ _ hp hq]
    rw [num_exp_eq hF hnx hp (abs_neg p), num_exp_eq hF hny hq (abs_neg q)]
  rcases h1 : AddDual.addSame x y with _ | r
  · rw [iff.mpr h1]; rfl
  · rcases h2 : AddDual.addSame (negV1 E F x) (negV1 E F y) with _ | s
    · rw [iff.mp h2] at h1; cases h1
    · have a := add_fin_returned (by omega) hF hfmt x y (by rw [hp]; rfl) (by rw [hq]; rfl) h1
      have b := add_fin_returned (by omega) hF hfmt _ _ (by rw [hnx]; rfl) (by rw [hny]; rfl) h2
      have e : -p + -q = -(p + q) := by ring
      unfold Rounded0 at a b
      rw [if_neg hpq] at a
      rw [e, if_neg (neg_ne_zero.mpr hpq)] at b
      simp only [Option.map_some]
      rw [C27_neg_datum hE1 hF]
      exact congrArg some (rounded_unique b (rounded_neg hpq a))

/-- Single precision numbers of either sign, and a format in which both sums assert. -/
example : (AddDual.addSame (negV1 8 23 (Fp.mk4 8 23 1 0 127 5)) (negV1 8 23 (Fp.mk4 8 23 1 1 126 9))).map Fp.bits =
      (AddDual.addSame (Fp.mk4 8 23 1 0 127 5) (Fp.mk4 8 23 1 1 126 9)).map (fun r => (negV1 8 23 r).bits) ∧
    AddDual.addSame (negV1 8 61 (Fp.mk4 8 61 1 0 126 0)) (negV1 8 61 (Fp.mk4 8 61 1 0 0 0)) = none := by
  decide +kernel

end Thls
