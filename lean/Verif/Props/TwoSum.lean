import Verif.Proofs.TwoSum
import Verif.Props.Midpoint

/-! # Property C104: the error of a sum can be recovered exactly, whichever summand is larger

With `s = a + b` and `v = s - a`, every operation rounded, `t = (a - (s - v)) + (b - v)` is exactly `a + b - s`. If `|b| ≤ |a|`, then
`b - v` already is. -/

namespace Thls
open Spec

variable {E F : ℕ}

/-- A value of the format that is zero or large enough is on the grid. -/
theorem flushValue_onGrid {g : ℤ} {lo hi v : ℚ} (h : FlushValue F lo hi v) (hv : v = 0 ∨ (2 : ℚ) ^ ((F : ℤ) + g) ≤ |v|) : OnGrid F g v := by
  by_cases h0 : v = 0
  · rw [h0]; exact onGrid_zero
  obtain ⟨⟨m, e, hm, hme⟩, -, -⟩ := h.resolve_left h0
  have hb := hv.resolve_left h0
  have hm2 : (m : ℚ) ≤ 2 ^ (F + 1) := by exact_mod_cast hm.2.le
  have hg : g ≤ e := by
    have h1 : (2 : ℚ) ^ ((F : ℤ) + g) < 2 ^ (e + F + 1) := by
      rw [hme] at hb
      exact hb.trans_lt (sig_upper hm e)
    have := (zpow_lt_zpow_iff_right₀ (by norm_num)).mp h1
    omega
  refine onGrid_mult hg (signed_mult hme) ?_
  rw [hme]
  exact mul_le_mul_of_nonneg_right hm2 (two_zpow_pos e).le

theorem flushValue_lt {lo hi v : ℚ} (hhi : 0 < hi) (h : FlushValue F lo hi v) : |v| < hi := by
  rcases h with rfl | ⟨-, -, h⟩
  · rwa [abs_zero]
  · exact h

/-! ## `fp_flopoco` -/

theorem flopoco_sum (E F : ℕ) : SumRounding F (-bias E) (2 ^ ((2 : ℤ) ^ E - bias E)) (FlushRounded F (2 ^ (-bias E)) (2 ^ ((2 : ℤ) ^ E - bias E))) :=
  flush_sum (two_zpow_pos _) _

/-- **C104, summands in any order.** The values are zero or at least `2^(F - bias)`, and the sum `s` and `v = s - a` are finite: then none of the
other operations fails or overflows, and `t` is exactly the error of the sum. -/
theorem C104_two_sum (hA : AdderFormat E F) (hF : 2 ≤ F) (a b s v : Fp E F) (va vb vs vv : ℚ) (ha : a.datum.fin = some va) (hb : b.datum.fin = some vb)
    (hna : va = 0 ∨ (2 : ℚ) ^ ((F : ℤ) - bias E) ≤ |va|) (hnb : vb = 0 ∨ (2 : ℚ) ^ ((F : ℤ) - bias E) ≤ |vb|) (hs : AddDual.addSame a b = some s)
    (hfs : s.datum.fin = some vs) (hv : AddDual.addSame s (negV1 E F a) = some v) (hfv : v.datum.fin = some vv) :
    ∃ u p q t, AddDual.addSame s (negV1 E F v) = some u ∧ AddDual.addSame a (negV1 E F u) = some p ∧ AddDual.addSame b (negV1 E F v) = some q ∧
      AddDual.addSame p q = some t ∧ t.datum.fin = some (va + vb - vs) := by
  obtain ⟨a1, a2, -, -⟩ := id hA
  have hE : 1 ≤ E := by omega
  have hT := two_zpow_pos ((2 : ℤ) ^ E - bias E)
  have xa := flush_value hE a2 ha
  have xb := flush_value hE a2 hb
  obtain ⟨s', hs', hR⟩ := adder_fin hA ha hb
  obtain rfl : s' = s := Option.some.inj (hs'.symm.trans hs)
  obtain ⟨v', hv', hRv⟩ := adder_fin hA hfs (neg_fin hE a2 ha)
  obtain rfl : v' = v := Option.some.inj (hv'.symm.trans hv)
  rw [← sub_eq_add_neg] at hRv
  have htop : (2 : ℚ) * 2 ^ (-bias E) < 2 ^ ((2 : ℤ) ^ E - bias E) := by
    rw [mul_comm, ← zpow_add_one₀ (by norm_num)]
    refine zpow_lt_zpow_right₀ (by norm_num) ?_
    have : (2 : ℤ) ^ 1 < 2 ^ E := pow_lt_pow_right₀ (by norm_num) (by omega)
    omega
  obtain ⟨c1, c2, c3, c4⟩ := (flopoco_sum E F).two hF htop (flushValue_onGrid xa (by rwa [← sub_eq_add_neg])) (flushValue_onGrid xb (by rwa [← sub_eq_add_neg]))
    (flushValue_lt hT xa) (flushValue_lt hT xb) (flush_of_rounded0 hR) hfs (flush_of_rounded0 hRv) hfv
  have nv := neg_fin hE a2 hfv
  obtain ⟨u, hu, ru⟩ := adder_fin hA hfs nv
  rw [← sub_eq_add_neg] at ru
  have fu := c1 _ (flush_of_rounded0 ru)
  obtain ⟨p, hp, rp⟩ := adder_fin hA ha (neg_fin hE a2 fu)
  rw [← sub_eq_add_neg] at rp
  have fp := c2 _ (flush_of_rounded0 rp)
  obtain ⟨q, hq, rq⟩ := adder_fin hA hb nv
  rw [← sub_eq_add_neg] at rq
  have fq := c3 _ (flush_of_rounded0 rq)
  obtain ⟨t, ht, rt⟩ := adder_fin hA fp fq
  exact ⟨u, p, q, t, hu, hp, hq, ht, c4 _ (flush_of_rounded0 rt)⟩

/-- **C104, when `s - a` is finite.** It is if `s` is and `b` is not larger than `a`, or is not the greatest number of the format. -/
theorem C104_second_finite (hA : AdderFormat E F) (a b s : Fp E F) (va vb vs : ℚ) (ha : a.datum.fin = some va) (hb : b.datum.fin = some vb)
    (hna : va = 0 ∨ (2 : ℚ) ^ ((F : ℤ) - bias E) ≤ |va|) (hnb : vb = 0 ∨ (2 : ℚ) ^ ((F : ℤ) - bias E) ≤ |vb|)
    (hsm : |vb| ≤ |va| ∨ |vb| < (2 ^ (F + 1) - 1) * 2 ^ ((2 : ℤ) ^ E - bias E - F - 1)) (hs : AddDual.addSame a b = some s) (hfs : s.datum.fin = some vs) :
    ∃ v vv, AddDual.addSame s (negV1 E F a) = some v ∧ v.datum.fin = some vv := by
  obtain ⟨a1, a2, -, -⟩ := id hA
  have hE : 1 ≤ E := by omega
  have hT := two_zpow_pos ((2 : ℤ) ^ E - bias E)
  have xa := flush_value hE a2 ha
  have xb := flush_value hE a2 hb
  obtain ⟨s', hs', hR⟩ := adder_fin hA ha hb
  obtain rfl : s' = s := Option.some.inj (hs'.symm.trans hs)
  obtain ⟨v, hv, hRv⟩ := adder_fin hA hfs (neg_fin hE a2 ha)
  rw [← sub_eq_add_neg] at hRv
  have ga := flushValue_onGrid xa (by rwa [← sub_eq_add_neg])
  have gb := flushValue_onGrid xb (by rwa [← sub_eq_add_neg])
  by_cases hab : |vb| ≤ |va|
  · exact ⟨v, _, hv, ((flopoco_sum E F).fast ga gb (flushValue_lt hT xa) hab (flush_of_rounded0 hR) hfs).1 _ (flush_of_rounded0 hRv)⟩
  have hlt := flushValue_lt hT xb
  have hb0 : vb ≠ 0 := by
    rintro rfl
    exact hab (by rw [abs_zero]; exact abs_nonneg va)
  have hFE := (zpow_lt_zpow_iff_right₀ (by norm_num)).mp ((hnb.resolve_left hb0).trans_lt hlt)
  obtain ⟨vv, hvv⟩ := (flopoco_sum E F).second (K := (2 : ℤ) ^ E - bias E - F - 1) a2 (by omega) (by
      rw [← zpow_natCast, ← zpow_add₀ (by norm_num)]
      congr 1; push_cast; ring) ga gb (flushValue_lt hT xa) hsm (flush_of_rounded0 hR) hfs (flush_of_rounded0 hRv)
  exact ⟨v, vv, hv, hvv⟩

/-- **C104, underflow.** Without the condition on the summands the error need not be a number of the format: the difference of the least number and the
one half as large again is a zero in every format, so the error is below the least number. -/
theorem C104_underflow (hA : AdderFormat E F) (a b : Fp E F) (ha : a.datum = .num (3 / 2 * 2 ^ (-bias E))) (hb : b.datum = .num (-2 ^ (-bias E))) :
    ∃ s, AddDual.addSame a b = some s ∧ s.datum.fin = some 0 ∧ ∀ t : Fp E F, t.datum.fin ≠ some (3 / 2 * 2 ^ (-bias E) + -2 ^ (-bias E) - 0) := by
  obtain ⟨a1, a2, -, -⟩ := id hA
  obtain ⟨s, hs, hR⟩ := adder_fin hA (show a.datum.fin = some _ by rw [ha]; rfl) (show b.datum.fin = some _ by rw [hb]; rfl)
  have hp := two_zpow_pos (-bias E)
  have hval : (3 : ℚ) / 2 * 2 ^ (-bias E) + -2 ^ (-bias E) = 1 / 2 * 2 ^ (-bias E) := by ring
  refine ⟨s, hs, ?_, fun t ht => ?_⟩
  · have hf := flush_of_rounded0 hR
    rw [hval] at hf
    unfold FlushRounded at hf
    rw [if_neg (by positivity)] at hf
    obtain ⟨t, ht, hd⟩ := hf
    have hsig : SigValue F (1 / 2 * 2 ^ (-bias E)) := by
      refine fits_sig (k := -bias E - 1) ⟨1, ?_, ?_⟩ (by positivity)
      · rw [abs_one]; exact one_lt_pow₀ (by norm_num) (by omega)
      · rw [zpow_sub_one₀ (by norm_num)]; push_cast; ring
    have := free_exact hsig ht
    subst this
    rw [hd]
    unfold flushRange
    rw [if_pos (by rw [abs_of_pos (by positivity)]; linarith)]; rfl
  · rw [sub_zero, hval] at ht
    cases dt : t.datum with
    | nan => rw [dt] at ht; cases ht
    | inf s => rw [dt] at ht; cases ht
    | zero s => rw [dt] at ht; injection ht with ht; linarith
    | num w =>
      rw [dt] at ht; injection ht with ht; subst ht
      have := num_ge_min a2 dt
      rw [abs_of_pos (by positivity)] at this
      linarith

/-! ## The IEEE types -/

theorem ieee_sum (E F : ℕ) : SumRounding F (1 - bias E) (ieeeLimit E) (FlushRounded F (ieeeMin E) (ieeeLimit E)) :=
  flush_sum (two_zpow_pos _) _

/-- A sum of finite values in the IEEE types. -/
theorem ieee_adder_fin (hA : AdderFormat E F) {a b : Ieee E F} {p q : ℚ} (ha : (ieeeRange E a.datum).fin = some p) (hb : (ieeeRange E b.datum).fin = some q) :
    ∃ r, IeeeOps.add a b = some r ∧ FlushRounded F (ieeeMin E) (ieeeLimit E) (p + q) r.datum ∧ ieeeRange E r.datum = r.datum := by
  obtain ⟨a1, a2, -, -⟩ := id hA
  obtain ⟨r, hr, hR⟩ := adder_fin hA (ieee_fin_conv (by omega) a2 ha) (ieee_fin_conv (by omega) a2 hb)
  refine ⟨flopocoToIeee r, ?_, ?_, ieee_result (by omega) a2 r⟩
  · unfold IeeeOps.add
    rw [hr]; rfl
  · rw [flopocoToIeee_datum (by omega) a2]
    exact ieee_of_rounded0 (by omega) hR

/-- **C104, larger summand first, IEEE types.** `na` and `nz` stand for `-a` and `-z`. -/
theorem C104_ieee_sum_error (hA : AdderFormat E F) (a b s na : Ieee E F) (va vb vs : ℚ) (ha : (ieeeRange E a.datum).fin = some va)
    (hb : (ieeeRange E b.datum).fin = some vb) (hma : (ieeeRange E na.datum).fin = some (-va)) (hab : |vb| ≤ |va|)
    (hnb : vb = 0 ∨ (2 : ℚ) ^ ((F : ℤ) + 1 - bias E) ≤ |vb|) (hs : IeeeOps.add a b = some s) (hfs : s.datum.fin = some vs) :
    ∃ z, IeeeOps.add s na = some z ∧ z.datum.fin = some (vs - va) ∧
      ∀ nz : Ieee E F, (ieeeRange E nz.datum).fin = some (-(vs - va)) → ∃ t, IeeeOps.add b nz = some t ∧ t.datum.fin = some (va + vb - vs) := by
  obtain ⟨a1, a2, -, -⟩ := id hA
  have hT : 0 < ieeeLimit E := two_zpow_pos _
  have xa := ieee_value (by omega) a2 ha
  have xb := ieee_value (by omega) a2 hb
  obtain ⟨s', hs', hR, hr⟩ := ieee_adder_fin hA ha hb
  obtain rfl : s' = s := Option.some.inj (hs'.symm.trans hs)
  obtain ⟨z, hz, hRz, -⟩ := ieee_adder_fin hA (show (ieeeRange E s'.datum).fin = some vs by rw [hr, hfs]) hma
  rw [← sub_eq_add_neg] at hRz
  rcases hnb with rfl | hnb
  · -- nothing is added
    have hfa : SigValue F va ∨ va = 0 := xa.symm.imp And.left id
    have hvs : vs = va := by
      rw [add_zero] at hR
      rcases hfa with h | rfl
      · have h0 : va ≠ 0 := by
          rintro rfl
          obtain ⟨m, e, hm, h⟩ := h
          have := sig_lower hm e
          have := two_zpow_pos (e + F)
          rw [abs_zero] at h
          linarith
        obtain ⟨t, ht, hc⟩ := flush_fin h0 hR hfs
        have := free_exact h ht
        subst this
        rcases hc with ⟨h, -, -⟩ | ⟨-, h⟩
        · exact h
        · exact absurd (xa.resolve_left h0).2.1 (not_le.mpr h)
      · unfold FlushRounded at hR
        rw [if_pos rfl] at hR
        obtain ⟨b, hb⟩ := hR
        rw [hb] at hfs
        injection hfs with hfs
        exact hfs.symm
    subst hvs
    have fz : ∀ {d : Datum}, FlushRounded F (ieeeMin E) (ieeeLimit E) 0 d → d.fin = some 0 := by
      intro d h
      unfold FlushRounded at h
      rw [if_pos rfl] at h
      obtain ⟨b, rfl⟩ := h
      rfl
    rw [sub_self] at hRz ⊢
    refine ⟨z, hz, fz hRz, fun nz hnz => ?_⟩
    obtain ⟨t, ht, hRt, -⟩ := ieee_adder_fin hA hb hnz
    rw [neg_zero, add_zero] at hRt
    refine ⟨t, ht, ?_⟩
    rw [fz hRt]; congr 1; ring
  have hexp : (F : ℤ) + 1 - bias E = F + (1 - bias E) := by ring
  have gb := flushValue_onGrid xb (Or.inr (by rwa [← hexp]))
  have ga := flushValue_onGrid xa (Or.inr (by rw [← hexp]; exact hnb.trans hab))
  obtain ⟨c1, c2⟩ := (ieee_sum E F).fast ga gb (flushValue_lt hT xa) hab hR hfs
  refine ⟨z, hz, c1 _ hRz, fun nz hnz => ?_⟩
  obtain ⟨t, ht, hRt, -⟩ := ieee_adder_fin hA hb hnz
  rw [← sub_eq_add_neg] at hRt
  exact ⟨t, ht, c2 _ hRt⟩

/-- **C104, summands in any order, IEEE types.** `na`, `nv` and `nu` stand for `-a`, `-v` and `-u`. -/
theorem C104_ieee_two_sum (hA : AdderFormat E F) (hF : 2 ≤ F) (a b s v na : Ieee E F) (va vb vs vv : ℚ) (ha : (ieeeRange E a.datum).fin = some va)
    (hb : (ieeeRange E b.datum).fin = some vb) (hma : (ieeeRange E na.datum).fin = some (-va)) (hna : va = 0 ∨ (2 : ℚ) ^ ((F : ℤ) + 1 - bias E) ≤ |va|)
    (hnb : vb = 0 ∨ (2 : ℚ) ^ ((F : ℤ) + 1 - bias E) ≤ |vb|) (hs : IeeeOps.add a b = some s) (hfs : s.datum.fin = some vs)
    (hv : IeeeOps.add s na = some v) (hfv : v.datum.fin = some vv) :
    ∀ nv : Ieee E F, (ieeeRange E nv.datum).fin = some (-vv) → ∃ u vu q, IeeeOps.add s nv = some u ∧ u.datum.fin = some vu ∧ IeeeOps.add b nv = some q ∧
      ∀ nu : Ieee E F, (ieeeRange E nu.datum).fin = some (-vu) → ∃ p t, IeeeOps.add a nu = some p ∧ IeeeOps.add p q = some t ∧
        t.datum.fin = some (va + vb - vs) := by
  obtain ⟨a1, a2, -, -⟩ := id hA
  have hT : 0 < ieeeLimit E := two_zpow_pos _
  have xa := ieee_value (by omega) a2 ha
  have xb := ieee_value (by omega) a2 hb
  obtain ⟨s', hs', hR, hr⟩ := ieee_adder_fin hA ha hb
  obtain rfl : s' = s := Option.some.inj (hs'.symm.trans hs)
  have fs : (ieeeRange E s'.datum).fin = some vs := by rw [hr, hfs]
  obtain ⟨v', hv', hRv, -⟩ := ieee_adder_fin hA fs hma
  obtain rfl : v' = v := Option.some.inj (hv'.symm.trans hv)
  rw [← sub_eq_add_neg] at hRv
  have hexp : (F : ℤ) + 1 - bias E = F + (1 - bias E) := by ring
  rw [hexp] at hna hnb
  have htop : (2 : ℚ) * 2 ^ (1 - bias E) < ieeeLimit E := by
    unfold ieeeLimit
    rw [mul_comm, ← zpow_add_one₀ (by norm_num)]
    refine zpow_lt_zpow_right₀ (by norm_num) ?_
    have h1 := two_bias (E := E) (by omega)
    have : (2 : ℤ) ^ 3 ≤ 2 ^ E := pow_le_pow_right₀ (by norm_num) (by omega)
    omega
  obtain ⟨c1, c2, c3, c4⟩ := (ieee_sum E F).two hF htop (flushValue_onGrid xa hna) (flushValue_onGrid xb hnb) (flushValue_lt hT xa) (flushValue_lt hT xb)
    hR hfs hRv hfv
  intro nv hnv
  obtain ⟨u, hu, ru, -⟩ := ieee_adder_fin hA fs hnv
  rw [← sub_eq_add_neg] at ru
  obtain ⟨q, hq, rq, eq⟩ := ieee_adder_fin hA hb hnv
  rw [← sub_eq_add_neg] at rq
  refine ⟨u, _, q, hu, c1 _ ru, hq, fun nu hnu => ?_⟩
  obtain ⟨p, hp, rp, ep⟩ := ieee_adder_fin hA ha hnu
  rw [← sub_eq_add_neg] at rp
  obtain ⟨t, ht, rt, -⟩ := ieee_adder_fin hA (show (ieeeRange E p.datum).fin = some _ by rw [ep]; exact c2 _ rp)
    (show (ieeeRange E q.datum).fin = some _ by rw [eq]; exact c3 _ rq)
  exact ⟨p, t, hp, ht, c4 _ rt⟩

/-! ## The host float types -/

theorem gradValue_onGrid {v : ℚ} (h : GradValue E F v) : OnGrid F (leastExp E F) v := gradual_onGrid h.1

/-- Both sequences for a SoftFloat format; `second` is the condition under which `s - a` cannot overflow. -/
theorem soft_two_sum {f : SoftFmt} (ok : f.Ok) (hF : 2 ≤ f.F) (hbias : (f.F : ℤ) ≤ bias f.E) {a b na : ℕ} {va vb : ℚ} (ha : a < 2 ^ f.W) (hb : b < 2 ^ f.W)
    (hn : na < 2 ^ f.W) (hva : (wordDatum f.E f.F a).fin = some va) (hvb : (wordDatum f.E f.F b).fin = some vb)
    (hma : (wordDatum f.E f.F na).fin = some (-va)) :
    ∃ s v, f.add a b = some s ∧ f.add s na = some v ∧ ∀ vs, (wordDatum f.E f.F s).fin = some vs →
      (|vb| ≤ |va| ∨ |vb| < (2 ^ (f.F + 1) - 1) * 2 ^ (bias f.E - f.F) → ∃ vv, (wordDatum f.E f.F v).fin = some vv) ∧
      ∀ vv, (wordDatum f.E f.F v).fin = some vv → ∀ nv < 2 ^ f.W, (wordDatum f.E f.F nv).fin = some (-vv) →
        ∃ u vu q, f.add s nv = some u ∧ (wordDatum f.E f.F u).fin = some vu ∧ f.add b nv = some q ∧
          (|vb| ≤ |va| → (wordDatum f.E f.F q).fin = some (va + vb - vs)) ∧
          ∀ nu < 2 ^ f.W, (wordDatum f.E f.F nu).fin = some (-vu) →
            ∃ p t, f.add a nu = some p ∧ f.add p q = some t ∧ (wordDatum f.E f.F t).fin = some (va + vb - vs) := by
  have M := gradual_sum (F := f.F) (E := f.E)
  have xa := soft_value ok ha hva
  have xb := soft_value ok hb hvb
  obtain ⟨s, hs, ls, is⟩ := SoftFmt.add_ieee ok ha hb
  have rs := SoftFmt.sum_fin ok ha hb hva hvb is
  obtain ⟨v, hv, lv, iv⟩ := SoftFmt.add_ieee ok ls hn
  refine ⟨s, v, hs, hv, fun vs hvs => ?_⟩
  have rv := SoftFmt.sum_fin ok ls hn hvs hma iv
  rw [← sub_eq_add_neg] at rv
  constructor
  · intro hsm
    refine M.second (K := bias f.E - f.F) (by omega) (by unfold leastExp; omega) ?_ (gradValue_onGrid xa) (gradValue_onGrid xb) xa.2 hsm rs hvs rv
    unfold ieeeLimit
    rw [← zpow_natCast, ← zpow_add₀ (by norm_num)]
    congr 1; push_cast; ring
  · intro vv hvv nv lnv hnv
    have htop : (2 : ℚ) * 2 ^ leastExp f.E f.F < ieeeLimit f.E := by
      unfold ieeeLimit leastExp
      rw [mul_comm, ← zpow_add_one₀ (by norm_num)]
      exact zpow_lt_zpow_right₀ (by norm_num) (by omega)
    obtain ⟨c1, c2, c3, c4⟩ := M.two hF htop (gradValue_onGrid xa) (gradValue_onGrid xb) xa.2 xb.2 rs hvs rv hvv
    obtain ⟨u, hu, lu, iu⟩ := SoftFmt.add_ieee ok ls lnv
    have ru := SoftFmt.sum_fin ok ls lnv hvs hnv iu
    rw [← sub_eq_add_neg] at ru
    obtain ⟨q, hq, lq, iq⟩ := SoftFmt.add_ieee ok hb lnv
    have rq := SoftFmt.sum_fin ok hb lnv hvb hnv iq
    rw [← sub_eq_add_neg] at rq
    refine ⟨u, _, q, hu, c1 _ ru, hq, fun hab => ?_, fun nu lnu hnu => ?_⟩
    · obtain ⟨d1, d2⟩ := M.fast (gradValue_onGrid xa) (gradValue_onGrid xb) xa.2 hab rs hvs
      obtain rfl : vs - va = vv := Option.some.inj ((d1 _ rv).symm.trans hvv)
      exact d2 _ rq
    · obtain ⟨p, hp, lp, ip⟩ := SoftFmt.add_ieee ok ha lnu
      have rp := SoftFmt.sum_fin ok ha lnu hva hnu ip
      rw [← sub_eq_add_neg] at rp
      obtain ⟨t, ht, -, it⟩ := SoftFmt.add_ieee ok lp lq
      exact ⟨p, t, hp, ht, c4 _ (SoftFmt.sum_fin ok lp lq (c2 _ rp) (c3 _ rq) it)⟩

/-- **C104, `float32_t`.** All finite values, denormals included; `na`, `nv`, `nu` are words of `-a`, `-v`, `-u`. If `s` is finite: `v = s - a` is finite
unless `b` is the larger summand and the greatest number; if it is, `t` is the error of the sum; and if `b` is the smaller summand, `q = b - v` already is. -/
theorem C104_soft_two_sum32 {fast a b na : ℕ} {va vb : ℚ} (hfast : 32 ≤ fast) (ha : a < 2 ^ 32) (hb : b < 2 ^ 32) (hn : na < 2 ^ 32)
    (hva : (wordDatum 8 23 a).fin = some va) (hvb : (wordDatum 8 23 b).fin = some vb) (hma : (wordDatum 8 23 na).fin = some (-va)) :
    ∃ s v, f32Add fast a b = some s ∧ f32Add fast s na = some v ∧ ∀ vs, (wordDatum 8 23 s).fin = some vs →
      (|vb| ≤ |va| ∨ |vb| < (2 ^ 24 - 1) * 2 ^ (bias 8 - (23 : ℕ)) → ∃ vv, (wordDatum 8 23 v).fin = some vv) ∧
      ∀ vv, (wordDatum 8 23 v).fin = some vv → ∀ nv < 2 ^ 32, (wordDatum 8 23 nv).fin = some (-vv) →
        ∃ u vu q, f32Add fast s nv = some u ∧ (wordDatum 8 23 u).fin = some vu ∧ f32Add fast b nv = some q ∧
          (|vb| ≤ |va| → (wordDatum 8 23 q).fin = some (va + vb - vs)) ∧
          ∀ nu < 2 ^ 32, (wordDatum 8 23 nu).fin = some (-vu) →
            ∃ p t, f32Add fast a nu = some p ∧ f32Add fast p q = some t ∧ (wordDatum 8 23 t).fin = some (va + vb - vs) :=
  soft_two_sum (soft32_ok hfast) (show 2 ≤ 23 by decide) (show ((23 : ℕ) : ℤ) ≤ bias 8 by decide) ha hb hn hva hvb hma

/-- **C104, `float64_t`.** -/
theorem C104_soft_two_sum64 {fast a b na : ℕ} {va vb : ℚ} (hfast : 64 ≤ fast) (ha : a < 2 ^ 64) (hb : b < 2 ^ 64) (hn : na < 2 ^ 64)
    (hva : (wordDatum 11 52 a).fin = some va) (hvb : (wordDatum 11 52 b).fin = some vb) (hma : (wordDatum 11 52 na).fin = some (-va)) :
    ∃ s v, f64Add fast a b = some s ∧ f64Add fast s na = some v ∧ ∀ vs, (wordDatum 11 52 s).fin = some vs →
      (|vb| ≤ |va| ∨ |vb| < (2 ^ 53 - 1) * 2 ^ (bias 11 - (52 : ℕ)) → ∃ vv, (wordDatum 11 52 v).fin = some vv) ∧
      ∀ vv, (wordDatum 11 52 v).fin = some vv → ∀ nv < 2 ^ 64, (wordDatum 11 52 nv).fin = some (-vv) →
        ∃ u vu q, f64Add fast s nv = some u ∧ (wordDatum 11 52 u).fin = some vu ∧ f64Add fast b nv = some q ∧
          (|vb| ≤ |va| → (wordDatum 11 52 q).fin = some (va + vb - vs)) ∧
          ∀ nu < 2 ^ 64, (wordDatum 11 52 nu).fin = some (-vu) →
            ∃ p t, f64Add fast a nu = some p ∧ f64Add fast p q = some t ∧ (wordDatum 11 52 t).fin = some (va + vb - vs) :=
  soft_two_sum (soft64_ok hfast) (show 2 ≤ 52 by decide) (show ((52 : ℕ) : ℤ) ≤ bias 11 by decide) ha hb hn hva hvb hma

/-! ## The excluded case, and cases that meet the hypotheses -/

/-- **C104, a spurious overflow.** With the greatest number as the second, larger summand the sum can be finite although `s - a` is an infinity, and
then the last result is NaN: `fp_flopoco<8,23>`, the greatest number plus `-1.5` units of its last place. -/
theorem C104_two_sum_overflow :
    ∃ a b s v u p q t : Fp 8 23, a.flags = 1 ∧ b.flags = 1 ∧ AddDual.addSame a b = some s ∧ s.flags = 1 ∧
      AddDual.addSame s (negV1 8 23 a) = some v ∧ v.flags = 2 ∧ AddDual.addSame s (negV1 8 23 v) = some u ∧
      AddDual.addSame a (negV1 8 23 u) = some p ∧ AddDual.addSame b (negV1 8 23 v) = some q ∧ AddDual.addSame p q = some t ∧ t.flags = 3 :=
  ⟨Fp.mk4 8 23 1 1 232 (2 ^ 22), Fp.mk4 8 23 1 0 255 (2 ^ 23 - 1), Fp.mk4 8 23 1 0 255 (2 ^ 23 - 2), Fp.mk4 8 23 2 0 0 0, Fp.mk4 8 23 2 1 0 0,
    Fp.mk4 8 23 2 0 0 0, Fp.mk4 8 23 2 1 0 0, Fp.mk4 8 23 3 0 0 0, by decide +kernel⟩

/-- The same in `float32_t`. -/
theorem C104_soft_two_sum_overflow : f32Add 32 0xF3C00000 0x7F7FFFFF = some 0x7F7FFFFE ∧ f32Add 32 0x7F7FFFFE 0x73C00000 = some 0x7F800000 := by
  decide +kernel

/-- `0.1 + 3` in `float32_t`, smaller summand first: the sum is `0x40466666`, the error `0x33D00000`. -/
example : f32Add 32 0x3DCCCCCD 0x40400000 = some 0x40466666 ∧ f32Add 32 0x40466666 0xBDCCCCCD = some 0x40400000 ∧
    f32Add 32 0x40466666 0xC0400000 = some 0x3DCCCCC0 ∧ f32Add 32 0x40400000 0xC0400000 = some 0 ∧
    f32Add 32 0x3DCCCCCD 0xBDCCCCC0 = some 0x33D00000 ∧ f32Add 32 0x33D00000 0 = some 0x33D00000 := by decide +kernel

/-- The same in `fp_flopoco<8,23>`. -/
example : (do
      let a := Fp.mk4 8 23 1 0 123 0x4CCCCD
      let b := Fp.mk4 8 23 1 0 128 0x400000
      let s ← AddDual.addSame a b
      let v ← AddDual.addSame s (negV1 8 23 a)
      let u ← AddDual.addSame s (negV1 8 23 v)
      let p ← AddDual.addSame a (negV1 8 23 u)
      let q ← AddDual.addSame b (negV1 8 23 v)
      let t ← AddDual.addSame p q
      return (s, t)) = some (Fp.mk4 8 23 1 0 128 0x466666, Fp.mk4 8 23 1 0 103 0x500000) := by decide +kernel

/-- The summands of the underflow exist in every format. -/
example (hE : 1 ≤ E) (hF : 1 ≤ F) : (Fp.mk4 E F 1 0 0 (2 ^ (F - 1))).datum = .num (3 / 2 * 2 ^ (-bias E)) ∧
    (negV1 E F (Fp.mk4 E F 1 0 0 0)).datum = .num (-2 ^ (-bias E)) := by
  obtain ⟨k, rfl⟩ : ∃ k, F = k + 1 := ⟨F - 1, by omega⟩
  constructor
  · rw [mk4_num hE hF (by positivity) (by rw [pow_succ, Nat.add_sub_cancel]; have : 0 < 2 ^ k := by positivity
                                          omega)]
    congr 2
    · rw [Nat.add_sub_cancel, pow_succ]; push_cast
      have : (2 : ℚ) ^ k ≠ 0 := by positivity
      field_simp; norm_num
    · push_cast; rw [zero_sub]
  · rw [C27_neg_datum hE hF, mk4_num hE hF (by positivity) (by positivity)]
    push_cast
    rw [zero_div, add_zero, one_mul, zero_sub]; rfl

end Thls
