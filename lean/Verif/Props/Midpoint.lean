import Verif.Proofs.Midpoint
import Verif.Props.IntegerOps
import Verif.Props.Scaling
import Verif.Props.IeeeOps
import Verif.Props.SoftFloat

/-! # Property C103: rounded midpoints stay between the end points

`(x + y) / 2` and `x + (y - x) / 2` for finite `x ≤ y`, every operation rounded, zeros and underflow included. -/

namespace Thls
open Spec

variable {E F : ℕ}

/-- The word is finite and its value is between `p` and `q`. -/
def Between (p q : ℚ) (d : Datum) : Prop := ∃ v, d.fin = some v ∧ p ≤ v ∧ v ≤ q

/-! ## The roundings of the three number types -/

theorem flush_of_rounded0 {q : ℚ} {d : Datum} (h : Rounded0 E F q d) : FlushRounded F (2 ^ (-bias E)) (2 ^ ((2 : ℤ) ^ E - bias E)) q d := by
  unfold Rounded0 at h
  unfold FlushRounded
  by_cases hq : q = 0
  · rw [if_pos hq] at h ⊢; exact h
  rw [if_neg hq] at h ⊢
  obtain ⟨m, e, hn, rfl⟩ := h
  refine ⟨_, ⟨m, e, hn, rfl⟩, ?_⟩
  have hw : 0 < (m : ℚ) * 2 ^ e := by
    have := sig_lower hn.1 e
    have := two_zpow_pos (e + F)
    linarith
  have habs : |(if q < 0 then (-1 : ℚ) else 1) * ((m : ℚ) * 2 ^ e)| = m * 2 ^ e := by
    rw [abs_mul, abs_of_pos hw]; split <;> norm_num
  have hsg : ((if q < 0 then (-1 : ℚ) else 1) * ((m : ℚ) * 2 ^ e) < 0) ↔ q < 0 := by
    split
    · rename_i h; exact ⟨fun _ => h, fun _ => by linarith⟩
    · rename_i h; exact ⟨fun g => by linarith, fun g => absurd g h⟩
  have h1 : (m : ℚ) * 2 ^ e < 2 ^ (-bias E) ↔ e + F + bias E < 0 := by
    rw [← not_le, sig_ge_iff hn.1]; omega
  have h2 : (2 : ℚ) ^ ((2 : ℤ) ^ E - bias E) ≤ (m : ℚ) * 2 ^ e ↔ 2 ^ E ≤ e + F + bias E := by
    rw [sig_ge_iff hn.1]; omega
  unfold flushRange rangeCheck
  simp only [habs, hsg, h1, h2, decide_eq_true_eq]

theorem flush_of_ieee {q : ℚ} {d : Datum} (hq : q ≠ 0) (h : IeeeRounded E F q d) : FlushRounded F (ieeeMin E) (ieeeLimit E) q d := by
  unfold FlushRounded
  rw [if_neg hq]
  obtain ⟨m, e, hn, rfl⟩ := h
  exact ⟨_, ⟨m, e, hn, rfl⟩, rfl⟩

theorem flush_value (hE : 1 ≤ E) (hF : 1 ≤ F) {x : Fp E F} {p : ℚ} (hx : x.datum.fin = some p) :
    FlushValue F (2 ^ (-bias E)) (2 ^ ((2 : ℤ) ^ E - bias E)) p := by
  cases dx : x.datum with
  | nan => rw [dx] at hx; cases hx
  | inf s => rw [dx] at hx; cases hx
  | zero s => rw [dx] at hx; injection hx with hx; exact Or.inl hx.symm
  | num v =>
    rw [dx] at hx; injection hx with hx; subst hx
    obtain ⟨m, k, hm, hv⟩ := num_sig hF dx
    exact Or.inr ⟨⟨m, k, hm, hv⟩, num_ge_min hF dx, num_lt_top hE hF dx⟩

theorem flopoco_mid (E F : ℕ) : MidRounding (FlushValue F (2 ^ (-bias E)) (2 ^ ((2 : ℤ) ^ E - bias E))) (FlushRounded F (2 ^ (-bias E)) (2 ^ ((2 : ℤ) ^ E - bias E))) :=
  flush_mid (two_zpow_pos _) (two_zpow_pos _)

/-! ## `fp_flopoco` -/

/-- **C103, the mean.** If `x + y` is finite, `(x + y) / 2` is finite and lies between `x` and `y`. -/
theorem C103_mean (hA : AdderFormat E F) (x y s two : Fp E F) (p q vs : ℚ) (hx : x.datum.fin = some p) (hy : y.datum.fin = some q) (hpq : p ≤ q)
    (h2 : two.datum = .num 2) (hs : AddDual.addSame x y = some s) (hf : s.datum.fin = some vs) : Between p q (divV1 E F s two).datum := by
  obtain ⟨a1, a2, -, -⟩ := id hA
  obtain ⟨r, hr, hR⟩ := adder_fin hA hx hy
  obtain rfl : r = s := Option.some.inj (hr.symm.trans hs)
  exact (flopoco_mid E F).mean (flush_value (by omega) a2 hx) (flush_value (by omega) a2 hy) hpq (flush_of_rounded0 hR) hf
    (flush_of_rounded0 (div_fin (by omega) a2 r two hf (by rw [h2]; rfl) (by norm_num)))

/-- **C103, the mean by a multiplication** with one half. -/
theorem C103_mean_mul (hA : AdderFormat E F) (x y s half : Fp E F) (p q vs : ℚ) (hx : x.datum.fin = some p) (hy : y.datum.fin = some q) (hpq : p ≤ q)
    (h2 : half.datum = .num (1 / 2)) (hs : AddDual.addSame x y = some s) (hf : s.datum.fin = some vs) :
    ∃ r : Fp E F, mulV1 E F s half = some r ∧ Between p q r.datum := by
  obtain ⟨a1, a2, -, -⟩ := id hA
  obtain ⟨t, ht, hR⟩ := adder_fin hA hx hy
  obtain rfl : t = s := Option.some.inj (ht.symm.trans hs)
  obtain ⟨r, hr⟩ := mulNarrow_total (E := E) (FR := F) (by omega) (by omega) t half
  refine ⟨r, hr, ?_⟩
  have hm := mul_fin (by omega) a2 a2 a2 (by omega) t half hf (show half.datum.fin = some (1 / 2) by rw [h2]; rfl) hr
  rw [mul_one_div] at hm
  exact (flopoco_mid E F).mean (flush_value (by omega) a2 hx) (flush_value (by omega) a2 hy) hpq (flush_of_rounded0 hR) hf (flush_of_rounded0 hm)

/-- **C103, the step.** If `y - x` is finite, `x + (y - x) / 2` is finite and lies between `x` and `y`. -/
theorem C103_step (hA : AdderFormat E F) (x y d two : Fp E F) (p q vd : ℚ) (hx : x.datum.fin = some p) (hy : y.datum.fin = some q) (hpq : p ≤ q)
    (h2 : two.datum = .num 2) (hd : AddDual.addSame y (negV1 E F x) = some d) (hf : d.datum.fin = some vd) :
    ∃ m, AddDual.addSame x (divV1 E F d two) = some m ∧ Between p q m.datum := by
  obtain ⟨a1, a2, -, -⟩ := id hA
  obtain ⟨t, ht, hR⟩ := adder_fin hA hy (neg_fin (by omega) a2 hx)
  obtain rfl : t = d := Option.some.inj (ht.symm.trans hd)
  rw [← sub_eq_add_neg] at hR
  obtain ⟨h, h1, hstep⟩ := (flopoco_mid E F).step (flush_value (by omega) a2 hx) (flush_value (by omega) a2 hy) hpq (flush_of_rounded0 hR) hf
    (flush_of_rounded0 (div_fin (by omega) a2 t two hf (by rw [h2]; rfl) (by norm_num)))
  obtain ⟨m, hm, hM⟩ := adder_fin hA hx h1
  exact ⟨m, hm, hstep _ (flush_of_rounded0 hM)⟩

/-- **C103, end points of the same sign.** Then the difference is finite, and the step cannot fail. -/
theorem C103_step_same_sign (hA : AdderFormat E F) (x y two : Fp E F) (p q : ℚ) (hx : x.datum.fin = some p) (hy : y.datum.fin = some q) (hpq : p ≤ q)
    (hsign : 0 ≤ p ∨ q ≤ 0) (h2 : two.datum = .num 2) :
    ∃ d m, AddDual.addSame y (negV1 E F x) = some d ∧ AddDual.addSame x (divV1 E F d two) = some m ∧ Between p q m.datum := by
  obtain ⟨a1, a2, -, -⟩ := id hA
  have hn := neg_fin (by omega) a2 hx
  obtain ⟨d, hd, hR⟩ := adder_fin hA hy hn
  have hz : FlushValue F (2 ^ (-bias E)) (2 ^ ((2 : ℤ) ^ E - bias E)) 0 := Or.inl rfl
  have hfin : ∃ v, d.datum.fin = some v := by
    rcases hsign with h | h
    · obtain ⟨v, hv, -⟩ := (flopoco_mid E F).between hz (flush_value (by omega) a2 hy) (show 0 ≤ q + -p by linarith) (by linarith) (flush_of_rounded0 hR)
      exact ⟨v, hv⟩
    · obtain ⟨v, hv, -⟩ := (flopoco_mid E F).between hz (flush_value (by omega) a2 hn) (show 0 ≤ q + -p by linarith) (by linarith) (flush_of_rounded0 hR)
      exact ⟨v, hv⟩
  obtain ⟨v, hv⟩ := hfin
  obtain ⟨m, hm, hb⟩ := C103_step hA x y d two p q v hx hy hpq h2 hd hv
  exact ⟨d, m, hd, hm, hb⟩

/-- **C103, overflow.** Without the condition on the sum the mean is wrong: the mean of the greatest number and itself is an infinity in every format,
whereas the step from it to itself gives it back. -/
theorem C103_mean_overflow (hA : AdderFormat E F) (x two : Fp E F) (v : ℚ) (hx : x.datum = .num v) (hv : 2 ^ ((2 : ℤ) ^ E - bias E) ≤ 2 * v)
    (h2 : two.datum = .num 2) : ∃ s, AddDual.addSame x x = some s ∧ (divV1 E F s two).datum = .inf false := by
  obtain ⟨a1, a2, -, -⟩ := id hA
  obtain ⟨s, hs, hR⟩ := adder_fin hA (show x.datum.fin = some v by rw [hx]; rfl) (show x.datum.fin = some v by rw [hx]; rfl)
  refine ⟨s, hs, ?_⟩
  have hT := two_zpow_pos ((2 : ℤ) ^ E - bias E)
  have hsi : s.datum = .inf false := by
    have hf := flush_of_rounded0 hR
    unfold FlushRounded at hf
    rw [if_neg (by linarith)] at hf
    obtain ⟨t, ht, hd⟩ := hf
    obtain ⟨m, k, hm, hmv⟩ := num_sig a2 hx
    have hsig : SigValue F (v + v) := by
      have := sigValue_scale ⟨m, k, hm, hmv⟩ 1
      rwa [zpow_one, two_mul] at this
    have := free_exact hsig ht
    subst this
    rw [hd]
    unfold flushRange
    rw [abs_of_pos (by linarith), if_neg, if_pos (by linarith), decide_eq_false (by linarith)]
    have h3 : (2 : ℚ) ^ (-bias E) ≤ 2 ^ ((2 : ℤ) ^ E - bias E) := zpow_le_zpow_right₀ (by norm_num) (by have : (0 : ℤ) < 2 ^ E := by positivity
                                                                                                        omega)
    linarith
  exact C22_div_exceptions (by omega) a2 (by omega) a2 ⟨le_rfl, le_rfl⟩ ⟨le_rfl, le_rfl⟩ s two _ (by rw [hsi, h2]; simp [divSpecial, Datum.isNeg])

/-! ## The IEEE types -/

theorem ieee_mid (E F : ℕ) : MidRounding (FlushValue F (ieeeMin E) (ieeeLimit E)) (FlushRounded F (ieeeMin E) (ieeeLimit E)) :=
  flush_mid (two_zpow_pos _) (two_zpow_pos _)

theorem ieee_fin_conv (hE : 2 ≤ E) (hF : 1 ≤ F) {a : Ieee E F} {p : ℚ} (ha : (ieeeRange E a.datum).fin = some p) :
    (ieeeToFlopoco a).datum.fin = some p := by rw [ieeeToFlopoco_datum (by omega) hF, ha]

theorem ieee_of_rounded0 (hE : 2 ≤ E) {q : ℚ} {d : Datum} (h : Rounded0 E F q d) : FlushRounded F (ieeeMin E) (ieeeLimit E) q (ieeeRange E d) := by
  by_cases hq : q = 0
  · unfold Rounded0 at h
    unfold FlushRounded
    rw [if_pos hq] at h ⊢
    obtain ⟨s, rfl⟩ := h
    exact ⟨s, rfl⟩
  · unfold Rounded0 at h
    rw [if_neg hq] at h
    exact flush_of_ieee hq (ieee_range_of_rounded (by omega) h)

theorem ieee_value (hE : 2 ≤ E) (hF : 1 ≤ F) {a : Ieee E F} {p : ℚ} (ha : (ieeeRange E a.datum).fin = some p) :
    FlushValue F (ieeeMin E) (ieeeLimit E) p := by
  have hc := ieee_fin_conv hE hF ha
  cases da : ieeeRange E a.datum with
  | nan => rw [da] at ha; cases ha
  | inf s => rw [da] at ha; cases ha
  | zero s => rw [da] at ha; injection ha with ha; exact Or.inl ha.symm
  | num v =>
    rw [da] at ha; injection ha with ha; subst ha
    obtain ⟨m, k, hm, hv⟩ := num_sig hF (x := ieeeToFlopoco a) (v := v) (by rw [ieeeToFlopoco_datum (by omega) hF, da])
    have hi := ieeeRange_idem E a.datum
    rw [da] at hi
    unfold ieeeRange at hi
    dsimp only at hi
    split_ifs at hi with h1 h2
    exact Or.inr ⟨⟨m, k, hm, hv⟩, not_lt.mp h1, not_le.mp h2⟩

/-- A result of the IEEE types has no denormals, so the operand it denotes is the result. -/
theorem ieee_result (hE : 2 ≤ E) (hF : 1 ≤ F) (r : Fp E F) : ieeeRange E (flopocoToIeee r).datum = (flopocoToIeee r).datum := by
  rw [flopocoToIeee_datum hE hF, ieeeRange_idem]

/-- **C103, the mean, IEEE types.** Denormal operands count as zero. -/
theorem C103_ieee_mean (hA : AdderFormat E F) (a b s two : Ieee E F) (p q vs : ℚ) (ha : (ieeeRange E a.datum).fin = some p)
    (hb : (ieeeRange E b.datum).fin = some q) (hpq : p ≤ q) (h2 : ieeeRange E two.datum = .num 2) (hs : IeeeOps.add a b = some s)
    (hf : s.datum.fin = some vs) : Between p q (IeeeOps.div s two).datum := by
  obtain ⟨a1, a2, -, -⟩ := id hA
  obtain ⟨r, hr, hR⟩ := adder_fin hA (ieee_fin_conv (by omega) a2 ha) (ieee_fin_conv (by omega) a2 hb)
  unfold IeeeOps.add at hs
  rw [hr] at hs
  obtain rfl := Option.some.inj hs
  have hfr : (ieeeRange E (flopocoToIeee r).datum).fin = some vs := by rw [ieee_result (by omega) a2, hf]
  have hq := div_fin (by omega) a2 (ieeeToFlopoco (flopocoToIeee r)) (ieeeToFlopoco two) (ieee_fin_conv (by omega) a2 hfr)
    (ieee_fin_conv (by omega) a2 (show (ieeeRange E two.datum).fin = some 2 by rw [h2]; rfl)) (by norm_num)
  rw [flopocoToIeee_datum (by omega) a2] at hf
  have := (ieee_mid E F).mean (ieee_value (by omega) a2 ha) (ieee_value (by omega) a2 hb) hpq (ieee_of_rounded0 (by omega) hR) hf (ieee_of_rounded0 (by omega) hq)
  unfold IeeeOps.div
  rw [flopocoToIeee_datum (by omega) a2]
  exact this

/-- **C103, the step, IEEE types.** They have no subtraction: `n` is a word that stands for `-a`. -/
theorem C103_ieee_step (hA : AdderFormat E F) (a b n d two : Ieee E F) (p q vd : ℚ) (ha : (ieeeRange E a.datum).fin = some p)
    (hb : (ieeeRange E b.datum).fin = some q) (hn : (ieeeRange E n.datum).fin = some (-p)) (hpq : p ≤ q) (h2 : ieeeRange E two.datum = .num 2)
    (hd : IeeeOps.add b n = some d) (hf : d.datum.fin = some vd) :
    ∃ m, IeeeOps.add a (IeeeOps.div d two) = some m ∧ Between p q m.datum := by
  obtain ⟨a1, a2, -, -⟩ := id hA
  obtain ⟨r, hr, hR⟩ := adder_fin hA (ieee_fin_conv (by omega) a2 hb) (ieee_fin_conv (by omega) a2 hn)
  rw [← sub_eq_add_neg] at hR
  unfold IeeeOps.add at hd
  rw [hr] at hd
  obtain rfl := Option.some.inj hd
  have hfr : (ieeeRange E (flopocoToIeee r).datum).fin = some vd := by rw [ieee_result (by omega) a2, hf]
  have hq := div_fin (by omega) a2 (ieeeToFlopoco (flopocoToIeee r)) (ieeeToFlopoco two) (ieee_fin_conv (by omega) a2 hfr)
    (ieee_fin_conv (by omega) a2 (show (ieeeRange E two.datum).fin = some 2 by rw [h2]; rfl)) (by norm_num)
  rw [flopocoToIeee_datum (by omega) a2] at hf
  obtain ⟨h, h1, hstep⟩ := (ieee_mid E F).step (ieee_value (by omega) a2 ha) (ieee_value (by omega) a2 hb) hpq (ieee_of_rounded0 (by omega) hR) hf
    (ieee_of_rounded0 (by omega) hq)
  have h1' : (ieeeRange E (IeeeOps.div (flopocoToIeee r) two).datum).fin = some h := by
    unfold IeeeOps.div
    rw [ieee_result (by omega) a2, flopocoToIeee_datum (by omega) a2]
    exact h1
  obtain ⟨m, hm, hM⟩ := adder_fin hA (ieee_fin_conv (by omega) a2 ha) (ieee_fin_conv (by omega) a2 h1')
  refine ⟨flopocoToIeee m, ?_, ?_⟩
  · conv_lhs => unfold IeeeOps.add
    rw [hm]; rfl
  · rw [flopocoToIeee_datum (by omega) a2]
    exact hstep _ (ieee_of_rounded0 (by omega) hM)

/-! ## The host float types -/

theorem soft_value {f : SoftFmt} (ok : f.Ok) {w : ℕ} (hw : w < 2 ^ f.W) {v : ℚ} (hv : (wordDatum f.E f.F w).fin = some v) : GradValue f.E f.F v := by
  cases dw : wordDatum f.E f.F w with
  | nan => rw [dw] at hv; cases hv
  | inf s => rw [dw] at hv; cases hv
  | zero s =>
    rw [dw] at hv; injection hv with hv; subst hv
    exact ⟨gradNum_zero, by rw [abs_zero]; exact two_zpow_pos _⟩
  | num q =>
    rw [dw] at hv; injection hv with hv; subst hv
    obtain ⟨n, t, h1, h2, h3⟩ := SoftFmt.num_form ok hw dw
    refine ⟨⟨n.natAbs, (t : ℤ) + leastExp f.E f.F, ⟨h2, by omega⟩, ?_⟩, h3⟩
    rw [h1, abs_mul, abs_of_pos (two_zpow_pos _), Nat.cast_natAbs]
    push_cast; rfl

theorem soft_quotient_fin {f : SoftFmt} (ok : f.Ok) {a c : ℕ} {v w : ℚ} {d : Datum} (ha : a < 2 ^ f.W) (hw : w ≠ 0) (hv : (wordDatum f.E f.F a).fin = some v)
    (hc : wordDatum f.E f.F c = .num w) (h : IeeeQuotient f.E f.F (wordDatum f.E f.F a) (wordDatum f.E f.F c) d) : RoundedG0 f.E f.F (v / w) d := by
  unfold RoundedG0
  cases da : wordDatum f.E f.F a with
  | nan => rw [da] at hv; cases hv
  | inf s => rw [da] at hv; cases hv
  | zero s =>
    rw [da] at hv; injection hv with hv; subst hv
    rw [zero_div, if_pos rfl]
    exact ⟨_, SoftFmt.ieeeQuotient_special h (by rw [da, hc]; rfl)⟩
  | num q =>
    rw [da] at hv; injection hv with hv; subst hv
    rw [if_neg (div_ne_zero (SoftFmt.num_word_ne ok ha da) hw)]
    rw [da, hc] at h
    exact h

/-- The mean and the step for a SoftFloat format. -/
theorem soft_midpoint {f : SoftFmt} (ok : f.Ok) {quot : ℕ → ℕ → Bool × ℕ} (hd : SoftFmt.QuotOk f quot) {a b n two : ℕ} {p q : ℚ} (ha : a < 2 ^ f.W)
    (hb : b < 2 ^ f.W) (hn : n < 2 ^ f.W) (ht : two < 2 ^ f.W) (hp : (wordDatum f.E f.F a).fin = some p) (hq : (wordDatum f.E f.F b).fin = some q)
    (hm : (wordDatum f.E f.F n).fin = some (-p)) (hpq : p ≤ q) (h2 : wordDatum f.E f.F two = .num 2) :
    (∃ s h, f.add a b = some s ∧ f.divWith quot s two = some h ∧ ∀ v, (wordDatum f.E f.F s).fin = some v → Between p q (wordDatum f.E f.F h)) ∧
    (∃ s h m, f.add b n = some s ∧ f.divWith quot s two = some h ∧ f.add a h = some m ∧
      ∀ v, (wordDatum f.E f.F s).fin = some v → Between p q (wordDatum f.E f.F m)) := by
  have hF : 1 ≤ f.F := by have := ok.hF; have := ok.hE; omega
  have M := gradual_mid (E := f.E) hF
  constructor
  · obtain ⟨s, s1, s2, s3⟩ := SoftFmt.add_ieee ok ha hb
    obtain ⟨h, h1, -, h3⟩ := SoftFmt.div_ieee ok hd s2 ht
    refine ⟨s, h, s1, h1, fun v hv => ?_⟩
    exact M.mean (soft_value ok ha hp) (soft_value ok hb hq) hpq (SoftFmt.sum_fin ok ha hb hp hq s3) hv (soft_quotient_fin ok s2 (by norm_num) hv h2 h3)
  · obtain ⟨s, s1, s2, s3⟩ := SoftFmt.add_ieee ok hb hn
    obtain ⟨h, h1, h4, h3⟩ := SoftFmt.div_ieee ok hd s2 ht
    obtain ⟨m, m1, -, m3⟩ := SoftFmt.add_ieee ok ha h4
    refine ⟨s, h, m, s1, h1, m1, fun v hv => ?_⟩
    have hs := SoftFmt.sum_fin ok hb hn hq hm s3
    rw [← sub_eq_add_neg] at hs
    obtain ⟨w, w1, hstep⟩ := M.step (soft_value ok ha hp) (soft_value ok hb hq) hpq hs hv (soft_quotient_fin ok s2 (by norm_num) hv h2 h3)
    exact hstep _ (SoftFmt.sum_fin ok ha h4 hp w1 m3)

/-- **C103, `float32_t`.** `n` is the word of `-a`. The midpoints lie between the end points, denormals included, if the sum (the difference) is
finite. -/
theorem C103_soft_midpoint32 {fast a b n two : ℕ} {p q : ℚ} (hfast : 32 ≤ fast) (ha : a < 2 ^ 32) (hb : b < 2 ^ 32) (hn : n < 2 ^ 32) (ht : two < 2 ^ 32)
    (hp : (wordDatum 8 23 a).fin = some p) (hq : (wordDatum 8 23 b).fin = some q) (hm : (wordDatum 8 23 n).fin = some (-p)) (hpq : p ≤ q)
    (h2 : wordDatum 8 23 two = .num 2) :
    (∃ s h, f32Add fast a b = some s ∧ f32Div fast s two = some h ∧ ∀ v, (wordDatum 8 23 s).fin = some v → Between p q (wordDatum 8 23 h)) ∧
    (∃ s h m, f32Add fast b n = some s ∧ f32Div fast s two = some h ∧ f32Add fast a h = some m ∧
      ∀ v, (wordDatum 8 23 s).fin = some v → Between p q (wordDatum 8 23 m)) :=
  soft_midpoint (soft32_ok hfast) (quotOk32 fast) ha hb hn ht hp hq hm hpq h2

/-- **C103, `float64_t`.** -/
theorem C103_soft_midpoint64 {fast a b n two : ℕ} {p q : ℚ} (hfast : 64 ≤ fast) (ha : a < 2 ^ 64) (hb : b < 2 ^ 64) (hn : n < 2 ^ 64) (ht : two < 2 ^ 64)
    (hp : (wordDatum 11 52 a).fin = some p) (hq : (wordDatum 11 52 b).fin = some q) (hm : (wordDatum 11 52 n).fin = some (-p)) (hpq : p ≤ q)
    (h2 : wordDatum 11 52 two = .num 2) :
    (∃ s h, f64Add fast a b = some s ∧ f64Div fast s two = some h ∧ ∀ v, (wordDatum 11 52 s).fin = some v → Between p q (wordDatum 11 52 h)) ∧
    (∃ s h m, f64Add fast b n = some s ∧ f64Div fast s two = some h ∧ f64Add fast a h = some m ∧
      ∀ v, (wordDatum 11 52 s).fin = some v → Between p q (wordDatum 11 52 m)) :=
  soft_midpoint (soft64_ok hfast) (quotOk64 fast) ha hb hn ht hp hq hm hpq h2

/-! ## The hypotheses are met -/

/-- `(1 + 2) / 2 = 1.5` and `1 + (2 - 1) / 2 = 1.5` in `fp_flopoco<8,23>`; the mean of the two least numbers is the even one of them. -/
example : (AddDual.addSame (Fp.mk4 8 23 1 0 127 0) (Fp.mk4 8 23 1 0 128 0)).map (fun s => divV1 8 23 s (Fp.mk4 8 23 1 0 128 0)) =
      some (Fp.mk4 8 23 1 0 127 (2 ^ 22)) ∧
    ((AddDual.addSame (Fp.mk4 8 23 1 0 128 0) (negV1 8 23 (Fp.mk4 8 23 1 0 127 0))).bind fun d =>
      AddDual.addSame (Fp.mk4 8 23 1 0 127 0) (divV1 8 23 d (Fp.mk4 8 23 1 0 128 0))) = some (Fp.mk4 8 23 1 0 127 (2 ^ 22)) ∧
    (AddDual.addSame (Fp.mk4 8 23 1 0 0 0) (Fp.mk4 8 23 1 0 0 1)).map (fun s => divV1 8 23 s (Fp.mk4 8 23 1 0 128 0)) =
      some (Fp.mk4 8 23 1 0 0 0) := by decide +kernel

/-- The same for `float32_t`: `(1 + 2) / 2 = 1.5`, and the mean of the two least denormals is the greater one. -/
example : ((f32Add 32 0x3F800000 0x40000000).bind fun s => f32Div 32 s 0x40000000) = some 0x3FC00000 ∧
    ((f32Add 32 1 2).bind fun s => f32Div 32 s 0x40000000) = some 2 := by decide +kernel

/-- The hypotheses are met together, by the single-precision numbers `1` and `2`. -/
example : ∃ d m, AddDual.addSame (Fp.mk4 8 23 1 0 128 0) (negV1 8 23 (Fp.mk4 8 23 1 0 127 0)) = some d ∧
    AddDual.addSame (Fp.mk4 8 23 1 0 127 0) (divV1 8 23 d (Fp.mk4 8 23 1 0 128 0)) = some m ∧
    Between 1 2 m.datum := by
  refine C103_step_same_sign ⟨by decide, by decide, dual_8_23', by decide⟩ _ _ _ 1 2 ?_ ?_ (by norm_num)
    (Or.inl (by norm_num)) ?_
  all_goals
    rw [mk4_num (by decide) (by decide) (by decide) (by decide)]
    norm_num [bias, Datum.fin]

end Thls
