import Verif.Proofs.DekkerProg
import Verif.Props.TwoSum

/-! # Property C105: the exact product of two numbers, without a fused operation

The client programs `split` and `twoProduct` of `SpecDekker.lean` in the arithmetic of each number type. -/

namespace Thls
open Spec

variable {E F : ℕ}

/-! ## `fp_flopoco` -/

theorem flopoco_arith (hA : AdderFormat E F) :
    Arith (fun _ : Fp E F => True) Fp.datum AddDual.addSame (mulV1 E F) (negV1 E F) (FlushRounded F (2 ^ (-bias E)) (2 ^ ((2 : ℤ) ^ E - bias E))) := by
  obtain ⟨a1, a2, -, -⟩ := id hA
  refine ⟨fun _ _ hp hq => ?_, fun {a b} {p q} _ _ hp hq => ?_, fun _ hp => ⟨trivial, neg_fin (by omega) a2 hp⟩⟩
  · obtain ⟨r, hr, hR⟩ := adder_fin hA hp hq
    exact ⟨r, hr, trivial, flush_of_rounded0 hR⟩
  · obtain ⟨r, hr⟩ := mulNarrow_total (E := E) (FR := F) (by omega) (by omega) a b
    exact ⟨r, hr, trivial, flush_of_rounded0 (mul_fin (by omega) a2 a2 a2 (by omega) a b hp hq hr)⟩

theorem num_sigValue (hF : 1 ≤ F) {x : Fp E F} {v : ℚ} (hx : x.datum = .num v) : SigValue F v := num_sig hF hx

theorem splitAt_halves {s : ℕ} {e : ℤ} {v vh : ℚ} (h1s : 1 ≤ s) (hsF : s ≤ F) (hn : NormAt F e v) (hs : SplitAt F e s v vh) : Halves F s v vh (v - vh) := by
  obtain ⟨⟨m, hm⟩, -, -⟩ := split_low (g := e) le_rfl hsF hn hs
  obtain ⟨n, n1, n2, n3⟩ := hs
  have hu := two_zpow_pos e
  refine ⟨by ring, e, ?_, ?_, ⟨n, n1, n2⟩, m, hm, ?_⟩
  · rw [zpow_add₀ (by norm_num), zpow_natCast, mul_comm]
    exact (normAt_bounds hn).1
  · have := (normAt_bounds hn).2
    rw [add_assoc, zpow_add₀ (by norm_num), mul_comm]
    have e2 : (2 : ℚ) ^ ((F : ℤ) + 1) = 2 ^ (F + 1) := by rw [← zpow_natCast]; push_cast; rfl
    rw [e2]; linarith
  · rw [hm, abs_mul, abs_of_pos hu, zpow_add₀ (by norm_num), zpow_natCast] at n3
    have h4 : (2 : ℚ) ^ s = 2 * 2 ^ (s - 1) := by rw [← pow_succ']; congr 1; omega
    rw [h4] at n3
    have h5 : |(m : ℚ)| ≤ 2 ^ (s - 1) := by
      by_contra hc
      push Not at hc
      have := mul_lt_mul_of_pos_right hc hu
      linarith
    exact_mod_cast h5

/-- **C105, splitting.** With `c = 2^s + 1`, every number `x` whose bits are all above the least number, and that is well below the greatest one, is split
into two halves with sum `x`. -/
theorem C105_split (hA : AdderFormat E F) {s : ℕ} (h1s : 1 ≤ s) (hsF : s ≤ F) (c x : Fp E F) (v : ℚ) (hc : c.datum = .num (2 ^ s + 1)) (hx : x.datum = .num v)
    (hlo : (2 : ℚ) ^ ((F : ℤ) - bias E) ≤ |v|) (hhi : 2 ^ (s + 1) * |v| < 2 ^ ((2 : ℤ) ^ E - bias E)) :
    ∃ h l vh vl, split AddDual.addSame (mulV1 E F) (negV1 E F) c x = some (h, l) ∧ h.datum.fin = some vh ∧ l.datum.fin = some vl ∧ Halves F s v vh vl := by
  obtain ⟨a1, a2, -, -⟩ := id hA
  obtain ⟨e, he, hn⟩ := sigValue_normAt (g := -bias E) (num_sigValue a2 hx) (by rwa [← sub_eq_add_neg])
  obtain ⟨h, l, vh, p, -, -, fh, fl, hs⟩ := (flopoco_arith hA).split (flopoco_sum E F) he h1s hsF trivial trivial
    (show c.datum.fin = some (2 ^ s + 1) by rw [hc]; rfl) (show x.datum.fin = some v by rw [hx]; rfl) hn hhi
  exact ⟨h, l, vh, v - vh, p, fh, fl, splitAt_halves h1s hsF hn hs⟩

/-- **C105, the product.** `s` is half the number of significant bits, rounded up (`F + 1 ≤ 2s ≤ F + 2`). If the operands and their product stay away from
both ends of the range, the program ends with the rounded product `r` and a number `t` such that `r + t` is exactly the product. -/
theorem C105_two_product (hA : AdderFormat E F) {s : ℕ} (h1 : F + 1 ≤ 2 * s) (h2 : 2 * s ≤ F + 2) (h3 : s + 2 ≤ F) (c x y : Fp E F) (v w : ℚ)
    (hc : c.datum = .num (2 ^ s + 1)) (hx : x.datum = .num v) (hy : y.datum = .num w) (bv : (2 : ℚ) ^ ((F : ℤ) - bias E) ≤ |v|)
    (bw : (2 : ℚ) ^ ((F : ℤ) - bias E) ≤ |w|) (bvw : (2 : ℚ) ^ (2 * (F : ℤ) + 1 - bias E) ≤ |v * w|)
    (tv : 2 ^ (s + 1) * |v| < 2 ^ ((2 : ℤ) ^ E - bias E)) (tw : 2 ^ (s + 1) * |w| < 2 ^ ((2 : ℤ) ^ E - bias E))
    (tvw : 2 * |v * w| < 2 ^ ((2 : ℤ) ^ E - bias E)) :
    ∃ r t vr, twoProduct AddDual.addSame (mulV1 E F) (negV1 E F) c x y = some (r, t) ∧ mulV1 E F x y = some r ∧ r.datum.fin = some vr ∧
      t.datum.fin = some (v * w - vr) := by
  obtain ⟨a1, a2, -, -⟩ := id hA
  exact (flopoco_arith hA).twoProduct (flopoco_sum E F) h1 h2 h3 trivial trivial trivial (show c.datum.fin = some (2 ^ s + 1) by rw [hc]; rfl)
    (show x.datum.fin = some v by rw [hx]; rfl) (show y.datum.fin = some w by rw [hy]; rfl) (num_sigValue a2 hx) (num_sigValue a2 hy)
    (by rwa [← sub_eq_add_neg]) (by rwa [← sub_eq_add_neg]) (by rwa [← sub_eq_add_neg]) tv tw tvw

/-! ## The IEEE types -/

/-- The word with the other sign. -/
def ieeeFlip (x : Ieee E F) : Ieee E F := Ieee.mk3 E F (1 - x.sign) x.exp x.frac

theorem ieeeFlip_fin (hE : 2 ≤ E) (hF : 1 ≤ F) {x : Ieee E F} {p : ℚ} (hx : (ieeeRange E x.datum).fin = some p) :
    (ieeeRange E (ieeeFlip x).datum).fin = some (-p) := by
  have hs := x.sign_lt
  have hd : (ieeeFlip x).datum = x.datum.neg := by
    unfold ieeeFlip
    rw [Ieee.mk3_datum (by omega) hF (by omega) (x.exp_lt (by omega)) (x.frac_lt hF)]
    unfold Ieee.datum ieeeDenote
    have h1 : x.sign = 0 ∨ x.sign = 1 := by omega
    rcases h1 with h | h <;> rw [h] <;> split_ifs <;> simp_all [Datum.neg]
  rw [hd]
  revert hx
  cases x.datum with
  | nan => intro h; cases h
  | inf s => intro h; cases h
  | zero s => intro h; injection h with h; subst h; simp [Datum.neg, ieeeRange, Datum.fin]
  | num q =>
    simp only [Datum.neg, ieeeRange, abs_neg]
    split_ifs <;> simp [Datum.fin, eq_comm]

theorem ieee_arith (hA : AdderFormat E F) :
    Arith (fun _ : Ieee E F => True) (fun a => ieeeRange E a.datum) IeeeOps.add IeeeOps.mul ieeeFlip (FlushRounded F (ieeeMin E) (ieeeLimit E)) := by
  obtain ⟨a1, a2, -, -⟩ := id hA
  refine ⟨fun _ _ hp hq => ?_, fun {a b} {p q} _ _ hp hq => ?_, fun _ hp => ⟨trivial, ieeeFlip_fin (by omega) a2 hp⟩⟩
  · obtain ⟨r, hr, hR, he⟩ := ieee_adder_fin hA hp hq
    exact ⟨r, hr, trivial, by rw [he]; exact hR⟩
  · obtain ⟨r, hr⟩ := mulNarrow_total (E := E) (FR := F) (by omega) (by omega) (ieeeToFlopoco a) (ieeeToFlopoco b)
    refine ⟨flopocoToIeee r, ?_, trivial, ?_⟩
    · unfold IeeeOps.mul
      rw [hr]; rfl
    · have := mul_fin (by omega) a2 a2 a2 (by omega) _ _ (ieee_fin_conv (by omega) a2 hp) (ieee_fin_conv (by omega) a2 hq) hr
      rw [ieee_result (by omega) a2, flopocoToIeee_datum (by omega) a2]
      exact ieee_of_rounded0 (by omega) this

theorem ieee_sigValue (hE : 2 ≤ E) (hF : 1 ≤ F) {a : Ieee E F} {p : ℚ} (ha : (ieeeRange E a.datum).fin = some p) (h0 : 0 < |p|) : SigValue F p :=
  ((ieee_value hE hF ha).resolve_left (abs_pos.mp h0)).1

/-- **C105, splitting, IEEE types.** -/
theorem C105_ieee_split (hA : AdderFormat E F) {s : ℕ} (h1s : 1 ≤ s) (hsF : s ≤ F) (c x : Ieee E F) (v : ℚ) (hc : ieeeRange E c.datum = .num (2 ^ s + 1))
    (hx : ieeeRange E x.datum = .num v) (hlo : (2 : ℚ) ^ ((F : ℤ) + 1 - bias E) ≤ |v|) (hhi : 2 ^ (s + 1) * |v| < ieeeLimit E) :
    ∃ h l vh vl, split IeeeOps.add IeeeOps.mul ieeeFlip c x = some (h, l) ∧ (ieeeRange E h.datum).fin = some vh ∧ (ieeeRange E l.datum).fin = some vl ∧
      Halves F s v vh vl := by
  obtain ⟨a1, a2, -, -⟩ := id hA
  have fx : (ieeeRange E x.datum).fin = some v := by rw [hx]; rfl
  have e1 : (F : ℤ) + 1 - bias E = F + (1 - bias E) := by ring
  rw [e1] at hlo
  obtain ⟨e, he, hn⟩ := sigValue_normAt (ieee_sigValue (by omega) a2 fx ((two_zpow_pos _).trans_le hlo)) hlo
  obtain ⟨h, l, vh, p, -, -, fh, fl, hs⟩ := (ieee_arith hA).split (ieee_sum E F) he h1s hsF trivial trivial
    (show (ieeeRange E c.datum).fin = some (2 ^ s + 1) by rw [hc]; rfl) fx hn hhi
  exact ⟨h, l, vh, v - vh, p, fh, fl, splitAt_halves h1s hsF hn hs⟩

/-- **C105, the product, IEEE types.** -/
theorem C105_ieee_two_product (hA : AdderFormat E F) {s : ℕ} (h1 : F + 1 ≤ 2 * s) (h2 : 2 * s ≤ F + 2) (h3 : s + 2 ≤ F) (c x y : Ieee E F) (v w : ℚ)
    (hc : ieeeRange E c.datum = .num (2 ^ s + 1)) (hx : ieeeRange E x.datum = .num v) (hy : ieeeRange E y.datum = .num w)
    (bv : (2 : ℚ) ^ ((F : ℤ) + 1 - bias E) ≤ |v|) (bw : (2 : ℚ) ^ ((F : ℤ) + 1 - bias E) ≤ |w|) (bvw : (2 : ℚ) ^ (2 * (F : ℤ) + 2 - bias E) ≤ |v * w|)
    (tv : 2 ^ (s + 1) * |v| < ieeeLimit E) (tw : 2 ^ (s + 1) * |w| < ieeeLimit E) (tvw : 2 * |v * w| < ieeeLimit E) :
    ∃ r t vr, twoProduct IeeeOps.add IeeeOps.mul ieeeFlip c x y = some (r, t) ∧ IeeeOps.mul x y = some r ∧ (ieeeRange E r.datum).fin = some vr ∧
      (ieeeRange E t.datum).fin = some (v * w - vr) := by
  obtain ⟨a1, a2, -, -⟩ := id hA
  have fx : (ieeeRange E x.datum).fin = some v := by rw [hx]; rfl
  have fy : (ieeeRange E y.datum).fin = some w := by rw [hy]; rfl
  have e1 : (F : ℤ) + 1 - bias E = F + (1 - bias E) := by ring
  have e2 : 2 * (F : ℤ) + 2 - bias E = 2 * F + 1 + (1 - bias E) := by ring
  rw [e1] at bv bw
  rw [e2] at bvw
  exact (ieee_arith hA).twoProduct (ieee_sum E F) h1 h2 h3 trivial trivial trivial (show (ieeeRange E c.datum).fin = some (2 ^ s + 1) by rw [hc]; rfl) fx fy
    (ieee_sigValue (by omega) a2 fx ((two_zpow_pos _).trans_le bv)) (ieee_sigValue (by omega) a2 fy ((two_zpow_pos _).trans_le bw)) bv bw bvw tv tw tvw

/-! ## The host float types -/

theorem soft_product_fin {f : SoftFmt} (ok : f.Ok) {a b : ℕ} {v w : ℚ} {d : Datum} (ha : a < 2 ^ f.W) (hb : b < 2 ^ f.W)
    (hv : (wordDatum f.E f.F a).fin = some v) (hw : (wordDatum f.E f.F b).fin = some w)
    (h : IeeeProduct f.E f.F (wordDatum f.E f.F a) (wordDatum f.E f.F b) d) : RoundedG0 f.E f.F (v * w) d := by
  unfold RoundedG0
  rcases SoftFmt.fin_cases hv with ⟨t, e1, rfl⟩ | e1 <;> rcases SoftFmt.fin_cases hw with ⟨t', e2, rfl⟩ | e2 <;> rw [e1, e2] at h
  · rw [if_pos (by ring)]; exact ⟨_, (Option.some.inj h).symm⟩
  · rw [if_pos (by ring)]; exact ⟨_, (Option.some.inj h).symm⟩
  · rw [if_pos (by ring)]; exact ⟨_, (Option.some.inj h).symm⟩
  · rw [if_neg (mul_ne_zero (SoftFmt.num_word_ne ok ha e1) (SoftFmt.num_word_ne ok hb e2))]
    exact h

theorem mul_add_div_right {n : ℕ} (hn : 0 < n) (b a : ℕ) : (b * n + a) / n = b + a / n := by
  rw [mul_comm, Nat.mul_add_div hn]

theorem flipWord_fin {E F w : ℕ} {p : ℚ} (hw : w < 2 ^ (1 + E + F)) (h : (wordDatum E F w).fin = some p) :
    flipWord (1 + E + F) w < 2 ^ (1 + E + F) ∧ (wordDatum E F (flipWord (1 + E + F) w)).fin = some (-p) := by
  have hW : (2 : ℕ) ^ (1 + E + F) = 2 * 2 ^ (E + F) := by rw [add_assoc, pow_add, pow_one]
  have hEF : (2 : ℕ) ^ (E + F) = 2 ^ E * 2 ^ F := pow_add _ _ _
  have hFp : 0 < 2 ^ F := by positivity
  refine ⟨Nat.mod_lt _ (by positivity), ?_⟩
  have hpred : 1 + E + F - 1 = E + F := by omega
  have hflip : ∃ sg, sg < 2 ∧ w / 2 ^ (E + F) = sg ∧ flipWord (1 + E + F) w / 2 ^ (E + F) = 1 - sg ∧
      flipWord (1 + E + F) w / 2 ^ F % 2 ^ E = w / 2 ^ F % 2 ^ E ∧ flipWord (1 + E + F) w % 2 ^ F = w % 2 ^ F := by
    unfold flipWord
    rw [hpred, hW]
    rw [hW] at hw
    have key : ∀ a b : ℕ, a < 2 ^ (E + F) → (b * 2 ^ (E + F) + a) / 2 ^ F % 2 ^ E = a / 2 ^ F % 2 ^ E ∧ (b * 2 ^ (E + F) + a) % 2 ^ F = a % 2 ^ F := by
      intro a b ha
      rw [hEF, ← mul_assoc]
      constructor
      · rw [mul_add_div_right hFp, Nat.mul_add_mod']
      · rw [Nat.mul_add_mod']
    rcases lt_or_ge w (2 ^ (E + F)) with h1 | h1
    · refine ⟨0, by norm_num, Nat.div_eq_of_lt h1, ?_⟩
      rw [Nat.mod_eq_of_lt (by omega)]
      have e : w + 2 ^ (E + F) = 1 * 2 ^ (E + F) + w := by ring
      refine ⟨?_, ?_⟩
      · rw [e, mul_add_div_right (by positivity), Nat.div_eq_of_lt h1]
      · rw [e]; exact key w 1 h1
    · obtain ⟨a, rfl⟩ : ∃ a, w = 1 * 2 ^ (E + F) + a := ⟨w - 2 ^ (E + F), by omega⟩
      have ha : a < 2 ^ (E + F) := by omega
      have e : (1 * 2 ^ (E + F) + a + 2 ^ (E + F)) % (2 * 2 ^ (E + F)) = a := by
        have : 1 * 2 ^ (E + F) + a + 2 ^ (E + F) = a + 2 * 2 ^ (E + F) := by ring
        rw [this, Nat.add_mod_right, Nat.mod_eq_of_lt (by omega)]
      rw [e]
      obtain ⟨k1, k2⟩ := key a 1 ha
      exact ⟨1, by norm_num, by rw [mul_add_div_right (by positivity), Nat.div_eq_of_lt ha], by rw [Nat.div_eq_of_lt ha], k1.symm, k2.symm⟩
  obtain ⟨sg, h1, h2, h3, h4, h5⟩ := hflip
  unfold wordDatum at h ⊢
  rw [h3, h4, h5]
  rw [h2] at h
  have hsg : sg = 0 ∨ sg = 1 := by omega
  revert h
  unfold ieeeDenote
  rcases hsg with rfl | rfl <;> split_ifs <;> simp_all [Datum.fin] <;> rintro rfl <;> ring

theorem soft_arith {f : SoftFmt} (ok : f.Ok) {prod : ℕ → ℕ → Option ℕ} (hp : SoftFmt.ProdOk f prod) :
    Arith (fun w => w < 2 ^ f.W) (wordDatum f.E f.F) f.add (f.mulWith prod) (flipWord f.W) (RoundedG0 f.E f.F) := by
  refine ⟨fun ha hb hp hq => ?_, fun ha hb hu hv => ?_, fun ha hp => flipWord_fin ha hp⟩
  · obtain ⟨r, r1, r2, r3⟩ := SoftFmt.add_ieee ok ha hb
    exact ⟨r, r1, r2, SoftFmt.sum_fin ok ha hb hp hq r3⟩
  · obtain ⟨r, r1, r2, r3⟩ := SoftFmt.mul_ieee ok hp ha hb
    exact ⟨r, r1, r2, soft_product_fin ok ha hb hu hv r3⟩

theorem soft_split {f : SoftFmt} (ok : f.Ok) {prod : ℕ → ℕ → Option ℕ} (hp : SoftFmt.ProdOk f prod) {s c x : ℕ} {v : ℚ} (h1s : 1 ≤ s) (hsF : s ≤ f.F)
    (lc : c < 2 ^ f.W) (lx : x < 2 ^ f.W) (hc : wordDatum f.E f.F c = .num (2 ^ s + 1)) (hx : wordDatum f.E f.F x = .num v)
    (hlo : (2 : ℚ) ^ (1 - bias f.E) ≤ |v|) (hhi : 2 ^ (s + 1) * |v| < ieeeLimit f.E) :
    ∃ h l vh vl, split f.add (f.mulWith prod) (flipWord f.W) c x = some (h, l) ∧ (wordDatum f.E f.F h).fin = some vh ∧ (wordDatum f.E f.F l).fin = some vl ∧
      Halves f.F s v vh vl := by
  have fx : (wordDatum f.E f.F x).fin = some v := by rw [hx]; rfl
  have e1 : (1 : ℤ) - bias f.E = f.F + leastExp f.E f.F := by unfold leastExp; ring
  rw [e1] at hlo
  obtain ⟨e, he, hn⟩ := sigValue_normAt (onGrid_sig (gradValue_onGrid (soft_value ok lx fx)) (SoftFmt.num_word_ne ok lx hx)) hlo
  obtain ⟨h, l, vh, p, -, -, fh, fl, hs⟩ := (soft_arith ok hp).split gradual_sum he h1s hsF lc lx
    (show (wordDatum f.E f.F c).fin = some (2 ^ s + 1) by rw [hc]; rfl) fx hn hhi
  exact ⟨h, l, vh, v - vh, p, fh, fl, splitAt_halves h1s hsF hn hs⟩

/-- **C105, splitting, `float32_t`.** Every normal number below `2^115`. -/
theorem C105_soft_split32 {fast x : ℕ} {v : ℚ} (hfast : 32 ≤ fast) (lx : x < 2 ^ 32) (hx : wordDatum 8 23 x = .num v) (hlo : (2 : ℚ) ^ (1 - bias 8) ≤ |v|)
    (hhi : 2 ^ 13 * |v| < ieeeLimit 8) :
    ∃ h l vh vl, split (f32Add fast) (f32Mul fast) (flipWord 32) 0x45800800 x = some (h, l) ∧ (wordDatum 8 23 h).fin = some vh ∧
      (wordDatum 8 23 l).fin = some vl ∧ Halves 23 12 v vh vl := by
  have hc : wordDatum 8 23 0x45800800 = .num (2 ^ 12 + 1) := by
    norm_num [wordDatum, ieeeDenote, bias]
  exact soft_split (f := soft32 fast) (s := 12) (soft32_ok hfast) (prodOk32 fast) (by norm_num) (by simp [soft32]) (by norm_num [soft32, SoftFmt.W]) lx hc hx hlo hhi

/-- **C105, splitting, `float64_t`.** Every normal number below `2^996`. -/
theorem C105_soft_split64 {fast x : ℕ} {v : ℚ} (hfast : 64 ≤ fast) (lx : x < 2 ^ 64) (hx : wordDatum 11 52 x = .num v) (hlo : (2 : ℚ) ^ (1 - bias 11) ≤ |v|)
    (hhi : 2 ^ 28 * |v| < ieeeLimit 11) :
    ∃ h l vh vl, split (f64Add fast) (f64Mul fast) (flipWord 64) 0x41A0000002000000 x = some (h, l) ∧ (wordDatum 11 52 h).fin = some vh ∧
      (wordDatum 11 52 l).fin = some vl ∧ Halves 52 27 v vh vl := by
  have hc : wordDatum 11 52 0x41A0000002000000 = .num (2 ^ 27 + 1) := by
    norm_num [wordDatum, ieeeDenote, bias]
  exact soft_split (f := soft64 fast) (s := 27) (soft64_ok hfast) (prodOk64 fast) (by norm_num) (by simp [soft64]) (by norm_num [soft64, SoftFmt.W]) lx hc hx hlo hhi

theorem soft_two_product {f : SoftFmt} (ok : f.Ok) {prod : ℕ → ℕ → Option ℕ} (hp : SoftFmt.ProdOk f prod) {s c x y : ℕ} {v w : ℚ} (h1 : f.F + 1 ≤ 2 * s)
    (h2 : 2 * s ≤ f.F + 2) (h3 : s + 2 ≤ f.F) (lc : c < 2 ^ f.W) (lx : x < 2 ^ f.W) (ly : y < 2 ^ f.W) (hc : wordDatum f.E f.F c = .num (2 ^ s + 1))
    (hx : wordDatum f.E f.F x = .num v) (hy : wordDatum f.E f.F y = .num w) (bv : (2 : ℚ) ^ (1 - bias f.E) ≤ |v|) (bw : (2 : ℚ) ^ (1 - bias f.E) ≤ |w|)
    (bvw : (2 : ℚ) ^ ((f.F : ℤ) + 2 - bias f.E) ≤ |v * w|) (tv : 2 ^ (s + 1) * |v| < ieeeLimit f.E) (tw : 2 ^ (s + 1) * |w| < ieeeLimit f.E)
    (tvw : 2 * |v * w| < ieeeLimit f.E) :
    ∃ r t vr, twoProduct f.add (f.mulWith prod) (flipWord f.W) c x y = some (r, t) ∧ f.mulWith prod x y = some r ∧ (wordDatum f.E f.F r).fin = some vr ∧
      (wordDatum f.E f.F t).fin = some (v * w - vr) := by
  have fx : (wordDatum f.E f.F x).fin = some v := by rw [hx]; rfl
  have fy : (wordDatum f.E f.F y).fin = some w := by rw [hy]; rfl
  have e1 : (1 : ℤ) - bias f.E = f.F + leastExp f.E f.F := by unfold leastExp; ring
  have e2 : (f.F : ℤ) + 2 - bias f.E = 2 * f.F + 1 + leastExp f.E f.F := by unfold leastExp; ring
  rw [e1] at bv bw
  rw [e2] at bvw
  exact (soft_arith ok hp).twoProduct gradual_sum h1 h2 h3 lc lx ly (show (wordDatum f.E f.F c).fin = some (2 ^ s + 1) by rw [hc]; rfl) fx fy
    (onGrid_sig (gradValue_onGrid (soft_value ok lx fx)) (SoftFmt.num_word_ne ok lx hx))
    (onGrid_sig (gradValue_onGrid (soft_value ok ly fy)) (SoftFmt.num_word_ne ok ly hy)) bv bw bvw tv tw tvw

/-- **C105, `float32_t`.** `0x45800800` is `2^12 + 1`. The operands are normal, the product is at least `2^(F+2-bias)`, and all stay away from the
overflow threshold. -/
theorem C105_soft_two_product32 {fast x y : ℕ} {v w : ℚ} (hfast : 32 ≤ fast) (lx : x < 2 ^ 32) (ly : y < 2 ^ 32) (hx : wordDatum 8 23 x = .num v)
    (hy : wordDatum 8 23 y = .num w) (bv : (2 : ℚ) ^ (1 - bias 8) ≤ |v|) (bw : (2 : ℚ) ^ (1 - bias 8) ≤ |w|)
    (bvw : (2 : ℚ) ^ (((23 : ℕ) : ℤ) + 2 - bias 8) ≤ |v * w|) (tv : 2 ^ 13 * |v| < ieeeLimit 8) (tw : 2 ^ 13 * |w| < ieeeLimit 8)
    (tvw : 2 * |v * w| < ieeeLimit 8) :
    ∃ r t vr, twoProduct (f32Add fast) (f32Mul fast) (flipWord 32) 0x45800800 x y = some (r, t) ∧ f32Mul fast x y = some r ∧
      (wordDatum 8 23 r).fin = some vr ∧ (wordDatum 8 23 t).fin = some (v * w - vr) := by
  have hc : wordDatum 8 23 0x45800800 = .num (2 ^ 12 + 1) := by
    norm_num [wordDatum, ieeeDenote, bias]
  exact soft_two_product (f := soft32 fast) (s := 12) (soft32_ok hfast) (prodOk32 fast) (by simp [soft32]) (by simp [soft32]) (by simp [soft32])
    (by norm_num [soft32, SoftFmt.W]) lx ly hc hx hy bv bw bvw tv tw tvw

/-- **C105, `float64_t`.** `0x41A0000002000000` is `2^27 + 1`. -/
theorem C105_soft_two_product64 {fast x y : ℕ} {v w : ℚ} (hfast : 64 ≤ fast) (lx : x < 2 ^ 64) (ly : y < 2 ^ 64) (hx : wordDatum 11 52 x = .num v)
    (hy : wordDatum 11 52 y = .num w) (bv : (2 : ℚ) ^ (1 - bias 11) ≤ |v|) (bw : (2 : ℚ) ^ (1 - bias 11) ≤ |w|)
    (bvw : (2 : ℚ) ^ (((52 : ℕ) : ℤ) + 2 - bias 11) ≤ |v * w|) (tv : 2 ^ 28 * |v| < ieeeLimit 11) (tw : 2 ^ 28 * |w| < ieeeLimit 11)
    (tvw : 2 * |v * w| < ieeeLimit 11) :
    ∃ r t vr, twoProduct (f64Add fast) (f64Mul fast) (flipWord 64) 0x41A0000002000000 x y = some (r, t) ∧ f64Mul fast x y = some r ∧
      (wordDatum 11 52 r).fin = some vr ∧ (wordDatum 11 52 t).fin = some (v * w - vr) := by
  have hc : wordDatum 11 52 0x41A0000002000000 = .num (2 ^ 27 + 1) := by
    norm_num [wordDatum, ieeeDenote, bias]
  exact soft_two_product (f := soft64 fast) (s := 27) (soft64_ok hfast) (prodOk64 fast) (by simp [soft64]) (by simp [soft64]) (by simp [soft64])
    (by norm_num [soft64, SoftFmt.W]) lx ly hc hx hy bv bw bvw tv tw tvw

/-- **C105, too large.** Without the upper bounds the split overflows: `2^127` in `float32_t` gives NaN, although the number itself is finite. -/
theorem C105_soft_split_overflow : ∃ h l, split (f32Add 32) (f32Mul 32) (flipWord 32) 0x45800800 0x7F000000 = some (h, l) ∧
    wordDatum 8 23 0x7F000000 = .num (2 ^ 127) ∧ wordDatum 8 23 h = .nan ∧ wordDatum 8 23 l = .nan :=
  ⟨0xFFC00000, 0x7FC00000, by decide +kernel, by norm_num [wordDatum, ieeeDenote, bias], by norm_num [wordDatum, ieeeDenote],
    by norm_num [wordDatum, ieeeDenote]⟩

/-- **C105, too small.** Without the lower bound on the product its error need not be a number of the format: the square of
`(1 + 2^-23) * 2^-63` is rounded to `(1 + 2^-22) * 2^-126`, the error `2^-172` is lost. -/
theorem C105_soft_two_product_underflow : twoProduct (f32Add 32) (f32Mul 32) (flipWord 32) 0x45800800 0x20000001 0x20000001 = some (0x00800002, 0) ∧
    wordDatum 8 23 0x20000001 = .num ((1 + 1 / 2 ^ 23) / 2 ^ 63) ∧ wordDatum 8 23 0x00800002 = .num ((1 + 1 / 2 ^ 22) / 2 ^ 126) :=
  ⟨by decide +kernel, by norm_num [wordDatum, ieeeDenote, bias], by norm_num [wordDatum, ieeeDenote, bias]⟩

/-- The square of the number next to `0.1` in `float32_t`: the rounded square is `0x3C23D70B`, the error `0xAFE147AE`. The hypotheses hold. -/
example : twoProduct (f32Add 32) (f32Mul 32) (flipWord 32) 0x45800800 0x3DCCCCCD 0x3DCCCCCD = some (0x3C23D70B, 0xAFE147AE) := by decide +kernel
example : ∃ v, wordDatum 8 23 0x3DCCCCCD = .num v ∧ (2 : ℚ) ^ (1 - bias 8) ≤ |v| ∧ (2 : ℚ) ^ (((23 : ℕ) : ℤ) + 2 - bias 8) ≤ |v * v| ∧
    2 ^ 13 * |v| < ieeeLimit 8 ∧ 2 * |v * v| < ieeeLimit 8 :=
  ⟨13421773 / 2 ^ 27, by norm_num [wordDatum, ieeeDenote, bias], by norm_num [bias], by norm_num [bias], by norm_num [bias, ieeeLimit],
    by norm_num [bias, ieeeLimit]⟩

/-- The same in `fp_flopoco<8,23>`; `c = 2^12 + 1`. -/
example : (twoProduct AddDual.addSame (mulV1 8 23) (negV1 8 23) (Fp.mk4 8 23 1 0 139 2048) (Fp.mk4 8 23 1 0 123 0x4CCCCD) (Fp.mk4 8 23 1 0 123 0x4CCCCD)) =
    some (Fp.mk4 8 23 1 0 120 0x23D70B, Fp.mk4 8 23 1 1 95 0x6147AE) := by decide +kernel
example : (Fp.mk4 8 23 1 0 139 2048).datum = .num (2 ^ 12 + 1) ∧ (Fp.mk4 8 23 1 0 123 0x4CCCCD).datum = .num (13421773 / 2 ^ 27) := by
  rw [mk4_num (by norm_num) (by norm_num) (by norm_num) (by norm_num), mk4_num (by norm_num) (by norm_num) (by norm_num) (by norm_num)]
  norm_num [bias]

end Thls
