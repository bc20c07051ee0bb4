import Verif.Proofs.ExactOps
import Verif.Props.Narrow
import Verif.Props.AddMore
import Verif.Props.SoftAgree

/-! # Property C97: exact differences, and the error of a sum or product as a number of the format

`AdderFormat E F` are the formats in which the adder is right (C14, C19). A difference is `add(x, neg(y))`. -/

namespace Thls
open Spec

variable {E F : ℕ}

/-- Sums of zeros and numbers. -/
theorem adder_fin (hA : AdderFormat E F) {x y : Fp E F} {p q : ℚ} (hx : x.datum.fin = some p) (hy : y.datum.fin = some q) :
    ∃ r, AddDual.addSame x y = some r ∧ Rounded0 E F (p + q) r.datum := by
  obtain ⟨h1, h2, h3, h4⟩ := id hA
  have hs : ∃ r, AddDual.addSame x y = some r := by
    cases hd : addSpecial x.datum y.datum with
    | some d =>
      obtain ⟨r, hr, -⟩ := AddDual.addSame_special (by omega) h2 h3 hd
      exact ⟨r, hr⟩
    | none =>
      obtain ⟨vx, vy, hvx, hvy⟩ := (C17_addSpecial_domain _ _).mp hd
      obtain ⟨r, hr, -⟩ := adder_num hA hvx hvy
      exact ⟨r, hr⟩
  obtain ⟨r, hr⟩ := hs
  exact ⟨r, hr, add_fin_returned (by omega) h2 h4 x y hx hy hr⟩

theorem neg_fin (hE : 1 ≤ E) (hF : 1 ≤ F) {x : Fp E F} {p : ℚ} (hx : x.datum.fin = some p) : (negV1 E F x).datum.fin = some (-p) := by
  rw [C27_neg_datum hE hF]
  revert hx
  cases x.datum <;> simp [Datum.fin, Datum.neg, eq_comm]

/-- A number is below the overflow threshold. -/
theorem num_lt_top (hE : 1 ≤ E) (hF : 1 ≤ F) {x : Fp E F} {v : ℚ} (hx : x.datum = .num v) : |v| < 2 ^ ((2 : ℤ) ^ E - bias E) := by
  have h1 := (num_exp_bounds hF hx).2
  have h2 : ((x.exp : ℕ) : ℤ) < 2 ^ E := by exact_mod_cast x.exp_lt hE
  exact h1.trans_le (zpow_le_zpow_right₀ (by norm_num) (by omega))

/-- Every number is at least the smallest one. -/
theorem num_ge_min (hF : 1 ≤ F) {x : Fp E F} {v : ℚ} (hx : x.datum = .num v) : (2 : ℚ) ^ (-bias E) ≤ |v| :=
  (zpow_le_zpow_right₀ (by norm_num) (by omega)).trans (num_exp_bounds hF hx).1

/-! ## Exact differences -/

/-- **C97, nearby numbers.** If two numbers have the same sign and neither is more than twice the other, their difference is exact: the result is zero if they are
equal, the exact difference if that is at least the smallest positive number of the format, and otherwise a zero with the sign of the difference. -/
theorem C97_difference_exact (hA : AdderFormat E F) (x y : Fp E F) (vx vy : ℚ) (hx : x.datum = .num vx) (hy : y.datum = .num vy)
    (hs : 0 < vx * vy) (h1 : |vx| ≤ 2 * |vy|) (h2 : |vy| ≤ 2 * |vx|) :
    ∃ r, AddDual.addSame x (negV1 E F y) = some r ∧
      r.datum = if vx = vy then .zero false else if |vx - vy| < 2 ^ (-bias E) then .zero (decide (vx < vy)) else .num (vx - vy) := by
  obtain ⟨hE, hF, -, -⟩ := id hA
  obtain ⟨r, hr, r0, r1⟩ := adder_num hA hx (y := negV1 E F y) (vy := -vy) (by rw [C27_neg_datum (by omega) hF, hy]; rfl)
  refine ⟨r, hr, ?_⟩
  rw [← sub_eq_add_neg] at r0 r1
  by_cases he : vx = vy
  · rw [if_pos he]; exact r0 (by rw [he]; ring)
  rw [if_neg he]
  have hq : vx - vy ≠ 0 := sub_ne_zero.mpr he
  obtain ⟨mx, kx, hmx, hax⟩ := num_sig hF hx
  obtain ⟨my, ky, hmy, hay⟩ := num_sig hF hy
  have hb : |vx - vy| ≤ |vx| ∧ |vx - vy| ≤ |vy| := by
    rcases lt_or_gt_of_ne (num_ne_zero hx) with c | c
    · have c' : vy < 0 := by by_contra hc; nlinarith
      rw [abs_of_neg c, abs_of_neg c'] at *
      constructor <;> rw [abs_le] <;> constructor <;> linarith
    · have c' : 0 < vy := by by_contra hc; nlinarith
      rw [abs_of_pos c, abs_of_pos c'] at *
      constructor <;> rw [abs_le] <;> constructor <;> linarith
  have hf := sub_fits (F := F) hax hay hmx.2 hmy.2 hb.1 hb.2
  rw [rounded_fits hf hq (r1 hq)]
  have hneg : decide (vx - vy < 0) = decide (vx < vy) := by simp
  rw [hneg, if_pos (lt_of_le_of_lt hb.1 (num_lt_top (by omega) hF hx))]

/-- **C97, when a difference is zero.** The difference of two numbers is a zero exactly if the exact difference is below the smallest positive number. -/
theorem C97_difference_zero_iff (hA : AdderFormat E F) (x y : Fp E F) (vx vy : ℚ) (hx : x.datum = .num vx) (hy : y.datum = .num vy) :
    ∃ r, AddDual.addSame x (negV1 E F y) = some r ∧ ((∃ s, r.datum = .zero s) ↔ |vx - vy| < 2 ^ (-bias E)) := by
  obtain ⟨hE, hF, -, -⟩ := id hA
  obtain ⟨r, hr, r0, r1⟩ := adder_num hA hx (y := negV1 E F y) (vy := -vy) (by rw [C27_neg_datum (by omega) hF, hy]; rfl)
  refine ⟨r, hr, ?_⟩
  rw [← sub_eq_add_neg] at r0 r1
  by_cases hq : vx - vy = 0
  · rw [r0 hq, hq, abs_zero]
    exact ⟨fun _ => two_zpow_pos _, fun _ => ⟨_, rfl⟩⟩
  obtain ⟨mx, kx, hmx, hax⟩ := num_sig hF hx
  obtain ⟨my, ky, hmy, hay⟩ := num_sig hF hy
  have hlast : ∀ {x : Fp E F} {v : ℚ}, x.datum = .num v → ∃ n : ℤ, v = n * 2 ^ (-bias E - F) := by
    intro x v hx
    obtain ⟨-, rfl⟩ := datum_num_iff.mp hx
    have : (x.exp : ℤ) - bias E - F = (-bias E - F) + (x.exp : ℤ) := by ring
    refine ⟨(if x.sign = 1 then -1 else 1) * ((2 ^ F + x.frac : ℕ) * 2 ^ x.exp), ?_⟩
    rw [this, zpow_add₀ (by norm_num), zpow_natCast]
    split_ifs <;> push_cast <;> ring
  obtain ⟨a, ha⟩ := hlast hx
  obtain ⟨b, hb⟩ := hlast hy
  constructor
  · rintro ⟨s, hs⟩
    obtain ⟨m, e, hn, hd⟩ := r1 hq
    rw [hs] at hd
    by_contra hc
    have hs2 : IsSig (F + 1) (2 ^ F) := ⟨by simp, Nat.pow_lt_pow_right (by norm_num) (by omega)⟩
    have hv : (2 : ℚ) ^ (-bias E) = ((2 ^ F : ℕ) : ℚ) * 2 ^ (-bias E - F) := by
      rw [zpow_sub₀ (by norm_num)]; push_cast; rw [zpow_natCast]; field_simp
    have := nearest_mono (by omega) (not_lt.mp hc) (nearest_self (by omega) hs2 hv) hn
    rw [← hv, sig_ge_iff hn.1] at this
    unfold rangeCheck at hd
    rw [if_neg (by omega)] at hd
    split_ifs at hd
  · intro h
    have hf : Fits F (-bias E - F) (vx - vy) := fits_of_mult (n := a - b) (by rw [ha, hb]; push_cast; ring)
      (h.trans_le (zpow_le_zpow_right₀ (by norm_num) (by omega)))
    rw [rounded_fits hf hq (r1 hq), if_pos h]
    exact ⟨_, rfl⟩

/-- **C97, finding.** In every such format there are different numbers whose difference is returned as zero: there are no denormals. -/
theorem C97_difference_of_distinct_is_zero (hA : AdderFormat E F) : ∃ x y : Fp E F, ∃ vx vy, x.datum = .num vx ∧ y.datum = .num vy ∧ vx ≠ vy ∧
    ∃ r s, AddDual.addSame x (negV1 E F y) = some r ∧ r.datum = .zero s := by
  obtain ⟨hE, hF, -, -⟩ := id hA
  have hpN : 2 ≤ 2 ^ F := by
    calc 2 = 2 ^ 1 := by norm_num
      _ ≤ 2 ^ F := Nat.pow_le_pow_right (by norm_num) hF
  have hp : (0 : ℚ) < 2 ^ F := by positivity
  have hx := mk4_num (E := E) (F := F) (e := 0) (f := 1) (by omega) hF (by positivity) (by omega)
  have hy := mk4_num (E := E) (F := F) (e := 0) (f := 0) (by omega) hF (by positivity) (by omega)
  have hd : (1 + ((1 : ℕ) : ℚ) / 2 ^ F) * 2 ^ (((0 : ℕ) : ℤ) - bias E) - (1 + ((0 : ℕ) : ℚ) / 2 ^ F) * 2 ^ (((0 : ℕ) : ℤ) - bias E) =
      2 ^ (-bias E) / 2 ^ F := by
    push_cast; rw [zero_sub]; ring
  have hb := two_zpow_pos (-bias E)
  refine ⟨_, _, _, _, hx, hy, ?_, ?_⟩
  · intro h
    rw [h, sub_self] at hd
    have : (0 : ℚ) < 2 ^ (-bias E) / 2 ^ F := by positivity
    linarith
  · obtain ⟨r, hr, hi⟩ := C97_difference_zero_iff hA _ _ _ _ hx hy
    obtain ⟨s, hs⟩ := hi.mpr (by
      rw [hd, abs_of_pos (by positivity), div_lt_iff₀ hp]
      have h2 : (2 : ℚ) ≤ 2 ^ F := by exact_mod_cast hpN
      nlinarith)
    exact ⟨r, s, hr, hs⟩

/-! ## The error of a sum -/

/-- **C97, the error of a sum.** Let `|b| ≤ |a|` and `|b| ≥ 2^(F - bias)`, and let `s = a + b` be finite. Then `z = s - a` and `t = b - z` are exact: `s + t` is
the exact sum of `a` and `b`. -/
theorem C97_sum_error (hA : AdderFormat E F) (a b : Fp E F) (va vb : ℚ) (ha : a.datum = .num va) (hb : b.datum = .num vb)
    (hle : |vb| ≤ |va|) (hbig : (2 : ℚ) ^ ((F : ℤ) - bias E) ≤ |vb|) :
    ∃ s, AddDual.addSame a b = some s ∧ ∀ vs, s.datum.fin = some vs →
      ∃ z t, AddDual.addSame s (negV1 E F a) = some z ∧ z.datum.fin = some (vs - va) ∧
        AddDual.addSame b (negV1 E F z) = some t ∧ t.datum.fin = some (va + vb - vs) := by
  obtain ⟨hE, hF, -, -⟩ := id hA
  have hE1 : 1 ≤ E := by omega
  obtain ⟨s, hs, hsr⟩ := adder_fin hA (x := a) (y := b) (p := va) (q := vb) (by rw [ha]; rfl) (by rw [hb]; rfl)
  refine ⟨s, hs, fun vs hvs => ?_⟩
  obtain ⟨ma, ka, hma, haa⟩ := num_sig hF ha
  obtain ⟨mb, kb, hmb, hab⟩ := num_sig hF hb
  have ltop := num_lt_top hE1 hF ha
  have hkb : -bias E ≤ kb := by
    have u := sig_upper hmb kb
    rw [← hab] at u
    have := (zpow_lt_zpow_iff_right₀ (a := (2 : ℚ)) (by norm_num)).mp (lt_of_le_of_lt hbig u)
    omega
  -- what is needed about the two differences
  have key : (∃ k, kb ≤ k ∧ Fits F k (vs - va)) ∧ |vs - va| ≤ |va| ∧ Fits F kb (va + vb - vs) ∧ |va + vb - vs| ≤ |vb| := by
    by_cases hq : va + vb = 0
    · have hvs0 : vs = 0 := by
        unfold Rounded0 at hsr
        rw [if_pos hq] at hsr
        obtain ⟨σ, hσ⟩ := hsr
        rw [hσ] at hvs
        simpa [Datum.fin] using hvs.symm
      subst hvs0
      have hvb : vb = -va := by linarith
      obtain ⟨n, hn⟩ := signed_mult hab
      refine ⟨⟨kb, le_rfl, ?_⟩, by simp, ⟨0, by positivity, by rw [hq]; simp⟩, by rw [hq]; simp⟩
      rw [zero_sub, ← hvb]
      exact fits_of_mult hn (by rw [hab]; exact sig_upper hmb kb)
    · unfold Rounded0 at hsr
      rw [if_neg hq] at hsr
      obtain ⟨m, e, hn, hd⟩ := hsr
      -- no underflow: the sum is a multiple of the last bit of `b`
      have hnz : 0 ≤ e + F + bias E := by
        have hmin : (2 : ℚ) ^ (-bias E) ≤ |va + vb| := by
          obtain ⟨A, hA1⟩ := signed_mult haa
          obtain ⟨B, hB1⟩ := signed_mult hab
          have hk : kb ≤ ka := by
            have l := sig_lower hmb kb
            have u := sig_upper hma ka
            rw [← hab] at l; rw [← haa] at u
            have := (zpow_lt_zpow_iff_right₀ (a := (2 : ℚ)) (by norm_num)).mp (lt_of_le_of_lt (l.trans hle) u)
            omega
          obtain ⟨A', hA'⟩ := mult_of_le hk hA1
          have hv : va + vb = ((A' + B : ℤ) : ℚ) * 2 ^ kb := by rw [hA', hB1]; push_cast; ring
          have hne : A' + B ≠ 0 := by
            intro h0; rw [h0] at hv; simp at hv; exact hq hv
          have h1 : (1 : ℚ) ≤ abs ((A' + B : ℤ) : ℚ) := by
            have h1 : (1 : ℤ) ≤ |A' + B| := Int.one_le_abs hne
            exact_mod_cast h1
          rw [hv, abs_mul, abs_of_pos (two_zpow_pos kb)]
          have h2 : (2 : ℚ) ^ (-bias E) ≤ 2 ^ kb := zpow_le_zpow_right₀ (by norm_num) hkb
          have := two_zpow_pos kb
          nlinarith
        have hs2 : IsSig (F + 1) (2 ^ F) := ⟨by simp, Nat.pow_lt_pow_right (by norm_num) (by omega)⟩
        have hv : (2 : ℚ) ^ (-bias E) = ((2 ^ F : ℕ) : ℚ) * 2 ^ (-bias E - F) := by
          rw [zpow_sub₀ (by norm_num)]; push_cast; rw [zpow_natCast]; field_simp
        have := nearest_mono (by omega) hmin (nearest_self (by omega) hs2 hv) hn
        rw [← hv, sig_ge_iff hn.1] at this
        omega
      have hvs' : vs = (if decide (va + vb < 0) then -1 else 1) * ((m : ℚ) * 2 ^ e) := by
        rw [hd] at hvs
        rcases rangeCheck_fin hvs with ⟨h, -⟩ | ⟨-, -, h⟩
        · omega
        · exact h
      rcases lt_or_gt_of_ne (num_ne_zero ha) with c | c
      · -- the larger operand is negative
        rw [abs_of_neg c] at hle
        have hneg : va + vb < 0 := lt_of_le_of_ne (by have := (abs_le.mp hle).2; linarith) hq
        rw [abs_of_neg hneg, show -(va + vb) = -va + -vb by ring] at hn
        obtain ⟨⟨k, hk, f1⟩, f2, f3, f4⟩ := sum_error (F := F) (a := -va) (b := -vb) (by linarith) (by rw [← haa, abs_of_neg c])
          (by rw [abs_neg]; exact hab) hma hmb (by rw [abs_neg]; exact hle) (by intro h; apply hq; linarith) hn
        simp only [hneg, decide_true, if_true, neg_one_mul] at hvs'
        have hfn : ∀ {k : ℤ} {q : ℚ}, Fits F k q → Fits F k (-q) := by
          rintro k q ⟨n, hn, rfl⟩
          exact ⟨-n, by rwa [abs_neg], by push_cast; ring⟩
        have e1 : vs - va = -((m : ℚ) * 2 ^ e - -va) := by rw [hvs']; ring
        have e2 : va + vb - vs = -(-va + -vb - (m : ℚ) * 2 ^ e) := by rw [hvs']; ring
        rw [e1, e2, abs_neg, abs_neg, abs_of_neg c]
        rw [abs_neg] at f4
        exact ⟨⟨k, hk, hfn f1⟩, f2, hfn f3, f4⟩
      · rw [abs_of_pos c] at hle
        have hpos : 0 < va + vb := lt_of_le_of_ne (by have := (abs_le.mp hle).1; linarith) (Ne.symm hq)
        rw [abs_of_pos hpos] at hn
        obtain ⟨⟨k, hk, f1⟩, f2, f3, f4⟩ := sum_error (F := F) (a := va) (b := vb) c (by rw [← haa, abs_of_pos c])
          hab hma hmb hle hq hn
        have hng : ¬ va + vb < 0 := not_lt.mpr hpos.le
        simp only [hng, decide_false, Bool.false_eq_true, if_false, one_mul] at hvs'
        rw [hvs', abs_of_pos c]
        exact ⟨⟨k, hk, f1⟩, f2, f3, f4⟩
  obtain ⟨⟨k, hk, f1⟩, f2, f3, f4⟩ := key
  obtain ⟨z, hz, hzr⟩ := adder_fin hA (x := s) (y := negV1 E F a) hvs (neg_fin hE1 hF (by rw [ha]; rfl))
  rw [← sub_eq_add_neg] at hzr
  have hzf := rounded0_fits f1 (hkb.trans hk) (lt_of_le_of_lt f2 ltop) hzr
  obtain ⟨t, ht, htr⟩ := adder_fin hA (x := b) (y := negV1 E F z) (by rw [hb]; rfl) (neg_fin hE1 hF hzf)
  rw [show vb + -(vs - va) = va + vb - vs by ring] at htr
  exact ⟨z, t, hz, hzf, ht, rounded0_fits f3 hkb (lt_of_le_of_lt (f4.trans hle) ltop) htr⟩

/-! ## The error of a product -/

/-- **C97, the error of a product.** Let `|x*y| ≥ 2^(2F+1-bias)` and let `p = x*y` be finite. Then `fma(x, y, -p)` is exactly `x*y - p`. -/
theorem C97_product_error (hE : 2 ≤ E) (hF : 1 ≤ F) (hok : DualFormat (E + 2) (2 * F + 2)) (hfmt : 2 * F + 2 ≤ 2 ^ (E + 3)) (x y : Fp E F)
    (vx vy : ℚ) (hx : x.datum = .num vx) (hy : y.datum = .num vy) (hbig : (2 : ℚ) ^ (2 * (F : ℤ) + 1 - bias E) ≤ |vx * vy|) :
    ∃ p, mulV1 E F x y = some p ∧ ∀ vp, p.datum.fin = some vp →
      ∃ t, fma E F x y (negV1 E F p) = some t ∧ t.datum.fin = some (vx * vy - vp) := by
  obtain ⟨p, hp, hr⟩ := C10_mul_correctly_rounded hE hF hF hF (by omega) x y vx vy hx hy
  refine ⟨p, hp, fun vp hvp => ?_⟩
  have hq : vx * vy ≠ 0 := mul_ne_zero (num_ne_zero hx) (num_ne_zero hy)
  obtain ⟨mx, kx, hmx, hax⟩ := num_sig hF hx
  obtain ⟨my, ky, hmy, hay⟩ := num_sig hF hy
  have habs : |vx * vy| = ((mx * my : ℕ) : ℚ) * 2 ^ (kx + ky) := by
    rw [abs_mul, hax, hay, zpow_add₀ (by norm_num)]; push_cast; ring
  have hup : |vx * vy| < 2 ^ (kx + ky + 2 * F + 2) := by
    rw [abs_mul, hax, hay, show kx + ky + 2 * F + 2 = (kx + F + 1) + (ky + F + 1) by ring, zpow_add₀ (by norm_num)]
    exact mul_lt_mul'' (sig_upper hmx kx) (sig_upper hmy ky) (by positivity) (by positivity)
  have hk : -bias E ≤ kx + ky := by
    have := (zpow_lt_zpow_iff_right₀ (a := (2 : ℚ)) (by norm_num)).mp (lt_of_le_of_lt hbig hup)
    omega
  obtain ⟨m, e, hn, hd⟩ := hr
  have herr := nearest_err (abs_pos.mpr hq) hn
  have hlow : (2 : ℚ) ^ (2 * (F : ℤ) + 1 - bias E) ≤ m * 2 ^ e := by
    have hs2 : IsSig (F + 1) (2 ^ F) := ⟨by simp, Nat.pow_lt_pow_right (by norm_num) (by omega)⟩
    have hv : (2 : ℚ) ^ (2 * (F : ℤ) + 1 - bias E) = ((2 ^ F : ℕ) : ℚ) * 2 ^ ((F : ℤ) + 1 - bias E) := by
      push_cast; rw [← zpow_natCast, ← zpow_add₀ (by norm_num)]; congr 1; ring
    have := nearest_mono (by omega) hbig (nearest_self (by omega) hs2 hv) hn
    rwa [← hv] at this
  have hge := (sig_ge_iff hn.1 e _).mp hlow
  rw [hd] at hvp
  rcases rangeCheck_fin hvp with ⟨h, -⟩ | ⟨r1, r2, hv⟩
  · omega
  have hpd : p.datum = .num vp := by
    rw [hd]; unfold rangeCheck
    rw [if_neg (by omega), if_neg (by omega), hv]
  -- the error fits
  have hdist : |vx * vy - vp| ≤ uro F * |vx * vy| := by
    rw [abs_sub_comm, hv, signed_dist]; exact herr
  have hu : uro F * |vx * vy| < 2 ^ (kx + ky + F + 1) := by
    have hup0 : (0 : ℚ) < uro F := two_zpow_pos _
    have := mul_lt_mul_of_pos_left hup hup0
    unfold uro at this ⊢
    rw [← zpow_add₀ (by norm_num)] at this
    refine this.trans_le (le_of_eq ?_)
    congr 1; ring
  have hmultp : ∃ n : ℤ, vp = n * 2 ^ (kx + ky) := by
    by_cases he : kx + ky ≤ e
    · obtain ⟨n, hn'⟩ := signed_mult (v := vp) (m := m) (k := e) (by
        rw [hv, abs_mul, abs_of_nonneg (show (0 : ℚ) ≤ m * 2 ^ e by positivity)]
        split_ifs <;> simp)
      exact mult_of_le he hn'
    · exfalso
      have h1 : (2 : ℚ) ^ (kx + ky + 2 * F) ≤ |vx * vy| := by
        rw [abs_mul, hax, hay, show kx + ky + 2 * F = (kx + F) + (ky + F) by ring, zpow_add₀ (by norm_num)]
        exact mul_le_mul (sig_lower hmx kx) (sig_lower hmy ky) (by positivity) (by positivity)
      have hs2 : IsSig (F + 1) (2 ^ F) := ⟨by simp, Nat.pow_lt_pow_right (by norm_num) (by omega)⟩
      have hv2 : (2 : ℚ) ^ (kx + ky + 2 * F) = ((2 ^ F : ℕ) : ℚ) * 2 ^ (kx + ky + F) := by
        push_cast; rw [← zpow_natCast, ← zpow_add₀ (by norm_num)]; congr 1; ring
      have h2 := nearest_mono (by omega) h1 (nearest_self (by omega) hs2 hv2) hn
      rw [← hv2, sig_ge_iff hn.1] at h2
      omega
  obtain ⟨n, hn'⟩ := hmultp
  obtain ⟨j, hj⟩ := signed_mult (v := vx * vy) habs
  have hf : Fits F (kx + ky) (vx * vy - vp) := fits_of_mult (n := j - n) (by rw [hj, hn']; push_cast; ring) (lt_of_le_of_lt hdist hu)
  -- the fused operation rounds it exactly
  have hfE : fmaE E E E = E + 2 := by unfold fmaE; rw [if_pos (by simp)]; simp
  have hfF : fmaF F F F = 2 * F + 2 := by unfold fmaF; rw [max_eq_left (by omega)]; omega
  obtain ⟨t, ht, hi⟩ := C31_fma_correct_iff (wER := E) (wFR := F) (by omega) hF (by omega) hF (by omega) hF (by omega) hF (by rw [hfE]; omega)
    (by rw [hfE, hfF]; exact hok) (by rw [hfE, hfF]; exact hfmt) (by rw [hfF]; omega) x y (negV1 E F p) vx vy (-vp) hx hy
    (by rw [C27_neg_datum (by omega) hF, hpd]; rfl)
  refine ⟨t, ht, ?_⟩
  rw [← sub_eq_add_neg] at hi
  have hnt : ¬ RoundsTwice E F (fmaF F F F) (vx * vy - vp) := by
    obtain ⟨i, hi1, hi2⟩ := id hf
    refine fits_not_twice (n := i.natAbs) (k := kx + ky) (by rw [hfF]; omega) ?_ ?_
    · rw [hi2, abs_mul, abs_of_pos (two_zpow_pos _), Nat.cast_natAbs]; push_cast; rfl
    · have h1 : i.natAbs < 2 ^ (F + 1) := by zify; exact hi1
      exact h1.trans_le (Nat.pow_le_pow_right (by norm_num) (by rw [hfF]; omega))
  have ha := hi.mpr hnt
  unfold AddsTo at ha
  refine rounded0_fits hf hk (lt_of_le_of_lt hdist ?_) (d := t.datum) ?_
  · -- the error is far below the overflow threshold
    have hm1 : (m : ℚ) * 2 ^ e < 2 ^ ((2 : ℤ) ^ E - bias E) := by
      rw [← not_le, sig_ge_iff hn.1]; omega
    have h1 : |vx * vy| - m * 2 ^ e ≤ uro F * |vx * vy| := (abs_le.mp herr).2
    have hur : uro F ≤ 1 / 4 := by
      unfold uro
      calc (2 : ℚ) ^ (-(F : ℤ) - 1) ≤ 2 ^ (-2 : ℤ) := zpow_le_zpow_right₀ (by norm_num) (by omega)
        _ = 1 / 4 := by norm_num
    have h2 : uro F * |vx * vy| ≤ 1 / 4 * |vx * vy| := mul_le_mul_of_nonneg_right hur (abs_nonneg _)
    have h3 := abs_nonneg (vx * vy)
    have h4 := two_zpow_pos ((2 : ℤ) ^ E - bias E)
    linarith
  · unfold Rounded0
    rw [← sub_eq_add_neg] at ha
    by_cases h0 : vx * vy - vp = 0
    · rw [if_pos h0] at ha ⊢; exact ⟨_, ha⟩
    · rw [if_neg h0] at ha ⊢; exact ha

/-- Single and double precision meet the format hypotheses. -/
example : AdderFormat 8 23 ∧ AdderFormat 11 52 := ⟨⟨by decide, by decide, dual_8_23', by decide⟩, ⟨by decide, by decide, dual_11_52, by decide⟩⟩

/-- So do their intermediate formats in the fused operation. -/
example : (DualFormat 10 48 ∧ 48 ≤ 2 ^ 11) ∧ DualFormat 13 106 ∧ 106 ≤ 2 ^ 14 := by
  refine ⟨⟨?_, by norm_num⟩, ?_, by norm_num⟩ <;> intro k hk <;> exfalso <;>
  · have : k < 7 := by
      by_contra hc
      have : 2 ^ 7 ≤ 2 ^ k := Nat.pow_le_pow_right (by norm_num) (by omega)
      omega
    interval_cases k <;> omega

/-- In the format (5,3), 1.5 + 15/64 rounds to 1.75 and the error -1/64 is recovered. -/
example : AddDual.addSame (Fp.mk4 5 3 1 0 15 4) (Fp.mk4 5 3 1 0 12 7) = some (Fp.mk4 5 3 1 0 15 6) ∧
    (do let z ← AddDual.addSame (Fp.mk4 5 3 1 0 15 6) (negV1 5 3 (Fp.mk4 5 3 1 0 15 4))
        AddDual.addSame (Fp.mk4 5 3 1 0 12 7) (negV1 5 3 z)) = some (Fp.mk4 5 3 1 1 9 0) := by decide +kernel

end Thls
