import Verif.Proofs.RoundInt
import Verif.Props.IntegerOps
import Verif.Proofs.SoftDot

/-! # Property C115: rounding to an integer by adding and subtracting a constant -/

namespace Thls
open Spec

variable {E F : ℕ}

theorem magic_even (hF : 2 ≤ F) : Even (3 * 2 ^ (F - 1) : ℤ) := by
  obtain ⟨g, rfl⟩ : ∃ g, F = g + 2 := ⟨F - 2, by omega⟩
  rw [show g + 2 - 1 = g + 1 by omega, pow_succ]
  exact ⟨3 * 2 ^ g, by ring⟩

theorem magic_range {F : ℕ} (hF : 1 ≤ F) {k : ℤ} {v : ℚ} (hb : |v| ≤ 2 ^ (F - 1) * 2 ^ k) :
    2 ^ F * 2 ^ k ≤ v + 3 * 2 ^ (F - 1) * 2 ^ k ∧ v + 3 * 2 ^ (F - 1) * 2 ^ k ≤ 2 ^ (F + 1) * 2 ^ k := by
  obtain ⟨g, rfl⟩ : ∃ g, F = g + 1 := ⟨F - 1, by omega⟩
  rw [Nat.add_sub_cancel] at *
  have := abs_le.mp hb
  have e1 : (2 : ℚ) ^ (g + 1) * 2 ^ k = 2 * (2 ^ g * 2 ^ k) := by ring
  have e2 : (2 : ℚ) ^ (g + 1 + 1) * 2 ^ k = 4 * (2 ^ g * 2 ^ k) := by ring
  rw [e1, e2]
  constructor <;> linarith

/-- The integer between the two steps, less the constant. -/
theorem magic_difference {F : ℕ} (hF : 1 ≤ F) {n : ℕ} (h1 : 2 ^ F ≤ n) (h2 : n ≤ 2 ^ (F + 1)) : |(n : ℤ) + -(3 * 2 ^ (F - 1))| ≤ 2 ^ (F + 1) := by
  obtain ⟨g, rfl⟩ : ∃ g, F = g + 1 := ⟨F - 1, by omega⟩
  rw [Nat.add_sub_cancel]
  have h3 : (2 : ℤ) ^ (g + 1) ≤ n := by exact_mod_cast h1
  have h4 : (n : ℤ) ≤ 2 ^ (g + 1 + 1) := by exact_mod_cast h2
  have h5 : (0 : ℤ) < 2 ^ g := by positivity
  rw [pow_succ] at h3
  rw [pow_succ, pow_succ] at h4 ⊢
  rw [abs_le]
  constructor <;> linarith

/-- **C115.** Let `c` stand for `3 * 2^(F-1) * 2^k`. For every number or zero `x` of magnitude at most `2^(F-1) * 2^k`, adding `c` and
subtracting it again rounds `x` to the nearest multiple of `2^k`, ties to the even one; with `k = 0` to the nearest integer. -/
theorem C115_round_to_multiple (hA : AdderFormat E F) (hF : 2 ≤ F) {k : ℤ} (hk : ScaleOk E F k) (x c : Fp E F) (vx : ℚ)
    (hx : x.datum.fin = some vx) (hc : c.datum.fin = some (3 * 2 ^ (F - 1) * 2 ^ k)) (hb : |vx| ≤ 2 ^ (F - 1) * 2 ^ k) :
    ∃ s r n, AddDual.addSame x c = some s ∧ AddDual.addSame s (negV1 E F c) = some r ∧ NearestInt (vx / 2 ^ k) n ∧
      r.datum.fin = some ((n : ℚ) * 2 ^ k) := by
  have hE : 3 < E := hA.1
  have h2k := two_zpow_pos k
  obtain ⟨s, hs, hR⟩ := adder_fin hA hx hc
  obtain ⟨lo, hi⟩ := magic_range (by omega) hb
  set q := vx + 3 * 2 ^ (F - 1) * 2 ^ k with hq
  have hq0 : 0 < q := lt_of_lt_of_le (by positivity) lo
  have hmax : |q| ≤ maxFin E F := by
    rw [abs_of_pos hq0]
    refine hi.trans ?_
    unfold maxFin
    rw [← zpow_natCast (2 : ℚ) (F + 1), ← zpow_add₀ (by norm_num)]
    have h1 : (2 : ℚ) ^ (((F + 1 : ℕ) : ℤ) + k) ≤ 2 ^ (bias E + 1) := zpow_le_zpow_right₀ (by norm_num) (by have := hk.2; push_cast; omega)
    have h3 : (2 : ℚ) ^ (bias E + 1) = 2 ^ F * 2 ^ (bias E + 1 - F) := by
      rw [← zpow_natCast, ← zpow_add₀ (by norm_num)]; congr 1; ring
    have h4 : (2 : ℚ) ^ F ≤ ((2 ^ (F + 1) - 1 : ℕ) : ℚ) := by
      have : 2 ^ F ≤ 2 ^ (F + 1) - 1 := by
        have : 0 < 2 ^ F := by positivity
        rw [pow_succ]; omega
      exact_mod_cast this
    exact h1.trans (h3.le.trans (mul_le_mul_of_nonneg_right h4 (two_zpow_pos _).le))
  obtain ⟨w, hw⟩ := rounded0_finite (by omega) hR hmax
  unfold Rounded0 at hR
  rw [if_neg hq0.ne'] at hR
  obtain ⟨m, e, hn, hd⟩ := hR
  rw [abs_of_pos hq0] at hn
  obtain ⟨hke, n, hmn, n1, n2, hnear⟩ := nearest_multiple (m := m) (e := e) hn.1.2 lo hi (fun j j1 j2 => by
    rcases Nat.lt_or_ge j (2 ^ (F + 1)) with hj | hj
    · exact ⟨hn.2.1 j k ⟨j1, hj⟩, hn.2.2 j k ⟨j1, hj⟩⟩
    · obtain rfl : j = 2 ^ (F + 1) := by omega
      have hsig : IsSig (F + 1) (2 ^ F) := ⟨le_rfl, Nat.pow_lt_pow_right (by norm_num) (by omega)⟩
      have hv : ((2 ^ (F + 1) : ℕ) : ℚ) * 2 ^ k = ((2 ^ F : ℕ) : ℚ) * 2 ^ (k + 1) := by
        push_cast; rw [zpow_add₀ (by norm_num), zpow_one]; ring
      rw [hv]
      exact ⟨hn.2.1 _ _ hsig, hn.2.2 _ _ hsig⟩)
  have hsv : s.datum.fin = some (((n : ℤ) : ℚ) * 2 ^ k) := by
    rw [hw]
    rcases rangeCheck_fin (s := w) (by rw [← hd]; exact hw) with ⟨h1, -⟩ | ⟨-, -, h2⟩
    · have := hk.1; omega
    · rw [h2, hmn, decide_eq_false (not_lt.mpr hq0.le)]; simp
  have hcn : IsMultiple (negV1 E F c) (-(3 * 2 ^ (F - 1))) k := by
    unfold IsMultiple
    rw [neg_fin (by omega) (by omega) hc]; push_cast; congr 1; ring
  obtain ⟨r, hr, hrv⟩ := C99_add_exact hA k hk s _ n _ hsv hcn (magic_difference (by omega) n1 n2)
  refine ⟨s, r, n + -(3 * 2 ^ (F - 1)), hs, hr, ?_, hrv⟩
  refine NearestInt.sub (c := 3 * 2 ^ (F - 1)) ?_ (magic_even hF)
  rw [show vx / 2 ^ k + ((3 * 2 ^ (F - 1) : ℤ) : ℚ) = q / 2 ^ k by rw [hq]; push_cast; field_simp]
  exact hnear

/-- What is left after rounding to a multiple of `2^k` is no larger than the number, and a multiple of the same unit in the last place. -/
theorem fraction_fits {g k n : ℤ} {m : ℕ} {v : ℚ} (hm : m < 2 ^ (F + 1)) (hv : |v| = m * 2 ^ g) (hn : NearestInt (v / 2 ^ k) n) :
    |v - n * 2 ^ k| ≤ |v| ∧ (v = n * 2 ^ k ∨ Fits F g (v - n * 2 ^ k)) := by
  have hk := two_zpow_pos k
  have hg := two_zpow_pos g
  have hdist : ∀ j : ℚ, |v / 2 ^ k - j| = |v - j * 2 ^ k| / 2 ^ k := by
    intro j
    rw [show v / 2 ^ k - j = (v - j * 2 ^ k) / 2 ^ k by field_simp, abs_div, abs_of_pos hk]
  have hle : |v - n * 2 ^ k| ≤ |v| := by
    have := hn.1 0
    rw [hdist, hdist, div_le_div_iff_of_pos_right hk] at this
    simpa using this
  refine ⟨hle, ?_⟩
  obtain ⟨a, ha⟩ := signed_mult hv
  rcases le_or_gt g k with hgk | hgk
  · right
    obtain ⟨d, hd⟩ : ∃ d : ℕ, k = g + d := ⟨(k - g).toNat, by omega⟩
    have he : v - n * 2 ^ k = ((a - n * 2 ^ d : ℤ) : ℚ) * 2 ^ g := by
      rw [ha, hd, zpow_add₀ (by norm_num), zpow_natCast]; push_cast; ring
    refine ⟨_, ?_, he⟩
    rw [he, hv, abs_mul, abs_of_pos hg] at hle
    have h1 := le_of_mul_le_mul_right hle hg
    have h2 : (m : ℚ) < 2 ^ (F + 1) := by exact_mod_cast hm
    have h3 := lt_of_le_of_lt h1 h2
    exact_mod_cast h3
  · left
    obtain ⟨d, hd⟩ : ∃ d : ℕ, g = k + d := ⟨(g - k).toNat, by omega⟩
    have he : v / 2 ^ k = ((a * 2 ^ d : ℤ) : ℚ) := by
      rw [ha, hd, zpow_add₀ (by norm_num), zpow_natCast]; push_cast; field_simp
    have := hn.1 (a * 2 ^ d)
    rw [he, sub_self, abs_zero] at this
    have h0 := abs_eq_zero.mp (le_antisymm this (abs_nonneg _))
    rw [← he] at h0
    rw [← sub_eq_zero.mp h0]; field_simp

/-- **C115, fractions.** The difference between a number of at least `2^(F - bias)` and its rounding to a multiple of `2^k` is exact. -/
theorem C115_fraction_exact (hA : AdderFormat E F) {k n : ℤ} (x r : Fp E F) (vx : ℚ) (hx : x.datum = .num vx)
    (hbig : (2 : ℚ) ^ ((F : ℤ) - bias E) ≤ |vx|) (hn : NearestInt (vx / 2 ^ k) n) (hr : r.datum.fin = some ((n : ℚ) * 2 ^ k)) :
    ∃ t, AddDual.addSame x (negV1 E F r) = some t ∧ t.datum.fin = some (vx - n * 2 ^ k) := by
  obtain ⟨hE, hF, -, -⟩ := id hA
  obtain ⟨m, g, hm, hv⟩ := num_sig hF hx
  obtain ⟨hle, hfit⟩ := fraction_fits hm.2 hv hn
  obtain ⟨t, ht, hR⟩ := adder_fin hA (x := x) (p := vx) (by rw [hx]; rfl) (neg_fin (by omega) hF hr)
  rw [← sub_eq_add_neg] at hR
  refine ⟨t, ht, ?_⟩
  rcases hfit with h | h
  · unfold Rounded0 at hR
    rw [if_pos (sub_eq_zero.mpr h)] at hR
    obtain ⟨σ, hσ⟩ := hR
    rw [hσ, sub_eq_zero.mpr h]; rfl
  · refine rounded0_fits h ?_ (lt_of_le_of_lt hle (num_lt_top (by omega) hF hx)) hR
    have u := sig_upper hm g
    rw [← hv] at u
    have := (zpow_lt_zpow_iff_right₀ (a := (2 : ℚ)) (by norm_num)).mp (lt_of_le_of_lt hbig u)
    omega

/-- **C115, the constant exists.** -/
theorem C115_constant (hE : 1 ≤ E) (hF : 1 ≤ F) {k : ℤ} (hk : ScaleOk E F k) : ∃ c : Fp E F, c.datum.fin = some (3 * 2 ^ (F - 1) * 2 ^ k) := by
  obtain ⟨c, hc⟩ := C99_representable hE hF (n := 3 * 2 ^ (F - 1)) hk (by
    obtain ⟨g, rfl⟩ : ∃ g, F = g + 1 := ⟨F - 1, by omega⟩
    rw [Nat.add_sub_cancel, abs_of_nonneg (by positivity), pow_succ, pow_succ]
    have : (0 : ℤ) < 2 ^ g := by positivity
    linarith)
  refine ⟨c, ?_⟩
  unfold IsMultiple at hc
  rw [hc]; push_cast; rfl

theorem soft_round_to_multiple {f : SoftFmt} (ok : f.Ok) (hF : 2 ≤ f.F) {k : ℤ} (hk : leastExp f.E f.F ≤ k) (hk2 : k + f.F + 1 ≤ bias f.E)
    {x c c' : ℕ} {vx : ℚ} (wx : x < 2 ^ f.W) (wc : c < 2 ^ f.W) (wc' : c' < 2 ^ f.W) (hx : wordFin f.E f.F x = some vx)
    (hc : wordFin f.E f.F c = some (3 * 2 ^ (f.F - 1) * 2 ^ k)) (hc' : wordFin f.E f.F c' = some (-(3 * 2 ^ (f.F - 1) * 2 ^ k)))
    (hb : |vx| ≤ 2 ^ (f.F - 1) * 2 ^ k) :
    ∃ s r n, f.add x c = some s ∧ f.add s c' = some r ∧ NearestInt (vx / 2 ^ k) n ∧ wordFin f.E f.F r = some ((n : ℚ) * 2 ^ k) := by
  have h2k := two_zpow_pos k
  obtain ⟨lo, hi⟩ := magic_range (by omega) hb
  obtain ⟨s, hs, ws, hsum⟩ := SoftFmt.add_ieee ok wx wc
  have hcpos : (0 : ℚ) < 3 * 2 ^ (f.F - 1) * 2 ^ k := by positivity
  have dc : wordDatum f.E f.F c = .num (3 * 2 ^ (f.F - 1) * 2 ^ k) := by
    rcases SoftFmt.fin_cases hc with ⟨-, -, h⟩ | h
    · exact absurd h hcpos.ne'
    · exact h
  set q := vx + 3 * 2 ^ (f.F - 1) * 2 ^ k with hq
  have hq0 : 0 < q := lt_of_lt_of_le (by positivity) lo
  have hsv : ∃ n : ℕ, wordFin f.E f.F s = some (((n : ℤ) : ℚ) * 2 ^ k) ∧ 2 ^ f.F ≤ n ∧ n ≤ 2 ^ (f.F + 1) ∧ NearestInt (q / 2 ^ k) n := by
    rcases SoftFmt.fin_cases hx with ⟨t, dx, hz⟩ | dx
    · rw [dx, dc] at hsum
      have hs2 := Option.some.inj hsum
      unfold wordFin
      rw [← hs2]
      rw [hz, zero_add] at hq
      refine ⟨3 * 2 ^ (f.F - 1), by simp [Datum.fin], ?_, ?_, ?_⟩
      · have h := lo
        rw [hq] at h
        exact_mod_cast le_of_mul_le_mul_right h h2k
      · have h := hi
        rw [hq] at h
        exact_mod_cast le_of_mul_le_mul_right h h2k
      · rw [hq]
        have he : (3 * 2 ^ (f.F - 1) * 2 ^ k / 2 ^ k : ℚ) = ((3 * 2 ^ (f.F - 1) : ℕ) : ℤ) := by push_cast; field_simp
        rw [he]
        refine ⟨fun j => by simp, fun j hj hne => ?_⟩
        rw [sub_self, abs_zero] at hj
        have := abs_eq_zero.mp hj.symm
        exact absurd (by exact_mod_cast (sub_eq_zero.mp this).symm) hne
    · rw [dx, dc] at hsum
      simp only [IeeeSum] at hsum
      rw [if_neg hq0.ne'] at hsum
      obtain ⟨m, e, hn, hd⟩ := hsum
      rw [abs_of_pos hq0] at hn
      obtain ⟨hke, n, hmn, n1, n2, hnear⟩ := nearest_multiple (m := m) (e := e) hn.1.1 lo hi (fun j j1 j2 => by
        rcases Nat.lt_or_ge j (2 ^ (f.F + 1)) with hj | hj
        · exact ⟨hn.2.2.1 j k ⟨hj, hk⟩, hn.2.2.2 j k ⟨hj, hk⟩⟩
        · obtain rfl : j = 2 ^ (f.F + 1) := by omega
          have hsig : IsGradual f.E f.F (2 ^ f.F) (k + 1) := ⟨Nat.pow_lt_pow_right (by norm_num) (by omega), by omega⟩
          have hv : ((2 ^ (f.F + 1) : ℕ) : ℚ) * 2 ^ k = ((2 ^ f.F : ℕ) : ℚ) * 2 ^ (k + 1) := by
            push_cast; rw [zpow_add₀ (by norm_num), zpow_one]; ring
          rw [hv]
          exact ⟨hn.2.2.1 _ _ hsig, hn.2.2.2 _ _ hsig⟩)
      refine ⟨n, ?_, n1, n2, hnear⟩
      have hpos : 0 < n := lt_of_lt_of_le (by positivity) n1
      have hm0 : m ≠ 0 := by
        rintro rfl
        rw [Nat.cast_zero, zero_mul] at hmn
        have : (0 : ℚ) < (n : ℚ) * 2 ^ k := by positivity
        linarith
      have hlim : ¬ ieeeLimit f.E ≤ (m : ℚ) * 2 ^ e := by
        rw [hmn, not_le]
        have h1 : (n : ℚ) ≤ 2 ^ (f.F + 1) := by exact_mod_cast n2
        refine lt_of_le_of_lt (mul_le_mul_of_nonneg_right h1 h2k.le) ?_
        unfold ieeeLimit
        rw [← zpow_natCast, ← zpow_add₀ (by norm_num)]
        exact zpow_lt_zpow_right₀ (by norm_num) (by push_cast; omega)
      unfold wordFin
      rw [hd, if_neg hm0, if_neg hlim, if_neg (not_lt.mpr hq0.le), hmn]
      simp [Datum.fin]
  obtain ⟨n, hsn, n1, n2, hnear⟩ := hsv
  obtain ⟨r, hr, -, -⟩ := SoftFmt.add_ieee ok ws wc'
  have hrv := soft_add_multiple ok (m := n) (n := -(3 * 2 ^ (f.F - 1))) (k := k) ws wc' hsn (by rw [hc']; push_cast; congr 1; ring)
    (magic_difference (by omega) n1 n2) hk hk2 hr
  refine ⟨s, r, n + -(3 * 2 ^ (f.F - 1)), hs, hr, ?_, hrv⟩
  refine NearestInt.sub (c := 3 * 2 ^ (f.F - 1)) ?_ (magic_even hF)
  rw [show vx / 2 ^ k + ((3 * 2 ^ (f.F - 1) : ℤ) : ℚ) = q / 2 ^ k by rw [hq]; push_cast; field_simp]
  exact hnear

/-- **C115, `float32_t`.** Adding `12582912` and then `-12582912` rounds every number of magnitude at most `4194304`, denormal ones
included, to the nearest integer. -/
theorem C115_soft_round32 {fast : ℕ} (hfast : 32 ≤ fast) (x : ℕ) (vx : ℚ) (wx : x < 2 ^ 32) (hx : wordFin 8 23 x = some vx) (hb : |vx| ≤ 4194304) :
    ∃ s r n, f32Add fast x 0x4b400000 = some s ∧ f32Add fast s 0xcb400000 = some r ∧ NearestInt vx n ∧ wordFin 8 23 r = some n := by
  obtain ⟨s, r, n, h1, h2, h3, h4⟩ := soft_round_to_multiple (soft32_ok hfast) (k := 0) (x := x) (c := 0x4b400000) (c' := 0xcb400000)
    (show 2 ≤ 23 by decide) (show leastExp 8 23 ≤ 0 by decide +kernel) (show 0 + ((23 : ℕ) : ℤ) + 1 ≤ bias 8 by decide +kernel) wx
    (show 0x4b400000 < 2 ^ 32 by decide) (show 0xcb400000 < 2 ^ 32 by decide) hx
    (show wordFin 8 23 0x4b400000 = some (3 * 2 ^ (23 - 1) * 2 ^ (0 : ℤ)) by decide +kernel)
    (show wordFin 8 23 0xcb400000 = some (-(3 * 2 ^ (23 - 1) * 2 ^ (0 : ℤ))) by decide +kernel)
    (by rw [show (2 : ℚ) ^ ((soft32 fast).F - 1) * 2 ^ (0 : ℤ) = 4194304 by show (2 : ℚ) ^ (23 - 1) * 2 ^ (0 : ℤ) = 4194304; norm_num]; exact hb)
  rw [zpow_zero, div_one] at h3
  rw [zpow_zero, mul_one] at h4
  exact ⟨s, r, n, h1, h2, h3, h4⟩

/-- **C115, `float64_t`.** The same with `3 * 2^51` and magnitudes up to `2^51`. -/
theorem C115_soft_round64 {fast : ℕ} (hfast : 64 ≤ fast) (x : ℕ) (vx : ℚ) (wx : x < 2 ^ 64) (hx : wordFin 11 52 x = some vx) (hb : |vx| ≤ 2 ^ 51) :
    ∃ s r n, f64Add fast x 0x4338000000000000 = some s ∧ f64Add fast s 0xc338000000000000 = some r ∧ NearestInt vx n ∧
      wordFin 11 52 r = some n := by
  obtain ⟨s, r, n, h1, h2, h3, h4⟩ := soft_round_to_multiple (soft64_ok hfast) (k := 0) (x := x) (c := 0x4338000000000000) (c' := 0xc338000000000000)
    (show 2 ≤ 52 by decide) (show leastExp 11 52 ≤ 0 by decide +kernel) (show 0 + ((52 : ℕ) : ℤ) + 1 ≤ bias 11 by decide +kernel) wx
    (show 0x4338000000000000 < 2 ^ 64 by decide) (show 0xc338000000000000 < 2 ^ 64 by decide) hx
    (show wordFin 11 52 0x4338000000000000 = some (3 * 2 ^ (52 - 1) * 2 ^ (0 : ℤ)) by decide +kernel)
    (show wordFin 11 52 0xc338000000000000 = some (-(3 * 2 ^ (52 - 1) * 2 ^ (0 : ℤ))) by decide +kernel)
    (by rw [show (2 : ℚ) ^ ((soft64 fast).F - 1) * 2 ^ (0 : ℤ) = 2 ^ 51 by show (2 : ℚ) ^ (52 - 1) * 2 ^ (0 : ℤ) = 2 ^ 51; norm_num]; exact hb)
  rw [zpow_zero, div_one] at h3
  rw [zpow_zero, mul_one] at h4
  exact ⟨s, r, n, h1, h2, h3, h4⟩

/-- In single precision `5/2` is rounded to `2` and `-7/2` to `-4`. -/
example : ∃ s r n, AddDual.addSame (Fp.mk4 8 23 1 0 128 (2 ^ 21)) (Fp.mk4 8 23 1 0 150 (2 ^ 22)) = some s ∧
    AddDual.addSame s (negV1 8 23 (Fp.mk4 8 23 1 0 150 (2 ^ 22))) = some r ∧ NearestInt (5 / 2 / 2 ^ (0 : ℤ)) n ∧
    r.datum.fin = some ((n : ℚ) * 2 ^ (0 : ℤ)) :=
  C115_round_to_multiple ⟨by norm_num, by norm_num, dual_8_23, by norm_num⟩ (by norm_num)
    (show -bias 8 ≤ 0 ∧ (0 : ℤ) + (23 : ℕ) ≤ bias 8 by decide +kernel) _ _ (5 / 2) (by decide +kernel)
    (by decide +kernel) (by decide +kernel)

example : AddDual.addSame (Fp.mk4 8 23 1 0 128 (2 ^ 21)) (Fp.mk4 8 23 1 0 150 (2 ^ 22)) >>=
    (fun s => AddDual.addSame s (negV1 8 23 (Fp.mk4 8 23 1 0 150 (2 ^ 22)))) >>= (fun r => r.datum.fin) = some 2 := by decide +kernel

example : ∃ s r n, f32Add 64 0xc0600000 0x4b400000 = some s ∧ f32Add 64 s 0xcb400000 = some r ∧ NearestInt (-7 / 2) n ∧ wordFin 8 23 r = some n :=
  C115_soft_round32 (by norm_num) 0xc0600000 (-7 / 2) (by norm_num) (by decide +kernel) (by decide +kernel)

/-- The fraction of `5/2`. -/
example : ∃ t, AddDual.addSame (Fp.mk4 8 23 1 0 128 (2 ^ 21)) (negV1 8 23 (Fp.mk4 8 23 1 0 128 0)) = some t ∧
    t.datum.fin = some (5 / 2 - ((2 : ℤ) : ℚ) * 2 ^ (0 : ℤ)) := by
  obtain ⟨s, r, n, h1, h2, h3, h4⟩ := C115_round_to_multiple (E := 8) (F := 23) ⟨by norm_num, by norm_num, dual_8_23, by norm_num⟩ (by norm_num)
    (show ScaleOk 8 23 0 from ⟨by decide +kernel, by decide +kernel⟩) (Fp.mk4 8 23 1 0 128 (2 ^ 21)) (Fp.mk4 8 23 1 0 150 (2 ^ 22)) (5 / 2)
    (by decide +kernel) (by decide +kernel) (by decide +kernel)
  have h5 : AddDual.addSame (Fp.mk4 8 23 1 0 128 (2 ^ 21)) (Fp.mk4 8 23 1 0 150 (2 ^ 22)) >>=
    (fun s => AddDual.addSame s (negV1 8 23 (Fp.mk4 8 23 1 0 150 (2 ^ 22)))) >>= (fun r => r.datum.fin) = some 2 := by decide +kernel
  have h6 : (n : ℚ) = 2 := by
    simp only [h1, h2, Option.bind_eq_bind, Option.bind_some] at h5
    rw [h4, zpow_zero, mul_one] at h5
    exact Option.some.inj h5
  have h7 : n = 2 := by exact_mod_cast h6
  subst h7
  exact C115_fraction_exact ⟨by norm_num, by norm_num, dual_8_23, by norm_num⟩ _ _ (5 / 2) (by decide +kernel) (by decide +kernel) h3
    (by decide +kernel)

end Thls
