import Verif.Proofs.QuotientGap

/-! # Property C96: multiplying with a longer fraction at the same exponent width

Exactly the formats with one fraction bit are safe. -/

namespace Thls
open Spec

variable {E F G : ℕ}

/-- The fraction field of a rounded product. -/
theorem mulRound_frac (hE : 1 ≤ E) (hG : 1 ≤ G) {exc s e n ext : ℕ} (hexc : exc < 4) (hs : s < 2) :
    ∃ b : Bool, (mulRound E G n exc s e ext).frac = (getBits (n - 1) (n - G) ext + b.toNat) % 2 ^ G ∧
      (getBit (n - 1 - G) ext = false → b = false) := by
  refine ⟨getBit (n - 1 - G) ext && ((!(getBits (n - 1 - G - 1) 0 ext == 0) && !getBit (n - 1 - G + 1) ext) || getBit (n - 1 - G + 1) ext), ?_, ?_⟩
  · unfold mulRound
    dsimp only
    generalize (getBit (n - 1 - G) ext && ((!(getBits (n - 1 - G - 1) 0 ext == 0) && !getBit (n - 1 - G + 1) ext) || getBit (n - 1 - G + 1) ext)).toNat = b
    generalize getBits (n - 1) (n - G) ext = t
    have hfin : ∀ p, p < 4 → mulFinalExc exc p < 4 := by intro p hp; unfold mulFinalExc; split <;> omega
    have hGp : 0 < 2 ^ G := by positivity
    rw [ofBits_concat, Fp.mk4_frac (hfin _ (by split_ifs <;> norm_num)) hs ?_ (Nat.mod_lt _ hGp) hG]
    · rw [getBits_zero_eq_mod, show E + G - 1 + 1 = E + G by omega, Nat.mod_mod_of_dvd _ (pow_dvd_pow _ (by omega))]
      unfold addW concat
      rw [Nat.mod_mod_of_dvd _ (pow_dvd_pow _ (by omega)), show e * 2 ^ G + t + b = t + b + e * 2 ^ G by ring, Nat.add_mul_mod_self_right]
    · rw [Nat.div_lt_iff_lt_mul hGp, ← pow_add, getBits_zero_eq_mod, show E + G - 1 + 1 = E + G by omega]
      exact Nat.mod_lt _ (by positivity)
  · intro h; rw [h]; rfl

/-- Two operands widened from one fraction bit: the fraction field of the product never rounds up over the top. -/
theorem mul_widened_frac (hE : 2 ≤ E) (hG : 2 ≤ G) (x y : Fp E 1) {w : Fp E G} (hw : mulV1 E G (convert E G x) (convert E G y) = some w) :
    w.frac ≤ 2 ^ (G - 1) := by
  have hbl := biasN_lt (E := E)
  have hE4 : 2 ^ (E + 2) = 4 * 2 ^ E := by ring
  have hop : ∀ z : Fp E 1, opadHi1 G (convert E G z).frac = 2 ^ G + z.frac * 2 ^ (G - 1) := by
    intro z
    rw [convert_up_frac (by omega) le_rfl (by omega)]
    simp [opadHi1, concat]
  have h2 : ∀ z : Fp E 1, z.frac = 0 ∨ z.frac = 1 := by
    intro z; have := z.frac_lt le_rfl; omega
  unfold mulV1 at hw
  dsimp only at hw
  rw [if_neg (by omega), if_neg (by omega), if_neg (by simp), hop, hop] at hw
  cases hw
  obtain ⟨b, hb, hb0⟩ := mulRound_frac (E := E) (G := G) (n := G + 1 + G + 1) (exc := mulExc (convert E G x).flags (convert E G y).flags)
    (s := ((convert E G x).sign + (convert E G y).sign) % 2)
    (e := mulExp E E (convert E G x).exp (convert E G y).exp (getBit (G + 1 + G + 1 - 1) ((2 ^ G + x.frac * 2 ^ (G - 1)) * (2 ^ G + y.frac * 2 ^ (G - 1)))))
    (ext := mulSigExt (G + 1 + G + 1) (getBit (G + 1 + G + 1 - 1) ((2 ^ G + x.frac * 2 ^ (G - 1)) * (2 ^ G + y.frac * 2 ^ (G - 1))))
      ((2 ^ G + x.frac * 2 ^ (G - 1)) * (2 ^ G + y.frac * 2 ^ (G - 1)))) (by omega) (by omega) (mulExc_lt _ _) (Nat.mod_lt _ (by norm_num))
  rw [hb]
  clear hb
  obtain ⟨g, rfl⟩ : ∃ g, G = g + 2 := ⟨G - 2, by omega⟩
  have hg : 0 < 2 ^ g := by positivity
  have hgg : 2 ^ (2 * g) = 2 ^ g * 2 ^ g := by rw [two_mul, pow_add]
  -- it is enough to know the normalised product
  have key : ∀ ext, ext = 0 ∨ ext = 2 ^ (2 * g + 5) ∨ ext = 2 ^ (2 * g + 3) → (getBit (g + 2 + 1 + (g + 2) + 1 - 1 - (g + 2)) ext = false → b = false) →
      (getBits (g + 2 + 1 + (g + 2) + 1 - 1) (g + 2 + 1 + (g + 2) + 1 - (g + 2)) ext + b.toNat) % 2 ^ (g + 2) ≤ 2 ^ (g + 2 - 1) := by
    intro ext hext hb
    refine (Nat.mod_le _ _).trans ?_
    rw [show g + 2 + 1 + (g + 2) + 1 - 1 = 2 * g + 5 by omega, show g + 2 + 1 + (g + 2) + 1 - (g + 2) = g + 4 by omega]
    rw [show g + 2 + 1 + (g + 2) + 1 - 1 - (g + 2) = g + 3 by omega] at hb
    have hlt : ext < 2 ^ (2 * g + 5 + 1) := by
      rcases hext with h | h | h <;> rw [h]
      · positivity
      · exact Nat.pow_lt_pow_right (by norm_num) (by omega)
      · exact Nat.pow_lt_pow_right (by norm_num) (by omega)
    rw [getBits_top hlt (by omega)]
    rcases hext with h | h | h
    · rw [h] at hb ⊢
      rw [hb (by simp [getBit])]; simp
    · rw [h] at hb ⊢
      have e1 : 2 ^ (2 * g + 5) = 2 ^ (g + 1) * 2 ^ (g + 4) := by rw [← pow_add]; congr 1; omega
      have e2 : 2 ^ (2 * g + 5) = 2 ^ (g + 2) * 2 ^ (g + 3) := by rw [← pow_add]; congr 1; omega
      rw [hb (by
        unfold getBit
        rw [e2, Nat.mul_div_cancel _ (by positivity), pow_succ]; simp), e1, Nat.mul_div_cancel _ (by positivity)]
      simp
    · rw [h]
      have hbl : b.toNat ≤ 1 := by cases b <;> simp
      have : 2 ^ (2 * g + 3) / 2 ^ (g + 4) ≤ 2 ^ g - 1 := by
        rw [← Nat.lt_iff_le_pred hg, Nat.div_lt_iff_lt_mul (by positivity), ← pow_add]
        exact Nat.pow_lt_pow_right (by norm_num) (by omega)
      have : 2 ^ (g + 2 - 1) = 2 ^ g * 2 := by rw [← pow_succ]; congr 1
      omega
  refine key _ ?_ hb0
  have q : ∀ P, P < 2 ^ (2 * g + 5) → getBit (g + 2 + 1 + (g + 2) + 1 - 1) P = false := by
    intro P hP
    unfold getBit
    rw [show g + 2 + 1 + (g + 2) + 1 - 1 = 2 * g + 5 by omega, Nat.div_eq_of_lt hP]; rfl
  have p4 : 2 ^ (2 * g + 4) = 16 * 2 ^ (2 * g) := by rw [pow_add]; ring
  have p5 : 2 ^ (2 * g + 5) = 32 * 2 ^ (2 * g) := by rw [pow_add]; ring
  have p3 : 2 ^ (2 * g + 3) = 8 * 2 ^ (2 * g) := by rw [pow_add]; ring
  have hpp : 0 < 2 ^ (2 * g) := by positivity
  have s1 : ∀ a b : ℕ, (2 ^ (g + 2) + a * 2 ^ (g + 2 - 1)) * (2 ^ (g + 2) + b * 2 ^ (g + 2 - 1)) = (4 + 2 * a) * (4 + 2 * b) * 2 ^ (2 * g) := by
    intro a b
    rw [show g + 2 - 1 = g + 1 by omega, hgg, pow_add, pow_succ]; ring
  rw [s1]
  have low : ∀ P, P < 2 ^ (2 * g + 5) → mulSigExt (g + 2 + 1 + (g + 2) + 1) (getBit (g + 2 + 1 + (g + 2) + 1 - 1) P) P = P % 2 ^ (2 * g + 4) * 4 := by
    intro P hP
    rw [q P hP]
    unfold mulSigExt concat
    rw [if_neg (by simp), getBits_zero_eq_mod, show g + 2 + 1 + (g + 2) + 1 - 3 + 1 = 2 * g + 4 by omega]; rfl
  rcases h2 x with hx | hx <;> rcases h2 y with hy | hy <;> rw [hx, hy]
  · left
    rw [low _ (by rw [p5]; omega), p4]; simp
  · right; left
    rw [low _ (by rw [p5]; omega), p4, p5, Nat.mul_mod_mul_right]; omega
  · right; left
    rw [low _ (by rw [p5]; omega), p4, p5, Nat.mul_mod_mul_right]; omega
  · right; right
    have hn : getBit (g + 2 + 1 + (g + 2) + 1 - 1) ((4 + 2 * 1) * (4 + 2 * 1) * 2 ^ (2 * g)) = true := by
      unfold getBit
      rw [show g + 2 + 1 + (g + 2) + 1 - 1 = 2 * g + 5 by omega, p5, Nat.mul_div_mul_right _ _ hpp]; rfl
    rw [hn]
    unfold mulSigExt concat
    rw [if_pos rfl, getBits_zero_eq_mod, show g + 2 + 1 + (g + 2) + 1 - 2 + 1 = 2 * g + 5 by omega, p5, p3, Nat.mul_mod_mul_right]; omega

/-- A product of numbers with one fraction bit that is below `2^-bias` is at most three quarters of it. -/
theorem product_below {x y : ℚ} {mx my : ℕ} {kx ky : ℤ} (hx : |x| = mx * 2 ^ kx) (hy : |y| = my * 2 ^ ky) (hmx : IsSig (1 + 1) mx)
    (hmy : IsSig (1 + 1) my) (hq : |x * y| < 2 ^ (-bias E)) : |x * y| ≤ subMax E 1 := by
  have hq' : |x * y| = ((mx * my : ℕ) : ℚ) * 2 ^ (kx + ky) := by
    rw [abs_mul, hx, hy, zpow_add₀ (by norm_num)]; push_cast; ring
  rw [hq'] at hq ⊢
  obtain ⟨hx1, hx2⟩ := hmx
  obtain ⟨hy1, hy2⟩ := hmy
  norm_num at hx1 hx2 hy1 hy2
  rw [subMax_eq]
  obtain ⟨j, hj⟩ : ∃ j : ℤ, kx + ky = -bias E + j := ⟨kx + ky + bias E, by ring⟩
  have hb := two_zpow_pos (-bias E)
  rw [hj, zpow_add₀ (by norm_num), mul_comm ((2 : ℚ) ^ (-bias E)), ← mul_assoc] at hq ⊢
  apply mul_le_mul_of_nonneg_right _ hb.le
  have h1 : ((mx * my : ℕ) : ℚ) * 2 ^ j < 1 := by
    by_contra hc
    push Not at hc
    have := mul_le_mul_of_nonneg_right hc hb.le
    linarith
  have hm : mx * my = 4 ∨ mx * my = 6 ∨ mx * my = 9 := by
    interval_cases mx <;> interval_cases my <;> simp
  have hjp := two_zpow_pos j
  have hle : ∀ k : ℤ, j ≤ k → (2 : ℚ) ^ j ≤ 2 ^ k := fun k hk => zpow_le_zpow_right₀ (by norm_num) hk
  have hge : ∀ k : ℤ, k ≤ j → (2 : ℚ) ^ k ≤ 2 ^ j := fun k hk => zpow_le_zpow_right₀ (by norm_num) hk
  rcases hm with h | h | h <;> rw [h] at h1 ⊢
  · have hj3 : j ≤ -3 := by
      by_contra hc
      have := hge (-2) (by omega)
      norm_num at this h1
      linarith
    have := hle _ hj3
    norm_num at this ⊢
    linarith
  · have hj3 : j ≤ -3 := by
      by_contra hc
      have := hge (-2) (by omega)
      norm_num at this h1
      linarith
    have := hle _ hj3
    norm_num at this ⊢
    linarith
  · have hj3 : j ≤ -4 := by
      by_contra hc
      have := hge (-3) (by omega)
      norm_num at this h1
      linarith
    have := hle _ hj3
    norm_num at this ⊢
    linarith

/-- Zeros, infinities and NaNs of the product are kept by the conversion. -/
theorem mul_widened_special (hE : 2 ≤ E) (hG : 2 ≤ G) (x y : Fp E 1) {w : Fp E G} (hw : mulV1 E G (convert E G x) (convert E G y) = some w)
    (h : ∀ v, w.datum ≠ .num v) : (convert E 1 w).datum = w.datum := by
  refine (C24_convert_special_iff (by omega) le_rfl (by omega) (by omega) _ h).mpr ?_
  rintro ⟨-, -, -, -, hc⟩
  have h1 := mul_widened_frac hE hG x y hw
  obtain ⟨g, rfl⟩ : ∃ g, G = g + 2 := ⟨G - 2, by omega⟩
  have h3 : 0 < 2 ^ g := by positivity
  rw [show g + 2 - 1 - 1 = g by omega, pow_add] at hc
  rw [show g + 2 - 1 = g + 1 by omega, pow_succ] at h1
  omega

/-- **C96, multiplication at the same exponent width, for all operands.** Multiplying in a format with the same exponent width and a longer
fraction and narrowing gives the directly computed result for all operands exactly if the operands have a single fraction bit: however long the
longer fraction is, some product of operands with two or more fraction bits goes wrong. -/
theorem C96_mul_same_exponent_all_iff (hE : 2 ≤ E) (hF : 1 ≤ F) (hFG : F < G) :
    (∀ x y : Fp E F, ∃ w r, mulV1 E G (convert E G x) (convert E G y) = some w ∧ mulV1 E F x y = some r ∧
      (convert E F w).equals r = true) ↔ F = 1 := by
  constructor
  · intro h
    by_contra hc
    have hF2 : 2 ≤ F := by omega
    by_cases hG : 2 * F ≤ G + 1
    · obtain ⟨x, y, r, w, vx, vy, -, -, -, -, hr, hrd, hw, -, hi⟩ := C96_mul_same_exponent_wrong hE hF2 hG
      obtain ⟨w', r', hw', hr', he⟩ := h x y
      rw [hw] at hw'; rw [hr] at hr'
      cases hw'; cases hr'
      rw [C07_equals_iff_same_datum (by omega) hF, hi, hrd] at he
      cases he
    · obtain ⟨x, v, hx, hv, ht⟩ := mul_twice hE (show 3 ≤ F by omega) hFG (by omega)
      obtain ⟨w, r, hw, hr, he⟩ := h x x
      obtain ⟨w', r', hw', hr', hi⟩ := C96_mul_same_exponent_iff hE hF hFG x x v v hx hx (by
        have h1 : (2 : ℚ) ^ (-bias E) ≤ 2 ^ (0 : ℤ) := zpow_le_zpow_right₀ (by norm_num) (by
          have : (1 : ℤ) ≤ 2 ^ (E - 1) := one_le_pow₀ (by norm_num)
          unfold bias; linarith)
        rw [zpow_zero] at h1
        refine h1.trans ((one_le_mul_of_one_le_of_one_le hv hv).trans (le_abs_self _)))
      rw [hw] at hw'; rw [hr] at hr'
      cases hw'; cases hr'
      exact hi.mp he ht
  · rintro rfl x y
    cases hd : mulSpecial x.datum y.datum with
    | some d =>
      obtain ⟨r, hr⟩ := mulV1_returns (by omega) hF x y
      obtain ⟨w, hw⟩ := mulV1_returns (by omega) (by omega) (convert E G x) (convert E G y)
      have h1 := C12_mul_exceptions (by omega) hF (by omega) x y r hr d hd
      have h2 := C12_mul_exceptions (by omega) (by omega) (by omega) _ _ w hw d (by
        rw [C23_convert_widen_exact (by omega) hF le_rfl hFG.le, C23_convert_widen_exact (by omega) hF le_rfl hFG.le, hd])
      have hn : ∀ v, d ≠ .num v := by
        intro v hv
        subst hv
        generalize x.datum = a at hd
        generalize y.datum = b at hd
        cases a <;> cases b <;> simp [mulSpecial] at hd
      refine ⟨w, r, hw, hr, ?_⟩
      rw [C07_equals_iff_same_datum (by omega) hF, mul_widened_special hE (by omega) x y hw (by intro v; rw [h2]; exact hn v), h1, h2]
    | none =>
      obtain ⟨vx, vy, hx, hy⟩ : ∃ p q, x.datum = .num p ∧ y.datum = .num q := by
        revert hd
        cases x.datum <;> cases y.datum <;> simp [mulSpecial]
      obtain ⟨mx, kx, hmx, hax⟩ := num_sig hF hx
      obtain ⟨my, ky, hmy, hay⟩ := num_sig hF hy
      rcases le_or_gt ((2 : ℚ) ^ (-bias E)) |vx * vy| with hq | hq
      · obtain ⟨w, r, hw, hr, hi⟩ := C96_mul_same_exponent_iff hE hF hFG x y vx vy hx hy hq
        exact ⟨w, r, hw, hr, hi.mpr (small_mul_not_twice hF (by omega) hFG hax hay hmx hmy)⟩
      · have hs := product_below hax hay hmx hmy hq
        obtain ⟨r, hr, h1⟩ := C10_mul_correctly_rounded hE hF hF hF (by omega) x y vx vy hx hy
        obtain ⟨w, hw, h2⟩ := C10_mul_correctly_rounded (wFR := G) (by omega) (by omega) (by omega) (by omega) (by omega)
          (convert E G x) (convert E G y) vx vy (by rw [C23_convert_widen_exact (by omega) hF le_rfl hFG.le, hx])
          (by rw [C23_convert_widen_exact (by omega) hF le_rfl hFG.le, hy])
        refine ⟨w, r, hw, hr, ?_⟩
        have e1 := subMax_flush hFG.le hs h2
        have e2 := subMax_flush le_rfl hs h1
        rw [C07_equals_iff_same_datum (by omega) hF, mul_widened_special hE (by omega) x y hw (by intro v; rw [e1]; simp), e1, e2]

/-- Half precision by way of 23 fraction bits at the same exponent width is among the formats where a product goes wrong; with one fraction
bit a product below the range stays a zero. -/
example : (10 : ℕ) ≠ 1 ∧ (2 ≤ 5 ∧ 1 ≤ 10 ∧ 10 < 23) ∧
    ∃ w r, mulV1 3 4 (convert 3 4 (Fp.mk4 3 1 1 0 0 1)) (convert 3 4 (Fp.mk4 3 1 1 0 1 1)) = some w ∧ mulV1 3 1 (Fp.mk4 3 1 1 0 0 1) (Fp.mk4 3 1 1 0 1 1) = some r ∧
      (convert 3 1 w).equals r = true :=
  ⟨by decide, by decide, (C96_mul_same_exponent_all_iff (E := 3) (F := 1) (G := 4) (by norm_num) le_rfl (by norm_num)).mpr rfl _ _⟩

end Thls
