import Verif.Proofs.SumGap

/-! # Property C96: adding with a longer fraction at the same exponent width

Like quotients and unlike products, sums survive: what is left in a difference flushed to zero ends in the zeros by which the operands were widened. -/

namespace Thls
open Spec

variable {E F G : ℕ}

/-- A word whose fraction ends in enough zeros is kept by the conversion if it is not a number. -/
theorem narrow_keeps (hE : 1 ≤ E) (hF : 1 ≤ F) (hFG : F < G) {w : Fp E G} (h : ∀ v, w.datum ≠ .num v) (hd : 2 ^ (G - F) ∣ w.frac) :
    (convert E F w).datum = w.datum := by
  refine (C24_convert_special_iff hE hF hE (by omega) _ h).mpr ?_
  rintro ⟨-, -, -, -, hc⟩
  have h1 := w.frac_lt (show 1 ≤ G by omega)
  have h2 : 2 ^ (G - F) = 2 * 2 ^ (G - F - 1) := by rw [← pow_succ']; congr 1; omega
  have h3 : 0 < 2 ^ (G - F - 1) := by positivity
  have h4 : 2 ^ G = 2 ^ (G - F) * 2 ^ F := by rw [← pow_add]; congr 1; omega
  obtain ⟨k, hk⟩ := hd
  rw [hk, h4] at h1 hc
  have h5 : k + 1 ≤ 2 ^ F := Nat.lt_of_mul_lt_mul_left h1
  have h6 := Nat.mul_le_mul_left (2 ^ (G - F)) h5
  rw [Nat.mul_add, mul_one] at h6
  omega

theorem convert_up_dvd (hE : 1 ≤ E) (hF : 1 ≤ F) (hFG : F < G) (x : Fp E F) : 2 ^ (G - F) ∣ (convert E G x).frac := by
  rw [convert_up_frac hE hF hFG.le]; exact Dvd.intro_left _ rfl

/-- What the conversion does with a sum that is not a number. -/
theorem add_widened_special (hA : AdderFormat E F) (hA' : AdderFormat E G) (hFG : F < G) (x y : Fp E F) {w : Fp E G}
    (hw : AddDual.addSame (convert E G x) (convert E G y) = some w) (h : ∀ v, w.datum ≠ .num v) : (convert E F w).datum = w.datum := by
  obtain ⟨h1, h2, -, -⟩ := id hA
  obtain ⟨h1', h2', h3', h4'⟩ := id hA'
  by_cases hinf : ∃ s, w.datum = .inf s
  · refine (C24_convert_special_iff (by omega) h2 (by omega) h2' _ h).mpr ?_
    rintro ⟨hc, -⟩
    obtain ⟨s, hs⟩ := hinf
    exact hc s hs
  refine narrow_keeps (by omega) h2 hFG h ?_
  have key : ∀ X Y : Fp E G, 2 ^ (G - F) ∣ X.frac → 2 ^ (G - F) ∣ Y.frac → AddDual.core X Y = some w → (Y.flags = X.flags → Y.exp ≤ X.exp) →
      2 ^ (G - F) ∣ w.frac := by
    intro X Y hX hY hc ho
    by_cases hn : X.flags = 1 ∧ Y.flags = 1
    · obtain ⟨nx, ny⟩ := hn
      have hex := ho (by rw [nx, ny])
      have hdx := datum_normal X nx
      have hdy := datum_normal Y ny
      generalize (if X.sign = 1 then (-1 : ℚ) else 1) * (((2 ^ G + X.frac : ℕ) : ℚ) * 2 ^ ((X.exp : ℤ) - bias E - G)) = vx at hdx
      generalize (if Y.sign = 1 then (-1 : ℚ) else 1) * (((2 ^ G + Y.frac : ℕ) : ℚ) * 2 ^ ((Y.exp : ℤ) - bias E - G)) = vy at hdy
      obtain ⟨r, hr, r0, r1⟩ := AddDual.ordered_num (by omega) h2' h3' (by rw [pow_succ] at h4'; omega) hdx hdy hex
      rw [hc] at hr
      cases hr
      have hz : ∃ s, w.datum = .zero s := by
        by_cases hq : vx + vy = 0
        · exact ⟨_, r0 hq⟩
        · obtain ⟨m, e, -, hd⟩ := r1 hq
          unfold rangeCheck at hd
          split_ifs at hd <;> first | exact ⟨_, hd⟩ | exact absurd hd (h _) | exact absurd ⟨_, hd⟩ hinf
      obtain ⟨s, hs⟩ := hz
      have hfl : w.flags = 0 := by
        rcases flags_cases w with hf | hf | hf | hf
        · exact hf
        · exact absurd (datum_normal w hf) (h _)
        · exact absurd ⟨_, datum_flags2 w hf⟩ hinf
        · rw [datum_flags3 w hf] at hs; cases hs
      have hlt : |vx + vy| < (2 : ℚ) ^ (-bias E) := by
        by_contra hge
        push Not at hge
        have hq : vx + vy ≠ 0 := by
          intro hq
          rw [hq, abs_zero] at hge
          exact absurd (two_zpow_pos (-bias E)) (not_lt.mpr hge)
        obtain ⟨m, e, hm, hd⟩ := r1 hq
        have hself := nearest_self (p := G + 1) (m := 2 ^ G) (e := -bias E - G) (t := 2 ^ (-bias E)) (by omega)
          ⟨le_of_eq (by simp), Nat.pow_lt_pow_right (by norm_num) (by omega)⟩ (by
            push_cast [zpow_sub₀ (show (2 : ℚ) ≠ 0 by norm_num)]; rw [zpow_natCast]; field_simp)
        have hmono := nearest_mono (p := G + 1) (by omega) hge hself hm
        have hlo : -bias E ≤ e + G := by
          refine (sig_ge_iff hm.1 _ _).mp (le_trans (le_of_eq ?_) hmono)
          push_cast [zpow_sub₀ (show (2 : ℚ) ≠ 0 by norm_num)]; rw [zpow_natCast]; field_simp
        unfold rangeCheck at hd
        rw [if_neg (by omega), hs] at hd
        split at hd <;> cases hd
      have hcl : ¬ (X.sign = Y.sign ∨ Y.exp + 2 ≤ X.exp) := fun hf => absurd (AddDual.far_ge h2' hdx hdy hf) (not_le.mpr hlt)
      push Not at hcl
      exact AddDual.close_frac (by omega) h2 hFG nx ny hcl.1 hex (by omega) hX hY hc hfl
    · obtain ⟨rs, pre, up, z, hp⟩ := AddDual.core_some (by omega) h2' X Y (AddDual.shiftOk_fits (by omega) h3' (subW_lt _ _ _))
      rw [hc] at hp
      cases hp
      rw [AddDual.pack_other_frac (by omega) h2' hn]
      exact hX
  have dx := convert_up_dvd (E := E) (by omega) h2 hFG x
  have dy := convert_up_dvd (E := E) (by omega) h2 hFG y
  rcases AddDual.addSame_ordered (by omega) (convert E G x) (convert E G y) with ⟨h, -, ho⟩ | ⟨h, -, ho⟩
  · exact key _ _ dx dy (h ▸ hw) ho
  · exact key _ _ dy dx (h ▸ hw) ho

/-- **C96, addition at the same exponent width, for each pair of numbers.** No condition on the size of the sum is needed. -/
theorem C96_add_same_exponent_operands_iff (hA : AdderFormat E F) (hA' : AdderFormat E G) (hFG : F < G) (x y : Fp E F)
    (vx vy : ℚ) (hx : x.datum = .num vx) (hy : y.datum = .num vy) :
    ∃ w r, AddDual.addSame (convert E G x) (convert E G y) = some w ∧ AddDual.addSame x y = some r ∧
      ((convert E F w).equals r = true ↔ ¬ RoundsTwice E F G (vx + vy)) := by
  rcases le_or_gt ((2 : ℚ) ^ (-bias E)) |vx + vy| with hq | hq
  · exact C96_add_same_exponent_iff hA hA' hFG x y vx vy hx hy hq
  obtain ⟨h1, h2, h3, h4⟩ := id hA
  obtain ⟨r, hr, r0, r1⟩ := adder_num hA hx hy
  obtain ⟨w, hw, w0, w1⟩ := adder_num hA' (x := convert E G x) (y := convert E G y)
    (by rw [C23_convert_widen_exact (by omega) h2 le_rfl hFG.le, hx]) (by rw [C23_convert_widen_exact (by omega) h2 le_rfl hFG.le, hy])
  have hs := sum_below hx hy hq
  refine ⟨w, r, hw, hr, iff_of_true ?_ (subMax_not_twice hFG hs)⟩
  have heq : ∃ s, w.datum = .zero s ∧ r.datum = .zero s := by
    by_cases hz : vx + vy = 0
    · exact ⟨_, w0 hz, r0 hz⟩
    · exact ⟨_, subMax_flush hFG.le hs (w1 hz), subMax_flush le_rfl hs (r1 hz)⟩
  obtain ⟨s, e1, e2⟩ := heq
  rw [C07_equals_iff_same_datum (by omega) h2, add_widened_special hA hA' hFG x y hw (by intro v; rw [e1]; simp), e1, e2]

/-- **C96, addition at the same exponent width, the sufficient condition for all operands.** -/
theorem C96_add_same_exponent (hA : AdderFormat E F) (hA' : AdderFormat E G) (hG : 2 * F + 2 ≤ G) (x y : Fp E F) :
    ∃ w r, AddDual.addSame (convert E G x) (convert E G y) = some w ∧ AddDual.addSame x y = some r ∧ (convert E F w).equals r = true := by
  obtain ⟨h1, h2, h3, h4⟩ := id hA
  obtain ⟨h1', h2', h3', h4'⟩ := id hA'
  have hFG : F < G := by omega
  cases hd : addSpecial x.datum y.datum with
  | some d =>
    obtain ⟨r, hr, hrd⟩ := AddDual.addSame_special (by omega) h2 h3 hd
    obtain ⟨w, hw, hwd⟩ := AddDual.addSame_special (x := convert E G x) (y := convert E G y) (d := d) (by omega) h2' h3' (by
      rw [C23_convert_widen_exact (by omega) h2 le_rfl hFG.le, C23_convert_widen_exact (by omega) h2 le_rfl hFG.le, hd])
    refine ⟨w, r, hw, hr, ?_⟩
    rw [C07_equals_iff_same_datum (by omega) h2]
    by_cases hn : ∃ v, w.datum = .num v
    · obtain ⟨v, hv⟩ := hn
      exact rounded_unique (convert_rounded (by omega) h2 (by omega) h2' w v hv) (rounded_self h2 (by omega) r v (by rw [hrd, ← hwd, hv]))
    · rw [add_widened_special hA hA' hFG x y hw (fun v hv => hn ⟨v, hv⟩), hwd, hrd]
  | none =>
    obtain ⟨vx, vy, hx, hy⟩ := (C17_addSpecial_domain _ _).mp hd
    obtain ⟨w, r, hw, hr, hi⟩ := C96_add_same_exponent_operands_iff hA hA' hFG x y vx vy hx hy
    refine ⟨w, r, hw, hr, hi.mpr ?_⟩
    obtain ⟨mx, kx, hmx, hax⟩ := num_sig h2 hx
    obtain ⟨my, ky, hmy, hay⟩ := num_sig h2 hy
    exact add_not_twice hG hax hay hmx hmy

/-- **C96, addition at the same exponent width, for all operands.** Adding with a longer fraction and narrowing gives the directly computed
sum for all operands, zeros, infinities and NaN included, exactly if the longer fraction has at least `2F+2` bits (in formats that can hold
`2^(-F-2)`). -/
theorem C96_add_same_exponent_all_iff (hA : AdderFormat E F) (hA' : AdderFormat E G) (hFG : F < G) (hb : (F : ℤ) + 2 ≤ bias E) :
    (∀ x y : Fp E F, ∃ w r, AddDual.addSame (convert E G x) (convert E G y) = some w ∧ AddDual.addSame x y = some r ∧
      (convert E F w).equals r = true) ↔ 2 * F + 2 ≤ G := by
  obtain ⟨h1, h2, h3, h4⟩ := id hA
  constructor
  · intro h
    by_contra hc
    obtain ⟨x, y, vx, vy, hx, hy, ht⟩ := add_twice h2 (by omega) hb hFG (show G ≤ 2 * F + 1 by omega)
    obtain ⟨w, r, hw, hr, he⟩ := h x y
    obtain ⟨w', r', hw', hr', hi⟩ := C96_add_same_exponent_operands_iff hA hA' hFG x y vx vy hx hy
    rw [hw] at hw'; rw [hr] at hr'
    cases hw'; cases hr'
    exact hi.mp he ht
  · exact fun hG x y => C96_add_same_exponent hA hA' hG x y

/-- Single precision with 48 fraction bits. -/
example : AdderFormat 8 23 ∧ AdderFormat 8 48 ∧ (2 * 23 + 2 ≤ 48) ∧ (((23 : ℕ) : ℤ) + 2 ≤ bias 8) := by
  refine ⟨⟨by norm_num, by norm_num, ?_, by norm_num⟩, ⟨by norm_num, by norm_num, ?_, by norm_num⟩, by norm_num, by norm_num [bias]⟩ <;>
  · intro k hk
    exfalso
    have : k < 7 := by
      by_contra hc
      have : 2 ^ 7 ≤ 2 ^ k := Nat.pow_le_pow_right (by norm_num) (by omega)
      omega
    interval_cases k <;> omega

end Thls
