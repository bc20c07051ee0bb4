import Verif.Model.OpTestVariants
import Verif.Props.OpSweep
import Verif.Props.AddCut
import Verif.Props.AddVariantsSharp

/-! # C90: verdicts of the tests of the other versions of the adder, of the parameter sweep and of the counting program -/

namespace Thls
open Spec OpTest

/-! ## Versions 3 and 5 -/

/-- The sums of an adder that hands the ordered operands to the core pass the check, whatever the operands are. -/
theorem orders_accepted {E F : ℕ} {norm : ℕ → Option (ℕ × ℕ)} (hn : AddSingle.Normalises F norm) (hE : 2 ≤ E) (hE2 : E ≤ 62)
    (hF : 1 ≤ F) (hfmt : F + 3 < 2 ^ E) (hfmt2 : F + 3 ≠ 2 ^ (E - 1)) {x y : Fp E F} {res ref : Option (Fp E F)}
    (ho : AddSingle.Orders norm x y res) {r' : Fp E F} (hr' : ref = some r') (hd' : Delivers E F (exactAdd x.datum y.datum) r'.datum) :
    checkFaithful ref res = some true := by
  by_cases hnum : ∃ p q, x.datum = .num p ∧ y.datum = .num q
  · obtain ⟨p, q, hx, hy⟩ := hnum
    have hadd : AddsTo E F p q r'.datum := by rw [exactAdd, hx, hy] at hd'; exact hd'
    by_cases hc : F + 3 < 2 ^ (E - 1) ∧ (ClampCase F p q ∨ ClampCase F q p)
    · obtain ⟨hs, hc⟩ := hc
      obtain ⟨r, hr, -, -, h3, h4⟩ := AddSingle.orders_num hn hE hF hfmt hfmt2 ho hx hy
      rw [AddSingle.clamped_iff (by omega) hF hx hy] at h3
      rw [AddSingle.clamped_iff (by omega) hF hy hx] at h4
      rw [hr', hr]
      obtain ⟨ok, h1, h2⟩ := faithful_iff (by omega) hE2 hF r' r
      rw [h1]
      congr 1
      refine h2.mpr (.inr (.inr (.inr (.inr ?_))))
      rcases hc with hc | hc
      · rw [h3 ⟨hs, hc⟩, hx]
        exact clamp_neighbours (by omega) hF hx hy hc hadd
      · rw [h4 ⟨hs, hc⟩, hy]
        refine clamp_neighbours (by omega) hF hy hx hc ?_
        unfold AddsTo at hadd ⊢
        rwa [add_comm q p]
    · obtain ⟨r, hr, ha⟩ := (orders_correct_iff hn hE hF hfmt hfmt2 ho hx hy).mpr hc
      exact faithful_of_equals hr' hr ((C07_equals_iff_same_datum (by omega) hF _ _).mpr (addsTo_unique ha hadd)) (by omega) hF
  · have hnone : ∀ p q, x.datum = .num p → y.datum = .num q → False := fun p q h1 h2 => hnum ⟨p, q, h1, h2⟩
    cases hsp : addSpecial x.datum y.datum with
    | none =>
      obtain ⟨p, q, hp, hq⟩ := (C17_addSpecial_domain _ _).mp hsp
      exact (hnone p q hp hq).elim
    | some d =>
      obtain ⟨r, hr, hd⟩ := AddSingle.orders_special hn hE hF hfmt hfmt2 ho hsp
      refine faithful_of_equals hr' hr (delivers_equals (by omega) hF (exactAdd_delivers (by omega) hF ?_
        fun p q hp hq => (hnone p q hp hq).elim) hd') (by omega) hF
      intro d' hd''
      rw [hsp] at hd''
      rw [hd, Option.some.inj hd'']

/-- **C90.** The test of version 3 passes in the formats that version supports. -/
theorem C90_test_add_single_v3_passes (u v : ℕ) {E F : ℕ} (h11 : 11 ≤ F) (h26 : F ≤ 26) (hE2 : E ≤ 62) (hfmt : F + 3 < 2 ^ E)
    (hfmt2 : F + 3 ≠ 2 ^ (E - 1)) (n : ℕ) (draws : ℕ → ℕ × ℕ) : testAddSingleV3 u v E F n draws = some true := by
  have hE : 4 ≤ E := by
    by_contra hc
    have : 2 ^ E ≤ 2 ^ 3 := Nat.pow_le_pow_right (by norm_num) (by omega)
    omega
  obtain ⟨l, hl⟩ := (C77_inputs_exist_iff (E := E) (F := F) (by omega) (by omega) n draws).mpr ⟨by omega, by omega⟩
  simp only [testAddSingleV3, hl, Option.bind_eq_bind, Option.bind_some]
  rw [forAll2_iff]
  intro a _ b _
  obtain ⟨r', hr', hd'⟩ := C53_ref_add (ER := E) (FR := F) (by omega) (by omega) a b
  exact orders_accepted (AddSingle.clz_normalises u v h11 h26) (by omega) hE2 (by omega) hfmt hfmt2
    (AddSingle.addSameV3_orders u v (by omega) (by omega) a b) hr' hd'

/-- **C90.** The test of version 5 passes for operands of any two formats with inputs. -/
theorem C90_test_add_single_v5_passes {EA FA EB FB : ℕ} (hEA : 3 ≤ EA) (hFA : 1 ≤ FA) (hEB : 3 ≤ EB) (hFB : 1 ≤ FB)
    (hA3 : EA = 3 → 2 ≤ FA) (hB3 : EB = 3 → 2 ≤ FB) (hE2 : max EA EB ≤ 62) (hfmt : max FA FB + 3 < 2 ^ max EA EB)
    (hfmt2 : max FA FB + 3 ≠ 2 ^ (max EA EB - 1)) (n : ℕ) (dA dB : ℕ → ℕ × ℕ) : testAddSingleV5 EA FA EB FB n dA dB = some true := by
  obtain ⟨as, has⟩ := (C77_inputs_exist_iff (E := EA) (F := FA) (by omega) hFA n dA).mpr ⟨hEA, hA3⟩
  obtain ⟨bs, hbs⟩ := (C77_inputs_exist_iff (E := EB) (F := FB) (by omega) hFB n dB).mpr ⟨hEB, hB3⟩
  simp only [testAddSingleV5, has, hbs, Option.bind_eq_bind, Option.bind_some]
  rw [forAll2_iff]
  intro a _ b _
  obtain ⟨r', hr', hd'⟩ := C53_ref_add (ER := max EA EB) (FR := max FA FB) (by omega) (by omega) a b
  refine orders_accepted (AddSingle.lzoc_normalises _) (by omega) hE2 (by omega) hfmt hfmt2
    (AddSingle.addV5_orders (by omega) hFA (by omega) hFB a b) hr' ?_
  rwa [promote_datum (by omega) hFA (by omega) (by omega), promote_datum (by omega) hFB (by omega) (by omega)]

/-! ## Version 4 -/

/-- One check of the test of version 4, in the formats with the clamp: it fails exactly if the sum overflows when it is rounded but not when
it is cut. -/
theorem v4_check {E F : ℕ} (hE : 2 ≤ E) (hE2 : E ≤ 62) (hF : 1 ≤ F) (hfmt : F + 3 < 2 ^ (E - 1)) (a b : Fp E F) :
    ∃ ok, checkFaithful (refAdd E F a b) (AddSingle.addSameV4 a b) = some ok ∧
      (ok = false → ∃ p q, a.datum = .num p ∧ b.datum = .num q ∧
        ((2 : ℚ) ^ (F + 1) - 1 / 2) * 2 ^ ((2 : ℤ) ^ E - 1 - bias E - F) ≤ |p + q| ∧ |p + q| < 2 ^ ((2 : ℤ) ^ E - bias E)) := by
  have hp : 2 ^ E = 2 * 2 ^ (E - 1) := by
    conv_lhs => rw [show E = (E - 1) + 1 by omega, pow_succ]
    ring
  obtain ⟨r', hr', hd'⟩ := C53_ref_add (ER := E) (FR := F) (by omega) hF a b
  cases hsp : addSpecial a.datum b.datum with
  | some d =>
    obtain ⟨r, hr, hd⟩ := C17_add_single_v4_exceptions hE hF hfmt a b d hsp
    refine ⟨true, faithful_of_equals hr' hr (delivers_equals (by omega) hF (exactAdd_delivers (by omega) hF ?_ ?_) hd') (by omega) hF,
      by simp⟩
    · intro d' hd''
      rw [hsp] at hd''
      rw [hd, Option.some.inj hd'']
    · intro p q hp hq
      rw [hp, hq] at hsp
      cases hsp
  | none =>
    obtain ⟨p, q, hx, hy⟩ := (C17_addSpecial_domain _ _).mp hsp
    obtain ⟨h1, h2⟩ := C15_add_single_v4_value hE hF (by omega) a b p q hx hy
    have hadd : AddsTo E F p q r'.datum := by rw [exactAdd, hx, hy] at hd'; exact hd'
    cases hr : AddSingle.addSameV4 a b with
    | none => have := (h1.mp hr).1; omega
    | some r =>
      have hc := h2 r hr
      rw [hr']
      obtain ⟨ok, k1, k2⟩ := faithful_iff (by omega) hE2 hF r' r
      refine ⟨ok, k1, fun hok => ⟨p, q, hx, hy, ?_⟩⟩
      have hno : ¬ (ok = true) := by simp [hok]
      rw [k2] at hno
      push Not at hno
      obtain ⟨n1, -, n3, n4, n5⟩ := hno
      unfold CutsTo at hc
      unfold AddsTo at hadd
      by_cases h0 : p + q = 0
      · rw [if_pos h0] at hc hadd
        exact absurd hc (n3 _ _ hadd)
      · rw [if_neg h0] at hc hadd
        obtain ⟨d', e1, e2, e3⟩ := cut_vs_rounded hF (sum_multiple hx hy) hc
        have hdd := rounded_unique e1 hadd
        subst hdd
        have hne : r.datum ≠ r'.datum := by
          intro h
          cases hd : r'.datum with
          | nan => exact n1 hd
          | zero s => exact n3 s s hd (h.trans hd)
          | inf s => exact n4 s hd (h.trans hd)
          | num v =>
            refine n5 ?_
            rw [h, hd]
            have hv : v ≠ 0 := fp_num_ne_zero hd
            refine ⟨v, v, rfl, rfl, mul_self_pos.mpr hv, ?_⟩
            rintro ⟨m, e, hm, ⟨h1, h2⟩ | ⟨h1, h2⟩⟩ <;> linarith
        rcases e3 with e3 | e3 | ⟨-, -, e3⟩
        · exact absurd e3 hne
        · exact absurd e3 n5
        · refine ⟨e3, ?_⟩
          by_contra hlt
          exact hne (e2.mpr (.inl (not_lt.mp hlt)))

/-- Half way between the greatest number and the next power of two: rounded to infinity. -/
theorem rounded_threshold {E F : ℕ} (hF : 1 ≤ F) {q : ℚ} {d : Datum}
    (hq : |q| = ((2 : ℚ) ^ (F + 1) - 1 / 2) * 2 ^ ((2 : ℤ) ^ E - 1 - bias E - F)) (h : Rounded E F q d) : d = .inf (decide (q < 0)) := by
  obtain ⟨m, e, hn, rfl⟩ := h
  generalize he0 : (2 : ℤ) ^ E - 1 - bias E - F = e0 at hq
  have hu := two_zpow_pos e0
  have hP : 0 < 2 ^ F := by positivity
  have sA : IsSig (F + 1) (2 ^ (F + 1) - 1) := maxFin_sig F
  have sB : IsSig (F + 1) (2 ^ F) := ⟨by simp, by rw [pow_succ]; omega⟩
  have cA : ((2 ^ (F + 1) - 1 : ℕ) : ℚ) = 2 ^ (F + 1) - 1 := by
    rw [Nat.cast_sub Nat.one_le_two_pow]; push_cast; ring
  have vB : ((2 ^ F : ℕ) : ℚ) * 2 ^ (e0 + 1) = 2 ^ (F + 1) * 2 ^ e0 := by
    rw [two_zpow_succ, pow_succ]; push_cast; ring
  have h1 := hn.2.1 _ (e0 + 1) sB
  rw [vB, hq, show ((2 : ℚ) ^ (F + 1) - 1 / 2) * 2 ^ e0 - 2 ^ (F + 1) * 2 ^ e0 = -(2 ^ e0 / 2) by ring, abs_neg,
    abs_of_pos (show (0 : ℚ) < 2 ^ e0 / 2 by linarith)] at h1
  have h2 := abs_le.mp h1
  unfold rangeCheck
  have hpos : (0 : ℤ) < 2 ^ E := by positivity
  by_cases ho : (2 : ℤ) ^ E ≤ e + F + bias E
  · rw [if_neg (by omega), if_pos ho]
  · exfalso
    have hs := sig_upper hn.1 e
    have h3 : (2 : ℚ) ^ (e + F + 1) ≤ 2 ^ (e0 + F + 1) := zpow_le_zpow_right₀ (by norm_num) (by omega)
    have h4 : (2 : ℚ) ^ (e0 + F + 1) = 2 ^ (F + 1) * 2 ^ e0 := by
      rw [← zpow_natCast, ← zpow_add₀ (by norm_num)]; congr 1; push_cast; ring
    have hv : (m : ℚ) * 2 ^ e = ((2 ^ (F + 1) - 1 : ℕ) : ℚ) * 2 ^ e0 := by
      refine le_antisymm ?_ ?_
      · by_contra hc
        have := sig_gap (by omega) sA hn.1 (not_le.mp hc)
        rw [cA] at this
        linarith
      · rw [cA]; linarith
    obtain ⟨rfl, rfl⟩ := sig_unique (by omega) hn.1 sA hv
    have h5 := hn.2.2 _ (e + 1) sB
    rw [vB, hq, cA] at h5
    have h6 := h5 (by
      rw [show ((2 : ℚ) ^ (F + 1) - 1 / 2) * 2 ^ e - (2 ^ (F + 1) - 1) * 2 ^ e = 2 ^ e / 2 by ring,
        show ((2 : ℚ) ^ (F + 1) - 1 / 2) * 2 ^ e - 2 ^ (F + 1) * 2 ^ e = -(2 ^ e / 2) by ring, abs_neg]) (by
      intro h; linarith)
    rw [pow_succ] at h6
    obtain ⟨j, hj⟩ := h6
    omega

/-- The numbers among the inputs, in a format with room for them: all are at most `2^(F+6)`, except the eleven greatest numbers. -/
theorem inputs_big_or_small {E F : ℕ} (hE : 3 ≤ E) (hF : 4 ≤ F) (hF2 : F + 6 < 1024) (n : ℕ) (draws : ℕ → ℕ × ℕ) (l : List (Fp E F))
    (h : makeInput E F n draws = some l) {x : Fp E F} (hx : x ∈ l) {v : ℚ} (hv : x.datum = .num v) :
    |v| ≤ 2 ^ (F + 6) ∨ ∃ i : ℕ, i ≤ 10 ∧ |v| = (2 ^ (F + 1) - (i + 1)) * 2 ^ ((2 : ℤ) ^ E - 1 - bias E - F) := by
  have hb := two_bias (E := E) (by omega)
  have hP : (16 : ℚ) ≤ 2 ^ F := by
    calc (16 : ℚ) = 2 ^ 4 := by norm_num
      _ ≤ 2 ^ F := pow_le_pow_right₀ (by norm_num) hF
  have h6 : (2 : ℚ) ^ (F + 6) = 64 * 2 ^ F := by rw [pow_add]; ring
  have hmin : (2 : ℚ) ^ (-bias E) ≤ 1 := zpow_le_one_of_nonpos₀ (by norm_num) (by omega)
  have hmin0 : (0 : ℚ) < 2 ^ (-bias E) := two_zpow_pos _
  have pm : ∀ {w : ℚ}, PlusMinus w (.num v) → |v| = |w| := by
    rintro w (h | h)
    · injection h with h; rw [h]
    · injection h with h; rw [h, abs_neg]
  have big : ∀ i : ℕ, i ≤ 10 → PlusMinus ((2 - (i + 1) / 2 ^ F) * 2 ^ ((2 : ℤ) ^ E - 1 - bias E)) (.num v) →
      |v| = (2 ^ (F + 1) - (i + 1)) * 2 ^ ((2 : ℤ) ^ E - 1 - bias E - F) := by
    intro i hi hp
    have hi' : (i : ℚ) ≤ 10 := by exact_mod_cast hi
    have : (2 : ℚ) ^ ((2 : ℤ) ^ E - 1 - bias E) = 2 ^ F * 2 ^ ((2 : ℤ) ^ E - 1 - bias E - F) := by
      rw [← zpow_natCast, ← zpow_add₀ (by norm_num)]; congr 1; ring
    rw [pm hp, this, show (2 - ((i : ℚ) + 1) / 2 ^ F) * (2 ^ F * 2 ^ ((2 : ℤ) ^ E - 1 - bias E - F)) =
      (2 ^ (F + 1) - (i + 1)) * 2 ^ ((2 : ℤ) ^ E - 1 - bias E - F) by rw [pow_succ]; field_simp, abs_of_pos]
    refine mul_pos ?_ (two_zpow_pos _)
    rw [pow_succ]
    linarith
  obtain ⟨s1, -, s3⟩ := C77_inputs_structure (by omega) (by omega) n draws l h
  obtain ⟨k, hk, rfl⟩ := List.mem_iff_getElem.mp hx
  by_cases hk2 : k < 132 + 4 * F
  · have ht : TestOperand E F (.num v) := (C77_inputs_contents (by omega) hF hF2 n draws l h _).mp
      ⟨l[k], List.mem_take_iff_getElem.mpr ⟨k, by omega, rfl⟩, hv⟩
    rcases ht with ⟨s, hs⟩ | ⟨s, hs⟩ | ⟨i, h1, h2, h3⟩ | h3 | h3 | ⟨k, h1, h2, h3, h4, h5⟩
    · cases hs
    · cases hs
    · have hi1 : (1 : ℚ) ≤ i := by exact_mod_cast h1
      have hi2 : (i : ℚ) ≤ 10 := by exact_mod_cast h2
      have hq : (i : ℚ) / 2 ^ F ≤ 1 := by rw [div_le_one (by linarith)]; linarith
      have hq0 : (0 : ℚ) ≤ i / 2 ^ F := by positivity
      rcases h3 with h3 | h3 | h3 | h3 | h3
      · left; rw [pm h3, abs_of_nonneg (by linarith)]; linarith
      · left; rw [pm h3, abs_of_nonneg (by linarith)]; linarith
      · left
        have hr : (i : ℚ) / 2 ^ (F + 1) ≤ 1 := by
          rw [div_le_one (by positivity), pow_succ]; linarith
        have hr0 : (0 : ℚ) ≤ i / 2 ^ (F + 1) := by positivity
        rw [pm h3, abs_of_nonneg (by linarith)]; linarith
      · left
        rw [pm h3, abs_of_nonneg (by positivity)]
        nlinarith
      · exact .inr ⟨i, h2, big i h2 h3⟩
    · left; rw [pm h3, abs_of_pos hmin0]; linarith
    · refine .inr ⟨0, by omega, big 0 (by omega) ?_⟩
      simpa using h3
    · left
      rw [pm h5, abs_of_pos (two_zpow_pos _), ← zpow_natCast]
      exact zpow_le_zpow_right₀ (by norm_num) (by push_cast; omega)
  · left
    obtain ⟨j, hj⟩ : ∃ j, j = (k - (132 + 4 * F)) / 2 := ⟨_, rfl⟩
    obtain ⟨a, b, g1, g2, g3, g4⟩ := s3 j (by omega)
    have key : ∀ w, a.datum = .num w → |w| ≤ 2 ^ (F + 6) := by
      intro w hw
      rw [hw] at g3
      have pos : ∀ (t : ℕ) (z : ℚ), uniform (F + 1) t = .num z → 1 / 2 ^ (F + 1) ≤ z ∧ z ≤ 1 := by
        intro t z hz
        unfold uniform at hz
        split at hz
        · cases hz
        · rename_i h0
          injection hz with hz
          have l1 : (1 : ℚ) ≤ ((t % 2 ^ (F + 1) : ℕ) : ℚ) := by exact_mod_cast Nat.one_le_iff_ne_zero.mpr h0
          have l2 : ((t % 2 ^ (F + 1) : ℕ) : ℚ) ≤ 2 ^ (F + 1) := by
            exact_mod_cast (Nat.mod_lt t (by positivity)).le
          rw [← hz]
          exact ⟨by gcongr, by rw [div_le_one (by positivity)]; exact l2⟩
      have nonnum : ∀ t, (∃ z, uniform (F + 1) t = .num z) ∨ uniform (F + 1) t = .zero false := by
        intro t
        unfold uniform
        split
        · exact .inr rfl
        · exact .inl ⟨_, rfl⟩
      rcases nonnum (draws j).1 with ⟨z, hz⟩ | hz <;> rcases nonnum (draws j).2 with ⟨y, hy⟩ | hy <;> rw [hz, hy] at g3
      · obtain ⟨a1, a2⟩ := pos _ _ hz
        obtain ⟨b1, b2⟩ := pos _ _ hy
        have p1 : (0 : ℚ) < 1 / 2 ^ (F + 1) := by positivity
        have hne : z / y ≠ 0 := by
          have : 0 < z / y := div_pos (by linarith) (by linarith)
          exact this.ne'
        have hle : z / y ≤ 2 ^ (F + 1) := by
          rw [div_le_iff₀ (by linarith)]
          rw [div_le_iff₀ (by positivity)] at b1
          linarith
        have hr : Rounded E F (z / y) (.num w) := by
          have g3' : (if z / y = 0 then Datum.num w = .zero false else Rounded E F (z / y) (.num w)) := g3
          rwa [if_neg hne] at g3'
        have he := rounded_err hne hr (s := w) rfl
        have hu := uro_le F
        have hm : minPos E ≤ 1 := hmin
        have hz0 : 0 ≤ z / y := div_nonneg (by linarith) (by linarith)
        rw [abs_of_nonneg hz0] at he
        have h7 : uro F * (z / y) ≤ 1 / 2 * 2 ^ (F + 1) := mul_le_mul hu hle hz0 (by norm_num)
        have h8 : |w| ≤ |w - z / y| + |z / y| := by
          have := abs_add_le (w - z / y) (z / y)
          rwa [sub_add_cancel] at this
        rw [abs_of_nonneg hz0] at h8
        rw [h6]
        rw [pow_succ] at h7 hle
        linarith
      all_goals simp [exactDiv, divSpecial, Delivers] at g3
    have hcase : k = 132 + 4 * F + 2 * j ∨ k = 132 + 4 * F + 2 * j + 1 := by omega
    have hgk : l[k]? = some l[k] := List.getElem?_eq_getElem hk
    rcases hcase with hc | hc
    · rw [← hc, hgk] at g1
      injection g1 with g1
      exact key v (by rw [← g1]; exact hv)
    · rw [← hc, hgk] at g2
      injection g2 with g2
      rw [← g2, hv] at g4
      cases ha : a.datum with
      | num w =>
        have := key w ha
        rw [ha] at g4
        simp only [Datum.neg, Datum.num.injEq] at g4
        rw [g4, abs_neg]
        exact this
      | _ => rw [ha] at g4; cases g4

/-- **C90, version 4.** Its test passes exactly in the formats whose greatest number is so large that no input of the test is half of its
last place, although version 4 does not round (C15): its wrong sums are next to the right ones, which the check accepts, except when only
the rounded sum overflows. In the other formats with the clamp it reports a failure. -/
theorem C90_test_add_single_v4_iff {E F : ℕ} (hF : 4 ≤ F) (hF2 : F + 6 < 1024) (hE2 : E ≤ 62) (hfmt : F + 3 < 2 ^ (E - 1)) (n : ℕ)
    (draws : ℕ → ℕ × ℕ) :
    (testAddSingleV4 E F n draws = some true ↔ 2 * F + 7 < 2 ^ (E - 1)) ∧
    (testAddSingleV4 E F n draws = some false ↔ 2 ^ (E - 1) ≤ 2 * F + 7) := by
  have hE : 4 ≤ E := by
    by_contra hc
    have : 2 ^ (E - 1) ≤ 2 ^ 2 := Nat.pow_le_pow_right (by norm_num) (by omega)
    omega
  have hb := two_bias (E := E) (by omega)
  have hp : 2 ^ E = 2 * 2 ^ (E - 1) := by
    conv_lhs => rw [show E = (E - 1) + 1 by omega, pow_succ]
    ring
  have hpz : (2 : ℤ) ^ E = 2 * ((2 ^ (E - 1) : ℕ) : ℤ) := by exact_mod_cast hp
  obtain ⟨l, hl⟩ := (C77_inputs_exist_iff (E := E) (F := F) (by omega) (by omega) n draws).mpr ⟨by omega, by omega⟩
  have hrun : testAddSingleV4 E F n draws =
      forAll2 (fun a b => checkFaithful (refAdd E F a b) (AddSingle.addSameV4 a b)) l l := by
    simp only [testAddSingleV4, hl, Option.bind_eq_bind, Option.bind_some]
  have hA : (32 : ℚ) ≤ 2 ^ (F + 1) := by
    calc (32 : ℚ) = 2 ^ 5 := by norm_num
      _ ≤ 2 ^ (F + 1) := pow_le_pow_right₀ (by norm_num) (by omega)
  have htop : (2 : ℚ) ^ ((2 : ℤ) ^ E - bias E) = 2 ^ (F + 1) * 2 ^ ((2 : ℤ) ^ E - 1 - bias E - F) := by
    rw [← zpow_natCast, ← zpow_add₀ (by norm_num)]; congr 1; push_cast; ring
  have hu := two_zpow_pos ((2 : ℤ) ^ E - 1 - bias E - F)
  have c1 : 2 * F + 7 < 2 ^ (E - 1) → testAddSingleV4 E F n draws = some true := by
    intro hroom
    rw [hrun, forAll2_iff]
    intro a ha b hb'
    obtain ⟨ok, h1, h2⟩ := v4_check (by omega) hE2 (by omega) hfmt a b
    rw [h1]
    cases ok with
    | true => rfl
    | false =>
      exfalso
      obtain ⟨p, q, hp', hq, hlo, hhi⟩ := h2 rfl
      rw [htop] at hhi
      have hcp := inputs_big_or_small (by omega) hF hF2 n draws l hl ha hp'
      have hcq := inputs_big_or_small (by omega) hF hF2 n draws l hl hb' hq
      have hsm : (2 : ℚ) ^ (F + 6) ≤ 2 ^ ((2 : ℤ) ^ E - 1 - bias E - F) / 4 := by
        have : (2 : ℚ) ^ (F + 8) ≤ 2 ^ ((2 : ℤ) ^ E - 1 - bias E - F) := by
          rw [← zpow_natCast]
          exact zpow_le_zpow_right₀ (by norm_num) (by push_cast; omega)
        rw [show F + 8 = F + 6 + 2 by omega, pow_add] at this
        linarith
      generalize (2 : ℚ) ^ ((2 : ℤ) ^ E - 1 - bias E - F) = u at *
      generalize (2 : ℚ) ^ (F + 1) = A at *
      generalize (2 : ℚ) ^ (F + 6) = S at *
      have htri := abs_add_le p q
      have bnd : ∀ z : ℚ, (z ≤ S ∨ ∃ i : ℕ, i ≤ 10 ∧ z = (A - (i + 1)) * u) → z ≤ u / 4 ∨ A * u - 11 * u ≤ z ∧ z ≤ A * u - u := by
        rintro z (h | ⟨i, hi, rfl⟩)
        · exact .inl (h.trans hsm)
        · have hi' : (i : ℚ) ≤ 10 := by exact_mod_cast hi
          have hi0 : (0 : ℚ) ≤ i := Nat.cast_nonneg i
          exact .inr ⟨by nlinarith, by nlinarith⟩
      have hAu : 32 * u ≤ A * u := mul_le_mul_of_nonneg_right hA hu.le
      rw [sub_mul] at hlo
      rcases bnd _ hcp with h3 | ⟨h3, h4⟩ <;> rcases bnd _ hcq with h5 | ⟨h5, h6⟩
      · linarith
      · linarith
      · linarith
      · rcases abs_cases p with ⟨e1, -⟩ | ⟨e1, -⟩ <;> rcases abs_cases q with ⟨e2, -⟩ | ⟨e2, -⟩ <;>
          rcases abs_cases (p + q) with ⟨e3, -⟩ | ⟨e3, -⟩ <;> linarith
  have c2 : 2 ^ (E - 1) ≤ 2 * F + 7 → testAddSingleV4 E F n draws = some false := by
    intro hsmall
    have hmem : ∀ d, TestOperand E F d → ∃ x ∈ l, x.datum = d := by
      intro d hd
      obtain ⟨x, hx, h⟩ := (C77_inputs_contents (by omega) hF hF2 n draws l hl d).mpr hd
      exact ⟨x, List.mem_of_mem_take hx, h⟩
    rw [hrun]
    refine forAll2_false ?_ ?_
    · intro a _ b _
      obtain ⟨ok, h, -⟩ := v4_check (by omega) hE2 (by omega) hfmt a b
      exact ⟨ok, h⟩
    · obtain ⟨x, hx, dx⟩ := hmem (.num ((2 - 1 / 2 ^ F) * 2 ^ ((2 : ℤ) ^ E - 1 - bias E)))
        (.inr (.inr (.inr (.inr (.inl (.inl rfl))))))
      obtain ⟨y, hy, dy⟩ := hmem (.num (2 ^ ((2 : ℤ) ^ E - 1 - bias E - F - 1)))
        (.inr (.inr (.inr (.inr (.inr ⟨_, by omega, by omega, by omega, by omega, .inl rfl⟩)))))
      refine ⟨x, hx, y, hy, ?_⟩
      obtain ⟨r', hr', hd'⟩ := C53_ref_add (ER := E) (FR := F) (by omega) (by omega) x y
      obtain ⟨h1, h2⟩ := C15_add_single_v4_value (by omega) (by omega) (by omega) x y _ _ dx dy
      cases hr : AddSingle.addSameV4 x y with
      | none => have := (h1.mp hr).1; omega
      | some r =>
        have hc := h2 r hr
        have hsum : (2 - 1 / 2 ^ F) * 2 ^ ((2 : ℤ) ^ E - 1 - bias E) + (2 : ℚ) ^ ((2 : ℤ) ^ E - 1 - bias E - F - 1) =
            (2 ^ (F + 1) - 1 / 2) * 2 ^ ((2 : ℤ) ^ E - 1 - bias E - F) := by
          have e1 : (2 : ℚ) ^ ((2 : ℤ) ^ E - 1 - bias E) = 2 ^ F * 2 ^ ((2 : ℤ) ^ E - 1 - bias E - F) := by
            rw [← zpow_natCast, ← zpow_add₀ (by norm_num)]; congr 1; ring
          have e2 : (2 : ℚ) ^ ((2 : ℤ) ^ E - 1 - bias E - F) = 2 * 2 ^ ((2 : ℤ) ^ E - 1 - bias E - F - 1) := by
            rw [← zpow_one_add₀ (by norm_num)]; congr 1; ring
          rw [e1, e2, pow_succ]
          field_simp
          ring
        have hpos : 0 < (2 ^ (F + 1) - 1 / 2) * (2 : ℚ) ^ ((2 : ℤ) ^ E - 1 - bias E - F) := mul_pos (by linarith) hu
        have hadd : AddsTo E F ((2 - 1 / 2 ^ F) * 2 ^ ((2 : ℤ) ^ E - 1 - bias E)) (2 ^ ((2 : ℤ) ^ E - 1 - bias E - F - 1)) r'.datum := by
          rw [exactAdd, dx, dy] at hd'; exact hd'
        unfold AddsTo at hadd
        unfold CutsTo at hc
        rw [hsum, if_neg hpos.ne'] at hadd hc
        have hinf := rounded_threshold (by omega) (abs_of_pos hpos) hadd
        have hrn : ∃ w, r.datum = .num w := by
          obtain ⟨d', e1, e2, e3⟩ := cut_vs_rounded (by omega) (by rw [← hsum]; exact sum_multiple dx dy) hc
          have hdd := rounded_unique e1 hadd
          subst hdd
          rcases e3 with e3 | ⟨v, w, -, hw, -⟩ | ⟨-, e3, -⟩
          · exfalso
            rcases e2.mp e3 with h | ⟨m, e, hm, g1, g2⟩
            · rw [htop, abs_of_pos hpos] at h
              nlinarith
            · rw [abs_of_pos hpos] at g1 g2
              have sA : IsSig (F + 1) (2 ^ (F + 1) - 1) := maxFin_sig F
              have cA : ((2 ^ (F + 1) - 1 : ℕ) : ℚ) = 2 ^ (F + 1) - 1 := by
                rw [Nat.cast_sub Nat.one_le_two_pow]; push_cast; ring
              have key : (m : ℚ) * 2 ^ e = ((2 ^ (F + 1) - 1 : ℕ) : ℚ) * 2 ^ ((2 : ℤ) ^ E - 1 - bias E - F) := by
                refine le_antisymm ?_ ?_
                · by_contra hc
                  have := sig_gap (by omega) sA hm (not_le.mp hc)
                  rw [cA] at this
                  linarith
                · by_contra hc
                  have := sig_gap (by omega) hm sA (not_le.mp hc)
                  rw [cA] at this
                  have := two_zpow_pos e
                  linarith
              obtain ⟨rfl, rfl⟩ := sig_unique (by omega) hm sA key
              rw [cA] at g2
              linarith
          · rw [hinf] at hw; cases hw
          · exact e3
        obtain ⟨w, hw⟩ := hrn
        rw [hr']
        obtain ⟨ok, k1, k2⟩ := faithful_iff (by omega) hE2 (by omega) r' r
        rw [k1]
        congr 1
        rw [Bool.eq_false_iff, ne_eq, k2, hinf, hw]
        rintro (h | h | ⟨s, t, h, -⟩ | ⟨s, -, h⟩ | ⟨v, w', -, h, -⟩) <;> cases h
  refine ⟨⟨fun h => ?_, c1⟩, ⟨fun h => ?_, c2⟩⟩
  · by_contra hc
    rw [c2 (by omega)] at h
    cases h
  · by_contra hc
    rw [c1 (by omega)] at h
    cases h

/-! ## The parameter sweep -/

/-- **C90.** Every program of the parameter sweep passes: the adder, the multiplier and the divider in the formats with 4 to 12 exponent
bits and 3 to 32 fraction bits. -/
theorem C90_parameter_sweep_passes {E F : ℕ} (h1 : 4 ≤ E) (h2 : E ≤ 12) (h3 : 3 ≤ F) (h4 : F ≤ 32) (d d' : ℕ → ℕ × ℕ) :
    testAddDual E F 100 d = some true ∧ testMul E F F F 100 d d' = some true ∧ testDiv false E F 20 d = some true := by
  have hp : 2 ^ 5 ≤ 2 ^ (E + 1) := Nat.pow_le_pow_right (by norm_num) (by omega)
  refine ⟨C78_test_add_dual_passes_partial (by omega) (by omega) ?_ (by omega) _ _, ?_,
    C78_test_div_passes (by omega) (by omega) (by omega) _ _ _⟩
  · intro k hk
    have : k < 6 := (Nat.pow_lt_pow_iff_right (a := 2) (by norm_num)).mp (by rw [← hk]; omega)
    interval_cases k <;> omega
  · rw [C78_test_mul (by omega) (by omega) (by omega) (by omega) (by omega)]
    simp

/-! ## Version 1, exactly, and the counting program -/

theorem addSame_none {E F : ℕ} (h : 2 ^ E ≤ F + 3) (x y : Fp E F) : AddSingle.addSame x y = none := by
  have hk := le_intlog2 (n := F + 3) (k := E) (by omega)
  unfold AddSingle.addSame AddSingle.core AddSingle.shiftVal?
  dsimp only
  rw [if_neg (by omega), if_neg (by omega)]

/-- The assertion of the greatest and the least number. -/
theorem addSame_far {E F : ℕ} (hE : 2 ≤ E) (hF : 1 ≤ F) (heq : F + 3 = 2 ^ (E - 1)) {x y : Fp E F} {p q : ℚ} (hx : x.datum = .num p)
    (hy : y.datum = .num q) (hlog : Int.log 2 |p| - Int.log 2 |q| = 2 ^ E - 1) : AddSingle.addSame x y = none := by
  obtain ⟨ex, ey⟩ : x.exp = 2 ^ E - 1 ∧ y.exp = 0 := by
    rw [log_abs_datum hF hx, log_abs_datum hF hy] at hlog
    have h1 := x.exp_lt (by omega)
    have : (2 : ℤ) ^ E = ((2 ^ E : ℕ) : ℤ) := by push_cast; rfl
    omega
  have hp : 2 ^ E = 2 * 2 ^ (E - 1) := by
    conv_lhs => rw [show E = (E - 1) + 1 by omega, pow_succ]
    ring
  have h1 : intlog2 (F + 3) = E := by
    have := intlog2_le (n := F + 3) (k := E) (by omega)
    have := le_intlog2 (n := F + 3) (k := E - 1) (by omega)
    omega
  have f0 : 0 < 2 ^ F := by positivity
  obtain ⟨o1, o2⟩ := AddSingle.flagsExpFrac_lt (by omega) hF x y
  have hns : ¬ x.flagsExpFrac < y.flagsExpFrac := by
    intro hlt
    have h2 := (o1 hlt).2 (by rw [(datum_num_iff.mp hx).1, (datum_num_iff.mp hy).1])
    rw [ex, ey] at h2
    have hy := y.frac_lt hF
    have : 1 * 2 ^ F ≤ (2 ^ E - 1) * 2 ^ F := Nat.mul_le_mul_right _ (by omega)
    omega
  unfold AddSingle.addSame
  dsimp only
  simp only [hns, decide_false, Bool.false_eq_true, if_false]
  unfold AddSingle.core AddSingle.shiftVal?
  dsimp only
  rw [ex, ey, if_neg (by omega), if_pos h1.symm]
  dsimp only
  have hsub : subW (E + 1) (2 ^ E - 1) 0 = 2 ^ E - 1 := by
    rw [AddSingle.subW_of_le (by omega) (by rw [pow_succ]; omega)]; rfl
  rw [hsub, getBits_zero_eq_mod, h1, show E - 1 + 1 = E by omega, Nat.mod_eq_of_lt (by omega)]
  unfold addAlign? shr?
  rw [if_neg (by omega)]

/-- The inputs contain two numbers with the greatest and the least exponent. -/
theorem inputs_extreme {E F : ℕ} (hE : 3 ≤ E) (hF : 4 ≤ F) (hF2 : F + 6 < 1024) {n : ℕ} {draws : ℕ → ℕ × ℕ} {l : List (Fp E F)}
    (hl : makeInput E F n draws = some l) :
    (∃ x ∈ l, ∃ p, x.datum = .num p ∧ Int.log 2 |p| = 2 ^ E - 1 - bias E) ∧ ∃ y ∈ l, ∃ q, y.datum = .num q ∧ Int.log 2 |q| = -bias E := by
  have hmem : ∀ d, TestOperand E F d → ∃ x ∈ l, x.datum = d := by
    intro d hd
    obtain ⟨x, hx, h⟩ := (C77_inputs_contents (by omega) hF hF2 n draws l hl d).mpr hd
    exact ⟨x, List.mem_of_mem_take hx, h⟩
  obtain ⟨x, hx, dx⟩ := hmem (.num ((2 - 1 / 2 ^ F) * 2 ^ ((2 : ℤ) ^ E - 1 - bias E)))
    (.inr (.inr (.inr (.inr (.inl (.inl rfl))))))
  obtain ⟨y, hy, dy⟩ := hmem (.num (2 ^ (-bias E))) (.inr (.inr (.inr (.inl (.inl rfl)))))
  refine ⟨⟨x, hx, _, dx, ?_⟩, y, hy, _, dy, ?_⟩
  · have hP : (1 : ℚ) ≤ 2 ^ F := one_le_pow₀ (by norm_num)
    have hq : (1 : ℚ) / 2 ^ F ≤ 1 := by rw [div_le_one (by linarith)]; exact hP
    have hq0 : (0 : ℚ) < 1 / 2 ^ F := by positivity
    have hu := two_zpow_pos ((2 : ℤ) ^ E - 1 - bias E)
    have hpos : 0 < (2 - 1 / 2 ^ F) * (2 : ℚ) ^ ((2 : ℤ) ^ E - 1 - bias E) := mul_pos (by linarith) hu
    have g1 := (Int.zpow_le_iff_le_log (b := 2) (x := (2 : ℤ) ^ E - 1 - bias E) (by norm_num) hpos).mp (by
      push_cast
      nlinarith)
    have g2 := (Int.lt_zpow_iff_log_lt (b := 2) (x := (2 : ℤ) ^ E - 1 - bias E + 1) (by norm_num) hpos).mp (by
      push_cast
      rw [two_zpow_succ]
      nlinarith)
    rw [abs_of_pos hpos]
    omega
  · have := Int.log_zpow (R := ℚ) (b := 2) (by norm_num) (-bias E)
    rw [abs_of_pos (two_zpow_pos _)]
    exact_mod_cast this

/-- The inputs of a format whose `F+3` is half the number of exponents are those of a format with at least four fraction bits. -/
theorem four_le_of_half {E F : ℕ} (hE : 3 ≤ E) (h3 : E = 3 → 2 ≤ F) (he : F + 3 = 2 ^ (E - 1)) : 4 ≤ F := by
  by_contra hc
  have : E = 3 := by
    by_contra hne
    have : 2 ^ 3 ≤ 2 ^ (E - 1) := Nat.pow_le_pow_right (by norm_num) (by omega)
    omega
  have h2 := h3 this
  rw [this] at he
  omega

/-- **C90, version 1, exactly.** The test of the single-path adder passes exactly in the formats in which the adder has no failing
assertion: it accepts the sums that are wrong (C15). -/
theorem C90_test_add_single_iff {E F : ℕ} (hE : 1 ≤ E) (hE2 : E ≤ 62) (hF : 1 ≤ F) (hF2 : F + 6 < 1024) (n : ℕ) (dA dB : ℕ → ℕ × ℕ) :
    (testAddSingle E F E F n dA dB = some true ↔ F + 3 < 2 ^ E ∧ F + 3 ≠ 2 ^ (E - 1)) ∧
    (2 ^ E ≤ F + 3 → testAddSingle E F E F n dA dB = none) := by
  have hp : 2 ^ E = 2 * 2 ^ (E - 1) := by
    conv_lhs => rw [show E = (E - 1) + 1 by omega, pow_succ]
    ring
  refine ⟨⟨fun h => ?_, ?_⟩, fun h => ?_⟩
  · unfold testAddSingle at h
    cases has : makeInput E F n dA with
    | none => rw [has] at h; cases h
    | some as =>
    cases hbs : makeInput E F n dB with
    | none => rw [has, hbs] at h; cases h
    | some bs =>
    rw [has, hbs] at h
    simp only [Option.bind_eq_bind, Option.bind_some] at h
    rw [forAll2_iff] at h
    obtain ⟨hE3, h3⟩ := (C77_inputs_exist_iff (by omega) hF n dA).mp ⟨as, has⟩
    have hsome : ∀ a ∈ as, ∀ b ∈ bs, AddSingle.add a b ≠ none := by
      intro a ha b hb hn
      have := h a ha b hb
      rw [hn] at this
      cases this
    obtain ⟨la, ia, -⟩ := C77_inputs_structure hE hF n dA as has
    obtain ⟨lb, -, -⟩ := C77_inputs_structure hE hF n dB bs hbs
    have hlt : F + 3 < 2 ^ E := by
      by_contra hc
      obtain ⟨a, ha⟩ := List.exists_mem_of_length_pos (l := as) (by omega)
      obtain ⟨b, hb⟩ := List.exists_mem_of_length_pos (l := bs) (by omega)
      exact hsome a ha b hb (addSame_none (by simpa using not_lt.mp hc) _ _)
    refine ⟨hlt, fun he => ?_⟩
    have hF4 := four_le_of_half hE3 h3 he
    obtain ⟨⟨a, ha, p, da, pa⟩, -⟩ := inputs_extreme hE3 hF4 hF2 has
    obtain ⟨-, b, hb, q, db, qb⟩ := inputs_extreme hE3 hF4 hF2 hbs
    refine hsome a ha b hb (addSame_far (by omega) (by omega) (by simpa using he) (p := p) (q := q) ?_ ?_ ?_)
    · rw [promote_datum hE hF (by omega) (by omega), da]
    · rw [promote_datum hE hF (by omega) (by omega), db]
    · rw [pa, qb, max_self]; ring
  · rintro ⟨h1, h2⟩
    have hE3 : 3 ≤ E := by
      by_contra hc
      have : E = 1 ∨ E = 2 := by omega
      rcases this with rfl | rfl <;> omega
    have h3 : E = 3 → 2 ≤ F := by
      rintro rfl
      omega
    exact C78_test_add_single_passes hE3 hF hE3 hF h3 h3 (by simpa using hE2) (by simpa using h1) (by simpa using h2) n dA dB
  · unfold testAddSingle
    cases has : makeInput E F n dA with
    | none => rfl
    | some as =>
    cases hbs : makeInput E F n dB with
    | none => rfl
    | some bs =>
    simp only [Option.bind_eq_bind, Option.bind_some]
    have hall : ∀ (a b : Fp E F), checkFaithful (refAdd (max E E) (max F F) a b) (AddSingle.add a b) = none := by
      intro a b
      rw [show AddSingle.add a b = none from addSame_none (by simpa using h) _ _]
      rfl
    obtain ⟨la, -, -⟩ := C77_inputs_structure hE hF n dA as has
    obtain ⟨lb, -, -⟩ := C77_inputs_structure hE hF n dB bs hbs
    obtain ⟨a, ha⟩ := List.exists_mem_of_length_pos (l := as) (by omega)
    obtain ⟨b, hb⟩ := List.exists_mem_of_length_pos (l := bs) (by omega)
    exact forAll2_none (fun a _ b _ => .inr (hall a b)) ⟨a, ha, b, hb, hall a b⟩

/-! ### Counting -/

theorem countRow_none {α β : Type} {check : α → β → Option Bool} {a : α} : ∀ {bs : List β} {c : ℕ × ℕ}, (∃ b ∈ bs, check a b = none) →
    countRow check a bs c = none
  | [], _, h => by simp at h
  | b :: bs, c, h => by
    rw [countRow]
    cases hb : check a b with
    | none => rfl
    | some ok =>
      rw [Option.bind_eq_bind, Option.bind_some]
      refine countRow_none ?_
      obtain ⟨b', hb', hn⟩ := h
      rcases List.mem_cons.mp hb' with rfl | hb'
      · rw [hb] at hn; cases hn
      · exact ⟨b', hb', hn⟩

theorem countAll_none {α β : Type} {check : α → β → Option Bool} {bs : List β} : ∀ {as : List α} {c : ℕ × ℕ},
    (∃ a ∈ as, ∃ b ∈ bs, check a b = none) → countAll check bs as c = none
  | [], _, h => by simp at h
  | a :: as, c, h => by
    rw [countAll]
    obtain ⟨a', ha', hn⟩ := h
    rcases List.mem_cons.mp ha' with rfl | ha'
    · rw [countRow_none hn]; rfl
    · cases hr : countRow check a bs c with
      | none => rfl
      | some c' =>
        rw [Option.bind_eq_bind, Option.bind_some]
        exact countAll_none ⟨a', ha', hn⟩

theorem countRow_some {α β : Type} {check : α → β → Option Bool} {a : α} (good : α → β → Bool) : ∀ {bs : List β} {f t : ℕ},
    (∀ b ∈ bs, check a b = some (good a b)) →
    countRow check a bs (f, t) = some (f + bs.countP (fun b => !good a b), t + bs.length)
  | [], f, t, _ => by simp [countRow]
  | b :: bs, f, t, h => by
    rw [countRow, h b (by simp), Option.bind_eq_bind, Option.bind_some]
    cases hg : good a b with
    | true =>
      simp only [if_true]
      rw [countRow_some good (fun b' hb' => h b' (by simp [hb']))]
      simp [hg]; omega
    | false =>
      simp only [Bool.false_eq_true, if_false]
      rw [countRow_some good (fun b' hb' => h b' (by simp [hb']))]
      simp [hg]; omega

theorem countAll_some {α β : Type} {check : α → β → Option Bool} {bs : List β} (good : α → β → Bool) : ∀ {as : List α} {f t : ℕ},
    (∀ a ∈ as, ∀ b ∈ bs, check a b = some (good a b)) →
    countAll check bs as (f, t) = some (f + (as.product bs).countP (fun p => !good p.1 p.2), t + as.length * bs.length)
  | [], f, t, _ => by simp [countAll, List.product]
  | a :: as, f, t, h => by
    rw [countAll, countRow_some good (h a (by simp)), Option.bind_eq_bind, Option.bind_some,
      countAll_some good (fun a' ha' => h a' (by simp [ha']))]
    have : (a :: as).product bs = bs.map (Prod.mk a) ++ as.product bs := by simp [List.product]
    rw [this, List.countP_append, List.countP_map, List.length_cons, Nat.add_mul]
    congr 2
    · simp [Function.comp_def]; omega
    · omega

/-- Two operands one of which is lost by the clamp of the single-path adder. -/
def ClampPair (F : ℕ) (a b : Datum) : Prop := ∃ p q, a = .num p ∧ b = .num q ∧ (ClampCase F p q ∨ ClampCase F q p)

/-- One check of the counting program. -/
theorem addSingle_check {E F : ℕ} (hE : 2 ≤ E) (hF : 1 ≤ F) (hfmt : F + 3 < 2 ^ E) (hfmt2 : F + 3 ≠ 2 ^ (E - 1)) (a b : Fp E F) :
    ∃ ok, checkEquals (refAdd E F a b) (AddSingle.addSame a b) = some ok ∧
      (ok = false ↔ F + 3 < 2 ^ (E - 1) ∧ ClampPair F a.datum b.datum) := by
  obtain ⟨r', hr', hd'⟩ := C53_ref_add (ER := E) (FR := F) (by omega) hF a b
  obtain ⟨r, hr⟩ := Option.isSome_iff_exists.mp ((C19_add_single_never_asserts_iff (by omega) hF).mpr ⟨hfmt, hfmt2⟩ a b)
  have ho := AddSingle.addSame_orders (by omega) hF a b
  refine ⟨r'.equals r, by simp [checkEquals, hr, hr'], ?_⟩
  rw [Bool.eq_false_iff, ne_eq, C07_equals_iff_same_datum (by omega) hF]
  cases hsp : addSpecial a.datum b.datum with
  | none =>
    obtain ⟨p, q, hx, hy⟩ := (C17_addSpecial_domain _ _).mp hsp
    have hadd : AddsTo E F p q r'.datum := by rw [exactAdd, hx, hy] at hd'; exact hd'
    have hiff := orders_correct_iff (AddSingle.lzoc_normalises F) hE hF hfmt hfmt2 ho hx hy
    have h1 : (∃ r, AddSingle.addSame a b = some r ∧ AddsTo E F p q r.datum) ↔ r'.datum = r.datum := by
      constructor
      · rintro ⟨r2, h2, h3⟩
        rw [hr] at h2
        rw [Option.some.inj h2]
        exact addsTo_unique hadd h3
      · intro h
        exact ⟨r, hr, h ▸ hadd⟩
    have h2 : ClampPair F a.datum b.datum ↔ ClampCase F p q ∨ ClampCase F q p := by
      unfold ClampPair
      rw [hx, hy]
      constructor
      · rintro ⟨p', q', h1, h2, h3⟩
        injection h1 with h1
        injection h2 with h2
        rwa [h1, h2]
      · exact fun h => ⟨p, q, rfl, rfl, h⟩
    rw [← h1, hiff, h2, not_not]
  | some d =>
    have h1 : ¬ ClampPair F a.datum b.datum := by
      rintro ⟨p, q, hp, hq, -⟩
      rw [hp, hq] at hsp
      cases hsp
    obtain ⟨r2, h2, h3⟩ := AddSingle.orders_special (AddSingle.lzoc_normalises F) hE hF hfmt hfmt2 ho hsp
    rw [hr] at h2
    obtain rfl := Option.some.inj h2
    have : r'.datum = r.datum := by
      refine delivers_unique hd' ?_
      rw [exactAdd, hsp, Option.getD_some]
      exact delivers_self (by omega) hF h3
    simp [this, h1]

open Classical in
/-- **C90, the counting program.** It prints "invalid" exactly if there are at least as many fraction bits as exponents, it is stopped by
an assertion exactly in the other formats in which the adder can assert (the guard of the program is too weak), and otherwise the number
of checks it prints is the square of the number of inputs and the number of failures is the number of pairs of inputs that are clamp
cases; none of them is one in the formats without the clamp. -/
theorem C90_counting_program {E F : ℕ} (hE : 1 ≤ E) (hF : 1 ≤ F) (hF2 : F + 6 < 1024) (n : ℕ) (draws : ℕ → ℕ × ℕ) :
    (paramAddSingle E F n draws = some none ↔ 2 ^ E ≤ F) ∧
    (paramAddSingle E F n draws = none ↔ F < 2 ^ E ∧ (2 ^ E ≤ F + 3 ∨ F + 3 = 2 ^ (E - 1))) ∧
    ∀ fails total, paramAddSingle E F n draws = some (some (fails, total)) → ∃ l, makeInput E F n draws = some l ∧
      total = l.length ^ 2 ∧
      fails = if F + 3 < 2 ^ (E - 1) then (l.product l).countP (fun p => decide (ClampPair F p.1.datum p.2.datum)) else 0 := by
  have hp : 2 ^ E = 2 * 2 ^ (E - 1) := by
    conv_lhs => rw [show E = (E - 1) + 1 by omega, pow_succ]
    ring
  have k1 : 2 ^ E ≤ F → paramAddSingle E F n draws = some none := by
    intro h
    unfold paramAddSingle
    rw [if_neg (by omega)]
  have k2 : F < 2 ^ E → (2 ^ E ≤ F + 3 ∨ F + 3 = 2 ^ (E - 1)) → paramAddSingle E F n draws = none := by
    intro h hc
    unfold paramAddSingle
    rw [if_pos h]
    cases hl : makeInput E F n draws with
    | none => rfl
    | some l =>
      rw [Option.bind_eq_bind, Option.bind_some, countAll_none]
      · rfl
      · have hnone : ∀ a b : Fp E F, AddSingle.addSame a b = none → checkEquals (refAdd E F a b) (AddSingle.addSame a b) = none := by
          intro a b h
          rw [h]
          rfl
        obtain ⟨hE3, h3⟩ := (C77_inputs_exist_iff hE hF n draws).mp ⟨l, hl⟩
        rcases hc with hc | hc
        · obtain ⟨ll, -, -⟩ := C77_inputs_structure hE hF n draws l hl
          obtain ⟨a, ha⟩ := List.exists_mem_of_length_pos (l := l) (by omega)
          exact ⟨a, ha, a, ha, hnone _ _ (addSame_none hc _ _)⟩
        · obtain ⟨⟨a, ha, p, da, pa⟩, b, hb, q, db, qb⟩ := inputs_extreme hE3 (four_le_of_half hE3 h3 hc) hF2 hl
          exact ⟨a, ha, b, hb, hnone _ _ (addSame_far (by omega) hF hc da db (by rw [pa, qb]; ring))⟩
  have k3 : F + 3 < 2 ^ E → F + 3 ≠ 2 ^ (E - 1) → ∃ l, makeInput E F n draws = some l ∧
      paramAddSingle E F n draws = some (some
        (if F + 3 < 2 ^ (E - 1) then (l.product l).countP (fun p => decide (ClampPair F p.1.datum p.2.datum)) else 0, l.length ^ 2)) := by
    intro h1 h2
    have hE3 : 3 ≤ E := by
      by_contra hc
      have : E = 1 ∨ E = 2 := by omega
      rcases this with rfl | rfl <;> omega
    obtain ⟨l, hl⟩ := (C77_inputs_exist_iff hE hF n draws).mpr ⟨hE3, by rintro rfl; omega⟩
    refine ⟨l, hl, ?_⟩
    unfold paramAddSingle
    rw [if_pos (by omega), hl, Option.bind_eq_bind, Option.bind_some,
      countAll_some (fun a b => !decide (F + 3 < 2 ^ (E - 1) ∧ ClampPair F a.datum b.datum))]
    · simp only [Option.bind_some, Bool.not_not, zero_add, sq]
      congr 3
      split
      · rename_i h; simp [h]
      · rename_i h; simp [h]
    · intro a _ b _
      obtain ⟨ok, h3, h4⟩ := addSingle_check (by omega) hF h1 h2 a b
      rw [h3]
      congr 1
      by_cases hc : F + 3 < 2 ^ (E - 1) ∧ ClampPair F a.datum b.datum
      · rw [h4.mpr hc, decide_eq_true hc]; rfl
      · rw [decide_eq_false hc]
        cases ok
        · exact absurd (h4.mp rfl) hc
        · rfl
  have hcase : 2 ^ E ≤ F ∨ (F < 2 ^ E ∧ (2 ^ E ≤ F + 3 ∨ F + 3 = 2 ^ (E - 1))) ∨ (F + 3 < 2 ^ E ∧ F + 3 ≠ 2 ^ (E - 1)) := by omega
  rcases hcase with h | ⟨h, h'⟩ | ⟨h, h'⟩
  · rw [k1 h]
    refine ⟨by simp [h], ⟨fun h => (by cases h), fun h => (by omega)⟩, fun f t h => (by cases h)⟩
  · rw [k2 h h']
    refine ⟨⟨fun h => (by cases h), fun h => (by omega)⟩, by simp [h, h'], fun f t h => (by cases h)⟩
  · obtain ⟨l, hl, hr⟩ := k3 h h'
    rw [hr]
    refine ⟨⟨fun h => (by cases h), fun h => (by omega)⟩, ⟨fun h => (by cases h), fun h => (by omega)⟩, ?_⟩
    intro f t hft
    simp only [Option.some.injEq, Prod.mk.injEq] at hft
    exact ⟨l, hl, hft.2.symm, hft.1.symm⟩

/-- **C90.** The counting program prints "pass" exactly in the formats without the clamp. -/
theorem C90_counting_program_pass_iff {E F : ℕ} (hE : 1 ≤ E) (hF : 4 ≤ F) (hF2 : F + 6 < 1024) (n : ℕ) (draws : ℕ → ℕ × ℕ) :
    (∃ total, paramAddSingle E F n draws = some (some (0, total))) ↔ 2 ^ (E - 1) < F + 3 ∧ F + 3 < 2 ^ E := by
  classical
  obtain ⟨k1, k2, k3⟩ := C90_counting_program hE (by omega) hF2 n draws
  have hp : 2 ^ E = 2 * 2 ^ (E - 1) := by
    conv_lhs => rw [show E = (E - 1) + 1 by omega, pow_succ]
    ring
  constructor
  · rintro ⟨t, ht⟩
    have n1 : ¬ 2 ^ E ≤ F := fun h => by rw [k1.mpr h] at ht; cases ht
    have n2 : ¬ (F < 2 ^ E ∧ (2 ^ E ≤ F + 3 ∨ F + 3 = 2 ^ (E - 1))) := fun h => by rw [k2.mpr h] at ht; cases ht
    obtain ⟨l, hl, -, h0⟩ := k3 0 t ht
    by_contra hc
    have hs : F + 3 < 2 ^ (E - 1) := by omega
    rw [if_pos hs, eq_comm, List.countP_eq_zero] at h0
    have hmem : ∀ d, TestOperand E F d → ∃ x ∈ l, x.datum = d := by
      intro d hd
      obtain ⟨x, hx, h⟩ := (C77_inputs_contents (by omega) hF hF2 n draws l hl d).mpr hd
      exact ⟨x, List.mem_of_mem_take hx, h⟩
    have hb := two_bias (E := E) (by omega)
    have hpz : (2 : ℤ) ^ E = 2 * ((2 ^ (E - 1) : ℕ) : ℤ) := by exact_mod_cast hp
    obtain ⟨x, hx, dx⟩ := hmem (.num (2 ^ ((F : ℤ) + 1)))
      (.inr (.inr (.inr (.inr (.inr ⟨_, by omega, by omega, by omega, by omega, .inl rfl⟩)))))
    obtain ⟨y, hy, dy⟩ := hmem (.num (-(1 - (1 : ℕ) / 2 ^ (F + 1))))
      (.inr (.inr (.inl ⟨1, le_rfl, by norm_num, .inr (.inr (.inl (.inr rfl)))⟩)))
    refine h0 (x, y) (List.mem_product.mpr ⟨hx, hy⟩) ?_
    rw [decide_eq_true_eq]
    have hP : (2 : ℚ) < 2 ^ (F + 1) := by
      calc (2 : ℚ) = 2 ^ 1 := by norm_num
        _ < 2 ^ (F + 1) := pow_lt_pow_right₀ (by norm_num) (by omega)
    have hq : (1 : ℚ) / 2 ^ (F + 1) < 1 / 2 := one_div_lt_one_div_of_lt (by norm_num) hP
    have hq0 : (0 : ℚ) < 1 / 2 ^ (F + 1) := by positivity
    refine ⟨_, _, dx, dy, .inl ⟨?_, F + 1, abs_of_pos (two_zpow_pos _), ?_, ?_⟩⟩
    · push_cast
      exact mul_neg_of_pos_of_neg (two_zpow_pos _) (by linarith)
    · push_cast
      rw [abs_neg, abs_of_pos (by linarith), show (F : ℤ) + 1 - F - 2 = -1 by ring, zpow_neg_one]
      linarith
    · push_cast
      rw [abs_neg, abs_of_pos (by linarith), show (F : ℤ) + 1 - F - 1 = 0 by ring]
      norm_num
  · rintro ⟨h1, h2⟩
    cases hr : paramAddSingle E F n draws with
    | none => have := k2.mp hr; omega
    | some o =>
      cases o with
      | none => have := k1.mp hr; omega
      | some ft =>
        obtain ⟨f, t⟩ := ft
        obtain ⟨l, -, -, h0⟩ := k3 f t hr
        rw [if_neg (by omega)] at h0
        exact ⟨t, by rw [h0]⟩

/-! ## Non-vacuity -/

-- the programs as they are built
example (u v : ℕ) (d d' : ℕ → ℕ × ℕ) : testAddSingleV3 u v 8 23 100 d = some true ∧ testAddSingleV4 8 23 100 d = some true ∧
    testAddSingleV5 8 30 8 20 100 d d' = some true ∧ testAddSingleV5 8 16 8 10 100 d d' = some true :=
  ⟨C90_test_add_single_v3_passes u v (by omega) (by omega) (by omega) (by norm_num) (by norm_num) _ _,
    (C90_test_add_single_v4_iff (by omega) (by omega) (by omega) (by norm_num) _ _).1.mpr (by norm_num),
    C90_test_add_single_v5_passes (by omega) (by omega) (by omega) (by omega) (by omega) (by omega) (by omega) (by norm_num) (by norm_num) _ _ _,
    C90_test_add_single_v5_passes (by omega) (by omega) (by omega) (by omega) (by omega) (by omega) (by omega) (by norm_num) (by norm_num) _ _ _⟩
-- version 4 in half precision would fail
example (n : ℕ) (d : ℕ → ℕ × ℕ) : testAddSingleV4 5 10 n d = some false :=
  (C90_test_add_single_v4_iff (by omega) (by omega) (by omega) (by norm_num) _ _).2.mpr (by norm_num)
-- the counting program: failures in single precision, none in (4, 8), stopped in (5, 13), no row in (3, 9)
example (n : ℕ) (d : ℕ → ℕ × ℕ) : (¬ ∃ t, paramAddSingle 8 23 n d = some (some (0, t))) ∧ (∃ t, paramAddSingle 4 8 n d = some (some (0, t))) ∧
    paramAddSingle 5 13 n d = none ∧ paramAddSingle 3 9 n d = some none :=
  ⟨fun h => absurd ((C90_counting_program_pass_iff (by omega) (by omega) (by omega) n d).mp h) (by norm_num),
    (C90_counting_program_pass_iff (by omega) (by omega) (by omega) n d).mpr (by norm_num),
    (C90_counting_program (by omega) (by omega) (by omega) n d).2.1.mpr (by norm_num),
    (C90_counting_program (by omega) (by omega) (by omega) n d).1.mpr (by norm_num)⟩

end Thls
