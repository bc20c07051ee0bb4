import Verif.Proofs.AddCut
import Verif.Props.DotSharp
import Verif.Props.AddSharp
import Verif.SpecOpTest

/-! # C15: exactly what version 4 of the single-path adder returns -/

namespace Thls
open Spec

theorem log_abs_datum {E F : ℕ} (hF : 1 ≤ F) {x : Fp E F} {v : ℚ} (h : x.datum = .num v) :
    Int.log 2 |v| = (x.exp : ℤ) - bias E := by
  obtain ⟨ha, -⟩ := AddSingle.abs_normal h
  obtain ⟨b1, b2⟩ := sig_bounds (x.frac_lt hF) ((x.exp : ℤ) - bias E)
  rw [← ha] at b1 b2
  have h0 : 0 < |v| := lt_of_lt_of_le (two_zpow_pos _) b1
  have c1 : (x.exp : ℤ) - bias E ≤ Int.log 2 |v| := (Int.zpow_le_iff_le_log (by norm_num) h0).1 (by exact_mod_cast b1)
  have c2 : Int.log 2 |v| < (x.exp : ℤ) - bias E + 1 := (Int.lt_zpow_iff_log_lt (by norm_num) h0).1 (by exact_mod_cast b2)
  omega

theorem cutsTo_comm {E F : ℕ} {vx vy : ℚ} {d : Datum} : CutsTo E F vx vy d ↔ CutsTo E F vy vx d := by
  unfold CutsTo
  rw [add_comm vx vy]

/-- Rounding in the upper half of the gap between two numbers. -/
theorem upper_half_rounded {E F m : ℕ} {e : ℤ} {q : ℚ} (hF : 1 ≤ F) (hm : IsSig (F + 1) m)
    (hlo : ((m : ℚ) + 1 / 2) * 2 ^ e ≤ |q|) (hhi : |q| < ((m : ℚ) + 1) * 2 ^ e) :
    ∃ d', Rounded E F q d' ∧
      ((|q| = ((m : ℚ) + 1 / 2) * 2 ^ e ∧ m % 2 = 0) → d' = rangeCheck E F (decide (q < 0)) m e) ∧
      (¬ (|q| = ((m : ℚ) + 1 / 2) * 2 ^ e ∧ m % 2 = 0) →
        (m + 1 < 2 ^ (F + 1) ∧ d' = rangeCheck E F (decide (q < 0)) (m + 1) e) ∨
        (m + 1 = 2 ^ (F + 1) ∧ d' = rangeCheck E F (decide (q < 0)) (2 ^ F) (e + 1))) := by
  have ht : (2 * (m : ℚ) + 1) * 2 ^ (e - 1) = ((m : ℚ) + 1 / 2) * 2 ^ e := by rw [two_zpow_pred]; ring
  obtain ⟨n1, n2, n3⟩ := nearest_core (p := F + 1) (m := m) (e := e) (x := |q|) (r := true)
    (s := decide (|q| ≠ ((m : ℚ) + 1 / 2) * 2 ^ e)) (by omega) hm
    (by simp only [if_true]; rw [ht]; exact hlo)
    (by
      simp only [if_true]
      rw [two_zpow_pred]
      linarith)
    (by simp only [if_true]; rw [ht]; simp)
  rw [Nat.add_sub_cancel] at n3
  by_cases h : |q| = ((m : ℚ) + 1 / 2) * 2 ^ e ∧ m % 2 = 0
  · refine ⟨_, ⟨m, e, n1 (by simp [h.1, h.2]), rfl⟩, fun _ => rfl, fun h' => absurd h h'⟩
  · have hup : (true && (decide (|q| ≠ ((m : ℚ) + 1 / 2) * 2 ^ e) || decide (m % 2 = 1))) = true := by
      by_cases h1 : |q| = ((m : ℚ) + 1 / 2) * 2 ^ e
      · have : m % 2 = 1 := by
          by_contra hc
          exact h ⟨h1, by omega⟩
        simp [this]
      · simp only [ne_eq, h1, not_false_eq_true, decide_true, Bool.true_or, Bool.and_self]
    rcases Nat.lt_or_ge (m + 1) (2 ^ (F + 1)) with h1 | h1
    · exact ⟨_, ⟨m + 1, e, n2 hup h1, rfl⟩, fun h' => absurd h' h, fun _ => .inl ⟨h1, rfl⟩⟩
    · have h1 : m + 1 = 2 ^ (F + 1) := by have := hm.2; omega
      exact ⟨_, ⟨2 ^ F, e + 1, n3 hup h1, rfl⟩, fun h' => absurd h' h, fun _ => .inr ⟨h1, rfl⟩⟩

theorem neighbours_succ {F m : ℕ} {e : ℤ} {c : ℚ} (hm : IsSig (F + 1) m) (hc : c = -1 ∨ c = 1) :
    SameOrNeighbours F (.num (c * ((m : ℚ) * 2 ^ e))) (.num (c * (((m + 1 : ℕ) : ℚ) * 2 ^ e))) ∧
    SameOrNeighbours F (.num (c * (((m + 1 : ℕ) : ℚ) * 2 ^ e))) (.num (c * ((m : ℚ) * 2 ^ e))) := by
  have hm0 : (0 : ℚ) < m := by
    have : 0 < m := lt_of_lt_of_le (by positivity) hm.1
    exact_mod_cast this
  have hu := two_zpow_pos e
  have hcc : c * c = 1 := by rcases hc with rfl | rfl <;> norm_num
  have habs : ∀ z : ℚ, 0 < z → |c * z| = z := by
    intro z hz
    rcases hc with rfl | rfl
    · rw [neg_one_mul, abs_neg, abs_of_pos hz]
    · rw [one_mul, abs_of_pos hz]
  have p1 : 0 < (m : ℚ) * 2 ^ e := by positivity
  have p2 : 0 < ((m + 1 : ℕ) : ℚ) * 2 ^ e := by positivity
  have prod : 0 < c * ((m : ℚ) * 2 ^ e) * (c * (((m + 1 : ℕ) : ℚ) * 2 ^ e)) := by
    rw [show c * ((m : ℚ) * 2 ^ e) * (c * (((m + 1 : ℕ) : ℚ) * 2 ^ e)) = c * c * ((m : ℚ) * 2 ^ e * (((m + 1 : ℕ) : ℚ) * 2 ^ e)) by ring, hcc, one_mul]
    positivity
  have gap : ∀ (m' : ℕ) (e' : ℤ), IsSig (F + 1) m' → (m : ℚ) * 2 ^ e < m' * 2 ^ e' → ¬ (m' : ℚ) * 2 ^ e' < ((m + 1 : ℕ) : ℚ) * 2 ^ e := by
    intro m' e' hs h1 h2
    have := sig_gap (by omega) hm hs h1
    push_cast at h2
    linarith
  have lt : (m : ℚ) * 2 ^ e < ((m + 1 : ℕ) : ℚ) * 2 ^ e := by push_cast; linarith
  constructor
  · refine ⟨_, _, rfl, rfl, prod, ?_⟩
    rw [habs _ p1, habs _ p2]
    rintro ⟨m', e', hs, ⟨h1, h2⟩ | ⟨h1, h2⟩⟩
    · exact gap m' e' hs h1 h2
    · linarith
  · refine ⟨_, _, rfl, rfl, by rw [mul_comm]; exact prod, ?_⟩
    rw [habs _ p1, habs _ p2]
    rintro ⟨m', e', hs, ⟨h1, h2⟩ | ⟨h1, h2⟩⟩
    · linarith
    · exact gap m' e' hs h1 h2

/-- How a cut number compares with the rounded one. -/
theorem cut_vs_rounded {E F : ℕ} {q : ℚ} {d : Datum} (hF : 1 ≤ F) (hk : ∃ k : ℤ, q = k * 2 ^ (-bias E - F))
    (h : CutRounded E F q d) :
    ∃ d', Rounded E F q d' ∧
      (d = d' ↔ (2 : ℚ) ^ ((2 : ℤ) ^ E - bias E) ≤ |q| ∨
        ∃ (m : ℕ) (e : ℤ), IsSig (F + 1) m ∧ (m : ℚ) * 2 ^ e ≤ |q| ∧ |q| < ((m : ℚ) + 1 / 2) * 2 ^ e) ∧
      (d = d' ∨ SameOrNeighbours F d d' ∨
        (d' = .inf (decide (q < 0)) ∧ (∃ v, d = .num v) ∧
          ((2 : ℚ) ^ (F + 1) - 1 / 2) * 2 ^ ((2 : ℤ) ^ E - 1 - bias E - F) ≤ |q|)) := by
  obtain ⟨m, e, hm, h1, h2, hd⟩ := h
  have hu := two_zpow_pos e
  have hm0 : (0 : ℚ) < m := by
    have : 0 < m := lt_of_lt_of_le (by positivity) hm.1
    exact_mod_cast this
  rcases lt_or_ge |q| (((m : ℚ) + 1 / 2) * 2 ^ e) with h5 | h5
  · have ht : (2 * (m : ℚ) + 1) * 2 ^ (e - 1) = ((m : ℚ) + 1 / 2) * 2 ^ e := by rw [two_zpow_pred]; ring
    have hn := (nearest_core (p := F + 1) (m := m) (e := e) (x := |q|) (r := false)
      (s := decide (|q| ≠ (m : ℚ) * 2 ^ e)) (by omega) hm
      (by simp only [Bool.false_eq_true, if_false, add_zero]; rw [two_zpow_pred]; linarith)
      (by simp only [Bool.false_eq_true, if_false, add_zero]; rw [ht]; exact h5)
      (by
        simp only [Bool.false_eq_true, if_false, add_zero]
        rw [show 2 * (m : ℚ) * 2 ^ (e - 1) = m * 2 ^ e by rw [two_zpow_pred]; ring]
        simp)).1 (by simp)
    have hdm : d = rangeCheck E F (decide (q < 0)) m e := by
      rw [hd, if_neg]
      rintro ⟨h, -⟩
      linarith
    exact ⟨d, ⟨m, e, hn, hdm⟩, ⟨fun _ => .inr ⟨m, e, hm, h1, h5⟩, fun _ => rfl⟩, .inl rfl⟩
  · obtain ⟨d', hr, r1, r2⟩ := upper_half_rounded (E := E) hF hm h5 h2
    refine ⟨d', hr, ?_⟩
    -- no other significand has the number in the lower half
    have hno : ¬ ∃ (m : ℕ) (e : ℤ), IsSig (F + 1) m ∧ (m : ℚ) * 2 ^ e ≤ |q| ∧ |q| < ((m : ℚ) + 1 / 2) * 2 ^ e := by
      rintro ⟨m', e', hm', a1, a2⟩
      have hu' := two_zpow_pos e'
      have key : (m : ℚ) * 2 ^ e = m' * 2 ^ e' := by
        rcases lt_trichotomy ((m : ℚ) * 2 ^ e) (m' * 2 ^ e') with h | h | h
        · have := sig_gap (by omega) hm hm' h
          linarith
        · exact h
        · have := sig_gap (by omega) hm' hm h
          linarith
      obtain ⟨rfl, rfl⟩ := sig_unique (by omega) hm hm' key
      linarith
    -- the number is not below the range
    have hlow : 0 ≤ e + F + bias E := by
      by_contra hc
      push Not at hc
      obtain ⟨k, rfl⟩ := hk
      obtain ⟨j, hj⟩ : ∃ j : ℕ, -bias E - F = e + (j + 1 : ℕ) := ⟨(-bias E - F - e - 1).toNat, by push_cast; omega⟩
      rw [hj, zpow_add₀ (by norm_num), zpow_natCast, abs_mul, abs_of_pos (show (0 : ℚ) < 2 ^ e * 2 ^ (j + 1) by positivity)] at h5 h2
      have z1 : (m : ℚ) + 1 / 2 ≤ |(k : ℚ)| * 2 ^ (j + 1) := by nlinarith
      have z2 : |(k : ℚ)| * 2 ^ (j + 1) < (m : ℚ) + 1 := by nlinarith
      have y1 : ((|k| * 2 ^ (j + 1) : ℤ) : ℚ) < ((m + 1 : ℤ) : ℚ) := by push_cast; exact z2
      have y2 : ((m : ℤ) : ℚ) < ((|k| * 2 ^ (j + 1) : ℤ) : ℚ) := by push_cast; linarith
      have y1' := Int.cast_lt.mp y1
      have y2' := Int.cast_lt.mp y2
      omega
    simp only [hno, or_false]
    have hover : (2 : ℚ) ^ ((2 : ℤ) ^ E - bias E) ≤ |q| ↔ (2 : ℤ) ^ E ≤ e + F + bias E := by
      constructor
      · intro h
        by_contra hc
        push Not at hc
        have hs := sig_upper hm e
        have hn : ((m : ℚ) + 1) * 2 ^ e ≤ 2 ^ (e + F + 1) := by
          have hm2 : (m : ℚ) + 1 ≤ 2 ^ (F + 1) := by exact_mod_cast hm.2
          have := mul_le_mul_of_nonneg_right hm2 hu.le
          rwa [← zpow_natCast, ← zpow_add₀ (by norm_num), show ((F + 1 : ℕ) : ℤ) + e = e + F + 1 by push_cast; ring] at this
        have : (2 : ℚ) ^ (e + F + 1) ≤ 2 ^ ((2 : ℤ) ^ E - bias E) := zpow_le_zpow_right₀ (by norm_num) (by omega)
        linarith
      · intro h
        have hs := sig_lower hm e
        have : (2 : ℚ) ^ ((2 : ℤ) ^ E - bias E) ≤ 2 ^ (e + F) := zpow_le_zpow_right₀ (by norm_num) (by omega)
        linarith
    rw [hover]
    by_cases ho : (2 : ℤ) ^ E ≤ e + F + bias E
    · have e1 : ∀ (b : Bool) (m' : ℕ) (e' : ℤ), e ≤ e' → rangeCheck E F b m' e' = .inf b := by
        intro b m' e' he
        unfold rangeCheck
        have : (0 : ℤ) < 2 ^ E := by positivity
        rw [if_neg (by omega), if_pos (by omega)]
      have hdd : d = d' := by
        rw [hd, e1 _ _ _ le_rfl]
        by_cases ht : |q| = ((m : ℚ) + 1 / 2) * 2 ^ e ∧ m % 2 = 0
        · rw [r1 ht, e1 _ _ _ le_rfl]
        · rcases r2 ht with ⟨-, h⟩ | ⟨-, h⟩
          · rw [h, e1 _ _ _ le_rfl]
          · rw [h, e1 _ _ _ (by omega)]
      exact ⟨⟨fun _ => ho, fun _ => hdd⟩, .inl hdd⟩
    · have e1 : ∀ (b : Bool) (m' : ℕ), rangeCheck E F b m' e = .num ((if b then -1 else 1) * ((m' : ℚ) * 2 ^ e)) := by
        intro b m'
        unfold rangeCheck
        rw [if_neg (by omega), if_neg ho]
      have hc : (if decide (q < 0) = true then (-1 : ℚ) else 1) = -1 ∨ (if decide (q < 0) = true then (-1 : ℚ) else 1) = 1 := by
        split
        · exact .inl rfl
        · exact .inr rfl
      have hc0 : (if decide (q < 0) = true then (-1 : ℚ) else 1) ≠ 0 := by
        rcases hc with h | h <;> rw [h] <;> norm_num
      obtain ⟨nb1, nb2⟩ := neighbours_succ (e := e) hm hc
      have hne : ∀ (v w : ℚ), Datum.num v = .num w → v = w := fun v w h => by injection h
      have mne : ¬ (m : ℚ) * 2 ^ e = ((m + 1 : ℕ) : ℚ) * 2 ^ e := by
        push_cast
        intro h
        nlinarith
      simp only [iff_false, ho]
      by_cases ht : |q| = ((m : ℚ) + 1 / 2) * 2 ^ e ∧ m % 2 = 0
      · rw [r1 ht, hd, if_pos ht, e1, e1]
        refine ⟨fun h => ?_, .inr (.inl nb2)⟩
        exact mne (mul_left_cancel₀ hc0 (hne _ _ h)).symm
      · rw [hd, if_neg ht, e1]
        rcases r2 ht with ⟨-, h⟩ | ⟨hmt, h⟩
        · rw [h, e1]
          refine ⟨fun h => ?_, .inr (.inl nb1)⟩
          exact mne (mul_left_cancel₀ hc0 (hne _ _ h))
        · have hval : ((2 ^ F : ℕ) : ℚ) * 2 ^ (e + 1) = ((m + 1 : ℕ) : ℚ) * 2 ^ e := by
            rw [hmt, two_zpow_succ, pow_succ]; push_cast; ring
          by_cases ho2 : (2 : ℤ) ^ E ≤ e + 1 + F + bias E
          · have hd' : d' = .inf (decide (q < 0)) := by
              rw [h]
              unfold rangeCheck
              rw [if_neg (by omega), if_pos ho2]
            rw [hd']
            refine ⟨fun h => Datum.noConfusion h, .inr (.inr ⟨rfl, ⟨_, rfl⟩, ?_⟩)⟩
            have hee : e = (2 : ℤ) ^ E - 1 - bias E - F := by omega
            rw [← hee]
            have hm' : (m : ℚ) + 1 = 2 ^ (F + 1) := by exact_mod_cast hmt
            rw [← hm']
            linarith
          · have hd' : d' = .num ((if decide (q < 0) = true then (-1 : ℚ) else 1) * (((m + 1 : ℕ) : ℚ) * 2 ^ e)) := by
              rw [h, ← hval]
              unfold rangeCheck
              rw [if_neg (by omega), if_neg ho2]
            rw [hd']
            refine ⟨fun h => ?_, .inr (.inl nb1)⟩
            exact mne (mul_left_cancel₀ hc0 (hne _ _ h))

/-- **C15, version 4 of the single-path adder, exactly.** It stops at an assertion exactly if the alignment distance is not
clamped in the format (`F+3 ≥ 2^(E-1)`) and the operands are more than `F+3` binades apart. In every other case it returns the sum
cut, not rounded: see `CutsTo`. -/
theorem C15_add_single_v4_value {E F : ℕ} (hE : 2 ≤ E) (hF : 1 ≤ F) (hfmt : F + 3 < 2 ^ E) (x y : Fp E F) (vx vy : ℚ)
    (hx : x.datum = .num vx) (hy : y.datum = .num vy) :
    (AddSingle.addSameV4 x y = none ↔ 2 ^ (E - 1) ≤ F + 3 ∧ F + 4 ≤ (Int.log 2 |vx| - Int.log 2 |vy|).natAbs) ∧
    ∀ r, AddSingle.addSameV4 x y = some r → CutsTo E F vx vy r.datum := by
  have key : ∀ (X Y : Fp E F) (p q : ℚ), X.datum = .num p → Y.datum = .num q → AddSingle.Ordered X Y →
      ((match AddSingle.shiftVal? E F (subW (E + 1) X.exp Y.exp) with
        | none => none
        | some s => if s < F + 4 then AddSingle.core AddSingle.roundBitV4 (lzoc? (F + 5) (intlog2 (F + 5))) X Y else none) = none ↔
          2 ^ (E - 1) ≤ F + 3 ∧ F + 4 ≤ (Int.log 2 |p| - Int.log 2 |q|).natAbs) ∧
      ∀ r, (match AddSingle.shiftVal? E F (subW (E + 1) X.exp Y.exp) with
        | none => none
        | some s => if s < F + 4 then AddSingle.core AddSingle.roundBitV4 (lzoc? (F + 5) (intlog2 (F + 5))) X Y else none) = some r →
        CutsTo E F p q r.datum := by
    intro X Y p q hp hq ho
    have hfx := (datum_num_iff.mp hp).1
    have hfy := (datum_num_iff.mp hq).1
    have hord := ho.2 (by omega)
    obtain ⟨o1, -⟩ := AddSingle.ordered_exp hF hord
    have hXe := X.exp_lt (show 1 ≤ E by omega)
    have hd : subW (E + 1) X.exp Y.exp = X.exp - Y.exp := AddSingle.subW_of_le o1 (by rw [pow_succ]; omega)
    have hlog : (Int.log 2 |p| - Int.log 2 |q|).natAbs = X.exp - Y.exp := by
      rw [log_abs_datum hF hp, log_abs_datum hF hq]
      omega
    rw [hlog]
    have hil := AddSingle.intlog2_lt_iff (E := E) (F := F) (by omega)
    cases hs : AddSingle.shiftVal? E F (subW (E + 1) X.exp Y.exp) with
    | none =>
      exfalso
      have hle := intlog2_le hfmt
      unfold AddSingle.shiftVal? at hs
      dsimp only at hs
      rcases Nat.lt_or_eq_of_le hle with h | h
      · rw [if_pos h] at hs; cases hs
      · rw [if_neg (by omega), if_pos h.symm] at hs; cases hs
    | some s =>
      dsimp only
      have hc := AddSingle.shiftVal_cases (d := X.exp - Y.exp) hfmt (by omega) (by rw [← hd]; exact hs)
      by_cases h4 : s < F + 4
      · rw [if_pos h4]
        obtain ⟨r, hr, hcut⟩ := AddSingle.ordered_num_cut (AddSingle.lzoc_normalises F) hE hF hfmt hs h4 hp hq hord
        rw [hr]
        refine ⟨⟨fun h => (by cases h), ?_⟩, ?_⟩
        · rintro ⟨h1, h2⟩
          exfalso
          rcases hc with ⟨h, -⟩ | ⟨-, -, h⟩ <;> omega
        · intro r' h
          rw [← Option.some.inj h]
          exact hcut
      · rw [if_neg h4]
        refine ⟨⟨fun _ => ?_, fun _ => rfl⟩, ?_⟩
        · rcases hc with ⟨h, h'⟩ | ⟨h, -⟩ <;> omega
        · intro r h; cases h
  obtain ⟨h1, h2⟩ := AddSingle.flagsExpFrac_lt (by omega) hF x y
  unfold AddSingle.addSameV4
  by_cases h : x.flagsExpFrac < y.flagsExpFrac
  · have := key y x vy vx hy hx (h1 h)
    simp only [h, decide_true, if_true]
    rw [show Int.log 2 |vx| - Int.log 2 |vy| = -(Int.log 2 |vy| - Int.log 2 |vx|) by ring, Int.natAbs_neg]
    exact ⟨this.1, fun r hr => cutsTo_comm.mp (this.2 r hr)⟩
  · have := key x y vx vy hx hy (h2 h)
    simp only [h, decide_false, Bool.false_eq_true, if_false]
    exact this

theorem sum_multiple {E F : ℕ} {X Y : Fp E F} {vx vy : ℚ} (hX : X.datum = .num vx) (hY : Y.datum = .num vy) :
    ∃ k : ℤ, vx + vy = k * 2 ^ (-bias E - F) := by
  have key : ∀ (Z : Fp E F) (v : ℚ), Z.datum = .num v → ∃ k : ℤ, v = k * 2 ^ (-bias E - F) := by
    intro Z v hZ
    obtain ⟨-, rfl⟩ := datum_num_iff.mp hZ
    refine ⟨(if Z.sign = 1 then -1 else 1) * ((2 ^ F + Z.frac : ℕ) * 2 ^ Z.exp), ?_⟩
    rw [show (Z.exp : ℤ) - bias E - F = (Z.exp : ℤ) + (-bias E - F) by ring, zpow_add₀ (by norm_num), zpow_natCast]
    split <;> push_cast <;> ring
  obtain ⟨a, ha⟩ := key X vx hX
  obtain ⟨b, hb⟩ := key Y vy hY
  exact ⟨a + b, by rw [ha, hb]; push_cast; ring⟩

/-- **C15, version 4 of the single-path adder: exactly the sums it gets right.** When it returns a result, it is the correctly
rounded sum exactly if the sum is zero, or overflows before rounding, or lies in the lower half of the gap between two numbers (or
is a number). -/
theorem C15_add_single_v4_correct_iff {E F : ℕ} (hE : 2 ≤ E) (hF : 1 ≤ F) (hfmt : F + 3 < 2 ^ E) (x y r : Fp E F) (vx vy : ℚ)
    (hx : x.datum = .num vx) (hy : y.datum = .num vy) (hr : AddSingle.addSameV4 x y = some r) :
    AddsTo E F vx vy r.datum ↔ vx + vy = 0 ∨ (2 : ℚ) ^ ((2 : ℤ) ^ E - bias E) ≤ |vx + vy| ∨
      ∃ (m : ℕ) (e : ℤ), IsSig (F + 1) m ∧ (m : ℚ) * 2 ^ e ≤ |vx + vy| ∧ |vx + vy| < ((m : ℚ) + 1 / 2) * 2 ^ e := by
  have hc := (C15_add_single_v4_value hE hF hfmt x y vx vy hx hy).2 r hr
  unfold CutsTo at hc
  unfold AddsTo
  by_cases h0 : vx + vy = 0
  · rw [if_pos h0] at hc ⊢
    simp [hc, h0]
  · rw [if_neg h0] at hc ⊢
    obtain ⟨d', h1, h2, -⟩ := cut_vs_rounded hF (sum_multiple hx hy) hc
    rw [or_iff_right h0, ← h2]
    exact ⟨fun h => rounded_unique h h1, fun h => by rw [h]; exact h1⟩

/-- **C17, version 4.** Zeros, infinities and NaN are treated like in the other versions, in the formats in which the distance is
clamped (in the others an operand that is not a number can still make it stop: the distance is computed from its exponent field). -/
theorem C17_add_single_v4_exceptions {E F : ℕ} (hE : 2 ≤ E) (hF : 1 ≤ F) (hfmt : F + 3 < 2 ^ (E - 1)) (x y : Fp E F) (d : Datum)
    (hd : addSpecial x.datum y.datum = some d) : ∃ r, AddSingle.addSameV4 x y = some r ∧ r.datum = d := by
  have hp : 2 ^ E = 2 * 2 ^ (E - 1) := by
    conv_lhs => rw [show E = (E - 1) + 1 by omega, pow_succ]
    ring
  have hil := (AddSingle.intlog2_lt_iff (E := E) (F := F) (by omega)).mpr hfmt
  have key : ∀ X Y : Fp E F, AddSingle.Ordered X Y → addSpecial X.datum Y.datum = some d →
      ∃ r, (match AddSingle.shiftVal? E F (subW (E + 1) X.exp Y.exp) with
        | none => none
        | some s => if s < F + 4 then AddSingle.core AddSingle.roundBitV4 (lzoc? (F + 5) (intlog2 (F + 5))) X Y else none) = some r ∧
        r.datum = d := by
    intro X Y ho hd
    obtain ⟨s, hs, -⟩ := AddSingle.shiftVal_some (F := F) (subW (E + 1) X.exp Y.exp) (show 1 ≤ E by omega) (by omega) (by omega)
    have hs4 : s < F + 4 := by
      unfold AddSingle.shiftVal? at hs
      dsimp only at hs
      rw [if_pos hil] at hs
      injection hs with hs
      obtain ⟨h1, h2, h3⟩ := intlog2_spec (n := F + 3) (by omega)
      split at hs
      · omega
      · rename_i hD
        rw [getBits_zero_eq_mod, show intlog2 (F + 3) - 1 + 1 = intlog2 (F + 3) by omega, Nat.mod_eq_of_lt (by omega)] at hs
        omega
    rw [hs]
    dsimp only
    rw [if_pos hs4]
    exact AddSingle.core_special_cut (AddSingle.lzoc_normalises F) hE hF (by omega) (by omega) ho hd
  obtain ⟨h1, h2⟩ := AddSingle.flagsExpFrac_lt (by omega) hF x y
  unfold AddSingle.addSameV4
  by_cases h : x.flagsExpFrac < y.flagsExpFrac
  · simp only [h, decide_true, if_true]
    exact key y x (h1 h) (by rwa [AddSingle.addSpecial_comm])
  · simp only [h, decide_false, Bool.false_eq_true, if_false]
    exact key x y (h2 h) hd

/-- The sum of 1 and 1 is right, the sum of 9/8 and 5/16 is cut, to 11/8 instead of 3/2; in a format without the clamp the sum of
numbers far apart is not computed. -/
example : AddSingle.addSameV4 (Fp.mk4 5 3 1 0 15 0) (Fp.mk4 5 3 1 0 15 0) = some (Fp.mk4 5 3 1 0 16 0) ∧
    AddSingle.addSameV4 (Fp.mk4 5 3 1 0 15 1) (Fp.mk4 5 3 1 0 13 2) = some (Fp.mk4 5 3 1 0 15 3) ∧
    AddSingle.addSameV4 (Fp.mk4 3 2 1 0 6 0) (Fp.mk4 3 2 1 0 0 0) = none ∧
    AddSingle.addSameV4 (Fp.mk4 3 2 1 0 6 0) (Fp.mk4 3 2 1 0 1 0) = some (Fp.mk4 3 2 1 0 6 0) := by decide +kernel

end Thls
