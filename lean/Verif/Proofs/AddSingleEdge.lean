import Verif.Proofs.AddSingle

/-! # The single-path adders for a given pair of operands: the shift distance fits the shifter -/

namespace Thls
open Spec
namespace AddSingle

/-- The distance by which the second operand is shifted fits the shifter. -/
def Fits {E F : ℕ} (X Y : Fp E F) : Prop := ∃ s, shiftVal? E F (subW (E + 1) X.exp Y.exp) = some s ∧ s < 2 * F + 4

theorem ordered_num_of_fits {E F : ℕ} {norm : ℕ → Option (ℕ × ℕ)} (hn : Normalises F norm) (hE : 2 ≤ E) (hF : 1 ≤ F)
    (hfmt : F + 3 < 2 ^ E) {X Y : Fp E F} (hw : Fits X Y) {vx vy : ℚ} (hX : X.datum = .num vx)
    (hY : Y.datum = .num vy) (hord : Y.exp * 2 ^ F + Y.frac ≤ X.exp * 2 ^ F + X.frac) :
    ∃ r, core roundBit norm X Y = some r ∧ (vx + vy = 0 → r.datum = .zero false) ∧
      (vx + vy ≠ 0 → ¬ Clamped X Y → Rounded E F (vx + vy) r.datum) ∧ (Clamped X Y → r.datum = X.datum) := by
  obtain ⟨hfx, rfl⟩ := datum_num_iff.mp hX
  obtain ⟨hfy, rfl⟩ := datum_num_iff.mp hY
  obtain ⟨o1, o2⟩ := ordered_exp hF hord
  have hXf := X.frac_lt hF
  have hYf := Y.frac_lt hF
  have hXe := X.exp_lt (show 1 ≤ E by omega)
  obtain ⟨s, hs, hsl⟩ := hw
  have hm : 2 ^ F + Y.frac < 2 ^ (F + 1) := (sig_isSig hYf).2
  have hal := addAlign_spec (F := F) (pad := 0) hm (by omega : s < 2 * F + 4 + 0)
  have hd : subW (E + 1) X.exp Y.exp = X.exp - Y.exp := subW_of_le o1 (by rw [pow_succ]; omega)
  have hc := shiftVal_cases (d := X.exp - Y.exp) hfmt (by omega) (by rw [← hd]; exact hs)
  have hyl := align_lt (s := s) hm
  have hstk := sticky_shift (s := s) hm
  have e2 : 2 ^ (F + 2) = 4 * 2 ^ F := by rw [pow_add]; ring
  have e1 : 2 ^ (F + 1) = 2 * 2 ^ F := by rw [pow_succ]; ring
  -- the aligned significand is not larger than the other one
  have hyle : 4 * (2 ^ F + Y.frac) / 2 ^ s ≤ 4 * (2 ^ F + X.frac) := by
    rcases Nat.eq_zero_or_pos s with h0 | h0
    · have : X.exp = Y.exp := by rcases hc with ⟨h, -⟩ | ⟨h, -⟩ <;> omega
      rw [h0]
      have := o2 this.symm
      simp only [pow_zero, Nat.div_one]
      omega
    · refine (Nat.div_le_div_left (b := 2 ^ s) (c := 2) ?_ (by norm_num)).trans ?_
      · calc 2 = 2 ^ 1 := by norm_num
          _ ≤ 2 ^ s := Nat.pow_le_pow_right (by norm_num) h0
      · omega
  have hle : decide (X.sign = Y.sign) = false → 4 * (2 ^ F + Y.frac) / 2 ^ s +
      (decide ((2 ^ F + Y.frac) * 2 ^ (F + 3) / 2 ^ s % 2 ^ (F + 1) ≠ 0)).toNat ≤ 4 * (2 ^ F + X.frac) := by
    intro _
    cases hst : decide ((2 ^ F + Y.frac) * 2 ^ (F + 3) / 2 ^ s % 2 ^ (F + 1) ≠ 0) with
    | false => simpa using hyle
    | true =>
      have := hstk hst
      simp only [Bool.toNat_true]
      omega
  obtain ⟨r, hr, H⟩ := core_aligned hn hE hF hfmt hfx (by omega) hs
    (by rw [if_neg (by omega)]; exact hal) hyl hstk hle
  refine ⟨r, hr, ?_⟩
  have hval := value_sum (E := E) (F := F) (mx := 2 ^ F + X.frac) (my := 2 ^ F + Y.frac) X.sign_lt Y.sign_lt o1
  have hrest : (s = X.exp - Y.exp ∧ s ≤ F + 3) ∨ (F + 2 ≤ X.exp - Y.exp ∧ F + 3 ≤ s) := by
    rcases hc with ⟨h, h'⟩ | ⟨h, h', -⟩
    · rcases Nat.lt_or_ge (F + 3) s with h5 | h5
      · right; omega
      · left; exact ⟨h, h5⟩
    · right; omega
  generalize hv : ((if X.sign = 1 then (-1 : ℚ) else 1) * (((2 ^ F + X.frac : ℕ) : ℚ) * 2 ^ ((X.exp : ℤ) - bias E - F)) +
      (if Y.sign = 1 then (-1 : ℚ) else 1) * (((2 ^ F + Y.frac : ℕ) : ℚ) * 2 ^ ((Y.exp : ℤ) - bias E - F))) = q at *
  rcases hrest with ⟨hse, hs3⟩ | ⟨hdd, hs3⟩
  · have hal' := aligned_of_le (m := 2 ^ F + Y.frac) hs3
    obtain ⟨z1, z2⟩ := H _ hal' q (by rw [hval, hse])
    refine ⟨fun h => z1 h hfy, fun h _ => z2 h, ?_⟩
    rintro ⟨c1, c2, c3, -⟩
    exfalso
    rcases hc with ⟨h, h'⟩ | ⟨h, h', -⟩ <;> omega
  · have hy0 : 4 * (2 ^ F + Y.frac) / 2 ^ s = 0 := align_big hm hs3
    rw [hy0] at H
    generalize decide ((2 ^ F + Y.frac) * 2 ^ (F + 3) / 2 ^ s % 2 ^ (F + 1) ≠ 0) = st at *
    -- a value the hardware result is certainly right for
    obtain ⟨y'', hal'', hy0'', hy1''⟩ : ∃ y'' : ℚ, Aligned y'' 0 st ∧ 0 ≤ y'' ∧ y'' ≤ 1 := by
      cases st with
      | false => exact ⟨0, ⟨by norm_num, by norm_num, by simp⟩, le_rfl, by norm_num⟩
      | true => exact ⟨1 / 2, ⟨by norm_num, by norm_num, by norm_num⟩, by norm_num, by norm_num⟩
    have hsig := sig_isSig hXf
    obtain ⟨-, z2⟩ := H _ hal'' _ rfl
    have ha'' := rounded_absorb (E := E) (ex := X.exp) (sx := X.sign) (eq := decide (X.sign = Y.sign)) hF hsig hy0''
      (by linarith) (fun _ _ => hy1'') rfl
    have hmx : (1 : ℚ) ≤ ((2 ^ F + X.frac : ℕ) : ℚ) := by
      have : 1 ≤ 2 ^ F + X.frac := by have : 0 < 2 ^ F := by positivity
                                      omega
      exact_mod_cast this
    have hpos'' : 0 < sumQ (decide (X.sign = Y.sign)) (2 ^ F + X.frac) y'' := by
      unfold sumQ; split <;> linarith
    have hr' : r.datum = rangeCheck E F (decide (X.sign = 1)) (2 ^ F + X.frac) ((X.exp : ℤ) - bias E - F) := by
      refine rounded_unique (z2 ?_) ha''
      have := mul_pos hpos'' (two_zpow_pos ((X.exp : ℤ) - bias E - F - 2))
      split
      · rw [neg_one_mul]; exact (neg_neg_of_pos this).ne
      · rw [one_mul]; exact this.ne'
    -- the true value
    have hmq : ((2 ^ F + Y.frac : ℕ) : ℚ) < 2 ^ (F + 1) := by exact_mod_cast hm
    have hpd : (2 : ℚ) ^ (F + 2) ≤ 2 ^ (X.exp - Y.exp) := pow_le_pow_right₀ (by norm_num) hdd
    have hpd0 : (0 : ℚ) < 2 ^ (X.exp - Y.exp) := by positivity
    have e3 : (2 : ℚ) ^ (F + 2) = 2 * 2 ^ (F + 1) := by rw [pow_succ]; ring
    have hy2 : 4 * ((2 ^ F + Y.frac : ℕ) : ℚ) / 2 ^ (X.exp - Y.exp) < 2 := by
      rw [div_lt_iff₀ hpd0]; linarith
    have hy0' : 0 ≤ 4 * ((2 ^ F + Y.frac : ℕ) : ℚ) / 2 ^ (X.exp - Y.exp) := by positivity
    refine ⟨?_, ?_, ?_⟩
    · intro h0
      exfalso
      have : 0 < sumQ (decide (X.sign = Y.sign)) (2 ^ F + X.frac) (4 * ((2 ^ F + Y.frac : ℕ) : ℚ) / 2 ^ (X.exp - Y.exp)) := by
        unfold sumQ; split <;> linarith
      have := mul_pos this (two_zpow_pos ((X.exp : ℤ) - bias E - F - 2))
      rw [hval] at h0
      revert h0
      split
      · rw [neg_one_mul]; intro h0; linarith
      · rw [one_mul]; intro h0; linarith
    · intro _ hcl
      rw [hr']
      refine rounded_absorb hF hsig hy0' hy2 ?_ hval
      intro hsg hfr
      rw [div_le_one hpd0]
      rcases Nat.lt_or_ge (F + 2) (X.exp - Y.exp) with h5 | h5
      · have hp3 : (2 : ℚ) ^ (F + 3) ≤ 2 ^ (X.exp - Y.exp) := pow_le_pow_right₀ (by norm_num) h5
        have e4 : (2 : ℚ) ^ (F + 3) = 4 * 2 ^ (F + 1) := by rw [show F + 3 = (F + 1) + 2 by ring, pow_add]; ring
        linarith
      · have hdeq : X.exp - Y.exp = F + 2 := by omega
        have hY0 : Y.frac = 0 := by
          by_contra hne
          apply hcl
          refine ⟨?_, of_decide_eq_false hsg, by omega, by omega, hne⟩
          rcases hc with ⟨h, h'⟩ | ⟨h, h', h''⟩
          · exfalso; omega
          · exact h''
        rw [hdeq, hY0, e3]
        push_cast
        rw [pow_succ]
        linarith
    · intro _
      rw [hr', rangeCheck_self hXe, datum_normal X hfx]

theorem ordered_zero_of_fits {E F : ℕ} {norm : ℕ → Option (ℕ × ℕ)} (hn : Normalises F norm) (hE : 2 ≤ E) (hF : 1 ≤ F)
    (hfmt : F + 3 < 2 ^ E) {X Y : Fp E F} (hw : Fits X Y) (hX : X.flags = 1) (hY : Y.flags = 0) :
    ∃ r, core roundBit norm X Y = some r ∧ r.datum = X.datum := by
  have hXf := X.frac_lt hF
  have hXe := X.exp_lt (show 1 ≤ E by omega)
  obtain ⟨s, hs, hsl⟩ := hw
  have hal := addAlign_spec (F := F) (pad := 0) (m := 0) (by positivity) (by omega : s < 2 * F + 4 + 0)
  simp only [Nat.mul_zero, Nat.zero_div, Nat.zero_mul, Nat.zero_mod, ne_eq, not_true_eq_false, decide_false] at hal
  obtain ⟨r, hr, H⟩ := core_aligned hn hE hF hfmt hX (by omega) hs
    (by rw [if_pos hY]; exact hal) (by positivity) (by simp) (by simp)
  refine ⟨r, hr, ?_⟩
  have hal0 : Aligned 0 0 false := ⟨by norm_num, by norm_num, by simp⟩
  obtain ⟨-, z2⟩ := H 0 hal0 _ rfl
  have ha := rounded_absorb (E := E) (ex := X.exp) (sx := X.sign) (eq := decide (X.sign = Y.sign)) hF (sig_isSig hXf)
    le_rfl (by norm_num) (fun _ _ => by norm_num) rfl
  rw [datum_normal X hX, ← rangeCheck_self hXe]
  refine rounded_unique (z2 ?_) ha
  have h1 : 0 < sumQ (decide (X.sign = Y.sign)) (2 ^ F + X.frac) 0 := by
    unfold sumQ
    have : (0 : ℚ) < ((2 ^ F + X.frac : ℕ) : ℚ) := by
      have : 0 < 2 ^ F + X.frac := by positivity
      exact_mod_cast this
    split <;> linarith
  have := mul_pos h1 (two_zpow_pos ((X.exp : ℤ) - bias E - F - 2))
  split
  · rw [neg_one_mul]; exact (neg_neg_of_pos this).ne
  · rw [one_mul]; exact this.ne'

theorem core_some_of_fits {E F : ℕ} {norm : ℕ → Option (ℕ × ℕ)} (hn : Normalises F norm) (hE : 1 ≤ E) (hF : 1 ≤ F)
    (rule : Bool → Bool → Bool → Bool → Bool) (X Y : Fp E F) (hw : Fits X Y) :
    ∃ T z, core rule norm X Y = some (pack E F X.sign Y.sign X.flags Y.flags T z) ∧ T < 2 ^ (E + F + 3) := by
  obtain ⟨s, hs, hsl⟩ := hw
  have hm : (if Y.flags = 0b00 then 0 else opadHi1 F Y.frac) < 2 ^ (F + 1) := by
    split
    · positivity
    · exact (sig_isSig (Y.frac_lt hF)).2
  have hal := addAlign_spec (F := F) (pad := 0) hm (by omega : s < 2 * F + 4 + 0)
  unfold core
  dsimp only
  rw [hs]
  dsimp only
  rw [hal]
  dsimp only
  generalize decide ((if Y.flags = 0b00 then 0 else opadHi1 F Y.frac) * 2 ^ (F + 3) / 2 ^ s % 2 ^ (F + 1) ≠ 0) = st
  generalize hA : addFar F X.frac (4 * (if Y.flags = 0b00 then 0 else opadHi1 F Y.frac) / 2 ^ s) (X.sign != Y.sign) st = A
  have hAl : A < 2 ^ (F + 4) := by rw [← hA]; unfold addFar; exact addW_lt _ _ _
  have hg : concat 1 A st.toNat < 2 ^ (F + 5) := by
    have := Bool.toNat_le st
    have e5 : 2 ^ (F + 5) = 2 * 2 ^ (F + 4) := by rw [pow_succ]; ring
    unfold concat; omega
  generalize concat 1 A st.toNat = g at *
  have hTl : ∀ S c, roundedExpFrac rule E F X.exp S c < 2 ^ (E + F + 3) := fun S c => by
    unfold roundedExpFrac; exact addW_lt _ _ _
  by_cases h0 : g = 0
  · obtain ⟨o, ho⟩ := hn.zero
    rw [h0, ho]
    exact ⟨_, _, rfl, hTl _ _⟩
  · obtain ⟨c, c1, -⟩ := hn.pos g hg h0
    rw [c1]
    exact ⟨_, _, rfl, hTl _ _⟩

theorem core_special_of_fits {E F : ℕ} {norm : ℕ → Option (ℕ × ℕ)} (hn : Normalises F norm) (hE : 2 ≤ E) (hF : 1 ≤ F)
    (hfmt : F + 3 < 2 ^ E) {X Y : Fp E F} (hw : Fits X Y) (hord : Ordered X Y) {d : Datum}
    (hd : addSpecial X.datum Y.datum = some d) : ∃ r, core roundBit norm X Y = some r ∧ r.datum = d := by
  obtain ⟨hle, -⟩ := hord
  have hsx := X.sign_lt
  have hsy := Y.sign_lt
  by_cases h1 : X.flags = 1
  · have hY : Y.flags = 0 := by
      by_contra hc
      have hY1 : Y.flags = 1 := by omega
      rw [datum_normal X h1, datum_normal Y hY1] at hd
      simp [addSpecial] at hd
    obtain ⟨r, hr, h⟩ := ordered_zero_of_fits hn hE hF hfmt hw h1 hY
    refine ⟨r, hr, ?_⟩
    rw [h]
    rw [datum_normal X h1, datum_flags0 Y hY] at hd
    rw [datum_normal X h1]
    simpa [addSpecial] using hd
  · obtain ⟨T, z, hr, hT⟩ := core_some_of_fits hn (by omega) hF roundBit X Y hw
    obtain ⟨p1, p2⟩ := pack_special (z := z) (by omega) hF hsx hsy X.flags_lt hle h1 hT
    refine ⟨_, hr, ?_⟩
    generalize pack E F X.sign Y.sign X.flags Y.flags T z = r at *
    rcases flags_cases X with h | h | h | h
    · have hY : Y.flags = 0 := by omega
      rw [if_neg (by omega), h] at p1
      rw [datum_flags0 _ h, datum_flags0 _ hY] at hd
      rw [datum_flags0 _ p1, p2, ← Option.some.inj hd]
      congr 1
      rw [h]
      generalize X.sign = a at *
      generalize Y.sign = b at *
      interval_cases a <;> interval_cases b <;> rfl
    · exact absurd h h1
    · rcases flags_cases Y with h' | h' | h' | h'
      · rw [if_neg (by omega), h] at p1
        rw [if_neg (by omega)] at p2
        rw [datum_flags2 _ h, datum_flags0 _ h'] at hd
        rw [datum_flags2 _ p1, p2, ← Option.some.inj hd]
      · rw [if_neg (by omega), h] at p1
        rw [if_neg (by omega)] at p2
        rw [datum_flags2 _ h, datum_normal _ h'] at hd
        rw [datum_flags2 _ p1, p2, ← Option.some.inj hd]
      · rw [datum_flags2 _ h, datum_flags2 _ h'] at hd
        rw [if_neg (by omega)] at p2
        rw [h, h'] at p1
        rw [← Option.some.inj hd]
        by_cases hs : X.sign = Y.sign
        · rw [if_neg (by simp [hs])] at p1
          rw [datum_flags2 _ p1, p2, if_pos (by rw [hs])]
        · rw [if_pos (by simp [hs])] at p1
          rw [datum_flags3 _ p1, if_neg]
          generalize X.sign = a at *
          generalize Y.sign = b at *
          interval_cases a <;> interval_cases b <;> simp at hs ⊢
      · omega
    · rw [if_neg (by omega), h] at p1
      rw [datum_flags3 _ h] at hd
      rw [datum_flags3 _ p1, ← Option.some.inj hd]

theorem orders_num_of_fits {E F : ℕ} {norm : ℕ → Option (ℕ × ℕ)} (hn : Normalises F norm) (hE : 2 ≤ E) (hF : 1 ≤ F)
    (hfmt : F + 3 < 2 ^ E) {x y : Fp E F} (hw : Ordered x y → Fits x y) (hw2 : Ordered y x → Fits y x) {res : Option (Fp E F)} {vx vy : ℚ}
    (ho : Orders norm x y res) (hx : x.datum = .num vx) (hy : y.datum = .num vy) :
    ∃ r, res = some r ∧ (vx + vy = 0 → r.datum = .zero false) ∧
      (vx + vy ≠ 0 → ¬ Clamped x y → ¬ Clamped y x → Rounded E F (vx + vy) r.datum) ∧
      (Clamped x y → r.datum = x.datum) ∧ (Clamped y x → r.datum = y.datum) := by
  have hfx := (datum_num_iff.mp hx).1
  have hfy := (datum_num_iff.mp hy).1
  have hcl : ∀ {a b : Fp E F}, Clamped a b → b.exp * 2 ^ F + b.frac ≤ a.exp * 2 ^ F + a.frac → ¬ Clamped b a := by
    rintro a b ⟨-, -, h1, -⟩ - ⟨-, -, h2, -⟩; omega
  have hcl2 : ∀ {a b : Fp E F}, Clamped a b → ¬ (a.exp * 2 ^ F + a.frac ≤ b.exp * 2 ^ F + b.frac) := by
    rintro a b ⟨-, -, h1, -⟩ h
    have := (ordered_exp (X := b) (Y := a) hF h).1
    omega
  rcases ho with ⟨rfl, h1, h2⟩ | ⟨rfl, h1, h2⟩
  · have h2 := h2 (by omega)
    obtain ⟨r, hr, z, n, c⟩ := ordered_num_of_fits hn hE hF hfmt (hw ⟨h1, fun _ => h2⟩) hx hy h2
    exact ⟨r, hr, z, fun h a _ => n h a, c, fun h => absurd h2 (hcl2 h)⟩
  · have h2 := h2 (by omega)
    obtain ⟨r, hr, z, n, c⟩ := ordered_num_of_fits hn hE hF hfmt (hw2 ⟨h1, fun _ => h2⟩) hy hx h2
    rw [add_comm vy vx] at z n
    exact ⟨r, hr, z, fun h _ a => n h a, fun h => absurd h2 (hcl2 h), c⟩

theorem orders_special_of_fits {E F : ℕ} {norm : ℕ → Option (ℕ × ℕ)} (hn : Normalises F norm) (hE : 2 ≤ E) (hF : 1 ≤ F)
    (hfmt : F + 3 < 2 ^ E) {x y : Fp E F} (hw : Ordered x y → Fits x y) (hw2 : Ordered y x → Fits y x) {res : Option (Fp E F)} {d : Datum}
    (ho : Orders norm x y res) (hd : addSpecial x.datum y.datum = some d) :
    ∃ r, res = some r ∧ r.datum = d := by
  rcases ho with ⟨rfl, h⟩ | ⟨rfl, h⟩
  · exact core_special_of_fits hn hE hF hfmt (hw h) h hd
  · exact core_special_of_fits hn hE hF hfmt (hw2 h) h (by rwa [addSpecial_comm])


theorem core_none {E F : ℕ} {norm : ℕ → Option (ℕ × ℕ)} {rule : Bool → Bool → Bool → Bool → Bool} {X Y : Fp E F} (hw : ¬ Fits X Y) :
    core rule norm X Y = none := by
  unfold core
  dsimp only
  cases hs : shiftVal? E F (subW (E + 1) X.exp Y.exp) with
  | none => rfl
  | some s =>
    have : ¬ s < 2 * F + 4 := fun h => hw ⟨s, hs, h⟩
    dsimp only
    unfold addAlign? shr?
    rw [if_neg (by omega)]

/-- When the distance fits. -/
theorem fits_iff {E F : ℕ} (hE : 1 ≤ E) (X Y : Fp E F) : Fits X Y ↔ F + 3 < 2 ^ E ∧
    ¬ (F + 3 = 2 ^ (E - 1) ∧ (subW E X.exp Y.exp = 2 * F + 4 ∨ subW E X.exp Y.exp = 2 * F + 5)) := by
  have hp : 2 ^ E = 2 * 2 ^ (E - 1) := by
    conv_lhs => rw [show E = (E - 1) + 1 by omega, pow_succ]
    ring
  by_cases hfmt : F + 3 < 2 ^ E
  · by_cases h2 : F + 3 = 2 ^ (E - 1)
    · have h1 : intlog2 (F + 3) = E := by
        have := intlog2_le hfmt
        have := le_intlog2 (n := F + 3) (k := E - 1) (by omega)
        omega
      have hs : shiftVal? E F (subW (E + 1) X.exp Y.exp) = some (subW E X.exp Y.exp) := by
        unfold shiftVal?
        dsimp only
        rw [if_neg (by omega), if_pos h1.symm, getBits_zero_eq_mod, h1, show E - 1 + 1 = E by omega]
        have hx := X.exp_lt hE
        have hy := Y.exp_lt hE
        unfold subW
        rw [Nat.mod_mod_of_dvd _ (pow_dvd_pow 2 (by omega)), pow_succ]
        rw [show X.exp + (2 ^ E * 2 - Y.exp) = X.exp + (2 ^ E - Y.exp) + 2 ^ E by omega, Nat.add_mod_right]
      have hl := subW_lt E X.exp Y.exp
      unfold Fits
      rw [hs]
      constructor
      · rintro ⟨s, h, h'⟩
        obtain rfl := Option.some.inj h
        exact ⟨hfmt, by omega⟩
      · rintro ⟨-, h⟩
        exact ⟨_, rfl, by omega⟩
    · exact ⟨fun _ => ⟨hfmt, fun h => h2 h.1⟩, fun _ => shiftVal_some _ hE hfmt h2⟩
  · refine ⟨?_, fun h => absurd h.1 hfmt⟩
    rintro ⟨s, hs, -⟩
    exfalso
    have hk := le_intlog2 (n := F + 3) (k := E) (by omega)
    unfold shiftVal? at hs
    dsimp only at hs
    rw [if_neg (by omega), if_neg (by omega)] at hs
    cases hs

end AddSingle
end Thls
