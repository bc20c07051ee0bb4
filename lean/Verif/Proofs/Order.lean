import Verif.Proofs.Pack
import Verif.Model.Limits

/-! # Ordering lemmas: magnitudes are monotone in the packed exponent/fraction, and every non-NaN encoding
has an integer key that orders it -/

namespace Thls
open Spec

/-- The magnitude of a normal number with packed exponent and fraction `t`. -/
def mag (E F t : ℕ) : ℚ := ((2 ^ F + t % 2 ^ F : ℕ) : ℚ) * 2 ^ (((t / 2 ^ F : ℕ) : ℤ) - bias E - F)

theorem mag_pos (E F t : ℕ) : 0 < mag E F t := sig_scaled_pos _ _ _

theorem mag_lt_succ (E F t : ℕ) : mag E F t < mag E F (t + 1) := by
  unfold mag
  have hp : 0 < 2 ^ F := by positivity
  have hmod : t % 2 ^ F < 2 ^ F := Nat.mod_lt _ hp
  have hdm := Nat.div_add_mod t (2 ^ F)
  have hpos := two_zpow_pos (((t / 2 ^ F : ℕ) : ℤ) - bias E - F)
  by_cases h : t % 2 ^ F + 1 < 2 ^ F
  · have hsum : t + 1 = (t % 2 ^ F + 1) + 2 ^ F * (t / 2 ^ F) := by omega
    have h1 : (t + 1) / 2 ^ F = t / 2 ^ F := by
      rw [hsum, Nat.add_mul_div_left _ _ hp, Nat.div_eq_of_lt h, Nat.zero_add]
    have h2 : (t + 1) % 2 ^ F = t % 2 ^ F + 1 := by
      conv_lhs => rw [hsum, Nat.add_mul_mod_self_left, Nat.mod_eq_of_lt h]
    rw [h1, h2]
    apply mul_lt_mul_of_pos_right _ hpos
    push_cast; linarith
  · have hsum : t + 1 = 0 + 2 ^ F * (t / 2 ^ F + 1) := by rw [Nat.mul_add]; omega
    have h1 : (t + 1) / 2 ^ F = t / 2 ^ F + 1 := by
      rw [hsum, Nat.add_mul_div_left _ _ hp, Nat.zero_div, Nat.zero_add]
    have h2 : (t + 1) % 2 ^ F = 0 := by
      rw [hsum, Nat.add_mul_mod_self_left, Nat.zero_mod]
    rw [h1, h2, show (((t / 2 ^ F + 1 : ℕ) : ℤ) - bias E - F) = (((t / 2 ^ F : ℕ) : ℤ) - bias E - F) + 1 by
      push_cast; ring, two_zpow_succ]
    have h3 : ((2 ^ F + t % 2 ^ F : ℕ) : ℚ) < ((2 ^ F + 0 : ℕ) : ℚ) * 2 := by
      have : 2 ^ F + t % 2 ^ F < (2 ^ F + 0) * 2 := by omega
      exact_mod_cast this
    nlinarith

theorem mag_strictMono (E F : ℕ) : StrictMono (mag E F) := strictMono_nat_of_lt_succ (mag_lt_succ E F)

namespace Fp
variable {E F : ℕ}

theorem expFrac_lt (h : 1 ≤ E + F) (x : Fp E F) : x.expFrac < 2 ^ (E + F) := getBits_lt' h

theorem expFrac_eq (hE : 1 ≤ E) (hF : 1 ≤ F) (x : Fp E F) : x.expFrac = concat F x.exp x.frac := by
  unfold expFrac exp frac
  rw [getBits_zero_eq_mod, getBits_zero_eq_mod, getBits, show E + F - 1 + 1 - F = E by omega,
    show E + F - 1 + 1 = F + E by omega, show F - 1 + 1 = F by omega, pow_add, Nat.mod_mul, concat]
  ring

theorem expFrac_div (hE : 1 ≤ E) (hF : 1 ≤ F) (x : Fp E F) : x.expFrac / 2 ^ F = x.exp := by
  rw [expFrac_eq hE hF]; exact concat_div (x.frac_lt hF)

theorem expFrac_mod (hE : 1 ≤ E) (hF : 1 ≤ F) (x : Fp E F) : x.expFrac % 2 ^ F = x.frac := by
  rw [expFrac_eq hE hF]; exact concat_mod (x.frac_lt hF)

theorem datum_normal_mag (hE : 1 ≤ E) (hF : 1 ≤ F) (x : Fp E F) (h : x.flags = 1) :
    x.datum = .num ((if x.sign = 1 then -1 else 1) * mag E F x.expFrac) := by
  unfold mag
  rw [expFrac_div hE hF, expFrac_mod hE hF]
  exact datum_normal x h

theorem ofBits_fields {fs ef : ℕ} (hE : 1 ≤ E) (hfs : fs < 8) (hef : ef < 2 ^ (E + F)) :
    (ofBits E F (concat (E + F) fs ef)).flags = fs / 2 ∧ (ofBits E F (concat (E + F) fs ef)).sign = fs % 2 ∧
    (ofBits E F (concat (E + F) fs ef)).expFrac = ef := by
  have hlt : concat (E + F) fs ef < 2 ^ (3 + (E + F)) := concat_lt hfs hef
  have hb : (ofBits E F (concat (E + F) fs ef)).bits = concat (E + F) fs ef := by
    unfold ofBits; exact Nat.mod_eq_of_lt (by rwa [← Nat.add_assoc] at hlt)
  refine ⟨?_, ?_, ?_⟩
  · unfold flags
    rw [hb, getBits_concat_high hef (by omega) (by omega), show E + F + 2 - (E + F) = 2 by omega,
      show E + F + 1 - (E + F) = 1 by omega]
    unfold getBits; omega
  · unfold sign
    rw [hb, getBits_concat_high hef (by omega) (by omega), Nat.sub_self]
    unfold getBits; omega
  · unfold expFrac
    rw [hb, getBits_concat_low hef (by omega) (by omega)]
    exact getBits_all (by rwa [show E + F - 1 + 1 = E + F by omega])

/-- The integer key of a non-NaN encoding: -inf, -normals, -0, +0, +normals, +inf in increasing order. -/
def key (x : Fp E F) : ℤ :=
  let t : ℤ := if x.flags = 0 then 0 else if x.flags = 1 then x.expFrac + 1 else 2 ^ (E + F) + 1
  if x.sign = 1 then -1 - t else t

theorem below_iff (hE : 1 ≤ E) (hF : 1 ≤ F) (x y : Fp E F) (hx : x.flags ≠ 3) (hy : y.flags ≠ 3) :
    x.datum.Below y.datum ↔ x.key < y.key := by
  have hsx := x.sign_lt
  have hsy := y.sign_lt
  have hxe : (x.expFrac : ℤ) < 2 ^ (E + F) := by exact_mod_cast x.expFrac_lt (by omega)
  have hye : (y.expFrac : ℤ) < 2 ^ (E + F) := by exact_mod_cast y.expFrac_lt (by omega)
  have hmx := mag_pos E F x.expFrac
  have hmy := mag_pos E F y.expFrac
  have hm : mag E F x.expFrac < mag E F y.expFrac ↔ x.expFrac < y.expFrac := (mag_strictMono E F).lt_iff_lt
  have hm' : mag E F y.expFrac < mag E F x.expFrac ↔ y.expFrac < x.expFrac := (mag_strictMono E F).lt_iff_lt
  have hpow : (0 : ℤ) < 2 ^ (E + F) := by positivity
  rcases flags_cases x with fx | fx | fx | fx <;> rcases flags_cases y with fy | fy | fy | fy <;>
    first | exact absurd fx hx | exact absurd fy hy | skip
  all_goals
    (first | rw [datum_flags0 x fx] | rw [datum_normal_mag hE hF x fx] | rw [datum_flags2 x fx])
    (first | rw [datum_flags0 y fy] | rw [datum_normal_mag hE hF y fy] | rw [datum_flags2 y fy])
    simp only [key, fx, fy]
    obtain sx | sx : x.sign = 0 ∨ x.sign = 1 := by omega
  all_goals
    obtain sy | sy : y.sign = 0 ∨ y.sign = 1 := by omega
  all_goals
    simp only [sx, sy, Datum.Below, zero_ne_one, ↓reduceIte, decide_true, decide_false, one_mul, neg_mul,
      one_ne_zero, OfNat.ofNat_ne_zero, OfNat.ofNat_ne_one, Bool.true_eq_false, Bool.false_eq_true,
      and_true, and_false, and_self, true_iff, false_iff, not_lt, neg_lt_neg_iff, Left.neg_pos_iff, Left.neg_neg_iff,
      hm, hm', false_and, true_and, Bool.decide_true, Bool.decide_false]
  all_goals first | omega | skip
  all_goals first
    | (constructor
       · intro h; first | linarith | omega
       · intro h; first | linarith | omega)
    | skip


theorem mk3_fields {fs e f : ℕ} (hE : 1 ≤ E) (hfs : fs < 8) (he : e < 2 ^ E) (hf : f < 2 ^ F) :
    (mk3 E F fs e f).flags = fs / 2 ∧ (mk3 E F fs e f).sign = fs % 2 ∧
    (mk3 E F fs e f).expFrac = e * 2 ^ F + f :=
  ofBits_fields hE hfs (concat_lt he hf)

theorem flags_eq (x : Fp E F) (hE : 1 ≤ E) (hF : 1 ≤ F) : x.bits = concat (E + F) (x.flags * 2 + x.sign) x.expFrac := by
  unfold flags sign expFrac
  have h := x.isLt
  rw [show 3 + E + F = E + F + 3 by ring] at h
  rw [getBits_zero_eq_mod, show E + F - 1 + 1 = E + F by omega, getBits_top (by convert h using 2) (by omega), getBits,
    show E + F + 1 - (E + F) = 1 by omega, pow_succ 2 (E + F), ← Nat.div_div_eq_div_mul, concat]
  have := Nat.div_add_mod x.bits (2 ^ (E + F))
  have h2 := Nat.div_add_mod (x.bits / 2 ^ (E + F)) 2
  rw [pow_one, show x.bits / 2 ^ (E + F) / 2 * 2 = 2 * (x.bits / 2 ^ (E + F) / 2) by ring, h2]
  linarith [Nat.mul_comm (2 ^ (E + F)) (x.bits / 2 ^ (E + F))]

/-- An encoding is determined by its fields. -/
theorem ext_fields (hE : 1 ≤ E) (hF : 1 ≤ F) {x y : Fp E F} (h1 : x.flags = y.flags) (h2 : x.sign = y.sign)
    (h3 : x.exp = y.exp) (h4 : x.frac = y.frac) : x = y := by
  have : x.bits = y.bits := by
    rw [flags_eq x hE hF, flags_eq y hE hF, h1, h2, expFrac_eq hE hF, expFrac_eq hE hF, h3, h4]
  cases x; cases y; simp_all

theorem mk4_eta (hE : 1 ≤ E) (hF : 1 ≤ F) (x : Fp E F) : mk4 E F x.flags x.sign x.exp x.frac = x := by
  have a := x.flags_lt
  have b := x.sign_lt
  have c := x.exp_lt hE
  have d := x.frac_lt hF
  exact ext_fields hE hF (mk4_flags a b c d) (mk4_sign a b c d) (mk4_exp a b c d hE)
    (mk4_frac a b c d hF)

theorem datum_inj (hE : 1 ≤ E) (hF : 1 ≤ F) (x y : Fp E F) : x.datum = y.datum ↔
    x.flags = y.flags ∧ (x.flags ≠ 3 → x.sign = y.sign) ∧ (x.flags = 1 → x.expFrac = y.expFrac) := by
  have hsx := x.sign_lt
  have hsy := y.sign_lt
  have hmx := mag_pos E F x.expFrac
  have hmy := mag_pos E F y.expFrac
  have hm : mag E F x.expFrac = mag E F y.expFrac ↔ x.expFrac = y.expFrac := (mag_strictMono E F).injective.eq_iff
  rcases flags_cases x with fx | fx | fx | fx <;> rcases flags_cases y with fy | fy | fy | fy
  all_goals
    (first | rw [datum_flags0 x fx] | rw [datum_normal_mag hE hF x fx] | rw [datum_flags2 x fx] | rw [datum_flags3 x fx])
    (first | rw [datum_flags0 y fy] | rw [datum_normal_mag hE hF y fy] | rw [datum_flags2 y fy] | rw [datum_flags3 y fy])
    simp only [fx, fy]
    obtain sx | sx : x.sign = 0 ∨ x.sign = 1 := by omega
  all_goals
    obtain sy | sy : y.sign = 0 ∨ y.sign = 1 := by omega
  all_goals simp [sx, sy, hm]
  all_goals intro h; linarith

end Fp

theorem nextup_key {E F : ℕ} (hE : 1 ≤ E) (hF : 1 ≤ F) (x : Fp E F) (hx : x.flags ≠ 3)
    (hni : x.datum ≠ .inf false) : (nextup x).flags ≠ 3 ∧ (nextup x).key = x.key + 1 := by
  have hs := x.sign_lt
  have he := x.exp_lt hE
  have hf := x.frac_lt hF
  have hef := Fp.expFrac_eq hE hF x
  have pE : 0 < 2 ^ E := by positivity
  have pF : 0 < 2 ^ F := by positivity
  have hlt : x.exp * 2 ^ F + x.frac < 2 ^ (E + F) := concat_lt he hf
  unfold concat at hef
  have hEF : 2 ^ (E + F) = 2 ^ E * 2 ^ F := pow_add 2 E F
  have oE : ones E < 2 ^ E := by unfold ones; omega
  have oF : ones F < 2 ^ F := by unfold ones; omega
  obtain sx | sx : x.sign = 0 ∨ x.sign = 1 := by omega
  all_goals
    rcases flags_cases x with fx | fx | fx | fx
  all_goals first | exact absurd fx hx | skip
  all_goals
    simp only [nextup, Fp.isPosInf, Fp.isPosNormal, Fp.isPosZero, Fp.isNegZero, Fp.isNegNormal, Fp.isNegInf,
      Fp.isPositive, Fp.isNegative, Fp.isZero, Fp.isNormal, Fp.isInf, sx, fx, Fp.key]
  · -- +0
    obtain ⟨a, b, c⟩ := Fp.mk3_fields (E := E) (F := F) (fs := 2) hE (by decide) pE pF
    simp [Limits.min, a, b, c]
  · -- + normal
    by_cases h1 : x.frac = ones F
    · by_cases h2 : x.exp = ones E
      · obtain ⟨a, b, c⟩ := Fp.mk3_fields (E := E) (F := F) (fs := 4) hE (by decide) pE pF
        simp [Limits.infinity, a, b, h1, h2]
        rw [hef, h1, h2]
        have h3 : ones E * 2 ^ F + ones F + 1 = 2 ^ (E + F) := by
          unfold ones
          rw [hEF, Nat.sub_mul]
          have : 2 ^ F ≤ 2 ^ E * 2 ^ F := Nat.le_mul_of_pos_left _ pE
          omega
        have : ((ones E * 2 ^ F + ones F : ℕ) : ℤ) + 1 = 2 ^ (E + F) := by exact_mod_cast h3
        linarith
      · have h3 : x.exp + 1 < 2 ^ E := by unfold ones at h2; omega
        have h4 : addW E x.exp 1 = x.exp + 1 := Nat.mod_eq_of_lt h3
        obtain ⟨a, b, c⟩ := Fp.mk3_fields (E := E) (F := F) (fs := 2) hE (by decide) h3 pF
        simp [h1, h2, h4, a, b, c]
        rw [hef, h1]
        have : (x.exp + 1) * 2 ^ F + 0 = x.exp * 2 ^ F + ones F + 1 := by
          unfold ones; rw [Nat.add_mul]; omega
        exact_mod_cast this
    · have h3 : x.frac + 1 < 2 ^ F := by unfold ones at h1; omega
      have h4 : addW F x.frac 1 = x.frac + 1 := Nat.mod_eq_of_lt h3
      obtain ⟨a, b, c⟩ := Fp.mk3_fields (E := E) (F := F) (fs := 2) hE (by decide) he h3
      simp [h1, h4, a, b, c]
      rw [hef]; push_cast; ring
  · exfalso; apply hni
    rw [Fp.datum, fx, sx]; rfl
  · obtain ⟨a, b, c⟩ := Fp.mk3_fields (E := E) (F := F) (fs := 0) hE (by decide) pE pF
    simp [Limits.posZero, a, b]
  · by_cases h1 : x.frac = 0
    · by_cases h2 : x.exp = 0
      · obtain ⟨a, b, c⟩ := Fp.mk3_fields (E := E) (F := F) (fs := 1) hE (by decide) pE pF
        simp [Limits.negZero, a, b, h1, h2]
        rw [hef, h1, h2]; simp
      · have h4 : subW E x.exp 1 = x.exp - 1 := by
          unfold subW
          rw [show x.exp + (2 ^ E - 1) = (x.exp - 1) + 2 ^ E by omega, Nat.add_mod_right, Nat.mod_eq_of_lt (by omega)]
        obtain ⟨a, b, c⟩ := Fp.mk3_fields (E := E) (F := F) (fs := 3) (e := x.exp - 1) hE (by decide) (by omega) oF
        simp [h1, h2, h4, a, b, c]
        rw [hef, h1]
        have : (x.exp - 1) * 2 ^ F + ones F + 1 = x.exp * 2 ^ F + 0 := by
          obtain ⟨k, hk⟩ : ∃ k, x.exp = k + 1 := ⟨x.exp - 1, by omega⟩
          unfold ones; rw [hk, Nat.add_sub_cancel, Nat.add_mul]; omega
        have : (((x.exp - 1) * 2 ^ F + ones F : ℕ) : ℤ) + 1 = ((x.exp * 2 ^ F + 0 : ℕ) : ℤ) := by exact_mod_cast this
        rw [← this]; push_cast; ring
    · have h4 : subW F x.frac 1 = x.frac - 1 := by
        unfold subW
        rw [show x.frac + (2 ^ F - 1) = (x.frac - 1) + 2 ^ F by omega, Nat.add_mod_right, Nat.mod_eq_of_lt (by omega)]
      obtain ⟨a, b, c⟩ := Fp.mk3_fields (E := E) (F := F) (fs := 3) (f := x.frac - 1) hE (by decide) he (by omega)
      simp [h1, h4, a, b, c]
      rw [hef]; push_cast [show 1 ≤ x.frac by omega]; ring
  · obtain ⟨a, b, c⟩ := Fp.mk3_fields (E := E) (F := F) (fs := 3) hE (by decide) oE oF
    simp [Limits.lowest, a, b, c]
    have h3 : ones E * 2 ^ F + ones F + 1 = 2 ^ (E + F) := by
      unfold ones
      rw [hEF, Nat.sub_mul]
      have : 2 ^ F ≤ 2 ^ E * 2 ^ F := Nat.le_mul_of_pos_left _ pE
      omega
    have : ((ones E * 2 ^ F + ones F : ℕ) : ℤ) + 1 = 2 ^ (E + F) := by exact_mod_cast h3
    push_cast at this
    linarith

theorem subW_one {w a : ℕ} (ha : a < 2 ^ w) (h : a ≠ 0) : subW w a 1 = a - 1 := by
  unfold subW
  rw [show a + (2 ^ w - 1) = (a - 1) + 2 ^ w by omega, Nat.add_mod_right, Nat.mod_eq_of_lt (by omega)]

theorem ones_ones (E F : ℕ) : ones E * 2 ^ F + ones F + 1 = 2 ^ (E + F) := by
  have pE : 0 < 2 ^ E := by positivity
  have pF : 0 < 2 ^ F := by positivity
  unfold ones
  rw [pow_add, Nat.sub_mul]
  have : 2 ^ F ≤ 2 ^ E * 2 ^ F := Nat.le_mul_of_pos_left _ pE
  omega

theorem nextdown_key {E F : ℕ} (hE : 1 ≤ E) (hF : 1 ≤ F) (x : Fp E F) (hx : x.flags ≠ 3)
    (hni : x.datum ≠ .inf true) (hp : x.flags = 1 → x.sign = 0 → x.frac = 0 → x.exp = 0)
    (hn : x.flags = 1 → x.sign = 1 → x.frac = ones F → x.exp = ones E) :
    (nextdown x).flags ≠ 3 ∧ (nextdown x).key = x.key - 1 := by
  have hs := x.sign_lt
  have he := x.exp_lt hE
  have hf := x.frac_lt hF
  have hef := Fp.expFrac_eq hE hF x
  have pE : 0 < 2 ^ E := by positivity
  have pF : 0 < 2 ^ F := by positivity
  have hlt : x.exp * 2 ^ F + x.frac < 2 ^ (E + F) := concat_lt he hf
  unfold concat at hef
  have oE : ones E < 2 ^ E := by unfold ones; omega
  have oF : ones F < 2 ^ F := by unfold ones; omega
  have h3 : ((ones E * 2 ^ F + ones F : ℕ) : ℤ) + 1 = 2 ^ (E + F) := by exact_mod_cast ones_ones E F
  obtain sx | sx : x.sign = 0 ∨ x.sign = 1 := by omega
  all_goals
    rcases flags_cases x with fx | fx | fx | fx
  all_goals first | exact absurd fx hx | skip
  all_goals
    simp only [nextdown, Fp.isPosInf, Fp.isPosNormal, Fp.isPosZero, Fp.isNegZero, Fp.isNegNormal, Fp.isNegInf,
      Fp.isPositive, Fp.isNegative, Fp.isZero, Fp.isNormal, Fp.isInf, sx, fx, Fp.key]
  · obtain ⟨a, b, c⟩ := Fp.mk3_fields (E := E) (F := F) (fs := 1) hE (by decide) pE pF
    simp [Limits.negZero, a, b]
  · by_cases h1 : x.frac = 0
    · have h2 := hp fx sx h1
      obtain ⟨a, b, c⟩ := Fp.mk3_fields (E := E) (F := F) (fs := 0) hE (by decide) pE pF
      simp [Limits.posZero, a, b, h1, h2]
      rw [hef, h1, h2]; simp
    · have h4 := subW_one hf h1
      obtain ⟨a, b, c⟩ := Fp.mk3_fields (E := E) (F := F) (fs := 2) (f := x.frac - 1) hE (by decide) he (by omega)
      simp [h1, h4, a, b, c]
      rw [hef]; push_cast [show 1 ≤ x.frac by omega]; ring
  · obtain ⟨a, b, c⟩ := Fp.mk3_fields (E := E) (F := F) (fs := 2) hE (by decide) oE oF
    simp [Limits.max, a, b, c]
    push_cast at h3
    linarith
  · obtain ⟨a, b, c⟩ := Fp.mk3_fields (E := E) (F := F) (fs := 3) hE (by decide) pE pF
    simp [Limits.negMin, a, b, c]
  · by_cases h1 : x.frac = ones F
    · have h2 := hn fx sx h1
      obtain ⟨a, b, c⟩ := Fp.mk3_fields (E := E) (F := F) (fs := 5) hE (by decide) pE pF
      simp [Limits.negInfinity, a, b, h1, h2]
      rw [hef, h1, h2]
      linarith
    · have h5 : x.frac + 1 < 2 ^ F := by unfold ones at h1; omega
      have h4 : addW F x.frac 1 = x.frac + 1 := Nat.mod_eq_of_lt h5
      obtain ⟨a, b, c⟩ := Fp.mk3_fields (E := E) (F := F) (fs := 3) hE (by decide) he h5
      simp [h1, h4, a, b, c]
      rw [hef]; push_cast; ring
  · exfalso; apply hni
    rw [Fp.datum, fx, sx]; rfl

theorem nextup_not_nan {E F : ℕ} (hE : 1 ≤ E) (hF : 1 ≤ F) (x : Fp E F) : (nextup x).flags = 3 ↔ x.flags = 3 := by
  constructor
  · intro h
    by_contra hx
    by_cases hi : x.datum = .inf false
    · have : x.flags = 2 ∧ x.sign = 0 := by
        have hs := x.sign_lt
        rcases flags_cases x with fx | fx | fx | fx
        · rw [datum_flags0 x fx] at hi; cases hi
        · rw [datum_normal x fx] at hi; cases hi
        · rw [datum_flags2 x fx] at hi
          simp at hi
          exact ⟨fx, by omega⟩
        · exact absurd fx hx
      apply hx
      simpa [nextup, Fp.isPosInf, Fp.isPositive, Fp.isInf, this] using h
    · exact (nextup_key hE hF x hx hi).1 h
  · intro fx
    have hs := x.sign_lt
    obtain ⟨a, b, c⟩ := Fp.mk3_fields (E := E) (F := F) (fs := 6) (e := 0) (f := 0) hE (by decide)
      (by positivity) (by positivity)
    obtain sx | sx : x.sign = 0 ∨ x.sign = 1 := by omega
    all_goals
      simp [nextup, Fp.isPosInf, Fp.isPosNormal, Fp.isPosZero, Fp.isNegZero, Fp.isNegNormal, Fp.isNegInf,
        Fp.isPositive, Fp.isNegative, Fp.isZero, Fp.isNormal, Fp.isInf, sx, fx, Limits.quietNaN, a]

/-- Encodings with the same key denote the same datum. -/
theorem datum_of_key {E F : ℕ} (hE : 1 ≤ E) (hF : 1 ≤ F) (x y : Fp E F) (hx : x.flags ≠ 3) (hy : y.flags ≠ 3) :
    x.datum = y.datum ↔ x.key = y.key := by
  have hxe : (x.expFrac : ℤ) < 2 ^ (E + F) := by exact_mod_cast x.expFrac_lt (by omega)
  have hye : (y.expFrac : ℤ) < 2 ^ (E + F) := by exact_mod_cast y.expFrac_lt (by omega)
  have hsx := x.sign_lt
  have hsy := y.sign_lt
  have hpow : (0 : ℤ) < 2 ^ (E + F) := by positivity
  rw [Fp.datum_inj hE hF]
  unfold Fp.key
  rcases flags_cases x with fx | fx | fx | fx <;> rcases flags_cases y with fy | fy | fy | fy <;>
    first | exact absurd fx hx | exact absurd fy hy | skip
  all_goals
    simp only [fx, fy]
    obtain sx | sx : x.sign = 0 ∨ x.sign = 1 := by omega
  all_goals
    obtain sy | sy : y.sign = 0 ∨ y.sign = 1 := by omega
  all_goals simp [sx, sy]
  all_goals omega

namespace Fp
variable {E F : ℕ}

/-- The integer key of a non-NaN encoding with the two zeros merged. -/
def rkey (x : Fp E F) : ℤ :=
  let t : ℤ := if x.flags = 0 then 0 else if x.flags = 1 then x.expFrac + 1 else 2 ^ (E + F) + 1
  if x.sign = 1 then -t else t

theorem lt_iff (hE : 1 ≤ E) (hF : 1 ≤ F) (x y : Fp E F) (hx : x.flags ≠ 3) (hy : y.flags ≠ 3) :
    x.datum.Lt y.datum ↔ x.rkey < y.rkey := by
  have hsx := x.sign_lt
  have hsy := y.sign_lt
  have hxe : (x.expFrac : ℤ) < 2 ^ (E + F) := by exact_mod_cast x.expFrac_lt (by omega)
  have hye : (y.expFrac : ℤ) < 2 ^ (E + F) := by exact_mod_cast y.expFrac_lt (by omega)
  have hmx := mag_pos E F x.expFrac
  have hmy := mag_pos E F y.expFrac
  have hm : mag E F x.expFrac < mag E F y.expFrac ↔ x.expFrac < y.expFrac := (mag_strictMono E F).lt_iff_lt
  have hm' : mag E F y.expFrac < mag E F x.expFrac ↔ y.expFrac < x.expFrac := (mag_strictMono E F).lt_iff_lt
  have hpow : (0 : ℤ) < 2 ^ (E + F) := by positivity
  rcases flags_cases x with fx | fx | fx | fx <;> rcases flags_cases y with fy | fy | fy | fy <;>
    first | exact absurd fx hx | exact absurd fy hy | skip
  all_goals
    (first | rw [datum_flags0 x fx] | rw [datum_normal_mag hE hF x fx] | rw [datum_flags2 x fx])
    (first | rw [datum_flags0 y fy] | rw [datum_normal_mag hE hF y fy] | rw [datum_flags2 y fy])
    simp only [rkey, fx, fy]
    obtain sx | sx : x.sign = 0 ∨ x.sign = 1 := by omega
  all_goals
    obtain sy | sy : y.sign = 0 ∨ y.sign = 1 := by omega
  all_goals
    simp only [sx, sy, Datum.Lt, zero_ne_one, ↓reduceIte, decide_false, one_mul, neg_mul,
      one_ne_zero, OfNat.ofNat_ne_zero, OfNat.ofNat_ne_one, true_iff, false_iff, not_lt,
      neg_lt_neg_iff, Left.neg_pos_iff, Left.neg_neg_iff, hm, hm', Bool.decide_true]
  all_goals first | omega | skip
  all_goals
    constructor
    · intro h; linarith
    · intro h; linarith

theorem exists_rkey (hE : 1 ≤ E) (k : ℤ) (hk : |k| ≤ 2 ^ (E + F)) : ∃ y : Fp E F, y.flags ≠ 3 ∧ y.rkey = k := by
  have pE : 0 < 2 ^ (E + F) := by positivity
  rcases lt_trichotomy k 0 with h | h | h
  · rw [abs_of_neg h] at hk
    have hn : (-k - 1).toNat < 2 ^ (E + F) := by
      have : (((-k - 1).toNat : ℕ) : ℤ) < ((2 ^ (E + F) : ℕ) : ℤ) := by push_cast; omega
      exact_mod_cast this
    obtain ⟨a, b, c⟩ := ofBits_fields (E := E) (F := F) (fs := 3) hE (by decide) hn
    refine ⟨_, by rw [a]; decide, ?_⟩
    unfold rkey; rw [a, b, c]; norm_num; omega
  · obtain ⟨a, b, c⟩ := ofBits_fields (E := E) (F := F) (fs := 0) hE (by decide) pE
    refine ⟨_, by rw [a]; decide, ?_⟩
    simp [rkey, a, h]
  · rw [abs_of_pos h] at hk
    have hn : (k - 1).toNat < 2 ^ (E + F) := by
      have : (((k - 1).toNat : ℕ) : ℤ) < ((2 ^ (E + F) : ℕ) : ℤ) := by push_cast; omega
      exact_mod_cast this
    obtain ⟨a, b, c⟩ := ofBits_fields (E := E) (F := F) (fs := 2) hE (by decide) hn
    refine ⟨_, by rw [a]; decide, ?_⟩
    unfold rkey; rw [a, b, c]; norm_num; omega

theorem rkey_le (hE : 1 ≤ E) (x : Fp E F) : |x.rkey| ≤ 2 ^ (E + F) + 1 := by
  have hxe : (x.expFrac : ℤ) < 2 ^ (E + F) := by exact_mod_cast x.expFrac_lt (by omega)
  have hpow : (0 : ℤ) < 2 ^ (E + F) := by positivity
  unfold rkey
  dsimp only
  split_ifs <;> rw [abs_le] <;> omega

theorem expFrac_zero_iff (hE : 1 ≤ E) (hF : 1 ≤ F) (x : Fp E F) : x.expFrac = 0 ↔ x.exp = 0 ∧ x.frac = 0 := by
  have pF : 0 < 2 ^ F := by positivity
  rw [expFrac_eq hE hF, concat]
  constructor
  · intro h
    have := Nat.add_eq_zero_iff.mp h
    exact ⟨(Nat.mul_eq_zero.mp this.1).resolve_right (by omega), this.2⟩
  · rintro ⟨a, b⟩; rw [a, b]; simp

theorem expFrac_ones_iff (hE : 1 ≤ E) (hF : 1 ≤ F) (x : Fp E F) :
    x.expFrac + 1 = 2 ^ (E + F) ↔ x.exp = ones E ∧ x.frac = ones F := by
  have pF : 0 < 2 ^ F := by positivity
  have he := x.exp_lt hE
  have hf := x.frac_lt hF
  rw [← ones_ones, expFrac_eq hE hF]
  constructor
  · intro h
    have h' : concat F x.exp x.frac = concat F (ones E) (ones F) := by unfold concat at *; omega
    have oF : ones F < 2 ^ F := by unfold ones; omega
    exact ⟨by rw [← concat_div hf (a := x.exp), h', concat_div oF], by rw [← concat_mod hf (a := x.exp), h', concat_mod oF]⟩
  · rintro ⟨a, b⟩; rw [a, b]; rfl

theorem within1ulp_iff (hE : 1 ≤ E) (hF : 1 ≤ F) (x o : Fp E F) (hx : x.flags ≠ 3) (ho : o.flags ≠ 3) :
    x.within1ulp o = true ↔ |x.rkey - o.rkey| ≤ 1 := by
  have hsx := x.sign_lt
  have hso := o.sign_lt
  have hxe : x.expFrac < 2 ^ (E + F) := x.expFrac_lt (by omega)
  have hoe : o.expFrac < 2 ^ (E + F) := o.expFrac_lt (by omega)
  have zx := expFrac_zero_iff hE hF x
  have zo := expFrac_zero_iff hE hF o
  have onx := expFrac_ones_iff hE hF x
  have ono := expFrac_ones_iff hE hF o
  have ex := expFrac_eq hE hF x
  have eo := expFrac_eq hE hF o
  have hP : (2 : ℤ) ^ (E + F) = ((2 ^ (E + F) : ℕ) : ℤ) := by push_cast; rfl
  have h2 : 2 ^ 2 ≤ 2 ^ (E + F) := Nat.pow_le_pow_right (by norm_num) (by omega)
  unfold within1ulp rkey addW
  rw [← ex, ← eo, hP]
  generalize 2 ^ (E + F) = P at *
  rw [abs_le]
  rcases flags_cases x with fx | fx | fx | fx <;> rcases flags_cases o with fo | fo | fo | fo <;>
    first | exact absurd fx hx | exact absurd fo ho | skip
  all_goals
    simp only [isNan, isZero, isNormal, isInf, fx, fo]
    obtain sx | sx : x.sign = 0 ∨ x.sign = 1 := by omega
  all_goals
    obtain so | so : o.sign = 0 ∨ o.sign = 1 := by omega
  all_goals
    simp [sx, so, ← zx, ← zo, ← onx, ← ono]
  all_goals try omega
  all_goals
    split_ifs with hc <;> dsimp only
    · obtain h | h : o.expFrac + 1 < P ∨ o.expFrac + 1 = P := by omega
      · rw [Nat.mod_eq_of_lt h]; omega
      · omega
    · obtain h | h : x.expFrac + 1 < P ∨ x.expFrac + 1 = P := by omega
      · rw [Nat.mod_eq_of_lt h]; omega
      · rw [h, Nat.mod_self]; omega

end Fp
end Thls
