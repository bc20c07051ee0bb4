import Verif.Proofs.OpInput
import Verif.Proofs.PolicyOps

/-! Lemmas for C78: what the checks of the operator tests accept. -/

namespace Thls
open Spec

namespace OpTest

theorem forAll_iff {α : Type} {check : α → Option Bool} : ∀ {l : List α}, forAll check l = some true ↔ ∀ a ∈ l, check a = some true
  | [] => by simp [forAll]
  | a :: l => by
    rw [forAll]
    cases h : check a with
    | none => simp [h]
    | some b =>
      cases b
      · simp [h]
      · simp [h, forAll_iff]

theorem forAll2_iff {α β : Type} {check : α → β → Option Bool} {as : List α} {bs : List β} :
    forAll2 check as bs = some true ↔ ∀ a ∈ as, ∀ b ∈ bs, check a b = some true := by
  rw [forAll2, forAll_iff]
  simp only [forAll_iff]

/-! ### Indices and values -/

/-- The magnitude with index `k`. -/
abbrev V (F : ℕ) (k : ℤ) : ℚ := (Mpfr.at_ false F k).value

theorem V_pos (F : ℕ) (k : ℤ) : 0 < V F k := by
  obtain ⟨c, i, hi, rfl, -⟩ := Mpfr.index_split F k
  rw [V, at_value c hi]
  have := two_zpow_pos (c + F)
  positivity

theorem V_succ (F : ℕ) (k : ℤ) : V F k < V F (k + 1) := by
  obtain ⟨c, i, hi, rfl, -⟩ := Mpfr.index_split F k
  have pos := two_zpow_pos (c + F)
  have h2 : (0 : ℚ) < 2 ^ F := by positivity
  by_cases h : i + 1 < 2 ^ F
  · rw [V, V, at_value c hi, show c * 2 ^ F + (i : ℤ) + 1 = c * 2 ^ F + ((i + 1 : ℕ) : ℤ) by push_cast; ring, at_value c h]
    refine mul_lt_mul_of_pos_right ?_ pos
    have : ((i : ℕ) : ℚ) / 2 ^ F < ((i + 1 : ℕ) : ℚ) / 2 ^ F := by
      rw [div_lt_div_iff_of_pos_right h2]; push_cast; linarith
    linarith
  · have hi' : i + 1 = 2 ^ F := by omega
    have : c * 2 ^ F + (i : ℤ) + 1 = (c + 1) * 2 ^ F + ((0 : ℕ) : ℤ) := by
      have : (i : ℤ) + 1 = 2 ^ F := by exact_mod_cast hi'
      rw [add_assoc, this]; push_cast; ring
    rw [V, V, at_value c hi, this, at_value (c + 1) (by positivity), show c + 1 + (F : ℤ) = c + F + 1 by ring, zpow_add_one₀ (by norm_num)]
    have : ((i : ℕ) : ℚ) / 2 ^ F < 1 := by
      rw [div_lt_one h2]; exact_mod_cast hi
    rw [Nat.cast_zero, zero_div, add_zero, one_mul]
    nlinarith

theorem V_strictMono (F : ℕ) : StrictMono (V F) := strictMono_int_of_lt_succ (V_succ F)

theorem sig_at {F m : ℕ} (e : ℤ) (hm : IsSig (F + 1) m) : ∃ k, (m : ℚ) * 2 ^ e = V F k := by
  refine ⟨e * 2 ^ F + ((m - 2 ^ F : ℕ) : ℤ), ?_⟩
  rw [V, ← Mpfr.eq_at false e hm, Mpfr.value]; simp

theorem at_sig (F : ℕ) (k : ℤ) : ∃ (m : ℕ) (e : ℤ), IsSig (F + 1) m ∧ V F k = (m : ℚ) * 2 ^ e :=
  ⟨_, k / 2 ^ F, Mpfr.isSig_at F k, by simp [V, Mpfr.at_, Mpfr.value]⟩

theorem neighbours_iff {F : ℕ} {v w : ℚ} {a b : ℤ} (ha : |v| = V F a) (hb : |w| = V F b) :
    SameOrNeighbours F (.num v) (.num w) ↔ 0 < v * w ∧ b ≤ a + 1 ∧ a ≤ b + 1 := by
  unfold SameOrNeighbours
  constructor
  · rintro ⟨v', w', h1, h2, h3, h4⟩
    injection h1 with h1; injection h2 with h2
    subst h1 h2
    refine ⟨h3, ?_, ?_⟩
    · by_contra hc
      obtain ⟨m, e, hm, he⟩ := at_sig F (a + 1)
      exact h4 ⟨m, e, hm, .inl (by rw [← he, ha, hb]; exact ⟨V_strictMono F (by omega), V_strictMono F (by omega)⟩)⟩
    · by_contra hc
      obtain ⟨m, e, hm, he⟩ := at_sig F (b + 1)
      exact h4 ⟨m, e, hm, .inr (by rw [← he, ha, hb]; exact ⟨V_strictMono F (by omega), V_strictMono F (by omega)⟩)⟩
  · rintro ⟨h1, h2, h3⟩
    refine ⟨v, w, rfl, rfl, h1, ?_⟩
    rintro ⟨m, e, hm, h⟩
    obtain ⟨k, hk⟩ := sig_at e hm
    rw [hk, ha, hb, (V_strictMono F).lt_iff_lt, (V_strictMono F).lt_iff_lt, (V_strictMono F).lt_iff_lt, (V_strictMono F).lt_iff_lt] at h
    omega

theorem at_datum (s : Bool) (F : ℕ) (k : ℤ) : (Mpfr.at_ s F k).datum = .num ((if s then -1 else 1) * V F k) := by
  simp [Mpfr.at_, Mpfr.datum, V, Mpfr.value]

/-- A number of the format as an MPFR number. -/
theorem toMpfr_index {E F : ℕ} (hE : 1 ≤ E) (hF : 1 ≤ F) {x : Fp E F} {v : ℚ} (hx : x.datum = .num v) :
    ∃ k, toMpfr x = Mpfr.at_ (decide (v < 0)) F k ∧ |v| = V F k ∧ -bias E ≤ k / 2 ^ F + F ∧ k / 2 ^ F + F < 2 ^ E - bias E := by
  refine ⟨_, toMpfr_num hF hx, ?_, ?_⟩
  · have h := C47_to_mpfr_exact x
    rw [toMpfr_num hF hx, hx, at_datum] at h
    injection h with h
    rw [← h, abs_mul, abs_of_pos (V_pos F _)]
    split_ifs <;> simp
  · have he := x.exp_lt hE
    have hf := x.frac_lt hF
    have hq : ((x.frac : ℤ)) / 2 ^ F = 0 := Int.ediv_eq_zero_of_lt (by omega) (by exact_mod_cast hf)
    rw [show (x.exp : ℤ) * 2 ^ F + x.frac - (F + bias E) * 2 ^ F = (x.exp - F - bias E) * 2 ^ F + x.frac by ring, index_div, hq]
    have : (x.exp : ℤ) < 2 ^ E := by exact_mod_cast he
    constructor <;> omega

theorem toMpfr_special {E F : ℕ} (x : Fp E F) :
    (x.datum = .nan → toMpfr x = .nan) ∧ (∀ s, x.datum = .zero s → toMpfr x = .zero s) ∧ (∀ s, x.datum = .inf s → toMpfr x = .inf s) := by
  have h := C47_to_mpfr_exact x
  refine ⟨fun e => ?_, fun s e => ?_, fun s e => ?_⟩ <;> rw [e] at h <;> cases ht : toMpfr x <;> rw [ht, Mpfr.datum] at h <;>
    simp_all

theorem at_ok (s : Bool) (F : ℕ) (k : ℤ) : (Mpfr.at_ s F k).Ok := by
  rw [Mpfr.at_, Mpfr.Ok]; positivity

theorem cmp_at (s t : Bool) (F : ℕ) (a b : ℤ) : Mpfr.cmp (Mpfr.at_ s F a) (Mpfr.at_ t F b) = 0 ↔ s = t ∧ a = b := by
  rw [(Mpfr.cmp_spec (at_ok s F a) (at_ok t F b) (by rw [at_datum]; simp) (by rw [at_datum]; simp)).2.1, at_datum, at_datum]
  change Datum.num ((if s then -1 else 1) * V F a) = Datum.num ((if t then -1 else 1) * V F b) ↔ _
  rw [Datum.num.injEq]
  have p := V_pos F a
  have q := V_pos F b
  have hi := (V_strictMono F).injective
  cases s <;> cases t <;> simp
  · exact hi.eq_iff
  · linarith
  · linarith
  · exact hi.eq_iff

theorem cmp_at_lt (s t : Bool) (F : ℕ) (a b : ℤ) : Mpfr.cmp (Mpfr.at_ s F a) (Mpfr.at_ t F b) < 0 ↔
    (s = true ∧ t = false) ∨ (s = false ∧ t = false ∧ a < b) ∨ (s = true ∧ t = true ∧ b < a) := by
  rw [(Mpfr.cmp_spec (at_ok s F a) (at_ok t F b) (by rw [at_datum]; simp) (by rw [at_datum]; simp)).1, at_datum, at_datum]
  change (if s then -1 else 1) * V F a < (if t then -1 else 1) * V F b ↔ _
  have p := V_pos F a
  have q := V_pos F b
  have hi := (V_strictMono F).lt_iff_lt (a := a) (b := b)
  have hj := (V_strictMono F).lt_iff_lt (a := b) (b := a)
  cases s <;> cases t <;> simp
  · exact hi
  · linarith
  · linarith
  · exact hj

/-- One step of a number towards another one reaches it exactly when they are neighbours, or the same. -/
theorem step_at (s t : Bool) {F : ℕ} {a b : ℤ} (h1 : Mpfr.emin ≤ (a - 1) / 2 ^ F + F + 1) (h2 : (a + 1) / 2 ^ F + F + 1 ≤ Mpfr.emax) :
    Mpfr.cmp (Mpfr.nextToward (F + 1) (Mpfr.at_ s F a) (Mpfr.at_ t F b)) (Mpfr.at_ t F b) = 0 ↔ s = t ∧ b ≤ a + 1 ∧ a ≤ b + 1 := by
  rw [Mpfr.nextToward, if_neg (by simp [Mpfr.at_, Mpfr.isNan])]
  by_cases h0 : Mpfr.cmp (Mpfr.at_ s F a) (Mpfr.at_ t F b) = 0
  · rw [if_pos h0, h0]
    obtain ⟨rfl, rfl⟩ := (cmp_at s t F a b).mp h0
    simp
  · rw [if_neg h0]
    have hne : ¬ (s = t ∧ a = b) := fun h => h0 ((cmp_at s t F a b).mpr h)
    by_cases hl : Mpfr.cmp (Mpfr.at_ s F a) (Mpfr.at_ t F b) < 0
    · rw [if_pos hl]
      rw [cmp_at_lt] at hl
      cases s
      · rw [Mpfr.nextAbove_at h2, cmp_at]
        cases t <;> simp at hl hne ⊢
        omega
      · rw [Mpfr.nextAbove_at_neg h1, cmp_at]
        cases t <;> simp at hl hne ⊢
        omega
    · rw [if_neg hl]
      rw [cmp_at_lt] at hl
      cases s
      · rw [Mpfr.nextBelow_at h1, cmp_at]
        cases t <;> simp at hl hne ⊢
        omega
      · rw [Mpfr.nextBelow_at_neg h2, cmp_at]
        cases t <;> simp at hl hne ⊢
        omega

theorem cmp_ne {x y : Mpfr} (hx : x.Ok) (hy : y.Ok) (nx : x.datum ≠ .nan) (ny : y.datum ≠ .nan) (h : ¬ x.datum.RealEq y.datum) :
    Mpfr.cmp x y ≠ 0 := fun hc => h ((Mpfr.cmp_spec hx hy nx ny).2.1.mp hc)

/-- The smallest and the greatest number of MPFR. -/
theorem tiny_at (s : Bool) (F : ℕ) : Mpfr.num s (2 ^ (F + 1 - 1)) (Mpfr.emin - (F + 1 : ℕ)) = Mpfr.at_ s F ((Mpfr.emin - F - 1) * 2 ^ F) := by
  have := Mpfr.at_eq s (F := F) (i := 0) (Mpfr.emin - F - 1) (by positivity)
  rw [Nat.cast_zero, add_zero, Nat.add_zero] at this
  rw [this, Nat.add_sub_cancel]; congr 1; push_cast; ring

theorem huge_at (s : Bool) (F : ℕ) :
    Mpfr.num s (2 ^ (F + 1) - 1) (Mpfr.emax - (F + 1 : ℕ)) = Mpfr.at_ s F ((Mpfr.emax - F - 1) * 2 ^ F + (2 ^ F - 1 : ℕ)) := by
  have hp : 0 < 2 ^ F := by positivity
  rw [Mpfr.at_eq s (F := F) (i := 2 ^ F - 1) (Mpfr.emax - F - 1) (by omega)]
  have h1 : 2 ^ (F + 1) - 1 = 2 ^ F + (2 ^ F - 1) := by rw [pow_succ]; omega
  have h2 : Mpfr.emax - ((F + 1 : ℕ) : ℤ) = Mpfr.emax - F - 1 := by generalize Mpfr.emax = m; push_cast; ring
  rw [h1, h2]

/-- One step from zero or an infinity. -/
theorem step_special {F : ℕ} {x y : Mpfr} (hx : (∃ s, x = .zero s) ∨ (∃ s, x = .inf s)) (hy : y.isNan = false) (hne : Mpfr.cmp x y ≠ 0) :
    (∃ s, x = .zero s ∧ ∃ t, Mpfr.nextToward (F + 1) x y = Mpfr.at_ t F ((Mpfr.emin - F - 1) * 2 ^ F)) ∨
      (∃ s, x = .inf s ∧ ∃ t, Mpfr.nextToward (F + 1) x y = Mpfr.at_ t F ((Mpfr.emax - F - 1) * 2 ^ F + (2 ^ F - 1 : ℕ))) := by
  rcases hx with ⟨s, rfl⟩ | ⟨s, rfl⟩
  · refine .inl ⟨s, rfl, ?_⟩
    rw [Mpfr.nextToward, if_neg (by rw [hy]; simp [Mpfr.isNan]), if_neg hne]
    split_ifs
    · exact ⟨false, by rw [Mpfr.nextAbove, tiny_at]⟩
    · exact ⟨true, by rw [Mpfr.nextBelow, Mpfr.flip, Mpfr.nextAbove, tiny_at, Mpfr.flip_at]; rfl⟩
  · refine .inr ⟨s, rfl, ?_⟩
    rw [Mpfr.nextToward, if_neg (by rw [hy]; simp [Mpfr.isNan]), if_neg hne]
    have hc : ∀ z : Mpfr, z.isNan = false → Mpfr.cmp (.inf s) z ≠ 0 → Mpfr.cmp (.inf s) z = if s then -1 else 1 := by
      intro z hz h
      cases z with
      | nan => cases hz
      | inf t => cases s <;> cases t <;> simp_all [Mpfr.cmp]
      | _ => rfl
    rw [hc y hy hne]
    cases s
    · rw [if_neg (by decide), Mpfr.nextBelow, Mpfr.flip]
      exact ⟨false, by rw [Bool.not_false, Mpfr.nextAbove, huge_at, Mpfr.flip_at]; rfl⟩
    · rw [if_pos (by decide)]
      exact ⟨true, by rw [Mpfr.nextAbove, huge_at]⟩

theorem mpfr_range {E F : ℕ} (hE : 1 ≤ E) (hE2 : E ≤ 62) {k : ℤ} (h1 : -bias E ≤ k / 2 ^ F + F) (h2 : k / 2 ^ F + F < 2 ^ E - bias E) :
    Mpfr.emin ≤ (k - 1) / 2 ^ F + F + 1 ∧ (k + 1) / 2 ^ F + F + 1 ≤ Mpfr.emax ∧ k ≠ (Mpfr.emin - F - 1) * 2 ^ F ∧
      k ≠ (Mpfr.emax - F - 1) * 2 ^ F + (2 ^ F - 1 : ℕ) := by
  have hb := bias_double hE
  have hp : (0 : ℤ) < 2 ^ F := by positivity
  have hp' : 0 < 2 ^ F := by positivity
  have hb2 : bias E ≤ 2 ^ 61 - 1 := by
    unfold bias
    have : (2 : ℤ) ^ (E - 1) ≤ 2 ^ 61 := pow_le_pow_right₀ (by norm_num) (by omega)
    omega
  have up : (k + 1) / 2 ^ F ≤ k / 2 ^ F + 1 := by
    rw [← Int.add_mul_ediv_right k 1 hp.ne']
    exact Int.ediv_le_ediv hp (by omega)
  have dn : k / 2 ^ F - 1 ≤ (k - 1) / 2 ^ F := by
    have := Int.add_mul_ediv_right (k - 1) 1 hp.ne'
    have h3 : k / 2 ^ F ≤ (k - 1 + 1 * 2 ^ F) / 2 ^ F := Int.ediv_le_ediv hp (by omega)
    omega
  unfold Mpfr.emin Mpfr.emax
  refine ⟨by omega, by omega, ?_, ?_⟩
  · intro hk
    rw [hk, Int.mul_ediv_cancel _ hp.ne'] at h1
    omega
  · intro hk
    have hz : ((2 ^ F - 1 : ℕ) : ℤ) / 2 ^ F = 0 := Int.ediv_eq_zero_of_lt (by omega) (by
      have : (2 ^ F - 1 : ℕ) < 2 ^ F := by omega
      exact_mod_cast this)
    rw [hk, index_div, hz] at h2
    omega

/-- What the check for faithful rounding accepts. -/
theorem faithful_iff {E F : ℕ} (hE : 1 ≤ E) (hE2 : E ≤ 62) (hF : 1 ≤ F) (r g : Fp E F) :
    ∃ ok, checkFaithful (some r) (some g) = some ok ∧
      (ok = true ↔ r.datum = .nan ∨ g.datum = .nan ∨ (∃ s t, r.datum = .zero s ∧ g.datum = .zero t) ∨
        (∃ s, r.datum = .inf s ∧ g.datum = .inf s) ∨ SameOrNeighbours F g.datum r.datum) := by
  have nonum : ∀ {a b}, SameOrNeighbours F a b → ∃ v w, a = .num v ∧ b = .num w := by
    rintro a b ⟨v, w, h1, h2, -⟩; exact ⟨v, w, h1, h2⟩
  have self : ∀ {v : ℚ}, v ≠ 0 → SameOrNeighbours F (.num v) (.num v) := by
    intro v hv
    refine ⟨v, v, rfl, rfl, mul_self_pos.mpr hv, ?_⟩
    rintro ⟨m, e, hm, ⟨h1, h2⟩ | ⟨h1, h2⟩⟩ <;> linarith
  rw [checkFaithful]
  simp only [Option.bind_eq_bind, Option.bind_some]
  by_cases heq : r.equals g = true
  · refine ⟨true, by rw [if_pos heq], ?_⟩
    rw [C07_equals_iff_same_datum hE hF] at heq
    simp only [true_iff]
    rw [heq]
    cases hg : g.datum with
    | nan => exact .inl rfl
    | zero s => exact .inr (.inr (.inl ⟨s, s, rfl, rfl⟩))
    | inf s => exact .inr (.inr (.inr (.inl ⟨s, rfl, rfl⟩)))
    | num v =>
      refine .inr (.inr (.inr (.inr (self ?_))))
      obtain ⟨k, -, hk, -⟩ := toMpfr_index hE hF hg
      have := V_pos F k
      intro h0
      rw [h0, abs_zero] at hk; linarith
  · refine ⟨_, by rw [if_neg heq], ?_⟩
    rw [C07_equals_iff_same_datum hE hF] at heq
    rw [decide_eq_true_iff]
    obtain ⟨r1, r2, r3⟩ := toMpfr_special r
    obtain ⟨g1, g2, g3⟩ := toMpfr_special g
    cases hg : g.datum with
    | nan => simp [g1 hg, Mpfr.nextToward, Mpfr.isNan, Mpfr.cmp]
    | num v =>
      obtain ⟨a, ga, va, la, ua⟩ := toMpfr_index hE hF hg
      obtain ⟨m1, m2, m3, m4⟩ := mpfr_range hE hE2 la ua
      have stay : ∀ {y : Mpfr}, y.isNan = false → Mpfr.cmp (toMpfr g) y ≠ 0 → ∃ s b, Mpfr.nextToward (F + 1) (toMpfr g) y = Mpfr.at_ s F b := by
        intro y hy hne
        rw [ga] at hne ⊢
        rw [Mpfr.nextToward, if_neg (by rw [hy]; simp [Mpfr.at_, Mpfr.isNan]), if_neg hne]
        split_ifs
        · cases decide (v < 0)
          · exact ⟨_, _, Mpfr.nextAbove_at m2⟩
          · exact ⟨_, _, Mpfr.nextAbove_at_neg m1⟩
        · cases decide (v < 0)
          · exact ⟨_, _, Mpfr.nextBelow_at m1⟩
          · exact ⟨_, _, Mpfr.nextBelow_at_neg m2⟩
      cases hr : r.datum with
      | nan => simp [r1 hr, Mpfr.nextToward, Mpfr.isNan, Mpfr.cmp]
      | num w =>
        obtain ⟨b, gb, vb, -, -⟩ := toMpfr_index hE hF hr
        have hv0 : v ≠ 0 := fun h0 => by have := V_pos F a; rw [h0, abs_zero] at va; linarith
        have hw0 : w ≠ 0 := fun h0 => by have := V_pos F b; rw [h0, abs_zero] at vb; linarith
        rw [ga, gb, step_at _ _ m1 m2, neighbours_iff va vb]
        have hs : decide (v < 0) = decide (w < 0) ↔ 0 < v * w := by
          rw [decide_eq_decide]
          rcases lt_or_gt_of_ne hv0 with h | h <;> rcases lt_or_gt_of_ne hw0 with h' | h'
          · simp [h, h', mul_pos_of_neg_of_neg h h']
          · have := mul_neg_of_neg_of_pos h h'
            constructor
            · intro hc; have := hc.mp h; linarith
            · intro hc; linarith
          · have := mul_neg_of_pos_of_neg h h'
            constructor
            · intro hc; have := hc.mpr h'; linarith
            · intro hc; linarith
          · have := mul_pos h h'
            constructor
            · intro _; exact this
            · intro _; constructor <;> intro <;> linarith
        rw [hs]
        simp
      | zero t =>
        have e := r2 t hr
        have hne : Mpfr.cmp (toMpfr g) (.zero t) ≠ 0 := by
          rw [ga]; exact cmp_ne (at_ok _ _ _) trivial (by rw [at_datum]; simp) (by simp [Mpfr.datum]) (by rw [at_datum]; simp [Mpfr.datum, Datum.RealEq])
        obtain ⟨s, b, hb⟩ := stay (y := .zero t) rfl hne
        rw [e, hb]
        constructor
        · intro hc
          exact absurd hc (cmp_ne (at_ok _ _ _) trivial (by rw [at_datum]; simp) (by simp [Mpfr.datum]) (by rw [at_datum]; simp [Mpfr.datum, Datum.RealEq]))
        · rintro (h | h | ⟨_, _, _, h⟩ | ⟨_, h, _⟩ | h)
          · cases h
          · cases h
          · cases h
          · cases h
          · obtain ⟨_, _, _, h⟩ := nonum h; cases h
      | inf t =>
        have e := r3 t hr
        have hne : Mpfr.cmp (toMpfr g) (.inf t) ≠ 0 := by
          rw [ga]; exact cmp_ne (at_ok _ _ _) trivial (by rw [at_datum]; simp) (by simp [Mpfr.datum]) (by rw [at_datum]; simp [Mpfr.datum, Datum.RealEq])
        obtain ⟨s, b, hb⟩ := stay (y := .inf t) rfl hne
        rw [e, hb]
        constructor
        · intro hc
          exact absurd hc (cmp_ne (at_ok _ _ _) trivial (by rw [at_datum]; simp) (by simp [Mpfr.datum]) (by rw [at_datum]; simp [Mpfr.datum, Datum.RealEq]))
        · rintro (h | h | ⟨_, _, h, _⟩ | ⟨_, _, h⟩ | h)
          · cases h
          · cases h
          · cases h
          · cases h
          · obtain ⟨_, _, _, h⟩ := nonum h; cases h
    | zero s =>
      have ex := g2 s hg
      cases hr : r.datum with
      | nan => simp [r1 hr, Mpfr.nextToward, Mpfr.isNan, Mpfr.cmp]
      | zero t =>
        rw [ex, r2 t hr]
        have hc : Mpfr.cmp (.zero s) (.zero t) = 0 := by
          rw [(Mpfr.cmp_spec (x := .zero s) (y := .zero t) trivial trivial (by simp [Mpfr.datum]) (by simp [Mpfr.datum])).2.1]; trivial
        have : Mpfr.cmp (Mpfr.nextToward (F + 1) (.zero s) (.zero t)) (.zero t) = 0 := by
          rw [Mpfr.nextToward, if_neg (by simp [Mpfr.isNan]), if_pos hc]; exact hc
        simp [this]
      | inf t =>
        rw [ex, r3 t hr]
        have hne : Mpfr.cmp (.zero s) (.inf t) ≠ 0 := by cases t <;> cases s <;> decide
        rcases step_special (F := F) (x := .zero s) (.inl ⟨s, rfl⟩) (y := .inf t) rfl hne with ⟨_, _, t', h⟩ | ⟨_, h, _⟩
        · rw [h]
          constructor
          · intro hc
            exact absurd hc (cmp_ne (at_ok _ _ _) trivial (by rw [at_datum]; simp) (by simp [Mpfr.datum]) (by rw [at_datum]; simp [Mpfr.datum, Datum.RealEq]))
          · rintro (h | h | ⟨_, _, h, _⟩ | ⟨_, _, h⟩ | h)
            · cases h
            · cases h
            · cases h
            · cases h
            · obtain ⟨_, _, h, _⟩ := nonum h; cases h
        · cases h
      | num w =>
        obtain ⟨b, gb, vb, lb, ub⟩ := toMpfr_index hE hF hr
        obtain ⟨-, -, m3, m4⟩ := mpfr_range hE hE2 lb ub
        have hne : Mpfr.cmp (.zero s) (toMpfr r) ≠ 0 := by
          rw [gb]; exact cmp_ne trivial (at_ok _ _ _) (by simp [Mpfr.datum]) (by rw [at_datum]; simp) (by rw [at_datum]; simp [Mpfr.datum, Datum.RealEq])
        rw [ex]
        rcases step_special (F := F) (x := .zero s) (.inl ⟨s, rfl⟩) (y := toMpfr r) (by rw [gb]; rfl) hne with ⟨_, _, t', h⟩ | ⟨_, h, _⟩
        · rw [h, gb, cmp_at]
          constructor
          · rintro ⟨-, hc⟩; exact absurd hc.symm m3
          · rintro (h | h | ⟨_, _, h, _⟩ | ⟨_, _, h⟩ | h)
            · cases h
            · cases h
            · cases h
            · cases h
            · obtain ⟨_, _, h, _⟩ := nonum h; cases h
        · cases h
    | inf s =>
      have ex := g3 s hg
      cases hr : r.datum with
      | nan => simp [r1 hr, Mpfr.nextToward, Mpfr.isNan, Mpfr.cmp]
      | inf t =>
        have hst : s ≠ t := fun h => heq (by rw [hr, hg, h])
        rw [ex, r3 t hr]
        have hne : Mpfr.cmp (.inf s) (.inf t) ≠ 0 := by cases s <;> cases t <;> simp_all [Mpfr.cmp]
        rcases step_special (F := F) (x := .inf s) (.inr ⟨s, rfl⟩) (y := .inf t) rfl hne with ⟨_, h, _⟩ | ⟨_, _, t', h⟩
        · cases h
        · rw [h]
          constructor
          · intro hc
            exact absurd hc (cmp_ne (at_ok _ _ _) trivial (by rw [at_datum]; simp) (by simp [Mpfr.datum]) (by rw [at_datum]; simp [Mpfr.datum, Datum.RealEq]))
          · rintro (h | h | ⟨_, _, h, _⟩ | ⟨u, h1, h2⟩ | h)
            · cases h
            · cases h
            · cases h
            · injection h1 with h1; injection h2 with h2; exact absurd (h2.trans h1.symm) hst
            · obtain ⟨_, _, h, _⟩ := nonum h; cases h
      | zero t =>
        rw [ex, r2 t hr]
        have hne : Mpfr.cmp (.inf s) (.zero t) ≠ 0 := by cases s <;> cases t <;> decide
        rcases step_special (F := F) (x := .inf s) (.inr ⟨s, rfl⟩) (y := .zero t) rfl hne with ⟨_, h, _⟩ | ⟨_, _, t', h⟩
        · cases h
        · rw [h]
          constructor
          · intro hc
            exact absurd hc (cmp_ne (at_ok _ _ _) trivial (by rw [at_datum]; simp) (by simp [Mpfr.datum]) (by rw [at_datum]; simp [Mpfr.datum, Datum.RealEq]))
          · rintro (h | h | ⟨_, _, _, h⟩ | ⟨_, h, _⟩ | h)
            · cases h
            · cases h
            · cases h
            · cases h
            · obtain ⟨_, _, h, _⟩ := nonum h; cases h
      | num w =>
        obtain ⟨b, gb, vb, lb, ub⟩ := toMpfr_index hE hF hr
        obtain ⟨-, -, m3, m4⟩ := mpfr_range hE hE2 lb ub
        have hne : Mpfr.cmp (.inf s) (toMpfr r) ≠ 0 := by
          rw [gb]; exact cmp_ne trivial (at_ok _ _ _) (by simp [Mpfr.datum]) (by rw [at_datum]; simp) (by rw [at_datum]; simp [Mpfr.datum, Datum.RealEq])
        rw [ex]
        rcases step_special (F := F) (x := .inf s) (.inr ⟨s, rfl⟩) (y := toMpfr r) (by rw [gb]; rfl) hne with ⟨_, h, _⟩ | ⟨_, _, t', h⟩
        · cases h
        · rw [h, gb, cmp_at]
          constructor
          · rintro ⟨-, hc⟩; exact absurd hc.symm m4
          · rintro (h | h | ⟨_, _, h, _⟩ | ⟨_, h, _⟩ | h)
            · cases h
            · cases h
            · cases h
            · cases h
            · obtain ⟨_, _, h, _⟩ := nonum h; cases h

end OpTest
end Thls
