import Verif.Proofs.PolicyTest
import Verif.Props.RefAgree
import Verif.Props.IeeeOps

/-! # The flopoco policies under the policy test -/

namespace Thls
open Spec

namespace Mpfr

theorem mulT_cases (rnd : ℚ → Mpfr) {x y : Mpfr} (hx : x.Ok) (hy : y.Ok) :
    (∃ w, exactMul x.datum y.datum = .num w ∧ (mulT rnd x y).1 = rnd w) ∨
      ((∀ w, exactMul x.datum y.datum ≠ .num w) ∧ (mulT rnd x y).1.datum = exactMul x.datum y.datum) := by
  by_cases hn : ∃ p q, x.datum = .num p ∧ y.datum = .num q
  · left
    obtain ⟨p, q, hp, hq⟩ := hn
    cases x with
    | num s m e => cases y with
      | num s' m' e' => exact ⟨_, rfl, rfl⟩
      | _ => cases hq
    | _ => cases hp
  · right
    have hds : ∀ w, exactMul x.datum y.datum ≠ .num w := by
      rintro w
      revert hn
      cases x.datum <;> cases y.datum <;> simp [exactMul, mulSpecial]
    refine ⟨hds, ?_⟩
    rw [← (mul_exact 2 hx hy).1 hds]
    cases x with
    | num s m e => cases y with
      | num s' m' e' => exact absurd ⟨_, _, rfl, rfl⟩ hn
      | _ => rfl
    | _ => rfl

theorem divT_cases (rnd : ℚ → Mpfr) {x y : Mpfr} (hx : x.Ok) (hy : y.Ok) :
    (∃ w, exactDiv x.datum y.datum = .num w ∧ (divT rnd x y).1 = rnd w) ∨
      ((∀ w, exactDiv x.datum y.datum ≠ .num w) ∧ (divT rnd x y).1.datum = exactDiv x.datum y.datum) := by
  by_cases hn : ∃ p q, x.datum = .num p ∧ y.datum = .num q
  · left
    obtain ⟨p, q, hp, hq⟩ := hn
    cases x with
    | num s m e => cases y with
      | num s' m' e' => exact ⟨_, rfl, rfl⟩
      | _ => cases hq
    | _ => cases hp
  · right
    have hds : ∀ w, exactDiv x.datum y.datum ≠ .num w := by
      rintro w
      revert hn
      cases x.datum <;> cases y.datum <;> simp [exactDiv, divSpecial]
    refine ⟨hds, ?_⟩
    rw [← (div_exact 2 hx hy).1 hds]
    cases x with
    | num s m e => cases y with
      | num s' m' e' => exact absurd ⟨_, _, rfl, rfl⟩ hn
      | _ => rfl
    | _ => rfl

theorem addT_cases (rnd : ℚ → Mpfr) {x y : Mpfr} :
    (∃ w, exactAdd x.datum y.datum = .num w ∧ (addT rnd x y).1 = rnd w) ∨
      ((∀ w, exactAdd x.datum y.datum ≠ .num w) ∧ (addT rnd x y).1.datum = exactAdd x.datum y.datum) := by
  cases x with
  | num s m e => cases y with
    | num s' m' e' => exact Or.inl ⟨_, rfl, rfl⟩
    | zero t => exact Or.inl ⟨_, rfl, rfl⟩
    | _ => exact Or.inr ⟨by simp [exactAdd, addSpecial, datum], rfl⟩
  | zero s => cases y with
    | num s' m' e' => exact Or.inl ⟨_, rfl, rfl⟩
    | zero t => exact Or.inr ⟨by simp [exactAdd, addSpecial, datum], rfl⟩
    | _ => exact Or.inr ⟨by simp [exactAdd, addSpecial, datum], rfl⟩
  | inf s => cases y with
    | inf t => cases s <;> cases t <;> exact Or.inr ⟨by simp [exactAdd, addSpecial, datum], rfl⟩
    | _ => exact Or.inr ⟨by simp [exactAdd, addSpecial, datum], rfl⟩
  | nan => cases y <;> exact Or.inr ⟨by simp [exactAdd, addSpecial, datum], rfl⟩

end Mpfr

theorem half_pow {E : ℕ} : (2 : ℤ) ^ (E - 1) = bias E + 1 := by unfold bias; ring

/-- The exchange makes the range of `policy_flopoco` harmless. -/
theorem ofMpfr_range {E F : ℕ} (hE : 2 ≤ E) (hF : 1 ≤ F) {v : ℚ} (hv : v ≠ 0) :
    ∃ r : Fp E F, ofMpfr E F true (Mpfr.rndnRange (-2 ^ (E - 1) + 1) (2 ^ (E - 1) + 1) (F + 1) v) = some r ∧ Rounded E F v r.datum := by
  have hn := Mpfr.rndnPos_spec (p := F + 1) (by omega) (abs_pos.mpr hv)
  obtain ⟨b1, b2⟩ := bias_bounds hE
  rw [Mpfr.rndnRange, if_neg hv, half_pow]
  simp only
  generalize hk : (Mpfr.rndnPos (F + 1) |v|).1 = m at hn
  generalize hl : (Mpfr.rndnPos (F + 1) |v|).2 = e at hn
  have hc : ((F + 1 : ℕ) : ℤ) = F + 1 := by push_cast; ring
  rw [hc]
  by_cases h1 : bias E + 1 + 1 < e + (F + 1)
  · rw [if_pos h1]
    obtain ⟨r, hr, hd⟩ := ofMpfr_inf (E := E) (F := F) (by omega) hF (decide (v < 0))
    refine ⟨r, hr, m, e, hn, ?_⟩
    rw [hd, rangeCheck, if_neg (by omega), if_pos (by omega)]
  · rw [if_neg h1]
    by_cases h2 : e + (F + 1) < -(bias E + 1) + 1
    · rw [if_pos h2]
      have hz : rangeCheck E F (decide (v < 0)) m e = .zero (decide (v < 0)) := by rw [rangeCheck, if_pos (by omega)]
      split
      · obtain ⟨r, hr, hd⟩ := ofMpfr_zero (E := E) (F := F) (by omega) hF (decide (v < 0))
        exact ⟨r, hr, m, e, hn, by rw [hd, hz]⟩
      · have h := C47_of_mpfr (le_trans one_le_two hE) hF (m := 2 ^ (F + 1 - 1)) true (decide (v < 0)) (-(bias E + 1) + 1 - (F + 1))
          ⟨le_rfl, Nat.pow_lt_pow_right (by norm_num) (by omega)⟩
        rw [if_pos (Or.inr rfl)] at h
        obtain ⟨r, hr, hd⟩ := h
        refine ⟨r, hr, m, e, hn, ?_⟩
        rw [hd, hz, rangeCheck, if_pos (by omega)]
    · rw [if_neg h2]
      have h := C47_of_mpfr (le_trans one_le_two hE) hF true (decide (v < 0)) e hn.1
      rw [if_pos (Or.inr rfl)] at h
      obtain ⟨r, hr, hd⟩ := h
      exact ⟨r, hr, m, e, hn, hd⟩

/-- From the reference to the value the format delivers. -/
theorem flopoco_ref {E F : ℕ} (hE : 2 ≤ E) (hF : 1 ≤ F) {m : Mpfr} {d : Datum}
    (h : (∃ w, d = .num w ∧ m = Mpfr.rndnRange (-2 ^ (E - 1) + 1) (2 ^ (E - 1) + 1) (F + 1) w) ∨ ((∀ w, d ≠ .num w) ∧ m.datum = d)) :
    ∃ r : Fp E F, ofMpfr E F true m = some r ∧ Delivers E F d r.datum := by
  rcases h with ⟨w, rfl, rfl⟩ | ⟨h1, h2⟩
  · by_cases hw : w = 0
    · obtain ⟨r, hr, hd⟩ := ofMpfr_zero (E := E) (F := F) (by omega) hF false
      refine ⟨r, by rw [Mpfr.rndnRange, if_pos hw, hr], ?_⟩
      simp only [Delivers]; rw [if_pos hw, hd]
    · obtain ⟨r, hr, hd⟩ := ofMpfr_range (E := E) (F := F) hE hF hw
      refine ⟨r, hr, ?_⟩
      simp only [Delivers]; rw [if_neg hw]; exact hd
  · obtain ⟨r, hr, hd⟩ := ofMpfr_special (E := E) (F := F) (by omega) hF h2 h1
    refine ⟨r, hr, ?_⟩
    rw [hd]
    cases d with
    | num w => exact absurd rfl (h1 w)
    | _ => rfl

/-- The same reference, whatever the operators. -/
structure SameReference {V : Type} (P Q : TestPolicy V) : Prop where
  fromMpfr : P.fromMpfr = Q.fromMpfr
  toMpfr : P.toMpfr = Q.toMpfr
  refMul : P.refMul = Q.refMul
  refAdd : P.refAdd = Q.refAdd
  refDiv : P.refDiv = Q.refDiv

theorem flopoco_sound {E F : ℕ} (hE : 2 ≤ E) (hF : 1 ≤ F) {P : TestPolicy (Fp E F)} (h : SameReference P (policyFlopoco E F)) :
    PolicyTest.Sound P Fp.datum (fun _ => True) (fun A B d => Delivers E F (exactMul A B) d)
      (fun A B d => Delivers E F (exactAdd A B) d) (fun A B d => Delivers E F (exactDiv A B) d) where
  back v _ := ⟨toMpfr v, by rw [h.toMpfr]; rfl, C47_to_mpfr_exact v, toMpfr_ok v⟩
  mul a b x y _ _ hx hy := by
    rw [h.toMpfr] at hx hy
    rw [← Option.some.inj hx, ← Option.some.inj hy]
    obtain ⟨r, hr, hd⟩ := flopoco_ref hE hF (Mpfr.mulT_cases (Mpfr.rndnRange (-2 ^ (E - 1) + 1) (2 ^ (E - 1) + 1) (F + 1)) (toMpfr_ok a) (toMpfr_ok b))
    rw [C47_to_mpfr_exact, C47_to_mpfr_exact] at hd
    exact ⟨_, r, by rw [h.refMul]; rfl, by rw [h.fromMpfr]; exact hr, trivial, hd⟩
  add a b x y _ _ hx hy := by
    rw [h.toMpfr] at hx hy
    rw [← Option.some.inj hx, ← Option.some.inj hy]
    obtain ⟨r, hr, hd⟩ := flopoco_ref hE hF (Mpfr.addT_cases (Mpfr.rndnRange (-2 ^ (E - 1) + 1) (2 ^ (E - 1) + 1) (F + 1)) (x := toMpfr a) (y := toMpfr b))
    rw [C47_to_mpfr_exact, C47_to_mpfr_exact] at hd
    exact ⟨_, r, by rw [h.refAdd]; rfl, by rw [h.fromMpfr]; exact hr, trivial, hd⟩
  div a b x y _ _ hx hy := by
    rw [h.toMpfr] at hx hy
    rw [← Option.some.inj hx, ← Option.some.inj hy]
    obtain ⟨r, hr, hd⟩ := flopoco_ref hE hF (Mpfr.divT_cases (Mpfr.rndnRange (-2 ^ (E - 1) + 1) (2 ^ (E - 1) + 1) (F + 1)) (toMpfr_ok a) (toMpfr_ok b))
    rw [C47_to_mpfr_exact, C47_to_mpfr_exact] at hd
    exact ⟨_, r, by rw [h.refDiv]; rfl, by rw [h.fromMpfr]; exact hr, trivial, hd⟩
  umul _ _ _ _ h h' := delivers_unique h h'
  uadd _ _ _ _ h h' := delivers_unique h h'
  udiv _ _ _ _ h h' := delivers_unique h h'

theorem sameValue_refl (d : Datum) : SameValue d d := by
  cases d <;> simp [SameValue, Datum.RealEq]

theorem realEq_comm {a b : Datum} : a.RealEq b ↔ b.RealEq a := by
  cases a <;> cases b <;> simp [Datum.RealEq, eq_comm]

/-- The operators of the policy are right. -/
theorem flopoco_ops {E F : ℕ} (hE : 2 ≤ E) (hF : 1 ≤ F) (hok : DualFormat E F) (hfmt : F ≤ 2 ^ (E + 1)) (a b : Fp E F) :
    ∃ p s q, (policyFlopoco E F).mul a b = some p ∧ (policyFlopoco E F).add a b = some s ∧ (policyFlopoco E F).div a b = some q ∧
      Delivers E F (exactMul a.datum b.datum) p.datum ∧ Delivers E F (exactAdd a.datum b.datum) s.datum ∧
      Delivers E F (exactDiv a.datum b.datum) q.datum := by
  obtain ⟨p, hp⟩ := mulV1_total (wFR := F) a b
  have hs : ∃ s, AddDual.addSame a b = some s ∧ Delivers E F (exactAdd a.datum b.datum) s.datum := by
    cases h : addSpecial a.datum b.datum with
    | some d =>
      obtain ⟨r, hr, hd⟩ := AddDual.addSame_special hE hF hok h
      refine ⟨r, hr, exactAdd_delivers (by omega) hF ?_ ?_⟩
      · intro d' hd'; rw [h] at hd'; cases hd'; exact hd
      · intro p q hp hq; rw [hp, hq] at h; cases h
    | none =>
      obtain ⟨vp, vq, hp, hq⟩ : ∃ p q, a.datum = .num p ∧ b.datum = .num q := by
        revert h
        cases a.datum <;> cases b.datum <;> simp [addSpecial]
      obtain ⟨r, hr, h1, h2⟩ := AddDual.addSame_num hE hF hok (by rw [pow_succ] at hfmt; omega) hp hq
      refine ⟨r, hr, ?_⟩
      rw [hp, hq]
      change if vp + vq = 0 then _ else _
      by_cases h0 : vp + vq = 0
      · rw [if_pos h0]; exact h1 h0
      · rw [if_neg h0]; exact h2 h0
  obtain ⟨s, hs, ds⟩ := hs
  refine ⟨p, s, divV1 E F a b, hp, hs, rfl, ?_, ds, ?_⟩
  · refine exactMul_delivers (by omega) hF (fun d hd => C12_mul_exceptions (by omega) hF (by omega) a b p hp d hd) ?_
    intro vp vq h1 h2
    obtain ⟨s, hs, hd⟩ := C10_mul_correctly_rounded hE hF hF hF (by omega) a b vp vq h1 h2
    rw [hp] at hs
    rw [Option.some.inj hs]; exact hd
  · refine exactDiv_delivers (by omega) hF ?_ ?_
    · exact fun d hd => C22_div_exceptions (by omega) hF (by omega) hF ⟨le_rfl, le_rfl⟩ ⟨le_rfl, le_rfl⟩ a b d hd
    · exact fun p q hp hq => C20_div_correctly_rounded hE (by omega) hF (by omega) hF ⟨le_rfl, le_rfl⟩ ⟨le_rfl, le_rfl⟩ a b p q hp hq

/-- The comparisons of two encodings of the same infinity. -/
theorem flopoco_inf_equal {E F : ℕ} (hE : 1 ≤ E) (hF : 1 ≤ F) {a b : Fp E F} {s : Bool} (ha : a.datum = .inf s) (hb : b.datum = .inf s)
    (h : Ord.equal a b = true) : a.exp = b.exp ∧ a.frac = b.frac := by
  have f2 : ∀ {x : Fp E F} {s}, x.datum = .inf s → x.flags = 2 ∧ decide (x.sign = 1) = s := by
    intro x s hx
    rcases flags_cases x with f | f | f | f
    · rw [datum_flags0 x f] at hx; cases hx
    · rw [datum_normal x f] at hx; cases hx
    · rw [datum_flags2 x f] at hx; injection hx with hx; exact ⟨f, hx⟩
    · rw [datum_flags3 x f] at hx; cases hx
  obtain ⟨fa, sa⟩ := f2 ha
  obtain ⟨fb, sb⟩ := f2 hb
  have hk := (cmp_lex hE hF hE hF a b (by omega) (by omega)).2.2.2.2.1.1 h
  have hss : (if a.sign = 1 then (-1 : ℤ) else 1) = if b.sign = 1 then -1 else 1 := by
    rw [← sb] at sa
    by_cases h1 : a.sign = 1 <;> by_cases h2 : b.sign = 1 <;> simp [h1, h2] at sa ⊢
  unfold Fp.lexKey at hk
  have hk2 := congrArg (fun z => (ofLex z).2) hk
  simp only [ofLex_toLex] at hk2
  rw [fa, fb, if_neg (show ¬ (2 : ℕ) = 0 by norm_num), if_neg (show ¬ (2 : ℕ) = 0 by norm_num), hss] at hk2
  have hs0 : (((if b.sign = 1 then (-1 : ℤ) else 1) : ℤ) : ℚ) ≠ 0 := by split_ifs <;> norm_num
  have hm := (mag_strictMono E F).injective (mul_left_cancel₀ hs0 hk2)
  have h1 := congrArg (· / 2 ^ F) hm
  have h2 := congrArg (· % 2 ^ F) hm
  simp only [Fp.expFrac_div hE hF, Fp.expFrac_mod hE hF] at h1 h2
  exact ⟨h1, h2⟩

theorem flopoco_compare {E F : ℕ} (hE : 1 ≤ E) (hF : 1 ≤ F) {a b : Fp E F} (ha : a.datum ≠ .nan) (hb : b.datum ≠ .nan) :
    ComparesRight a.datum b.datum (Ord.equal a b) (Ord.notEqual a b) (Ord.lessThan a b) (Ord.lessThanEqual a b) (Ord.greaterThan a b)
      (Ord.greaterThanEqual a b) ↔ ∀ s, a.datum = .inf s → b.datum = .inf s → a.exp = b.exp ∧ a.frac = b.frac := by
  constructor
  · intro h s h1 h2
    refine flopoco_inf_equal hE hF h1 h2 (h.eq.2 ?_)
    rw [h1, h2]; rfl
  · intro h
    obtain ⟨h1, h2, h3, h4, h5, h6⟩ := C25_comparisons_real_order_partial hE hF hE hF a b ha hb (by
      intro s h1 h2
      obtain ⟨e1, e2⟩ := h s h1 h2
      rw [e1, e2]; exact ⟨rfl, rfl⟩)
    exact ⟨h5, h6, h1, h2, h3, h4⟩

/-! ## The IEEE words -/

theorem ieee_toMpfr_ok {E F : ℕ} (x : Ieee E F) : (Ieee.toMpfr x).Ok := by
  rw [Ieee.toMpfr]
  split_ifs <;> simp [Mpfr.Ok]

theorem ieeeRounded_unique {E F : ℕ} {q : ℚ} {d d' : Datum} (h : IeeeRounded E F q d) (h' : IeeeRounded E F q d') : d = d' := by
  obtain ⟨m, e, hn, rfl⟩ := h
  obtain ⟨m', e', hn', rfl⟩ := h'
  obtain ⟨rfl, rfl⟩ := nearest_unique (by omega) hn hn'
  rfl

theorem ieeeDelivers_unique {E F : ℕ} {x d d' : Datum} (h : IeeeDelivers E F x d) (h' : IeeeDelivers E F x d') : d = d' := by
  cases x with
  | num w =>
    simp only [IeeeDelivers] at h h'
    split at h
    · rename_i hz; rw [if_pos hz] at h'; rw [h, h']
    · rename_i hz; rw [if_neg hz] at h'; exact ieeeRounded_unique h h'
  | _ => simp only [IeeeDelivers] at h h'; rw [h, h']

/-- The IEEE range of a signed significand. -/
theorem ieeeRange_sig {E F m : ℕ} {e : ℤ} (neg : Bool) (hm : IsSig (F + 1) m) :
    (e + F < 1 - bias E → ieeeRange E (Mpfr.num neg m e).datum = .zero neg) ∧
    (1 - bias E ≤ e + F → bias E < e + F → ieeeRange E (Mpfr.num neg m e).datum = .inf neg) := by
  obtain ⟨m1, m2⟩ := hm
  rw [Nat.add_sub_cancel] at m1
  have hp : (0 : ℚ) < 2 ^ e := two_zpow_pos _
  have hm0 : (2 : ℚ) ^ F ≤ m := by exact_mod_cast m1
  have hm1 : (m : ℚ) < 2 ^ (F + 1) := by exact_mod_cast m2
  have hpF : (0 : ℚ) < 2 ^ F := by positivity
  have hpos : (0 : ℚ) < (m : ℚ) * 2 ^ e := mul_pos (lt_of_lt_of_le hpF hm0) hp
  have l1 : (2 : ℚ) ^ (e + F : ℤ) ≤ (m : ℚ) * 2 ^ e := by
    rw [add_comm, zpow_add₀ (by norm_num), zpow_natCast]; exact mul_le_mul_of_nonneg_right hm0 hp.le
  have l2 : (m : ℚ) * 2 ^ e < 2 ^ (e + F + 1 : ℤ) := by
    rw [show e + (F : ℤ) + 1 = ((F + 1 : ℕ) : ℤ) + e by push_cast; ring, zpow_add₀ (by norm_num), zpow_natCast]
    exact mul_lt_mul_of_pos_right hm1 hp
  have habs : |(if neg then (-1 : ℚ) else 1) * ((m : ℚ) * 2 ^ e)| = m * 2 ^ e := by
    cases neg
    · simp only [Bool.false_eq_true, if_false, one_mul]; exact abs_of_pos hpos
    · simp only [if_true, neg_one_mul, abs_neg]; exact abs_of_pos hpos
  have hdec : decide ((if neg then (-1 : ℚ) else 1) * ((m : ℚ) * 2 ^ e) < 0) = neg := by
    cases neg
    · simp only [Bool.false_eq_true, if_false, one_mul, decide_eq_false_iff_not, not_lt]; exact hpos.le
    · simp only [if_true, neg_one_mul, decide_eq_true_eq]; linarith
  simp only [Mpfr.datum, ieeeRange, habs, hdec, ieeeMin, ieeeLimit]
  constructor
  · intro h
    rw [if_pos (lt_of_lt_of_le l2 (zpow_le_zpow_right₀ (by norm_num) (by omega)))]
  · intro h h'
    rw [if_neg (not_lt.2 (le_trans (zpow_le_zpow_right₀ (by norm_num) h) l1)),
      if_pos (le_trans (zpow_le_zpow_right₀ (by norm_num) (by omega)) l1)]

theorem ieee_ofMpfr_range {E F : ℕ} (hE : 2 ≤ E) (hF : 1 ≤ F) {v : ℚ} (hv : v ≠ 0) :
    ∃ r : Ieee E F, Ieee.ofMpfr E F true (Mpfr.rndnRange (-2 ^ (E - 1) + 2) (2 ^ (E - 1)) (F + 1) v) = some r ∧ IeeeRounded E F v r.datum := by
  have hn := Mpfr.rndnPos_spec (p := F + 1) (by omega) (abs_pos.mpr hv)
  obtain ⟨b1, b2⟩ := bias_bounds hE
  obtain ⟨-, ginf, gzero, -⟩ := C51_mpfr_round_trip hE hF true (Ieee.ofBits E F 0)
  rw [Mpfr.rndnRange, if_neg hv, half_pow]
  simp only
  generalize hk : (Mpfr.rndnPos (F + 1) |v|).1 = m at hn
  generalize hl : (Mpfr.rndnPos (F + 1) |v|).2 = e at hn
  have hc : ((F + 1 : ℕ) : ℤ) = F + 1 := by push_cast; ring
  rw [hc]
  have hsame : ∀ d, d = ieeeRange E (Mpfr.num (decide (v < 0)) m e).datum → IeeeRounded E F v d := by
    rintro d rfl
    refine ⟨m, e, hn, ?_⟩
    congr 3
    by_cases h : v < 0 <;> simp [h, Mpfr.datum]
  by_cases h1 : bias E + 1 < e + (F + 1)
  · rw [if_pos h1]
    obtain ⟨r, hr, hd⟩ := ginf (decide (v < 0))
    exact ⟨r, hr, hsame _ (by rw [hd, (ieeeRange_sig _ hn.1).2 (by omega) (by omega)])⟩
  · rw [if_neg h1]
    by_cases h2 : e + (F + 1) < -(bias E + 1) + 2
    · rw [if_pos h2]
      have hz : ieeeRange E (Mpfr.num (decide (v < 0)) m e).datum = .zero (decide (v < 0)) := (ieeeRange_sig _ hn.1).1 (by omega)
      split
      · obtain ⟨r, hr, hd⟩ := gzero (decide (v < 0))
        exact ⟨r, hr, hsame _ (by rw [hd, hz])⟩
      · have hs : IsSig (F + 1) (2 ^ (F + 1 - 1)) := ⟨le_rfl, Nat.pow_lt_pow_right (by norm_num) (by omega)⟩
        have h := C51_of_mpfr hE hF true (decide (v < 0)) (-(bias E + 1) + 2 - (F + 1)) hs
        rw [if_pos (Or.inr rfl)] at h
        obtain ⟨r, hr, hd⟩ := h
        exact ⟨r, hr, hsame _ (by rw [hd, hz, (ieeeRange_sig _ hs).1 (by omega)])⟩
    · rw [if_neg h2]
      have h := C51_of_mpfr hE hF true (decide (v < 0)) e hn.1
      rw [if_pos (Or.inr rfl)] at h
      obtain ⟨r, hr, hd⟩ := h
      exact ⟨r, hr, hsame _ hd⟩

theorem ieeeRounded_range {E F : ℕ} {q : ℚ} {d : Datum} (h : IeeeRounded E F q d) : ieeeRange E d = d := by
  obtain ⟨m, e, -, rfl⟩ := h
  exact ieeeRange_idem _ _

theorem ieee_ref {E F : ℕ} (hE : 2 ≤ E) (hF : 1 ≤ F) {m : Mpfr} {d : Datum}
    (h : (∃ w, d = .num w ∧ m = Mpfr.rndnRange (-2 ^ (E - 1) + 2) (2 ^ (E - 1)) (F + 1) w) ∨ ((∀ w, d ≠ .num w) ∧ m.datum = d)) :
    ∃ r : Ieee E F, Ieee.ofMpfr E F true m = some r ∧ IeeeDelivers E F d (ieeeRange E r.datum) := by
  obtain ⟨gnan, ginf, gzero, -⟩ := C51_mpfr_round_trip hE hF true (Ieee.ofBits E F 0)
  rcases h with ⟨w, rfl, rfl⟩ | ⟨h1, h2⟩
  · by_cases hw : w = 0
    · obtain ⟨r, hr, hd⟩ := gzero false
      refine ⟨r, by rw [Mpfr.rndnRange, if_pos hw, hr], ?_⟩
      simp only [IeeeDelivers]; rw [if_pos hw, hd]; rfl
    · obtain ⟨r, hr, hd⟩ := ieee_ofMpfr_range (E := E) (F := F) hE hF hw
      refine ⟨r, hr, ?_⟩
      simp only [IeeeDelivers]; rw [if_neg hw, ieeeRounded_range hd]; exact hd
  · subst h2
    cases m with
    | num s m e => exact absurd rfl (h1 _)
    | nan => obtain ⟨r, hr, hd⟩ := gnan; exact ⟨r, hr, by rw [hd]; rfl⟩
    | inf s => obtain ⟨r, hr, hd⟩ := ginf s; exact ⟨r, hr, by rw [hd]; rfl⟩
    | zero s => obtain ⟨r, hr, hd⟩ := gzero s; exact ⟨r, hr, by rw [hd]; rfl⟩

theorem ieee_sound {E F : ℕ} (hE : 2 ≤ E) (hF : 1 ≤ F) {P : TestPolicy (Ieee E F)} (h : SameReference P (policyIeeeOnFlopoco E F)) :
    PolicyTest.Sound P (fun x => ieeeRange E x.datum) (fun _ => True) (fun A B d => IeeeDelivers E F (exactMul A B) d)
      (fun A B d => IeeeDelivers E F (exactAdd A B) d) (fun A B d => IeeeDelivers E F (exactDiv A B) d) where
  back v _ := ⟨Ieee.toMpfr v, by rw [h.toMpfr]; rfl, C51_to_mpfr hE hF v, ieee_toMpfr_ok v⟩
  mul a b x y _ _ hx hy := by
    rw [h.toMpfr] at hx hy
    rw [← Option.some.inj hx, ← Option.some.inj hy]
    obtain ⟨r, hr, hd⟩ := ieee_ref hE hF (Mpfr.mulT_cases (Mpfr.rndnRange (-2 ^ (E - 1) + 2) (2 ^ (E - 1)) (F + 1)) (ieee_toMpfr_ok a) (ieee_toMpfr_ok b))
    rw [C51_to_mpfr hE hF, C51_to_mpfr hE hF] at hd
    exact ⟨_, r, by rw [h.refMul]; rfl, by rw [h.fromMpfr]; exact hr, trivial, hd⟩
  add a b x y _ _ hx hy := by
    rw [h.toMpfr] at hx hy
    rw [← Option.some.inj hx, ← Option.some.inj hy]
    obtain ⟨r, hr, hd⟩ := ieee_ref hE hF (Mpfr.addT_cases (Mpfr.rndnRange (-2 ^ (E - 1) + 2) (2 ^ (E - 1)) (F + 1)) (x := Ieee.toMpfr a) (y := Ieee.toMpfr b))
    rw [C51_to_mpfr hE hF, C51_to_mpfr hE hF] at hd
    exact ⟨_, r, by rw [h.refAdd]; rfl, by rw [h.fromMpfr]; exact hr, trivial, hd⟩
  div a b x y _ _ hx hy := by
    rw [h.toMpfr] at hx hy
    rw [← Option.some.inj hx, ← Option.some.inj hy]
    obtain ⟨r, hr, hd⟩ := ieee_ref hE hF (Mpfr.divT_cases (Mpfr.rndnRange (-2 ^ (E - 1) + 2) (2 ^ (E - 1)) (F + 1)) (ieee_toMpfr_ok a) (ieee_toMpfr_ok b))
    rw [C51_to_mpfr hE hF, C51_to_mpfr hE hF] at hd
    exact ⟨_, r, by rw [h.refDiv]; rfl, by rw [h.fromMpfr]; exact hr, trivial, hd⟩
  umul _ _ _ _ h h' := ieeeDelivers_unique h h'
  uadd _ _ _ _ h h' := ieeeDelivers_unique h h'
  udiv _ _ _ _ h h' := ieeeDelivers_unique h h'

theorem ieeeDelivers_special {E F : ℕ} {d : Datum} (h : ∀ w, d ≠ .num w) : IeeeDelivers E F d d := by
  cases d with
  | num w => exact absurd rfl (h w)
  | _ => rfl

theorem ieeeDelivers_num {E F : ℕ} {w : ℚ} {d : Datum} (h0 : w ≠ 0) (h : IeeeRounded E F w d) : IeeeDelivers E F (.num w) (ieeeRange E d) := by
  change if w = 0 then _ else _
  rw [if_neg h0, ieeeRounded_range h]; exact h

/-- A number of the range is rounded to itself. -/
theorem ieee_self {E F : ℕ} (hE : 2 ≤ E) (hF : 1 ≤ F) (a : Ieee E F) {w : ℚ} (h : ieeeRange E a.datum = .num w) :
    w ≠ 0 ∧ IeeeRounded E F w (.num w) := by
  refine ⟨SoftFmt.ieeeRange_num_ne h, ?_⟩
  have hf := ieeeToFlopoco_datum (E := E) (F := F) (by omega) hF a
  rw [h] at hf
  have := ieee_range_of_rounded (E := E) (F := F) (by omega) (q := w) (d := .num w) (by
    have := delivers_self (E := E) (F := F) (by omega) hF hf
    rw [hf] at this
    change if w = 0 then _ else _ at this
    rwa [if_neg (SoftFmt.ieeeRange_num_ne h)] at this)
  rwa [show ieeeRange E (.num w) = .num w by rw [← h, ieeeRange_idem]] at this

theorem ieee_ops {E F : ℕ} (hE : 2 ≤ E) (hF : 1 ≤ F) (hok : DualFormat E F) (hfmt : F ≤ 2 ^ (E + 1)) (a b : Ieee E F) :
    ∃ p s q, (policyIeeeOnFlopoco E F).mul a b = some p ∧ (policyIeeeOnFlopoco E F).add a b = some s ∧
      (policyIeeeOnFlopoco E F).div a b = some q ∧
      IeeeDelivers E F (exactMul (ieeeRange E a.datum) (ieeeRange E b.datum)) (ieeeRange E p.datum) ∧
      IeeeDelivers E F (exactAdd (ieeeRange E a.datum) (ieeeRange E b.datum)) (ieeeRange E s.datum) ∧
      IeeeDelivers E F (exactDiv (ieeeRange E a.datum) (ieeeRange E b.datum)) (ieeeRange E q.datum) := by
  have hp : ∃ p, IeeeOps.mul a b = some p ∧
      IeeeDelivers E F (exactMul (ieeeRange E a.datum) (ieeeRange E b.datum)) (ieeeRange E p.datum) := by
    cases h : mulSpecial (ieeeRange E a.datum) (ieeeRange E b.datum) with
    | some d =>
      obtain ⟨r, hr, rfl⟩ := C29_mul_special hE hF a b d h
      refine ⟨r, hr, ?_⟩
      rw [exactMul, h, Option.getD_some, mulSpecial_range h]
      apply ieeeDelivers_special
      intro w hw
      rw [hw] at h
      revert h
      cases ieeeRange E a.datum <;> cases ieeeRange E b.datum <;> simp [mulSpecial]
    | none =>
      obtain ⟨vp, vq, h1, h2⟩ : ∃ p q, ieeeRange E a.datum = .num p ∧ ieeeRange E b.datum = .num q := by
        revert h
        cases ieeeRange E a.datum <;> cases ieeeRange E b.datum <;> simp [mulSpecial]
      obtain ⟨r, hr, hd⟩ := C29_mul hE hF a b vp vq h1 h2
      refine ⟨r, hr, ?_⟩
      rw [h1, h2]
      exact ieeeDelivers_num (mul_ne_zero (SoftFmt.ieeeRange_num_ne h1) (SoftFmt.ieeeRange_num_ne h2)) hd
  have hq : IeeeDelivers E F (exactDiv (ieeeRange E a.datum) (ieeeRange E b.datum)) (ieeeRange E (IeeeOps.div a b).datum) := by
    cases h : divSpecial (ieeeRange E a.datum) (ieeeRange E b.datum) with
    | some d =>
      have hr := C29_div_special hE hF a b d h
      rw [exactDiv, h, Option.getD_some, hr, divSpecial_range h]
      apply ieeeDelivers_special
      intro w hw
      rw [hw] at h
      revert h
      cases ieeeRange E a.datum <;> cases ieeeRange E b.datum <;> simp [divSpecial]
    | none =>
      obtain ⟨vp, vq, h1, h2⟩ : ∃ p q, ieeeRange E a.datum = .num p ∧ ieeeRange E b.datum = .num q := by
        revert h
        cases ieeeRange E a.datum <;> cases ieeeRange E b.datum <;> simp [divSpecial]
      have hd := C29_div hE hF a b vp vq h1 h2
      rw [h1, h2]
      exact ieeeDelivers_num (div_ne_zero (SoftFmt.ieeeRange_num_ne h1) (SoftFmt.ieeeRange_num_ne h2)) hd
  have hs : ∃ s, IeeeOps.add a b = some s ∧
      IeeeDelivers E F (exactAdd (ieeeRange E a.datum) (ieeeRange E b.datum)) (ieeeRange E s.datum) := by
    cases h : addSpecial (ieeeRange E a.datum) (ieeeRange E b.datum) with
    | some d =>
      obtain ⟨r, hr, rfl⟩ := C29_add_special_partial hE hF hok a b d h
      refine ⟨r, hr, ?_⟩
      rw [exactAdd, h, Option.getD_some, addSpecial_range h]
      by_cases hn : ∃ w, r.datum = .num w
      · obtain ⟨w, hw⟩ := hn
        have hside : ieeeRange E a.datum = .num w ∨ ieeeRange E b.datum = .num w := by
          rw [hw] at h
          revert h
          cases ieeeRange E a.datum with
          | nan => cases ieeeRange E b.datum <;> simp [addSpecial]
          | inf s => cases ieeeRange E b.datum with
            | inf t => cases s <;> cases t <;> simp [addSpecial]
            | _ => simp [addSpecial]
          | zero s => cases ieeeRange E b.datum <;> simp [addSpecial]
          | num u => cases ieeeRange E b.datum <;> simp [addSpecial] <;> tauto
        have hw' : w ≠ 0 ∧ IeeeRounded E F w (.num w) := by
          rcases hside with h | h
          · exact ieee_self hE hF a h
          · exact ieee_self hE hF b h
        rw [hw]
        change if w = 0 then _ else _
        rw [if_neg hw'.1]; exact hw'.2
      · push Not at hn
        exact ieeeDelivers_special hn
    | none =>
      obtain ⟨vp, vq, h1, h2⟩ : ∃ p q, ieeeRange E a.datum = .num p ∧ ieeeRange E b.datum = .num q := by
        revert h
        cases ieeeRange E a.datum <;> cases ieeeRange E b.datum <;> simp [addSpecial]
      obtain ⟨r, hr, hd⟩ := C29_add_partial hE hF hok hfmt a b vp vq h1 h2
      refine ⟨r, hr, ?_⟩
      rw [h1, h2]
      change if vp + vq = 0 then _ else _
      split_ifs at hd ⊢ with h0
      · rw [hd]; rfl
      · rw [ieeeRounded_range hd]; exact hd
  obtain ⟨p, hp, dp⟩ := hp
  obtain ⟨s, hs, ds⟩ := hs
  exact ⟨p, s, IeeeOps.div a b, hp, hs, rfl, dp, ds, hq⟩

end Thls
