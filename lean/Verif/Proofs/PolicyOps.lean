import Verif.Proofs.Policy
import Verif.Proofs.SoftUnique
import Verif.Proofs.SoftMono

/-! # The exchange functions and references of the native policies -/

namespace Thls
open Spec

/-- A number that the format holds exactly. -/
def Rep (E F : ℕ) (d : Datum) : Prop := ∀ q, d = .num q → q ≠ 0 ∧ RoundedGradual E F q (.num q)

namespace Mpfr

theorem subnormalize_special {emin t : ℤ} {x : Mpfr} (h : ∀ q, x.datum ≠ .num q) : subnormalize emin t x = x := by
  cases x with
  | num s m e => exact absurd rfl (h _)
  | _ => rfl

theorem mulT_ieee {E F : ℕ} (hE : 2 ≤ E) (hF : 1 ≤ F) {emin emax : ℤ} (h1 : emin = leastExp E F + 1) (h2 : emax = bias E + 1)
    {x y : Mpfr} (hx : x.Ok) (hy : y.Ok) :
    IeeeProduct E F x.datum y.datum (subnormalize emin (mulT (rndnRange emin emax (F + 1)) x y).2
      (mulT (rndnRange emin emax (F + 1)) x y).1).datum := by
  by_cases hn : ∃ p q, x.datum = .num p ∧ y.datum = .num q
  · obtain ⟨p, q, hp, hq⟩ := hn
    have p0 := num_ne_zero hx hp
    have q0 := num_ne_zero hy hq
    cases x with
    | num s m e => cases y with
      | num s' m' e' =>
        rw [hp, hq]
        simp only [mulT, IeeeProduct]
        rw [value_eq hp, value_eq hq]
        exact rndnRange_gradual hE hF (mul_ne_zero p0 q0) h1 h2
      | _ => cases hq
    | _ => cases hp
  · obtain ⟨d, hd⟩ : ∃ d, mulSpecial x.datum y.datum = some d := by
      cases h : mulSpecial x.datum y.datum with
      | some d => exact ⟨d, rfl⟩
      | none =>
        exfalso; apply hn
        revert h
        cases x.datum <;> cases y.datum <;> simp [mulSpecial]
    have hex := mul_exact 2 hx hy
    rw [exactMul, hd, Option.getD_some] at hex
    have hds : ∀ w, d ≠ .num w := by
      rintro w rfl
      revert hd
      cases x.datum <;> cases y.datum <;> simp [mulSpecial]
    have hdat := hex.1 hds
    have hT : mulT (rndnRange emin emax (F + 1)) x y = (mul 2 x y, 0) := by
      cases x with
      | num s m e => cases y with
        | num s' m' e' => exact absurd ⟨_, _, rfl, rfl⟩ hn
        | _ => rfl
      | _ => rfl
    rw [hT, subnormalize_special (by rw [hdat]; exact hds)]
    simp only
    rw [hdat]
    revert hd hn
    cases x.datum <;> cases y.datum <;> simp only [IeeeProduct] <;> intro hn hd <;> first | exact hd | exact absurd ⟨_, _, rfl, rfl⟩ hn

theorem divT_ieee {E F : ℕ} (hE : 2 ≤ E) (hF : 1 ≤ F) {emin emax : ℤ} (h1 : emin = leastExp E F + 1) (h2 : emax = bias E + 1)
    {x y : Mpfr} (hx : x.Ok) (hy : y.Ok) :
    IeeeQuotient E F x.datum y.datum (subnormalize emin (divT (rndnRange emin emax (F + 1)) x y).2
      (divT (rndnRange emin emax (F + 1)) x y).1).datum := by
  by_cases hn : ∃ p q, x.datum = .num p ∧ y.datum = .num q
  · obtain ⟨p, q, hp, hq⟩ := hn
    have p0 := num_ne_zero hx hp
    have q0 := num_ne_zero hy hq
    cases x with
    | num s m e => cases y with
      | num s' m' e' =>
        rw [hp, hq]
        simp only [divT, IeeeQuotient]
        rw [value_eq hp, value_eq hq]
        exact rndnRange_gradual hE hF (div_ne_zero p0 q0) h1 h2
      | _ => cases hq
    | _ => cases hp
  · obtain ⟨d, hd⟩ : ∃ d, divSpecial x.datum y.datum = some d := by
      cases h : divSpecial x.datum y.datum with
      | some d => exact ⟨d, rfl⟩
      | none =>
        exfalso; apply hn
        revert h
        cases x.datum <;> cases y.datum <;> simp [divSpecial]
    have hex := div_exact 2 hx hy
    rw [exactDiv, hd, Option.getD_some] at hex
    have hds : ∀ w, d ≠ .num w := by
      rintro w rfl
      revert hd
      cases x.datum <;> cases y.datum <;> simp [divSpecial]
    have hdat := hex.1 hds
    have hT : divT (rndnRange emin emax (F + 1)) x y = (divWith (rndn 2) x y, 0) := by
      cases x with
      | num s m e => cases y with
        | num s' m' e' => exact absurd ⟨_, _, rfl, rfl⟩ hn
        | _ => rfl
      | _ => rfl
    rw [hT, subnormalize_special (by rw [hdat]; exact hds)]
    simp only
    rw [hdat]
    revert hd hn
    cases x.datum <;> cases y.datum <;> simp only [IeeeQuotient] <;> intro hn hd <;> first | exact hd | exact absurd ⟨_, _, rfl, rfl⟩ hn

/-- Rounding a number the format holds. -/
theorem round_rep {E F : ℕ} (hE : 2 ≤ E) (hF : 1 ≤ F) {emin emax : ℤ} (h1 : emin = leastExp E F + 1) (h2 : emax = bias E + 1)
    {q : ℚ} (hq : q ≠ 0 ∧ RoundedGradual E F q (.num q)) :
    (subnormalize emin (roundT (rndnRange emin emax (F + 1)) q).2 (roundT (rndnRange emin emax (F + 1)) q).1).datum = .num q :=
  roundedG_unique hF (rndnRange_gradual hE hF hq.1 h1 h2) hq.2

theorem addT_ieee {E F : ℕ} (hE : 2 ≤ E) (hF : 1 ≤ F) {emin emax : ℤ} (h1 : emin = leastExp E F + 1) (h2 : emax = bias E + 1)
    {x y : Mpfr} (hx : Rep E F x.datum) (hy : Rep E F y.datum) :
    IeeeSum E F x.datum y.datum (subnormalize emin (addT (rndnRange emin emax (F + 1)) x y).2
      (addT (rndnRange emin emax (F + 1)) x y).1).datum := by
  cases x with
  | num s m e => cases y with
    | num s' m' e' =>
      have hd : ∀ s m e, (Mpfr.num s m e).datum = .num (Mpfr.num s m e).value := fun _ _ _ => rfl
      rw [hd, hd]
      simp only [addT, IeeeSum]
      generalize (Mpfr.num s m e).value + (Mpfr.num s' m' e').value = v
      by_cases h0 : v = 0
      · rw [if_pos h0, h0, roundT, rndnRange, if_pos rfl]
        rfl
      · rw [if_neg h0]
        exact rndnRange_gradual hE hF h0 h1 h2
    | zero t =>
      have h := round_rep hE hF h1 h2 (hx _ rfl)
      exact (congrArg some h.symm : _)
    | _ => rfl
  | zero t => cases y with
    | num s' m' e' =>
      have h := round_rep hE hF h1 h2 (hy _ rfl)
      exact (congrArg some h.symm : _)
    | _ => rfl
  | inf s => cases y with
    | inf t => cases s <;> cases t <;> rfl
    | _ => rfl
  | nan => cases y <;> rfl

theorem setT_ieee {E F : ℕ} (hE : 2 ≤ E) (hF : 1 ≤ F) {emin emax : ℤ} (h1 : emin = leastExp E F + 1) (h2 : emax = bias E + 1)
    {x : Mpfr} (hx : Rep E F x.datum) :
    (subnormalize emin (setT (rndnRange emin emax (F + 1)) x).2 (setT (rndnRange emin emax (F + 1)) x).1).datum = x.datum := by
  cases x with
  | num s m e =>
    simp only [setT]
    rw [value, round_rep hE hF h1 h2 (hx _ rfl)]
    rfl
  | _ => rfl

/-- `mpfr_cmp` orders numbers as extended reals. -/
theorem cmp_spec {x y : Mpfr} (hx : x.Ok) (hy : y.Ok) (nx : x.datum ≠ .nan) (ny : y.datum ≠ .nan) :
    (cmp x y < 0 ↔ x.datum.Lt y.datum) ∧ (cmp x y = 0 ↔ x.datum.RealEq y.datum) ∧ (0 < cmp x y ↔ y.datum.Lt x.datum) := by
  have z : ∀ {s m e}, (Mpfr.num s m e).Ok → (Mpfr.num s m e).value ≠ 0 := fun h => num_ne_zero h rfl
  cases x with
  | nan => exact absurd rfl nx
  | inf s => cases y with
    | nan => exact absurd rfl ny
    | inf t => cases s <;> cases t <;> simp [cmp, datum, Datum.Lt, Datum.RealEq]
    | _ => cases s <;> simp [cmp, datum, Datum.Lt, Datum.RealEq]
  | zero s => cases y with
    | nan => exact absurd rfl ny
    | inf t => cases t <;> simp [cmp, datum, Datum.Lt, Datum.RealEq]
    | zero t => simp [cmp, datum, Datum.Lt, Datum.RealEq, value]
    | num t m e =>
      have := z hy
      simp only [cmp, datum, Datum.Lt, Datum.RealEq]
      change (_ ↔ 0 < (Mpfr.num t m e).value) ∧ _ ∧ (_ ↔ (Mpfr.num t m e).value < 0)
      have v0 : (Mpfr.zero s).value = 0 := rfl
      rw [v0]
      rcases lt_or_gt_of_ne this with h | h
      · rw [if_neg h.not_gt, if_pos h]; simp [h, h.le]
      · rw [if_pos h]; simp [h, h.le]
  | num s m e => cases y with
    | nan => exact absurd rfl ny
    | inf t => cases t <;> simp [cmp, datum, Datum.Lt, Datum.RealEq]
    | zero t =>
      have := z hx
      simp only [cmp, datum, Datum.Lt, Datum.RealEq]
      change (_ ↔ (Mpfr.num s m e).value < 0) ∧ _ ∧ (_ ↔ 0 < (Mpfr.num s m e).value)
      have v0 : (Mpfr.zero t).value = 0 := rfl
      rw [v0]
      rcases lt_or_gt_of_ne this with h | h
      · rw [if_pos h]; simp [h, h.le]
      · rw [if_neg h.not_gt, if_pos h]; simp [h, h.le]
    | num t m' e' =>
      simp only [cmp, datum, Datum.Lt, Datum.RealEq, Datum.num.injEq]
      change (_ ↔ (Mpfr.num s m e).value < (Mpfr.num t m' e').value) ∧ (_ ↔ (Mpfr.num s m e).value = (Mpfr.num t m' e').value) ∧
        (_ ↔ (Mpfr.num t m' e').value < (Mpfr.num s m e).value)
      rcases lt_trichotomy (Mpfr.num s m e).value (Mpfr.num t m' e').value with h | h | h
      · rw [if_pos h]; simp [h, h.le, h.ne]
      · rw [if_neg (by rw [h]; exact lt_irrefl _), if_neg (by rw [h]; exact lt_irrefl _)]; simp [h]
      · rw [if_neg h.not_gt, if_pos h]; simp [h, h.le, h.ne']

theorem cmp_same {x y : Mpfr} (h : x.datum = y.datum) : cmp x y = 0 := by
  cases x <;> cases y <;> simp only [datum] at h <;> try (cases h)
  · rfl
  · simp [cmp]
  · simp [cmp, value]
  · injection h with h
    simp [cmp, value, h]

theorem isNan_iff {x : Mpfr} : x.isNan = true ↔ x.datum = .nan := by
  cases x <;> simp [isNan, datum]

end Mpfr

/-- The exact value of a word. -/
theorem floatValue_datum {E F w : ℕ} (hE : 2 ≤ E) : (floatValue E F w).datum = wordDatum E F w := by
  unfold floatValue wordDatum ieeeDenote
  have h4 : 2 ^ 2 ≤ 2 ^ E := Nat.pow_le_pow_right (by norm_num) hE
  have hb : (biasN E : ℤ) = bias E := pow_bias
  generalize w / 2 ^ (E + F) = s
  generalize w / 2 ^ F % 2 ^ E = e
  generalize w % 2 ^ F = f
  simp only
  by_cases he : e = 2 ^ E - 1
  · have h0 : e ≠ 0 := by
      have : 2 ^ E - 1 ≠ 0 := by omega
      rw [he]; exact this
    rw [if_pos he, if_neg h0, if_pos he]
    by_cases hf : f = 0
    · rw [if_pos hf, if_pos hf]; rfl
    · rw [if_neg hf, if_neg hf]; rfl
  · rw [if_neg he]
    by_cases h0 : e = 0
    · rw [if_pos h0, if_pos h0]
      by_cases hf : f = 0
      · rw [if_pos hf, if_pos hf]; rfl
      · rw [if_neg hf, if_neg hf, hb]; simp [Mpfr.datum]
    · rw [if_neg h0, if_neg h0, if_neg he, hb]; simp [Mpfr.datum]

theorem floatValue_ok {E F w : ℕ} : (floatValue E F w).Ok ∧
    ∀ s m e, floatValue E F w = .num s m e → 0 < m ∧ m < 2 ^ (F + 1) := by
  have hf : w % 2 ^ F < 2 ^ F := Nat.mod_lt _ (by positivity)
  have h2F : 2 ^ (F + 1) = 2 * 2 ^ F := by rw [pow_succ]; ring
  have hp := Nat.two_pow_pos F
  have key : ∀ s m e, floatValue E F w = .num s m e → 0 < m ∧ m < 2 ^ (F + 1) := by
    intro s m e h
    unfold floatValue at h
    simp only at h
    split_ifs at h <;> injection h <;> omega
  refine ⟨?_, key⟩
  cases h : floatValue E F w with
  | num s m e => exact (key s m e h).1
  | _ => trivial

/-- `to_mpfr` is exact. -/
theorem native_toMpfr {E F w : ℕ} (hE : 2 ≤ E) (hF : 1 ≤ F) :
    ∃ x, Native.toMpfr E F (F + 1) w = some x ∧ x.datum = wordDatum E F w ∧ x.Ok := by
  rw [← floatValue_datum hE]
  obtain ⟨hok, hb⟩ := floatValue_ok (E := E) (F := F) (w := w)
  unfold Native.toMpfr
  cases h : floatValue E F w with
  | num s m e =>
    obtain ⟨m0, m1⟩ := hb s m e h
    have hmq : (0 : ℚ) < m * 2 ^ e := mul_pos (by exact_mod_cast m0) (two_zpow_pos e)
    rw [h] at hok
    have hv : (Mpfr.num s m e).value ≠ 0 := Mpfr.num_ne_zero hok (rfl : (Mpfr.num s m e).datum = .num _)
    have habs : |(Mpfr.num s m e).value| = m * 2 ^ e := by
      cases s
      · simp only [Mpfr.value, Bool.false_eq_true, if_false, one_mul]; exact abs_of_pos hmq
      · simp only [Mpfr.value, if_true, neg_one_mul, abs_neg]; exact abs_of_pos hmq
    have hneg : decide ((Mpfr.num s m e).value < 0) = s := by
      cases s
      · simp only [Mpfr.value, Bool.false_eq_true, if_false, one_mul, decide_eq_false_iff_not, not_lt]; exact hmq.le
      · simp only [Mpfr.value, if_true, neg_one_mul, decide_eq_true_eq]; linarith
    have hn := Mpfr.rndnPos_spec (p := F + 1) (by omega) (abs_pos.2 hv)
    have hr : Mpfr.rndn (F + 1) (Mpfr.num s m e).value =
        .num s (Mpfr.rndnPos (F + 1) |(Mpfr.num s m e).value|).1 (Mpfr.rndnPos (F + 1) |(Mpfr.num s m e).value|).2 := by
      rw [Mpfr.rndn, if_neg hv, hneg]
    rw [habs] at hn hr
    obtain ⟨c1, c2⟩ := nearest_cross (by omega) hn e m0 m1
    have hval := le_antisymm (c1 le_rfl) (c2 le_rfl)
    have hsig := hn.1.1
    refine ⟨Mpfr.rndn (F + 1) (Mpfr.num s m e).value, ?_, ?_, ?_⟩
    rotate_left
    · rw [hr]; simp only [Mpfr.datum]; rw [hval]
    · rw [hr]
      have := Nat.two_pow_pos (F + 1 - 1)
      change 0 < _
      omega
    · simp only [Mpfr.setT, Mpfr.roundT]
      have hvv : (Mpfr.rndn (F + 1) (Mpfr.num s m e).value).value = (Mpfr.num s m e).value := by
        rw [hr]; simp only [Mpfr.value]; rw [hval]
      have ht : Mpfr.ternary (Mpfr.num s m e).value (Mpfr.rndn (F + 1) (Mpfr.num s m e).value) = 0 := by
        rw [hr] at hvv ⊢
        simp only [Mpfr.ternary]
        rw [hvv, if_neg (lt_irrefl _), if_neg (lt_irrefl _)]
      exact if_neg (not_not.2 ht)
  | nan => exact ⟨.nan, by simp [Mpfr.setT], rfl, trivial⟩
  | inf s => exact ⟨.inf s, by simp [Mpfr.setT], rfl, trivial⟩
  | zero s => exact ⟨.zero s, by simp [Mpfr.setT], rfl, trivial⟩

/-- The nearest word is the IEEE 754 rounding. -/
theorem floatRound_num {E F k : ℕ} (hE : 2 ≤ E) (hF : 1 ≤ F) (hk : 0 < k) (s : Bool) (e : ℤ) :
    RoundedGradual E F ((if s then -1 else 1) * ((k : ℚ) * 2 ^ e)) (wordDatum E F (floatRound E F (.num s k e))) := by
  have hkq : (0 : ℚ) < k := by exact_mod_cast hk
  have hx : (0 : ℚ) < (k : ℚ) * 2 ^ e := mul_pos hkq (two_zpow_pos e)
  have hLe : (1 : ℤ) - biasN E - F = leastExp E F := by rw [leastExp, pow_bias]
  simp only [floatRound]
  rw [hLe]
  obtain ⟨qe, hqe⟩ : ∃ qe : ℤ, qe = max (e + Nat.log2 k - F) (leastExp E F) := ⟨_, rfl⟩
  rw [← hqe]
  obtain ⟨q, hq⟩ : ∃ q, q = if qe ≤ e then k * 2 ^ (e - qe).toNat else roundShift k (qe - e).toNat := ⟨_, rfl⟩
  obtain ⟨n, ch⟩ := dbl_choice (k := k) (e := e) (qe := qe)
  rw [← hq] at ch
  rw [← hq]
  obtain ⟨lo, hi, -⟩ := id ch
  have l1 : 2 ^ Nat.log2 k ≤ k := Nat.log2_self_le hk.ne'
  have l2 : k < 2 ^ (Nat.log2 k + 1) := Nat.lt_log2_self
  have b1 : (2 : ℚ) ^ (e + Nat.log2 k) ≤ k * 2 ^ e := by
    rw [add_comm, zpow_add₀ (by norm_num), zpow_natCast]
    exact mul_le_mul_of_nonneg_right (by exact_mod_cast l1) (two_zpow_pos _).le
  have b2 : (k : ℚ) * 2 ^ e < (2 : ℚ) ^ (e + Nat.log2 k + 1) := by
    rw [show e + (Nat.log2 k : ℤ) + 1 = ((Nat.log2 k + 1 : ℕ) : ℤ) + e by push_cast; ring, zpow_add₀ (by norm_num), zpow_natCast]
    exact mul_lt_mul_of_pos_right (by exact_mod_cast l2) (two_zpow_pos _)
  have hu := two_zpow_pos qe
  have hn2 : n < 2 ^ (F + 1) := by
    have h1 : (2 : ℚ) ^ (e + Nat.log2 k + 1) ≤ 2 ^ (qe + (F + 1 : ℕ)) := zpow_le_zpow_right₀ (by norm_num) (by push_cast; omega)
    have h0 : (2 : ℚ) ^ (qe + (F + 1 : ℕ)) = 2 ^ (F + 1) * 2 ^ qe := by
      rw [add_comm, zpow_add₀ (by norm_num), zpow_natCast]
    rw [h0] at h1
    have h2 : (n : ℚ) * 2 ^ qe < 2 ^ (F + 1) * 2 ^ qe := by linarith
    exact_mod_cast lt_of_mul_lt_mul_right h2 hu.le
  obtain ⟨t, ht⟩ : ∃ t : ℕ, qe = (t : ℤ) + leastExp E F := ⟨(qe - leastExp E F).toNat, by omega⟩
  have htn : (qe - leastExp E F).toNat = t := by omega
  rw [htn]
  have hn : 2 ^ F ≤ n ∨ t = 0 := by
    rcases eq_or_ne t 0 with h | h
    · exact Or.inr h
    · left
      have h1 : qe = e + Nat.log2 k - F := by omega
      have h2 : (2 : ℚ) ^ (e + Nat.log2 k) = 2 ^ F * 2 ^ qe := by
        rw [h1, ← zpow_natCast (2 : ℚ) F, ← zpow_add₀ (by norm_num)]; congr 1; ring
      have h3 : (2 : ℚ) ^ F * 2 ^ qe < ((n : ℚ) + 1) * 2 ^ qe := by linarith
      have h4 := lt_of_mul_lt_mul_right h3 hu.le
      have h5 : 2 ^ F < n + 1 := by exact_mod_cast h4
      omega
  exact rounded_of_choice hE hF s hx hn hn2 (by rw [← ht]; exact ch)

theorem floatRound_lt {E F : ℕ} (hE : 2 ≤ E) (hF : 1 ≤ F) (x : Mpfr) : floatRound E F x < 2 ^ (1 + E + F) := by
  have hw : 2 ^ (1 + E + F) = 2 * 2 ^ (E + F) := by rw [add_assoc, pow_add, pow_one]
  have hEF : 2 ^ (E + F) = 2 ^ E * 2 ^ F := pow_add _ _ _
  have h4 : 2 ^ 2 ≤ 2 ^ E := Nat.pow_le_pow_right (by norm_num) hE
  have hp := Nat.two_pow_pos F
  have hc : (2 ^ E - 1) * 2 ^ F + 2 ^ F = 2 ^ (E + F) := by
    rw [hEF, ← Nat.succ_mul]; congr 1; omega
  have hh : 2 ^ (F - 1) < 2 ^ F := Nat.pow_lt_pow_right (by norm_num) (by omega)
  have hs : ∀ s : Bool, s.toNat * 2 ^ (E + F) ≤ 2 ^ (E + F) := by
    intro s; cases s <;> simp
  cases x with
  | nan => simp only [floatRound]; omega
  | inf s => have := hs s; simp only [floatRound]; omega
  | zero s => have := hs s; have := Nat.two_pow_pos (E + F); simp only [floatRound]; omega
  | num s k e =>
    have := hs s
    simp only [floatRound]
    split_ifs <;> omega

theorem floatRound_special {E F : ℕ} (hE : 2 ≤ E) (hF : 1 ≤ F) {x : Mpfr} (hx : ∀ q, x.datum ≠ .num q) :
    wordDatum E F (floatRound E F x) = x.datum := by
  have h4 : 2 ^ 2 ≤ 2 ^ E := Nat.pow_le_pow_right (by norm_num) hE
  have hp := Nat.two_pow_pos F
  have hEF : 2 ^ (E + F) = 2 ^ E * 2 ^ F := pow_add _ _ _
  have hc : (2 ^ E - 1) * 2 ^ F + 2 ^ F = 2 ^ (E + F) := by
    rw [hEF, ← Nat.succ_mul]; congr 1; omega
  have hh : 2 ^ (F - 1) < 2 ^ F := Nat.pow_lt_pow_right (by norm_num) (by omega)
  have hs1 : ∀ s : Bool, decide (s.toNat = 1) = s := by intro s; cases s <;> rfl
  cases x with
  | num s k e => exact absurd rfl (hx _)
  | nan =>
    have := wordDatum_split (E := E) (F := F) (s := 0) (M := (2 ^ E - 1) * 2 ^ F + 2 ^ (F - 1)) (by omega)
    rw [Nat.zero_mul, Nat.zero_add] at this
    simp only [floatRound]
    rw [this, Nat.add_comm, Nat.add_mul_div_right _ _ hp, Nat.div_eq_of_lt hh, Nat.zero_add, Nat.add_mul_mod_self_right,
      Nat.mod_eq_of_lt hh, ieeeDenote, if_neg (by omega), if_pos rfl, if_neg (by positivity)]
    rfl
  | inf s =>
    simp only [floatRound]
    rw [wordDatum_split (by omega), Nat.mul_div_cancel _ hp, Nat.mul_mod_left, ieeeDenote, if_neg (by omega), if_pos rfl, if_pos rfl, hs1]
    rfl
  | zero s =>
    have := wordDatum_split (E := E) (F := F) (s := s.toNat) (M := 0) (by positivity)
    rw [Nat.add_zero] at this
    simp only [floatRound]
    rw [this, Nat.zero_div, Nat.zero_mod, ieeeDenote, if_pos rfl, if_pos rfl, hs1]
    rfl

theorem floatRound_rep {E F : ℕ} (hE : 2 ≤ E) (hF : 1 ≤ F) {x : Mpfr} (hr : Rep E F x.datum) :
    wordDatum E F (floatRound E F x) = x.datum := by
  cases x with
  | num s k e =>
    obtain ⟨h0, h1⟩ := hr _ rfl
    have hk : 0 < k := by
      rcases Nat.eq_zero_or_pos k with rfl | h
      · simp at h0
      · exact h
    exact roundedG_unique hF (floatRound_num hE hF hk s e) h1
  | _ => exact floatRound_special hE hF (by intro q h; cases h)

/-- `from_mpfr` of a number that the format holds. -/
theorem fromMpfrSingle_rep {x : Mpfr} (hr : Rep 8 23 x.datum) (allow : Bool) :
    ∃ w, Native.fromMpfrSingle x allow = some w ∧ w < 2 ^ 32 ∧ wordDatum 8 23 w = x.datum := by
  have h1 := Mpfr.setT_ieee (E := 8) (F := 23) (emin := -148) (emax := 128) (by norm_num) (by norm_num) (by norm_num [leastExp, bias])
    (by norm_num [bias]) hr
  rw [show 23 + 1 = 24 from rfl] at h1
  have h2 : wordDatum 8 23 (floatRound 8 23 (Mpfr.subnormalize (-148) (Mpfr.setT (Mpfr.rndnRange (-148) 128 24) x).2
      (Mpfr.setT (Mpfr.rndnRange (-148) 128 24) x).1)) = x.datum := by
    rw [floatRound_rep (by norm_num) (by norm_num) (by rw [h1]; exact hr), h1]
  refine ⟨_, ?_, floatRound_lt (E := 8) (F := 23) (by norm_num) (by norm_num) _, h2⟩
  rw [← floatValue_datum (by norm_num)] at h2
  unfold Native.fromMpfrSingle
  simp only
  rw [if_neg (not_not.2 (Mpfr.cmp_same h2.symm))]

theorem fromMpfrDouble_rep {x : Mpfr} (hr : Rep 11 52 x.datum) (allow : Bool) :
    ∃ w, Native.fromMpfrDouble x allow = some w ∧ w < 2 ^ 64 ∧ wordDatum 11 52 w = x.datum := by
  have h2 := floatRound_rep (E := 11) (F := 52) (by norm_num) (by norm_num) hr
  refine ⟨_, ?_, floatRound_lt (E := 11) (F := 52) (by norm_num) (by norm_num) _, h2⟩
  rw [← floatValue_datum (by norm_num)] at h2
  unfold Native.fromMpfrDouble
  simp only
  rw [if_neg (not_not.2 (Mpfr.cmp_same h2.symm))]

end Thls
