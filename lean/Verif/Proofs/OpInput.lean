import Verif.Proofs.OpTest
import Verif.Proofs.RoundErr
import Verif.Proofs.DotRef
import Verif.SpecOpTest

/-! Lemmas for C77: what `make_input` produces. -/

namespace Thls
open Spec

namespace OpTest

theorem pushPair_length {E F : ℕ} {allow : Bool} {t : Mpfr} {l : List (Fp E F)} (h : pushPair E F allow t = some l) : l.length = 2 := by
  unfold pushPair at h
  simp only [Option.bind_eq_bind, Option.bind_eq_some_iff] at h
  obtain ⟨a, -, b, -, h⟩ := h
  injection h with h
  rw [← h]; rfl

theorem pushPairs_some {E F : ℕ} {allow : Bool} : ∀ {ts : List Mpfr}, (∀ t ∈ ts, ∃ a b : Fp E F, ofMpfr E F allow t = some a ∧
    ofMpfr E F allow t.flip = some b) → ∃ l : List (Fp E F), pushPairs E F allow ts = some l ∧ l.length = 2 * ts.length ∧
      ∀ x, x ∈ l ↔ ∃ t ∈ ts, ofMpfr E F allow t = some x ∨ ofMpfr E F allow t.flip = some x
  | [], _ => ⟨[], rfl, rfl, by simp⟩
  | t :: ts, h => by
    obtain ⟨a, b, ha, hb⟩ := h t (by simp)
    obtain ⟨l, h1, h2, h3⟩ := pushPairs_some (ts := ts) (fun u hu => h u (by simp [hu]))
    refine ⟨[a, b] ++ l, ?_, ?_, ?_⟩
    · simp [pushPairs, pushPair, ha, hb, h1]
    · simp [h2]; ring
    · intro x
      simp only [List.mem_append, List.mem_cons, List.not_mem_nil, or_false, h3, exists_eq_or_imp, ha, hb, Option.some.injEq]
      constructor
      · rintro ((rfl | rfl) | h)
        · exact .inl (.inl rfl)
        · exact .inl (.inr rfl)
        · exact .inr h
      · rintro ((rfl | rfl) | h)
        · exact .inl (.inl rfl)
        · exact .inl (.inr rfl)
        · exact .inr h

theorem pushPairs_none {E F : ℕ} {allow : Bool} : ∀ {ts : List Mpfr}, (∃ t ∈ ts, ofMpfr E F allow t = none) → pushPairs E F allow ts = none
  | [], h => by simp at h
  | t :: ts, h => by
    rcases h with ⟨u, hu, hn⟩
    rw [List.mem_cons] at hu
    rcases hu with rfl | hu
    · simp [pushPairs, pushPair, hn]
    · have := pushPairs_none (ts := ts) ⟨u, hu, hn⟩
      simp [pushPairs, this]

/-- The index of a number of the format. -/
def InRange (E F : ℕ) (k : ℤ) : Prop := 0 ≤ k / 2 ^ F + F + bias E ∧ k / 2 ^ F + F + bias E < 2 ^ E

theorem ofMpfr_at {E F : ℕ} (hE : 1 ≤ E) (hF : 1 ≤ F) (allow s : Bool) {k : ℤ} (h : InRange E F k) :
    ∃ y : Fp E F, ofMpfr E F allow (Mpfr.at_ s F k) = some y ∧
      y.datum = .num ((if s then -1 else 1) * (Mpfr.at_ false F k).value) := by
  have := C47_of_mpfr hE hF allow s (k / 2 ^ F) (Mpfr.isSig_at F k)
  obtain ⟨ha, hb⟩ := h
  rw [if_pos (Or.inl ⟨ha, hb⟩)] at this
  obtain ⟨y, h1, h2⟩ := this
  refine ⟨y, h1, ?_⟩
  rw [h2, rangeCheck, if_neg (by omega), if_neg (by omega)]
  simp [Mpfr.at_, Mpfr.value]

theorem ofMpfr_at_none {E F : ℕ} (hE : 1 ≤ E) (hF : 1 ≤ F) (s : Bool) {k : ℤ} (h : ¬ InRange E F k) :
    ofMpfr E F false (Mpfr.at_ s F k) = none := by
  have := C47_of_mpfr hE hF false s (k / 2 ^ F) (Mpfr.isSig_at F k)
  rwa [if_neg (by simpa [InRange] using h)] at this

theorem plusMinus_of {E F : ℕ} {allow : Bool} (hE : 1 ≤ E) (hF : 1 ≤ F) {k : ℤ} (h : InRange E F k) (d : Datum) :
    (∃ x : Fp E F, (ofMpfr E F allow (Mpfr.at_ false F k) = some x ∨ ofMpfr E F allow (Mpfr.at_ false F k).flip = some x) ∧ x.datum = d) ↔
      PlusMinus (Mpfr.at_ false F k).value d := by
  obtain ⟨a, ha, ha'⟩ := ofMpfr_at hE hF allow false h
  obtain ⟨b, hb, hb'⟩ := ofMpfr_at hE hF allow true h
  rw [Mpfr.flip_at, Bool.not_false, ha, hb]
  unfold PlusMinus
  simp only [Bool.false_eq_true, if_false, one_mul, if_true, neg_mul] at ha' hb'
  simp only [Option.some.injEq]
  constructor
  · rintro ⟨x, rfl | rfl, rfl⟩
    · exact .inl ha'
    · exact .inr hb'
  · rintro (rfl | rfl)
    · exact ⟨a, .inl rfl, ha'⟩
    · exact ⟨b, .inr rfl, hb'⟩

/-- A loop without `allow` over numbers of the format. -/
theorem pushPairs_at {E F : ℕ} (hE : 1 ≤ E) (hF : 1 ≤ F) {ts : List Mpfr} (h : ∀ t ∈ ts, ∃ k, t = Mpfr.at_ false F k ∧ InRange E F k) :
    ∃ l : List (Fp E F), pushPairs E F false ts = some l ∧ l.length = 2 * ts.length ∧
      ∀ d, (∃ x ∈ l, x.datum = d) ↔ ∃ t ∈ ts, PlusMinus t.value d := by
  obtain ⟨l, h1, h2, h3⟩ := pushPairs_some (E := E) (F := F) (allow := false) (ts := ts) (by
    intro t ht
    obtain ⟨k, rfl, hk⟩ := h t ht
    obtain ⟨a, ha, -⟩ := ofMpfr_at hE hF false false hk
    obtain ⟨b, hb, -⟩ := ofMpfr_at hE hF false true hk
    exact ⟨a, b, ha, hb⟩)
  refine ⟨l, h1, h2, fun d => ?_⟩
  constructor
  · rintro ⟨x, hx, hd⟩
    obtain ⟨t, ht, hx⟩ := (h3 x).mp hx
    obtain ⟨k, rfl, hk⟩ := h t ht
    exact ⟨_, ht, (plusMinus_of hE hF hk d).mp ⟨x, hx, hd⟩⟩
  · rintro ⟨t, ht, hd⟩
    obtain ⟨k, rfl, hk⟩ := h t ht
    obtain ⟨x, hx, hd⟩ := (plusMinus_of (allow := false) hE hF hk d).mpr hd
    exact ⟨x, (h3 x).mpr ⟨_, ht, hx⟩, hd⟩

/-! ### The six loops -/

theorem one_at {F : ℕ} (hF : 1 ≤ F) : Mpfr.rndn (F + 1) 1 = Mpfr.at_ false F (-(F : ℤ) * 2 ^ F) := by
  rw [rndn_eq hF (m := 2 ^ F) (e := -F) (isSig_pow F) (by push_cast; rw [zpow_neg, zpow_natCast]; field_simp)]
  have := Mpfr.at_eq false (F := F) (i := 0) (-(F : ℤ)) (by positivity)
  rw [Nat.cast_zero, add_zero, Nat.add_zero] at this
  exact this.symm

theorem small_int {F a : ℕ} (hF : 1 ≤ F) (h1 : 1 ≤ a) (h2 : a ≤ 10) :
    ∃ k, Mpfr.rndn (F + 1) a = Mpfr.at_ false F k ∧ 0 ≤ k / 2 ^ F + F ∧ k / 2 ^ F + F ≤ 3 := by
  have ha : (0 : ℚ) < a := by exact_mod_cast (show 0 < a by omega)
  have hn := Mpfr.rndnPos_spec (p := F + 1) (by omega) (abs_pos.mpr ha.ne')
  rw [Mpfr.rndn, if_neg ha.ne', decide_eq_false (by linarith)]
  rw [abs_of_pos ha] at hn ⊢
  have h4 : 4 ≤ 2 ^ (F + 1) := by
    calc 4 = 2 ^ 2 := rfl
      _ ≤ 2 ^ (F + 1) := Nat.pow_le_pow_right (by norm_num) (by omega)
  have c1 := (nearest_cross (by omega) hn (j := 1) 0 (by omega) (by omega)).2 (by
    have : (1 : ℚ) ≤ a := by exact_mod_cast h1
    simpa using this)
  have c2 := (nearest_cross (by omega) hn (j := 3) 2 (by omega) (by omega)).1 (by
    have : (a : ℚ) ≤ 10 := by exact_mod_cast h2
    norm_num; linarith)
  have hsig := hn.1
  generalize (Mpfr.rndnPos (F + 1) (a : ℚ)).1 = m at *
  generalize (Mpfr.rndnPos (F + 1) (a : ℚ)).2 = e at *
  have u := sig_upper hsig e
  have l := sig_lower hsig e
  have e1 : (2 : ℚ) ^ (0 : ℤ) < 2 ^ (e + F + 1) := by
    refine lt_of_le_of_lt ?_ u
    simpa using c1
  have e2 : (2 : ℚ) ^ (e + F) < 2 ^ (4 : ℤ) := by
    refine lt_of_le_of_lt (l.trans c2) ?_
    norm_num
  rw [zpow_lt_zpow_iff_right₀ (by norm_num)] at e1 e2
  refine ⟨_, Mpfr.eq_at false e hsig, ?_⟩
  have hf : m - 2 ^ F < 2 ^ F := by
    have := hsig.2
    rw [pow_succ] at this; omega
  have hq : (e * 2 ^ F + ((m - 2 ^ F : ℕ) : ℤ)) / 2 ^ F = e := by
    have := Mpfr.at_eq false (F := F) e hf
    rw [Mpfr.at_] at this
    exact (Mpfr.num.inj this).2.2
  rw [hq]; omega

/-- How many binades ten numbers can cover. -/
theorem step_bounds {F : ℕ} {b i : ℤ} (hb : 10 ≤ b * 2 ^ F) (h0 : 0 ≤ i) (h10 : i ≤ 10) :
    0 ≤ i / 2 ^ F ∧ i / 2 ^ F ≤ b ∧ -b ≤ (-i) / 2 ^ F ∧ (-i) / 2 ^ F ≤ 0 ∧ -b ≤ (2 ^ F - 1 - i) / 2 ^ F ∧ (2 ^ F - 1 - i) / 2 ^ F ≤ 0 := by
  have hp : (0 : ℤ) < 2 ^ F := by positivity
  refine ⟨Int.ediv_nonneg h0 hp.le, ?_, ?_, ?_, ?_, ?_⟩
  · exact Int.ediv_le_of_le_mul hp (by omega)
  · refine Int.le_ediv_of_mul_le hp ?_
    rw [neg_mul]; omega
  · exact Int.ediv_le_of_le_mul hp (by omega)
  · refine Int.le_ediv_of_mul_le hp ?_
    rw [neg_mul]; omega
  · refine Int.lt_add_one_iff.mp (Int.ediv_lt_of_lt_mul hp ?_)
    omega

theorem index_div {F : ℕ} (c i : ℤ) : (c * 2 ^ F + i) / 2 ^ F = c + i / 2 ^ F := by
  have hp : (0 : ℤ) < 2 ^ F := by positivity
  rw [add_comm, Int.add_mul_ediv_right _ _ hp.ne', add_comm]

theorem expFrac_sum {E F : ℕ} (hE : 1 ≤ E) (hF : 1 ≤ F) (x : Fp E F) : (x.exp : ℤ) * 2 ^ F + x.frac = x.expFrac := by
  rw [Fp.expFrac_eq hE hF, concat]; push_cast; rfl

theorem min_at {E F : ℕ} (hE : 1 ≤ E) (hF : 1 ≤ F) : toMpfr (Limits.min E F) = Mpfr.at_ false F ((-(F : ℤ) - bias E) * 2 ^ F) := by
  obtain ⟨-, -, c⟩ := Fp.mk3_fields (E := E) (F := F) (fs := 2) (e := 0) (f := 0) hE (by decide) (by positivity) (by positivity)
  have h := toMpfr_num hF (C46_limits_values_partial hE hF).1
  rw [decide_eq_false (by have := two_zpow_pos (-bias E); linarith), expFrac_sum hE hF] at h
  rw [h, Limits.min, c]; congr 1; push_cast; ring

theorem max_at {E F : ℕ} (hE : 1 ≤ E) (hF : 1 ≤ F) :
    toMpfr (Limits.max E F) = Mpfr.at_ false F ((2 ^ E - 1 - (F : ℤ) - bias E) * 2 ^ F + (2 ^ F - 1)) := by
  have pE : 0 < 2 ^ E := by positivity
  have pF : 0 < 2 ^ F := by positivity
  obtain ⟨-, -, c⟩ := Fp.mk3_fields (E := E) (F := F) (fs := 2) (e := ones E) (f := ones F) hE (by decide) (by unfold ones; omega)
    (by unfold ones; omega)
  have h := toMpfr_num hF (C46_limits_values_partial hE hF).2.2.1
  have hpos : (0 : ℚ) < (2 - 1 / 2 ^ F) * 2 ^ ((2 : ℤ) ^ E - 1 - bias E) := by
    have := two_zpow_pos ((2 : ℤ) ^ E - 1 - bias E)
    have h1 : (1 : ℚ) / 2 ^ F ≤ 1 := by
      rw [div_le_one (by positivity)]
      exact one_le_pow₀ (by norm_num)
    exact mul_pos (by linarith) this
  rw [decide_eq_false (by linarith), expFrac_sum hE hF] at h
  rw [h, Limits.max, c, ones, ones]; congr 1; push_cast [Nat.cast_sub (Nat.one_le_two_pow)]; ring

/-- What the format needs for the inputs to exist. -/
structure Roomy (E F : ℕ) (b : ℤ) : Prop where
  hE : 1 ≤ E
  hF : 1 ≤ F
  ten : 10 ≤ b * 2 ^ F
  b5 : b ≤ 5
  bb : b ≤ bias E
  b3 : 3 ≤ bias E

theorem smallInts_ok {E F : ℕ} {b : ℤ} (h : Roomy E F b) : ∀ t ∈ smallInts F, ∃ k, t = Mpfr.at_ false F k ∧ InRange E F k := by
  intro t ht
  simp only [smallInts, List.mem_map, List.mem_range] at ht
  obtain ⟨i, hi, rfl⟩ := ht
  obtain ⟨k, h1, h2, h3⟩ := small_int (F := F) (a := i + 1) h.hF (by omega) (by omega)
  refine ⟨k, h1, ?_, ?_⟩
  · have := h.b3; omega
  · have := h.b3; have := (bias_double h.hE).2; omega

theorem emin_le : Mpfr.emin ≤ -10 := by unfold Mpfr.emin; norm_num
theorem le_emax : 20 ≤ Mpfr.emax := by unfold Mpfr.emax; norm_num

theorem aboveOne_eq {F i : ℕ} (hF : 1 ≤ F) (hi : i ≤ 10) :
    (Mpfr.nextAbove (F + 1))^[i] (Mpfr.rndn (F + 1) 1) = Mpfr.at_ false F (-(F : ℤ) * 2 ^ F + i) := by
  have := (step_bounds (F := F) (b := 10) (i := i) (by have : (1 : ℤ) ≤ 2 ^ F := by exact_mod_cast Nat.one_le_two_pow
                                                       omega) (by omega) (by omega))
  have := le_emax
  rw [one_at hF, Mpfr.iterate_above i (by rw [index_div]; omega)]

theorem belowOne_eq {F i : ℕ} (hF : 1 ≤ F) (hi : i ≤ 10) :
    (Mpfr.nextBelow (F + 1))^[i] (Mpfr.rndn (F + 1) 1) = Mpfr.at_ false F (-(F : ℤ) * 2 ^ F + -i) := by
  have := (step_bounds (F := F) (b := 10) (i := i) (by have : (1 : ℤ) ≤ 2 ^ F := by exact_mod_cast Nat.one_le_two_pow
                                                       omega) (by omega) (by omega))
  have := emin_le
  rw [one_at hF, Mpfr.iterate_below i (by rw [sub_eq_add_neg, index_div]; omega), sub_eq_add_neg]

theorem aboveMin_eq {E F i : ℕ} (hE : 1 ≤ E) (hF : 1 ≤ F) (hi : i ≤ 10) :
    (Mpfr.nextAbove (F + 1))^[i] (toMpfr (Limits.min E F)) = Mpfr.at_ false F ((-(F : ℤ) - bias E) * 2 ^ F + i) := by
  have := (step_bounds (F := F) (b := 10) (i := i) (by have : (1 : ℤ) ≤ 2 ^ F := by exact_mod_cast Nat.one_le_two_pow
                                                       omega) (by omega) (by omega))
  have := le_emax
  have := (bias_double hE).1
  rw [min_at hE hF, Mpfr.iterate_above i (by rw [index_div]; omega)]

theorem belowMax_eq {E F i : ℕ} (hE : 1 ≤ E) (hF : 1 ≤ F) (hi : i ≤ 10) :
    (Mpfr.nextBelow (F + 1))^[i] (toMpfr (Limits.max E F)) =
      Mpfr.at_ false F ((2 ^ E - 1 - (F : ℤ) - bias E) * 2 ^ F + (2 ^ F - 1 - i)) := by
  have := (step_bounds (F := F) (b := 10) (i := i) (by have : (1 : ℤ) ≤ 2 ^ F := by exact_mod_cast Nat.one_le_two_pow
                                                       omega) (by omega) (by omega))
  have := emin_le
  have := bias_double hE
  rw [max_at hE hF, Mpfr.iterate_below i (by
      rw [show (2 ^ E - 1 - (F : ℤ) - bias E) * 2 ^ F + (2 ^ F - 1) - (i : ℤ) =
        (2 ^ E - 1 - (F : ℤ) - bias E) * 2 ^ F + (2 ^ F - 1 - i) by ring, index_div]; omega)]
  congr 1; ring

theorem tenSteps_mem {step : Mpfr → Mpfr} {t0 t : Mpfr} : t ∈ tenSteps step t0 ↔ ∃ i, 1 ≤ i ∧ i ≤ 10 ∧ t = step^[i] t0 := by
  simp only [tenSteps, List.mem_map, List.mem_range]
  constructor
  · rintro ⟨i, hi, rfl⟩; exact ⟨i + 1, by omega, by omega, rfl⟩
  · rintro ⟨i, h1, h2, rfl⟩; exact ⟨i - 1, by omega, by rw [Nat.sub_add_cancel h1]⟩

theorem aboveOne_ok {E F : ℕ} {b : ℤ} (h : Roomy E F b) : ∀ t ∈ aboveOne F, ∃ k, t = Mpfr.at_ false F k ∧ InRange E F k := by
  intro t ht
  obtain ⟨i, h1, h2, rfl⟩ := tenSteps_mem.mp ht
  refine ⟨_, aboveOne_eq h.hF h2, ?_⟩
  have := step_bounds (F := F) (i := i) h.ten (by omega) (by omega)
  have := h.bb; have := h.b3; have := (bias_double h.hE).2
  unfold InRange; rw [index_div]; omega

theorem belowOne_ok {E F : ℕ} {b : ℤ} (h : Roomy E F b) : ∀ t ∈ belowOne F, ∃ k, t = Mpfr.at_ false F k ∧ InRange E F k := by
  intro t ht
  obtain ⟨i, h1, h2, rfl⟩ := tenSteps_mem.mp ht
  refine ⟨_, belowOne_eq h.hF h2, ?_⟩
  have := step_bounds (F := F) (i := i) h.ten (by omega) (by omega)
  have := h.bb; have := h.b3; have := (bias_double h.hE).2
  unfold InRange; rw [index_div]; omega

theorem aboveMin_ok {E F : ℕ} {b : ℤ} (h : Roomy E F b) : ∀ t ∈ aboveMin E F, ∃ k, t = Mpfr.at_ false F k ∧ InRange E F k := by
  intro t ht
  obtain ⟨i, h1, h2, rfl⟩ := tenSteps_mem.mp ht
  refine ⟨_, aboveMin_eq h.hE h.hF h2, ?_⟩
  have := step_bounds (F := F) (i := i) h.ten (by omega) (by omega)
  have := h.bb; have := h.b3; have := (bias_double h.hE).2
  unfold InRange; rw [index_div]; omega

theorem belowMax_ok {E F : ℕ} {b : ℤ} (h : Roomy E F b) : ∀ t ∈ belowMax E F, ∃ k, t = Mpfr.at_ false F k ∧ InRange E F k := by
  intro t ht
  obtain ⟨i, h1, h2, rfl⟩ := tenSteps_mem.mp ht
  refine ⟨_, belowMax_eq h.hE h.hF h2, ?_⟩
  have := step_bounds (F := F) (i := i) h.ten (by omega) (by omega)
  have := h.bb; have := h.b3; have := (bias_double h.hE).2
  unfold InRange; rw [index_div]; omega

theorem setLdexp_at {F : ℕ} (hF : 1 ≤ F) (k : ℤ) :
    (1024 ≤ k → setLdexp (F + 1) k = .inf false) ∧ (k < -1074 → setLdexp (F + 1) k = .zero false) ∧
      (-1074 ≤ k → k < 1024 → setLdexp (F + 1) k = Mpfr.at_ false F ((k - F) * 2 ^ F)) := by
  refine ⟨fun h => by rw [setLdexp, if_pos h], fun h => by rw [setLdexp, if_neg (by omega), if_pos h], fun h1 h2 => ?_⟩
  rw [setLdexp, if_neg (by omega), if_neg (by omega), rndn_eq hF (isSig_pow F) (pow_as_sig F k).symm]
  have := Mpfr.at_eq false (F := F) (i := 0) (k - F) (by positivity)
  rw [Nat.cast_zero, add_zero, Nat.add_zero] at this
  exact this.symm

/-- With `allow`, every number converts. -/
theorem ofMpfr_allow {E F : ℕ} (hE : 1 ≤ E) (hF : 1 ≤ F) {t : Mpfr} (h : ∀ s m e, t = .num s m e → IsSig (F + 1) m) :
    ∃ a : Fp E F, ofMpfr E F true t = some a := by
  cases t with
  | nan => obtain ⟨r, h, -⟩ := ofMpfr_nan (E := E) (F := F) hE hF; exact ⟨r, h⟩
  | inf s => obtain ⟨r, h, -⟩ := ofMpfr_inf (E := E) (F := F) hE hF s; exact ⟨r, h⟩
  | zero s => obtain ⟨r, h, -⟩ := ofMpfr_zero (E := E) (F := F) hE hF s; exact ⟨r, h⟩
  | num s m e =>
    have := C47_of_mpfr (E := E) hE hF true s e (h s m e rfl)
    rw [if_pos (Or.inr rfl)] at this
    obtain ⟨y, hy, -⟩ := this
    exact ⟨y, hy⟩

theorem flip_sig {F : ℕ} {t : Mpfr} (h : ∀ s m e, t = .num s m e → IsSig (F + 1) m) : ∀ s m e, t.flip = .num s m e → IsSig (F + 1) m := by
  intro s m e ht
  cases t with
  | num s' m' e' => rw [Mpfr.flip] at ht; obtain ⟨-, rfl, rfl⟩ := Mpfr.num.inj ht; exact h _ _ _ rfl
  | _ => simp [Mpfr.flip] at ht

theorem powers_sig {F : ℕ} (hF : 1 ≤ F) : ∀ t ∈ powers F, ∀ s m e, t = .num s m e → IsSig (F + 1) m := by
  intro t ht s m e h
  simp only [powers, List.mem_map, List.mem_range] at ht
  obtain ⟨i, hi, rfl⟩ := ht
  obtain ⟨h1, h2, h3⟩ := setLdexp_at hF ((F : ℤ) + 6 - i)
  by_cases c1 : 1024 ≤ (F : ℤ) + 6 - i
  · rw [h1 c1] at h; cases h
  · by_cases c2 : (F : ℤ) + 6 - i < -1074
    · rw [h2 c2] at h; cases h
    · rw [h3 (by omega) (by omega), Mpfr.at_] at h
      obtain ⟨-, rfl, -⟩ := Mpfr.num.inj h
      exact Mpfr.isSig_at F _

theorem powers_some {E F : ℕ} (hE : 1 ≤ E) (hF : 1 ≤ F) :
    ∃ l : List (Fp E F), pushPairs E F true (powers F) = some l ∧ l.length = 2 * (2 * F + 12) ∧
      ∀ x, x ∈ l ↔ ∃ t ∈ powers F, ofMpfr E F true t = some x ∨ ofMpfr E F true t.flip = some x := by
  obtain ⟨l, h1, h2, h3⟩ := pushPairs_some (E := E) (F := F) (allow := true) (ts := powers F) (by
    intro t ht
    obtain ⟨a, ha⟩ := ofMpfr_allow hE hF (powers_sig hF t ht)
    obtain ⟨b, hb⟩ := ofMpfr_allow hE hF (flip_sig (powers_sig hF t ht))
    exact ⟨a, b, ha, hb⟩)
  exact ⟨l, h1, by rw [h2]; simp [powers], h3⟩

/-- The fixed inputs exist, and their number. -/
theorem fixedInput_some {E F : ℕ} {b : ℤ} (h : Roomy E F b) : ∃ l, fixedInput E F = some l ∧ l.length = 132 + 4 * F ∧
    ∀ d, (∃ x ∈ l, x.datum = d) ↔ (∃ t ∈ smallInts F ++ aboveOne F ++ belowOne F ++ aboveMin E F ++ belowMax E F, PlusMinus t.value d) ∨
      (∃ x ∈ edges E F, x.datum = d) ∨
      ∃ x, (∃ t ∈ powers F, ofMpfr E F true t = some x ∨ ofMpfr E F true t.flip = some x) ∧ x.datum = d := by
  obtain ⟨l1, a1, n1, m1⟩ := pushPairs_at h.hE h.hF (smallInts_ok h)
  obtain ⟨l2, a2, n2, m2⟩ := pushPairs_at h.hE h.hF (aboveOne_ok h)
  obtain ⟨l3, a3, n3, m3⟩ := pushPairs_at h.hE h.hF (belowOne_ok h)
  obtain ⟨l4, a4, n4, m4⟩ := pushPairs_at h.hE h.hF (aboveMin_ok h)
  obtain ⟨l5, a5, n5, m5⟩ := pushPairs_at h.hE h.hF (belowMax_ok h)
  obtain ⟨l6, a6, n6, m6⟩ := powers_some (E := E) h.hE h.hF
  refine ⟨l1 ++ edges E F ++ l2 ++ l3 ++ l4 ++ l5 ++ l6, ?_, ?_, ?_⟩
  · simp [fixedInput, a1, a2, a3, a4, a5, a6]
  · simp only [List.length_append, n1, n2, n3, n4, n5, n6, smallInts, aboveOne, belowOne, aboveMin, belowMax, tenSteps, List.length_map,
      List.length_range, edges, List.length_cons, List.length_nil]
    omega
  · intro d
    constructor
    · rintro ⟨x, hx, hd⟩
      simp only [List.mem_append] at hx
      rcases hx with (((((hx | hx) | hx) | hx) | hx) | hx) | hx
      · obtain ⟨t, ht, hp⟩ := (m1 d).mp ⟨x, hx, hd⟩
        exact .inl ⟨t, by simp [ht], hp⟩
      · exact .inr (.inl ⟨x, hx, hd⟩)
      · obtain ⟨t, ht, hp⟩ := (m2 d).mp ⟨x, hx, hd⟩
        exact .inl ⟨t, by simp [ht], hp⟩
      · obtain ⟨t, ht, hp⟩ := (m3 d).mp ⟨x, hx, hd⟩
        exact .inl ⟨t, by simp [ht], hp⟩
      · obtain ⟨t, ht, hp⟩ := (m4 d).mp ⟨x, hx, hd⟩
        exact .inl ⟨t, by simp [ht], hp⟩
      · obtain ⟨t, ht, hp⟩ := (m5 d).mp ⟨x, hx, hd⟩
        exact .inl ⟨t, by simp [ht], hp⟩
      · exact .inr (.inr ⟨x, (m6 x).mp hx, hd⟩)
    · rintro (⟨t, ht, hp⟩ | ⟨x, hx, hd⟩ | ⟨x, hx, hd⟩)
      · simp only [List.mem_append] at ht
        rcases ht with (((ht | ht) | ht) | ht) | ht
        · obtain ⟨x, hx, hd⟩ := (m1 d).mpr ⟨t, ht, hp⟩
          exact ⟨x, by simp [hx], hd⟩
        · obtain ⟨x, hx, hd⟩ := (m2 d).mpr ⟨t, ht, hp⟩
          exact ⟨x, by simp [hx], hd⟩
        · obtain ⟨x, hx, hd⟩ := (m3 d).mpr ⟨t, ht, hp⟩
          exact ⟨x, by simp [hx], hd⟩
        · obtain ⟨x, hx, hd⟩ := (m4 d).mpr ⟨t, ht, hp⟩
          exact ⟨x, by simp [hx], hd⟩
        · obtain ⟨x, hx, hd⟩ := (m5 d).mpr ⟨t, ht, hp⟩
          exact ⟨x, by simp [hx], hd⟩
      · exact ⟨x, by simp [hx], hd⟩
      · exact ⟨x, by simp [(m6 x).mpr hx], hd⟩

/-! ### When the inputs do not exist -/

theorem fixedInput_none {E F : ℕ} (hE : 1 ≤ E) (hF : 1 ≤ F) (h : ¬ (3 ≤ E ∧ (E = 3 → 2 ≤ F))) : fixedInput E F = none := by
  by_cases h3 : 3 ≤ E
  · have hE3 : E = 3 ∧ F = 1 := by
      constructor <;> by_contra hc <;> exact h ⟨h3, by omega⟩
    obtain ⟨rfl, rfl⟩ := hE3
    have hn : pushPairs 3 1 false (aboveOne 1) = none := by
      refine pushPairs_none ⟨_, tenSteps_mem.mpr ⟨10, by omega, le_rfl, rfl⟩, ?_⟩
      rw [aboveOne_eq le_rfl le_rfl]
      exact ofMpfr_at_none hE hF false (by unfold InRange bias; decide)
    simp only [fixedInput, hn, Option.bind_eq_bind, Option.bind_none]
    cases pushPairs 3 1 false (smallInts 1) <;> rfl
  · have h8 : Mpfr.rndn (F + 1) ((7 + 1 : ℕ) : ℚ) = Mpfr.at_ false F ((3 - F) * 2 ^ F) := by
      rw [show ((7 + 1 : ℕ) : ℚ) = 2 ^ (3 : ℤ) by norm_num, rndn_eq hF (isSig_pow F) (pow_as_sig F 3).symm]
      have := Mpfr.at_eq false (F := F) (i := 0) (3 - F) (by positivity)
      rw [Nat.cast_zero, add_zero, Nat.add_zero] at this
      exact this.symm
    have hn : pushPairs E F false (smallInts F) = none := by
      refine pushPairs_none ⟨_, List.mem_map.mpr ⟨7, by simp, rfl⟩, ?_⟩
      rw [h8]
      refine ofMpfr_at_none hE hF false ?_
      unfold InRange
      have := index_div (F := F) (3 - F) 0
      rw [add_zero, Int.zero_ediv, add_zero] at this
      rw [this]
      have : E = 1 ∨ E = 2 := by omega
      rcases this with rfl | rfl <;> unfold bias <;> norm_num
    simp only [fixedInput, hn, Option.bind_eq_bind, Option.bind_none]

theorem roomy_of {E F : ℕ} (hF : 1 ≤ F) (h : 3 ≤ E ∧ (E = 3 → 2 ≤ F)) : ∃ b, Roomy E F b := by
  obtain ⟨h3, h32⟩ := h
  have h4 : (2 : ℤ) ^ 2 ≤ 2 ^ (E - 1) := pow_le_pow_right₀ (by norm_num) (by omega)
  have hb : 3 ≤ bias E := by unfold bias; linarith
  by_cases h2 : 2 ≤ F
  · refine ⟨3, by omega, hF, ?_, by norm_num, hb, hb⟩
    have : (2 : ℤ) ^ 2 ≤ 2 ^ F := pow_le_pow_right₀ (by norm_num) h2
    linarith
  · have h1 : F = 1 := by omega
    have h8 : (2 : ℤ) ^ 3 ≤ 2 ^ (E - 1) := pow_le_pow_right₀ (by norm_num) (by omega)
    refine ⟨5, by omega, hF, by rw [h1]; norm_num, le_rfl, ?_, hb⟩
    unfold bias; linarith

/-! ### Signs, and the random inputs -/

theorem rangeCheck_not (E F : ℕ) (s : Bool) (m : ℕ) (e : ℤ) : rangeCheck E F (!s) m e = (rangeCheck E F s m e).neg := by
  unfold rangeCheck
  cases s <;> split_ifs <;> simp_all [Datum.neg]

theorem pair_neg {E F : ℕ} (hE : 1 ≤ E) (hF : 1 ≤ F) {t : Mpfr} (ht : ∀ s m e, t = .num s m e → IsSig (F + 1) m) :
    ∃ a b : Fp E F, pushPair E F true t = some [a, b] ∧ ofMpfr E F true t = some a ∧ b.datum = a.datum.neg := by
  have key : ∃ a b : Fp E F, ofMpfr E F true t = some a ∧ ofMpfr E F true t.flip = some b ∧ b.datum = a.datum.neg := by
    cases t with
    | nan =>
      obtain ⟨r, h, hd⟩ := ofMpfr_nan (E := E) (F := F) hE hF
      exact ⟨r, r, h, h, by rw [hd]; rfl⟩
    | inf s =>
      obtain ⟨r, h, hd⟩ := ofMpfr_inf (E := E) (F := F) hE hF s
      obtain ⟨r', h', hd'⟩ := ofMpfr_inf (E := E) (F := F) hE hF !s
      exact ⟨r, r', h, h', by rw [hd, hd']; rfl⟩
    | zero s =>
      obtain ⟨r, h, hd⟩ := ofMpfr_zero (E := E) (F := F) hE hF s
      obtain ⟨r', h', hd'⟩ := ofMpfr_zero (E := E) (F := F) hE hF !s
      exact ⟨r, r', h, h', by rw [hd, hd']; rfl⟩
    | num s m e =>
      have h1 := C47_of_mpfr (E := E) hE hF true s e (ht s m e rfl)
      have h2 := C47_of_mpfr (E := E) hE hF true (!s) e (ht s m e rfl)
      rw [if_pos (Or.inr rfl)] at h1 h2
      obtain ⟨r, h, hd⟩ := h1
      obtain ⟨r', h', hd'⟩ := h2
      exact ⟨r, r', h, h', by rw [hd, hd', rangeCheck_not]⟩
  obtain ⟨a, b, h1, h2, h3⟩ := key
  exact ⟨a, b, by simp [pushPair, h1, h2], h1, h3⟩

theorem randomLoop_spec {E F n : ℕ} (draws : ℕ → ℕ × ℕ) (ok : ∀ i, ∃ a b : Fp E F, pushPair E F true (ratio (F + 1) (draws i)) = some [a, b]) :
    ∀ (fuel i : ℕ) (args : List (Fp E F)), n ≤ args.length + 2 * fuel →
      ∃ l, randomLoop E F n draws fuel i args = some l ∧ l.length = args.length + 2 * ((n - args.length + 1) / 2) ∧
        l.take args.length = args ∧ ∀ j < (n - args.length + 1) / 2, ∃ a b, l[args.length + 2 * j]? = some a ∧
          l[args.length + 2 * j + 1]? = some b ∧ pushPair E F true (ratio (F + 1) (draws (i + j))) = some [a, b]
  | 0, i, args, hn => by
    refine ⟨args, rfl, by omega, by simp, fun j hj => by omega⟩
  | fuel + 1, i, args, hn => by
    rw [randomLoop]
    by_cases hlt : args.length < n
    · obtain ⟨a, b, hab⟩ := ok i
      obtain ⟨l, h1, h2, h3, h4⟩ := randomLoop_spec (n := n) draws ok fuel (i + 1) (args ++ [a, b]) (by simp; omega)
      rw [List.length_append, show [a, b].length = 2 from rfl] at h2 h3 h4
      refine ⟨l, by simp [hlt, hab, h1], by omega, ?_, ?_⟩
      · have := congrArg (List.take args.length) h3
        rw [List.take_take, List.take_left, min_eq_left (by omega)] at this
        exact this
      · intro j hj
        rcases Nat.eq_zero_or_pos j with rfl | hj0
        · have get : ∀ k < args.length + 2, l[k]? = (args ++ [a, b])[k]? := by
            intro k hk
            rw [← h3, List.getElem?_take_of_lt hk]
          refine ⟨a, b, ?_, ?_, hab⟩
          · rw [get _ (by omega), List.getElem?_append_right (by omega)]; simp
          · rw [get _ (by omega), List.getElem?_append_right (by omega)]; simp
        · obtain ⟨a', b', e1, e2, e3⟩ := h4 (j - 1) (by omega)
          rw [show args.length + 2 + 2 * (j - 1) = args.length + 2 * j by omega] at e1 e2
          rw [show i + 1 + (j - 1) = i + j by omega] at e3
          exact ⟨a', b', e1, e2, e3⟩
    · rw [if_neg hlt]
      exact ⟨args, rfl, by omega, by simp, fun j hj => by omega⟩

theorem urandomb_spec (p k : ℕ) (hp : 2 ≤ p) : (urandomb p k).datum = uniform p k ∧ (urandomb p k).Ok := by
  unfold urandomb uniform
  by_cases h : k % 2 ^ p = 0
  · rw [h, if_pos rfl]; simp [Mpfr.rndn, Mpfr.datum, Mpfr.Ok]
  · rw [if_neg h]
    have hlt : k % 2 ^ p < 2 ^ p := Nat.mod_lt _ (by positivity)
    have hq : (0 : ℚ) < ((k % 2 ^ p : ℕ) : ℚ) / 2 ^ p := by
      have : (0 : ℚ) < ((k % 2 ^ p : ℕ) : ℚ) := by exact_mod_cast Nat.pos_of_ne_zero h
      positivity
    have hfit : FitsBits p (((k % 2 ^ p : ℕ) : ℚ) / 2 ^ p) := ⟨k % 2 ^ p, -p, hlt, by rw [zpow_neg, zpow_natCast]; rfl⟩
    obtain ⟨k', l, h1, h2⟩ := (rndn_fits hp hq).2 hfit
    · rw [show (Mpfr.roundT (Mpfr.rndn p) _).1 = Mpfr.rndn p _ from rfl] at h1
      rw [h1]
      refine ⟨by simp [Mpfr.datum, h2], ?_⟩
      rw [Mpfr.Ok]
      rcases Nat.eq_zero_or_pos k' with rfl | h
      · rw [Nat.cast_zero, zero_mul] at h2; linarith
      · exact h

theorem ratio_spec {E F : ℕ} (hE : 1 ≤ E) (hF : 1 ≤ F) (d : ℕ × ℕ) : ∃ a b : Fp E F, pushPair E F true (ratio (F + 1) d) = some [a, b] ∧
    Delivers E F (exactDiv (uniform (F + 1) d.1) (uniform (F + 1) d.2)) a.datum ∧ b.datum = a.datum.neg := by
  obtain ⟨u1, u2⟩ := urandomb_spec (F + 1) d.1 (by omega)
  obtain ⟨v1, v2⟩ := urandomb_spec (F + 1) d.2 (by omega)
  have hex := Mpfr.div_exact (F + 1) u2 v2
  rw [u1, v1] at hex
  obtain ⟨r, hr, hd⟩ := ofMpfr_delivers (E := E) hE hF hex.1 hex.2
  have hsig : ∀ s m e, ratio (F + 1) d = .num s m e → IsSig (F + 1) m := by
    intro s m e h
    by_cases hx : ∃ w, exactDiv (uniform (F + 1) d.1) (uniform (F + 1) d.2) = .num w
    · obtain ⟨w, hw⟩ := hx
      have h1 := hex.2 w hw
      rw [ratio] at h
      rw [h, Mpfr.rndn] at h1
      by_cases h0 : w = 0
      · rw [if_pos h0] at h1; cases h1
      · rw [if_neg h0] at h1
        obtain ⟨-, h1, -⟩ := Mpfr.num.inj h1
        rw [h1]
        exact (Mpfr.rndnPos_spec (p := F + 1) (by omega) (abs_pos.mpr h0)).1
    · have h1 := hex.1 (fun w hw => hx ⟨w, hw⟩)
      rw [ratio] at h
      rw [h] at h1
      exact absurd ⟨_, h1.symm⟩ hx
  obtain ⟨a, b, h1, h2, h3⟩ := pair_neg (E := E) hE hF hsig
  rw [ratio, hr] at h2
  injection h2 with h2
  subst h2
  exact ⟨r, b, h1, hd, h3⟩

/-! ### The values -/

theorem at_value {F i : ℕ} (c : ℤ) (hi : i < 2 ^ F) : (Mpfr.at_ false F (c * 2 ^ F + i)).value = (1 + i / 2 ^ F) * 2 ^ (c + F) := by
  rw [Mpfr.at_eq false c hi, Mpfr.value, zpow_add₀ (by norm_num), zpow_natCast]
  push_cast; simp; field_simp

theorem smallInts_value {F : ℕ} (hF : 4 ≤ F) (d : Datum) :
    (∃ t ∈ smallInts F, PlusMinus t.value d) ↔ ∃ i : ℕ, 1 ≤ i ∧ i ≤ 10 ∧ PlusMinus i d := by
  have val : ∀ i : ℕ, 1 ≤ i → i ≤ 10 → (Mpfr.rndn (F + 1) (i : ℚ)).value = i := by
    intro i h1 h2
    have hq : (0 : ℚ) < i := by exact_mod_cast (show 0 < i by omega)
    have h16 : 2 ^ 4 ≤ 2 ^ F := Nat.pow_le_pow_right (by norm_num) hF
    obtain ⟨k', l, e1, e2⟩ := (rndn_fits (p := F + 1) (by omega) hq).2 ⟨i, 0, by rw [pow_succ]; omega, by simp⟩
    rw [show (Mpfr.roundT (Mpfr.rndn (F + 1)) _).1 = Mpfr.rndn (F + 1) _ from rfl] at e1
    rw [e1]; simp [Mpfr.value, e2]
  simp only [smallInts, List.mem_map, List.mem_range]
  constructor
  · rintro ⟨t, ⟨i, hi, rfl⟩, h⟩
    rw [val _ (by omega) (by omega)] at h
    exact ⟨i + 1, by omega, by omega, h⟩
  · rintro ⟨i, h1, h2, h⟩
    refine ⟨_, ⟨i - 1, by omega, rfl⟩, ?_⟩
    rw [Nat.sub_add_cancel h1, val i h1 h2]; exact h

theorem steps_value {step : Mpfr → Mpfr} {t0 : Mpfr} {v : ℕ → ℚ} (h : ∀ i, 1 ≤ i → i ≤ 10 → (step^[i] t0).value = v i) (d : Datum) :
    (∃ t ∈ tenSteps step t0, PlusMinus t.value d) ↔ ∃ i : ℕ, 1 ≤ i ∧ i ≤ 10 ∧ PlusMinus (v i) d := by
  constructor
  · rintro ⟨t, ht, hp⟩
    obtain ⟨i, h1, h2, rfl⟩ := tenSteps_mem.mp ht
    exact ⟨i, h1, h2, by rwa [h i h1 h2] at hp⟩
  · rintro ⟨i, h1, h2, hp⟩
    exact ⟨_, tenSteps_mem.mpr ⟨i, h1, h2, rfl⟩, by rwa [h i h1 h2]⟩

theorem aboveOne_value {F : ℕ} (hF : 4 ≤ F) (d : Datum) :
    (∃ t ∈ aboveOne F, PlusMinus t.value d) ↔ ∃ i : ℕ, 1 ≤ i ∧ i ≤ 10 ∧ PlusMinus (1 + i / 2 ^ F) d := by
  have h16 : 2 ^ 4 ≤ 2 ^ F := Nat.pow_le_pow_right (by norm_num) hF
  refine steps_value (fun i h1 h2 => ?_) d
  rw [aboveOne_eq (by omega) h2, at_value _ (by omega), neg_add_cancel, zpow_zero, mul_one]

theorem belowOne_value {F : ℕ} (hF : 4 ≤ F) (d : Datum) :
    (∃ t ∈ belowOne F, PlusMinus t.value d) ↔ ∃ i : ℕ, 1 ≤ i ∧ i ≤ 10 ∧ PlusMinus (1 - i / 2 ^ (F + 1)) d := by
  have h16 : 2 ^ 4 ≤ 2 ^ F := Nat.pow_le_pow_right (by norm_num) hF
  refine steps_value (fun i h1 h2 => ?_) d
  have hc : ((2 ^ F - i : ℕ) : ℤ) = 2 ^ F - i := by rw [Nat.cast_sub (by omega)]; push_cast; rfl
  have hq : ((2 ^ F - i : ℕ) : ℚ) = 2 ^ F - i := by rw [Nat.cast_sub (by omega)]; push_cast; rfl
  rw [belowOne_eq (by omega) h2, show -(F : ℤ) * 2 ^ F + -(i : ℤ) = (-(F : ℤ) - 1) * 2 ^ F + ((2 ^ F - i : ℕ) : ℤ) by rw [hc]; ring,
    at_value _ (by omega), hq, show -(F : ℤ) - 1 + F = -1 by ring, pow_succ]
  field_simp; ring

theorem aboveMin_value {E F : ℕ} (hE : 1 ≤ E) (hF : 4 ≤ F) (d : Datum) :
    (∃ t ∈ aboveMin E F, PlusMinus t.value d) ↔ ∃ i : ℕ, 1 ≤ i ∧ i ≤ 10 ∧ PlusMinus ((1 + i / 2 ^ F) * 2 ^ (-bias E)) d := by
  have h16 : 2 ^ 4 ≤ 2 ^ F := Nat.pow_le_pow_right (by norm_num) hF
  refine steps_value (v := fun i => (1 + i / 2 ^ F) * 2 ^ (-bias E)) (fun i h1 h2 => ?_) d
  rw [aboveMin_eq hE (by omega) h2, at_value _ (by omega), show -(F : ℤ) - bias E + F = -bias E by ring]

theorem belowMax_value {E F : ℕ} (hE : 1 ≤ E) (hF : 4 ≤ F) (d : Datum) :
    (∃ t ∈ belowMax E F, PlusMinus t.value d) ↔
      ∃ i : ℕ, 1 ≤ i ∧ i ≤ 10 ∧ PlusMinus ((2 - (i + 1) / 2 ^ F) * 2 ^ ((2 : ℤ) ^ E - 1 - bias E)) d := by
  have h16 : 2 ^ 4 ≤ 2 ^ F := Nat.pow_le_pow_right (by norm_num) hF
  refine steps_value (v := fun i => (2 - (i + 1) / 2 ^ F) * 2 ^ ((2 : ℤ) ^ E - 1 - bias E)) (fun i h1 h2 => ?_) d
  have hc : ((2 ^ F - 1 - i : ℕ) : ℤ) = 2 ^ F - 1 - i := by rw [Nat.cast_sub (by omega), Nat.cast_sub (by omega)]; push_cast; rfl
  have hq : ((2 ^ F - 1 - i : ℕ) : ℚ) = 2 ^ F - 1 - i := by rw [Nat.cast_sub (by omega), Nat.cast_sub (by omega)]; push_cast; rfl
  rw [belowMax_eq hE (by omega) h2, ← hc, at_value _ (by omega), hq, show (2 : ℤ) ^ E - 1 - F - bias E + F = 2 ^ E - 1 - bias E by ring]
  congr 1; field_simp; ring

theorem powers_value {E F : ℕ} (hE : 1 ≤ E) (hF : 1 ≤ F) (hF2 : F + 6 < 1024) (d : Datum) :
    ((∃ s, d = .zero s) ∨ (∃ s, d = .inf s) ∨
      ∃ x : Fp E F, (∃ t ∈ powers F, ofMpfr E F true t = some x ∨ ofMpfr E F true t.flip = some x) ∧ x.datum = d) ↔
    ((∃ s, d = .zero s) ∨ (∃ s, d = .inf s) ∨
      ∃ k : ℤ, -(F : ℤ) - 6 < k ∧ k ≤ F + 6 ∧ -bias E ≤ k ∧ k < 2 ^ E - bias E ∧ PlusMinus (2 ^ k) d) := by
  have val : ∀ k : ℤ, (Mpfr.at_ false F ((k - F) * 2 ^ F)).value = 2 ^ k := by
    intro k
    have := at_value (F := F) (i := 0) (k - F) (by positivity)
    rw [Nat.cast_zero, add_zero, Nat.cast_zero, zero_div, add_zero, one_mul, sub_add_cancel] at this
    exact this
  have div : ∀ k : ℤ, ((k - F) * 2 ^ F) / 2 ^ F = k - F := fun k => Int.mul_ediv_cancel _ (by positivity)
  constructor
  · rintro (h | h | ⟨x, ⟨t, ht, hx⟩, rfl⟩)
    · exact .inl h
    · exact .inr (.inl h)
    · simp only [powers, List.mem_map, List.mem_range] at ht
      obtain ⟨i, hi, rfl⟩ := ht
      rw [(setLdexp_at hF ((F : ℤ) + 6 - i)).2.2 (by omega) (by omega)] at hx
      obtain ⟨k, hk⟩ : ∃ k : ℤ, k = (F : ℤ) + 6 - i := ⟨_, rfl⟩
      rw [← hk] at hx
      by_cases hr : InRange E F ((k - F) * 2 ^ F)
      · refine .inr (.inr ⟨k, by omega, by omega, ?_, ?_, ?_⟩)
        · have := hr.1; rw [div] at this; omega
        · have := hr.2; rw [div] at this; omega
        · rw [← val]
          exact (plusMinus_of hE hF hr _).mp ⟨x, hx, rfl⟩
      · have out : ∀ s, ∃ y : Fp E F, ofMpfr E F true (Mpfr.at_ s F ((k - F) * 2 ^ F)) = some y ∧
            ((∃ s, y.datum = .zero s) ∨ (∃ s, y.datum = .inf s)) := by
          intro s
          have := C47_of_mpfr (E := E) hE hF true s (((k - F) * 2 ^ F) / 2 ^ F) (Mpfr.isSig_at F ((k - F) * 2 ^ F))
          rw [if_pos (Or.inr rfl)] at this
          obtain ⟨y, hy, hd⟩ := this
          refine ⟨y, hy, ?_⟩
          rw [hd, rangeCheck]
          unfold InRange at hr
          split_ifs
          · exact .inl ⟨_, rfl⟩
          · exact .inr ⟨_, rfl⟩
          · omega
        rcases hx with hx | hx
        · obtain ⟨y, hy, h⟩ := out false
          rw [hy] at hx; injection hx with hx; subst hx
          rcases h with h | h
          · exact .inl h
          · exact .inr (.inl h)
        · obtain ⟨y, hy, h⟩ := out true
          rw [Mpfr.flip_at, Bool.not_false, hy] at hx; injection hx with hx; subst hx
          rcases h with h | h
          · exact .inl h
          · exact .inr (.inl h)
  · rintro (h | h | ⟨k, h1, h2, h3, h4, h5⟩)
    · exact .inl h
    · exact .inr (.inl h)
    · refine .inr (.inr ?_)
      have hr : InRange E F ((k - F) * 2 ^ F) := by unfold InRange; rw [div]; omega
      rw [← val] at h5
      obtain ⟨x, hx, hd⟩ := (plusMinus_of (allow := true) hE hF hr _).mpr h5
      refine ⟨x, ⟨_, List.mem_map.mpr ⟨((F : ℤ) + 6 - k).toNat, by rw [List.mem_range]; omega, rfl⟩, ?_⟩, hd⟩
      rw [show (F : ℤ) + 6 - (((F : ℤ) + 6 - k).toNat : ℤ) = k by omega, (setLdexp_at hF k).2.2 (by omega) (by omega)]
      exact hx

theorem edges_value {E F : ℕ} (hE : 1 ≤ E) (hF : 1 ≤ F) (d : Datum) : (∃ x ∈ edges E F, x.datum = d) ↔
    (∃ s, d = .zero s) ∨ (∃ s, d = .inf s) ∨ PlusMinus (2 ^ (-bias E)) d ∨ PlusMinus ((2 - 1 / 2 ^ F) * 2 ^ ((2 : ℤ) ^ E - 1 - bias E)) d := by
  obtain ⟨h1, h2, h3, h4, h5, h6, h7, -, h8, h9, -, -⟩ := C46_limits_values_partial hE hF
  unfold edges PlusMinus
  rw [h5]
  simp only [List.mem_cons, List.not_mem_nil, or_false, exists_eq_or_imp, exists_eq_left, h1, h2, h3, h4, h6, h7, h8, h9, Bool.exists_bool]
  simp only [eq_comm (b := d)]
  tauto

end OpTest
end Thls
