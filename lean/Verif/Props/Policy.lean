import Verif.Proofs.PolicyRef

/-! # C73: the reference results of the policies

The policies compute reference results with MPFR inside a reduced exponent range, followed by `mpfr_subnormalize` for the IEEE
policies. `none` stands for an exception. MPFR itself is modelled by its documented behaviour. -/

namespace Thls
open Spec

/-- **C73.** `to_mpfr` of a `float` or `double` word succeeds at the precision of the format, and at any precision returns nothing but the exact value. -/
theorem C73_to_mpfr (w : ℕ) :
    (∃ x, Native.toMpfr 8 23 24 w = some x) ∧ (∃ x, Native.toMpfr 11 52 53 w = some x) ∧
    (∀ p x, Native.toMpfr 8 23 p w = some x → x.datum = wordDatum 8 23 w) ∧
    ∀ p x, Native.toMpfr 11 52 p w = some x → x.datum = wordDatum 11 52 w := by
  refine ⟨?_, ?_, fun p x h => toMpfr_exact (by norm_num) h, fun p x h => toMpfr_exact (by norm_num) h⟩
  · obtain ⟨x, h, -⟩ := native_toMpfr (E := 8) (F := 23) (w := w) (by norm_num) (by norm_num)
    exact ⟨x, h⟩
  · obtain ⟨x, h, -⟩ := native_toMpfr (E := 11) (F := 52) (w := w) (by norm_num) (by norm_num)
    exact ⟨x, h⟩

/-- **C73.** `from_mpfr` without permission to over- or underflow returns a word of the same value or throws. -/
theorem C73_from_mpfr_exact {x : Mpfr} (hx : x.Ok) :
    (∀ w, Native.fromMpfrSingle x false = some w → w < 2 ^ 32 ∧ SameValue (wordDatum 8 23 w) x.datum) ∧
    ∀ w, Native.fromMpfrDouble x false = some w → w < 2 ^ 64 ∧ SameValue (wordDatum 11 52 w) x.datum := by
  have self : ∀ d : Datum, SameValue d d := sameValue_refl
  by_cases hn : ∃ q, x.datum = .num q
  · obtain ⟨q, hq⟩ := hn
    constructor
    · intro w hw
      have hc := cmp_word (by norm_num) hx hq (native_single_round hx hq)
      have hl := floatRound_lt (E := 8) (F := 23) (by norm_num) (by norm_num) (Mpfr.subnormalize (-148)
        (Mpfr.setT (Mpfr.rndnRange (-148) 128 24) x).2 (Mpfr.setT (Mpfr.rndnRange (-148) 128 24) x).1)
      unfold Native.fromMpfrSingle at hw
      simp only at hw
      generalize floatRound 8 23 (Mpfr.subnormalize (-148) (Mpfr.setT (Mpfr.rndnRange (-148) 128 24) x).2
        (Mpfr.setT (Mpfr.rndnRange (-148) 128 24) x).1) = u at *
      by_cases h : Mpfr.cmp x (floatValue 8 23 u) = 0
      · rw [if_neg (not_not.2 h)] at hw
        obtain rfl := Option.some.inj hw
        refine ⟨hl, ?_⟩
        rw [hc.1 h, hq]
        exact self _
      · rw [if_pos h] at hw
        cases hv : floatValue 8 23 u <;> simp [hv] at hw
    · intro w hw
      have hc := cmp_word (by norm_num) hx hq (native_double_round hx hq)
      have hl := floatRound_lt (E := 11) (F := 52) (by norm_num) (by norm_num) x
      unfold Native.fromMpfrDouble at hw
      simp only at hw
      generalize floatRound 11 52 x = u at *
      by_cases h : Mpfr.cmp x (floatValue 11 52 u) = 0
      · rw [if_neg (not_not.2 h)] at hw
        obtain rfl := Option.some.inj hw
        refine ⟨hl, ?_⟩
        rw [hc.1 h, hq]
        exact self _
      · rw [if_pos h] at hw
        cases hv : floatValue 11 52 u <;> simp [hv] at hw
  · have hr : ∀ E F, Rep E F x.datum := fun E F q h => absurd ⟨q, h⟩ hn
    constructor
    · intro w hw
      obtain ⟨w', h, hl, hd⟩ := fromMpfrSingle_rep (hr 8 23) false
      obtain rfl : w' = w := Option.some.inj (h.symm.trans hw)
      rw [hd]
      exact ⟨hl, self _⟩
    · intro w hw
      obtain ⟨w', h, hl, hd⟩ := fromMpfrDouble_rep (hr 11 52) false
      obtain rfl : w' = w := Option.some.inj (h.symm.trans hw)
      rw [hd]
      exact ⟨hl, self _⟩

/-- **C73.** `policy_native_double::from_mpfr(x, true)` of a number returns the IEEE 754 rounding `d` of it if `d` is exact, zero,
infinite, or at most the least normal number; otherwise it throws. -/
theorem C73_from_mpfr_double {x : Mpfr} (hx : x.Ok) {q : ℚ} (hq : x.datum = .num q) {d : Datum} (hd : RoundedGradual 11 52 q d) :
    (d = .num q ∨ (∀ v, d = .num v → |v| ≤ 2 ^ (-1022 : ℤ)) → ∃ w, Native.fromMpfrDouble x true = some w ∧ w < 2 ^ 64 ∧ wordDatum 11 52 w = d) ∧
    (¬ (d = .num q ∨ ∀ v, d = .num v → |v| ≤ 2 ^ (-1022 : ℤ)) → Native.fromMpfrDouble x true = none) := by
  have hr := native_double_round hx hq
  have hc := cmp_word (by norm_num) hx hq hr
  have hl := floatRound_lt (E := 11) (F := 52) (by norm_num) (by norm_num) x
  have hu := roundedG_unique (by norm_num) hr hd
  have hf := floatValue_datum (E := 11) (F := 52) (w := floatRound 11 52 x) (by norm_num)
  unfold Native.fromMpfrDouble
  simp only
  generalize floatRound 11 52 x = u at *
  rw [hu] at hc hf
  by_cases h : d = .num q
  · refine ⟨fun _ => ⟨u, if_neg (not_not.2 (hc.2 h)), hl, hu⟩, fun hn => absurd (Or.inl h) hn⟩
  · have h' := mt hc.1 h
    simp only [if_pos h', h, false_or]
    cases hv : floatValue 11 52 u with
    | num s m e =>
      have hdv : d = .num ((if s then -1 else 1) * ((m : ℚ) * 2 ^ e)) := by rw [← hf, hv]; rfl
      have habs : |(if s then (-1 : ℚ) else 1) * ((m : ℚ) * 2 ^ e)| = m * 2 ^ e := by
        have : (0 : ℚ) ≤ m * 2 ^ e := mul_nonneg (Nat.cast_nonneg _) (two_zpow_pos e).le
        cases s <;> simp [abs_of_nonneg this]
      have hiff : (∀ v, d = .num v → |v| ≤ (2 : ℚ) ^ (-1022 : ℤ)) ↔ (m : ℚ) * 2 ^ e ≤ 2 ^ (-1022 : ℤ) := by
        constructor
        · intro g; rw [← habs]; exact g _ hdv
        · intro g v hv'
          rw [hdv] at hv'
          injection hv' with hv'
          rw [← hv', habs]; exact g
      rw [hiff]
      refine ⟨fun g => ⟨u, ?_, hl, hu⟩, fun g => ?_⟩
      · simp only [if_pos g, if_true]
      · simp only [if_neg g]
    | _ =>
      refine ⟨fun _ => ⟨u, rfl, hl, hu⟩, fun g => absurd ?_ g⟩
      intro v hv'
      rw [hv] at hf
      rw [← hf] at hv'
      cases hv'

/-- **C73.** `policy_native_single::from_mpfr(x, true)` of a number returns the IEEE 754 rounding `d` of it if `d` is exact, zero or
infinite; otherwise it throws. Unlike the double policy it throws for every inexact denormal result. -/
theorem C73_from_mpfr_single {x : Mpfr} (hx : x.Ok) {q : ℚ} (hq : x.datum = .num q) {d : Datum} (hd : RoundedGradual 8 23 q d) :
    (d = .num q ∨ (∀ v, d ≠ .num v) → ∃ w, Native.fromMpfrSingle x true = some w ∧ w < 2 ^ 32 ∧ wordDatum 8 23 w = d) ∧
    (¬ (d = .num q ∨ ∀ v, d ≠ .num v) → Native.fromMpfrSingle x true = none) := by
  have hr := native_single_round hx hq
  have hc := cmp_word (by norm_num) hx hq hr
  have hl := floatRound_lt (E := 8) (F := 23) (by norm_num) (by norm_num) (Mpfr.subnormalize (-148)
    (Mpfr.setT (Mpfr.rndnRange (-148) 128 24) x).2 (Mpfr.setT (Mpfr.rndnRange (-148) 128 24) x).1)
  have hu := roundedG_unique (by norm_num) hr hd
  have hf := floatValue_datum (E := 8) (F := 23) (w := floatRound 8 23 (Mpfr.subnormalize (-148)
    (Mpfr.setT (Mpfr.rndnRange (-148) 128 24) x).2 (Mpfr.setT (Mpfr.rndnRange (-148) 128 24) x).1)) (by norm_num)
  unfold Native.fromMpfrSingle
  simp only
  generalize floatRound 8 23 (Mpfr.subnormalize (-148) (Mpfr.setT (Mpfr.rndnRange (-148) 128 24) x).2
    (Mpfr.setT (Mpfr.rndnRange (-148) 128 24) x).1) = u at *
  rw [hu] at hc hf
  by_cases h : d = .num q
  · refine ⟨fun _ => ⟨u, if_neg (not_not.2 (hc.2 h)), hl, hu⟩, fun hn => absurd (Or.inl h) hn⟩
  · have h' := mt hc.1 h
    simp only [if_pos h', h, false_or]
    cases hv : floatValue 8 23 u with
    | num s m e =>
      have hdv : d = .num ((if s then -1 else 1) * ((m : ℚ) * 2 ^ e)) := by rw [← hf, hv]; rfl
      exact ⟨fun g => absurd hdv (g _), fun _ => rfl⟩
    | _ =>
      refine ⟨fun _ => ⟨u, rfl, hl, hu⟩, fun g => absurd ?_ g⟩
      intro v hv'
      rw [hv] at hf
      rw [← hf] at hv'
      cases hv'

/-- **C73.** `ref_mul` of `policy_native_single` and of `policy_softfloat_single`: for any two words the reference is the IEEE 754 product, with denormals and
signed zeros; `from_mpfr` turns it into a word of exactly that value; the SoftFloat operator returns a word of that value; any other
destination precision throws. -/
theorem C73_single_mul {fast a b : ℕ} (hfast : 32 ≤ fast) (ha : a < 2 ^ 32) (hb : b < 2 ^ 32) {x y : Mpfr}
    (hx : Native.toMpfr 8 23 24 a = some x) (hy : Native.toMpfr 8 23 24 b = some y) :
    (∃ r t w z, Native.refMulSingle 24 x y = some (r, t) ∧ IeeeProduct 8 23 (wordDatum 8 23 a) (wordDatum 8 23 b) r.datum ∧
      (∀ allow, Native.fromMpfrSingle r allow = some w) ∧ wordDatum 8 23 w = r.datum ∧
      f32Mul fast a b = some z ∧ wordDatum 8 23 z = r.datum) ∧
    ∀ p, p ≠ 24 → Native.refMulSingle p x y = none := by
  obtain ⟨dx, ox⟩ := toMpfr_at (E := 8) (F := 23) (by norm_num) (by norm_num) hx
  obtain ⟨dy, oy⟩ := toMpfr_at (E := 8) (F := 23) (by norm_num) (by norm_num) hy
  refine ⟨?_, fun p hp => if_pos hp⟩
  have hi := Mpfr.mulT_ieee (E := 8) (F := 23) (emin := -148) (emax := 128) (by norm_num) (by norm_num) (by norm_num [leastExp, bias])
    (by norm_num [bias]) ox oy
  rw [dx, dy] at hi
  obtain ⟨z, hz, hzl, iz⟩ := C62_soft_mul32 hfast ha hb
  have hu := ieeeProduct_unique (by norm_num) hi iz
  obtain ⟨w, hwd, -, hw⟩ := fromMpfrSingle_allow (by rw [hu]; exact soft_rep32 hzl)
  exact ⟨_, _, w, z, rfl, hi, hw, hwd, hz, hu.symm⟩

/-- **C73.** `ref_add` of `policy_native_single` and of `policy_softfloat_single`: for any two words the reference is the IEEE 754 sum, with denormals and
signed zeros; `from_mpfr` turns it into a word of exactly that value; the SoftFloat operator returns a word of that value; any other
destination precision throws. -/
theorem C73_single_add {fast a b : ℕ} (hfast : 32 ≤ fast) (ha : a < 2 ^ 32) (hb : b < 2 ^ 32) {x y : Mpfr}
    (hx : Native.toMpfr 8 23 24 a = some x) (hy : Native.toMpfr 8 23 24 b = some y) :
    (∃ r t w z, Native.refAddSingle 24 x y = some (r, t) ∧ IeeeSum 8 23 (wordDatum 8 23 a) (wordDatum 8 23 b) r.datum ∧
      (∀ allow, Native.fromMpfrSingle r allow = some w) ∧ wordDatum 8 23 w = r.datum ∧
      f32Add fast a b = some z ∧ wordDatum 8 23 z = r.datum) ∧
    ∀ p, p ≠ 24 → Native.refAddSingle p x y = none := by
  obtain ⟨dx, ox⟩ := toMpfr_at (E := 8) (F := 23) (by norm_num) (by norm_num) hx
  obtain ⟨dy, oy⟩ := toMpfr_at (E := 8) (F := 23) (by norm_num) (by norm_num) hy
  refine ⟨?_, fun p hp => if_pos hp⟩
  have hi := Mpfr.addT_ieee (E := 8) (F := 23) (emin := -148) (emax := 128) (by norm_num) (by norm_num) (by norm_num [leastExp, bias])
    (by norm_num [bias]) (by rw [dx]; exact soft_rep32 ha) (by rw [dy]; exact soft_rep32 hb)
  rw [dx, dy] at hi
  obtain ⟨z, hz, hzl, iz⟩ := C61_soft_add32 hfast ha hb
  have hu := ieeeSum_unique (by norm_num) hi iz
  obtain ⟨w, hwd, -, hw⟩ := fromMpfrSingle_allow (by rw [hu]; exact soft_rep32 hzl)
  exact ⟨_, _, w, z, rfl, hi, hw, hwd, hz, hu.symm⟩

/-- **C73.** `ref_div` of `policy_native_single` and of `policy_softfloat_single`: for any two words the reference is the IEEE 754 quotient, with denormals and
signed zeros; `from_mpfr` turns it into a word of exactly that value; the SoftFloat operator returns a word of that value; any other
destination precision throws. -/
theorem C73_single_div {fast a b : ℕ} (hfast : 32 ≤ fast) (ha : a < 2 ^ 32) (hb : b < 2 ^ 32) {x y : Mpfr}
    (hx : Native.toMpfr 8 23 24 a = some x) (hy : Native.toMpfr 8 23 24 b = some y) :
    (∃ r t w z, Native.refDivSingle 24 x y = some (r, t) ∧ IeeeQuotient 8 23 (wordDatum 8 23 a) (wordDatum 8 23 b) r.datum ∧
      (∀ allow, Native.fromMpfrSingle r allow = some w) ∧ wordDatum 8 23 w = r.datum ∧
      f32Div fast a b = some z ∧ wordDatum 8 23 z = r.datum) ∧
    ∀ p, p ≠ 24 → Native.refDivSingle p x y = none := by
  obtain ⟨dx, ox⟩ := toMpfr_at (E := 8) (F := 23) (by norm_num) (by norm_num) hx
  obtain ⟨dy, oy⟩ := toMpfr_at (E := 8) (F := 23) (by norm_num) (by norm_num) hy
  refine ⟨?_, fun p hp => if_pos hp⟩
  have hi := Mpfr.divT_ieee (E := 8) (F := 23) (emin := -148) (emax := 128) (by norm_num) (by norm_num) (by norm_num [leastExp, bias])
    (by norm_num [bias]) ox oy
  rw [dx, dy] at hi
  obtain ⟨z, hz, hzl, iz⟩ := C63_soft_div32 hfast ha hb
  have hu := ieeeQuotient_unique (by norm_num) hi iz
  obtain ⟨w, hwd, -, hw⟩ := fromMpfrSingle_allow (by rw [hu]; exact soft_rep32 hzl)
  exact ⟨_, _, w, z, rfl, hi, hw, hwd, hz, hu.symm⟩

/-- **C73.** `ref_mul` of `policy_native_double` and of `policy_softfloat_double`: for any two words the reference is the IEEE 754 product, with denormals and
signed zeros; `from_mpfr` turns it into a word of exactly that value; the SoftFloat operator returns a word of that value; any other
destination precision throws. -/
theorem C73_double_mul {fast a b : ℕ} (hfast : 64 ≤ fast) (ha : a < 2 ^ 64) (hb : b < 2 ^ 64) {x y : Mpfr}
    (hx : Native.toMpfr 11 52 53 a = some x) (hy : Native.toMpfr 11 52 53 b = some y) :
    (∃ r t w z, Native.refMulDouble 53 x y = some (r, t) ∧ IeeeProduct 11 52 (wordDatum 11 52 a) (wordDatum 11 52 b) r.datum ∧
      (∀ allow, Native.fromMpfrDouble r allow = some w) ∧ wordDatum 11 52 w = r.datum ∧
      f64Mul fast a b = some z ∧ wordDatum 11 52 z = r.datum) ∧
    ∀ p, p ≠ 53 → Native.refMulDouble p x y = none := by
  obtain ⟨dx, ox⟩ := toMpfr_at (E := 11) (F := 52) (by norm_num) (by norm_num) hx
  obtain ⟨dy, oy⟩ := toMpfr_at (E := 11) (F := 52) (by norm_num) (by norm_num) hy
  refine ⟨?_, fun p hp => if_pos hp⟩
  have hi := Mpfr.mulT_ieee (E := 11) (F := 52) (emin := -1073) (emax := 1024) (by norm_num) (by norm_num) (by norm_num [leastExp, bias])
    (by norm_num [bias]) ox oy
  rw [dx, dy] at hi
  obtain ⟨z, hz, hzl, iz⟩ := C62_soft_mul64 hfast ha hb
  have hu := ieeeProduct_unique (by norm_num) hi iz
  obtain ⟨w, hwd, -, hw⟩ := fromMpfrDouble_allow (by rw [hu]; exact soft_rep64 hzl)
  exact ⟨_, _, w, z, rfl, hi, hw, hwd, hz, hu.symm⟩

/-- **C73.** `ref_add` of `policy_native_double` and of `policy_softfloat_double`: for any two words the reference is the IEEE 754 sum, with denormals and
signed zeros; `from_mpfr` turns it into a word of exactly that value; the SoftFloat operator returns a word of that value; any other
destination precision throws. -/
theorem C73_double_add {fast a b : ℕ} (hfast : 64 ≤ fast) (ha : a < 2 ^ 64) (hb : b < 2 ^ 64) {x y : Mpfr}
    (hx : Native.toMpfr 11 52 53 a = some x) (hy : Native.toMpfr 11 52 53 b = some y) :
    (∃ r t w z, Native.refAddDouble 53 x y = some (r, t) ∧ IeeeSum 11 52 (wordDatum 11 52 a) (wordDatum 11 52 b) r.datum ∧
      (∀ allow, Native.fromMpfrDouble r allow = some w) ∧ wordDatum 11 52 w = r.datum ∧
      f64Add fast a b = some z ∧ wordDatum 11 52 z = r.datum) ∧
    ∀ p, p ≠ 53 → Native.refAddDouble p x y = none := by
  obtain ⟨dx, ox⟩ := toMpfr_at (E := 11) (F := 52) (by norm_num) (by norm_num) hx
  obtain ⟨dy, oy⟩ := toMpfr_at (E := 11) (F := 52) (by norm_num) (by norm_num) hy
  refine ⟨?_, fun p hp => if_pos hp⟩
  have hi := Mpfr.addT_ieee (E := 11) (F := 52) (emin := -1073) (emax := 1024) (by norm_num) (by norm_num) (by norm_num [leastExp, bias])
    (by norm_num [bias]) (by rw [dx]; exact soft_rep64 ha) (by rw [dy]; exact soft_rep64 hb)
  rw [dx, dy] at hi
  obtain ⟨z, hz, hzl, iz⟩ := C61_soft_add64 hfast ha hb
  have hu := ieeeSum_unique (by norm_num) hi iz
  obtain ⟨w, hwd, -, hw⟩ := fromMpfrDouble_allow (by rw [hu]; exact soft_rep64 hzl)
  exact ⟨_, _, w, z, rfl, hi, hw, hwd, hz, hu.symm⟩

/-- **C73.** `ref_div` of `policy_native_double` and of `policy_softfloat_double`: for any two words the reference is the IEEE 754 quotient, with denormals and
signed zeros; `from_mpfr` turns it into a word of exactly that value; the SoftFloat operator returns a word of that value; any other
destination precision throws. -/
theorem C73_double_div {fast a b : ℕ} (hfast : 64 ≤ fast) (ha : a < 2 ^ 64) (hb : b < 2 ^ 64) {x y : Mpfr}
    (hx : Native.toMpfr 11 52 53 a = some x) (hy : Native.toMpfr 11 52 53 b = some y) :
    (∃ r t w z, Native.refDivDouble 53 x y = some (r, t) ∧ IeeeQuotient 11 52 (wordDatum 11 52 a) (wordDatum 11 52 b) r.datum ∧
      (∀ allow, Native.fromMpfrDouble r allow = some w) ∧ wordDatum 11 52 w = r.datum ∧
      f64Div fast a b = some z ∧ wordDatum 11 52 z = r.datum) ∧
    ∀ p, p ≠ 53 → Native.refDivDouble p x y = none := by
  obtain ⟨dx, ox⟩ := toMpfr_at (E := 11) (F := 52) (by norm_num) (by norm_num) hx
  obtain ⟨dy, oy⟩ := toMpfr_at (E := 11) (F := 52) (by norm_num) (by norm_num) hy
  refine ⟨?_, fun p hp => if_pos hp⟩
  have hi := Mpfr.divT_ieee (E := 11) (F := 52) (emin := -1073) (emax := 1024) (by norm_num) (by norm_num) (by norm_num [leastExp, bias])
    (by norm_num [bias]) ox oy
  rw [dx, dy] at hi
  obtain ⟨z, hz, hzl, iz⟩ := C63_soft_div64 hfast ha hb
  have hu := ieeeQuotient_unique (by norm_num) hi iz
  obtain ⟨w, hwd, -, hw⟩ := fromMpfrDouble_allow (by rw [hu]; exact soft_rep64 hzl)
  exact ⟨_, _, w, z, rfl, hi, hw, hwd, hz, hu.symm⟩

/-- **C73.** The references of `policy_flopoco<E,F>` and of every policy that shares them: `from_mpfr(ref, true)` is the exact result as the
format delivers it (correctly rounded, flushed to zero below the range, infinite above it). -/
theorem C73_flopoco {E F : ℕ} (hE : 2 ≤ E) (hF : 1 ≤ F) (a b : Fp E F) :
    (∃ r v, (policyFlopoco E F).refMul (toMpfr a) (toMpfr b) = some r ∧ ofMpfr E F true r = some v ∧
      Delivers E F (exactMul a.datum b.datum) v.datum) ∧
    (∃ r v, (policyFlopoco E F).refAdd (toMpfr a) (toMpfr b) = some r ∧ ofMpfr E F true r = some v ∧
      Delivers E F (exactAdd a.datum b.datum) v.datum) ∧
    ∃ r v, (policyFlopoco E F).refDiv (toMpfr a) (toMpfr b) = some r ∧ ofMpfr E F true r = some v ∧
      Delivers E F (exactDiv a.datum b.datum) v.datum := by
  have hS := flopoco_sound hE hF (P := policyFlopoco E F) ⟨rfl, rfl, rfl, rfl, rfl⟩
  obtain ⟨r1, v1, a1, b1, -, c1⟩ := hS.mul a b _ _ trivial trivial rfl rfl
  obtain ⟨r2, v2, a2, b2, -, c2⟩ := hS.add a b _ _ trivial trivial rfl rfl
  obtain ⟨r3, v3, a3, b3, -, c3⟩ := hS.div a b _ _ trivial trivial rfl rfl
  exact ⟨⟨r1, v1, a1, b1, c1⟩, ⟨r2, v2, a2, b2, c2⟩, ⟨r3, v3, a3, b3, c3⟩⟩

/-- **C73.** The references of `policy_ieee_on_flopoco<E,F>`; denormal words count as zeros. -/
theorem C73_ieee {E F : ℕ} (hE : 2 ≤ E) (hF : 1 ≤ F) (a b : Ieee E F) :
    (∃ r v, (policyIeeeOnFlopoco E F).refMul (Ieee.toMpfr a) (Ieee.toMpfr b) = some r ∧ Ieee.ofMpfr E F true r = some v ∧
      IeeeDelivers E F (exactMul (ieeeRange E a.datum) (ieeeRange E b.datum)) (ieeeRange E v.datum)) ∧
    (∃ r v, (policyIeeeOnFlopoco E F).refAdd (Ieee.toMpfr a) (Ieee.toMpfr b) = some r ∧ Ieee.ofMpfr E F true r = some v ∧
      IeeeDelivers E F (exactAdd (ieeeRange E a.datum) (ieeeRange E b.datum)) (ieeeRange E v.datum)) ∧
    ∃ r v, (policyIeeeOnFlopoco E F).refDiv (Ieee.toMpfr a) (Ieee.toMpfr b) = some r ∧ Ieee.ofMpfr E F true r = some v ∧
      IeeeDelivers E F (exactDiv (ieeeRange E a.datum) (ieeeRange E b.datum)) (ieeeRange E v.datum) := by
  have hS := ieee_sound hE hF (P := policyIeeeOnFlopoco E F) ⟨rfl, rfl, rfl, rfl, rfl⟩
  obtain ⟨r1, v1, a1, b1, -, c1⟩ := hS.mul a b _ _ trivial trivial rfl rfl
  obtain ⟨r2, v2, a2, b2, -, c2⟩ := hS.add a b _ _ trivial trivial rfl rfl
  obtain ⟨r3, v3, a3, b3, -, c3⟩ := hS.div a b _ _ trivial trivial rfl rfl
  exact ⟨⟨r1, v1, a1, b1, c1⟩, ⟨r2, v2, a2, b2, c2⟩, ⟨r3, v3, a3, b3, c3⟩⟩

/-- **C73, finding.** In every format the exponent range of `policy_flopoco` is one binade too wide at its lower end: without
the detour through `from_mpfr(·, true)` the reference `2^(-bias) * 1/2` is the number `2^(-bias-1)`, which no value of the format has;
`from_mpfr(·, false)` throws for it. -/
theorem C73_flopoco_raw_below_range {E F : ℕ} (hE : 2 ≤ E) (hF : 1 ≤ F) :
    ∃ (a b : Fp E F) (r : Mpfr), (policyFlopoco E F).refMul (toMpfr a) (toMpfr b) = some r ∧ r.datum = .num (2 ^ (-bias E - 1)) ∧
      (∀ v : Fp E F, v.datum ≠ r.datum) ∧ ofMpfr E F false r = none := by
  obtain ⟨b1, b2⟩ := bias_bounds hE
  have hbn : biasN E - 1 < 2 ^ E := by
    have := pow_bias (E := E)
    zify
    omega
  have hb1 : ((biasN E - 1 : ℕ) : ℤ) = bias E - 1 := by
    have := pow_bias (E := E)
    omega
  refine ⟨Fp.mk4 E F 1 0 0 0, Fp.mk4 E F 1 0 (biasN E - 1) 0, .num false (2 ^ F) (-bias E - 1 - F), ?_, ?_, ?_, ?_⟩
  · have da : (toMpfr (Fp.mk4 E F 1 0 0 0)).datum = .num (2 ^ (-bias E)) := by
      rw [C47_to_mpfr_exact, Fp.mk4_datum (by norm_num) (by norm_num) (by positivity) (by positivity) (by omega) hF]
      simp only [denote]
      congr 1
      push_cast
      rw [← zpow_natCast, one_mul, add_zero, ← zpow_add₀ (by norm_num)]
      congr 1; push_cast; ring
    have db : (toMpfr (Fp.mk4 E F 1 0 (biasN E - 1) 0)).datum = .num (2 ^ (-1 : ℤ)) := by
      rw [C47_to_mpfr_exact, Fp.mk4_datum (by norm_num) (by norm_num) hbn (by positivity) (by omega) hF]
      simp only [denote]
      rw [hb1]
      congr 1
      push_cast
      rw [← zpow_natCast, one_mul, add_zero, ← zpow_add₀ (by norm_num)]
      congr 1; push_cast; ring
    change some (Mpfr.mulT _ _ _).1 = _
    congr 1
    have hm : exactMul (toMpfr (Fp.mk4 E F 1 0 0 0)).datum (toMpfr (Fp.mk4 E F 1 0 (biasN E - 1) 0)).datum = .num (2 ^ (-bias E - 1)) := by
      rw [da, db]
      simp only [exactMul, mulSpecial, Option.getD_none, Datum.val]
      rw [← zpow_add₀ (by norm_num)]
      rfl
    rcases Mpfr.mulT_cases (Mpfr.rndnRange (-2 ^ (E - 1) + 1) (2 ^ (E - 1) + 1) (F + 1)) (toMpfr_ok (Fp.mk4 E F 1 0 0 0))
      (toMpfr_ok (Fp.mk4 E F 1 0 (biasN E - 1) 0)) with ⟨w, hw, h⟩ | ⟨hw, -⟩
    · rw [hm] at hw
      injection hw with hw
      rw [h, ← hw, Mpfr.rndnRange]
      have hp := two_zpow_pos (-bias E - 1)
      rw [if_neg hp.ne', abs_of_pos hp, rndnPos_pow hF, half_pow]
      simp only
      rw [if_neg (by push_cast; omega), if_neg (by push_cast; omega)]
      simp [hp.le]
    · exact absurd hm (hw _)
  · simp only [Mpfr.datum, Bool.false_eq_true, if_false, one_mul]
    push_cast
    rw [← zpow_natCast, ← zpow_add₀ (by norm_num)]
    congr 2; ring
  · intro v hv
    obtain ⟨-, h⟩ := datum_num_iff.1 hv
    simp only [Bool.false_eq_true, if_false, one_mul] at h
    have hlow : (2 : ℚ) ^ (-bias E) ≤ ((2 ^ F + v.frac : ℕ) : ℚ) * 2 ^ ((v.exp : ℤ) - bias E - F) := by
      calc (2 : ℚ) ^ (-bias E) ≤ 2 ^ ((v.exp : ℤ) - bias E) := zpow_le_zpow_right₀ (by norm_num) (by omega)
        _ = (2 ^ F : ℚ) * 2 ^ ((v.exp : ℤ) - bias E - F) := by
            rw [← zpow_natCast, ← zpow_add₀ (by norm_num)]; congr 1; ring
        _ ≤ _ := mul_le_mul_of_nonneg_right (by push_cast; linarith [(Nat.cast_nonneg v.frac : (0 : ℚ) ≤ v.frac)]) (two_zpow_pos _).le
    have heq : ((2 ^ F : ℕ) : ℚ) * 2 ^ (-bias E - 1 - F) = 2 ^ (-bias E - 1) := by
      push_cast
      rw [← zpow_natCast, ← zpow_add₀ (by norm_num)]
      congr 1; ring
    rw [heq] at h
    have hlt : (2 : ℚ) ^ (-bias E - 1) < 2 ^ (-bias E) := zpow_lt_zpow_right₀ (by norm_num) (by omega)
    have hp := two_zpow_pos (-bias E - 1)
    split_ifs at h <;> linarith
  · have h := C47_of_mpfr (le_trans one_le_two hE) hF (m := 2 ^ F) false false (-bias E - 1 - F) ⟨by simp, Nat.pow_lt_pow_right (by norm_num) (by omega)⟩
    rw [if_neg] at h
    · exact h
    · rintro (⟨h, -⟩ | h)
      · omega
      · cases h

/-- **C73, finding.** The value returned by the IEEE references is MPFR's ternary value before `mpfr_subnormalize`: for a denormal result it
can be zero, which means exact, although the result is not the exact product. -/
theorem C73_ternary_wrong :
    ∃ x y r, Native.toMpfr 8 23 24 0x00800001 = some x ∧ Native.toMpfr 8 23 24 0x3F000000 = some y ∧
      Native.refMulSingle 24 x y = some (r, 0) ∧ r.value ≠ x.value * y.value := by
  refine ⟨.num false (2 ^ 23 + 1) (-149), .num false (2 ^ 23) (-24), .num false (2 ^ 22) (-149), ?_, ?_, ?_, ?_⟩ <;> decide +kernel

/-- The hypotheses are met: two words and their MPFR values; a product that is denormal and inexact. -/
example : ∃ x y, Native.toMpfr 8 23 24 0x00800001 = some x ∧ Native.toMpfr 8 23 24 0xBF400000 = some y ∧
    f32Mul 32 0x00800001 0xBF400000 = some 0x80600001 :=
  ⟨.num false (2 ^ 23 + 1) (-149), .num true (3 * 2 ^ 22) (-24), by decide +kernel⟩

example : ∃ x y, Native.toMpfr 11 52 53 0x3FF0000000000001 = some x ∧ Native.toMpfr 11 52 53 0x3FF8000000000000 = some y ∧
    f64Mul 64 0x3FF0000000000001 0x3FF8000000000000 = some 0x3FF8000000000002 :=
  ⟨.num false (2 ^ 52 + 1) (-52), .num false (3 * 2 ^ 51) (-52), by decide +kernel⟩

/-- Numbers that `from_mpfr` accepts and refuses. -/
example : Native.fromMpfrSingle (.num false 3 (-150)) true = none ∧ Native.fromMpfrDouble (.num false 3 (-1075)) true = some 2 ∧
    Native.fromMpfrDouble (.num false 3 (-1075)) false = none ∧ Native.fromMpfrSingle (.num true 3 (-149)) false = some 0x80000003 := by
  decide +kernel

end Thls
