import Verif.Proofs.Modules

/-! # Property C83: the generated modules on packed words -/

namespace Thls
open Spec

/-! ## Products and quotients -/

/-- **C83.** The product module is right in every format, for every pair of words. -/
theorem C83_mul_module {E F : ℕ} (hE : 2 ≤ E) (hF : 1 ≤ F) : ModuleRight E F E F E F exactMul (Modules.mul E F) := by
  refine (module_right (by omega) hF (by omega) hF (by omega) hF exactMul (fun x y => mulV1 E F x y)).mpr fun x y => ?_
  obtain ⟨r, hr⟩ := mulV1_total (wFR := F) x y
  refine ⟨r, hr, exactMul_delivers (by omega) hF (fun d hd => C12_mul_exceptions (by omega) hF (by omega) x y r hr d hd) ?_⟩
  intro p q hp hq
  obtain ⟨s, hs, h⟩ := C10_mul_correctly_rounded hE hF hF hF (by omega) x y p q hp hq
  rw [hr] at hs; rw [Option.some.inj hs]; exact h

/-- **C83.** The product module with operands of different precision, for every pair of precisions. -/
theorem C83_mul_ratio_module {E F1 F2 : ℕ} (hE : 2 ≤ E) (hF1 : 1 ≤ F1) (hF2 : 1 ≤ F2) :
    ModuleRight E F1 E F1 E F2 exactMul (Modules.mulRatio E F1 F2) := by
  refine (module_right (by omega) hF1 (by omega) hF1 (by omega) hF2 exactMul (fun x y => mulV1 E F1 x y)).mpr fun x y => ?_
  obtain ⟨r, hr⟩ := mulV1_total (wFR := F1) x y
  refine ⟨r, hr, exactMul_delivers (by omega) hF1 (fun d hd => C12_mul_exceptions (by omega) hF1 (by omega) x y r hr d hd) ?_⟩
  intro p q hp hq
  obtain ⟨s, hs, h⟩ := C10_mul_correctly_rounded hE hF1 hF1 hF2 (by omega) x y p q hp hq
  rw [hr] at hs; rw [Option.some.inj hs]; exact h

/-- **C83.** Both quotient modules are right in every format, for every pair of words. -/
theorem C83_div_module {E F : ℕ} (hE : 2 ≤ E) (hF : 1 ≤ F) :
    ModuleRight E F E F E F exactDiv (Modules.div E F) ∧ ModuleRight E F E F E F exactDiv (Modules.divTwo E F) := by
  constructor
  · refine (module_right (by omega) hF (by omega) hF (by omega) hF exactDiv (fun x y => some (divV1 E F x y))).mpr fun x y => ?_
    refine ⟨_, rfl, exactDiv_delivers (by omega) hF ?_ ?_⟩
    · exact fun d hd => C22_div_exceptions (by omega) hF (by omega) hF ⟨le_rfl, le_rfl⟩ ⟨le_rfl, le_rfl⟩ x y d hd
    · exact fun p q hp hq => C20_div_correctly_rounded hE (by omega) hF (by omega) hF ⟨le_rfl, le_rfl⟩ ⟨le_rfl, le_rfl⟩ x y p q hp hq
  · refine (module_right (by omega) hF (by omega) hF (by omega) hF exactDiv (fun x y => some (divV2 E F x y))).mpr fun x y => ?_
    refine ⟨_, rfl, ?_⟩
    obtain ⟨r', hr', h1, h2⟩ := C54_div_agrees hE (by omega) hF (by omega) hF ⟨le_rfl, le_rfl⟩ ⟨le_rfl, le_rfl⟩ x y
    obtain ⟨r'', hr'', hd⟩ := C53_ref_div (ER := E) (FR := F) (by omega) hF x y
    rw [hr'] at hr''
    rw [C07_equals_iff_same_datum (by omega) hF] at h2
    rw [h2, Option.some.inj hr'']
    exact hd

/-- Not vacuous: `1.5 * -1.25` in the format (5,10), as words; the product is `-1.875`. -/
example : Modules.mul 5 10 (2 ^ 16 + 15 * 2 ^ 10 + 512) (2 ^ 16 + 2 ^ 15 + 15 * 2 ^ 10 + 256) = some (2 ^ 16 + 2 ^ 15 + 15 * 2 ^ 10 + 896) ∧
    Modules.div 5 10 (2 ^ 16 + 15 * 2 ^ 10 + 512) (2 ^ 16 + 2 ^ 15 + 15 * 2 ^ 10 + 512) = some (2 ^ 16 + 2 ^ 15 + 15 * 2 ^ 10) ∧
    (Modules.divTwo 5 10 (2 ^ 16 + 15 * 2 ^ 10 + 512) 0).map (· / 2 ^ 16) = some 2 ∧
    Modules.mulRatio 5 10 3 (2 ^ 16 + 15 * 2 ^ 10 + 512) (2 ^ 9 + 2 ^ 8 + 15 * 2 ^ 3 + 2) = some (2 ^ 16 + 2 ^ 15 + 15 * 2 ^ 10 + 896) := by
  decide +kernel

/-! ## Sums, dual path -/

theorem delivers_addsTo {E F : ℕ} {x y : Datum} {p q : ℚ} (hx : x = .num p) (hy : y = .num q) (d : Datum) :
    Delivers E F (exactAdd x y) d ↔ AddsTo E F p q d := by rw [hx, hy]; exact Iff.rfl

/-- **C83.** In which formats the dual-path sum module is right for every pair of words. -/
theorem C83_add_dual_module_iff {E F : ℕ} (hE : 3 < E) (hF : 1 ≤ F) (hfit : F + 2 < 2 ^ (E + 2)) :
    ModuleRight E F E F E F exactAdd (Modules.addDual E F) ↔ DualFormat E F ∧ F ≤ 2 ^ (E + 1) := by
  refine (module_right (by omega) hF (by omega) hF (by omega) hF exactAdd (fun x y => AddDual.addSame x y)).trans ?_
  rw [← C14_add_correct_format_iff hE hF hfit]
  constructor
  · intro h x y vx vy hx hy
    obtain ⟨r, hr, hd⟩ := h x y
    exact ⟨r, hr, (delivers_addsTo hx hy _).mp hd⟩
  · intro h x y
    have hok := ((C14_add_correct_format_iff hE hF hfit).mp h).1
    have hs : ∀ d, addSpecial x.datum y.datum = some d → ∃ r, AddDual.addSame x y = some r ∧ r.datum = d :=
      fun d hd => AddDual.addSame_special (by omega) hF hok hd
    have key : ∃ r, AddDual.addSame x y = some r := by
      cases h' : addSpecial x.datum y.datum with
      | some d => obtain ⟨r, hr, -⟩ := hs d h'; exact ⟨r, hr⟩
      | none =>
        obtain ⟨p, q, hp, hq⟩ := (C17_addSpecial_domain _ _).mp h'
        obtain ⟨r, hr, -⟩ := h x y p q hp hq
        exact ⟨r, hr⟩
    obtain ⟨r, hr⟩ := key
    refine ⟨r, hr, exactAdd_delivers (by omega) hF ?_ ?_⟩
    · intro d hd
      obtain ⟨s, hs', h'⟩ := hs d hd
      rw [hr] at hs'; rw [Option.some.inj hs']; exact h'
    · intro p q hp hq
      obtain ⟨s, hs', h'⟩ := h x y p q hp hq
      rw [hr] at hs'; rw [Option.some.inj hs']; exact h'

/-! ## Sums, single path -/

/-- Operands in the clamp case exist in every format with `F + 3 < 2^(E-1)`. -/
theorem clamp_operands {E F : ℕ} (hE : 2 ≤ E) (hF : 1 ≤ F) (hfmt : F + 3 < 2 ^ (E - 1)) :
    ∃ (x y : Fp E F) (p q : ℚ), x.datum = .num p ∧ y.datum = .num q ∧ ClampCase F p q := by
  have hp : 2 ^ E = 2 * 2 ^ (E - 1) := by
    conv_lhs => rw [show E = (E - 1) + 1 by omega, pow_succ]
    ring
  have hF2 : 2 ≤ 2 ^ F := by
    calc 2 = 2 ^ 1 := rfl
      _ ≤ 2 ^ F := Nat.pow_le_pow_right (by norm_num) hF
  refine ⟨Fp.mk4 E F 1 0 (F + 3) 0, Fp.mk4 E F 1 1 1 1, _, _, by rw [Fp.mk4_datum (by norm_num) (by norm_num) (by omega) (by omega) (by omega) hF]; rfl,
    by rw [Fp.mk4_datum (by norm_num) (by norm_num) (by omega) (by omega) (by omega) hF]; rfl, ?_⟩
  have h2 : ((2 ^ F + 0 : ℕ) : ℚ) * 2 ^ (((F + 3 : ℕ) : ℤ) - bias E - F) = 2 ^ ((3 : ℤ) + F - bias E) := by
    push_cast
    rw [add_zero, ← zpow_natCast, ← zpow_add₀ (by norm_num)]; congr 1; push_cast; ring
  have h3 : ((2 ^ F + 1 : ℕ) : ℚ) * 2 ^ (((1 : ℕ) : ℤ) - bias E - F) = 2 ^ (1 - bias E) + 2 ^ (1 - bias E - F) := by
    push_cast
    rw [add_mul, one_mul, ← zpow_natCast, ← zpow_add₀ (by norm_num)]; congr 2; ring
  rw [h2, h3]
  have p1 : (0 : ℚ) < 2 ^ ((3 : ℤ) + F - bias E) := by positivity
  have p2 : (0 : ℚ) < 2 ^ (1 - bias E) := by positivity
  have p3 : (0 : ℚ) < 2 ^ (1 - bias E - F) := by positivity
  have p4 : (2 : ℚ) ^ (1 - bias E - F) < 2 ^ (1 - bias E) := zpow_lt_zpow_right₀ (by norm_num) (by omega)
  have p5 : (2 : ℚ) ^ (2 - bias E) = 2 * 2 ^ (1 - bias E) := by
    rw [show 2 - bias E = 1 + (1 - bias E) by ring, zpow_add₀ (by norm_num)]; norm_num
  simp only [if_neg (show ¬ (0 : ℕ) = 1 by norm_num), if_true, one_mul]
  refine ⟨?_, (3 : ℤ) + F - bias E, ?_, ?_, ?_⟩
  · have := mul_pos p1 (add_pos p2 p3)
    linarith
  · rw [abs_of_pos p1]
  · rw [neg_one_mul, abs_neg, abs_of_pos (add_pos p2 p3), show (3 : ℤ) + F - bias E - F - 2 = 1 - bias E by ring]
    linarith
  · rw [neg_one_mul, abs_neg, abs_of_pos (add_pos p2 p3), show (3 : ℤ) + F - bias E - F - 1 = 2 - bias E by ring, p5]
    linarith

/-- **C83.** The single-path sum module (v1, v2) is right for every pair of words exactly in the formats with `2^(E-1) < F+3 < 2^E`. -/
theorem C83_add_single_module_iff {E F : ℕ} (hE : 2 ≤ E) (hF : 1 ≤ F) :
    ModuleRight E F E F E F exactAdd (Modules.addSingle E F) ↔ 2 ^ (E - 1) < F + 3 ∧ F + 3 < 2 ^ E := by
  refine (module_right (by omega) hF (by omega) hF (by omega) hF exactAdd (fun x y => AddSingle.addSame x y)).trans ⟨?_, ?_⟩
  · intro h
    obtain ⟨h1, h2⟩ := (C19_add_single_never_asserts_iff (by omega : 1 ≤ E) hF).mp (fun x y => by
      obtain ⟨r, hr, -⟩ := h x y; rw [hr]; rfl)
    refine ⟨?_, h1⟩
    by_contra hc
    have hlt : F + 3 < 2 ^ (E - 1) := by omega
    obtain ⟨x, y, p, q, hx, hy, hcl⟩ := clamp_operands hE hF hlt
    obtain ⟨r, hr, -, hn⟩ := C15_add_single_clamp_wrong hE hF hlt x y p q hx hy hcl
    obtain ⟨r', hr', hd⟩ := h x y
    rw [hr] at hr'
    rw [← Option.some.inj hr'] at hd
    exact hn ((delivers_addsTo hx hy _).mp hd)
  · rintro ⟨h1, h2⟩ x y
    exact single_delivers hE hF (AddSingle.lzoc_normalises F) h2 (by omega) (AddSingle.addSame_orders (by omega) hF x y)
      (fun hc => by omega)

/-- **C83.** The single-path sum module (v1, v2) returns the right word for the words of two operands unless they are in the clamp
case, in every format in which it does not assert. -/
theorem C83_add_single_module_partial {E F : ℕ} (hE : 2 ≤ E) (hF : 1 ≤ F) (hfmt : F + 3 < 2 ^ E) (hfmt2 : F + 3 ≠ 2 ^ (E - 1))
    (a b : ℕ) (ha : a < 2 ^ (3 + E + F)) (hb : b < 2 ^ (3 + E + F))
    (hcl : ∀ p q, flopocoWord E F a = .num p → flopocoWord E F b = .num q → ¬ ClampCase F p q ∧ ¬ ClampCase F q p) :
    ∃ r, Modules.addSingle E F a b = some r ∧ r < 2 ^ (3 + E + F) ∧
      Delivers E F (exactAdd (flopocoWord E F a) (flopocoWord E F b)) (flopocoWord E F r) := by
  have h1E : 1 ≤ E := by omega
  obtain ⟨r, hr, hd⟩ := single_delivers hE hF (AddSingle.lzoc_normalises F) hfmt hfmt2
    (AddSingle.addSame_orders h1E hF (Fp.ofBits E F a) (Fp.ofBits E F b))
    (fun _ p q hp hq => by
      rw [ofBits_word h1E hF ha] at hp
      rw [ofBits_word h1E hF hb] at hq
      exact hcl p q hp hq)
  refine ⟨r.bits, by unfold Modules.addSingle; rw [hr]; rfl, r.isLt, ?_⟩
  rwa [fp_flopocoWord h1E hF, ← ofBits_word h1E hF ha, ← ofBits_word h1E hF hb]

/-- **C83.** The sum module with a second operand of lower precision, outside the clamp case. -/
theorem C83_add_single_ratio_module_partial {E1 F1 E2 F2 : ℕ} (hE1 : 2 ≤ E1) (hF1 : 1 ≤ F1) (hE2 : 1 ≤ E2) (hF2 : 1 ≤ F2)
    (hE : E2 ≤ E1) (hF : F2 ≤ F1) (hfmt : F1 + 3 < 2 ^ E1) (hfmt2 : F1 + 3 ≠ 2 ^ (E1 - 1))
    (a b : ℕ) (ha : a < 2 ^ (3 + E1 + F1)) (hb : b < 2 ^ (3 + E2 + F2))
    (hcl : ∀ p q, flopocoWord E1 F1 a = .num p → flopocoWord E2 F2 b = .num q → ¬ ClampCase F1 p q ∧ ¬ ClampCase F1 q p) :
    ∃ r, Modules.addSingleRatio E1 F1 E2 F2 a b = some r ∧ r < 2 ^ (3 + E1 + F1) ∧
      Delivers E1 F1 (exactAdd (flopocoWord E1 F1 a) (flopocoWord E2 F2 b)) (flopocoWord E1 F1 r) := by
  have h1E : 1 ≤ E1 := by omega
  have e1 : max E1 E2 = E1 := max_eq_left hE
  have e2 : max F1 F2 = F1 := max_eq_left hF
  obtain ⟨r, hr, hd⟩ : ∃ r, AddSingle.add (Fp.ofBits E1 F1 a) (Fp.ofBits E2 F2 b) = some r ∧
      Delivers (max E1 E2) (max F1 F2) (exactAdd (Fp.ofBits E1 F1 a).datum (Fp.ofBits E2 F2 b).datum) r.datum := by
    have px := promote_datum (dE := max E1 E2) (dF := max F1 F2) h1E hF1 (by omega) (by omega) (Fp.ofBits E1 F1 a)
    have py := promote_datum (dE := max E1 E2) (dF := max F1 F2) hE2 hF2 (by omega) (by omega) (Fp.ofBits E2 F2 b)
    obtain ⟨r, hr, hd⟩ := single_delivers (by omega) (by omega) (AddSingle.lzoc_normalises (max F1 F2))
      (by rw [e1, e2]; exact hfmt) (by rw [e1, e2]; exact hfmt2)
      (AddSingle.addSame_orders (by omega) (by omega) (promote (max E1 E2) (max F1 F2) (Fp.ofBits E1 F1 a))
        (promote (max E1 E2) (max F1 F2) (Fp.ofBits E2 F2 b)))
      (fun _ p q hp hq => by
        rw [px, ofBits_word h1E hF1 ha] at hp
        rw [py, ofBits_word hE2 hF2 hb] at hq
        rw [e2]
        exact hcl p q hp hq)
    rw [px, py] at hd
    exact ⟨r, hr, hd⟩
  have hlt := r.isLt
  rw [ofBits_word h1E hF1 ha, ofBits_word hE2 hF2 hb, ← fp_flopocoWord (by omega) (by omega)] at hd
  have hw : Modules.addSingleRatio E1 F1 E2 F2 a b = some r.bits := by unfold Modules.addSingleRatio; rw [hr]; rfl
  generalize r.bits = w at *
  rw [e1, e2] at hd hlt
  exact ⟨w, hw, hlt, hd⟩

/-- The two single-path adders v1 and v3 fail the same assertions. -/
theorem v3_some_v1_some (u v : ℕ) {E F : ℕ} (x y : Fp E F) (h : (AddSingle.addSameV3 u v x y).isSome = true) :
    (AddSingle.addSame x y).isSome = true := by
  unfold AddSingle.addSameV3 at h
  unfold AddSingle.addSame
  dsimp only at h ⊢
  generalize (if decide (x.flagsExpFrac < y.flagsExpFrac) = true then y else x) = X at *
  generalize (if decide (x.flagsExpFrac < y.flagsExpFrac) = true then x else y) = Y at *
  unfold AddSingle.core at h ⊢
  dsimp only at h ⊢
  cases h1 : AddSingle.shiftVal? E F (subW (E + 1) X.exp Y.exp) with
  | none => rw [h1] at h; exact absurd h (by simp)
  | some s =>
    rw [h1] at h
    dsimp only at h ⊢
    cases h2 : addAlign? F 0 (if Y.flags = 0b00 then 0 else opadHi1 F Y.frac) s with
    | none => rw [h2] at h; exact absurd h (by simp)
    | some ys =>
      dsimp only
      have hz : ∀ g, g < 2 ^ (F + 5) → ∃ z, lzoc? (F + 5) (intlog2 (F + 5)) g = some z := by
        intro g hg
        by_cases h0 : g = 0
        · exact ⟨_, by rw [h0]; exact C34_lzoc_zero (by omega)⟩
        · obtain ⟨c, hc, -⟩ := C34_lzoc_normalises (by omega) hg h0
          exact ⟨_, hc⟩
      obtain ⟨z, hz⟩ := hz (concat 1 (addFar F X.frac ys.1 (X.sign != Y.sign) ys.2) ys.2.toNat) (by
        have h3 : addFar F X.frac ys.1 (X.sign != Y.sign) ys.2 < 2 ^ (F + 4) := Nat.mod_lt _ (by positivity)
        have h4 : ys.2.toNat < 2 := by cases ys.2 <;> simp
        unfold concat
        rw [pow_one, show 2 ^ (F + 5) = 2 ^ (F + 4) * 2 from pow_succ 2 (F + 4)]
        omega)
      rw [hz]
      rfl

/-- **C83.** The sum module v3 exists for fractions of 11 to 26 bits; it is right for every pair of words exactly in the formats with
`2^(E-1) < F+3 < 2^E`, whatever `__builtin_clz(0)` and the uninitialised variable are. -/
theorem C83_add_single_v3_module_iff (u v : ℕ) {E F : ℕ} (hE : 2 ≤ E) (h11 : 11 ≤ F) (h26 : F ≤ 26) :
    ModuleRight E F E F E F exactAdd (Modules.addSingleThree u v E F) ↔ 2 ^ (E - 1) < F + 3 ∧ F + 3 < 2 ^ E := by
  have hF : 1 ≤ F := by omega
  refine (module_right (by omega) hF (by omega) hF (by omega) hF exactAdd (fun x y => AddSingle.addSameV3 u v x y)).trans ⟨?_, ?_⟩
  · intro h
    obtain ⟨h1, h2⟩ := (C19_add_single_never_asserts_iff (by omega : 1 ≤ E) hF).mp (fun x y => by
      obtain ⟨r, hr, -⟩ := h x y
      exact v3_some_v1_some u v x y (by rw [hr]; rfl))
    refine ⟨?_, h1⟩
    by_contra hc
    have hlt : F + 3 < 2 ^ (E - 1) := by omega
    obtain ⟨x, y, p, q, hx, hy, hcl⟩ := clamp_operands hE hF hlt
    obtain ⟨r, hr, hrd, hn⟩ := C15_add_single_clamp_wrong hE hF hlt x y p q hx hy hcl
    obtain ⟨r', hr', hd⟩ := h x y
    obtain ⟨r'', hr'', -, h3⟩ := single_addsTo (AddSingle.clz_normalises u v h11 h26) hE hF h1 h2
      (AddSingle.addSameV3_orders u v (by omega) hF x y) hx hy
    rw [hr'] at hr''
    rw [← Option.some.inj hr''] at h3
    rw [h3 hlt hcl] at hd
    rw [hrd] at hn
    exact hn ((delivers_addsTo hx hy _).mp hd)
  · rintro ⟨h1, h2⟩ x y
    exact single_delivers hE hF (AddSingle.clz_normalises u v h11 h26) h2 (by omega) (AddSingle.addSameV3_orders u v (by omega) hF x y)
      (fun hc => by omega)

/-! ## IEEE words -/

theorem ieee_datum_idem {E F : ℕ} (hE : 2 ≤ E) (hF : 1 ≤ F) (x : Fp E F) :
    ieeeRange E (flopocoToIeee x).datum = (flopocoToIeee x).datum := by
  rw [flopocoToIeee_datum hE hF, ieeeRange_idem]

/-- **C83.** The product and quotient modules on IEEE words are right in every format, for every pair of words (denormals being zeros). -/
theorem C83_ieee_mul_div_modules {E F : ℕ} (hE : 2 ≤ E) (hF : 1 ≤ F) :
    IeeeModuleRight E F exactMul (Modules.ieeeMul E F) ∧ IeeeModuleRight E F exactDiv (Modules.ieeeDiv E F) := by
  constructor
  · refine ieee_module_right (by omega) hF exactMul (fun x y => IeeeOps.mul x y) fun x y => ?_
    cases h : mulSpecial (ieeeRange E x.datum) (ieeeRange E y.datum) with
    | some d =>
      obtain ⟨r, hr, rfl⟩ := C29_mul_special hE hF x y d h
      refine ⟨r, hr, ?_⟩
      rw [exactMul, h, Option.getD_some]
      apply ieeeDelivers_special
      intro w hw
      rw [hw] at h
      revert h
      cases ieeeRange E x.datum <;> cases ieeeRange E y.datum <;> simp [mulSpecial]
    | none =>
      obtain ⟨vp, vq, h1, h2⟩ : ∃ p q, ieeeRange E x.datum = .num p ∧ ieeeRange E y.datum = .num q := by
        revert h
        cases ieeeRange E x.datum <;> cases ieeeRange E y.datum <;> simp [mulSpecial]
      obtain ⟨r, hr, hd⟩ := C29_mul hE hF x y vp vq h1 h2
      refine ⟨r, hr, ?_⟩
      rw [h1, h2]
      show if vp * vq = 0 then _ else _
      rw [if_neg (mul_ne_zero (SoftFmt.ieeeRange_num_ne h1) (SoftFmt.ieeeRange_num_ne h2))]
      exact hd
  · refine ieee_module_right (by omega) hF exactDiv (fun x y => some (IeeeOps.div x y)) fun x y => ?_
    refine ⟨_, rfl, ?_⟩
    cases h : divSpecial (ieeeRange E x.datum) (ieeeRange E y.datum) with
    | some d =>
      rw [exactDiv, h, Option.getD_some, C29_div_special hE hF x y d h]
      apply ieeeDelivers_special
      intro w hw
      rw [hw] at h
      revert h
      cases ieeeRange E x.datum <;> cases ieeeRange E y.datum <;> simp [divSpecial]
    | none =>
      obtain ⟨vp, vq, h1, h2⟩ : ∃ p q, ieeeRange E x.datum = .num p ∧ ieeeRange E y.datum = .num q := by
        revert h
        cases ieeeRange E x.datum <;> cases ieeeRange E y.datum <;> simp [divSpecial]
      have hd := C29_div hE hF x y vp vq h1 h2
      rw [h1, h2]
      show if vp / vq = 0 then _ else _
      rw [if_neg (div_ne_zero (SoftFmt.ieeeRange_num_ne h1) (SoftFmt.ieeeRange_num_ne h2))]
      exact hd

/-- **C83.** The sum module on IEEE words is right for every pair of words in the formats of the dual-path adder. Missing: the formats
in which that adder asserts or cancels wrongly. -/
theorem C83_ieee_add_module_partial {E F : ℕ} (hE : 2 ≤ E) (hF : 1 ≤ F) (hok : DualFormat E F) (hfmt : F ≤ 2 ^ (E + 1)) :
    IeeeModuleRight E F exactAdd (Modules.ieeeAdd E F) := by
  refine ieee_module_right (by omega) hF exactAdd (fun x y => IeeeOps.add x y) fun x y => ?_
  obtain ⟨-, s, -, -, hs, -, -, hd, -⟩ := ieee_ops hE hF hok hfmt x y
  refine ⟨s, hs, ?_⟩
  have : ieeeRange E s.datum = s.datum := by
    change IeeeOps.add x y = some s at hs
    unfold IeeeOps.add at hs
    obtain ⟨t, -, rfl⟩ := Option.map_eq_some_iff.mp hs
    exact ieee_datum_idem hE hF t
  rwa [this] at hd

/-! ## The formats that are generated -/

/-- **C83.** Of the formats that are generated (4 to 13 exponent bits, 4 to 112 fraction bits) the single-path sum module is right for
every pair of words exactly in these. In particular it is wrong in (5,10), (8,23) and (11,52). -/
theorem C83_generated_add_single_iff {E F : ℕ} (hE : 4 ≤ E) (hE' : E ≤ 13) (hF : 4 ≤ F) (hF' : F ≤ 112) :
    ModuleRight E F E F E F exactAdd (Modules.addSingle E F) ↔
      (E = 4 ∧ 6 ≤ F ∧ F ≤ 12) ∨ (E = 5 ∧ 14 ≤ F ∧ F ≤ 28) ∨ (E = 6 ∧ 30 ≤ F ∧ F ≤ 60) ∨ (E = 7 ∧ 62 ≤ F) := by
  rw [C83_add_single_module_iff (by omega) (by omega)]
  interval_cases E <;> norm_num <;> omega

/-- With four exponent bits and more than 61 fraction bits, some sum of two numbers that underflows is not returned as a zero. -/
theorem dual_wide_wrong : ∀ F < 113, 62 ≤ F → ∃ e < 16,
    (AddDual.addSame (Fp.mk4 4 F 1 0 e 1) (Fp.mk4 4 F 1 1 e 0)).map Fp.flags ≠ some 0 := by
  decide +kernel

/-- **C83.** Of the formats that are generated the dual-path sum module is right for every pair of words exactly in these: with four
exponent bits up to 32 fraction bits, with five up to 64, and with seven or more all but 61 fraction bits. -/
theorem C83_generated_add_dual_iff {E F : ℕ} (hE : 4 ≤ E) (hE' : E ≤ 13) (hF : 4 ≤ F) (hF' : F ≤ 112) :
    ModuleRight E F E F E F exactAdd (Modules.addDual E F) ↔
      (E = 4 → F ≤ 32) ∧ (E = 5 → F ≤ 64) ∧ ¬ (F = 61 ∧ 7 ≤ E) := by
  by_cases hw : E = 4 ∧ 62 ≤ F
  · obtain ⟨rfl, h62⟩ := hw
    refine ⟨fun h => ?_, fun h => by omega⟩
    exfalso
    obtain ⟨e, he, hne⟩ := dual_wide_wrong F (by omega) h62
    have h' := (module_right (by omega) (by omega) (by omega) (by omega) (by omega) (by omega) exactAdd
      (fun x y : Fp 4 F => AddDual.addSame x y)).mp h
    obtain ⟨r, hr, hd⟩ := h' (Fp.mk4 4 F 1 0 e 1) (Fp.mk4 4 F 1 1 e 0)
    have hF2 : 2 ≤ 2 ^ F := by
      calc 2 = 2 ^ 1 := rfl
        _ ≤ 2 ^ F := Nat.pow_le_pow_right (by norm_num) (by omega)
    have hx : (Fp.mk4 4 F 1 0 e 1).datum = .num (((2 ^ F + 1 : ℕ) : ℚ) * 2 ^ ((e : ℤ) - bias 4 - F)) := by
      rw [Fp.mk4_datum (by norm_num) (by norm_num) (by omega) (by omega) (by omega) (by omega)]; simp [denote]
    have hy : (Fp.mk4 4 F 1 1 e 0).datum = .num (-(((2 ^ F : ℕ) : ℚ) * 2 ^ ((e : ℤ) - bias 4 - F))) := by
      rw [Fp.mk4_datum (by norm_num) (by norm_num) (by omega) (by omega) (by omega) (by omega)]; simp [denote]
    rw [delivers_addsTo hx hy] at hd
    have hsum : ((2 ^ F + 1 : ℕ) : ℚ) * 2 ^ ((e : ℤ) - bias 4 - F) + -(((2 ^ F : ℕ) : ℚ) * 2 ^ ((e : ℤ) - bias 4 - F)) =
        2 ^ ((e : ℤ) - bias 4 - F) := by push_cast; ring
    have hpos : (0 : ℚ) < 2 ^ ((e : ℤ) - bias 4 - F) := by positivity
    unfold AddsTo at hd
    rw [hsum, if_neg hpos.ne'] at hd
    have hz := rounded_underflow hd (by
      rw [abs_of_pos hpos]
      exact zpow_lt_zpow_right₀ (by norm_num) (by omega))
    apply hne
    change AddDual.addSame _ _ = some r at hr
    rw [hr]
    rcases flags_cases r with hf | hf | hf | hf
    · rw [Option.map_some, hf]
    · rw [datum_normal r hf] at hz; exact Datum.noConfusion hz
    · rw [datum_flags2 r hf] at hz; exact Datum.noConfusion hz
    · rw [datum_flags3 r hf] at hz; exact Datum.noConfusion hz
  · have hp : 2 ^ 7 ≤ 2 ^ (E + 2) ∨ E = 4 := by
      rcases Nat.lt_or_ge 4 E with h | h
      · exact Or.inl (Nat.pow_le_pow_right (by norm_num) (by omega))
      · exact Or.inr (by omega)
    have hfit : F + 2 < 2 ^ (E + 2) := by
      rcases hp with h | h
      · omega
      · rw [h]; omega
    rw [C83_add_dual_module_iff (by omega) (by omega) hfit]
    have hdual : DualFormat E F ↔ ¬ (F = 61 ∧ 7 ≤ E) := by
      constructor
      · rintro h ⟨rfl, h7⟩
        have := h 6 (by norm_num)
        omega
      · intro h k hk
        by_contra hc
        push Not at hc
        have hk7 : k < 7 := by
          by_contra h7
          have : 2 ^ 7 ≤ 2 ^ k := Nat.pow_le_pow_right (by norm_num) (by omega)
          omega
        interval_cases k <;> omega
    rw [hdual]
    have hfm : F ≤ 2 ^ (E + 1) ↔ (E = 4 → F ≤ 32) ∧ (E = 5 → F ≤ 64) := by
      interval_cases E <;> norm_num <;> omega
    rw [hfm]
    tauto

/-- The module v4 in every generated format: either it fails an assertion, or a tie that has to be rounded to the even
neighbour goes to the odd one. -/
theorem v4_wrong_table : ∀ e < 10, ∀ f < 109,
    if f + 4 + 3 < 2 ^ (e + 4) ∧ f + 4 + 3 ≠ 2 ^ (e + 4 - 1) then
      AddSingle.addSame (Fp.mk4 (e + 4) (f + 4) 1 0 (f + 5) 0) (Fp.mk4 (e + 4) (f + 4) 1 0 0 0) =
        some (Fp.mk4 (e + 4) (f + 4) 1 0 (f + 5) 0) ∧
      AddSingle.addSameV4 (Fp.mk4 (e + 4) (f + 4) 1 0 (f + 5) 0) (Fp.mk4 (e + 4) (f + 4) 1 0 0 0) =
        some (Fp.mk4 (e + 4) (f + 4) 1 0 (f + 5) 1)
    else AddSingle.addSameV4 (Fp.mk4 (e + 4) (f + 4) 1 0 (ones (e + 4)) 0) (Fp.mk4 (e + 4) (f + 4) 1 0 0 0) = none := by
  decide +kernel

/-- **C83, a part that fails.** The sum module v4 is wrong in every format that is generated. -/
theorem C83_generated_add_single_v4_wrong {E F : ℕ} (hE : 4 ≤ E) (hE' : E ≤ 13) (hF : 4 ≤ F) (hF' : F ≤ 112) :
    ¬ ModuleRight E F E F E F exactAdd (Modules.addSingleFour E F) := by
  intro h
  have h' := (module_right (by omega) (by omega) (by omega) (by omega) (by omega) (by omega) exactAdd
    (fun x y : Fp E F => AddSingle.addSameV4 x y)).mp h
  have ht := v4_wrong_table (E - 4) (by omega) (F - 4) (by omega)
  rw [show E - 4 + 4 = E by omega, show F - 4 + 4 = F by omega] at ht
  rw [show F - 4 + 5 = F + 1 by omega] at ht
  split at ht
  · rename_i hc
    have hlt : F + 1 < 2 ^ E := by omega
    have hF2 : 2 ≤ 2 ^ F := by
      calc 2 = 2 ^ 1 := rfl
        _ ≤ 2 ^ F := Nat.pow_le_pow_right (by norm_num) (by omega)
    obtain ⟨r, hr, hd⟩ := h' (Fp.mk4 E F 1 0 (F + 1) 0) (Fp.mk4 E F 1 0 0 0)
    rw [ht.2] at hr
    have hx : ∀ e f : ℕ, e < 2 ^ E → f < 2 ^ F → (Fp.mk4 E F 1 0 e f).datum = .num (((2 ^ F + f : ℕ) : ℚ) * 2 ^ ((e : ℤ) - bias E - F)) := by
      intro e f he hf
      rw [Fp.mk4_datum (by norm_num) (by norm_num) he hf (by omega) (by omega)]; simp [denote]
    have d1 := hx (F + 1) 0 hlt (by omega)
    have d2 := hx 0 0 (by omega) (by omega)
    have d3 := hx (F + 1) 1 hlt (by omega)
    obtain ⟨s, hs, hr2, -⟩ := single_addsTo (AddSingle.lzoc_normalises F) (by omega) (by omega) hc.1 hc.2
      (AddSingle.addSame_orders (by omega) (by omega) (Fp.mk4 E F 1 0 (F + 1) 0) (Fp.mk4 E F 1 0 0 0)) d1 d2
    have hnc : ∀ (a b : ℚ), 0 < a → 0 < b → ¬ ClampCase F a b := fun a b ha hb hcl => absurd hcl.1 (not_lt.mpr (mul_pos ha hb).le)
    have hok := hr2 fun _ => ⟨hnc _ _ (by positivity) (by positivity), hnc _ _ (by positivity) (by positivity)⟩
    rw [ht.1] at hs
    rw [← Option.some.inj hs] at hok
    rw [← Option.some.inj hr, delivers_addsTo d1 d2] at hd
    have := addsTo_unique hok hd
    rw [d1, d3] at this
    have h2 := mul_right_cancel₀ (by positivity) (Datum.num.inj this)
    have h3 : 2 ^ F + 0 = 2 ^ F + 1 := by exact_mod_cast h2
    omega
  · obtain ⟨r, hr, -⟩ := h' (Fp.mk4 E F 1 0 (ones E) 0) (Fp.mk4 E F 1 0 0 0)
    change AddSingle.addSameV4 _ _ = some r at hr
    rw [ht] at hr
    cases hr

/-- The generated dual-path modules in the usual formats are right, the single-path ones are not. -/
example : ModuleRight 8 23 8 23 8 23 exactAdd (Modules.addDual 8 23) ∧ ModuleRight 11 52 11 52 11 52 exactAdd (Modules.addDual 11 52) ∧
    ¬ ModuleRight 8 23 8 23 8 23 exactAdd (Modules.addSingle 8 23) ∧ ¬ ModuleRight 8 61 8 61 8 61 exactAdd (Modules.addDual 8 61) ∧
    ModuleRight 6 30 6 30 6 30 exactAdd (Modules.addSingle 6 30) := by
  refine ⟨?_, ?_, ?_, ?_, ?_⟩
  · rw [C83_generated_add_dual_iff] <;> norm_num
  · rw [C83_generated_add_dual_iff] <;> norm_num
  · rw [C83_generated_add_single_iff] <;> norm_num
  · rw [C83_generated_add_dual_iff] <;> norm_num
  · rw [C83_generated_add_single_iff] <;> norm_num

end Thls
