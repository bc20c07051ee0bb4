import Verif.Proofs.DotRef
import Verif.Props.UpLoop

/-! # C75: the references of the dot products, and their tests -/

namespace Thls
open Spec

/-! ## `dot2_pos_rndd` -/

/-- **C75.** For positive numbers the reference of `dot2_pos_rndd` returns the exact `a0*b0 + a1*b1` rounded down once: in MPFR if
the format has at least 12 fraction bits, and otherwise in `double` arithmetic, if the format has at most 10 exponent bits. -/
theorem C75_dot2_reference_partial {E F : ℕ} (hE : 1 ≤ E) (hF : 1 ≤ F) (hd : 12 ≤ F ∨ E ≤ 10) (a0 a1 b0 b1 : Fp E F) (u0 u1 v0 v1 : ℚ)
    (ha0 : a0.datum = .num u0) (ha1 : a1.datum = .num u1) (hb0 : b0.datum = .num v0) (hb1 : b1.datum = .num v1)
    (pa0 : 0 < u0) (pa1 : 0 < u1) (pb0 : 0 < v0) (pb1 : 0 < v1) :
    ∃ r, dot2Ref a0 a1 b0 b1 = some r ∧ RoundedDown E F (u0 * v0 + u1 * v1) r.datum := by
  unfold dot2Ref
  by_cases c : (F + 1) * 4 < 52
  · rw [if_pos c]
    exact dot2RefSmall_correct hE (by omega) hF (by omega) a0 a1 b0 b1 _ _ _ _ ha0 ha1 hb0 hb1 pa0 pa1 pb0 pb1
  · rw [if_neg c]
    exact dot2RefLarge_correct hE hF a0 a1 b0 b1 _ _ _ _ ha0 ha1 hb0 hb1 pa0 pa1 pb0 pb1

/-- A value beyond the range of `double`. -/
theorem toDoubleApprox_over {E F : ℕ} (x : Fp E F) (hx : x.datum = .num (2 ^ (1024 : ℤ))) : (toDoubleApprox x).datum = .inf false := by
  obtain ⟨s, m, e, h1, h2⟩ := toMpfr_pos hx
  have hok := toMpfr_ok x
  rw [h1] at hok
  unfold toDoubleApprox
  rw [h1]
  have h := dblRound_rounded (k := m) hok s e
  have hv : (if s = true then (-1 : ℚ) else 1) * ((m : ℚ) * 2 ^ e) = 2 ^ (1024 : ℤ) := h2
  rw [hv] at h
  obtain ⟨c, ⟨k, l, hn, hc⟩, -, hd⟩ := rounded64_pos (two_zpow_pos _) h
  have hge := nearest64_ge hn (m' := 1) (e' := 1024) ⟨by norm_num, by norm_num⟩ (by norm_num)
  have h1c : (2 : ℚ) ^ (1024 : ℤ) ≤ c := by rw [hc]; simpa using hge
  show (dblRound s m e).datum = _
  rw [hd (lt_of_lt_of_le (two_zpow_pos _) h1c).ne', if_pos h1c]

theorem one_lt_big : (1 : ℚ) < 2 ^ (1024 : ℤ) := one_lt_zpow₀ (by norm_num) (by norm_num)

/-- A power of two and a little more, rounded down. -/
theorem roundDown_pow {F : ℕ} {T : ℤ} (hT : 1 ≤ T - F) : RoundDown (F + 1) (2 ^ T * 1 + 1 * 1) (2 ^ F) (T - F) := by
  have h1 : ((2 ^ F : ℕ) : ℚ) * 2 ^ (T - F) = 2 ^ T := by
    push_cast
    rw [← zpow_natCast, ← zpow_add₀ (by norm_num)]
    congr 1; ring
  have h2 : (2 : ℚ) ^ (1 : ℤ) ≤ 2 ^ (T - F) := zpow_le_zpow_right₀ (by norm_num) hT
  rw [zpow_one] at h2
  have := round_down_int (F := F) (N := 2 ^ F) (k := 0) (g := T - F) (q := 2 ^ T * 1 + 1 * 1) (by simp) (Nat.pow_lt_pow_right (by norm_num) (by omega))
    (by rw [h1]; linarith) (by rw [add_mul, h1]; linarith)
  simpa using this

/-- **C75.** With 11 exponent bits or more and at most 11 fraction bits the reference is wrong: for `2^1024*1 + 1*1` it returns
infinity, although the result is a number of the format, which `dot2_pos_rndd` returns. -/
theorem C75_dot2_reference_wrong {E F : ℕ} (hE : 11 ≤ E) (hF : 1 ≤ F) (hF' : F ≤ 11) :
    ∃ a one r r' : Fp E F, a.datum = .num (2 ^ (1024 : ℤ)) ∧ one.datum = .num 1 ∧
      dot2Ref a one one one = some r ∧ r.datum = .inf false ∧ dot2 a one one one = some r' ∧ r'.datum = .num (2 ^ (1024 : ℤ)) := by
  obtain ⟨w1, w2⟩ := bias_double (E := E) (by omega)
  have h11 : (2 : ℤ) ^ 11 ≤ 2 ^ E := pow_le_pow_right₀ (by norm_num) hE
  norm_num at h11
  have hbn : (biasN E : ℤ) = bias E := pow_bias
  have hlt : 1024 + biasN E < 2 ^ E := by
    have : ((1024 + biasN E : ℕ) : ℤ) < ((2 ^ E : ℕ) : ℤ) := by push_cast; omega
    exact_mod_cast this
  have hone := (C46_limits_values_partial (E := E) (F := F) (by omega) hF).2.2.2.2.2.2.2.2.2.2.1
  have ha : (Fp.mk4 E F 1 0 (1024 + biasN E) 0).datum = .num (2 ^ (1024 : ℤ)) := by
    rw [mk4_num (by omega) hF hlt (by positivity)]
    norm_num [hbn]
  obtain ⟨r', hr', hd'⟩ := C32_dot2 (by omega) hF _ _ _ _ _ _ _ _ ha hone hone hone (two_zpow_pos _) one_pos one_pos one_pos
  have hinf := (C46_limits_values_partial (E := E) (F := F) (by omega) hF).2.2.2.2.2.1
  refine ⟨_, _, Limits.infinity E F, r', ha, hone, ?_, hinf, hr', ?_⟩
  · have ex : ∃ s m e, dblValue (toDoubleApprox (Limits.posOne E F)) = .num s m e := by
      obtain ⟨s, m, e, h1, h2⟩ := toMpfr_pos hone
      have hok := toMpfr_ok (Limits.posOne E F)
      rw [h1] at hok
      have h := dblRound_rounded (k := m) hok s e
      have hv : (if s = true then (-1 : ℚ) else 1) * ((m : ℚ) * 2 ^ e) = 1 := h2
      rw [hv] at h
      have hd1 := rounded64_self (m' := 1) (e' := 0) one_ne_zero ⟨by norm_num, by norm_num⟩ (by norm_num) (by rw [abs_one]; exact one_lt_big) h
      have : (toDoubleApprox (Limits.posOne E F)).datum = .num 1 := by
        unfold toDoubleApprox; rw [h1]; exact hd1
      obtain ⟨m, e, h, -⟩ := dblValue_pos this one_pos
      exact ⟨_, _, _, h⟩
    obtain ⟨s, m, e, h1⟩ := ex
    have h0 := dblValue_inf (toDoubleApprox_over _ ha)
    have hI : dblValue (IeeeLimits.infinity 11 52) = .inf false := by decide +kernel
    have hm0 : dblMul (toDoubleApprox (Fp.mk4 E F 1 0 (1024 + biasN E) 0)) (toDoubleApprox (Limits.posOne E F)) = dblOf (.inf (false != s)) := by
      unfold dblMul; rw [h0, h1]; rfl
    have hs : s = false := by
      obtain ⟨s', m', e', g1, g2⟩ := toMpfr_pos hone
      have hok := toMpfr_ok (Limits.posOne E F)
      rw [g1] at hok
      have h := dblRound_rounded (k := m') hok s' e'
      have hv : (if s' = true then (-1 : ℚ) else 1) * ((m' : ℚ) * 2 ^ e') = 1 := g2
      rw [hv] at h
      have hd1 := rounded64_self (m' := 1) (e' := 0) one_ne_zero ⟨by norm_num, by norm_num⟩ (by norm_num) (by rw [abs_one]; exact one_lt_big) h
      have : (toDoubleApprox (Limits.posOne E F)).datum = .num 1 := by
        unfold toDoubleApprox; rw [g1]; exact hd1
      obtain ⟨m2, e2, h3, -⟩ := dblValue_pos this one_pos
      rw [h3] at h1
      injection h1 with h1
      exact h1.symm
    subst hs
    have hd1 : ∃ u, (toDoubleApprox (Limits.posOne E F)).datum = .num u := by
      rw [← dblValue_datum, h1]; exact ⟨_, rfl⟩
    have hm1 : ∃ v, dblValue (dblMul (toDoubleApprox (Limits.posOne E F)) (toDoubleApprox (Limits.posOne E F))) = v ∧ v ≠ .nan ∧ v ≠ .inf true := by
      refine ⟨_, rfl, ?_⟩
      have hok := dblValue_ok (toDoubleApprox (Limits.posOne E F))
      rw [h1] at hok
      have hh : dblMul (toDoubleApprox (Limits.posOne E F)) (toDoubleApprox (Limits.posOne E F)) = dblRound false (m * m) (e + e) := by
        unfold dblMul; rw [h1]; rfl
      have h := dblRound_rounded (k := m * m) (Nat.mul_pos hok hok) false (e + e)
      simp only [Bool.false_eq_true, if_false, one_mul] at h
      obtain ⟨k, l, -, hd⟩ := h
      have hneg : ¬ (((m * m : ℕ) : ℚ) * 2 ^ (e + e) < 0) := not_lt.2 (mul_nonneg (Nat.cast_nonneg _) (two_zpow_pos _).le)
      rw [← hh] at hd
      simp only [hneg, decide_false] at hd
      constructor
      · intro hc
        have : (dblMul (toDoubleApprox (Limits.posOne E F)) (toDoubleApprox (Limits.posOne E F))).datum = .nan := by
          rw [← dblValue_datum, hc]; rfl
        rw [this] at hd
        split_ifs at hd
      · intro hc
        have : (dblMul (toDoubleApprox (Limits.posOne E F)) (toDoubleApprox (Limits.posOne E F))).datum = .inf true := by
          rw [← dblValue_datum, hc]; rfl
        rw [this] at hd
        split_ifs at hd
        simp at hd
    obtain ⟨v, hv, hv1, hv2⟩ := hm1
    have hsum : dblAdd (dblOf (.inf (false != false))) (dblMul (toDoubleApprox (Limits.posOne E F)) (toDoubleApprox (Limits.posOne E F))) =
        IeeeLimits.infinity 11 52 := by
      have hI' : dblValue (dblOf (.inf (false != false))) = .inf false := hI
      unfold dblAdd
      rw [hI', hv]
      cases v with
      | nan => exact absurd rfl hv1
      | inf s => cases s with
        | true => exact absurd rfl hv2
        | false => rfl
      | zero s => rfl
      | num s m e => rfl
    unfold dot2Ref dot2RefSmall
    rw [if_pos (by omega), if_neg (by omega)]
    simp only [hm0, hsum, hI]
    rfl
  · obtain ⟨k, l, hk, hd⟩ := hd'
    obtain ⟨T, hT⟩ : ∃ T : ℤ, T = 1024 := ⟨_, rfl⟩
    rw [← hT] at hk ⊢
    obtain ⟨rfl, rfl⟩ := roundDown_unique (p := F + 1) (by omega) hk (roundDown_pow (F := F) (T := T) (by omega))
    rw [hd, rangeCheck, if_neg (by omega), if_neg (by omega)]
    simp only [Bool.false_eq_true, if_false, one_mul]
    push_cast
    rw [← zpow_natCast, ← zpow_add₀ (by norm_num)]
    congr 2; ring

/-- **C75.** In that domain the test of `dot2_pos_rndd` passes, whatever positive operands are drawn. -/
theorem C75_test_dot2_partial {E F : ℕ} (hE : 1 ≤ E) (hF : 1 ≤ F) (hd : 12 ≤ F ∨ E ≤ 10) (args : List (Fin 4 → Fp E F))
    (hp : ∀ a ∈ args, ∀ i, ∃ v, (a i).datum = .num v ∧ 0 < v) : testDot2 args = some true := by
  unfold testDot2
  rw [runAll_true]
  intro a ha
  obtain ⟨u0, h0, p0⟩ := hp a ha 0
  obtain ⟨u1, h1, p1⟩ := hp a ha 1
  obtain ⟨v0, g0, q0⟩ := hp a ha 2
  obtain ⟨v1, g1, q1⟩ := hp a ha 3
  obtain ⟨r, hr, hr'⟩ := C75_dot2_reference_partial hE hF hd _ _ _ _ _ _ _ _ h0 h1 g0 g1 p0 p1 q0 q1
  obtain ⟨s, hs, hs'⟩ := C32_dot2 hE hF _ _ _ _ _ _ _ _ h0 h1 g0 g1 p0 p1 q0 q1
  rw [testDot2Body, hr, hs]
  simp only [Option.bind_some, Option.map_some]
  rw [(C07_equals_iff_same_datum hE hF r s).mpr (roundedDown_unique hr' hs')]

/-- **C75.** The exhaustive test of `dot2_pos_rndd` cannot pass: in that domain it reports an error at its first operands, where the
reference and the result agree. -/
theorem C75_exhaust_dot2_wrong {E F : ℕ} (hE : 1 ≤ E) (hF : 1 ≤ F) (hd : 12 ≤ F ∨ E ≤ 10) {n : ℕ} (hn : 1 ≤ n) :
    exhaustDot2 E F n = some false ∧ testDot2 [fun _ => Limits.min E F] = some true := by
  have hm := (C46_limits_values_partial (E := E) (F := F) hE hF).1
  have hmp : (0 : ℚ) < 2 ^ (-bias E) := two_zpow_pos _
  refine ⟨?_, C75_test_dot2_partial hE hF hd _ fun a ha i => ?_⟩
  · obtain ⟨k, rfl⟩ : ∃ k, n = k + 1 := ⟨n - 1, by omega⟩
    have hnorm : (Limits.min E F).isNormal = true := by
      have := dotArg_of hm hmp
      unfold dotArg at this
      simp only [Bool.and_eq_true] at this
      exact this.2
    have step : ∀ body : Fp E F → Option Bool, body (Limits.min E F) = some false → forAll (k + 1) body = some false := by
      intro body hb
      rw [forAll, forUp, if_pos hnorm, hb]; rfl
    unfold exhaustDot2
    refine step _ (step _ (step _ (step _ ?_)))
    obtain ⟨r, hr, hr'⟩ := C75_dot2_reference_partial hE hF hd _ _ _ _ _ _ _ _ hm hm hm hm hmp hmp hmp hmp
    obtain ⟨s, hs, hs'⟩ := C32_dot2 hE hF _ _ _ _ _ _ _ _ hm hm hm hm hmp hmp hmp hmp
    rw [hr, hs]
    simp only [Option.bind_some, Option.map_some]
    rw [(C07_equals_iff_same_datum hE hF r s).mpr (roundedDown_unique hr' hs')]
    rfl
  · simp only [List.mem_singleton] at ha
    subst ha
    exact ⟨_, hm, hmp⟩

example : ∃ r, dot2Ref (Fp.mk4 8 7 1 0 127 5) (Fp.mk4 8 7 1 0 120 9) (Fp.mk4 8 7 1 0 131 77) (Fp.mk4 8 7 1 0 127 127) = some r ∧
    RoundedDown 8 7 ((1 + ((5 : ℕ) : ℚ) / 2 ^ 7) * 2 ^ (((127 : ℕ) : ℤ) - bias 8) * ((1 + ((77 : ℕ) : ℚ) / 2 ^ 7) * 2 ^ (((131 : ℕ) : ℤ) - bias 8)) +
      (1 + ((9 : ℕ) : ℚ) / 2 ^ 7) * 2 ^ (((120 : ℕ) : ℤ) - bias 8) * ((1 + ((127 : ℕ) : ℚ) / 2 ^ 7) * 2 ^ (((127 : ℕ) : ℤ) - bias 8))) r.datum :=
  C75_dot2_reference_partial (by norm_num) (by norm_num) (Or.inr (by norm_num)) _ _ _ _ _ _ _ _
    (mk4_num (by norm_num) (by norm_num) (by norm_num) (by norm_num)) (mk4_num (by norm_num) (by norm_num) (by norm_num) (by norm_num))
    (mk4_num (by norm_num) (by norm_num) (by norm_num) (by norm_num)) (mk4_num (by norm_num) (by norm_num) (by norm_num) (by norm_num))
    (by positivity) (by positivity) (by positivity) (by positivity)

/-! ## `dot4_pos_rndd` -/

/-- **C75.** With at most 5 fraction bits and 10 exponent bits the reference of `dot4_pos_rndd` is computed in `double` arithmetic, and
it is the exact sum rounded down once. -/
theorem C75_dot4_reference_small {E F : ℕ} (hE : 1 ≤ E) (hE' : E ≤ 10) (hF : 1 ≤ F) (hF' : F ≤ 5) (a b : Fin 4 → Fp E F) (u v : Fin 4 → ℚ)
    (ha : ∀ i, (a i).datum = .num (u i)) (hb : ∀ i, (b i).datum = .num (v i)) (pa : ∀ i, 0 < u i) (pb : ∀ i, 0 < v i) :
    ∃ r, dot4Ref (a 0) (a 1) (a 2) (a 3) (b 0) (b 1) (b 2) (b 3) = some r ∧ RoundedDown E F (∑ i, u i * v i) r.datum := by
  unfold dot4Ref
  rw [if_pos (by omega)]
  exact dot4RefSmall_correct hE hE' hF hF' a b u v ha hb pa pb

/-- **C75.** With 6 fraction bits or more the reference of `dot4_pos_rndd` fails an assertion exactly when one of the three partial sums does
not fit in `12*(F+2)` bits, and is otherwise the exact sum rounded down once. -/
theorem C75_dot4_reference_large {E F : ℕ} (hE : 1 ≤ E) (hF : 6 ≤ F) (a b : Fin 4 → Fp E F) (u v : Fin 4 → ℚ)
    (ha : ∀ i, (a i).datum = .num (u i)) (hb : ∀ i, (b i).datum = .num (v i)) (pa : ∀ i, 0 < u i) (pb : ∀ i, 0 < v i) :
    ((∃ r, dot4Ref (a 0) (a 1) (a 2) (a 3) (b 0) (b 1) (b 2) (b 3) = some r) ↔
      FitsBits (12 * (F + 2)) (u 0 * v 0 + u 1 * v 1) ∧ FitsBits (12 * (F + 2)) (u 0 * v 0 + u 1 * v 1 + u 2 * v 2) ∧
        FitsBits (12 * (F + 2)) (u 0 * v 0 + u 1 * v 1 + u 2 * v 2 + u 3 * v 3)) ∧
    ∀ r, dot4Ref (a 0) (a 1) (a 2) (a 3) (b 0) (b 1) (b 2) (b 3) = some r → RoundedDown E F (∑ i, u i * v i) r.datum := by
  obtain ⟨h1, h2⟩ := dot4RefLarge_spec hE (by omega) a b u v ha hb pa pb
  unfold dot4Ref
  rw [if_neg (by omega)]
  by_cases c : FitsBits (12 * (F + 2)) (u 0 * v 0 + u 1 * v 1) ∧ FitsBits (12 * (F + 2)) (u 0 * v 0 + u 1 * v 1 + u 2 * v 2) ∧
      FitsBits (12 * (F + 2)) (u 0 * v 0 + u 1 * v 1 + u 2 * v 2 + u 3 * v 3)
  · obtain ⟨r, hr, hd⟩ := h1 c
    refine ⟨⟨fun _ => c, fun _ => ⟨r, hr⟩⟩, fun s hs => ?_⟩
    rw [hr] at hs
    rw [← Option.some.inj hs]
    exact hd
  · rw [h2 c]
    exact ⟨⟨fun h => (by obtain ⟨r, hr⟩ := h; cases hr), fun h => absurd h c⟩, fun s hs => by cases hs⟩

/-- **C75.** It does not fail if the exponents of the products lie within `10*F + 20` of each other. -/
theorem C75_dot4_reference_partial {E F : ℕ} (hE : 1 ≤ E) (hF : 6 ≤ F) (a b : Fin 4 → Fp E F) (u v : Fin 4 → ℚ)
    (ha : ∀ i, (a i).datum = .num (u i)) (hb : ∀ i, (b i).datum = .num (v i)) (pa : ∀ i, 0 < u i) (pb : ∀ i, 0 < v i)
    (hs : ∀ i j, (a i).exp + (b i).exp ≤ (a j).exp + (b j).exp + (10 * F + 20)) :
    ∃ r, dot4Ref (a 0) (a 1) (a 2) (a 3) (b 0) (b 1) (b 2) (b 3) = some r ∧ RoundedDown E F (∑ i, u i * v i) r.datum := by
  obtain ⟨h1, h2⟩ := C75_dot4_reference_large hE hF a b u v ha hb pa pb
  have hF1 : 1 ≤ F := by omega
  obtain ⟨j, -, hj⟩ := Finset.exists_min_image (Finset.univ : Finset (Fin 4)) (fun i => dotExp (a i) (b i)) ⟨0, Finset.mem_univ _⟩
  have key : ∀ i, ∃ n : ℕ, n < 2 ^ (12 * F + 22) ∧ u i * v i = (n : ℚ) * 2 ^ ((dotExp (a j) (b j) : ℤ) - 2 * bias E - 2 * F) := by
    intro i
    have hle := hj i (Finset.mem_univ _)
    refine ⟨dotFrac (a i) (b i) * 2 ^ (dotExp (a i) (b i) - dotExp (a j) (b j)), ?_, ?_⟩
    · have h3 := dotFrac_lt (W := 2 * F + 2) hF1 le_rfl (a i) (b i)
      have h4 := hs i j
      rw [← (dotExp_eq hE (a i) (b i)).1, ← (dotExp_eq hE (a j) (b j)).1] at h4
      have h5 : 2 ^ (dotExp (a i) (b i) - dotExp (a j) (b j)) ≤ 2 ^ (10 * F + 20) := Nat.pow_le_pow_right (by norm_num) (by omega)
      calc dotFrac (a i) (b i) * 2 ^ (dotExp (a i) (b i) - dotExp (a j) (b j)) ≤ dotFrac (a i) (b i) * 2 ^ (10 * F + 20) :=
            Nat.mul_le_mul_left _ h5
        _ < 2 ^ (2 * F + 2) * 2 ^ (10 * F + 20) := Nat.mul_lt_mul_of_pos_right h3 (by positivity)
        _ = 2 ^ (12 * F + 22) := by rw [← pow_add]; congr 1; ring
    · rw [dot_value hE (ha i) (hb i) (pa i) (pb i)]
      push_cast
      rw [mul_assoc, ← zpow_natCast, ← zpow_add₀ (by norm_num)]
      congr 2
      rw [Nat.cast_sub hle]; ring
  choose n hn hv using key
  have hW : 2 ^ (12 * (F + 2)) = 4 * 2 ^ (12 * F + 22) := by
    rw [show 12 * (F + 2) = 2 + (12 * F + 22) by ring, pow_add]; norm_num
  have n0 := hn 0
  have n1 := hn 1
  have n2 := hn 2
  have n3 := hn 3
  obtain ⟨r, hr⟩ := h1.mpr ⟨⟨n 0 + n 1, _, by omega, by rw [hv, hv]; push_cast; ring⟩,
    ⟨n 0 + n 1 + n 2, _, by omega, by rw [hv, hv, hv]; push_cast; ring⟩,
    ⟨n 0 + n 1 + n 2 + n 3, _, by omega, by rw [hv, hv, hv, hv]; push_cast; ring⟩⟩
  exact ⟨r, hr, h2 r hr⟩

/-- **C75.** In every format with `2*(2^E-1) ≥ 12*F + 24`, such as 8 exponent and 23 fraction bits, the reference of `dot4_pos_rndd` fails an
assertion for some positive numbers. -/
theorem C75_dot4_reference_wrong {E F : ℕ} (hE : 1 ≤ E) (hF : 6 ≤ F) (hw : 12 * F + 24 ≤ 2 * (2 ^ E - 1)) :
    ∃ a b : Fp E F, (∃ u, a.datum = .num u ∧ 0 < u) ∧ (∃ v, b.datum = .num v ∧ 0 < v) ∧
      dot4Ref a b b b a b b b = none ∧ ∃ r, dot4 a b b b a b b b = some r := by
  have hF1 : 1 ≤ F := by omega
  have pE : 0 < 2 ^ E := by positivity
  have ha := mk4_num (E := E) (F := F) (e := 2 ^ E - 1) (f := 0) hE hF1 (by omega) (by positivity)
  have hb := mk4_num (E := E) (F := F) (e := 0) (f := 0) hE hF1 (by omega) (by positivity)
  have pa : (0 : ℚ) < (1 + ((0 : ℕ) : ℚ) / 2 ^ F) * 2 ^ (((2 ^ E - 1 : ℕ) : ℤ) - bias E) := by positivity
  have pb : (0 : ℚ) < (1 + ((0 : ℕ) : ℚ) / 2 ^ F) * 2 ^ (((0 : ℕ) : ℤ) - bias E) := by positivity
  refine ⟨_, _, ⟨_, ha, pa⟩, ⟨_, hb, pb⟩, ?_, ?_⟩
  · have hA : ∀ i : Fin 4, ((![Fp.mk4 E F 1 0 (2 ^ E - 1) 0, Fp.mk4 E F 1 0 0 0, Fp.mk4 E F 1 0 0 0, Fp.mk4 E F 1 0 0 0] : Fin 4 → Fp E F) i).datum =
        .num ((![(1 + ((0 : ℕ) : ℚ) / 2 ^ F) * 2 ^ (((2 ^ E - 1 : ℕ) : ℤ) - bias E), (1 + ((0 : ℕ) : ℚ) / 2 ^ F) * 2 ^ (((0 : ℕ) : ℤ) - bias E),
          (1 + ((0 : ℕ) : ℚ) / 2 ^ F) * 2 ^ (((0 : ℕ) : ℤ) - bias E), (1 + ((0 : ℕ) : ℚ) / 2 ^ F) * 2 ^ (((0 : ℕ) : ℤ) - bias E)] : Fin 4 → ℚ) i) := by
      intro i; fin_cases i
      · exact ha
      · exact hb
      · exact hb
      · exact hb
    have hP : ∀ i : Fin 4, 0 < ((![(1 + ((0 : ℕ) : ℚ) / 2 ^ F) * 2 ^ (((2 ^ E - 1 : ℕ) : ℤ) - bias E), (1 + ((0 : ℕ) : ℚ) / 2 ^ F) * 2 ^ (((0 : ℕ) : ℤ) - bias E),
          (1 + ((0 : ℕ) : ℚ) / 2 ^ F) * 2 ^ (((0 : ℕ) : ℤ) - bias E), (1 + ((0 : ℕ) : ℚ) / 2 ^ F) * 2 ^ (((0 : ℕ) : ℤ) - bias E)] : Fin 4 → ℚ) i) := by
      intro i; fin_cases i
      · exact pa
      · exact pb
      · exact pb
      · exact pb
    have h := (C75_dot4_reference_large hE hF _ _ _ _ hA hA hP hP).1
    have hno := mt (fun hh => (h.mp hh).1) ?_
    · rw [← Option.not_isSome_iff_eq_none, Option.isSome_iff_exists]
      exact hno
    · have hsum : (1 + ((0 : ℕ) : ℚ) / 2 ^ F) * 2 ^ (((2 ^ E - 1 : ℕ) : ℤ) - bias E) * ((1 + ((0 : ℕ) : ℚ) / 2 ^ F) * 2 ^ (((2 ^ E - 1 : ℕ) : ℤ) - bias E)) +
          (1 + ((0 : ℕ) : ℚ) / 2 ^ F) * 2 ^ (((0 : ℕ) : ℤ) - bias E) * ((1 + ((0 : ℕ) : ℚ) / 2 ^ F) * 2 ^ (((0 : ℕ) : ℤ) - bias E)) =
          ((2 ^ (2 * (2 ^ E - 1)) + 1 : ℕ) : ℚ) * 2 ^ (-(2 * bias E)) := by
        generalize 2 ^ E - 1 = X
        simp only [Nat.cast_zero, zero_div, add_zero, one_mul, zero_sub]
        rw [← zpow_add₀ (by norm_num), ← zpow_add₀ (by norm_num)]
        push_cast
        rw [add_mul, one_mul, ← zpow_natCast, ← zpow_add₀ (by norm_num)]
        congr 2 <;> push_cast <;> ring
      show ¬ FitsBits (12 * (F + 2)) ((1 + ((0 : ℕ) : ℚ) / 2 ^ F) * 2 ^ (((2 ^ E - 1 : ℕ) : ℤ) - bias E) * ((1 + ((0 : ℕ) : ℚ) / 2 ^ F) * 2 ^ (((2 ^ E - 1 : ℕ) : ℤ) - bias E)) +
          (1 + ((0 : ℕ) : ℚ) / 2 ^ F) * 2 ^ (((0 : ℕ) : ℤ) - bias E) * ((1 + ((0 : ℕ) : ℚ) / 2 ^ F) * 2 ^ (((0 : ℕ) : ℤ) - bias E)))
      rw [hsum]
      exact not_fits (by omega) (by omega)
  · obtain ⟨r, t, hr, -⟩ := C33_dot4_error hE hF1 ![Fp.mk4 E F 1 0 (2 ^ E - 1) 0, Fp.mk4 E F 1 0 0 0, Fp.mk4 E F 1 0 0 0, Fp.mk4 E F 1 0 0 0]
      ![Fp.mk4 E F 1 0 (2 ^ E - 1) 0, Fp.mk4 E F 1 0 0 0, Fp.mk4 E F 1 0 0 0, Fp.mk4 E F 1 0 0 0]
      ![_, _, _, _] ![_, _, _, _] (by intro i; fin_cases i; exacts [ha, hb, hb, hb]) (by intro i; fin_cases i; exacts [ha, hb, hb, hb])
      (by intro i; fin_cases i; exacts [pa, pb, pb, pb]) (by intro i; fin_cases i; exacts [pa, pb, pb, pb])
    exact ⟨r, hr⟩

/-- **C75.** An iteration of the test of `dot4_pos_rndd` on positive numbers, whose reference does not fail, passes exactly when
`dot4_pos_rndd` returns the exact sum rounded down once; and it ends with a verdict. -/
theorem C75_test_dot4_partial {E F : ℕ} (hE : 1 ≤ E) (hE' : E ≤ 10) (hF : 1 ≤ F) (hF' : F ≤ 52) (a b : Fin 4 → Fp E F) (u v : Fin 4 → ℚ)
    (ha : ∀ i, (a i).datum = .num (u i)) (hb : ∀ i, (b i).datum = .num (v i)) (pa : ∀ i, 0 < u i) (pb : ∀ i, 0 < v i)
    (href : F ≤ 5 ∨ ∀ i j, (a i).exp + (b i).exp ≤ (a j).exp + (b j).exp + (10 * F + 20)) :
    ∃ r ok, dot4 (a 0) (a 1) (a 2) (a 3) (b 0) (b 1) (b 2) (b 3) = some r ∧
      testDot4 [![a 0, a 1, a 2, a 3, b 0, b 1, b 2, b 3]] = some ok ∧
      (ok = true ↔ RoundedDown E F (∑ i, u i * v i) r.datum) := by
  have hr : ∃ s, dot4Ref (a 0) (a 1) (a 2) (a 3) (b 0) (b 1) (b 2) (b 3) = some s ∧ RoundedDown E F (∑ i, u i * v i) s.datum := by
    by_cases c : F ≤ 5
    · exact C75_dot4_reference_small hE hE' hF c a b u v ha hb pa pb
    · exact C75_dot4_reference_partial hE (by omega) a b u v ha hb pa pb (href.resolve_left c)
  obtain ⟨s, hs, hsd⟩ := hr
  obtain ⟨r, t, hr, hrt, -⟩ := C33_dot4_error hE hF a b u v ha hb pa pb
  have pos : ∀ (q : ℚ) (x : Fp E F), RoundedDown E F q x.datum → (∀ w, x.datum = .num w → 0 < w) ∧ x.datum ≠ .nan ∧ ∀ z, x.datum = .zero z → z = false := by
    rintro q x ⟨m, e, hm, hd⟩
    have hm0 : 0 < m := lt_of_lt_of_le (by positivity) hm.1.1
    rw [hd, rangeCheck]
    refine ⟨fun w hw => ?_, ?_, fun z hz => ?_⟩
    · simp only [Bool.false_eq_true, if_false, one_mul] at hw
      split_ifs at hw
      injection hw with hw
      rw [← hw]
      exact mul_pos (by exact_mod_cast hm0) (two_zpow_pos _)
    · split_ifs <;> simp
    · split_ifs at hz
      injection hz with hz
      exact hz.symm
  obtain ⟨p1, p2, p3⟩ := pos _ _ hsd
  obtain ⟨q1, q2, q3⟩ := pos _ _ hrt
  obtain ⟨x, hx, hx'⟩ := toDouble_pos hE hE' hF hF' s p1
  obtain ⟨y, hy, hy'⟩ := toDouble_pos hE hE' hF hF' r q1
  have hne := dblNe_spec x y (by rw [hx']; exact p2) (by rw [hy']; exact q2)
  rw [hx', hy'] at hne
  have heq : s.datum.RealEq r.datum ↔ s.datum = r.datum := by
    cases hsd' : s.datum with
    | nan => exact absurd hsd' p2
    | zero z =>
      cases hrd' : r.datum with
      | zero z' => rw [p3 z hsd', q3 z' hrd']; simp [Datum.RealEq]
      | _ => simp [Datum.RealEq]
    | _ => simp [Datum.RealEq]
  rw [heq] at hne
  refine ⟨r, !(dblNe x y), hr, ?_, ?_⟩
  · have hbody : testDot4Body (a 0) (a 1) (a 2) (a 3) (b 0) (b 1) (b 2) (b 3) = some (!(dblNe x y)) := by
      unfold testDot4Body
      simp only [Option.bind_eq_bind, hs, hr, hx, hy, Option.bind_some]
      rfl
    show (testDot4Body (a 0) (a 1) (a 2) (a 3) (b 0) (b 1) (b 2) (b 3)).bind _ = _
    rw [hbody]
    cases dblNe x y <;> rfl
  · rw [Bool.not_eq_true', hne]
    constructor
    · intro h; rw [← h]; exact hsd
    · intro h; exact roundedDown_unique hsd h

/-- **C75.** The test of `dot4_pos_rndd` and the exhaustive test pass in every format whose exponents span at most `4*F - 1` over a product. -/
theorem C75_test_dot4_passes {E F : ℕ} (hE : 1 ≤ E) (hE' : E ≤ 10) (hF : 1 ≤ F) (hF' : F ≤ 52) (hw : 2 * (2 ^ E - 1) ≤ 4 * F - 1) :
    (∀ args : List (Fin 8 → Fp E F), (∀ a ∈ args, ∀ i, ∃ v, (a i).datum = .num v ∧ 0 < v) → testDot4 args = some true) ∧
      ∀ n, 2 ^ (E + F) < n → exhaustDot4 E F n = some true := by
  have body : ∀ x : Fin 8 → Fp E F, (∀ i, ∃ v, (x i).datum = .num v ∧ 0 < v) →
      testDot4Body (x 0) (x 1) (x 2) (x 3) (x 4) (x 5) (x 6) (x 7) = some true := by
    intro x hx
    choose v hv pv using hx
    have hexp : ∀ i, (x i).exp ≤ 2 ^ E - 1 := fun i => by have := (x i).exp_lt hE; omega
    have h4a : ∀ i : Fin 4, ((![x 0, x 1, x 2, x 3] : Fin 4 → Fp E F) i).datum = .num ((![v 0, v 1, v 2, v 3] : Fin 4 → ℚ) i) ∧
        0 < (![v 0, v 1, v 2, v 3] : Fin 4 → ℚ) i ∧ ((![x 0, x 1, x 2, x 3] : Fin 4 → Fp E F) i).exp ≤ 2 ^ E - 1 := by
      intro i; fin_cases i
      exacts [⟨hv 0, pv 0, hexp 0⟩, ⟨hv 1, pv 1, hexp 1⟩, ⟨hv 2, pv 2, hexp 2⟩, ⟨hv 3, pv 3, hexp 3⟩]
    have h4b : ∀ i : Fin 4, ((![x 4, x 5, x 6, x 7] : Fin 4 → Fp E F) i).datum = .num ((![v 4, v 5, v 6, v 7] : Fin 4 → ℚ) i) ∧
        0 < (![v 4, v 5, v 6, v 7] : Fin 4 → ℚ) i ∧ ((![x 4, x 5, x 6, x 7] : Fin 4 → Fp E F) i).exp ≤ 2 ^ E - 1 := by
      intro i; fin_cases i
      exacts [⟨hv 4, pv 4, hexp 4⟩, ⟨hv 5, pv 5, hexp 5⟩, ⟨hv 6, pv 6, hexp 6⟩, ⟨hv 7, pv 7, hexp 7⟩]
    obtain ⟨r, ok, hr, hok, hiff⟩ := C75_test_dot4_partial hE hE' hF hF' _ _ _ _ (fun i => (h4a i).1) (fun i => (h4b i).1) (fun i => (h4a i).2.1)
      (fun i => (h4b i).2.1) (Or.inr fun i j => by have := (h4a i).2.2; have := (h4b i).2.2; omega)
    obtain ⟨r', hr', hd⟩ := C33_dot4_partial hE hF _ _ _ _ (fun i => (h4a i).1) (fun i => (h4b i).1) (fun i => (h4a i).2.1)
      (fun i => (h4b i).2.1) 0 (fun i _ j => by have := (h4a j).2.2; have := (h4b j).2.2; omega)
    rw [hr] at hr'
    obtain rfl := Option.some.inj hr'
    rw [hiff.mpr hd] at hok
    have : (testDot4Body (x 0) (x 1) (x 2) (x 3) (x 4) (x 5) (x 6) (x 7)).bind (fun ok => if ok then some true else some false) = some true := hok
    cases hb : testDot4Body (x 0) (x 1) (x 2) (x 3) (x 4) (x 5) (x 6) (x 7) with
    | none => rw [hb] at this; cases this
    | some z => rw [hb] at this; cases z
                · cases this
                · rfl
  refine ⟨fun args hp => ?_, fun n hn => ?_⟩
  · unfold testDot4
    rw [runAll_true]
    exact fun a ha => body a (hp a ha)
  · unfold exhaustDot4
    simp only [C76_loop_passes_iff hE hF hn]
    intro x0 v0 h0 p0 x1 v1 h1 p1 x2 v2 h2 p2 x3 v3 h3 p3 x4 v4 h4 p4 x5 v5 h5 p5 x6 v6 h6 p6 x7 v7 h7 p7
    refine body ![x0, x1, x2, x3, x4, x5, x6, x7] fun i => ?_
    fin_cases i
    exacts [⟨_, h0, p0⟩, ⟨_, h1, p1⟩, ⟨_, h2, p2⟩, ⟨_, h3, p3⟩, ⟨_, h4, p4⟩, ⟨_, h5, p5⟩, ⟨_, h6, p6⟩, ⟨_, h7, p7⟩]

/-- **C75.** The test reports an error for some positive operands in every format with 4 or 5 fraction bits, up to 10 exponent bits and
`3*F ≤ bias E`: it can expose the defect of `dot4_pos_rndd`. -/
theorem C75_test_dot4_detects {E F : ℕ} (hE : 1 ≤ E) (hE' : E ≤ 10) (hF : 4 ≤ F) (hF' : F ≤ 5) (hb : 3 * (F : ℤ) ≤ bias E) :
    ∃ a : Fin 8 → Fp E F, (∀ i, ∃ v, (a i).datum = .num v ∧ 0 < v) ∧ testDot4 [a] = some false := by
  obtain ⟨a, b, u, v, r, h, hr, hn⟩ := C33_dot4_wrong (E := E) (F := F) hE hF hb
  obtain ⟨r', ok, hr', hok, hiff⟩ := C75_test_dot4_partial hE hE' (by omega) (by omega) a b u v (fun i => (h i).1) (fun i => (h i).2.1)
    (fun i => (h i).2.2.1) (fun i => (h i).2.2.2) (Or.inl hF')
  rw [hr] at hr'
  obtain rfl := Option.some.inj hr'
  refine ⟨![a 0, a 1, a 2, a 3, b 0, b 1, b 2, b 3], fun i => ?_, ?_⟩
  · fin_cases i
    exacts [⟨_, (h 0).1, (h 0).2.2.1⟩, ⟨_, (h 1).1, (h 1).2.2.1⟩, ⟨_, (h 2).1, (h 2).2.2.1⟩, ⟨_, (h 3).1, (h 3).2.2.1⟩,
      ⟨_, (h 0).2.1, (h 0).2.2.2⟩, ⟨_, (h 1).2.1, (h 1).2.2.2⟩, ⟨_, (h 2).2.1, (h 2).2.2.2⟩, ⟨_, (h 3).2.1, (h 3).2.2.2⟩]
  · rw [hok]
    cases ok with
    | false => rfl
    | true => exact absurd (hiff.mp rfl) hn

example : ∃ a : Fin 8 → Fp 5 5, (∀ i, ∃ v, (a i).datum = .num v ∧ 0 < v) ∧ testDot4 [a] = some false :=
  C75_test_dot4_detects (by norm_num) (by norm_num) (by norm_num) (by norm_num) (by norm_num [bias])

example : ∀ n, 2 ^ (3 + 4) < n → exhaustDot4 3 4 n = some true :=
  (C75_test_dot4_passes (by norm_num) (by norm_num) (by norm_num) (by norm_num) (by norm_num)).2

example : ∃ a b : Fp 8 23, (∃ u, a.datum = .num u ∧ 0 < u) ∧ (∃ v, b.datum = .num v ∧ 0 < v) ∧
    dot4Ref a b b b a b b b = none ∧ ∃ r, dot4 a b b b a b b b = some r :=
  C75_dot4_reference_wrong (by norm_num) (by norm_num) (by norm_num)

end Thls
