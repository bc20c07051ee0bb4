import Verif.Props.DotRef

/-! # C75: the reference of `dot4_pos_rndd` in formats with few fraction bits -/

namespace Thls
open Spec

/-- **C75, finding.** With 11 exponent bits and at most 5 fraction bits the reference of `dot4_pos_rndd`, which then computes in `double`, is
wrong: for `2^1024*1 + 1*1 + 1*1 + 1*1` it returns infinity, although `2^1024` is a number of the format, which `dot4_pos_rndd` returns. -/
theorem C75_dot4_reference_small_wrong {F : ℕ} (hF : 1 ≤ F) (hF' : F ≤ 5) :
    ∃ a one r r' : Fp 11 F, a.datum = .num (2 ^ (1024 : ℤ)) ∧ one.datum = .num 1 ∧
      dot4Ref a one one one one one one one = some r ∧ r.datum = .inf false ∧
      dot4 a one one one one one one one = some r' ∧ r'.datum = .num (2 ^ (1024 : ℤ)) := by
  have key : ∃ r r' : Fp 11 F, dot4Ref (Fp.mk4 11 F 1 0 2047 0) (Fp.mk4 11 F 1 0 1023 0) (Fp.mk4 11 F 1 0 1023 0) (Fp.mk4 11 F 1 0 1023 0)
        (Fp.mk4 11 F 1 0 1023 0) (Fp.mk4 11 F 1 0 1023 0) (Fp.mk4 11 F 1 0 1023 0) (Fp.mk4 11 F 1 0 1023 0) = some r ∧ r = Limits.infinity 11 F ∧
      dot4 (Fp.mk4 11 F 1 0 2047 0) (Fp.mk4 11 F 1 0 1023 0) (Fp.mk4 11 F 1 0 1023 0) (Fp.mk4 11 F 1 0 1023 0)
        (Fp.mk4 11 F 1 0 1023 0) (Fp.mk4 11 F 1 0 1023 0) (Fp.mk4 11 F 1 0 1023 0) (Fp.mk4 11 F 1 0 1023 0) = some r' ∧ r' = Fp.mk4 11 F 1 0 2047 0 := by
    refine ⟨_, _, ?_, rfl, ?_, rfl⟩ <;> interval_cases F <;> decide +kernel
  have hb : (biasN 11 : ℤ) = 1023 := by decide
  have ha : (Fp.mk4 11 F 1 0 2047 0).datum = .num (2 ^ (1024 : ℤ)) := by
    rw [mk4_num (by omega) hF (by norm_num) (by positivity)]
    norm_num [bias]
  have h1 : (Fp.mk4 11 F 1 0 1023 0).datum = .num 1 := by
    rw [mk4_num (by omega) hF (by norm_num) (by positivity)]
    norm_num [bias]
  obtain ⟨r, r', k1, k2, k3, k4⟩ := key
  refine ⟨_, _, r, r', ha, h1, k1, ?_, k3, ?_⟩
  · rw [k2]; exact (C46_limits_values_partial (E := 11) (F := F) (by omega) hF).2.2.2.2.2.1
  · rw [k4]; exact ha

/-- With 12 exponent bits or more and at most 5 fraction bits the reference does not compile: `to_double` refuses the format. -/
theorem C75_dot4_reference_small_refused {E F : ℕ} (hE : 12 ≤ E) (hF : F ≤ 5) (a b : Fin 4 → Fp E F) :
    dot4Ref (a 0) (a 1) (a 2) (a 3) (b 0) (b 1) (b 2) (b 3) = none := by
  unfold dot4Ref dot4RefSmall
  rw [if_pos (by omega), if_neg (by omega)]
  have : ∀ x : Fp E F, toDouble x = none := fun x => by
    unfold toDouble; rw [if_pos (Or.inr (by omega))]
  simp only [this, Option.bind_eq_bind, Option.bind_none]

/-- **C75.** For formats with at most 5 fraction bits: the reference of `dot4_pos_rndd` is the exact result rounded down for all positive
operands exactly if the format has at most 10 exponent bits. -/
theorem C75_dot4_reference_small_iff {E F : ℕ} (hE : 1 ≤ E) (hF : 1 ≤ F) (hF' : F ≤ 5) :
    (∀ (a b : Fin 4 → Fp E F) (u v : Fin 4 → ℚ), (∀ i, (a i).datum = .num (u i)) → (∀ i, (b i).datum = .num (v i)) → (∀ i, 0 < u i) →
      (∀ i, 0 < v i) → ∃ r, dot4Ref (a 0) (a 1) (a 2) (a 3) (b 0) (b 1) (b 2) (b 3) = some r ∧
        RoundedDown E F (∑ i, u i * v i) r.datum) ↔ E ≤ 10 := by
  constructor
  · intro h
    by_contra hc
    rcases Nat.lt_or_ge 11 E with h12 | h11
    · have hone := (C46_limits_values_partial (E := E) (F := F) (by omega) hF).2.2.2.2.2.2.2.2.2.2.1
      obtain ⟨r, hr, -⟩ := h (fun _ => Limits.posOne E F) (fun _ => Limits.posOne E F) (fun _ => 1) (fun _ => 1) (fun _ => hone) (fun _ => hone)
        (fun _ => one_pos) (fun _ => one_pos)
      rw [C75_dot4_reference_small_refused h12 hF' (fun _ => Limits.posOne E F) (fun _ => Limits.posOne E F)] at hr
      exact absurd hr (by simp)
    · have h11' : E = 11 := by omega
      subst h11'
      obtain ⟨a, one, r, r', ha, hone, hr, hd, -, -⟩ := C75_dot4_reference_small_wrong hF hF'
      obtain ⟨q, hq, hq'⟩ := h ![a, one, one, one] (fun _ => one) ![2 ^ (1024 : ℤ), 1, 1, 1] (fun _ => 1)
        (fun i => by fin_cases i <;> assumption) (fun _ => hone)
        (fun i => by fin_cases i <;> first | exact two_zpow_pos _ | exact one_pos) (fun _ => one_pos)
      have hqr : q = r := Option.some.inj (hq.symm.trans hr)
      rw [hqr, hd] at hq'
      obtain ⟨m, e, hrd, hd2⟩ := hq'
      have hm : (2 : ℚ) ^ F ≤ m := by exact_mod_cast hrd.1.1
      have hle := hrd.2.1
      have hb : bias 11 = 1023 := by norm_num [bias]
      have he : 1025 ≤ e + F := by
        unfold rangeCheck at hd2
        rw [hb] at hd2
        by_contra hcc
        split_ifs at hd2
        omega
      have hs : ∑ i : Fin 4, (![2 ^ (1024 : ℤ), 1, 1, 1] : Fin 4 → ℚ) i * 1 = 2 ^ (1024 : ℤ) + 3 := by
        simp [Fin.sum_univ_four]; ring
      rw [hs] at hle
      have h3 : (2 : ℚ) ^ (1025 : ℤ) ≤ 2 ^ (e + F) := zpow_le_zpow_right₀ (by norm_num) he
      have h4 : (2 : ℚ) ^ (e + F) ≤ m * 2 ^ e := by
        rw [zpow_add₀ (by norm_num), zpow_natCast, mul_comm]
        exact mul_le_mul_of_nonneg_right hm (two_zpow_pos e).le
      have h5 : (2 : ℚ) ^ (1025 : ℤ) = 2 ^ (1024 : ℤ) * 2 := by rw [← zpow_add_one₀ (by norm_num)]; norm_num
      have h6 : (2 : ℚ) ^ (2 : ℤ) ≤ 2 ^ (1024 : ℤ) := zpow_le_zpow_right₀ (by norm_num) (by norm_num)
      have h7 : (2 : ℚ) ^ (2 : ℤ) = 4 := by norm_num
      rw [h7] at h6
      rw [h5] at h3
      have h8 := h3.trans (h4.trans hle)
      clear h5 h3 h4 hle
      generalize (2 : ℚ) ^ (1024 : ℤ) = B at *
      linarith
  · intro h10 a b u v ha hb hu hv
    exact C75_dot4_reference_small hE h10 hF hF' a b u v ha hb hu hv

/-- The equivalence at a format the tests use. -/
example (a b : Fin 4 → Fp 5 3) (u v : Fin 4 → ℚ) (ha : ∀ i, (a i).datum = .num (u i)) (hb : ∀ i, (b i).datum = .num (v i))
    (pa : ∀ i, 0 < u i) (pb : ∀ i, 0 < v i) :
    ∃ r, dot4Ref (a 0) (a 1) (a 2) (a 3) (b 0) (b 1) (b 2) (b 3) = some r ∧ RoundedDown 5 3 (∑ i, u i * v i) r.datum :=
  (C75_dot4_reference_small_iff (by decide) (by decide) (by decide)).2 (by decide) a b u v ha hb pa pb

end Thls
