import Verif.Props.DotSharp
import Mathlib.Tactic.FinCases

/-! # C33: the formats in which the four-term dot product is right for all positive operands -/

namespace Thls
open Spec

/-- Below a jump that the truncated sum does not reach, the exponent sums lie within `3*bias + 1` of each other. -/
theorem dot4_jump_span {E F : ℕ} (hE : 1 ≤ E) (hF : 1 ≤ F) (a b : Fin 4 → Fp E F) (u v : Fin 4 → ℚ)
    (ha : ∀ i, (a i).datum = .num (u i)) (hb : ∀ i, (b i).datum = .num (v i)) (pa : ∀ i, 0 < u i) (pb : ∀ i, 0 < v i)
    (G : ℤ) (hG : ∃ i, G = Int.log 2 (u i) + Int.log 2 (v i)) {s : ℚ} (hs : Jump E F s)
    (hT : ∑ i, (⌊u i * v i / 2 ^ (G - (6 * F - 1))⌋ : ℚ) * 2 ^ (G - (6 * F - 1)) < s) :
    (2 : ℚ) ^ G < s ∧ ∀ i, G - (Int.log 2 (u i) + Int.log 2 (v i)) ≤ 3 * bias E + 1 := by
  obtain ⟨j, hj⟩ := hG
  obtain ⟨w1, w2⟩ := two_bias hE
  have hw := two_zpow_pos (G - (6 * F - 1) : ℤ)
  have h0 : (2 : ℚ) ^ G ≤ ∑ i, (⌊u i * v i / 2 ^ (G - (6 * F - 1))⌋ : ℚ) * 2 ^ (G - (6 * F - 1)) := by
    refine le_trans ?_ (Finset.single_le_sum (fun i _ => ?_) (Finset.mem_univ j))
    · have hu := Int.zpow_log_le_self (b := 2) (by norm_num) (pa j)
      have hv := Int.zpow_log_le_self (b := 2) (by norm_num) (pb j)
      have h1 : ((2 ^ (6 * F - 1) : ℕ) : ℤ) ≤ ⌊u j * v j / 2 ^ (G - (6 * F - 1) : ℤ)⌋ := by
        rw [Int.le_floor, le_div_iff₀ hw]
        push_cast
        rw [← zpow_natCast, ← zpow_add₀ (by norm_num), show ((6 * F - 1 : ℕ) : ℤ) + (G - (6 * F - 1)) = G by omega]
        calc (2 : ℚ) ^ G = 2 ^ Int.log 2 (u j) * 2 ^ Int.log 2 (v j) := by rw [hj, zpow_add₀ (by norm_num)]
          _ ≤ u j * v j := mul_le_mul (by exact_mod_cast hu) (by exact_mod_cast hv) (two_zpow_pos _).le (pa j).le
      have h2 : ((2 ^ (6 * F - 1) : ℕ) : ℚ) ≤ (⌊u j * v j / 2 ^ (G - (6 * F - 1) : ℤ)⌋ : ℚ) := by exact_mod_cast h1
      have h3 := mul_le_mul_of_nonneg_right h2 hw.le
      refine le_trans (le_of_eq ?_) h3
      push_cast
      rw [← zpow_natCast, ← zpow_add₀ (by norm_num)]
      congr 1; omega
    · refine mul_nonneg ?_ hw.le
      exact_mod_cast Int.floor_nonneg.mpr (div_nonneg (mul_pos (pa i) (pb i)).le hw.le)
  have hGs : (2 : ℚ) ^ G < s := lt_of_le_of_lt h0 hT
  refine ⟨hGs, fun i => ?_⟩
  have hlim : s ≤ 2 ^ ((2 : ℤ) ^ E - bias E) := by
    obtain ⟨m, e, hm, rfl, h1, h2 | ⟨h2, rfl⟩⟩ := (jump_sig hE hF).mp hs
    · have hm2 : (m : ℚ) ≤ 2 ^ ((F : ℤ) + 1) := by
        have := hm.2.le
        rw [zpow_add_one₀ (by norm_num), zpow_natCast, ← pow_succ]
        exact_mod_cast this
      calc (m : ℚ) * 2 ^ e ≤ 2 ^ ((F : ℤ) + 1) * 2 ^ e := mul_le_mul_of_nonneg_right hm2 (two_zpow_pos e).le
        _ = 2 ^ ((F : ℤ) + 1 + e) := by rw [← zpow_add₀ (by norm_num)]
        _ ≤ _ := zpow_le_zpow_right₀ (by norm_num) (by omega)
    · refine le_of_eq ?_
      push_cast
      rw [← zpow_natCast, ← zpow_add₀ (by norm_num)]
      congr 1; omega
  have hlt : G < (2 : ℤ) ^ E - bias E := (zpow_lt_zpow_iff_right₀ (by norm_num)).mp (lt_of_lt_of_le hGs hlim)
  rw [log_datum hF (ha i) (pa i), log_datum hF (hb i) (pb i)]
  have := Int.natCast_nonneg (a i).exp
  have := Int.natCast_nonneg (b i).exp
  omega

/-- **C33.** In every format with `3*2^E < 8*F + 4`, `dot4_pos_rndd` returns the exact sum of the four products rounded down once, for all positive
operands: the products that are truncated are so small only where the result overflows anyway. -/
theorem C33_dot4_format_right {E F : ℕ} (hE : 1 ≤ E) (hF : 1 ≤ F) (hw : 3 * 2 ^ E < 8 * F + 4) (a b : Fin 4 → Fp E F) (u v : Fin 4 → ℚ)
    (ha : ∀ i, (a i).datum = .num (u i)) (hb : ∀ i, (b i).datum = .num (v i)) (pa : ∀ i, 0 < u i) (pb : ∀ i, 0 < v i) :
    ∃ r, dot4 (a 0) (a 1) (a 2) (a 3) (b 0) (b 1) (b 2) (b 3) = some r ∧ RoundedDown E F (∑ i, u i * v i) r.datum := by
  obtain ⟨w1, w2⟩ := two_bias hE
  obtain ⟨j, -, hj⟩ := Finset.exists_max_image (Finset.univ : Finset (Fin 4)) (fun i => Int.log 2 (u i) + Int.log 2 (v i)) ⟨0, Finset.mem_univ _⟩
  obtain ⟨G, hG⟩ : ∃ G, G = Int.log 2 (u j) + Int.log 2 (v j) := ⟨_, rfl⟩
  have hG' : ∀ i, Int.log 2 (u i) + Int.log 2 (v i) ≤ G := fun i => by rw [hG]; exact hj i (Finset.mem_univ _)
  obtain ⟨r, hr, -⟩ := C33_dot4_value hE hF a b u v ha hb pa pb G ⟨j, hG⟩ hG'
  refine ⟨r, hr, (C33_dot4_iff hE hF a b u v ha hb pa pb G ⟨j, hG⟩ hG' r hr).mpr ?_⟩
  rintro ⟨s, hs, hT, hS⟩
  obtain ⟨-, hsp⟩ := dot4_jump_span hE hF a b u v ha hb pa pb G ⟨j, hG⟩ hs hT
  refine absurd hT (not_lt.mpr (hS.trans (le_of_eq (Finset.sum_congr rfl fun i _ => ?_))))
  have hL : (dotExp (a i) (b i) : ℤ) - 2 * bias E = Int.log 2 (u i) + Int.log 2 (v i) := by
    rw [(dotExp_eq hE (a i) (b i)).1, log_datum hF (ha i) (pa i), log_datum hF (hb i) (pb i)]; push_cast; ring
  have hd := hsp i
  have hw' : (3 : ℤ) * 2 ^ E < 8 * F + 4 := by exact_mod_cast hw
  obtain ⟨k, hk⟩ : ∃ k : ℕ, (Int.log 2 (u i) + Int.log 2 (v i)) - 2 * F = G - (6 * F - 1) + k :=
    ⟨((Int.log 2 (u i) + Int.log 2 (v i)) - 2 * F - (G - (6 * F - 1))).toNat, by omega⟩
  have hv := dot_value hE (ha i) (hb i) (pa i) (pb i)
  rw [hL, hk, zpow_add₀ (by norm_num), zpow_natCast] at hv
  have hne : (2 : ℚ) ^ (G - (6 * F - 1) : ℤ) ≠ 0 := (two_zpow_pos _).ne'
  have : u i * v i / 2 ^ (G - (6 * F - 1) : ℤ) = ((dotFrac (a i) (b i) * 2 ^ k : ℕ) : ℤ) := by
    rw [hv]; push_cast; field_simp
  rw [this, Int.floor_intCast, ← this]
  field_simp

/-- Eight operands from their significands and the exponent sums of the products, with a jump between the truncated and the exact sum. -/
theorem dot4_fails {E F : ℕ} (hE : 1 ≤ E) (hF : 1 ≤ F) (g M : ℕ) (hg : g ≤ 2 * (2 ^ E - 1)) (d x y : Fin 4 → ℕ) (h0 : d 0 = 0)
    (hd : ∀ i, d i ≤ g) (hM : ∀ i, d i ≤ M) (hx : ∀ i, 2 ^ F ≤ x i ∧ x i < 2 ^ (F + 1)) (hy : ∀ i, 2 ^ F ≤ y i ∧ y i < 2 ^ (F + 1)) (s : ℚ)
    (hs : Jump E F (s * 2 ^ ((g : ℤ) - 2 * bias E - (6 * F - 1))))
    (hT : ∑ i, (⌊((x i * y i : ℕ) : ℚ) * 2 ^ ((4 * F - 1 : ℤ) - d i)⌋ : ℚ) < s)
    (hS : s ≤ ∑ i, ((x i * y i : ℕ) : ℚ) * 2 ^ ((4 * F - 1 : ℤ) - d i)) :
    ∃ (a b : Fin 4 → Fp E F) (u v : Fin 4 → ℚ) (r : Fp E F),
      (∀ i, (a i).datum = .num (u i) ∧ (b i).datum = .num (v i) ∧ 0 < u i ∧ 0 < v i) ∧
      (∀ i j, (a i).exp + (b i).exp ≤ (a j).exp + (b j).exp + M) ∧
      dot4 (a 0) (a 1) (a 2) (a 3) (b 0) (b 1) (b 2) (b 3) = some r ∧ ¬ RoundedDown E F (∑ i, u i * v i) r.datum := by
  have pE : 0 < 2 ^ E := by positivity
  have he1 : ∀ i, (g - d i) / 2 < 2 ^ E := fun i => by omega
  have he2 : ∀ i, (g - d i) - (g - d i) / 2 < 2 ^ E := fun i => by omega
  have hfx : ∀ i, x i - 2 ^ F < 2 ^ F := fun i => by have := hx i; rw [pow_succ] at this; omega
  have hfy : ∀ i, y i - 2 ^ F < 2 ^ F := fun i => by have := hy i; rw [pow_succ] at this; omega
  let a : Fin 4 → Fp E F := fun i => Fp.mk4 E F 1 0 ((g - d i) / 2) (x i - 2 ^ F)
  let b : Fin 4 → Fp E F := fun i => Fp.mk4 E F 1 0 ((g - d i) - (g - d i) / 2) (y i - 2 ^ F)
  have hae : ∀ i, (a i).exp = (g - d i) / 2 := fun i => Fp.mk4_exp (by decide) (by decide) (he1 i) (hfx i) hE
  have hbe : ∀ i, (b i).exp = (g - d i) - (g - d i) / 2 := fun i => Fp.mk4_exp (by decide) (by decide) (he2 i) (hfy i) hE
  have ha : ∀ i, (a i).datum = .num _ := fun i => mk4_num hE hF (he1 i) (hfx i)
  have hb : ∀ i, (b i).datum = .num _ := fun i => mk4_num hE hF (he2 i) (hfy i)
  obtain ⟨u, hu⟩ : ∃ u : Fin 4 → ℚ, u = fun i => (1 + ((x i - 2 ^ F : ℕ) : ℚ) / 2 ^ F) * 2 ^ ((((g - d i) / 2 : ℕ) : ℤ) - bias E) := ⟨_, rfl⟩
  obtain ⟨v, hv⟩ : ∃ v : Fin 4 → ℚ, v = fun i => (1 + ((y i - 2 ^ F : ℕ) : ℚ) / 2 ^ F) * 2 ^ ((((g - d i) - (g - d i) / 2 : ℕ) : ℤ) - bias E) :=
    ⟨_, rfl⟩
  have ha' : ∀ i, (a i).datum = .num (u i) := by rw [hu]; exact ha
  have hb' : ∀ i, (b i).datum = .num (v i) := by rw [hv]; exact hb
  have pa : ∀ i, 0 < u i := fun i => by rw [hu]; positivity
  have pb : ∀ i, 0 < v i := fun i => by rw [hv]; positivity
  have hL : ∀ i, Int.log 2 (u i) + Int.log 2 (v i) = (g : ℤ) - d i - 2 * bias E := fun i => by
    rw [log_datum hF (ha' i) (pa i), log_datum hF (hb' i) (pb i), hae, hbe]
    have := hd i
    omega
  have hex : ∀ i, dotExp (a i) (b i) = g - d i := fun i => by
    rw [(dotExp_eq hE (a i) (b i)).1, hae, hbe]; omega
  have hfr : ∀ i, dotFrac (a i) (b i) = x i * y i := fun i => by
    unfold dotFrac opadHi1
    rw [Fp.mk4_frac (by decide) (by decide) (he1 i) (hfx i) hF, Fp.mk4_frac (by decide) (by decide) (he2 i) (hfy i) hF]
    rw [show 2 ^ F + (x i - 2 ^ F) = x i by have := hx i; omega, show 2 ^ F + (y i - 2 ^ F) = y i by have := hy i; omega]
  obtain ⟨G, hGd⟩ : ∃ G : ℤ, G = (g : ℤ) - 2 * bias E := ⟨_, rfl⟩
  have hG : ∃ i, G = Int.log 2 (u i) + Int.log 2 (v i) := ⟨0, by rw [hL, h0, hGd]; push_cast; ring⟩
  have hG' : ∀ i, Int.log 2 (u i) + Int.log 2 (v i) ≤ G := fun i => by rw [hL, hGd]; omega
  have hval : ∀ i, u i * v i = ((x i * y i : ℕ) : ℚ) * 2 ^ ((4 * F - 1 : ℤ) - d i) * 2 ^ (G - (6 * F - 1)) := fun i => by
    rw [dot_value hE (ha' i) (hb' i) (pa i) (pb i), hfr, hex, mul_assoc, ← zpow_add₀ (by norm_num)]
    congr 2
    have := hd i
    omega
  obtain ⟨r, hr, -⟩ := C33_dot4_value hE hF a b u v ha' hb' pa pb G hG hG'
  refine ⟨a, b, u, v, r, fun i => ⟨ha' i, hb' i, pa i, pb i⟩, fun i j => ?_, hr, ?_⟩
  · rw [hae, hbe, hae, hbe]
    have := hd i; have := hd j; have := hM j
    omega
  rw [C33_dot4_iff hE hF a b u v ha' hb' pa pb G hG hG' r hr, not_not]
  have hw := two_zpow_pos (G - (6 * F - 1) : ℤ)
  refine ⟨s * 2 ^ (G - (6 * F - 1) : ℤ), by rw [hGd]; exact hs, ?_, ?_⟩
  · rw [← Finset.sum_mul]
    refine mul_lt_mul_of_pos_right (lt_of_le_of_lt (le_of_eq (Finset.sum_congr rfl fun i _ => ?_)) hT) hw
    rw [hval, mul_div_assoc, div_self hw.ne', mul_one]
  · simp_rw [hval]
    rw [← Finset.sum_mul]
    exact mul_le_mul_of_nonneg_right hS hw.le

/-- The failing operands for two fraction bits or more. -/
theorem dot4_fails_two {E F : ℕ} (hF : 2 ≤ F) (hw : 8 * F + 4 ≤ 3 * 2 ^ E) :
    ∃ (a b : Fin 4 → Fp E F) (u v : Fin 4 → ℚ) (r : Fp E F),
      (∀ i, (a i).datum = .num (u i) ∧ (b i).datum = .num (v i) ∧ 0 < u i ∧ 0 < v i) ∧
      (∀ i j, (a i).exp + (b i).exp ≤ (a j).exp + (b j).exp + (4 * F + 2)) ∧
      dot4 (a 0) (a 1) (a 2) (a 3) (b 0) (b 1) (b 2) (b 3) = some r ∧ ¬ RoundedDown E F (∑ i, u i * v i) r.datum := by
  have hE : 3 ≤ E := by
    by_contra h
    have : 2 ^ E ≤ 2 ^ 2 := Nat.pow_le_pow_right (by norm_num) (by omega)
    omega
  obtain ⟨w1, w2⟩ := two_bias (E := E) (by omega)
  obtain ⟨c, hc⟩ : ∃ c, E = c + 3 := ⟨E - 3, by omega⟩
  have hbn : (biasN E : ℤ) = bias E := pow_bias
  have hE4 : 2 ^ E = 8 * 2 ^ c := by rw [hc, pow_add]; ring
  have hE4' : (2 : ℤ) ^ E = 8 * 2 ^ c := by exact_mod_cast hE4
  obtain ⟨f, hf⟩ : ∃ f, F = f + 2 := ⟨F - 2, by omega⟩
  obtain ⟨h, hh⟩ : ∃ h : ℕ, h = 2 ^ f := ⟨_, rfl⟩
  have hh1 : 1 ≤ h := by rw [hh]; exact Nat.one_le_two_pow
  have hX : 2 ^ F = 4 * h := by rw [hf, hh, pow_add]; ring
  have hX' : 2 ^ (F + 1) = 8 * h := by rw [pow_succ, hX]; ring
  have hXq : (2 : ℚ) ^ F = 4 * h := by exact_mod_cast hX
  have hb3 : ((3 * biasN E + 1 : ℕ) : ℤ) = 3 * bias E + 1 := by push_cast; rw [hbn]
  have hg : 4 * F + 2 ≤ 3 * biasN E + 1 := by
    have : (8 * (F : ℤ) + 4) ≤ 3 * 2 ^ E := by exact_mod_cast hw
    omega
  -- powers of two
  have k0 : (2 : ℚ) ^ ((4 * F - 1 : ℤ) - (0 : ℕ)) = (4 * h) ^ 4 / 2 := by
    rw [show (4 * F - 1 : ℤ) - (0 : ℕ) = ((F * 4 : ℕ) : ℤ) - 1 by push_cast; ring, zpow_sub_one₀ (by norm_num), zpow_natCast, pow_mul, hXq]; ring
  have k1 : (2 : ℚ) ^ ((4 * F - 1 : ℤ) - (2 * F : ℕ)) = (4 * h) ^ 2 / 2 := by
    rw [show (4 * F - 1 : ℤ) - (2 * F : ℕ) = ((F * 2 : ℕ) : ℤ) - 1 by push_cast; ring, zpow_sub_one₀ (by norm_num), zpow_natCast, pow_mul, hXq]; ring
  have k2 : (2 : ℚ) ^ ((4 * F - 1 : ℤ) - (4 * F + 1 : ℕ)) = 1 / 4 := by
    rw [show (4 * F - 1 : ℤ) - (4 * F + 1 : ℕ) = -2 by push_cast; ring]; norm_num
  have k3 : (2 : ℚ) ^ ((4 * F - 1 : ℤ) - (4 * F + 2 : ℕ)) = 1 / 8 := by
    rw [show (4 * F - 1 : ℤ) - (4 * F + 2 : ℕ) = -3 by push_cast; ring]; norm_num
  have s1 : ((6 * h - 1 : ℕ) : ℚ) = 6 * h - 1 := by rw [Nat.cast_sub (by omega)]; push_cast; ring
  have s2 : ((8 * h - 2 : ℕ) : ℚ) = 8 * h - 2 := by rw [Nat.cast_sub (by omega)]; push_cast; ring
  have s3 : ((8 * h - 1 : ℕ) : ℚ) = 8 * h - 1 := by rw [Nat.cast_sub (by omega)]; push_cast; ring
  have s4 : ((8 * h - 3 : ℕ) : ℚ) = 8 * h - 3 := by rw [Nat.cast_sub (by omega)]; push_cast; ring
  refine dot4_fails (by omega) (by omega) (3 * biasN E + 1) (4 * F + 2) ?_ ![0, 2 * F, 4 * F + 1, 4 * F + 2]
    ![4 * h + 2, 8 * h - 2, 4 * h + 3, 8 * h - 3] ![6 * h - 1, 4 * h + 1, 8 * h - 1, 8 * h - 2] rfl ?_ ?_ ?_ ?_
    ((4 * h) * (6 * h + 2) * ((4 * h) ^ 4 / 2)) ?_ ?_ ?_
  · have : (3 * biasN E + 1 : ℕ) + 0 ≤ 2 * (2 ^ E - 1) := by
      have h2 : ((2 ^ E : ℕ) : ℤ) = 2 ^ E := by push_cast; rfl
      omega
    omega
  · intro i; fin_cases i <;> simp <;> omega
  · intro i; fin_cases i <;> simp <;> omega
  · intro i; rw [hX, hX']; fin_cases i <;> simp <;> omega
  · intro i; rw [hX, hX']; fin_cases i <;> simp <;> omega
  · rw [jump_sig (by omega) (by omega)]
    have hq : (4 * (h : ℚ)) * (6 * h + 2) * ((4 * h) ^ 4 / 2) * 2 ^ (((3 * biasN E + 1 : ℕ) : ℤ) - 2 * bias E - (6 * F - 1)) =
        ((6 * h + 2 : ℕ) : ℚ) * 2 ^ (bias E + 1 - F) := by
      have : (2 : ℚ) ^ (((3 * biasN E + 1 : ℕ) : ℤ) - 2 * bias E - (6 * F - 1)) = 2 ^ (bias E + 1 - F) * (2 / ((4 * h) ^ 5)) := by
        rw [hb3, show 3 * bias E + 1 - 2 * bias E - (6 * F - 1) = (bias E + 1 - F) + (-((F * 5 : ℕ) : ℤ) + 1) by push_cast; ring,
          zpow_add₀ (by norm_num), zpow_add_one₀ (by norm_num), zpow_neg, zpow_natCast, pow_mul, hXq]
        ring
      rw [this]
      have : (h : ℚ) ≠ 0 := by positivity
      push_cast
      field_simp
    rw [hq]
    rcases Nat.eq_or_lt_of_le hh1 with h1 | h1
    · refine ⟨4, bias E + 2 - F, ⟨?_, ?_⟩, ?_, by omega, Or.inr ⟨by omega, ?_⟩⟩
      · rw [Nat.add_sub_cancel, hX]; omega
      · rw [hX']; omega
      · rw [← h1, show bias E + 2 - F = (bias E + 1 - F) + 1 by ring, zpow_add_one₀ (by norm_num)]
        push_cast; ring
      · rw [hX]; omega
    · refine ⟨6 * h + 2, bias E + 1 - F, ⟨?_, ?_⟩, rfl, by omega, Or.inl (by omega)⟩
      · rw [Nat.add_sub_cancel, hX]; omega
      · rw [hX']; omega
  · rw [Fin.sum_univ_four]
    show (⌊(((4 * h + 2) * (6 * h - 1) : ℕ) : ℚ) * 2 ^ ((4 * F - 1 : ℤ) - (0 : ℕ))⌋ : ℚ) +
      (⌊(((8 * h - 2) * (4 * h + 1) : ℕ) : ℚ) * 2 ^ ((4 * F - 1 : ℤ) - (2 * F : ℕ))⌋ : ℚ) +
      (⌊(((4 * h + 3) * (8 * h - 1) : ℕ) : ℚ) * 2 ^ ((4 * F - 1 : ℤ) - (4 * F + 1 : ℕ))⌋ : ℚ) +
      (⌊(((8 * h - 3) * (8 * h - 2) : ℕ) : ℚ) * 2 ^ ((4 * F - 1 : ℤ) - (4 * F + 2 : ℕ))⌋ : ℚ) < _
    rw [k0, k1, k2, k3]
    have f0 := Int.floor_le ((((4 * h + 2) * (6 * h - 1) : ℕ) : ℚ) * ((4 * h) ^ 4 / 2))
    have f1 := Int.floor_le ((((8 * h - 2) * (4 * h + 1) : ℕ) : ℚ) * ((4 * h) ^ 2 / 2))
    have f2 : ⌊(((4 * h + 3) * (8 * h - 1) : ℕ) : ℚ) * (1 / 4)⌋ = 8 * h ^ 2 + 5 * h - 1 := by
      rw [Int.floor_eq_iff, Nat.cast_mul, s3]; push_cast; constructor <;> nlinarith
    have f3 : ⌊(((8 * h - 3) * (8 * h - 2) : ℕ) : ℚ) * (1 / 8)⌋ = 8 * h ^ 2 - 5 * h := by
      rw [Int.floor_eq_iff, Nat.cast_mul, s4, s2]; push_cast; constructor <;> nlinarith
    rw [f2, f3]
    rw [Nat.cast_mul, s1] at f0
    rw [Nat.cast_mul, s2] at f1
    rw [Nat.cast_mul, s1, Nat.cast_mul, s2]
    push_cast at f0 f1 ⊢
    nlinarith
  · rw [Fin.sum_univ_four]
    show _ ≤ (((4 * h + 2) * (6 * h - 1) : ℕ) : ℚ) * 2 ^ ((4 * F - 1 : ℤ) - (0 : ℕ)) +
      (((8 * h - 2) * (4 * h + 1) : ℕ) : ℚ) * 2 ^ ((4 * F - 1 : ℤ) - (2 * F : ℕ)) +
      (((4 * h + 3) * (8 * h - 1) : ℕ) : ℚ) * 2 ^ ((4 * F - 1 : ℤ) - (4 * F + 1 : ℕ)) +
      (((8 * h - 3) * (8 * h - 2) : ℕ) : ℚ) * 2 ^ ((4 * F - 1 : ℤ) - (4 * F + 2 : ℕ))
    rw [k0, k1, k2, k3, Nat.cast_mul, Nat.cast_mul, Nat.cast_mul, Nat.cast_mul, s1, s2, s3, s4]
    push_cast
    exact le_of_eq (by ring)

/-- The failing operands for one fraction bit. -/
theorem dot4_fails_one {E : ℕ} (hE : 3 ≤ E) :
    ∃ (a b : Fin 4 → Fp E 1) (u v : Fin 4 → ℚ) (r : Fp E 1),
      (∀ i, (a i).datum = .num (u i) ∧ (b i).datum = .num (v i) ∧ 0 < u i ∧ 0 < v i) ∧
      (∀ i j, (a i).exp + (b i).exp ≤ (a j).exp + (b j).exp + (4 * 1 + 2)) ∧
      dot4 (a 0) (a 1) (a 2) (a 3) (b 0) (b 1) (b 2) (b 3) = some r ∧ ¬ RoundedDown E 1 (∑ i, u i * v i) r.datum := by
  obtain ⟨w1, w2⟩ := two_bias (E := E) (by omega)
  obtain ⟨c, hc⟩ : ∃ c, E = c + 3 := ⟨E - 3, by omega⟩
  have hbn : (biasN E : ℤ) = bias E := pow_bias
  have hE4 : 2 ^ E = 8 * 2 ^ c := by rw [hc, pow_add]; ring
  have hE4' : (2 : ℤ) ^ E = 8 * 2 ^ c := by exact_mod_cast hE4
  have h1 : 1 ≤ 2 ^ c := Nat.one_le_two_pow
  have h1' : (1 : ℤ) ≤ 2 ^ c := by exact_mod_cast h1
  refine dot4_fails (by omega) (by omega) (3 * biasN E) (4 * 1 + 2) ?_ ![0, 2, 4, 5] ![3, 3, 3, 3] ![3, 3, 3, 2] rfl ?_ ?_ ?_ ?_ 96 ?_ ?_ ?_
  · have h2 : ((2 ^ E : ℕ) : ℤ) = 2 ^ E := by push_cast; rfl
    omega
  · intro i; fin_cases i <;> simp <;> omega
  · intro i; fin_cases i <;> simp
  · intro i; fin_cases i <;> simp
  · intro i; fin_cases i <;> simp
  · rw [jump_sig (by omega) (by omega)]
    refine ⟨3, bias E, ⟨by norm_num, by norm_num⟩, ?_, by push_cast; omega, Or.inl (by push_cast; omega)⟩
    push_cast
    rw [hbn, show 3 * bias E - 2 * bias E - 5 = bias E - 5 by ring, zpow_sub₀ (by norm_num)]
    norm_num; ring
  · rw [Fin.sum_univ_four]; simp; norm_num
  · rw [Fin.sum_univ_four]; simp; norm_num

/-- **C33, finding.** In every format with `8*F + 4 ≤ 3*2^E` but that with two exponent bits and one fraction bit, there are eight positive numbers for
which `dot4_pos_rndd` does not return the sum of the products rounded down. Single and double precision are among these formats. -/
theorem C33_dot4_format_wrong {E F : ℕ} (hF : 1 ≤ F) (hw : 8 * F + 4 ≤ 3 * 2 ^ E) (hne : ¬ (E = 2 ∧ F = 1)) :
    ∃ (a b : Fin 4 → Fp E F) (u v : Fin 4 → ℚ) (r : Fp E F),
      (∀ i, (a i).datum = .num (u i) ∧ (b i).datum = .num (v i) ∧ 0 < u i ∧ 0 < v i) ∧
      (∀ i j, (a i).exp + (b i).exp ≤ (a j).exp + (b j).exp + (4 * F + 2)) ∧
      dot4 (a 0) (a 1) (a 2) (a 3) (b 0) (b 1) (b 2) (b 3) = some r ∧ ¬ RoundedDown E F (∑ i, u i * v i) r.datum := by
  rcases Nat.lt_or_ge 1 F with h | h
  · exact dot4_fails_two h hw
  · obtain rfl : F = 1 := by omega
    refine dot4_fails_one ?_
    by_contra hc
    have : 2 ^ E ≤ 2 ^ 2 := Nat.pow_le_pow_right (by norm_num) (by omega)
    have : E = 0 ∨ E = 1 ∨ E = 2 := by omega
    rcases this with rfl | rfl | rfl <;> simp at *

/-- The residues modulo 32 of `4`, `6` and `9` shifted left by up to four places. -/
def dot4Residues : List ℕ := [0, 4, 6, 8, 9, 12, 16, 18, 24]

theorem dot4_residues : ∀ r0 ∈ dot4Residues, ∀ r1 ∈ dot4Residues, ∀ r2 ∈ dot4Residues, ∀ r3 ∈ dot4Residues,
    (r0 % 16 = 0 ∨ r1 % 16 = 0 ∨ r2 % 16 = 0 ∨ r3 % 16 = 0) → r0 % 2 + r1 % 2 + r2 % 2 + r3 % 2 ≤ (r0 + r1 + r2 + r3) % 32 := by
  decide +kernel

/-- Two exponent bits and one fraction bit: no sum of products of `2` and `3`, at most four places apart, has a multiple of 32 just below it. -/
theorem dot4_two_one {t c : Fin 4 → ℕ} (ht : ∀ i, t i ≤ 4) (hc : ∀ i, c i = 4 ∨ c i = 6 ∨ c i = 9) (j : Fin 4) (hj : t j = 4) (q : ℕ)
    (h1 : 2 * ∑ i, c i * 2 ^ t i / 2 < 32 * q) (h2 : 32 * q ≤ ∑ i, c i * 2 ^ t i) : False := by
  have key : ∀ i, ∃ r k, c i * 2 ^ t i = r + 32 * k ∧ r ∈ dot4Residues ∧ (t i = 4 → r % 16 = 0) := by
    intro i
    have := ht i
    have h : t i = 0 ∨ t i = 1 ∨ t i = 2 ∨ t i = 3 ∨ t i = 4 := by omega
    rcases h with h | h | h | h | h <;> rcases hc i with h' | h' | h' <;> rw [h, h']
    · exact ⟨4, 0, by norm_num, by decide, by norm_num⟩
    · exact ⟨6, 0, by norm_num, by decide, by norm_num⟩
    · exact ⟨9, 0, by norm_num, by decide, by norm_num⟩
    · exact ⟨8, 0, by norm_num, by decide, by norm_num⟩
    · exact ⟨12, 0, by norm_num, by decide, by norm_num⟩
    · exact ⟨18, 0, by norm_num, by decide, by norm_num⟩
    · exact ⟨16, 0, by norm_num, by decide, by norm_num⟩
    · exact ⟨24, 0, by norm_num, by decide, by norm_num⟩
    · exact ⟨4, 1, by norm_num, by decide, by norm_num⟩
    · exact ⟨0, 1, by norm_num, by decide, by norm_num⟩
    · exact ⟨16, 1, by norm_num, by decide, by norm_num⟩
    · exact ⟨8, 2, by norm_num, by decide, by norm_num⟩
    · exact ⟨0, 2, by norm_num, by decide, by norm_num⟩
    · exact ⟨0, 3, by norm_num, by decide, by norm_num⟩
    · exact ⟨16, 4, by norm_num, by decide, by norm_num⟩
  choose r k hr hk hk' using key
  simp_rw [hr] at h1 h2
  rw [Fin.sum_univ_four] at h1 h2
  have hj0 := hk' j hj
  have := dot4_residues _ (hk 0) _ (hk 1) _ (hk 2) _ (hk 3) (by
    fin_cases j
    · exact Or.inl hj0
    · exact Or.inr (Or.inl hj0)
    · exact Or.inr (Or.inr (Or.inl hj0))
    · exact Or.inr (Or.inr (Or.inr hj0)))
  clear hj0 hk hk' hr ht hc
  generalize r 0 = r0 at *
  generalize r 1 = r1 at *
  generalize r 2 = r2 at *
  generalize r 3 = r3 at *
  generalize k 0 = k0 at *
  generalize k 1 = k1 at *
  generalize k 2 = k2 at *
  generalize k 3 = k3 at *
  omega

/-- **C33.** In the format with two exponent bits and one fraction bit it is right too. -/
theorem C33_dot4_format_two_one (a b : Fin 4 → Fp 2 1) (u v : Fin 4 → ℚ)
    (ha : ∀ i, (a i).datum = .num (u i)) (hb : ∀ i, (b i).datum = .num (v i)) (pa : ∀ i, 0 < u i) (pb : ∀ i, 0 < v i) :
    ∃ r, dot4 (a 0) (a 1) (a 2) (a 3) (b 0) (b 1) (b 2) (b 3) = some r ∧ RoundedDown 2 1 (∑ i, u i * v i) r.datum := by
  have hE : 1 ≤ 2 := by norm_num
  have hF : 1 ≤ 1 := le_refl _
  obtain ⟨j, -, hj⟩ := Finset.exists_max_image (Finset.univ : Finset (Fin 4)) (fun i => Int.log 2 (u i) + Int.log 2 (v i)) ⟨0, Finset.mem_univ _⟩
  obtain ⟨G, hG⟩ : ∃ G, G = Int.log 2 (u j) + Int.log 2 (v j) := ⟨_, rfl⟩
  have hG' : ∀ i, Int.log 2 (u i) + Int.log 2 (v i) ≤ G := fun i => by rw [hG]; exact hj i (Finset.mem_univ _)
  obtain ⟨r, hr, -⟩ := C33_dot4_value hE hF a b u v ha hb pa pb G ⟨j, hG⟩ hG'
  refine ⟨r, hr, (C33_dot4_iff hE hF a b u v ha hb pa pb G ⟨j, hG⟩ hG' r hr).mpr ?_⟩
  rintro ⟨s, hs, hT, hS⟩
  obtain ⟨hGs, hsp⟩ := dot4_jump_span hE hF a b u v ha hb pa pb G ⟨j, hG⟩ hs hT
  have hb1 : bias 2 = 1 := by norm_num [bias]
  rw [hb1] at hsp
  have hex : ∀ i, ∃ t : ℕ, t ≤ 4 ∧ (Int.log 2 (u i) + Int.log 2 (v i)) = G - 4 + t := fun i =>
    ⟨(Int.log 2 (u i) + Int.log 2 (v i) - (G - 4)).toNat, by have := hG' i; omega, by have := hsp i; omega⟩
  choose t ht htL using hex
  have hc : ∀ i, dotFrac (a i) (b i) = 4 ∨ dotFrac (a i) (b i) = 6 ∨ dotFrac (a i) (b i) = 9 := by
    intro i
    have h1 := (a i).frac_lt hF
    have h2 := (b i).frac_lt hF
    unfold dotFrac opadHi1
    have h3 : (a i).frac = 0 ∨ (a i).frac = 1 := by omega
    have h4 : (b i).frac = 0 ∨ (b i).frac = 1 := by omega
    rcases h3 with h3 | h3 <;> rcases h4 with h4 | h4 <;> rw [h3, h4] <;> norm_num
  have hp : (0 : ℚ) < 2 ^ (G - 6) := two_zpow_pos _
  have hval : ∀ i, u i * v i = ((dotFrac (a i) (b i) * 2 ^ t i : ℕ) : ℚ) * 2 ^ (G - 6) := fun i => by
    have hL : (dotExp (a i) (b i) : ℤ) - 2 * bias 2 = Int.log 2 (u i) + Int.log 2 (v i) := by
      rw [(dotExp_eq hE (a i) (b i)).1, log_datum hF (ha i) (pa i), log_datum hF (hb i) (pb i)]; push_cast; ring
    rw [dot_value hE (ha i) (hb i) (pa i) (pb i), hL, htL, show G - 4 + (t i : ℤ) - 2 * ((1 : ℕ) : ℤ) = (t i : ℤ) + (G - 6) by push_cast; ring,
      zpow_add₀ (by norm_num), zpow_natCast]
    push_cast; ring
  have hw5 : (2 : ℚ) ^ (G - (6 * ((1 : ℕ) : ℤ) - 1)) = 2 * 2 ^ (G - 6) := by
    rw [show G - (6 * ((1 : ℕ) : ℤ) - 1) = (G - 6) + 1 by push_cast; ring, zpow_add_one₀ (by norm_num)]; ring
  have hfl : ∀ i, ⌊u i * v i / 2 ^ (G - (6 * ((1 : ℕ) : ℤ) - 1))⌋ = ((dotFrac (a i) (b i) * 2 ^ t i / 2 : ℕ) : ℤ) := fun i => by
    have hq : u i * v i / 2 ^ (G - (6 * ((1 : ℕ) : ℤ) - 1)) = ((dotFrac (a i) (b i) * 2 ^ t i : ℕ) : ℚ) / (2 : ℕ) := by
      rw [hw5, hval]; field_simp; norm_num
    rw [hq, Rat.floor_natCast_div_natCast]
    push_cast; rfl
  have hT' : ((2 * ∑ i, (dotFrac (a i) (b i) * 2 ^ t i / 2) : ℕ) : ℚ) * 2 ^ (G - 6) < s := by
    refine lt_of_le_of_lt (le_of_eq ?_) hT
    simp_rw [hfl, hw5]
    rw [← Finset.sum_mul, Nat.cast_mul, Nat.cast_sum]
    simp only [Int.cast_natCast, Nat.cast_ofNat]
    ring
  have hS' : s ≤ ((∑ i, (dotFrac (a i) (b i) * 2 ^ t i) : ℕ) : ℚ) * 2 ^ (G - 6) := by
    refine hS.trans (le_of_eq ?_)
    simp_rw [hval]
    rw [← Finset.sum_mul]
    push_cast
    rfl
  obtain ⟨m, e, hm, rfl, -, -⟩ := (jump_sig hE hF).mp hs
  have he : G - 1 ≤ e := by
    by_contra hc'
    have h4 : (m : ℚ) ≤ 4 := by have := hm.2.le; exact_mod_cast this
    have h5 : (2 : ℚ) ^ e ≤ 2 ^ (G - 2) := zpow_le_zpow_right₀ (by norm_num) (by omega)
    have h6 : (2 : ℚ) ^ G = 4 * 2 ^ (G - 2) := by
      rw [show G = (G - 2) + 2 by ring, zpow_add₀ (by norm_num)]; norm_num; ring
    have := mul_le_mul h4 h5 (two_zpow_pos e).le (by norm_num)
    linarith
  obtain ⟨n, hn⟩ : ∃ n : ℕ, e = (n : ℤ) + 5 + (G - 6) := ⟨(e - (G - 1)).toNat, by omega⟩
  have hse : (m : ℚ) * 2 ^ e = ((32 * (m * 2 ^ n) : ℕ) : ℚ) * 2 ^ (G - 6) := by
    rw [hn, zpow_add₀ (by norm_num), zpow_add₀ (by norm_num), zpow_natCast]; push_cast; norm_num; ring
  rw [hse] at hT' hS'
  have h1 := lt_of_mul_lt_mul_right hT' hp.le
  have h2 := le_of_mul_le_mul_right hS' hp
  exact dot4_two_one (j := j) ht hc (by have := htL j; omega) (m * 2 ^ n) (by exact_mod_cast h1) (by exact_mod_cast h2)

/-- **C33, exactly the formats.** `dot4_pos_rndd` returns the exact sum of the four products rounded down once for all positive operands if and only
if `3*2^E < 8*F + 4`, or the format has two exponent bits and one fraction bit. -/
theorem C33_dot4_format_iff {E F : ℕ} (hE : 1 ≤ E) (hF : 1 ≤ F) :
    (∀ (a b : Fin 4 → Fp E F) (u v : Fin 4 → ℚ), (∀ i, (a i).datum = .num (u i)) → (∀ i, (b i).datum = .num (v i)) → (∀ i, 0 < u i) →
      (∀ i, 0 < v i) → ∃ r, dot4 (a 0) (a 1) (a 2) (a 3) (b 0) (b 1) (b 2) (b 3) = some r ∧ RoundedDown E F (∑ i, u i * v i) r.datum) ↔
    3 * 2 ^ E < 8 * F + 4 ∨ (E = 2 ∧ F = 1) := by
  constructor
  · intro h
    by_contra hc
    push Not at hc
    obtain ⟨a, b, u, v, r, hab, -, hr, hn⟩ := C33_dot4_format_wrong hF hc.1 (fun h' => hc.2 h'.1 h'.2)
    obtain ⟨r', hr', hd⟩ := h a b u v (fun i => (hab i).1) (fun i => (hab i).2.1) (fun i => (hab i).2.2.1) (fun i => (hab i).2.2.2)
    rw [hr] at hr'
    exact hn (by rw [Option.some.inj hr']; exact hd)
  · rintro (h | ⟨rfl, rfl⟩) a b u v ha hb pa pb
    · exact C33_dot4_format_right hE hF h a b u v ha hb pa pb
    · exact C33_dot4_format_two_one a b u v ha hb pa pb

/-- Non-vacuity: half precision is not among the right formats; five exponent and twelve fraction bits are. -/
example : ¬ (3 * 2 ^ 5 < 8 * 10 + 4) ∧ 3 * 2 ^ 5 < 8 * 12 + 4 := by decide

end Thls
