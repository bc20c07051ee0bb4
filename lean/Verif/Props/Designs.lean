import Verif.Props.Bench
import Verif.Model.Designs

/-! # C84: the benchmark designs that are built, on all inputs -/

namespace Thls

open Spec

/-- One product of the round traits on exceptional factors. -/
theorem round_product_special {AE AF LE LF RE RF : ℕ} (hLE : 1 ≤ LE) (hLF : 1 ≤ LF) (hRE : 1 ≤ RE) (hRF : 1 ≤ RF) (hL : LE ≤ AE) (hR : RE ≤ AE)
    (hE : 2 ≤ AE) (hF : max LF RF ≤ AF) (x : Fp LE LF) (y : Fp RE RF) :
    ∃ p, mulV1 AE (max LF RF) (promote AE LF x) (promote AE RF y) = some p ∧
      (x.datum = .nan ∨ y.datum = .nan → (promote AE AF p).datum = .nan) ∧
      (x.datum.fin = none ∨ y.datum.fin = none → (promote AE AF p).datum.fin = none) := by
  obtain ⟨p, hp⟩ := mulV1_total (wFR := max LF RF) (promote AE LF x) (promote AE RF y)
  have hd : (promote AE AF p).datum = p.datum := promote_datum (by omega) (by omega) le_rfl hF p
  have hx : (promote AE LF x).datum = x.datum := promote_datum hLE hLF hL le_rfl x
  have hy : (promote AE RF y).datum = y.datum := promote_datum hRE hRF hR le_rfl y
  refine ⟨p, hp, fun h => ?_, fun h => ?_⟩
  · rw [hd]
    exact C12_mul_exceptions (by omega) (by omega) (by omega) _ _ _ hp _ (by rw [hx, hy]; exact mulSpecial_nan_of h)
  · rw [hd]
    obtain ⟨d, h1, h2⟩ := mulSpecial_sticky h
    rw [C12_mul_exceptions (by omega) (by omega) (by omega) _ _ _ hp d (by rw [hx, hy]; exact h1)]; exact h2

theorem four_cases (i : Fin 4) : i = 0 ∨ i = 1 ∨ i = 2 ∨ i = 3 := by revert i; decide

/-- **C84.** Exceptional inputs of `dot_product_par4` with the round traits, in any formats whose accumulator is wide enough: a value is
returned for all inputs; if a factor is NaN it is NaN; if a factor is NaN or infinite it is NaN or infinite. -/
theorem C84_par4_round_exceptions {AE AF LE LF RE RF : ℕ} (hLE : 1 ≤ LE) (hLF : 1 ≤ LF) (hRE : 1 ≤ RE) (hRF : 1 ≤ RF) (hL : LE ≤ AE)
    (hR : RE ≤ AE) (hE : 2 ≤ AE) (hF : max LF RF ≤ AF) (h1 : AF + 3 < 2 ^ AE) (h2 : AF + 3 ≠ 2 ^ (AE - 1))
    (p : Fin 4 → Fp LE LF × Fp RE RF) :
    ∃ r, roundPar4 AE AF (p 0) (p 1) (p 2) (p 3) = some r ∧
      ((∃ i, (p i).1.datum = .nan ∨ (p i).2.datum = .nan) → r.datum = .nan) ∧
      ((∃ i, (p i).1.datum.fin = none ∨ (p i).2.datum.fin = none) → r.datum.fin = none) := by
  have hA := single_adder hE (by omega) h1 h2
  obtain ⟨q0, e0, n0, s0⟩ := round_product_special hLE hLF hRE hRF hL hR hE hF (p 0).1 (p 0).2
  obtain ⟨q1, e1, n1, s1⟩ := round_product_special hLE hLF hRE hRF hL hR hE hF (p 1).1 (p 1).2
  obtain ⟨q2, e2, n2, s2⟩ := round_product_special hLE hLF hRE hRF hL hR hE hF (p 2).1 (p 2).2
  obtain ⟨q3, e3, n3, s3⟩ := round_product_special hLE hLF hRE hRF hL hR hE hF (p 3).1 (p 3).2
  obtain ⟨a, ha⟩ := hA.total (promote AE AF q0) (promote AE AF q1)
  obtain ⟨b, hb⟩ := hA.total (promote AE AF q2) (promote AE AF q3)
  obtain ⟨r, hr⟩ := hA.total a b
  refine ⟨r, ?_, ?_, ?_⟩
  · simp only [roundPar4, roundDot2, e0, e1, e2, e3, Option.bind_some, ha, hb, hr]
  · rintro ⟨i, h⟩
    refine hA.nan _ _ _ hr ?_
    rcases four_cases i with rfl | rfl | rfl | rfl
    · exact Or.inl (hA.nan _ _ _ ha (Or.inl (n0 h)))
    · exact Or.inl (hA.nan _ _ _ ha (Or.inr (n1 h)))
    · exact Or.inr (hA.nan _ _ _ hb (Or.inl (n2 h)))
    · exact Or.inr (hA.nan _ _ _ hb (Or.inr (n3 h)))
  · rintro ⟨i, h⟩
    refine hA.sticky _ _ _ hr ?_
    rcases four_cases i with rfl | rfl | rfl | rfl
    · exact Or.inl (hA.sticky _ _ _ ha (Or.inl (s0 h)))
    · exact Or.inl (hA.sticky _ _ _ ha (Or.inr (s1 h)))
    · exact Or.inr (hA.sticky _ _ _ hb (Or.inl (s2 h)))
    · exact Or.inr (hA.sticky _ _ _ hb (Or.inr (s3 h)))

/-- **C84.** Exceptional entries of `mat_mul` with the round traits, for any matrix size, when the factors have the accumulator's exponent
width: every entry of the product is returned; it is NaN if the row or the column contains a NaN, and NaN or infinite if they contain a
NaN or an infinity. -/
theorem C84_mat_mul_round_exceptions {AE AF LF RF n : ℕ} (hLF : 1 ≤ LF) (hRF : 1 ≤ RF) (hE : 2 ≤ AE) (hF : max LF RF ≤ AF)
    (h1 : AF + 3 < 2 ^ AE) (h2 : AF + 3 ≠ 2 ^ (AE - 1)) (left : Fin n → Fin n → Fp AE LF) (right : Fin n → Fin n → Fp AE RF) (r c : Fin n) :
    ∃ z : Fp AE AF, matMulEntry roundAddMul left right r c = some z ∧
      ((∃ i, (left r i).datum = .nan ∨ (right i c).datum = .nan) → z.datum = .nan) ∧
      ((∃ i, (left r i).datum.fin = none ∨ (right i c).datum.fin = none) → z.datum.fin = none) := by
  have hA := single_adder hE (by omega) h1 h2
  have hmul : ∀ i, ∃ p, mulV1 AE (max LF RF) (left r i) (right i c) = some p := fun i => mulV1_total _ _
  have hd : ∀ p : Fp AE (max LF RF), (promote AE AF p).datum = p.datum := fun p => promote_datum (by omega) (by omega) le_rfl hF p
  obtain ⟨ps, hps, hfold⟩ := foldlM_terms (f := fun i => (mulV1 AE (max LF RF) (left r i) (right i c)).map (promote AE AF))
    (add := AddSingle.addSame (wE := AE) (wF := AF)) (fun i => by obtain ⟨p, hp⟩ := hmul i; exact ⟨promote AE AF p, by rw [hp]; rfl⟩)
    (List.finRange n)
  obtain ⟨z, hz⟩ := hA.fold_total ps (Fp.default AE AF)
  have hex : ∀ i, ∃ w ∈ ps, (mulV1 AE (max LF RF) (left r i) (right i c)).map (promote AE AF) = some w := by
    intro i
    have hi : i ∈ List.finRange n := List.mem_finRange i
    clear hfold hz
    generalize List.finRange n = l at *
    induction hps with
    | nil => cases hi
    | cons h hrest ih =>
      rename_i q w l zs
      rcases List.mem_cons.mp hi with rfl | hi
      · exact ⟨w, by simp, h⟩
      · obtain ⟨w', g1, g2⟩ := ih hi; exact ⟨w', by simp [g1], g2⟩
  refine ⟨z, ?_, ?_, ?_⟩
  · rw [← hz, ← hfold, matMulEntry]
    congr 1
    funext acc i
    rw [roundAddMul, Option.bind_map]; rfl
  · rintro ⟨i, h⟩
    obtain ⟨w, hw, he⟩ := hex i
    obtain ⟨p, hp, rfl⟩ := Option.map_eq_some_iff.mp he
    refine hA.fold_nan hz (Or.inr ⟨_, hw, ?_⟩)
    rw [hd]
    exact C12_mul_exceptions (by omega) (by omega) (by omega) _ _ _ hp _ (mulSpecial_nan_of h)
  · rintro ⟨i, h⟩
    obtain ⟨w, hw, he⟩ := hex i
    obtain ⟨p, hp, rfl⟩ := Option.map_eq_some_iff.mp he
    refine hA.fold_sticky hz (Or.inr ⟨_, hw, ?_⟩)
    obtain ⟨d, g1, g2⟩ := mulSpecial_sticky h
    rw [hd, C12_mul_exceptions (by omega) (by omega) (by omega) _ _ _ hp d g1]; exact g2

/-- **C84.** Each of the eleven four-element dot products built with the round traits: for all inputs a value is returned; it is NaN if a
factor is, not finite if a factor is not; and if it is finite it is within `3·2^-F · Σ|l_i r_i| + 13·2^-bias` of the exact dot product,
`F` the wider of the factors' fractions and `bias` the accumulator's. -/
theorem C84_par4_round_designs (d : Design) (hd : d ∈ Design.par4Round) (p : Fin 4 → Fp d.LE d.LF × Fp d.RE d.RF) :
    ∃ r, roundPar4 d.AE d.AF (p 0) (p 1) (p 2) (p 3) = some r ∧
      ((∃ i, (p i).1.datum = .nan ∨ (p i).2.datum = .nan) → r.datum = .nan) ∧
      ((∃ i, (p i).1.datum.fin = none ∨ (p i).2.datum.fin = none) → r.datum.fin = none) ∧
      ∀ a b : Fin 4 → ℚ, (∀ i, (p i).1.datum.fin = some (a i)) → (∀ i, (p i).2.datum.fin = some (b i)) → ∀ s, r.datum.fin = some s →
        |s - ∑ i, a i * b i| ≤ 3 * 2 ^ (-((max d.LF d.RF : ℕ) : ℤ)) * (∑ i, |a i * b i|) + 13 * 2 ^ (-bias d.AE) := by
  have hfit : 1 ≤ d.LE ∧ 1 ≤ d.LF ∧ 1 ≤ d.RE ∧ 1 ≤ d.RF ∧ d.LE ≤ d.AE ∧ d.RE ≤ d.AE ∧ 2 ≤ d.AE ∧ max d.LF d.RF ≤ d.AF ∧
      d.AF + 3 < 2 ^ d.AE ∧ d.AF + 3 ≠ 2 ^ (d.AE - 1) ∧ 10 ≤ max d.LF d.RF := by
    clear p
    revert d
    decide +kernel
  obtain ⟨hLE, hLF, hRE, hRF, hL, hR, hE, hF, h1, h2, h10⟩ := hfit
  obtain ⟨r, hr, hn, hs⟩ := C84_par4_round_exceptions hLE hLF hRE hRF hL hR hE hF h1 h2 p
  refine ⟨r, hr, hn, hs, ?_⟩
  intro a b ha hb s hfin
  obtain ⟨r', hr', herr, -⟩ := C58_par4_round_error hLE hLF hRE hRF hL hR hE hF h1 h2 p a b ha hb
  rw [hr] at hr'
  obtain rfl := Option.some.inj hr'
  refine le_trans (herr s hfin) ?_
  have hS : 0 ≤ ∑ i, |a i * b i| := Finset.sum_nonneg fun i _ => abs_nonneg _
  have hu : uro d.AF ≤ uro (max d.LF d.RF) := zpow_le_zpow_right₀ (by norm_num) (by omega)
  have hu0 := uro_pos d.AF
  have hw0 := uro_pos (max d.LF d.RF)
  have hw : uro (max d.LF d.RF) ≤ 1 / 2048 := by
    have : (2 : ℚ) ^ (-((max d.LF d.RF : ℕ) : ℤ) - 1) ≤ 2 ^ (-11 : ℤ) := zpow_le_zpow_right₀ (by norm_num) (by omega)
    unfold uro
    norm_num at this ⊢
    exact this
  have he : (2 : ℚ) ^ (-((max d.LF d.RF : ℕ) : ℤ)) = 2 * uro (max d.LF d.RF) := by
    unfold uro
    rw [← zpow_one_add₀ (by norm_num)]
    congr 1
    push_cast; ring
  rw [he]
  unfold minPos
  generalize uro d.AF = u at *
  generalize uro (max d.LF d.RF) = w at *
  have : (1 + 2 * u) ^ 2 * (1 + w) - 1 ≤ 3 * (2 * w) := by
    have e1 : (1 + 2 * u) ^ 2 ≤ (1 + 2 * w) ^ 2 := pow_le_pow_left₀ (by linarith) (by linarith) 2
    have e2 : (1 + 2 * u) ^ 2 * (1 + w) ≤ (1 + 2 * w) ^ 2 * (1 + w) := mul_le_mul_of_nonneg_right e1 (by linarith)
    nlinarith [mul_pos hw0 hw0, mul_pos hw0 (mul_pos hw0 hw0)]
  have := mul_le_mul_of_nonneg_right this hS
  linarith

/-- **C84, where it fails.** Each of the three four-element dot products built with the full traits violates a precondition of the
multiplier on every input. -/
theorem C84_par4_full_designs_assert (d : Design) (hd : d ∈ Design.par4Full)
    (p0 p1 p2 p3 : Fp d.LE d.LF × Fp d.LE d.RF) : fullPar4 d.AE d.AF p0 p1 p2 p3 = none := by
  have hlt : d.LE < d.AE := by clear p0 p1 p2 p3; revert d; decide +kernel
  exact (C58_wider_accumulator_asserts hlt p0 p1 p2 p3 (Fp.default d.AE d.AF) (n := 0) (fun _ _ => p0.1) (fun _ _ => p0.2) 0 0).2.2.1

/-- In all the designs with the full traits, and all matrix products, the factors share a format, as the type of the kernels asks. -/
theorem designs_same_factors : ∀ d ∈ Design.par4Full ++ Design.matRound ++ Design.matFull, d.LE = d.RE ∧ d.LF = d.RF := by
  decide +kernel

/-- **C84.** The designs written out: exponent and fraction bits of the accumulator and of the two factors, one triple for each source
file, named after the total widths. -/
theorem C84_designs_listed :
    Design.par4Round.map (fun d => ((d.AE, d.AF), (d.LE, d.LF), (d.RE, d.RF))) =
      [((5, 10), (5, 10), (5, 10)), ((7, 16), (5, 10), (5, 10)), ((7, 16), (7, 16), (7, 16)), ((8, 23), (5, 10), (5, 10)),
       ((8, 23), (8, 23), (5, 10)), ((8, 23), (8, 23), (8, 23)), ((9, 38), (7, 16), (7, 16)), ((9, 38), (9, 38), (9, 38)),
       ((11, 52), (8, 23), (8, 23)), ((11, 52), (11, 52), (8, 23)), ((11, 52), (11, 52), (11, 52))] ∧
    Design.par4Full.map (fun d => ((d.AE, d.AF), (d.LE, d.LF), (d.RE, d.RF))) =
      [((7, 16), (5, 10), (5, 10)), ((8, 23), (5, 10), (5, 10)), ((11, 52), (8, 23), (8, 23))] ∧
    Design.matRound.map (fun d => ((d.AE, d.AF), (d.LE, d.LF), (d.RE, d.RF))) =
      [((5, 10), (5, 10), (5, 10)), ((8, 23), (5, 10), (5, 10)), ((8, 23), (8, 23), (8, 23)), ((11, 52), (8, 23), (8, 23)),
       ((11, 52), (11, 52), (11, 52))] ∧
    Design.matFull.map (fun d => ((d.AE, d.AF), (d.LE, d.LF), (d.RE, d.RF))) =
      [((8, 23), (5, 10), (5, 10)), ((11, 52), (8, 23), (8, 23))] := by decide +kernel

/-- **C84, where it fails.** The two matrix products built with the full traits violate a precondition on every input. -/
theorem C84_mat_full_designs_assert (d : Design) (hd : d ∈ Design.matFull) (left right : Fin 16 → Fin 16 → Fp d.LE d.LF) (r c : Fin 16) :
    matMulEntry (AE := d.AE) (AF := d.AF) fullAddMul left right r c = none := by
  have hlt : d.LE < d.AE := by clear left right; revert d; decide +kernel
  exact (C58_wider_accumulator_asserts hlt (left 0 0, right 0 0) (left 0 0, right 0 0) (left 0 0, right 0 0) (left 0 0, right 0 0)
    (Fp.default d.AE d.AF) (n := 15) left right r c).2.2.2.2.1

/-- **C84.** The matrix products built with the round traits: with an accumulator wider than the factors every entry violates a
precondition, on every input; otherwise every entry of the product of any two matrices is returned, is NaN if its row or column contains
one, and if finite is within `16·2^-F · Σ|l_i r_i| + 5·2^(F-bias)` of the exact entry. -/
theorem C84_mat_round_designs (d : Design) (hd : d ∈ Design.matRound) (left right : Fin 16 → Fin 16 → Fp d.LE d.LF) (r c : Fin 16) :
    if d.LE < d.AE then matMulEntry (AE := d.AE) (AF := d.AF) roundAddMul left right r c = none
    else ∃ z : Fp d.AE d.AF, matMulEntry roundAddMul left right r c = some z ∧
      ((∃ i, (left r i).datum = .nan ∨ (right i c).datum = .nan) → z.datum = .nan) ∧
      ((∃ i, (left r i).datum.fin = none ∨ (right i c).datum.fin = none) → z.datum.fin = none) ∧
      ∀ a b : Fin 16 → Fin 16 → ℚ, (∀ r i, (left r i).datum.fin = some (a r i)) → (∀ i c, (right i c).datum.fin = some (b i c)) →
        ∀ s, z.datum.fin = some s →
          |s - ∑ i, a r i * b i c| ≤ 16 * 2 ^ (-(d.LF : ℤ)) * (∑ i, |a r i * b i c|) + 5 * 2 ^ ((d.AF : ℤ) - bias d.AE) := by
  by_cases hlt : d.LE < d.AE
  · rw [if_pos hlt]
    exact (C58_wider_accumulator_asserts hlt (left 0 0, right 0 0) (left 0 0, right 0 0) (left 0 0, right 0 0) (left 0 0, right 0 0)
      (Fp.default d.AE d.AF) (n := 15) left right r c).2.2.2.2.2
  · rw [if_neg hlt]
    have hfit : d.LE = d.AE ∧ d.LF = d.AF ∧ 10 ≤ d.AF ∧ 2 ≤ d.AE ∧ d.AF + 3 < 2 ^ d.AE ∧ d.AF + 3 ≠ 2 ^ (d.AE - 1) := by
      clear left right
      revert d
      decide +kernel
    obtain ⟨AE, AF, LE, LF, RE, RF⟩ := d
    dsimp only at *
    obtain ⟨rfl, rfl, h10, hE, h1, h2⟩ := hfit
    obtain ⟨z, hz, hn, hs⟩ := C84_mat_mul_round_exceptions (by omega) (by omega) hE (le_of_eq (max_self LF)) h1 h2 left right r c
    refine ⟨z, hz, hn, hs, ?_⟩
    intro a b ha hb s hfin
    obtain ⟨z', hz', herr, -⟩ := C58_mat_mul_round_error (by omega) (by omega) hE (le_of_eq (max_self LF)) h1 h2 left right a b ha hb r c
    rw [hz] at hz'
    obtain rfl := Option.some.inj hz'
    refine le_trans (herr s hfin) ?_
    rw [max_self]
    have hS : 0 ≤ ∑ i, |a r i * b i c| := Finset.sum_nonneg fun i _ => abs_nonneg _
    have hw0 := uro_pos LF
    have hw : uro LF ≤ 1 / 2048 := by
      have : (2 : ℚ) ^ (-(LF : ℤ) - 1) ≤ 2 ^ (-11 : ℤ) := zpow_le_zpow_right₀ (by norm_num) (by omega)
      unfold uro
      norm_num at this ⊢
      exact this
    have he : (2 : ℚ) ^ (-(LF : ℤ)) = 2 * uro LF := by
      unfold uro
      rw [← zpow_one_add₀ (by norm_num)]
      congr 1
      ring
    have hm : minPos LE / (2 * uro LF) = 2 ^ ((LF : ℤ) - bias LE) := by
      rw [← he]
      unfold minPos
      rw [← zpow_sub₀ (by norm_num)]
      congr 1
      ring
    rw [he, hm]
    have hp : (0 : ℚ) < 2 ^ ((LF : ℤ) - bias LE) := two_zpow_pos _
    generalize uro LF = w at *
    generalize (2 : ℚ) ^ ((LF : ℤ) - bias LE) = m at *
    -- (1+2w)^15 is at most 1 + 30.5 w
    have p2 : (1 + 2 * w) ^ 2 ≤ 1 + 4.01 * w := by nlinarith
    have p4 : (1 + 2 * w) ^ 4 ≤ 1 + 8.03 * w := by
      have : (1 + 2 * w) ^ 4 = ((1 + 2 * w) ^ 2) ^ 2 := by ring
      rw [this]
      have := pow_le_pow_left₀ (by positivity) p2 2
      nlinarith
    have p8 : (1 + 2 * w) ^ 8 ≤ 1 + 16.1 * w := by
      have : (1 + 2 * w) ^ 8 = ((1 + 2 * w) ^ 4) ^ 2 := by ring
      rw [this]
      have := pow_le_pow_left₀ (by positivity) p4 2
      nlinarith
    have p16 : (1 + 2 * w) ^ 16 ≤ 1 + 32.4 * w := by
      have : (1 + 2 * w) ^ 16 = ((1 + 2 * w) ^ 8) ^ 2 := by ring
      rw [this]
      have := pow_le_pow_left₀ (by positivity) p8 2
      nlinarith
    have p15 : (1 + 2 * w) ^ 15 * (1 + w) ≤ 1 + 32 * w := by
      have e : (1 + 2 * w) ^ 15 * (1 + w) * (1 + 2 * w) = (1 + 2 * w) ^ 16 * (1 + w) := by ring
      have e2 : (1 + 2 * w) ^ 16 * (1 + w) ≤ (1 + 32.4 * w) * (1 + w) := mul_le_mul_of_nonneg_right p16 (by linarith)
      by_contra hc
      push Not at hc
      have := mul_lt_mul_of_pos_right hc (show 0 < 1 + 2 * w by linarith)
      nlinarith
    have p15' : (1 + 2 * w) ^ 15 ≤ 5 / 4 := by
      have : (1 + 2 * w) ^ 15 * 1 ≤ (1 + 2 * w) ^ 15 * (1 + w) := mul_le_mul_of_nonneg_left (by linarith) (by positivity)
      linarith
    have q1 := mul_le_mul_of_nonneg_right (show (1 + 2 * w) ^ (16 - 1) * (1 + w) - 1 ≤ 16 * (2 * w) by norm_num; linarith) hS
    have q2 := mul_le_mul_of_nonneg_right (show 4 * (1 + 2 * w) ^ (16 - 1) ≤ 5 by norm_num; linarith) hp.le
    linarith

/-- The lists are not empty, and single precision accumulating half precision is among the designs that work and those that do not. -/
example : Design.of Design.hls32 Design.hls16 Design.hls16 ∈ Design.par4Round ∧ Design.of Design.hls32 Design.hls16 Design.hls16 ∈ Design.par4Full ∧
    Design.of Design.hls32 Design.hls16 Design.hls16 ∈ Design.matFull ∧ Design.of Design.hls32 Design.hls32 Design.hls32 ∈ Design.matRound := by
  decide +kernel

/-- A NaN among the factors, and the same inputs with 1 instead: NaN and 4. -/
example : (roundPar4 8 23 (Fp.mk4 5 10 1 0 15 0, Fp.mk4 5 10 3 0 0 0) (Fp.mk4 5 10 1 0 15 0, Fp.mk4 5 10 1 0 15 0)
      (Fp.mk4 5 10 1 0 15 0, Fp.mk4 5 10 1 0 15 0) (Fp.mk4 5 10 1 0 15 0, Fp.mk4 5 10 1 0 15 0)).map Fp.flags = some 3 ∧
    roundPar4 8 23 (Fp.mk4 5 10 1 0 15 0, Fp.mk4 5 10 1 0 15 0) (Fp.mk4 5 10 1 0 15 0, Fp.mk4 5 10 1 0 15 0)
      (Fp.mk4 5 10 1 0 15 0, Fp.mk4 5 10 1 0 15 0) (Fp.mk4 5 10 1 0 15 0, Fp.mk4 5 10 1 0 15 0) = some (Fp.mk4 8 23 1 0 129 0) := by
  decide +kernel

end Thls
