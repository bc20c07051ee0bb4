import Verif.Model.Inv
import Verif.Proofs.Pack
import Mathlib.Data.Nat.Prime.Basic
import Mathlib.Algebra.GCDMonoid.Nat

/-! # The integer part of the reciprocal: the starter table and the Newton steps -/

namespace Thls.Inv

/-- The rounding of the Newton step: to within half a unit, except that three quarters above an even number are
rounded down. -/
theorem roundFrac_spec {wR D x : ℕ} (hD : 2 ≤ D) (hx : x < 2 ^ (wR - 1 + D)) (hwR : 1 ≤ wR) :
    ∃ r, roundFrac wR (wR + D) x = (r, false) ∧
      ((r * 2 ^ D ≤ x + 2 ^ (D - 1) ∧ x ≤ r * 2 ^ D + 2 ^ (D - 1)) ∨
       (r % 2 = 0 ∧ x = r * 2 ^ D + 3 * 2 ^ (D - 2))) := by
  obtain ⟨d, rfl⟩ := Nat.exists_eq_add_of_le' hD
  obtain ⟨w, rfl⟩ := Nat.exists_eq_add_of_le' hwR
  unfold roundFrac
  have n1 : ¬ (w + 1 ≥ w + 1 + (d + 2)) := by omega
  have n2 : ¬ (w + 1 + 1 = w + 1 + (d + 2)) := by omega
  rw [if_neg n1, if_neg n2]
  have e1 : w + 1 + (d + 2) - (w + 1) = d + 2 := by omega
  simp only [e1, getBit, addW, Nat.add_sub_cancel] at hx ⊢
  have e2 : d + 2 - 1 = d + 1 := by omega
  rw [e2]
  set h := x / 2 ^ (d + 2) with hh
  have hlt : h < 2 ^ w := by
    rw [hh, Nat.div_lt_iff_lt_mul (by positivity), ← pow_add]; exact hx
  have hxs : x = h * (4 * 2 ^ d) + x % (4 * 2 ^ d) := by
    rw [hh, show 2 ^ (d + 2) = 4 * 2 ^ d by ring]
    rw [Nat.mul_comm (x / _)]; exact (Nat.div_add_mod _ _).symm
  have hg : x / 2 ^ (d + 1) % 2 = x % (4 * 2 ^ d) / (2 * 2 ^ d) := by
    rw [show 4 * 2 ^ d = 2 ^ (d + 1) * 2 by ring, show 2 * 2 ^ d = 2 ^ (d + 1) by ring, Nat.mod_mul_right_div_self]
  have hs : x % 2 ^ d = x % (4 * 2 ^ d) % 2 ^ d := by
    rw [Nat.mod_mod_of_dvd]; exact ⟨4, by ring⟩
  rw [hg, hs]
  have hml : x % (4 * 2 ^ d) < 4 * 2 ^ d := Nat.mod_lt _ (by positivity)
  set l := x % (4 * 2 ^ d) with hl
  set P := 2 ^ d with hP
  have hP0 : 0 < P := by rw [hP]; positivity
  have eP2 : 2 ^ (d + 2) = 4 * P := by rw [hP]; ring
  have eP1 : 2 ^ (d + 1) = 2 * P := by rw [hP]; ring
  rw [eP2, eP1]
  have fin : ∀ c : ℕ, c ≤ 1 → (h + c) % 2 ^ (w + 1 + 1) % 2 ^ (w + 1) = h + c ∧
      decide ((h + c) % 2 ^ (w + 1 + 1) / 2 ^ (w + 1) % 2 = 1) = false := by
    intro c hc
    have : 2 ^ (w + 1) = 2 * 2 ^ w := by ring
    have : 2 ^ (w + 1 + 1) = 4 * 2 ^ w := by ring
    have : 0 < 2 ^ w := by positivity
    have h1 : h + c < 2 ^ (w + 1) := by omega
    rw [Nat.mod_eq_of_lt (by omega : h + c < 2 ^ (w + 1 + 1)), Nat.mod_eq_of_lt h1, Nat.div_eq_of_lt h1]
    simp
  rcases Nat.lt_or_ge l (2 * P) with hlow | hhigh
  · -- below half
    have hg0 : l / (2 * P) = 0 := Nat.div_eq_of_lt hlow
    rw [hg0]
    simp only [Nat.zero_ne_one, decide_false, Bool.false_and, ite_self, Bool.false_eq_true, if_false]
    refine ⟨h, ?_, Or.inl ⟨?_, ?_⟩⟩
    · have := fin 0 (by omega); rw [this.1, this.2, Nat.add_zero]
    · rw [hxs]; omega
    · rw [hxs]; omega
  · have hg1 : l / (2 * P) = 1 := by
      apply Nat.div_eq_of_lt_le <;> omega
    rw [hg1]
    simp only [decide_true, Bool.true_and]
    by_cases hodd : h % 2 = 1
    · rw [hodd]
      simp only [decide_true, if_true]
      refine ⟨h + 1, ?_, Or.inl ⟨?_, ?_⟩⟩
      · have := fin 1 (by omega); rw [this.1, this.2]
      · nlinarith
      · nlinarith
    · have he : h % 2 = 0 := by omega
      rw [he]
      simp only [Nat.zero_ne_one, decide_false, Bool.false_eq_true, if_false]
      by_cases hst : l % P = 0
      · rw [hst]
        simp only [ne_eq, not_true_eq_false, decide_false, Bool.false_eq_true, if_false]
        have hl23 : l = 2 * P ∨ l = 3 * P := by
          obtain ⟨k, hk⟩ := Nat.dvd_of_mod_eq_zero hst
          have k2 : 2 ≤ k := by
            by_contra hc
            have : k ≤ 1 := by omega
            have : P * k ≤ P * 1 := Nat.mul_le_mul_left _ this
            omega
          have k3 : k < 4 := by
            by_contra hc
            have : 4 ≤ k := by omega
            have : P * 4 ≤ P * k := Nat.mul_le_mul_left _ this
            omega
          interval_cases k <;> omega
        refine ⟨h, ?_, ?_⟩
        · have := fin 0 (by omega); rw [this.1, this.2, Nat.add_zero]
        · rcases hl23 with h2 | h3
          · left; rw [hxs, h2]; constructor <;> omega
          · right; exact ⟨he, by rw [hxs, h3]⟩
      · simp only [ne_eq, hst, not_false_eq_true, decide_true, if_true]
        refine ⟨h + 1, ?_, Or.inl ⟨?_, ?_⟩⟩
        · have := fin 1 (by omega); rw [this.1, this.2]
        · nlinarith
        · nlinarith

/-- The exact identity of a Newton step. -/
theorem newtonDiff_mul {Lz Ly z y : ℕ} (hLz : 1 ≤ Lz) (hz : z * y ≤ 2 * 2 ^ (Lz + Ly))
    (hy1 : 2 ^ Ly ≤ y) :
    (newtonDiff Lz Ly z y : ℤ) * y = 2 ^ (2 * (Lz + Ly)) - (2 ^ (Lz + Ly) - (z : ℤ) * y) ^ 2 ∧
      newtonDiff Lz Ly z y ≤ 2 ^ (2 * Lz + Ly) := by
  unfold newtonDiff
  have e1 : 2 * Lz + Ly - (Lz - 1) = Lz + Ly + 1 := by omega
  rw [e1]
  set T := 2 ^ (Lz + Ly) with hT
  have e2 : 2 ^ (Lz + Ly + 1) = 2 * T := by rw [hT]; ring
  have hy0 : 0 < y := lt_of_lt_of_le (by positivity) hy1
  have hle : z * z * y ≤ z * (2 * T) := by
    calc z * z * y = z * (z * y) := by ring
      _ ≤ _ := Nat.mul_le_mul_left _ hz
  obtain ⟨X, hX⟩ := Nat.exists_eq_add_of_le hle
  have hXy : (X : ℤ) * y = 2 ^ (2 * (Lz + Ly)) - ((T : ℤ) - (z : ℤ) * y) ^ 2 := by
    have h1 : ((z * (2 * T) : ℕ) : ℤ) = ((z * z * y + X : ℕ) : ℤ) := by rw [hX]
    push_cast at h1
    have h2 : (2 : ℤ) ^ (2 * (Lz + Ly)) = (T : ℤ) ^ 2 := by rw [hT]; push_cast; ring
    rw [h2]
    linear_combination (-(y : ℤ)) * h1
  have hXle : X ≤ 2 ^ (2 * Lz + Ly) := by
    have h3 : (X : ℤ) * y ≤ 2 ^ (2 * (Lz + Ly)) := by rw [hXy]; nlinarith [sq_nonneg ((T : ℤ) - (z : ℤ) * y)]
    have h4 : X * y ≤ 2 ^ (2 * (Lz + Ly)) := by exact_mod_cast h3
    have h5 : X * 2 ^ Ly ≤ 2 ^ (2 * Lz + Ly) * 2 ^ Ly := by
      calc X * 2 ^ Ly ≤ X * y := Nat.mul_le_mul_left _ hy1
        _ ≤ 2 ^ (2 * (Lz + Ly)) := h4
        _ = _ := by ring
    exact Nat.le_of_mul_le_mul_right h5 (by positivity)
  have hW : X < 2 ^ (3 + (2 * Lz + Ly)) :=
    lt_of_le_of_lt hXle (Nat.pow_lt_pow_right (by norm_num) (by omega))
  have hsub : subW (3 + (2 * Lz + Ly)) (z * (2 * T)) (z * z * y) = X := by
    have hb : z * z * y ≤ 2 ^ (3 + (2 * Lz + Ly)) := by
      have h6 : z * 2 ^ Ly ≤ 2 * 2 ^ Lz * 2 ^ Ly := by
        calc z * 2 ^ Ly ≤ z * y := Nat.mul_le_mul_left _ hy1
          _ ≤ 2 * T := hz
          _ = _ := by rw [hT]; ring
      have h7 : z ≤ 2 * 2 ^ Lz := Nat.le_of_mul_le_mul_right h6 (by positivity)
      calc z * z * y ≤ z * (2 * T) := hle
        _ ≤ (2 * 2 ^ Lz) * (2 * T) := Nat.mul_le_mul_right _ h7
        _ = 4 * 2 ^ (2 * Lz + Ly) := by rw [hT]; ring
        _ ≤ 2 ^ 3 * 2 ^ (2 * Lz + Ly) := by omega
        _ = _ := by ring
    unfold subW
    rw [hX]
    have : z * z * y + X + (2 ^ (3 + (2 * Lz + Ly)) - z * z * y) = X + 2 ^ (3 + (2 * Lz + Ly)) := by omega
    rw [this, Nat.add_mod_right, Nat.mod_eq_of_lt hW]
  rw [e2, hsub]
  refine ⟨?_, hXle⟩
  rw [hXy]; push_cast [hT]; ring

/-- A Newton step succeeds; its result relative to the exact difference. -/
theorem newtonStep_spec {LR Lz Ly z y : ℕ} (hLz : 1 ≤ Lz) (hD : LR + 2 ≤ 2 * Lz + Ly) (hLR : 1 ≤ LR)
    (hz : z * y ≤ 2 * 2 ^ (Lz + Ly)) (hy1 : 2 ^ Ly ≤ y) :
    ∃ r, newtonStep LR Lz Ly z y = some r ∧
      ((r * 2 ^ (2 * Lz + Ly - LR) ≤ newtonDiff Lz Ly z y + 2 ^ (2 * Lz + Ly - LR - 1) ∧
        newtonDiff Lz Ly z y ≤ r * 2 ^ (2 * Lz + Ly - LR) + 2 ^ (2 * Lz + Ly - LR - 1)) ∨
       (r % 2 = 0 ∧ newtonDiff Lz Ly z y = r * 2 ^ (2 * Lz + Ly - LR) + 3 * 2 ^ (2 * Lz + Ly - LR - 2))) := by
  obtain ⟨-, hle⟩ := newtonDiff_mul hLz hz hy1
  obtain ⟨D, hDe⟩ := Nat.exists_eq_add_of_le (by omega : LR ≤ 2 * Lz + Ly)
  have e1 : 2 * Lz + Ly - LR = D := by omega
  have e2 : 3 + (2 * Lz + Ly) = 3 + LR + D := by omega
  have hD2 : 2 ≤ D := by omega
  rw [e1]
  rw [hDe] at hle
  have hlt : newtonDiff Lz Ly z y < 2 ^ (3 + LR - 1 + D) :=
    lt_of_le_of_lt hle (Nat.pow_lt_pow_right (by norm_num) (by omega))
  obtain ⟨r, hr, hspec⟩ := roundFrac_spec hD2 hlt (by omega)
  refine ⟨r, ?_, hspec⟩
  have hrl : r < 2 ^ (LR + 1) := by
    have h2D : 2 ^ D = 2 * 2 ^ (D - 1) := by
      obtain ⟨d, rfl⟩ := Nat.exists_eq_add_of_le' (show 1 ≤ D by omega)
      rw [Nat.add_sub_cancel]; ring
    have hP : 0 < 2 ^ (D - 1) := by positivity
    have h4 : 2 ^ (LR + D) = 2 ^ LR * 2 ^ D := by rw [pow_add]
    have h5 : r * 2 ^ D ≤ newtonDiff Lz Ly z y + 2 ^ (D - 1) := by
      rcases hspec with h | h
      · exact h.1
      · rw [h.2]; omega
    have h6 : r * 2 ^ D < (2 ^ LR + 1) * 2 ^ D := by
      rw [Nat.add_mul]; omega
    have h7 : r < 2 ^ LR + 1 := Nat.lt_of_mul_lt_mul_right h6
    have h8 : 2 ^ (LR + 1) = 2 * 2 ^ LR := by ring
    have h9 : 2 ≤ 2 ^ LR := by
      calc 2 = 2 ^ 1 := rfl
        _ ≤ _ := Nat.pow_le_pow_right (by norm_num) hLR
    omega
  unfold newtonStep
  rw [e2, hr]
  simp only [Bool.false_eq_true, if_false]
  rw [Nat.div_eq_of_lt hrl, Nat.mod_eq_of_lt hrl]
  simp

/-- Error propagation: if the starting point has squared error at most `c/4` of a unit, the result is low by at most
`3/4 + c/4` units and high by at most half a unit. -/
theorem newtonStep_error {LR Lz Ly z y c : ℕ} (hLz : 1 ≤ Lz) (hD : LR + 2 ≤ 2 * Lz + Ly) (hLR : 1 ≤ LR)
    (hz : z * y ≤ 2 * 2 ^ (Lz + Ly)) (hy1 : 2 ^ Ly ≤ y)
    (herr : 4 * (2 ^ (Lz + Ly) - (z : ℤ) * y) ^ 2 ≤ c * (2 ^ (2 * Lz + Ly - LR) * y)) :
    ∃ r, newtonStep LR Lz Ly z y = some r ∧
      2 * ((r : ℤ) * y) ≤ 2 * 2 ^ (LR + Ly) + y ∧ 4 * (2 : ℤ) ^ (LR + Ly) ≤ 4 * (r * y) + (3 + c) * y ∧
      (c = 1 → (2 : ℤ) ^ (LR + Ly) < (r + 1) * y ∨ ((2 : ℤ) ^ (LR + Ly) = (r + 1) * y ∧ r % 2 = 0)) := by
  obtain ⟨r, hr, hspec⟩ := newtonStep_spec hLz hD hLR hz hy1
  obtain ⟨hX, -⟩ := newtonDiff_mul hLz hz hy1
  refine ⟨r, hr, ?_⟩
  obtain ⟨d, hDe⟩ := Nat.exists_eq_add_of_le hD
  have e1 : 2 * Lz + Ly - LR = d + 2 := by omega
  rw [e1] at hspec herr
  have e2 : d + 2 - 1 = d + 1 := by omega
  have e3 : d + 2 - 2 = d := by omega
  rw [e2, e3] at hspec
  set X := newtonDiff Lz Ly z y with hXd
  set S : ℤ := (2 ^ (Lz + Ly) - (z : ℤ) * y) ^ 2 with hS
  have hS0 : 0 ≤ S := by rw [hS]; positivity
  have hT : (2 : ℤ) ^ (2 * (Lz + Ly)) = 4 * 2 ^ d * 2 ^ (LR + Ly) := by
    rw [show 2 * (Lz + Ly) = d + 2 + (LR + Ly) by omega]; ring
  rw [hT] at hX
  set N : ℤ := 2 ^ (LR + Ly) with hN
  have hP0 : (0 : ℤ) < 2 ^ d := by positivity
  have hy0 : (0 : ℤ) < y := by
    have : 0 < y := lt_of_lt_of_le (by positivity) hy1
    exact_mod_cast this
  rw [show (2 : ℤ) ^ (d + 2) = 4 * 2 ^ d by ring] at herr
  have hspecZ : ((r : ℤ) * (4 * 2 ^ d) ≤ X + 2 * 2 ^ d ∧ (X : ℤ) ≤ r * (4 * 2 ^ d) + 2 * 2 ^ d) ∨
      (r % 2 = 0 ∧ (X : ℤ) = r * (4 * 2 ^ d) + 3 * 2 ^ d) := by
    rw [show 2 ^ (d + 2) = 4 * 2 ^ d by ring, show 2 ^ (d + 1) = 2 * 2 ^ d by ring] at hspec
    rcases hspec with h | h
    · left; exact ⟨by exact_mod_cast h.1, by exact_mod_cast h.2⟩
    · right; exact ⟨h.1, by exact_mod_cast h.2⟩
  generalize hPd : (2 : ℤ) ^ d = P at *
  have key : ∀ a b : ℤ, P * a ≤ P * b → a ≤ b := fun a b h => le_of_mul_le_mul_left h hP0
  have key' : ∀ a b : ℤ, P * a < P * b → a < b := fun a b h => lt_of_mul_lt_mul_left h hP0.le
  have c0 : (0 : ℤ) ≤ c := by positivity
  have hpy := mul_pos hP0 hy0
  rcases hspecZ with ⟨hA, hB⟩ | ⟨he, hC⟩
  · have hA' := mul_le_mul_of_nonneg_right hA hy0.le
    have hB' := mul_le_mul_of_nonneg_right hB hy0.le
    refine ⟨?_, ?_, ?_⟩
    · apply key; linarith
    · apply key; linarith
    · rintro rfl
      left
      apply key'
      push_cast at herr
      linarith
  · have hC' : (X : ℤ) * y = (r * (4 * P) + 3 * P) * y := by rw [hC]
    refine ⟨?_, ?_, ?_⟩
    · apply key; linarith
    · apply key; linarith
    · rintro rfl
      have : N ≤ (r + 1) * y := by
        apply key
        push_cast at herr
        linarith
      rcases lt_or_eq_of_le this with h | h
      · exact Or.inl h
      · exact Or.inr ⟨h, he⟩

/-- The last step: the result is less than one unit away from the exact reciprocal. -/
theorem newtonStep_final {LR Lz Ly z y : ℕ} (hLz : 1 ≤ Lz) (hD : LR + 2 ≤ 2 * Lz + Ly) (hLR : 1 ≤ LR)
    (hz : z * y ≤ 2 * 2 ^ (Lz + Ly)) (hy1 : 2 ^ Ly ≤ y) (hy2 : y < 2 ^ (Ly + 1))
    (herr : 4 * (2 ^ (Lz + Ly) - (z : ℤ) * y) ^ 2 ≤ 2 ^ (2 * Lz + Ly - LR) * y) :
    ∃ r, newtonStep LR Lz Ly z y = some r ∧ r * y < 2 ^ (LR + Ly) + y ∧ 2 ^ (LR + Ly) < (r + 1) * y := by
  obtain ⟨r, hr, h1, -, h3⟩ := newtonStep_error (c := 1) hLz hD hLR hz hy1 (by push_cast; linarith)
  refine ⟨r, hr, ?_, ?_⟩
  · have hy0 : (0 : ℤ) < y := by
      have : 0 < y := lt_of_lt_of_le (by positivity) hy1
      exact_mod_cast this
    zify
    linarith
  · rcases h3 rfl with h | ⟨h, he⟩
    · exact_mod_cast h
    · exfalso
      have hN : 2 ^ (LR + Ly) = (r + 1) * y := by exact_mod_cast h
      have hdvd : r + 1 ∣ 2 ^ (LR + Ly) := ⟨y, hN⟩
      obtain ⟨k, -, hk⟩ := (Nat.dvd_prime_pow Nat.prime_two).mp hdvd
      have hk0 : k = 0 := by
        by_contra hc
        obtain ⟨j, rfl⟩ := Nat.exists_eq_succ_of_ne_zero hc
        rw [pow_succ] at hk
        omega
      rw [hk0, pow_zero] at hk
      rw [hk, Nat.one_mul] at hN
      have : 2 ^ (Ly + 1) ≤ 2 ^ (LR + Ly) := Nat.pow_le_pow_right (by norm_num) (by omega)
      omega

/-- The starter tables of every width the code instantiates: every entry passes its assertions, and its relative error
is small at both ends of its interval. -/
theorem starter_tables : ∀ L < 11, 5 ≤ L → ∀ i < 2 ^ L, (starterEntry L i).isSome = true ∧
    ((2 : ℤ) ^ (2 * L) - starterValue L i * (2 ^ L + i)) ^ 2 ≤ 2 ^ L * (2 ^ L + i) ∧
    ((2 : ℤ) ^ (2 * L) - starterValue L i * (2 ^ L + i + 1)) ^ 2 ≤ 2 ^ L * (2 ^ L + i + 1) := by
  decide +kernel

/-- The first approximation. -/
theorem starter_spec {L Ly y : ℕ} (h5 : 5 ≤ L) (h10 : L ≤ 10) (hL : L ≤ Ly) (hy1 : 2 ^ Ly ≤ y)
    (hy2 : y < 2 ^ (Ly + 1)) :
    ∃ z, starter L Ly y = some z ∧ z < 2 ^ L ∧ (2 ^ (L + Ly) - (z : ℤ) * y) ^ 2 ≤ 2 ^ Ly * y := by
  obtain ⟨k, rfl⟩ := Nat.exists_eq_add_of_le hL
  have hall : ∀ i < 2 ^ L, (starterEntry L i).isSome = true := fun i hi => (starter_tables L (by omega) h5 i hi).1
  have e1 : L + k - L = k := by omega
  set A := y / 2 ^ k with hA
  have hA1 : 2 ^ L ≤ A := by
    rw [hA, Nat.le_div_iff_mul_le (by positivity), ← pow_add]; exact hy1
  have hA2 : A < 2 * 2 ^ L := by
    rw [hA, Nat.div_lt_iff_lt_mul (by positivity)]
    calc y < 2 ^ (L + k + 1) := hy2
      _ = _ := by ring
  obtain ⟨i, hi⟩ := Nat.exists_eq_add_of_le hA1
  have hi2 : i < 2 ^ L := by omega
  have hbit : getBit L A = true := by
    unfold getBit
    rw [hi, Nat.add_div_left _ (by positivity), Nat.div_eq_of_lt hi2]
    rfl
  have hmod : A % 2 ^ L = i := by rw [hi, Nat.add_mod_left, Nat.mod_eq_of_lt hi2]
  obtain ⟨hsome, hlo, hhi⟩ := starter_tables L (by omega) h5 i hi2
  have hent : starterEntry L i = some (starterValue L i) ∧ starterValue L i < 2 ^ L := by
    unfold starterEntry at hsome ⊢
    split at hsome
    · rename_i h
      rw [if_pos h]; exact ⟨rfl, h.2.2.2⟩
    · cases hsome
  refine ⟨starterValue L i, ?_, hent.2, ?_⟩
  · unfold starter truncToLsb
    rw [if_pos hL, e1, ← hA]
    change starterTable L A = _
    unfold starterTable
    rw [if_pos ⟨hall, hbit⟩, hmod]
    exact hent.1
  · set z : ℤ := (starterValue L i : ℤ) with hz
    have hys : (y : ℤ) = (2 ^ L + i) * 2 ^ k + (y % 2 ^ k : ℕ) := by
      have h1 := Nat.div_add_mod y (2 ^ k)
      rw [← hA, hi] at h1
      have h2 : (((2 ^ k * (2 ^ L + i) + y % 2 ^ k : ℕ)) : ℤ) = y := by rw [h1]
      rw [← h2]; push_cast; ring
    have hr0 : (0 : ℤ) ≤ (y % 2 ^ k : ℕ) := by positivity
    have hrK : ((y % 2 ^ k : ℕ) : ℤ) < 2 ^ k := by
      have : y % 2 ^ k < 2 ^ k := Nat.mod_lt _ (by positivity)
      exact_mod_cast this
    generalize ((y % 2 ^ k : ℕ) : ℤ) = ρ at *
    have hK : (0 : ℤ) < 2 ^ k := by positivity
    have e2 : (2 : ℤ) ^ (L + (L + k)) = 2 ^ (2 * L) * 2 ^ k := by ring
    have e3 : (2 : ℤ) ^ (L + k) = 2 ^ L * 2 ^ k := by ring
    rw [e2, e3, hys]
    generalize (2 : ℤ) ^ k = K at *
    generalize (2 : ℤ) ^ (2 * L) = M at *
    generalize (2 : ℤ) ^ L = W at *
    generalize (i : ℤ) = j at *
    have h1 := mul_le_mul_of_nonneg_left hlo (mul_nonneg (sub_nonneg.mpr hrK.le) (sq_nonneg K))
    have h2 := mul_le_mul_of_nonneg_left hhi (mul_nonneg hr0 (sq_nonneg K))
    have h3 : 0 ≤ z ^ 2 * K * (ρ * (K - ρ)) :=
      mul_nonneg (mul_nonneg (sq_nonneg z) hK.le) (mul_nonneg hr0 (sub_nonneg.mpr hrK.le))
    have h4 : K * ((M * K - z * ((W + j) * K + ρ)) ^ 2) ≤ K * (W * K * ((W + j) * K + ρ)) := by
      linear_combination h1 + h2 + h3
    exact le_of_mul_le_mul_left h4 hK

/-- The number of bits looked up in the starter table. -/
def starterBits (LR : ℕ) : ℕ :=
  if LR ≤ 15 then (LR + 1) / 2 + 1
  else if LR ≤ 31 then ((LR + 2) / 2 + 2) / 2 + 1
  else (((LR + 1) / 2 + 1) / 2 + 1) / 2 + 2

theorem mul_bound {L Ly z y : ℕ} (hz : z < 2 ^ L) (hy2 : y < 2 ^ (Ly + 1)) : z * y ≤ 2 * 2 ^ (L + Ly) := by
  calc z * y ≤ 2 ^ L * 2 ^ (Ly + 1) := Nat.mul_le_mul hz.le hy2.le
    _ = _ := by ring

theorem mul_bound' {L Ly z y : ℕ} (hL : 1 ≤ L) (hy2 : y < 2 ^ (Ly + 1))
    (h : 2 * ((z : ℤ) * y) ≤ 2 * 2 ^ (L + Ly) + y) : z * y ≤ 2 * 2 ^ (L + Ly) := by
  have h1 : 2 ^ (Ly + 1) ≤ 2 ^ (L + Ly) := Nat.pow_le_pow_right (by norm_num) (by omega)
  have h2 : 2 * (z * y) ≤ 2 * 2 ^ (L + Ly) + y := by exact_mod_cast h
  omega

/-- A step from the starter table, with two spare bits. -/
theorem first_step {LR L Ly z y : ℕ} (hL : 1 ≤ L) (hD : LR + 2 ≤ 2 * L)
    (herr : (2 ^ (L + Ly) - (z : ℤ) * y) ^ 2 ≤ 2 ^ Ly * y) :
    4 * (2 ^ (L + Ly) - (z : ℤ) * y) ^ 2 ≤ 2 ^ (2 * L + Ly - LR) * y := by
  obtain ⟨d, hd⟩ := Nat.exists_eq_add_of_le hD
  have e : 2 * L + Ly - LR = d + 2 + Ly := by omega
  have h1 : (1 : ℤ) ≤ 2 ^ d := one_le_pow₀ (by norm_num)
  have h2 : (0 : ℤ) ≤ 2 ^ Ly * y := by positivity
  rw [e, show (2 : ℤ) ^ (d + 2 + Ly) * y = 4 * (2 ^ d * (2 ^ Ly * y)) by ring]
  nlinarith

/-- A step from an approximation with error at most `n/4` units. -/
theorem later_step {LR L Ly z y n s c : ℕ} (hD : LR + s ≤ 2 * L)
    (hy2 : y < 2 ^ (Ly + 1))
    (h1 : 2 * ((z : ℤ) * y) ≤ 2 * 2 ^ (L + Ly) + y) (h2 : 4 * (2 : ℤ) ^ (L + Ly) ≤ 4 * (z * y) + n * y)
    (hn : 2 ≤ n) (hs : n ^ 2 ≤ c * 2 * 2 ^ s) :
    4 * (2 ^ (L + Ly) - (z : ℤ) * y) ^ 2 ≤ c * (2 ^ (2 * L + Ly - LR) * y) := by
  obtain ⟨d, hd⟩ := Nat.exists_eq_add_of_le hD
  have e : 2 * L + Ly - LR = d + s + Ly := by omega
  rw [e]
  have hyZ : (y : ℤ) ≤ 2 * 2 ^ Ly := by
    have : y ≤ 2 * 2 ^ Ly := by
      have : 2 ^ (Ly + 1) = 2 * 2 ^ Ly := by ring
      omega
    exact_mod_cast this
  have hy0 : (0 : ℤ) ≤ y := by positivity
  have hnZ : (2 : ℤ) ≤ n := by exact_mod_cast hn
  have hsZ : (n : ℤ) ^ 2 ≤ c * 2 * 2 ^ s := by exact_mod_cast hs
  set δ : ℤ := 2 ^ (L + Ly) - (z : ℤ) * y with hδ
  have ha : 4 * δ ≤ n * y := by rw [hδ]; linarith
  have hb : -(n * y) ≤ 4 * δ := by rw [hδ]; nlinarith
  have hc : (4 * δ) ^ 2 ≤ (n * y) ^ 2 := by nlinarith
  have hd1 : (1 : ℤ) ≤ 2 ^ d := one_le_pow₀ (by norm_num)
  have h3 : (n : ℤ) ^ 2 * y ≤ (c * 2 * 2 ^ s) * (2 * 2 ^ Ly) :=
    mul_le_mul hsZ hyZ hy0 (by positivity)
  have h4 : (n : ℤ) ^ 2 * y * y ≤ (c * 2 * 2 ^ s) * (2 * 2 ^ Ly) * y := mul_le_mul_of_nonneg_right h3 hy0
  have h5 : (0 : ℤ) ≤ (c * 2 ^ s * 2 ^ Ly) * y := by positivity
  rw [show (c : ℤ) * (2 ^ (d + s + Ly) * y) = 2 ^ d * ((c * 2 ^ s * 2 ^ Ly) * y) by ring]
  nlinarith

/-- The reciprocal of the significand succeeds in every format for which it compiles, and its result is less than
one unit away from the exact one. -/
theorem tableNewton_spec {LR Ly y : ℕ} (h8 : 8 ≤ LR) (h63 : LR ≤ 63) (hy8 : 8 ≤ Ly) (hS : starterBits LR ≤ Ly)
    (hy1 : 2 ^ Ly ≤ y) (hy2 : y < 2 ^ (Ly + 1)) :
    ∃ r, tableNewton LR Ly y = some r ∧ r * y < 2 ^ (LR + Ly) + y ∧ 2 ^ (LR + Ly) < (r + 1) * y := by
  unfold tableNewton
  unfold starterBits at hS
  have n1 : ¬ Ly ≤ 7 := by omega
  have n2 : ¬ LR ≤ 7 := by omega
  rw [if_neg n1, if_neg n2]
  by_cases c1 : LR ≤ 15
  · rw [if_pos c1] at hS ⊢
    unfold iter1
    obtain ⟨z, hz, hzl, herr⟩ := starter_spec (by omega) (by omega) hS hy1 hy2
    simp only [hz, Option.bind_some]
    exact newtonStep_final (by omega) (by omega) (by omega) (mul_bound hzl hy2) hy1 hy2
      (first_step (by omega) (by omega) herr)
  rw [if_neg c1] at hS ⊢
  by_cases c2 : LR ≤ 31
  · rw [if_pos c2] at hS ⊢
    unfold iter2
    obtain ⟨z, hz, hzl, herr⟩ := starter_spec (by omega) (by omega) hS hy1 hy2
    simp only [hz, Option.bind_some]
    obtain ⟨r1, hr1, h1, h2, -⟩ := newtonStep_error (c := 1) (LR := (LR + 2) / 2 + 1) (by omega) (by omega) (by omega)
      (mul_bound hzl hy2) hy1 (by
        have := first_step (LR := (LR + 2) / 2 + 1) (by omega) (by omega) herr
        push_cast; linarith)
    simp only [hr1, Option.bind_some]
    have h3 := later_step (LR := LR) (n := 4) (s := 3) (c := 1) (by omega) hy2 h1 (by push_cast at h2 ⊢; linarith)
      (by norm_num) (by norm_num)
    exact newtonStep_final (by omega) (by omega) (by omega) (mul_bound' (by omega) hy2 h1) hy1 hy2
      (by push_cast at h3; linarith)
  · rw [if_neg c2] at hS ⊢
    rw [if_pos h63]
    unfold iter3
    obtain ⟨z, hz, hzl, herr⟩ := starter_spec (by omega) (by omega) hS hy1 hy2
    simp only [hz, Option.bind_some]
    obtain ⟨r1, hr1, h1, h2, -⟩ := newtonStep_error (c := 1) (LR := ((LR + 1) / 2 + 1) / 2 + 2) (by omega) (by omega)
      (by omega) (mul_bound hzl hy2) hy1 (by
        have := first_step (LR := ((LR + 1) / 2 + 1) / 2 + 2) (by omega) (by omega) herr
        push_cast; linarith)
    simp only [hr1, Option.bind_some]
    have h3 := later_step (LR := (LR + 1) / 2 + 2) (n := 4) (s := 2) (c := 2) (by omega) hy2 h1
      (by push_cast at h2 ⊢; linarith) (by norm_num) (by norm_num)
    obtain ⟨r2, hr2, k1, k2, -⟩ := newtonStep_error (c := 2) (LR := (LR + 1) / 2 + 2) (by omega) (by omega)
      (by omega) (mul_bound' (by omega) hy2 h1) hy1 h3
    simp only [hr2, Option.bind_some]
    have h4 := later_step (LR := LR) (n := 5) (s := 4) (c := 1) (by omega) hy2 k1 (by push_cast at k2 ⊢; linarith)
      (by norm_num) (by norm_num)
    exact newtonStep_final (by omega) (by omega) (by omega) (mul_bound' (by omega) hy2 k1) hy1 hy2
      (by push_cast at h4; linarith)

/-- The formats for which `tableNewton` is defined. -/
theorem tableNewton_some {LR Ly y r : ℕ} (h : tableNewton LR Ly y = some r) :
    8 ≤ LR ∧ LR ≤ 63 ∧ 8 ≤ Ly ∧ starterBits LR ≤ Ly := by
  have hst : ∀ L z, starter L Ly y = some z → L ≤ Ly := by
    intro L z hz
    unfold starter truncToLsb at hz
    split at hz
    · assumption
    · cases hz
  unfold tableNewton at h
  unfold starterBits
  split at h
  · cases h
  split at h
  · cases h
  split at h
  · rename_i c1
    unfold iter1 at h
    obtain ⟨z, hz, -⟩ := Option.bind_eq_some_iff.mp h
    have := hst _ _ hz
    rw [if_pos c1]; omega
  split at h
  · rename_i c1 c2
    unfold iter2 at h
    obtain ⟨z, hz, -⟩ := Option.bind_eq_some_iff.mp h
    have := hst _ _ hz
    rw [if_neg c1, if_pos c2]; omega
  split at h
  · rename_i c1 c2 c3
    unfold iter3 at h
    obtain ⟨z, hz, -⟩ := Option.bind_eq_some_iff.mp h
    have := hst _ _ hz
    rw [if_neg c1, if_neg c2]; omega
  · cases h

end Thls.Inv
