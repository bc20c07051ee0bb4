import Verif.Proofs.SoftRound

/-! # Sticky bits: integers that stand for a rational as far as the multiples of `h` are concerned -/

namespace Thls
open Spec

/-- `s` lies on the same side of every multiple of `h` as `X`, and on it exactly if `X` does. -/
def Sim (h s : ℕ) (X : ℚ) : Prop :=
  ∀ k : ℤ, (((k : ℚ) * h < s) ↔ (k : ℚ) * h < X) ∧ ((s : ℚ) < k * h ↔ X < k * h)

theorem sim_self (h s : ℕ) : Sim h s s := fun _ => ⟨Iff.rfl, Iff.rfl⟩

theorem sim_mono {h h' s : ℕ} {X : ℚ} (hd : h ∣ h') (hs : Sim h s X) : Sim h' s X := by
  obtain ⟨c, rfl⟩ := hd
  intro k
  have := hs (k * c)
  push_cast at this ⊢
  rwa [show (k : ℚ) * (h * c) = k * c * h by ring]

theorem sim_mul {h s c : ℕ} {X : ℚ} (hc : 0 < c) (hs : Sim h s X) : Sim (h * c) (s * c) (X * c) := by
  intro k
  have hcq : (0 : ℚ) < c := by exact_mod_cast hc
  have := hs k
  push_cast
  rw [show (k : ℚ) * (h * c) = k * h * c by ring, mul_lt_mul_iff_left₀ hcq, mul_lt_mul_iff_left₀ hcq,
    mul_lt_mul_iff_left₀ hcq, mul_lt_mul_iff_left₀ hcq]
  exact this

theorem sim_add {h s C : ℕ} {X : ℚ} (hd : h ∣ C) (hs : Sim h s X) : Sim h (C + s) (C + X) := by
  obtain ⟨c, rfl⟩ := hd
  intro k
  have := hs (k - c)
  push_cast at this ⊢
  constructor
  · constructor
    · intro h1; linarith [this.1.mp (by linarith)]
    · intro h1; linarith [this.1.mpr (by linarith)]
  · constructor
    · intro h1; linarith [this.2.mp (by linarith)]
    · intro h1; linarith [this.2.mpr (by linarith)]

theorem sim_sub {h s C : ℕ} {X : ℚ} (hd : h ∣ C) (hle : s ≤ C) (hs : Sim h s X) : Sim h (C - s) (C - X) := by
  obtain ⟨c, rfl⟩ := hd
  intro k
  have := hs (c - k)
  rw [Nat.cast_sub hle]
  push_cast at this ⊢
  constructor
  · constructor
    · intro h1; linarith [this.2.mp (by linarith)]
    · intro h1; linarith [this.2.mpr (by linarith)]
  · constructor
    · intro h1; linarith [this.1.mp (by linarith)]
    · intro h1; linarith [this.1.mpr (by linarith)]

theorem sim_ge {h s c : ℕ} {X : ℚ} (hs : Sim h s X) (hd : h ∣ c) : c ≤ s ↔ (c : ℚ) ≤ X := by
  obtain ⟨k, rfl⟩ := hd
  have := (hs k).2
  push_cast at this ⊢
  rw [← not_lt, ← not_lt]
  rw [show (h : ℚ) * k = k * h by ring, ← this]
  rw [Nat.mul_comm]
  constructor
  · intro h1 h2; exact h1 (by exact_mod_cast h2)
  · intro h1 h2; exact h1 (by exact_mod_cast h2)

theorem sim_lt {h s c : ℕ} {X : ℚ} (hs : Sim h s X) (hd : h ∣ c) : s < c ↔ X < (c : ℚ) := by
  rw [← not_le, ← not_le, sim_ge hs hd]

theorem sim_gt {h s c : ℕ} {X : ℚ} (hs : Sim h s X) (hd : h ∣ c) : c < s ↔ (c : ℚ) < X := by
  obtain ⟨k, rfl⟩ := hd
  have := (hs k).1
  push_cast at this ⊢
  rw [show (h : ℚ) * k = k * h by ring, ← this, Nat.mul_comm]
  constructor
  · intro h1; exact_mod_cast h1
  · intro h1; exact_mod_cast h1

/-- The shifted value with its sticky bit. -/
def sticky (a d : ℕ) : ℕ := if a % 2 ^ d = 0 then a / 2 ^ d else a / 2 ^ d / 2 * 2 + 1

theorem lor_one (q : ℕ) : q ||| 1 = q / 2 * 2 + 1 := by
  apply Nat.eq_of_testBit_eq
  intro i
  rcases i with _ | i
  · simp [Nat.testBit_or, Nat.testBit_zero]
  · rw [Nat.testBit_or, Nat.testBit_succ, Nat.testBit_succ, Nat.testBit_succ,
      show (q / 2 * 2 + 1) / 2 = q / 2 by omega, show 1 / 2 = 0 by norm_num, Nat.zero_testBit, Bool.or_false]

theorem lor_sticky (a d : ℕ) : (a / 2 ^ d ||| (if a % 2 ^ d ≠ 0 then 1 else 0)) = sticky a d := by
  unfold sticky
  by_cases h : a % 2 ^ d = 0
  · rw [if_neg (by simpa using h), if_pos h, Nat.or_zero]
  · rw [if_pos h, if_neg h, lor_one]

theorem sim_sticky (a d : ℕ) : Sim 2 (sticky a d) ((a : ℚ) / 2 ^ d) := by
  intro k
  have hP : (0 : ℚ) < 2 ^ d := by positivity
  have hdm : 2 ^ d * (a / 2 ^ d) + a % 2 ^ d = a := Nat.div_add_mod _ _
  have hml : a % 2 ^ d < 2 ^ d := Nat.mod_lt _ (by positivity)
  unfold sticky
  generalize hq : a / 2 ^ d = q at *
  generalize hr : a % 2 ^ d = r at *
  have hdq : (a : ℚ) / 2 ^ d = q + (r : ℚ) / 2 ^ d := by
    rw [← hdm]; push_cast; field_simp
  rw [hdq]
  by_cases h : r = 0
  · rw [if_pos h, h]; simp
  · rw [if_neg h]
    have r0 : (0 : ℚ) < (r : ℚ) / 2 ^ d := div_pos (by exact_mod_cast Nat.pos_of_ne_zero h) hP
    have r1 : (r : ℚ) / 2 ^ d < 1 := by rw [div_lt_one hP]; exact_mod_cast hml
    generalize (r : ℚ) / 2 ^ d = ρ at *
    have e1 : ((q / 2 * 2 + 1 : ℕ) : ℚ) = ((q / 2 * 2 + 1 : ℕ) : ℤ) := by norm_cast
    have e2 : (k : ℚ) * (2 : ℕ) = ((k * 2 : ℤ) : ℚ) := by push_cast; ring
    have e3 : (q : ℚ) = ((q : ℤ) : ℚ) := by norm_cast
    rw [e1, e2, e3]
    have c1 : ((k * 2 : ℤ) : ℚ) < ((q : ℤ) : ℚ) + ρ ↔ k * 2 ≤ q := by
      constructor
      · intro h1
        by_contra h2
        push Not at h2
        have : ((q : ℤ) : ℚ) + 1 ≤ ((k * 2 : ℤ) : ℚ) := by exact_mod_cast h2
        linarith
      · intro h1
        have : ((k * 2 : ℤ) : ℚ) ≤ ((q : ℤ) : ℚ) := by exact_mod_cast h1
        linarith
    have c2 : ((q : ℤ) : ℚ) + ρ < ((k * 2 : ℤ) : ℚ) ↔ q < k * 2 := by
      constructor
      · intro h1
        have : ((q : ℤ) : ℚ) < ((k * 2 : ℤ) : ℚ) := by linarith
        exact_mod_cast this
      · intro h1
        have : ((q : ℤ) : ℚ) + 1 ≤ ((k * 2 : ℤ) : ℚ) := by exact_mod_cast h1
        linarith
    rw [c1, c2, Int.cast_lt, Int.cast_lt]
    constructor <;> constructor <;> intro h <;> omega

/-- A further shift with its sticky bit keeps the similarity. -/
theorem sim_sticky_of {h s : ℕ} {X : ℚ} (h2 : 2 ∣ h) (hs : Sim h s X) (d : ℕ) : Sim h (sticky s d) (X / 2 ^ d) := by
  intro k
  have h1 := sim_mono h2 (sim_sticky s d) k
  have hP : (0 : ℚ) < 2 ^ d := by positivity
  have h3 := hs (k * 2 ^ d)
  push_cast at h3
  rw [h1.1, h1.2, lt_div_iff₀ hP, lt_div_iff₀ hP, div_lt_iff₀ hP, div_lt_iff₀ hP,
    show (k : ℚ) * h * 2 ^ d = k * 2 ^ d * h by ring]
  exact h3

/-- Rounding the integer chooses for the rational. -/
theorem choice_of_sim {g s : ℕ} {X : ℚ} (hg : 1 ≤ g) (hs : Sim (2 ^ (g - 1)) s X) (e : ℤ) :
    Choice (s / 2 ^ g) (roundShift s g) e (X / 2 ^ g * 2 ^ e) := by
  obtain ⟨p, rfl⟩ : ∃ p, g = p + 1 := ⟨g - 1, by omega⟩
  rw [Nat.add_sub_cancel] at hs
  have hP : (0 : ℚ) < 2 ^ (p + 1) := by positivity
  have hH : (0 : ℚ) < 2 ^ p := by positivity
  have hu := two_zpow_pos e
  have hdm : 2 ^ (p + 1) * (s / 2 ^ (p + 1)) + s % 2 ^ (p + 1) = s := Nat.div_add_mod _ _
  have hml : s % 2 ^ (p + 1) < 2 ^ (p + 1) := Nat.mod_lt _ (by positivity)
  have hrs := roundShift_spec s (p + 1)
  generalize roundShift s (p + 1) = q at *
  generalize s / 2 ^ (p + 1) = n at *
  generalize s % 2 ^ (p + 1) = r at *
  have hpp : 2 ^ (p + 1) = 2 * 2 ^ p := by rw [pow_succ]; ring
  have hppq : (2 : ℚ) ^ (p + 1) = 2 * 2 ^ p := by rw [pow_succ]; ring
  have a1 : (2 ^ (p + 1) * n : ℕ) ≤ s := by omega
  have a2 : s < (2 ^ (p + 1) * (n + 1) : ℕ) := by rw [Nat.mul_add]; omega
  have d1 : 2 ^ p ∣ 2 ^ (p + 1) * n := ⟨2 * n, by rw [hpp]; ring⟩
  have d2 : 2 ^ p ∣ 2 ^ (p + 1) * (n + 1) := ⟨2 * (n + 1), by rw [hpp]; ring⟩
  have d3 : 2 ^ p ∣ 2 ^ (p + 1) * n + 2 ^ p := ⟨2 * n + 1, by rw [hpp]; ring⟩
  have b1 := (sim_ge hs d1).mp a1
  have b2 := (sim_lt hs d2).mp a2
  push_cast at b1 b2
  have lo : (n : ℚ) * 2 ^ e ≤ X / 2 ^ (p + 1) * 2 ^ e :=
    mul_le_mul_of_nonneg_right (by rw [le_div_iff₀ hP]; linarith) hu.le
  have hi : X / 2 ^ (p + 1) * 2 ^ e < ((n : ℚ) + 1) * 2 ^ e :=
    mul_lt_mul_of_pos_right (by rw [div_lt_iff₀ hP]; linarith) hu
  have l1 : X / 2 ^ (p + 1) * 2 ^ e - n * 2 ^ e = (X - 2 ^ (p + 1) * n) / 2 ^ (p + 1) * 2 ^ e := by
    field_simp
  have l2 : ((n : ℚ) + 1) * 2 ^ e - X / 2 ^ (p + 1) * 2 ^ e = (2 ^ (p + 1) * (n + 1) - X) / 2 ^ (p + 1) * 2 ^ e := by
    field_simp
  have l3 : (2 : ℚ) ^ e / 2 = 2 ^ p / 2 ^ (p + 1) * 2 ^ e := by rw [hppq]; field_simp
  refine ⟨lo, hi, ?_⟩
  rw [l1, l2, l3]
  have cle : ∀ Y : ℚ, Y / 2 ^ (p + 1) * 2 ^ e ≤ 2 ^ p / 2 ^ (p + 1) * 2 ^ e ↔ Y ≤ 2 ^ p := by
    intro Y
    rw [mul_le_mul_iff_left₀ hu, div_le_div_iff_of_pos_right hP]
  have ceq : ∀ Y : ℚ, Y / 2 ^ (p + 1) * 2 ^ e = 2 ^ p / 2 ^ (p + 1) * 2 ^ e → Y = 2 ^ p := by
    intro Y h
    have := mul_right_cancel₀ hu.ne' h
    rwa [div_left_inj' hP.ne'] at this
  rw [cle, cle]
  have g1 := sim_ge hs d3
  have g2 := sim_gt hs d3
  push_cast at g1 g2
  rcases hrs with ⟨r1, r2, r3⟩ | ⟨r1, r2, r3⟩
  · left
    have hX : X ≤ 2 ^ (p + 1) * n + 2 ^ p := by
      rw [← not_lt, ← g2]; omega
    refine ⟨r1, by linarith, fun h => r3 ?_⟩
    have := ceq _ h
    have : 2 ^ (p + 1) * n + 2 ^ p ≤ s := g1.mpr (by linarith)
    omega
  · right
    have hX : 2 ^ (p + 1) * (n : ℚ) + 2 ^ p ≤ X := g1.mp (by omega)
    refine ⟨r1, by linarith, fun h => r3 ?_⟩
    have := ceq _ h
    have h5 : ¬ 2 ^ (p + 1) * n + 2 ^ p < s := by rw [g2]; linarith
    omega

end Thls
