import Verif.Proofs.Loops

/-! # The two adders and the multiplier as the steps of a loop -/

namespace Thls

open Spec

theorem addSpecial_nan_iff {a b : Datum} (h : a = .nan ∨ b = .nan) : addSpecial a b = some .nan := by
  rcases h with rfl | rfl
  · cases b <;> rfl
  · cases a <;> rfl

theorem addSpecial_sticky {a b : Datum} (h : a.fin = none ∨ b.fin = none) : ∃ d, addSpecial a b = some d ∧ d.fin = none := by
  rcases a with _ | s | s | p <;> rcases b with _ | t | t | q <;> simp [Datum.fin] at h <;>
    first
    | exact ⟨_, rfl, rfl⟩
    | (cases s <;> cases t <;> exact ⟨_, rfl, rfl⟩)

theorem addSpecial_zero {a b : Datum} {v : ℚ} (ha : a.fin = some 0) (ha' : a ≠ .num 0) (hb : b.fin = some v) :
    ∃ d, addSpecial a b = some d ∧ d.fin = some v := by
  rcases a with _ | s | s | p <;> simp [Datum.fin] at ha
  · rcases b with _ | t | t | q
    · cases hb
    · cases hb
    · exact ⟨_, rfl, hb⟩
    · exact ⟨_, rfl, hb⟩
  · subst ha; exact absurd rfl ha'

/-- An adder that treats special operands as IEEE 754 does and rounds the sum of two numbers with relative error
`u`, apart from underflow. -/
theorem Adder.of {E F : ℕ} {u : ℚ} (hu : 0 ≤ u) {add : Fp E F → Fp E F → Option (Fp E F)}
    (special : ∀ x y d, addSpecial x.datum y.datum = some d → ∃ r, add x y = some r ∧ r.datum = d)
    (num : ∀ x y a b, x.datum = .num a → y.datum = .num b → ∃ r, add x y = some r ∧
      (∀ s, r.datum.fin = some s → |s - (a + b)| ≤ u * |a + b| + minPos E) ∧
      (|a + b| ≤ maxFin E F → ∃ s, r.datum.fin = some s)) : Adder E F u add := by
  have hmp : 0 < minPos E := two_zpow_pos _
  have spec : ∀ {x y r : Fp E F} {d : Datum}, add x y = some r → addSpecial x.datum y.datum = some d → r.datum = d := by
    intro x y r d h1 h2
    obtain ⟨r', h3, h4⟩ := special _ _ _ h2
    rw [h1] at h3; injection h3 with h3; rw [h3]; exact h4
  have fins : ∀ {x y : Fp E F} {a b : ℚ}, x.datum.fin = some a → y.datum.fin = some b →
      (x.datum = .num a ∧ y.datum = .num b) ∨ ∃ d, addSpecial x.datum y.datum = some d ∧ d.fin = some (a + b) := by
    intro x y a b hx hy
    generalize x.datum = dx at *
    generalize y.datum = dy at *
    rcases dx with _ | s | s | p <;> rcases dy with _ | t | t | q <;> simp [Datum.fin] at hx hy <;> subst hx <;> subst hy
    · exact Or.inr ⟨_, rfl, by simp [Datum.fin]⟩
    · exact Or.inr ⟨_, rfl, by simp [Datum.fin]⟩
    · exact Or.inr ⟨_, rfl, by simp [Datum.fin]⟩
    · exact Or.inl ⟨rfl, rfl⟩
  refine ⟨?_, ?_, ?_, ?_, ?_, ?_⟩
  · intro x y
    rcases h : addSpecial x.datum y.datum with _ | d
    · obtain ⟨p, q, hp, hq⟩ := (C17_addSpecial_domain _ _).mp h
      obtain ⟨r, hr, -⟩ := num x y p q hp hq
      exact ⟨r, hr⟩
    · obtain ⟨r, hr, -⟩ := special x y d h
      exact ⟨r, hr⟩
  · intro x y r a b s hx hy hr hs
    rcases fins hx hy with ⟨h1, h2⟩ | ⟨d, h1, h2⟩
    · obtain ⟨r', hr', h3, -⟩ := num x y a b h1 h2
      rw [hr] at hr'; injection hr' with hr'; subst hr'
      exact h3 s hs
    · rw [spec hr h1, h2] at hs
      injection hs with hs; subst hs
      rw [sub_self, abs_zero]
      have := mul_nonneg hu (abs_nonneg (a + b))
      linarith
  · intro x y r b hx hy hr
    obtain ⟨d, h1, h2⟩ := addSpecial_zero hx (fun h => num_ne_zero h rfl) hy
    rw [spec hr h1]; exact h2
  · intro x y r hr h
    obtain ⟨d, h1, h2⟩ := addSpecial_sticky h
    rw [spec hr h1]; exact h2
  · intro x y r hr h
    exact spec hr (addSpecial_nan_iff h)
  · intro x y r a b hx hy hr hb
    rcases fins hx hy with ⟨h1, h2⟩ | ⟨d, h1, h2⟩
    · obtain ⟨r', hr', -, h3⟩ := num x y a b h1 h2
      rw [hr] at hr'; injection hr' with hr'; subst hr'
      exact h3 hb
    · exact ⟨_, by rw [spec hr h1]; exact h2⟩

/-- The dual-path adder. -/
theorem dual_adder {E F : ℕ} (hE : 2 ≤ E) (hF : 1 ≤ F) (hok : DualFormat E F) (hfmt : F ≤ 2 ^ (E + 1)) :
    Adder E F (uro F) (AddDual.addSame (wE := E) (wF := F)) := by
  refine Adder.of (uro_pos F).le (fun x y d h => AddDual.addSame_special hE hF hok h) ?_
  intro x y a b hx hy
  obtain ⟨r, hr, -⟩ := AddDual.addSame_num hE hF hok (by rw [pow_succ] at hfmt; omega) hx hy
  have := add_fin hE hF hok hfmt x y (vx := a) (vy := b) (by rw [hx]; rfl) (by rw [hy]; rfl) hr
  exact ⟨r, hr, fun s hs => rounded0_err this hs, fun hb => rounded0_finite (by omega) this hb⟩

theorem clamp_err {F : ℕ} {a b : ℚ} (h : ClampCase F a b) : |a - (a + b)| ≤ 2 * uro F * |a + b| := by
  obtain ⟨-, k, h1, -, h3⟩ := h
  have e1 : |a - (a + b)| = |b| := by rw [show a - (a + b) = -b by ring, abs_neg]
  have e2 : |a| ≤ |a + b| + |b| := by
    calc |a| = |(a + b) + -b| := by congr 1; ring
      _ ≤ _ := le_trans (abs_add_le _ _) (by rw [abs_neg])
  have e3 : (2 : ℚ) ^ (k - F - 1) ≤ 2 ^ (k - 1) := zpow_le_zpow_right₀ (by norm_num) (by omega)
  have e4 : (2 : ℚ) ^ k = 2 ^ (k - 1) * 2 := by
    rw [← zpow_add_one₀ (by norm_num)]; congr 1; ring
  have e5 : (2 : ℚ) ^ (k - F - 1) = 2 * uro F * 2 ^ (k - 1) := by
    unfold uro
    rw [← zpow_one_add₀ (by norm_num), ← zpow_add₀ (by norm_num)]; congr 1; ring
  rw [e1]
  have e6 : 2 * uro F * 2 ^ (k - 1) ≤ 2 * uro F * |a + b| :=
    mul_le_mul_of_nonneg_left (by linarith) (by linarith [uro_pos F])
  linarith

/-- The single-path adder: the clamp case doubles the relative error. -/
theorem single_adder {E F : ℕ} (hE : 2 ≤ E) (hF : 1 ≤ F) (h1 : F + 3 < 2 ^ E) (h2 : F + 3 ≠ 2 ^ (E - 1)) :
    Adder E F (2 * uro F) (AddSingle.addSame (wE := E) (wF := F)) := by
  have hup := uro_pos F
  refine Adder.of (by linarith) (fun x y d h => AddSingle.orders_special (AddSingle.lzoc_normalises _) hE hF h1 h2
    (AddSingle.addSame_orders (by omega) hF x y) h) ?_
  intro x y a b hx hy
  obtain ⟨r, hr, g1, g2, g3, g4⟩ := AddSingle.orders_num (AddSingle.lzoc_normalises _) hE hF h1 h2
    (AddSingle.addSame_orders (by omega) hF x y) hx hy
  rw [AddSingle.clamped_iff (by omega) hF hx hy] at g2 g3
  rw [AddSingle.clamped_iff (by omega) hF hy hx] at g2 g4
  have hmp : 0 < minPos E := two_zpow_pos _
  have hab := mul_nonneg hup.le (abs_nonneg (a + b))
  refine ⟨r, hr, ?_⟩
  by_cases c1 : F + 3 < 2 ^ (E - 1) ∧ ClampCase F a b
  · have hd := g3 c1
    rw [hd, hx]
    refine ⟨fun s hs => ?_, fun _ => ⟨a, rfl⟩⟩
    injection hs with hs; subst hs
    have := clamp_err c1.2
    linarith
  · by_cases c2 : F + 3 < 2 ^ (E - 1) ∧ ClampCase F b a
    · have hd := g4 c2
      rw [hd, hy]
      refine ⟨fun s hs => ?_, fun _ => ⟨b, rfl⟩⟩
      injection hs with hs; subst hs
      have := clamp_err c2.2
      rw [add_comm b a] at this
      linarith
    · have hR : Rounded0 E F (a + b) r.datum := by
        unfold Rounded0
        by_cases h0 : a + b = 0
        · rw [if_pos h0]; exact ⟨_, g1 h0⟩
        · rw [if_neg h0]; exact g2 h0 c1 c2
      exact ⟨fun s hs => by have := rounded0_err hR hs; linarith, fun hb => rounded0_finite (by omega) hR hb⟩

/-- The product of two finite values, rounded. -/
theorem mul_fin {E FR FX FY : ℕ} (hE : 2 ≤ E) (hR : 1 ≤ FR) (hX : 1 ≤ FX) (hY : 1 ≤ FY) (hpath : FR ≤ FX + FY)
    (x : Fp E FX) (y : Fp E FY) {a b : ℚ} (hx : x.datum.fin = some a) (hy : y.datum.fin = some b) {r : Fp E FR}
    (hr : mulV1 E FR x y = some r) : Rounded0 E FR (a * b) r.datum := by
  have spec : ∀ {d : Datum}, mulSpecial x.datum y.datum = some d → r.datum = d :=
    fun h2 => C12_mul_exceptions (by omega) hR (by omega) _ _ _ hr _ h2
  unfold Rounded0
  cases dx : x.datum with
  | nan => rw [dx] at hx; cases hx
  | inf s => rw [dx] at hx; cases hx
  | zero s =>
    rw [dx] at hx; injection hx with hx; subst hx
    rw [zero_mul, if_pos rfl]
    cases dy : y.datum with
    | nan => rw [dy] at hy; cases hy
    | inf s => rw [dy] at hy; cases hy
    | zero t => exact ⟨_, spec (by rw [dx, dy]; rfl)⟩
    | num v => exact ⟨_, spec (by rw [dx, dy]; rfl)⟩
  | num p =>
    rw [dx] at hx; injection hx with hx; subst hx
    cases dy : y.datum with
    | nan => rw [dy] at hy; cases hy
    | inf s => rw [dy] at hy; cases hy
    | zero t =>
      rw [dy] at hy; injection hy with hy; subst hy
      rw [mul_zero, if_pos rfl]
      exact ⟨_, spec (by rw [dx, dy]; rfl)⟩
    | num q =>
      rw [dy] at hy; injection hy with hy; subst hy
      rw [if_neg (mul_ne_zero (num_ne_zero dx) (num_ne_zero dy))]
      obtain ⟨t', h4, h5⟩ := C10_mul_correctly_rounded hE hR hX hY hpath x y p q dx dy
      rw [hr] at h4; injection h4 with h4; rw [h4]; exact h5

theorem mulSpecial_nan_of {a b : Datum} (h : a = .nan ∨ b = .nan) : mulSpecial a b = some .nan := by
  rcases h with rfl | rfl
  · cases b <;> rfl
  · cases a <;> rfl

theorem mulSpecial_sticky {a b : Datum} (h : a.fin = none ∨ b.fin = none) : ∃ d, mulSpecial a b = some d ∧ d.fin = none := by
  rcases a with _ | s | s | p <;> rcases b with _ | t | t | q <;> simp [Datum.fin] at h <;> exact ⟨_, rfl, rfl⟩

end Thls
