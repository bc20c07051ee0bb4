import Verif.Props.Exact
import Verif.Props.AddSharp

/-! # C15: exactly when versions 3 and 5 of the single-path adder are right -/

namespace Thls
open Spec

theorem orders_correct_iff {E F : ℕ} {norm : ℕ → Option (ℕ × ℕ)} (hn : AddSingle.Normalises F norm) (hE : 2 ≤ E) (hF : 1 ≤ F)
    (hfmt : F + 3 < 2 ^ E) (hfmt2 : F + 3 ≠ 2 ^ (E - 1)) {x y : Fp E F} {res : Option (Fp E F)} {vx vy : ℚ}
    (ho : AddSingle.Orders norm x y res) (hx : x.datum = .num vx) (hy : y.datum = .num vy) :
    (∃ r, res = some r ∧ AddsTo E F vx vy r.datum) ↔
      ¬ (F + 3 < 2 ^ (E - 1) ∧ (ClampCase F vx vy ∨ ClampCase F vy vx)) := by
  obtain ⟨r, hr, h1, h2, h3, h4⟩ := AddSingle.orders_num hn hE hF hfmt hfmt2 ho hx hy
  rw [AddSingle.clamped_iff (by omega) hF hx hy] at h2 h3
  rw [AddSingle.clamped_iff (by omega) hF hy hx] at h2 h4
  have wrong : ∀ {a b : ℚ}, ClampCase F a b → ¬ AddsTo E F a b (.num a) := by
    rintro a b ⟨hab, k, k1, k2, k3⟩ h
    unfold AddsTo at h
    split at h
    · cases h
    · exact AddSingle.clamp_not_rounded hab k1 k2 k3 h
  constructor
  · rintro ⟨r', hr', ha⟩ ⟨hs, hc⟩
    rw [hr] at hr'
    obtain rfl := Option.some.inj hr'
    rcases hc with hc | hc
    · rw [h3 ⟨hs, hc⟩, hx] at ha
      exact wrong hc ha
    · rw [h4 ⟨hs, hc⟩, hy] at ha
      refine wrong hc ?_
      unfold AddsTo at ha ⊢
      rwa [add_comm vy vx]
  · intro h
    refine ⟨r, hr, ?_⟩
    unfold AddsTo
    split
    · exact h1 ‹_›
    · exact h2 ‹_› (fun c => h ⟨c.1, .inl c.2⟩) (fun c => h ⟨c.1, .inr c.2⟩)

/-- **C15, version 5, exactly**: the sum of two numbers of any two formats is right unless it is a clamp case. -/
theorem C15_add_single_v5_correct_iff {wEX wFX wEY wFY : ℕ} (hEX : 1 ≤ wEX) (hFX : 1 ≤ wFX) (hEY : 1 ≤ wEY)
    (hFY : 1 ≤ wFY) (hfmt : max wFX wFY + 3 < 2 ^ max wEX wEY) (hfmt2 : max wFX wFY + 3 ≠ 2 ^ (max wEX wEY - 1))
    (x : Fp wEX wFX) (y : Fp wEY wFY) (vx vy : ℚ) (hx : x.datum = .num vx) (hy : y.datum = .num vy) :
    (∃ r, AddSingle.addV5 x y = some r ∧ AddsTo (max wEX wEY) (max wFX wFY) vx vy r.datum) ↔
      ¬ (max wFX wFY + 3 < 2 ^ (max wEX wEY - 1) ∧
        (ClampCase (max wFX wFY) vx vy ∨ ClampCase (max wFX wFY) vy vx)) := by
  have hE : 2 ≤ max wEX wEY := by
    by_contra hc
    have : max wEX wEY = 1 := by omega
    rw [this] at hfmt; omega
  exact orders_correct_iff (AddSingle.lzoc_normalises _) hE (by omega) hfmt hfmt2 (AddSingle.addV5_orders hEX hFX hEY hFY x y)
    (by rw [promote_datum hEX hFX (by omega) (by omega), hx]) (by rw [promote_datum hEY hFY (by omega) (by omega), hy])

/-- **C15, version 3, exactly**, in the formats in which its leading-zero counter fits. -/
theorem C15_add_single_v3_correct_iff (u v : ℕ) {E F : ℕ} (h11 : 11 ≤ F) (h26 : F ≤ 26)
    (hfmt : F + 3 < 2 ^ E) (hfmt2 : F + 3 ≠ 2 ^ (E - 1))
    (x y : Fp E F) (vx vy : ℚ) (hx : x.datum = .num vx) (hy : y.datum = .num vy) :
    (∃ r, AddSingle.addSameV3 u v x y = some r ∧ AddsTo E F vx vy r.datum) ↔
      ¬ (F + 3 < 2 ^ (E - 1) ∧ (ClampCase F vx vy ∨ ClampCase F vy vx)) := by
  have hE : 2 ≤ E := by
    by_contra hc
    have : E = 0 ∨ E = 1 := by omega
    rcases this with h | h <;> rw [h] at hfmt <;> omega
  exact orders_correct_iff (AddSingle.clz_normalises u v h11 h26) hE (by omega) hfmt hfmt2
    (AddSingle.addSameV3_orders u v (by omega) (by omega) x y) hx hy

/-- 1 minus 3/2 of a quarter of the last place: both versions return 1. -/
example : AddSingle.addV5 (Fp.mk4 8 11 1 0 127 0) (Fp.mk4 8 11 1 1 (127 - 13) 1024) = some (Fp.mk4 8 11 1 0 127 0) ∧
    AddSingle.addSameV3 0 0 (Fp.mk4 8 11 1 0 127 0) (Fp.mk4 8 11 1 1 (127 - 13) 1024) = some (Fp.mk4 8 11 1 0 127 0) ∧
    AddSingle.addSameV3 0 0 (Fp.mk4 8 11 1 0 127 0) (Fp.mk4 8 11 1 0 (127 - 12) 1024) = some (Fp.mk4 8 11 1 0 127 1) := by
  decide +kernel

end Thls
