import Verif.Proofs.RefOps

/-! # The MPFR reference functions: directed rounding -/

namespace Thls
open Spec

namespace Mpfr

theorem directedPos_sig {p : ℕ} (hp : 1 ≤ p) (away : Bool) {a : ℚ} (ha : 0 < a) : IsSig p (directedPos p away a).1 := by
  obtain ⟨hs, _, _⟩ := floor_sig hp ha
  rw [directedPos]
  split
  · exact (succSig_spec hp _ hs).1
  · exact hs

theorem directedPos_down {p : ℕ} (hp : 1 ≤ p) {a : ℚ} (ha : 0 < a) :
    ((directedPos p false a).1 : ℚ) * 2 ^ (directedPos p false a).2 ≤ a ∧
      ∀ (m' : ℕ) (e' : ℤ), IsSig p m' → (m' : ℚ) * 2 ^ e' ≤ a →
        (m' : ℚ) * 2 ^ e' ≤ ((directedPos p false a).1 : ℚ) * 2 ^ (directedPos p false a).2 := by
  obtain ⟨hs, l1, l2⟩ := floor_sig hp ha
  obtain ⟨_, _, hv⟩ := scaled_bounds hp ha
  have hu := two_zpow_pos (ulpExp p a)
  have hd : directedPos p false a = (⌊scaled p a⌋.toNat, ulpExp p a) := by rw [directedPos]; simp
  rw [hd]
  refine ⟨by conv_rhs => rw [hv]
             exact mul_le_mul_of_nonneg_right l1 hu.le, ?_⟩
  intro m' e' hm' hle
  rcases sig_le_or_ge hp hs hm' (e := ulpExp p a) (e' := e') with h | h
  · exact h
  · have : a < ((⌊scaled p a⌋.toNat : ℕ) + 1 : ℚ) * 2 ^ ulpExp p a := by
      conv_lhs => rw [hv]
      exact mul_lt_mul_of_pos_right l2 hu
    linarith

theorem directedPos_up {p : ℕ} (hp : 1 ≤ p) {a : ℚ} (ha : 0 < a) :
    a ≤ ((directedPos p true a).1 : ℚ) * 2 ^ (directedPos p true a).2 ∧
      ∀ (m' : ℕ) (e' : ℤ), IsSig p m' → a ≤ (m' : ℚ) * 2 ^ e' →
        ((directedPos p true a).1 : ℚ) * 2 ^ (directedPos p true a).2 ≤ (m' : ℚ) * 2 ^ e' := by
  obtain ⟨hs, l1, l2⟩ := floor_sig hp ha
  obtain ⟨_, _, hv⟩ := scaled_bounds hp ha
  have hu := two_zpow_pos (ulpExp p a)
  by_cases hx : scaled p a = (⌊scaled p a⌋.toNat : ℕ)
  · have hd : directedPos p true a = (⌊scaled p a⌋.toNat, ulpExp p a) := by
      rw [directedPos, if_neg (by simp only [not_and, not_not]; exact fun _ => hx)]
    have ha' : a = (⌊scaled p a⌋.toNat : ℕ) * 2 ^ ulpExp p a := by
      conv_lhs => rw [hv]
      rw [← hx]
    rw [hd]
    exact ⟨ha'.le, fun m' e' _ h => by rw [← ha']; exact h⟩
  · have hd : directedPos p true a = succSig p ⌊scaled p a⌋.toNat (ulpExp p a) := by
      rw [directedPos, if_pos ⟨rfl, hx⟩]
    obtain ⟨_, n2, _⟩ := succSig_spec hp (ulpExp p a) hs
    rw [hd, n2]
    have hlt : (⌊scaled p a⌋.toNat : ℕ) * 2 ^ ulpExp p a < a := by
      conv_rhs => rw [hv]
      exact mul_lt_mul_of_pos_right (lt_of_le_of_ne l1 (Ne.symm hx)) hu
    refine ⟨by conv_lhs => rw [hv]
               exact mul_le_mul_of_nonneg_right l2.le hu.le, ?_⟩
    intro m' e' hm' hle
    exact sig_gap hp hs hm' (lt_of_lt_of_le hlt hle)

/-- The quotient of one, rounded in a given direction. -/
theorem one_div_datum (rnd : ℚ → Mpfr) {y : Mpfr} (hy : y.Ok) :
    ((∀ w, exactDiv (.num 1) y.datum ≠ .num w) → (divWith rnd one y).datum = exactDiv (.num 1) y.datum) ∧
      ∀ w, exactDiv (.num 1) y.datum = .num w → divWith rnd one y = rnd w := by
  have h1 : one.value = 1 := by simp [one, value]
  have h3 : decide ((1 : ℚ) < 0) = false := decide_eq_false (by norm_num)
  cases y with
  | num s m e =>
    refine ⟨fun h => absurd rfl (h _), fun w hw => ?_⟩
    have : w = 1 / (Mpfr.num s m e).value := (Datum.num.inj hw).symm
    rw [this, ← h1]; rfl
  | _ => simp [exactDiv, divSpecial, divWith, one, datum, neg, Datum.isNeg, h3]

end Mpfr

theorem ofMpfr_directed {E F : ℕ} (hE : 1 ≤ E) (hF : 1 ≤ F) (up : Bool) {v : ℚ} (hv : v ≠ 0) :
    ∃ r : Fp E F, ofMpfr E F true (Mpfr.directed (F + 1) up v) = some r ∧ DeliversDirected E F up (.num v) r.datum := by
  have ha := abs_pos.mpr hv
  have hs := Mpfr.directedPos_sig (p := F + 1) (by omega) (up != decide (v < 0)) ha
  have h := C47_of_mpfr hE hF true (decide (v < 0)) (Mpfr.directedPos (F + 1) (up != decide (v < 0)) |v|).2 hs
  rw [if_pos (Or.inr rfl)] at h
  obtain ⟨r, hr, hd⟩ := h
  refine ⟨r, by rw [Mpfr.directed, hr], ?_⟩
  refine ⟨_, _, hs, hd, ?_⟩
  split
  · rename_i hu
    rw [hu]; simp only [bne_self_eq_false]
    exact Mpfr.directedPos_down (by omega) ha
  · rename_i hu
    have : (up != decide (v < 0)) = true := by simpa using hu
    rw [this]
    exact Mpfr.directedPos_up (by omega) ha

theorem refInvFaithful_delivers {ER FR EA FA : ℕ} (hE : 1 ≤ ER) (hF : 1 ≤ FR) (a : Fp EA FA) (up : Bool) :
    ∃ r : Fp ER FR, ofMpfr ER FR true (Mpfr.divWith (Mpfr.directed (FR + 1) up) Mpfr.one (toMpfr a)) = some r ∧
      DeliversDirected ER FR up (exactDiv (.num 1) a.datum) r.datum := by
  have h := Mpfr.one_div_datum (Mpfr.directed (FR + 1) up) (toMpfr_ok a)
  rw [C47_to_mpfr_exact] at h
  cases hx : exactDiv (.num 1) a.datum with
  | num w =>
    rw [h.2 w hx]
    refine ofMpfr_directed hE hF up ?_
    intro hw
    cases ha : a.datum with
    | num v =>
      rw [ha, hw] at hx
      have h0 := Mpfr.num_ne_zero (toMpfr_ok a) ((C47_to_mpfr_exact a).trans ha)
      have : 1 / v = 0 := Datum.num.inj hx
      simp [h0] at this
    | _ => rw [ha] at hx; simp [exactDiv, divSpecial] at hx
  | _ =>
    obtain ⟨r, hr, hd⟩ := ofMpfr_special (E := ER) (F := FR) (by omega) hF (h.1 (by rw [hx]; simp)) (by rw [hx]; simp)
    exact ⟨r, hr, by rw [hd, hx]; simp [DeliversDirected]⟩

end Thls
