import Verif.Proofs.UpLoop
import Verif.SpecOrder

/-! # C76: the loop over all positive numbers -/

namespace Thls
open Spec

variable {E F : ℕ}

/-- **C76.** The loop from `numeric_limits::min()` with `nextup` while the number is normal visits `2^(E+F)` numbers: every positive
number of the format, each exactly once, in increasing order. -/
theorem C76_loop_visits (hE : 1 ≤ E) (hF : 1 ≤ F) {n : ℕ} (hn : 2 ^ (E + F) < n) :
    (upVisits n (Limits.min E F)).length = 2 ^ (E + F) ∧
      (∀ x, x ∈ upVisits n (Limits.min E F) ↔ ∃ v, x.datum = .num v ∧ 0 < v) ∧
      (upVisits n (Limits.min E F)).Nodup ∧
      (upVisits n (Limits.min E F)).Pairwise (fun x y => x.datum.Lt y.datum) := by
  obtain ⟨h1, h2, h3⟩ := upVisits_spec hE hF n _ 0 (posKey_min hE hF) (by positivity) (by omega)
  refine ⟨by rw [h1, Nat.sub_zero], fun x => ?_, ?_, ?_⟩
  · rw [h2, posKey_iff hE hF]
    constructor
    · rintro ⟨j, -, hj, h⟩; exact ⟨j, hj, h⟩
    · rintro ⟨j, hj, h⟩; exact ⟨j, Nat.zero_le _, hj, h⟩
  · exact h3.imp fun h heq => by rw [heq] at h; exact lt_irrefl _ h
  · refine List.Pairwise.imp_of_mem ?_ h3
    intro x y hx hy h
    obtain ⟨i, -, -, px⟩ := (h2 x).mp hx
    obtain ⟨j, -, -, py⟩ := (h2 y).mp hy
    have hb := (Fp.lt_iff hE hF x y (posKey_key px).1 (posKey_key py).1).mpr ?_
    · exact hb
    · rw [(posKey_key px).2, (posKey_key py).2] at h
      unfold Fp.rkey
      rw [px.1, px.2.1, px.2.2, py.1, py.2.1, py.2.2]
      simp only [one_ne_zero, zero_ne_one, if_false, if_true]
      exact h

/-- **C76.** The loop returns normally exactly when its body does so for every positive number. -/
theorem C76_loop_passes_iff (hE : 1 ≤ E) (hF : 1 ≤ F) {n : ℕ} (hn : 2 ^ (E + F) < n) (body : Fp E F → Option Bool) :
    forAll n body = some true ↔ ∀ x v, x.datum = .num v → 0 < v → body x = some true := by
  rw [forAll, forUp_eq hE hF body n _ 0 (posKey_min hE hF) (by positivity) (by omega), runAll_true]
  constructor
  · intro h x v hx hv
    exact h x (((C76_loop_visits hE hF hn).2.1 x).mpr ⟨v, hx, hv⟩)
  · intro h x hx
    obtain ⟨v, hv, hp⟩ := ((C76_loop_visits hE hF hn).2.1 x).mp hx
    exact h x v hv hp

/-- **C76.** Otherwise the outcome is that of the least positive number for which the body does not return normally. -/
theorem C76_loop_first_failure (hE : 1 ≤ E) (hF : 1 ≤ F) {n : ℕ} (hn : 2 ^ (E + F) < n) (body : Fp E F → Option Bool)
    (x : Fp E F) (v : ℚ) (hx : x.datum = .num v) (hv : 0 < v) (hb : body x ≠ some true)
    (hmin : ∀ y w, y.datum = .num w → 0 < w → w < v → body y = some true) : forAll n body = body x := by
  obtain ⟨-, hm, hnd, hp⟩ := C76_loop_visits hE hF hn
  rw [forAll, forUp_eq hE hF body n _ 0 (posKey_min hE hF) (by positivity) (by omega), runAll_split body _ hb]
  obtain ⟨a, b, hab⟩ := List.append_of_mem ((hm x).mpr ⟨v, hx, hv⟩)
  refine ⟨a, x, b, hab, fun y hy => ?_, rfl⟩
  obtain ⟨w, hw, hw0⟩ := (hm y).mp (by rw [hab]; simp [hy])
  refine hmin y w hw hw0 ?_
  rw [hab, List.pairwise_append] at hp
  have h := hp.2.2 y hy x (by simp)
  rw [hw, hx] at h
  exact h

/-- **C76.** The condition of the loop is evaluated exactly `2^(E+F) + 1` times if its body never exits: with a bound of
`2^(E+F)` evaluations or fewer the loop has not ended. -/
theorem C76_loop_length (hE : 1 ≤ E) (hF : 1 ≤ F) {n : ℕ} (body : Fp E F → Option Bool) (hb : ∀ x, body x = some true) :
    forAll n body = some true ↔ 2 ^ (E + F) < n := by
  constructor
  · intro h
    by_contra hn
    rw [forAll, forUp_short hE hF body hb n _ 0 (posKey_min hE hF) (by positivity) (by omega)] at h
    cases h
  · intro hn
    rw [C76_loop_passes_iff hE hF hn]
    exact fun x _ _ _ => hb x

example : (upVisits 40 (Limits.min 2 3)).length = 32 ∧ ∃ v, (Fp.mk4 2 3 1 0 2 5).datum = .num v ∧ 0 < v :=
  ⟨(C76_loop_visits (by norm_num) (by norm_num) (by norm_num)).1, _, datum_normal _ (by decide), by decide +kernel⟩

end Thls
