import Verif.Proofs.Order
import Verif.Model.DotRef

/-! # The loop over all positive numbers -/

namespace Thls
open Spec

variable {E F : ℕ}

/-- A word whose key is `k + 1` with `k` below the number of positive numbers. -/
def PosKey (x : Fp E F) (k : ℕ) : Prop := x.flags = 1 ∧ x.sign = 0 ∧ x.expFrac = k

theorem posKey_key {x : Fp E F} {k : ℕ} (h : PosKey x k) : x.flags ≠ 3 ∧ x.key = k + 1 := by
  obtain ⟨h1, h2, h3⟩ := h
  refine ⟨by omega, ?_⟩
  unfold Fp.key
  rw [h1, h2, h3]; simp

theorem posKey_of_key (hE : 1 ≤ E) (_hF : 1 ≤ F) {x : Fp E F} {k : ℕ} (h3 : x.flags ≠ 3) (hk : x.key = k + 1) (hlt : k < 2 ^ (E + F)) : PosKey x k := by
  have hs := x.sign_lt
  have hf := x.flags_lt
  have hef := x.expFrac_lt (by omega)
  have hlt' : (k : ℤ) < 2 ^ (E + F) := by exact_mod_cast hlt
  unfold Fp.key at hk
  simp only at hk
  by_cases s1 : x.sign = 1
  · rw [if_pos s1] at hk
    split_ifs at hk <;> omega
  · rw [if_neg s1] at hk
    by_cases f0 : x.flags = 0
    · rw [if_pos f0] at hk; omega
    · rw [if_neg f0] at hk
      by_cases f1 : x.flags = 1
      · rw [if_pos f1] at hk
        exact ⟨f1, by omega, by omega⟩
      · rw [if_neg f1] at hk; omega

theorem not_normal_of_key {x : Fp E F} (hef : x.expFrac < 2 ^ (E + F)) (hk : x.key = 2 ^ (E + F) + 1) : x.isNormal = false := by
  unfold Fp.isNormal
  have : x.flags ≠ 1 := by
    intro f1
    have hef' : (x.expFrac : ℤ) < 2 ^ (E + F) := by exact_mod_cast hef
    unfold Fp.key at hk
    rw [f1] at hk
    simp only [one_ne_zero, if_false, if_true] at hk
    split_ifs at hk <;> omega
  simp [this]

theorem posKey_step (hE : 1 ≤ E) (hF : 1 ≤ F) {x : Fp E F} {k : ℕ} (h : PosKey x k) :
    (k + 1 < 2 ^ (E + F) → PosKey (nextup x) (k + 1)) ∧ (k + 1 = 2 ^ (E + F) → (nextup x).isNormal = false) := by
  obtain ⟨h3, hk⟩ := posKey_key h
  have hd : x.datum ≠ .inf false := by
    rw [datum_normal x h.1]; simp
  obtain ⟨g3, gk⟩ := nextup_key hE hF x h3 hd
  refine ⟨fun hlt => posKey_of_key hE hF g3 (by rw [gk, hk]; push_cast; ring) hlt, fun he => not_normal_of_key ((nextup x).expFrac_lt (by omega)) ?_⟩
  rw [gk, hk]
  have : ((k + 1 : ℕ) : ℤ) = ((2 ^ (E + F) : ℕ) : ℤ) := by rw [he]
  push_cast at this
  linarith

theorem posKey_unique (hE : 1 ≤ E) (hF : 1 ≤ F) {x y : Fp E F} {k : ℕ} (hx : PosKey x k) (hy : PosKey y k) : x = y := by
  have he : x.expFrac = y.expFrac := hx.2.2.trans hy.2.2.symm
  exact Fp.ext_fields hE hF (hx.1.trans hy.1.symm) (hx.2.1.trans hy.2.1.symm)
    (by rw [← Fp.expFrac_div hE hF, he, Fp.expFrac_div hE hF]) (by rw [← Fp.expFrac_mod hE hF, he, Fp.expFrac_mod hE hF])

theorem posKey_min (hE : 1 ≤ E) (hF : 1 ≤ F) : PosKey (Limits.min E F) 0 := by
  have h := Fp.mk3_fields (E := E) (F := F) (fs := 2) (e := 0) (f := 0) hE (by decide) (by positivity) (by positivity)
  obtain ⟨a, b, c⟩ := h
  exact ⟨by simpa [Limits.min] using a, by simpa [Limits.min] using b, by simpa [Limits.min] using c⟩

theorem posKey_iff (hE : 1 ≤ E) (_hF : 1 ≤ F) (x : Fp E F) : (∃ v, x.datum = .num v ∧ 0 < v) ↔ ∃ k, k < 2 ^ (E + F) ∧ PosKey x k := by
  constructor
  · rintro ⟨v, hv, hp⟩
    obtain ⟨fx, rfl⟩ := datum_num_iff.mp hv
    refine ⟨x.expFrac, x.expFrac_lt (by omega), fx, ?_, rfl⟩
    have hs := x.sign_lt
    by_contra hn
    rw [if_pos (by omega)] at hp
    have : (0 : ℚ) < ((2 ^ F + x.frac : ℕ) : ℚ) * 2 ^ ((x.exp : ℤ) - bias E - F) := mul_pos (by positivity) (two_zpow_pos _)
    linarith
  · rintro ⟨k, -, h1, h2, -⟩
    refine ⟨_, datum_normal x h1, ?_⟩
    rw [if_neg (by omega), one_mul]
    exact mul_pos (by positivity) (two_zpow_pos _)

/-- From the number with key `k`, the loop visits exactly the positive numbers with larger keys. -/
theorem upVisits_spec (hE : 1 ≤ E) (hF : 1 ≤ F) : ∀ (n : ℕ) (x : Fp E F) (k : ℕ), PosKey x k → k < 2 ^ (E + F) → 2 ^ (E + F) ≤ k + n →
    (upVisits n x).length = 2 ^ (E + F) - k ∧ (∀ y, y ∈ upVisits n x ↔ ∃ j, k ≤ j ∧ j < 2 ^ (E + F) ∧ PosKey y j) ∧
      (upVisits n x).Pairwise (fun y z => y.key < z.key)
  | 0, x, k, _, hk, hn => by omega
  | n + 1, x, k, h, hk, hn => by
    obtain ⟨s1, s2⟩ := posKey_step hE hF h
    have hnorm : x.isNormal = true := by unfold Fp.isNormal; simp [h.1]
    rw [upVisits, if_pos hnorm]
    by_cases he : k + 1 = 2 ^ (E + F)
    · have hl : upVisits n (nextup x) = [] := by
        cases n with
        | zero => rfl
        | succ n => rw [upVisits, if_neg (by rw [s2 he]; decide)]
      rw [hl]
      refine ⟨by simp; omega, fun y => ?_, List.pairwise_singleton _ _⟩
      rw [List.mem_singleton]
      constructor
      · rintro rfl; exact ⟨k, le_refl _, hk, h⟩
      · rintro ⟨j, j1, j2, hj⟩
        have : j = k := by omega
        exact posKey_unique hE hF (this ▸ hj) h
    · obtain ⟨l1, l2, l3⟩ := upVisits_spec hE hF n (nextup x) (k + 1) (s1 (by omega)) (by omega) (by omega)
      refine ⟨by rw [List.length_cons, l1]; omega, fun y => ?_, List.pairwise_cons.mpr ⟨fun y hy => ?_, l3⟩⟩
      · rw [List.mem_cons, l2]
        constructor
        · rintro (rfl | ⟨j, j1, j2, hj⟩)
          · exact ⟨k, le_refl _, hk, h⟩
          · exact ⟨j, by omega, j2, hj⟩
        · rintro ⟨j, j1, j2, hj⟩
          by_cases hjk : j = k
          · exact Or.inl (posKey_unique hE hF (hjk ▸ hj) h)
          · exact Or.inr ⟨j, by omega, j2, hj⟩
      · obtain ⟨j, j1, j2, hj⟩ := (l2 y).mp hy
        rw [(posKey_key h).2, (posKey_key hj).2]
        have : (k : ℤ) < j := by exact_mod_cast j1
        linarith

/-- The loop is the run of its body over the numbers it visits. -/
theorem forUp_eq (hE : 1 ≤ E) (hF : 1 ≤ F) (body : Fp E F → Option Bool) : ∀ (n : ℕ) (x : Fp E F) (k : ℕ), PosKey x k → k < 2 ^ (E + F) →
    2 ^ (E + F) < k + n → forUp body n x = runAll body (upVisits n x)
  | 0, x, k, _, hk, hn => by omega
  | n + 1, x, k, h, hk, hn => by
    obtain ⟨s1, s2⟩ := posKey_step hE hF h
    have hnorm : x.isNormal = true := by unfold Fp.isNormal; simp [h.1]
    rw [forUp, upVisits, if_pos hnorm, if_pos hnorm, runAll]
    congr 1
    funext ok
    by_cases he : k + 1 = 2 ^ (E + F)
    · obtain ⟨n, rfl⟩ : ∃ m, n = m + 1 := ⟨n - 1, by omega⟩
      have h1 : forUp body (n + 1) (nextup x) = some true := by rw [forUp, s2 he]; rfl
      have h2 : upVisits (n + 1) (nextup x) = [] := by rw [upVisits, s2 he]; rfl
      rw [h1, h2, runAll]
    · rw [forUp_eq hE hF body n (nextup x) (k + 1) (s1 (by omega)) (by omega) (by omega)]

/-- With fewer iterations than numbers, a loop that never exits has not ended. -/
theorem forUp_short (hE : 1 ≤ E) (hF : 1 ≤ F) (body : Fp E F → Option Bool) (hb : ∀ x, body x = some true) :
    ∀ (n : ℕ) (x : Fp E F) (k : ℕ), PosKey x k → k < 2 ^ (E + F) → k + n ≤ 2 ^ (E + F) → forUp body n x = none
  | 0, _, _, _, _, _ => rfl
  | n + 1, x, k, h, hk, hn => by
    have hnorm : x.isNormal = true := by unfold Fp.isNormal; simp [h.1]
    rw [forUp, if_pos hnorm, hb, Option.bind_some, if_pos rfl]
    cases n with
    | zero => rfl
    | succ n => exact forUp_short hE hF body hb (n + 1) (nextup x) (k + 1) ((posKey_step hE hF h).1 (by omega)) (by omega) (by omega)

theorem runAll_true {α : Type} (body : α → Option Bool) : ∀ l : List α, runAll body l = some true ↔ ∀ x ∈ l, body x = some true
  | [] => by simp [runAll]
  | x :: l => by
    rw [runAll, List.forall_mem_cons, ← runAll_true body l]
    cases hb : body x with
    | none => simp
    | some b => cases b <;> simp

theorem runAll_split {α : Type} (body : α → Option Bool) (r : Option Bool) (hr : r ≠ some true) : ∀ l : List α, runAll body l = r ↔
    ∃ a x b, l = a ++ x :: b ∧ (∀ y ∈ a, body y = some true) ∧ body x = r
  | [] => by
    simp only [runAll]
    constructor
    · intro h; exact absurd h.symm hr
    · rintro ⟨a, x, b, h, -⟩; simp at h
  | x :: l => by
    rw [runAll]
    constructor
    · intro h
      cases hb : body x with
      | none => rw [hb] at h; exact ⟨[], x, l, rfl, by simp, by rw [hb, ← h]; rfl⟩
      | some c =>
        rw [hb, Option.bind_some] at h
        cases c with
        | false => exact ⟨[], x, l, rfl, by simp, by rw [hb, ← h]; rfl⟩
        | true =>
          rw [if_pos rfl] at h
          obtain ⟨a, y, b, h1, h2, h3⟩ := (runAll_split body r hr l).mp h
          exact ⟨x :: a, y, b, by rw [h1]; rfl, by rw [List.forall_mem_cons]; exact ⟨hb, h2⟩, h3⟩
    · rintro ⟨a, y, b, h1, h2, h3⟩
      cases a with
      | nil =>
        rw [List.nil_append, List.cons.injEq] at h1
        rw [h1.1, h3]
        match r, hr with
        | none, _ => rfl
        | some false, _ => rfl
      | cons z a =>
        rw [List.cons_append, List.cons.injEq] at h1
        rw [List.forall_mem_cons] at h2
        rw [h1.1, h2.1, Option.bind_some, if_pos rfl]
        exact (runAll_split body r hr l).mpr ⟨a, y, b, h1.2, h2.2, h3⟩

end Thls
