import Verif.Proofs.Double
import Mathlib.Algebra.BigOperators.Fin
import Mathlib.Algebra.Order.BigOperators.Group.Finset
import Mathlib.Data.Finset.Card
import Mathlib.Order.Interval.Finset.Fin
import Mathlib.Data.Fintype.Card

/-! # A few additions in binary64, compared with a number of few bits -/

namespace Thls
open Spec

/-- `c` is `q` rounded to binary64 with exponents unbounded above. -/
def Near64 (q c : ℚ) : Prop := ∃ (m : ℕ) (e : ℤ), NearestBinary64 q m e ∧ c = m * 2 ^ e

theorem near_ge {q c : ℚ} (h : Near64 q c) {m : ℕ} {e : ℤ} (hb : IsBinary64 m e) (hle : (m : ℚ) * 2 ^ e ≤ q) : (m : ℚ) * 2 ^ e ≤ c := by
  obtain ⟨m', e', hn, rfl⟩ := h
  exact nearest64_ge hn hb hle

theorem near_err {q c : ℚ} (h : Near64 q c) {K : ℤ} (hK : -1022 ≤ K) (h0 : 0 ≤ q) (hq : q ≤ 2 ^ (K + 1)) : |q - c| ≤ 2 ^ (K - 53) := by
  obtain ⟨m, e, hn, rfl⟩ := h
  have hu := two_zpow_pos (K - 52)
  have hK1 : (2 : ℚ) ^ (K + 1) = 2 ^ 53 * 2 ^ (K - 52) := by
    rw [← zpow_natCast, ← zpow_add₀ (by norm_num)]; congr 1; push_cast; ring
  have hK2 : (2 : ℚ) ^ (K - 52) = 2 * 2 ^ (K - 53) := by
    rw [show K - 52 = 1 + (K - 53) by ring, zpow_add₀ (by norm_num), zpow_one]
  obtain ⟨n, hn1, hn2⟩ : ∃ n : ℕ, |q - n * 2 ^ (K - 52)| ≤ 2 ^ (K - 53) ∧ n ≤ 2 ^ 53 := by
    have h1 : 0 ≤ q / 2 ^ (K - 52) := div_nonneg h0 hu.le
    have h2 := Nat.floor_le h1
    have h3 := Nat.lt_floor_add_one (q / 2 ^ (K - 52))
    rw [le_div_iff₀ hu] at h2
    rw [div_lt_iff₀ hu] at h3
    have hbig : q / 2 ^ (K - 52) ≤ 2 ^ 53 := by rw [div_le_iff₀ hu]; linarith
    have hfl : ⌊q / 2 ^ (K - 52)⌋₊ ≤ 2 ^ 53 := by
      have := Nat.floor_le h1
      exact_mod_cast this.trans hbig
    generalize ⌊q / 2 ^ (K - 52)⌋₊ = n at *
    by_cases hc : q - n * 2 ^ (K - 52) ≤ 2 ^ (K - 53)
    · exact ⟨n, by rw [abs_le]; constructor <;> linarith [two_zpow_pos (K - 53)], hfl⟩
    · push Not at hc
      refine ⟨n + 1, by push_cast; rw [abs_le]; constructor <;> linarith, ?_⟩
      by_contra hlt
      have : n = 2 ^ 53 := by omega
      rw [this] at hc
      have := two_zpow_pos (K - 53)
      push_cast at hc
      linarith
  rcases Nat.lt_or_ge n (2 ^ 53) with hlt | hge
  · exact (hn.2.2.1 n (K - 52) ⟨hlt, by omega⟩).trans hn1
  · have hn' : n = 2 ^ 53 := by omega
    refine le_trans (hn.2.2.1 (2 ^ 52) (K - 51) ⟨by norm_num, by omega⟩) ?_
    rw [hn'] at hn1
    have : (((2 : ℕ) ^ 52 : ℕ) : ℚ) * 2 ^ (K - 51) = ((2 ^ 53 : ℕ) : ℚ) * 2 ^ (K - 52) := by
      rw [show K - 51 = 1 + (K - 52) by ring, zpow_add₀ (by norm_num), zpow_one]
      push_cast; ring
    rw [this]; exact hn1

theorem near_self {m : ℕ} {e : ℤ} {c : ℚ} (hb : IsBinary64 m e) (h : Near64 ((m : ℚ) * 2 ^ e) c) : c = m * 2 ^ e := by
  obtain ⟨m', e', hn, rfl⟩ := h
  have := hn.2.2.1 m e hb
  rw [sub_self, abs_zero] at this
  have h0 := abs_eq_zero.mp (le_antisymm this (abs_nonneg _))
  linarith

/-- Three rounded additions of non-negative numbers against a number `B`: `t i ≤ p i` are the parts on the grid `2^l`, the rest is
smaller than one step of the grid. -/
theorem chain4 {p0 p1 p2 p3 t0 t1 t2 t3 c1 c2 c3 B : ℚ} {K l : ℤ} {b : ℕ} {be : ℤ}
    (hB : IsBinary64 b be) (hBv : B = b * 2 ^ be) (_hB1 : (2 : ℚ) ^ K ≤ B) (hB2 : B < 2 ^ (K + 1)) (hK : -1022 ≤ K) (hl : K - 52 ≤ l)
    (h1 : Near64 (p0 + p1) c1) (h2 : Near64 (c1 + p2) c2) (h3 : Near64 (c2 + p3) c3)
    (i0 : 0 ≤ t0 ∧ t0 ≤ p0) (i1 : 0 ≤ t1 ∧ t1 ≤ p1) (i2 : 0 ≤ t2 ∧ t2 ≤ p2) (i3 : 0 ≤ t3 ∧ t3 ≤ p3)
    (m0 : ∃ n : ℕ, t0 = n * 2 ^ l) (m1 : ∃ n : ℕ, t1 = n * 2 ^ l) (m2 : ∃ n : ℕ, t2 = n * 2 ^ l) (m3 : ∃ n : ℕ, t3 = n * 2 ^ l)
    (hsep : B ≤ t0 + t1 + t2 + t3 ∨ (t0 + t1 + t2 + t3 + 2 ^ l ≤ B ∧ (p0 - t0) + (p1 - t1) + (p2 - t2) + (p3 - t3) ≤ 2 ^ l - 2 ^ (K - 50))) :
    B ≤ c3 ↔ B ≤ p0 + p1 + p2 + p3 := by
  have key : ∀ T : ℚ, (∃ n : ℕ, T = n * 2 ^ l) → ∀ q c, Near64 q c → min T B ≤ q → min T B ≤ c := by
    rintro T ⟨n, rfl⟩ q c hc hle
    by_cases hT : (n : ℚ) * 2 ^ l < B
    · rw [min_eq_left hT.le] at hle ⊢
      refine near_ge hc ⟨?_, by omega⟩ hle
      have h4 : (n : ℚ) * 2 ^ l < 2 ^ 53 * 2 ^ l := by
        refine lt_trans hT (lt_of_lt_of_le hB2 ?_)
        rw [← zpow_natCast, ← zpow_add₀ (by norm_num)]
        exact zpow_le_zpow_right₀ (by norm_num) (by push_cast; omega)
      have := lt_of_mul_lt_mul_right h4 (two_zpow_pos l).le
      exact_mod_cast this
    · rw [min_eq_right (not_lt.1 hT), hBv] at hle ⊢
      exact near_ge hc hB hle
  have hadd : ∀ T T' : ℚ, (∃ n : ℕ, T = n * 2 ^ l) → (∃ n : ℕ, T' = n * 2 ^ l) → ∃ n : ℕ, T + T' = n * 2 ^ l := by
    rintro T T' ⟨n, rfl⟩ ⟨n', rfl⟩
    exact ⟨n + n', by push_cast; ring⟩
  have hmin : ∀ T t c p : ℚ, 0 ≤ t → t ≤ p → min T B ≤ c → min (T + t) B ≤ c + p := by
    intro T t c p g1 g2 g3
    rcases le_total T B with g | g
    · rw [min_eq_left g] at g3
      exact (min_le_left _ _).trans (by linarith)
    · rw [min_eq_right g] at g3
      exact (min_le_right _ _).trans (by linarith)
  constructor
  · intro hc
    rcases hsep with hs | ⟨hs, hr⟩
    · linarith
    · exfalso
      have hp : (2 : ℚ) ^ (K - 50) = 8 * 2 ^ (K - 53) := by
        rw [show K - 50 = 3 + (K - 53) by ring, zpow_add₀ (by norm_num)]; norm_num
      have hw := two_zpow_pos (K - 53)
      have hS : p0 + p1 + p2 + p3 ≤ B - 8 * 2 ^ (K - 53) := by linarith
      have e1 := abs_le.mp (near_err h1 hK (by linarith) (by linarith))
      have c1p : 0 ≤ c1 := by
        have := key 0 ⟨0, by simp⟩ _ _ h1 (by
          rw [min_eq_left (le_trans (two_zpow_pos K).le _hB1)]; linarith)
        rwa [min_eq_left (le_trans (two_zpow_pos K).le _hB1)] at this
      have e2 := abs_le.mp (near_err h2 hK (by linarith) (by linarith))
      have c2p : 0 ≤ c2 := by
        have := key 0 ⟨0, by simp⟩ _ _ h2 (by
          rw [min_eq_left (le_trans (two_zpow_pos K).le _hB1)]; linarith)
        rwa [min_eq_left (le_trans (two_zpow_pos K).le _hB1)] at this
      have e3 := abs_le.mp (near_err h3 hK (by linarith) (by linarith))
      linarith [e1.1, e2.1, e3.1]
  · intro hS
    rcases hsep with hs | ⟨hs, hr⟩
    · have g1 := key _ (hadd _ _ m0 m1) _ _ h1 (hmin t0 t1 p0 p1 i1.1 i1.2 ((min_le_left _ _).trans i0.2))
      have g2 := key _ (hadd _ _ (hadd _ _ m0 m1) m2) _ _ h2 (hmin _ t2 _ p2 i2.1 i2.2 g1)
      have g3 := key _ (hadd _ _ (hadd _ _ (hadd _ _ m0 m1) m2) m3) _ _ h3 (hmin _ t3 _ p3 i3.1 i3.2 g2)
      rwa [min_eq_right hs] at g3
    · exfalso
      have := two_zpow_pos (K - 50)
      linarith

/-- Exponents fall into two groups separated by one step of a decreasing sequence. -/
theorem exp_split {N : ℕ} (e : Fin N → ℤ) (lam : ℕ → ℤ) (anti : ∀ j, lam (j + 1) ≤ lam j) :
    ∃ j ≤ N, (Finset.univ.filter fun i => lam (j + 1) ≤ e i).card ≤ j ∧ (∀ i, (1 ≤ j ∧ lam j ≤ e i) ∨ e i < lam (j + 1)) ∧
      N - j = (Finset.univ.filter fun i => ¬ lam (j + 1) ≤ e i).card := by
  classical
  have hex : ∃ j, (Finset.univ.filter fun i => lam (j + 1) ≤ e i).card ≤ j :=
    ⟨N, (Finset.card_filter_le _ _).trans (by simp)⟩
  have hfind := Nat.find_spec hex
  have hmin := fun i => @Nat.find_min _ _ hex i
  have hle : Nat.find hex ≤ N := Nat.find_min' hex ((Finset.card_filter_le _ _).trans (by simp))
  generalize Nat.find hex = j at *
  have htot := Finset.card_filter_add_card_filter_not (s := (Finset.univ : Finset (Fin N))) (fun i => lam (j + 1) ≤ e i)
  rw [Finset.card_univ, Fintype.card_fin] at htot
  rcases Nat.eq_zero_or_pos j with rfl | hj
  · refine ⟨0, by omega, hfind, fun i => Or.inr ?_, by omega⟩
    by_contra hlt
    have h0 := Finset.card_eq_zero.mp (Nat.le_zero.mp hfind)
    have : i ∈ (Finset.univ.filter fun i => lam (0 + 1) ≤ e i) := Finset.mem_filter.mpr ⟨Finset.mem_univ _, not_lt.1 hlt⟩
    rw [h0] at this
    simp at this
  · have h1 := hmin (j - 1) (by omega)
    rw [Nat.sub_add_cancel hj, not_le] at h1
    have hsub : (Finset.univ.filter fun i => lam j ≤ e i) ⊆ (Finset.univ.filter fun i => lam (j + 1) ≤ e i) := by
      intro i hi
      rw [Finset.mem_filter] at hi ⊢
      exact ⟨hi.1, (anti j).trans hi.2⟩
    have hcard := Finset.card_le_card hsub
    have heq := Finset.eq_of_subset_of_card_le hsub (by omega)
    refine ⟨j, hle, hfind, fun i => ?_, by omega⟩
    by_cases hi : lam (j + 1) ≤ e i
    · left
      have : i ∈ (Finset.univ.filter fun i => lam (j + 1) ≤ e i) := Finset.mem_filter.mpr ⟨Finset.mem_univ _, hi⟩
      rw [← heq, Finset.mem_filter] at this
      exact ⟨hj, this.2⟩
    · exact Or.inr (not_le.1 hi)

/-- The split of a sum of `N` numbers of `W` bits against a number `B = b * 2^be` with `2^K ≤ B`. -/
theorem sum_split {N W : ℕ} (n : Fin N → ℕ) (e : Fin N → ℤ) (hn : ∀ i, n i < 2 ^ W) {K be : ℤ} {b : ℕ} (lam : ℕ → ℤ)
    (anti : ∀ j, lam (j + 1) ≤ lam j) (h0 : lam 0 = K) (h1 : lam 1 ≤ be) (hlam : ∀ j ≤ N, K - 52 ≤ lam j) (hB1 : (2 : ℚ) ^ K ≤ b * 2 ^ be)
    (hgap : ∀ j ≤ N, ((N - j : ℕ) : ℚ) * (((2 ^ W - 1 : ℕ) : ℚ) * 2 ^ (lam (j + 1) - 1)) ≤ 2 ^ lam j - 2 ^ (K - 50)) :
    ∃ (l : ℤ) (t : Fin N → ℚ), K - 52 ≤ l ∧ (∀ i, 0 ≤ t i ∧ t i ≤ (n i : ℚ) * 2 ^ e i) ∧ (∀ i, ∃ k : ℕ, t i = k * 2 ^ l) ∧
      ((b : ℚ) * 2 ^ be ≤ ∑ i, t i ∨ (∑ i, t i + 2 ^ l ≤ b * 2 ^ be ∧ ∑ i, ((n i : ℚ) * 2 ^ e i - t i) ≤ 2 ^ l - 2 ^ (K - 50))) := by
  classical
  obtain ⟨j, hj, hc, hs, hcard⟩ := exp_split e lam anti
  have hmono : ∀ i, 1 ≤ i → lam i ≤ lam 1 := by
    intro i hi
    induction i with
    | zero => omega
    | succ i ih =>
      rcases Nat.eq_zero_or_pos i with rfl | hp
      · exact le_refl _
      · exact (anti i).trans (ih hp)
  have hgrid : ∀ i, ∃ k : ℕ, (if lam (j + 1) ≤ e i then (n i : ℚ) * 2 ^ e i else 0) = k * 2 ^ lam j := by
    intro i
    split_ifs with h
    · rcases hs i with ⟨-, h'⟩ | h'
      · refine ⟨n i * 2 ^ (e i - lam j).toNat, ?_⟩
        have : (2 : ℚ) ^ e i = 2 ^ (e i - lam j).toNat * 2 ^ lam j := by
          rw [← zpow_natCast, ← zpow_add₀ (by norm_num)]; congr 1; omega
        rw [this]; push_cast; ring
      · omega
    · exact ⟨0, by simp⟩
  refine ⟨lam j, fun i => if lam (j + 1) ≤ e i then (n i : ℚ) * 2 ^ e i else 0, hlam j hj, fun i => ?_, hgrid, ?_⟩
  · have : (0 : ℚ) ≤ n i * 2 ^ e i := mul_nonneg (Nat.cast_nonneg _) (two_zpow_pos _).le
    simp only
    split_ifs
    · exact ⟨this, le_refl _⟩
    · exact ⟨le_refl _, this⟩
  · by_cases hT : (b : ℚ) * 2 ^ be ≤ ∑ i, (if lam (j + 1) ≤ e i then (n i : ℚ) * 2 ^ e i else 0)
    · exact Or.inl hT
    · right
      rw [not_le] at hT
      constructor
      · rcases Nat.eq_zero_or_pos j with rfl | hjp
        · have : ∀ i, (if lam (0 + 1) ≤ e i then (n i : ℚ) * 2 ^ e i else 0) = 0 := by
            intro i
            refine if_neg ?_
            rcases hs i with h | h <;> omega
          rw [Finset.sum_congr rfl fun i _ => this i, Finset.sum_const_zero, zero_add, h0]
          exact hB1
        · choose k hk using hgrid
          have hsum : ∑ i, (if lam (j + 1) ≤ e i then (n i : ℚ) * 2 ^ e i else 0) = ((∑ i, k i : ℕ) : ℚ) * 2 ^ lam j := by
            rw [Finset.sum_congr rfl fun i _ => hk i, ← Finset.sum_mul]; push_cast; ring
          have hB : (b : ℚ) * 2 ^ be = ((b * 2 ^ (be - lam j).toNat : ℕ) : ℚ) * 2 ^ lam j := by
            have : (2 : ℚ) ^ be = 2 ^ (be - lam j).toNat * 2 ^ lam j := by
              rw [← zpow_natCast, ← zpow_add₀ (by norm_num)]; congr 1
              have := hmono j hjp
              omega
            rw [this]; push_cast; ring
          rw [hsum, hB] at hT ⊢
          have h2 := lt_of_mul_lt_mul_right hT (two_zpow_pos _).le
          have h3 : (∑ i, k i) + 1 ≤ b * 2 ^ (be - lam j).toNat := by exact_mod_cast h2
          have h4 : (((∑ i, k i) + 1 : ℕ) : ℚ) * 2 ^ lam j ≤ ((b * 2 ^ (be - lam j).toNat : ℕ) : ℚ) * 2 ^ lam j :=
            mul_le_mul_of_nonneg_right (by exact_mod_cast h3) (two_zpow_pos _).le
          push_cast at h4 ⊢
          linarith
      · refine le_trans ?_ (hgap j hj)
        have hterm : ∀ i, (n i : ℚ) * 2 ^ e i - (if lam (j + 1) ≤ e i then (n i : ℚ) * 2 ^ e i else 0) =
            if ¬ lam (j + 1) ≤ e i then (n i : ℚ) * 2 ^ e i else 0 := by
          intro i
          split_ifs <;> simp
        rw [Finset.sum_congr rfl fun i _ => hterm i, ← Finset.sum_filter, hcard, ← nsmul_eq_mul]
        refine Finset.sum_le_card_nsmul _ _ _ fun i hi => ?_
        rw [Finset.mem_filter] at hi
        have hw : (2 : ℚ) ^ e i ≤ 2 ^ (lam (j + 1) - 1) := zpow_le_zpow_right₀ (by norm_num) (by omega)
        have hv : (n i : ℚ) ≤ ((2 ^ W - 1 : ℕ) : ℚ) := by
          have := hn i
          exact_mod_cast (show n i ≤ 2 ^ W - 1 by omega)
        exact mul_le_mul hv hw (two_zpow_pos _).le (Nat.cast_nonneg _)

end Thls
