import Verif.Proofs.DotChain
import Verif.Proofs.RefDirected
import Verif.Props.Double
import Verif.Props.Dot
import Verif.Model.DotRef
import Verif.SpecDotRef
import Verif.Proofs.PolicyOps

/-! # The references of the dot products -/

namespace Thls
open Spec

/-! ## Arithmetic on doubles -/

theorem dblValue_datum (x : Ieee 11 52) : (dblValue x).datum = x.datum := by
  have hs := x.sign_lt
  have hb : bias 11 = 1023 := by norm_num [bias]
  have ho : ones 11 = 2 ^ 11 - 1 := by decide
  unfold dblValue Ieee.datum ieeeDenote
  simp only
  rw [hb, ho]
  by_cases h1 : x.exp = 2 ^ 11 - 1
  · have h0 : x.exp ≠ 0 := by rw [h1]; norm_num
    rw [if_pos h1, if_neg h0, if_pos h1]
    by_cases hf : x.frac = 0
    · rw [if_pos hf, if_pos hf]; simp [Mpfr.datum, beq_eq_decide]
    · rw [if_neg hf, if_neg hf]; rfl
  · rw [if_neg h1]
    by_cases h0 : x.exp = 0
    · rw [if_pos h0, if_pos h0]
      by_cases hf : x.frac = 0
      · rw [if_pos hf, if_pos hf]; simp [Mpfr.datum, beq_eq_decide]
      · rw [if_neg hf, if_neg hf]; norm_num [Mpfr.datum]
    · rw [if_neg h0, if_neg h0, if_neg h1]
      have : ((x.exp : ℤ) - 1023 - (52 : ℕ)) = (x.exp : ℤ) - 1075 := by push_cast; ring
      rw [this]
      simp [Mpfr.datum]

theorem dblValue_pos {x : Ieee 11 52} {u : ℚ} (h : x.datum = .num u) (hu : 0 < u) :
    ∃ m e, dblValue x = .num false m e ∧ 0 < m ∧ u = m * 2 ^ e ∧ IsBinary64 m e := by
  have hd := dblValue_datum x
  rw [h] at hd
  have hf := x.frac_lt (by norm_num)
  have key : ∀ s m e, dblValue x = .num s m e → s = false ∧ 0 < m ∧ u = m * 2 ^ e := by
    intro s m e hv
    rw [hv, Mpfr.datum] at hd
    have hd := Datum.num.inj hd
    have hnn : (0 : ℚ) ≤ (m : ℚ) * 2 ^ e := mul_nonneg (Nat.cast_nonneg _) (two_zpow_pos _).le
    cases s
    · simp only [Bool.false_eq_true, if_false, one_mul] at hd
      refine ⟨rfl, ?_, hd.symm⟩
      rcases Nat.eq_zero_or_pos m with rfl | h
      · rw [← hd] at hu; simp at hu
      · exact h
    · simp only [if_true] at hd; linarith
  unfold dblValue at key hd ⊢
  simp only at key hd ⊢
  split_ifs at key hd ⊢ with h1 h2 h3 h4
  · cases hd
  · cases hd
  · cases hd
  · obtain ⟨a, b, c⟩ := key _ _ _ rfl
    exact ⟨_, _, by rw [a], b, c, by omega, by omega⟩
  · obtain ⟨a, b, c⟩ := key _ _ _ rfl
    exact ⟨_, _, by rw [a], b, c, by omega, by omega⟩

theorem dblValue_inf {x : Ieee 11 52} (h : x.datum = .inf false) : dblValue x = .inf false := by
  have hd := dblValue_datum x
  rw [h] at hd
  cases hv : dblValue x with
  | inf s => rw [hv, Mpfr.datum] at hd; rw [Datum.inf.inj hd]
  | nan => rw [hv] at hd; cases hd
  | zero s => rw [hv] at hd; cases hd
  | num s m e => rw [hv] at hd; cases hd

theorem rounded64_pos {q : ℚ} {d : Datum} (hq : 0 < q) (h : RoundedBinary64 q d) :
    ∃ c, Near64 q c ∧ (∃ m e, IsBinary64 m e ∧ c = m * 2 ^ e) ∧ (c ≠ 0 → d = if (2 : ℚ) ^ (1024 : ℤ) ≤ c then .inf false else .num c) := by
  obtain ⟨m, e, hn, hd⟩ := h
  rw [abs_of_pos hq] at hn
  refine ⟨_, ⟨m, e, hn, rfl⟩, ⟨m, e, hn.1, rfl⟩, fun hc => ?_⟩
  have hm : m ≠ 0 := by rintro rfl; simp at hc
  have h1 : ¬ q < 0 := not_lt.2 hq.le
  rw [hd, if_neg hm]
  simp only [h1, decide_false, if_false, one_mul]

/-- The double `x` holds the positive number `c`, or infinity if `c` is above the range. -/
def Holds (c : ℚ) (x : Ieee 11 52) : Prop :=
  0 < c ∧ (∃ m e, IsBinary64 m e ∧ c = m * 2 ^ e) ∧ x.datum = if (2 : ℚ) ^ (1024 : ℤ) ≤ c then .inf false else .num c

theorem holds_mul {x y : Ieee 11 52} {u v : ℚ} (hx : x.datum = .num u) (hy : y.datum = .num v) (hu : 0 < u) (hv : 0 < v) {k : ℕ} {g : ℤ}
    (hk : IsBinary64 k g) (hp : u * v = k * 2 ^ g) : Holds (u * v) (dblMul x y) := by
  obtain ⟨m, e, h1, h2, h3, -⟩ := dblValue_pos hx hu
  obtain ⟨m', e', h1', h2', h3', -⟩ := dblValue_pos hy hv
  have hr := dblRound_rounded (Nat.mul_pos h2 h2') false (e + e')
  have hq : (if false = true then (-1 : ℚ) else 1) * (((m * m' : ℕ) : ℚ) * 2 ^ (e + e')) = u * v := by
    rw [h3, h3', zpow_add₀ (by norm_num)]; push_cast; simp; ring
  rw [hq] at hr
  have hpos := mul_pos hu hv
  obtain ⟨c, c1, c2, c3⟩ := rounded64_pos hpos hr
  rw [hp] at c1
  have hc := near_self hk c1
  rw [← hp] at hc
  rw [hc] at c2 c3
  refine ⟨hpos, c2, ?_⟩
  rw [← c3 hpos.ne']
  unfold dblMul
  rw [h1, h1']; rfl

theorem dyadic_sum (m m' : ℕ) (e e' : ℤ) : (m : ℚ) * 2 ^ e + m' * 2 ^ e' =
    ((m * 2 ^ (e - min e e').toNat + m' * 2 ^ (e' - min e e').toNat : ℕ) : ℚ) * 2 ^ min e e' := by
  have h1 : (2 : ℚ) ^ e = 2 ^ (e - min e e').toNat * 2 ^ min e e' := by
    rw [← zpow_natCast, ← zpow_add₀ (by norm_num)]; congr 1; omega
  have h2 : (2 : ℚ) ^ e' = 2 ^ (e' - min e e').toNat * 2 ^ min e e' := by
    rw [← zpow_natCast, ← zpow_add₀ (by norm_num)]; congr 1; omega
  conv_lhs => rw [h1, h2]
  push_cast; ring

theorem holds_add {x y : Ieee 11 52} {c p : ℚ} (hx : Holds c x) (hy : Holds p y) : ∃ c', Near64 (c + p) c' ∧ Holds c' (dblAdd x y) := by
  obtain ⟨cp, ⟨m, e, hb, hc⟩, dx⟩ := hx
  obtain ⟨pp, ⟨m', e', hb', hp⟩, dy⟩ := hy
  have hm : 0 < m := by
    rcases Nat.eq_zero_or_pos m with rfl | h
    · rw [hc] at cp; simp at cp
    · exact h
  have hN : 0 < m * 2 ^ (e - min e e').toNat + m' * 2 ^ (e' - min e e').toNat := by positivity
  have hsum := dyadic_sum m m' e e'
  rw [← hc, ← hp] at hsum
  have hr := dblRound_rounded hN false (min e e')
  rw [if_neg (by decide), one_mul, ← hsum] at hr
  obtain ⟨c', c1, c2, c3⟩ := rounded64_pos (by linarith) hr
  have hge : c ≤ c' := by
    rw [hc]; refine near_ge c1 hb ?_
    rw [← hc]; linarith
  have hge' : p ≤ c' := by
    rw [hp]; refine near_ge c1 hb' ?_
    rw [← hp]; linarith
  have hcp' : 0 < c' := by linarith
  have hi0 : (IeeeLimits.infinity 11 52).datum = .inf false := by decide +kernel
  by_cases ox : (2 : ℚ) ^ (1024 : ℤ) ≤ c
  · rw [if_pos ox] at dx
    refine ⟨c', c1, hcp', c2, ?_⟩
    rw [if_pos (ox.trans hge)]
    have h1 := dblValue_inf dx
    by_cases oy : (2 : ℚ) ^ (1024 : ℤ) ≤ p
    · rw [if_pos oy] at dy
      have h2 := dblValue_inf dy
      unfold dblAdd
      rw [h1, h2]
      exact hi0
    · rw [if_neg oy] at dy
      obtain ⟨m2, e2, h2, -⟩ := dblValue_pos dy pp
      unfold dblAdd
      rw [h1, h2]
      exact hi0
  · rw [if_neg ox] at dx
    obtain ⟨m1, e1, h1, hm1, hv1, -⟩ := dblValue_pos dx cp
    by_cases oy : (2 : ℚ) ^ (1024 : ℤ) ≤ p
    · rw [if_pos oy] at dy
      refine ⟨c', c1, hcp', c2, ?_⟩
      rw [if_pos (oy.trans hge')]
      have h2 := dblValue_inf dy
      unfold dblAdd
      rw [h1, h2]
      exact hi0
    · rw [if_neg oy] at dy
      obtain ⟨m2, e2, h2, -, hv2, -⟩ := dblValue_pos dy pp
      have hN' : 0 < m1 * 2 ^ (e1 - min e1 e2).toNat + m2 * 2 ^ (e2 - min e1 e2).toNat := by positivity
      have hsum' := dyadic_sum m1 m2 e1 e2
      rw [← hv1, ← hv2] at hsum'
      have hr' := dblRound_rounded hN' false (min e1 e2)
      rw [if_neg (by decide), one_mul, ← hsum'] at hr'
      obtain ⟨c'', d1, d2, d3⟩ := rounded64_pos (by linarith) hr'
      have dge : c ≤ c'' := by
        rw [hc]; refine near_ge d1 hb ?_
        rw [← hc]; linarith
      have dp : 0 < c'' := by linarith
      refine ⟨c'', d1, dp, d2, ?_⟩
      rw [← d3 dp.ne']
      unfold dblAdd dblSum
      rw [h1, h2]
      simp only [Bool.false_eq_true, if_false, one_mul]
      have hk : ((m1 : ℤ) * 2 ^ (e1 - min e1 e2).toNat + m2 * 2 ^ (e2 - min e1 e2).toNat) =
          ((m1 * 2 ^ (e1 - min e1 e2).toNat + m2 * 2 ^ (e2 - min e1 e2).toNat : ℕ) : ℤ) := by push_cast; rfl
      rw [hk, if_neg (by exact_mod_cast hN'.ne'), Int.natAbs_natCast]
      rw [decide_eq_false (by exact_mod_cast Nat.not_lt_zero _)]

/-! ## The comparison with a number of few bits -/

/-- The grids for two products of at most 24 bits. -/
def lam2 : ℕ → ℤ
  | 0 => 0
  | 1 => 24
  | 2 => 47
  | _ => 48

/-- The grids for four products of at most 12 bits. -/
def lam4 : ℕ → ℤ
  | 0 => 0
  | 1 => 13
  | 2 => 26
  | 3 => 38
  | 4 => 49
  | _ => 50

/-- A sum of two rounded once, against a number of at most 12 bits. -/
theorem two_terms {n : Fin 2 → ℕ} {e : Fin 2 → ℤ} (hn : ∀ i, n i < 2 ^ 24) {c : ℚ}
    (h : Near64 ((n 0 : ℚ) * 2 ^ e 0 + n 1 * 2 ^ e 1) c) (hlow : (2 : ℚ) ^ (-1022 : ℤ) ≤ n 0 * 2 ^ e 0)
    {p b : ℕ} {be : ℤ} (hp : 1 ≤ p) (hp' : p ≤ 12) (hb : IsSig p b) :
    (b : ℚ) * 2 ^ be ≤ c ↔ (b : ℚ) * 2 ^ be ≤ (n 0 : ℚ) * 2 ^ e 0 + n 1 * 2 ^ e 1 := by
  have hn1 : (0 : ℚ) ≤ (n 1 : ℚ) * 2 ^ e 1 := mul_nonneg (Nat.cast_nonneg _) (two_zpow_pos _).le
  obtain ⟨b1, b2⟩ := hb
  have hB1 : (2 : ℚ) ^ (be + p - 1) ≤ b * 2 ^ be := by
    rw [show be + (p : ℤ) - 1 = ((p - 1 : ℕ) : ℤ) + be by omega, zpow_add₀ (by norm_num), zpow_natCast]
    exact mul_le_mul_of_nonneg_right (by exact_mod_cast b1) (two_zpow_pos _).le
  have hB2 : (b : ℚ) * 2 ^ be < 2 ^ (be + p - 1 + 1) := by
    rw [show be + (p : ℤ) - 1 + 1 = (p : ℤ) + be by omega, zpow_add₀ (by norm_num), zpow_natCast]
    exact mul_lt_mul_of_pos_right (by exact_mod_cast b2) (two_zpow_pos _)
  by_cases hK : -1022 ≤ be + p - 1
  · have hbin : IsBinary64 b be := ⟨lt_of_lt_of_le b2 (Nat.pow_le_pow_right (by norm_num) (by omega)), by omega⟩
    generalize hKd : be + (p : ℤ) - 1 = K at *
    obtain ⟨l, t, hl, ht, hg, hs⟩ := sum_split (N := 2) (W := 24) n e hn (K := K) (be := be) (b := b) (fun j => K - lam2 j)
      (by intro j
          match j with
          | 0 => simp only [lam2]; omega
          | 1 => simp only [lam2]; omega
          | 2 => simp only [lam2]; omega
          | j + 3 => simp only [lam2]; omega)
      (by simp only [lam2]; omega) (by simp only [lam2]; omega)
      (by intro j hj; interval_cases j <;> simp only [lam2] <;> omega)
      hB1
      (by
        intro j hj
        have e1 : ∀ a : ℕ, a ≤ 60 → (2 : ℚ) ^ (K - (a : ℤ)) = 2 ^ (60 - a) * 2 ^ (K - 60) := by
          intro a ha
          rw [← zpow_natCast, ← zpow_add₀ (by norm_num)]; congr 1; omega
        have e24 := e1 24 (by norm_num)
        have e25 := e1 25 (by norm_num)
        have e47 := e1 47 (by norm_num)
        have e48 := e1 48 (by norm_num)
        have e49 := e1 49 (by norm_num)
        have e50 := e1 50 (by norm_num)
        have e0 := e1 0 (by norm_num)
        have hw := two_zpow_pos (K - 60)
        push_cast at e24 e25 e47 e48 e49 e50 e0
        interval_cases j
        · simp only [lam2]
          rw [show K - 24 - 1 = K - 25 by ring, e25, e50, show K - (0 : ℤ) = K - 0 from rfl, e0]
          norm_num; linarith
        · simp only [lam2]
          rw [show K - 47 - 1 = K - 48 by ring, e48, e50, e24]
          norm_num; linarith
        · simp only [lam2]
          rw [e50, e47]
          norm_num; linarith)
    have hz : ∀ q d : ℚ, Near64 q d → Near64 (d + 0) d := by
      rintro q d ⟨m, k, hmk, rfl⟩
      rw [add_zero]
      refine ⟨m, k, ⟨hmk.1, hmk.2.1, ?_, ?_⟩, rfl⟩
      · intro m' k' _; rw [sub_self, abs_zero]; exact abs_nonneg _
      · intro m' k' _ h1 h2
        rw [sub_self, abs_zero] at h1
        exact absurd (by linarith [abs_eq_zero.mp h1.symm]) h2
    rw [Fin.sum_univ_two, Fin.sum_univ_two] at hs
    have := chain4 hbin rfl hB1 hB2 hK hl h (hz _ _ h) (hz _ _ h) (ht 0) (ht 1) (t2 := 0) (t3 := 0) (by simp) (by simp) (hg 0) (hg 1)
      ⟨0, by simp⟩ ⟨0, by simp⟩ (by simpa using hs)
    simpa using this
  · push Not at hK
    have h1 : (b : ℚ) * 2 ^ be ≤ 2 ^ (-1022 : ℤ) := hB2.le.trans (zpow_le_zpow_right₀ (by norm_num) (by omega))
    have h2 : (2 : ℚ) ^ (-1022 : ℤ) ≤ c := by
      have := near_ge h (m := 1) (e := -1022) ⟨by norm_num, by norm_num⟩ (by push_cast; linarith)
      simpa using this
    exact ⟨fun _ => by linarith, fun _ => by linarith⟩

/-- A sum of four rounded three times, against a number of at most 6 bits. -/
theorem four_terms {n : Fin 4 → ℕ} {e : Fin 4 → ℤ} (hn : ∀ i, n i < 2 ^ 12) {c1 c2 c : ℚ}
    (h1 : Near64 ((n 0 : ℚ) * 2 ^ e 0 + n 1 * 2 ^ e 1) c1) (h2 : Near64 (c1 + (n 2 : ℚ) * 2 ^ e 2) c2)
    (h3 : Near64 (c2 + (n 3 : ℚ) * 2 ^ e 3) c) (hlow : (2 : ℚ) ^ (-1022 : ℤ) ≤ n 0 * 2 ^ e 0)
    {p b : ℕ} {be : ℤ} (hp : 1 ≤ p) (hp' : p ≤ 6) (hb : IsSig p b) :
    (b : ℚ) * 2 ^ be ≤ c ↔ (b : ℚ) * 2 ^ be ≤ ∑ i, (n i : ℚ) * 2 ^ e i := by
  have hnn : ∀ i, (0 : ℚ) ≤ (n i : ℚ) * 2 ^ e i := fun i => mul_nonneg (Nat.cast_nonneg _) (two_zpow_pos _).le
  rw [Fin.sum_univ_four]
  obtain ⟨b1, b2⟩ := hb
  have hB1 : (2 : ℚ) ^ (be + p - 1) ≤ b * 2 ^ be := by
    rw [show be + (p : ℤ) - 1 = ((p - 1 : ℕ) : ℤ) + be by omega, zpow_add₀ (by norm_num), zpow_natCast]
    exact mul_le_mul_of_nonneg_right (by exact_mod_cast b1) (two_zpow_pos _).le
  have hB2 : (b : ℚ) * 2 ^ be < 2 ^ (be + p - 1 + 1) := by
    rw [show be + (p : ℤ) - 1 + 1 = (p : ℤ) + be by omega, zpow_add₀ (by norm_num), zpow_natCast]
    exact mul_lt_mul_of_pos_right (by exact_mod_cast b2) (two_zpow_pos _)
  by_cases hK : -1022 ≤ be + p - 1
  · have hbin : IsBinary64 b be := ⟨lt_of_lt_of_le b2 (Nat.pow_le_pow_right (by norm_num) (by omega)), by omega⟩
    generalize hKd : be + (p : ℤ) - 1 = K at *
    obtain ⟨l, t, hl, ht, hg, hs⟩ := sum_split (N := 4) (W := 12) n e hn (K := K) (be := be) (b := b) (fun j => K - lam4 j)
      (by intro j
          match j with
          | 0 => simp only [lam4]; omega
          | 1 => simp only [lam4]; omega
          | 2 => simp only [lam4]; omega
          | 3 => simp only [lam4]; omega
          | 4 => simp only [lam4]; omega
          | j + 5 => simp only [lam4]; omega)
      (by simp only [lam4]; omega) (by simp only [lam4]; omega)
      (by intro j hj; interval_cases j <;> simp only [lam4] <;> omega)
      hB1
      (by
        intro j hj
        have e1 : ∀ a : ℕ, a ≤ 60 → (2 : ℚ) ^ (K - (a : ℤ)) = 2 ^ (60 - a) * 2 ^ (K - 60) := by
          intro a ha
          rw [← zpow_natCast, ← zpow_add₀ (by norm_num)]; congr 1; omega
        have e0 := e1 0 (by norm_num)
        have e13 := e1 13 (by norm_num)
        have e14 := e1 14 (by norm_num)
        have e26 := e1 26 (by norm_num)
        have e27 := e1 27 (by norm_num)
        have e38 := e1 38 (by norm_num)
        have e39 := e1 39 (by norm_num)
        have e49 := e1 49 (by norm_num)
        have e50 := e1 50 (by norm_num)
        have hw := two_zpow_pos (K - 60)
        push_cast at e0 e13 e14 e26 e27 e38 e39 e49 e50
        interval_cases j
        · simp only [lam4]
          rw [show K - 13 - 1 = K - 14 by ring, e14, e50, e0]
          norm_num; linarith
        · simp only [lam4]
          rw [show K - 26 - 1 = K - 27 by ring, e27, e50, e13]
          norm_num; linarith
        · simp only [lam4]
          rw [show K - 38 - 1 = K - 39 by ring, e39, e50, e26]
          norm_num; linarith
        · simp only [lam4]
          rw [show K - 49 - 1 = K - 50 by ring, e50, e38]
          norm_num; linarith
        · simp only [lam4]
          rw [e50, e49]
          norm_num; linarith)
    rw [Fin.sum_univ_four, Fin.sum_univ_four] at hs
    exact chain4 hbin rfl hB1 hB2 hK hl h1 h2 h3 (ht 0) (ht 1) (ht 2) (ht 3) (hg 0) (hg 1) (hg 2) (hg 3) hs
  · push Not at hK
    have g0 : (b : ℚ) * 2 ^ be ≤ 2 ^ (-1022 : ℤ) := hB2.le.trans (zpow_le_zpow_right₀ (by norm_num) (by omega))
    have step : ∀ q d : ℚ, Near64 q d → (2 : ℚ) ^ (-1022 : ℤ) ≤ q → (2 : ℚ) ^ (-1022 : ℤ) ≤ d := by
      intro q d hqd hq
      have := near_ge hqd (m := 1) (e := -1022) ⟨by norm_num, by norm_num⟩ (by push_cast; linarith)
      simpa using this
    have s1 := step _ _ h1 (by linarith [hnn 1])
    have s2 := step _ _ h2 (by linarith [hnn 2])
    have s3 := step _ _ h3 (by linarith [hnn 3])
    exact ⟨fun _ => by linarith [hnn 1, hnn 2, hnn 3], fun _ => by linarith⟩

theorem roundDown_exists {p : ℕ} (hp : 1 ≤ p) {q : ℚ} (hq : 0 < q) : ∃ m e, RoundDown p q m e :=
  ⟨_, _, Mpfr.directedPos_sig hp false hq, (Mpfr.directedPos_down hp hq).1, (Mpfr.directedPos_down hp hq).2⟩

theorem setDown_pos {E F : ℕ} (hE : 1 ≤ E) (hF : 1 ≤ F) {q : ℚ} (hq : 0 < q) :
    ∃ r : Fp E F, ofMpfr E F true (Mpfr.directed (F + 1) false q) = some r ∧ RoundedDown E F q r.datum := by
  obtain ⟨r, hr, m, e, hs, hd, hc⟩ := ofMpfr_directed (E := E) (F := F) hE hF false hq.ne'
  have h0 : decide (q < 0) = false := decide_eq_false (not_lt.2 hq.le)
  rw [h0] at hd
  rw [h0, if_pos rfl, abs_of_pos hq] at hc
  exact ⟨r, hr, m, e, ⟨hs, hc.1, hc.2⟩, hd⟩

/-- The last step of the small references. -/
theorem small_final {E F : ℕ} (hE : 1 ≤ E) (hE' : E ≤ 10) (hF : 1 ≤ F) {c S : ℚ} {x : Ieee 11 52} (hx : Holds c x) (hS : 0 < S)
    (hcmp : ∀ (b : ℕ) (be : ℤ), IsSig (F + 1) b → ((b : ℚ) * 2 ^ be ≤ c ↔ (b : ℚ) * 2 ^ be ≤ S)) :
    ∃ r : Fp E F, ofMpfr E F true (Mpfr.setDown (F + 1) (dblValue x)) = some r ∧ RoundedDown E F S r.datum := by
  obtain ⟨cp, -, hd⟩ := hx
  by_cases ho : (2 : ℚ) ^ (1024 : ℤ) ≤ c
  · rw [if_pos ho] at hd
    rw [dblValue_inf hd]
    refine ⟨Limits.infinity E F, rfl, ?_⟩
    obtain ⟨m, e, hm⟩ := roundDown_exists (p := F + 1) (by omega) hS
    refine ⟨m, e, hm, ?_⟩
    have hsig : IsSig (F + 1) (2 ^ F) := ⟨by simp, Nat.pow_lt_pow_right (by norm_num) (by omega)⟩
    have hv : ((2 ^ F : ℕ) : ℚ) * 2 ^ (1024 - (F : ℤ)) = 2 ^ (1024 : ℤ) := by
      push_cast; rw [← zpow_natCast, ← zpow_add₀ (by norm_num)]; congr 1; ring
    have h1 := (hcmp (2 ^ F) (1024 - F) hsig).mp (by rw [hv]; exact ho)
    have h2 := hm.2.2 _ _ hsig h1
    rw [hv] at h2
    have h3 : (m : ℚ) * 2 ^ e < 2 ^ ((F : ℤ) + 1 + e) := by
      rw [show (F : ℤ) + 1 + e = ((F + 1 : ℕ) : ℤ) + e by push_cast; ring, zpow_add₀ (by norm_num), zpow_natCast]
      exact mul_lt_mul_of_pos_right (by exact_mod_cast hm.1.2) (two_zpow_pos _)
    have h4 := (zpow_lt_zpow_iff_right₀ (by norm_num : (1 : ℚ) < 2)).1 (lt_of_le_of_lt h2 h3)
    have hb := bias_double hE
    have hE10 : (2 : ℤ) ^ E ≤ 2 ^ 10 := pow_le_pow_right₀ (by norm_num) hE'
    have g1 : ¬ (e + F + bias E < 0) := by omega
    have g2 : (2 : ℤ) ^ E ≤ e + F + bias E := by omega
    rw [rangeCheck, if_neg g1, if_pos g2]
    exact (C46_limits_values_partial hE hF).2.2.2.2.2.1
  · rw [if_neg ho] at hd
    obtain ⟨m, e, hv, hm, hc, -⟩ := dblValue_pos hd cp
    have hval : (Mpfr.num false m e).value = c := by rw [hc]; simp [Mpfr.value]
    rw [hv, Mpfr.setDown, hval]
    obtain ⟨r, hr, m', e', hm', hd'⟩ := setDown_pos (E := E) (F := F) hE hF cp
    refine ⟨r, hr, m', e', ⟨hm'.1, (hcmp _ _ hm'.1).mp hm'.2.1, fun m'' e'' h1 h2 => hm'.2.2 m'' e'' h1 ((hcmp _ _ h1).mpr h2)⟩, hd'⟩

/-! ## Products -/

theorem dot_bounds {E F : ℕ} (hE : 1 ≤ E) (hE' : E ≤ 10) (hF : 1 ≤ F) (a b : Fp E F) :
    -1022 - 2 * (F : ℤ) ≤ (dotExp a b : ℤ) - 2 * bias E - 2 * F ∧
      (2 : ℚ) ^ (-1022 : ℤ) ≤ (dotFrac a b : ℚ) * 2 ^ ((dotExp a b : ℤ) - 2 * bias E - 2 * F) := by
  have hb : bias E ≤ 511 := by
    have h1 := bias_double hE
    have h2 : (2 : ℤ) ^ E ≤ 2 ^ 10 := pow_le_pow_right₀ (by norm_num) hE'
    norm_num at h2
    linarith
  refine ⟨by omega, ?_⟩
  have h2 : ((2 ^ (2 * F) : ℕ) : ℚ) ≤ (dotFrac a b : ℚ) := by exact_mod_cast (dotFrac_bounds hF a b).1
  refine le_trans ?_ (mul_le_mul_of_nonneg_right h2 (two_zpow_pos _).le)
  push_cast
  rw [← zpow_natCast, ← zpow_add₀ (by norm_num)]
  exact zpow_le_zpow_right₀ (by norm_num) (by push_cast; omega)

theorem holds_product {E F : ℕ} (hE : 1 ≤ E) (hE' : E ≤ 10) (hF : 1 ≤ F) (hF' : F ≤ 25) {a b : Fp E F} {u v : ℚ} (ha : a.datum = .num u)
    (hb : b.datum = .num v) (pa : 0 < u) (pb : 0 < v) {x y : Ieee 11 52} (hx : x.datum = .num u) (hy : y.datum = .num v) :
    Holds ((dotFrac a b : ℚ) * 2 ^ ((dotExp a b : ℤ) - 2 * bias E - 2 * F)) (dblMul x y) := by
  have hp := dot_value hE ha hb pa pb
  have h := holds_mul hx hy pa pb (k := dotFrac a b) (g := (dotExp a b : ℤ) - 2 * bias E - 2 * F)
    ⟨lt_of_lt_of_le (dotFrac_bounds hF a b).2 (Nat.pow_le_pow_right (by norm_num) (by omega)), by
      have := (dot_bounds hE hE' hF a b).1
      omega⟩ hp
  rwa [hp] at h

theorem dotFrac_lt {E F W : ℕ} (hF : 1 ≤ F) (h : 2 * F + 2 ≤ W) (a b : Fp E F) : dotFrac a b < 2 ^ W :=
  lt_of_lt_of_le (dotFrac_bounds hF a b).2 (Nat.pow_le_pow_right (by norm_num) h)

theorem dot2RefSmall_correct {E F : ℕ} (hE : 1 ≤ E) (hE' : E ≤ 10) (hF : 1 ≤ F) (hF' : F ≤ 11) (a0 a1 b0 b1 : Fp E F) (u0 u1 v0 v1 : ℚ)
    (ha0 : a0.datum = .num u0) (ha1 : a1.datum = .num u1) (hb0 : b0.datum = .num v0) (hb1 : b1.datum = .num v1)
    (pa0 : 0 < u0) (pa1 : 0 < u1) (pb0 : 0 < v0) (pb1 : 0 < v1) :
    ∃ r, dot2RefSmall a0 a1 b0 b1 = some r ∧ RoundedDown E F (u0 * v0 + u1 * v1) r.datum := by
  have ex : ∀ (x : Fp E F) (w : ℚ), x.datum = .num w → (toDoubleApprox x).datum = .num w := fun x w h => by
    rw [C56_to_double_approx_exact hE hE' hF (by omega), h]
  have h0 := holds_product hE hE' hF (by omega) ha0 hb0 pa0 pb0 (ex _ _ ha0) (ex _ _ hb0)
  have h1 := holds_product hE hE' hF (by omega) ha1 hb1 pa1 pb1 (ex _ _ ha1) (ex _ _ hb1)
  obtain ⟨c, hc, hh⟩ := holds_add h0 h1
  unfold dot2RefSmall
  rw [if_neg (by omega)]
  refine small_final hE hE' hF hh (by positivity) fun b be hsig => ?_
  rw [dot_value hE ha0 hb0 pa0 pb0, dot_value hE ha1 hb1 pa1 pb1]
  exact two_terms (n := ![dotFrac a0 b0, dotFrac a1 b1])
    (e := ![(dotExp a0 b0 : ℤ) - 2 * bias E - 2 * F, (dotExp a1 b1 : ℤ) - 2 * bias E - 2 * F])
    (by intro i; fin_cases i <;> exact dotFrac_lt hF (by omega) _ _) hc (dot_bounds hE hE' hF a0 b0).2 (by omega) (by omega) hsig

/-- A positive number in `p` bits. -/
theorem rndn_pos {p : ℕ} (hp : 2 ≤ p) {q : ℚ} (hq : 0 < q) : ∃ k l, Mpfr.rndn p q = .num false k l ∧ NearestEven p q k l := by
  have h0 : decide (q < 0) = false := decide_eq_false (not_lt.2 hq.le)
  refine ⟨_, _, by rw [Mpfr.rndn, if_neg hq.ne', h0], ?_⟩
  rw [abs_of_pos hq]
  exact Mpfr.rndnPos_spec hp hq

/-- A rounding is exact when its argument fits, and its ternary value tells. -/
theorem rndn_fits {p : ℕ} (hp : 2 ≤ p) {q : ℚ} (hq : 0 < q) :
    ((Mpfr.roundT (Mpfr.rndn p) q).2 = 0 ↔ FitsBits p q) ∧
      (FitsBits p q → ∃ k l, (Mpfr.roundT (Mpfr.rndn p) q).1 = .num false k l ∧ (k : ℚ) * 2 ^ l = q) := by
  obtain ⟨k, l, h1, h2⟩ := rndn_pos hp hq
  have hval : ∀ k l, (Mpfr.num false k l).value = (k : ℚ) * 2 ^ l := by intro k l; simp [Mpfr.value]
  have ht : (Mpfr.roundT (Mpfr.rndn p) q).2 = 0 ↔ (k : ℚ) * 2 ^ l = q := by
    simp only [Mpfr.roundT, h1, Mpfr.ternary, hval]
    constructor
    · intro h
      rcases lt_trichotomy ((k : ℚ) * 2 ^ l) q with c | c | c
      · rw [if_pos c] at h; norm_num at h
      · exact c
      · rw [if_neg (not_lt.2 c.le), if_pos c] at h; norm_num at h
    · intro h
      rw [h, if_neg (lt_irrefl _), if_neg (lt_irrefl _)]
  have hf : FitsBits p q ↔ (k : ℚ) * 2 ^ l = q := by
    constructor
    · rintro ⟨n, g, hn, hv⟩
      have hn0 : 0 < n := by
        rcases Nat.eq_zero_or_pos n with rfl | h
        · rw [hv] at hq; simp at hq
        · exact h
      obtain ⟨c1, c2⟩ := nearest_cross (by omega) h2 g hn0 hn
      rw [hv]
      exact le_antisymm (c1 hv.le) (c2 hv.ge)
    · intro h
      exact ⟨k, l, h2.1.2, h.symm⟩
  exact ⟨ht.trans hf.symm, fun h => ⟨k, l, h1, hf.1 h⟩⟩

theorem toMpfr_pos {E F : ℕ} {a : Fp E F} {u : ℚ} (ha : a.datum = .num u) : ∃ s m e, toMpfr a = .num s m e ∧ (Mpfr.num s m e).value = u := by
  have h := C47_to_mpfr_exact a
  rw [ha] at h
  cases hm : toMpfr a with
  | num s m e => rw [hm] at h; exact ⟨s, m, e, rfl, Datum.num.inj h⟩
  | nan => rw [hm] at h; cases h
  | inf s => rw [hm] at h; cases h
  | zero s => rw [hm] at h; cases h

theorem product_fits {E F W : ℕ} (hE : 1 ≤ E) (hF : 1 ≤ F) (hW : 2 * F + 2 ≤ W) {a b : Fp E F} {u v : ℚ} (ha : a.datum = .num u) (hb : b.datum = .num v)
    (pa : 0 < u) (pb : 0 < v) : FitsBits W (u * v) :=
  ⟨_, _, dotFrac_lt hF hW a b, dot_value hE ha hb pa pb⟩

/-- A product in enough bits is exact. -/
theorem mulT_product {E F W : ℕ} (hE : 1 ≤ E) (hF : 1 ≤ F) (hW : 2 * F + 2 ≤ W) {a b : Fp E F} {u v : ℚ} (ha : a.datum = .num u) (hb : b.datum = .num v)
    (pa : 0 < u) (pb : 0 < v) : ∃ k l, Mpfr.mulT (Mpfr.rndn W) (toMpfr a) (toMpfr b) = (.num false k l, 0) ∧ (k : ℚ) * 2 ^ l = u * v := by
  obtain ⟨s, m, e, h1, h2⟩ := toMpfr_pos ha
  obtain ⟨s', m', e', h1', h2'⟩ := toMpfr_pos hb
  obtain ⟨f1, f2⟩ := rndn_fits (p := W) (by omega) (mul_pos pa pb)
  have hf := product_fits hE hF hW ha hb pa pb
  obtain ⟨k, l, hk, hv⟩ := f2 hf
  refine ⟨k, l, ?_, hv⟩
  have : Mpfr.mulT (Mpfr.rndn W) (.num s m e) (.num s' m' e') = Mpfr.roundT (Mpfr.rndn W) (u * v) := by
    rw [← h2, ← h2']; rfl
  rw [h1, h1', this]
  exact Prod.ext hk (f1.2 hf)

theorem dot2RefLarge_correct {E F : ℕ} (hE : 1 ≤ E) (hF : 1 ≤ F) (a0 a1 b0 b1 : Fp E F) (u0 u1 v0 v1 : ℚ)
    (ha0 : a0.datum = .num u0) (ha1 : a1.datum = .num u1) (hb0 : b0.datum = .num v0) (hb1 : b1.datum = .num v1)
    (pa0 : 0 < u0) (pa1 : 0 < u1) (pb0 : 0 < v0) (pb1 : 0 < v1) :
    ∃ r, dot2RefLarge a0 a1 b0 b1 = some r ∧ RoundedDown E F (u0 * v0 + u1 * v1) r.datum := by
  have hprod : ∀ (a b : Fp E F) (u v : ℚ), a.datum = .num u → b.datum = .num v → 0 < u → 0 < v →
      ∃ k l, Mpfr.mul (F + F + 2) (toMpfr a) (toMpfr b) = .num false k l ∧ (k : ℚ) * 2 ^ l = u * v := by
    intro a b u v ha hb pa pb
    obtain ⟨k, l, h1, h2⟩ := mulT_product (W := F + F + 2) hE hF (by omega) ha hb pa pb
    obtain ⟨s, m, e, g1, -⟩ := toMpfr_pos ha
    obtain ⟨s', m', e', g1', -⟩ := toMpfr_pos hb
    refine ⟨k, l, ?_, h2⟩
    rw [g1, g1'] at h1 ⊢
    exact congrArg Prod.fst h1
  obtain ⟨k0, l0, h0, w0⟩ := hprod a0 b0 u0 v0 ha0 hb0 pa0 pb0
  obtain ⟨k1, l1, h1, w1⟩ := hprod a1 b1 u1 v1 ha1 hb1 pa1 pb1
  unfold dot2RefLarge
  rw [dotArg_of ha0 pa0, dotArg_of ha1 pa1, dotArg_of hb0 pb0, dotArg_of hb1 pb1]
  simp only [Bool.and_self, if_true, h0, h1]
  have : Mpfr.addDown (F + 1) (.num false k0 l0) (.num false k1 l1) = Mpfr.directed (F + 1) false (u0 * v0 + u1 * v1) := by
    rw [← w0, ← w1]; simp [Mpfr.addDown, Mpfr.value]
  rw [this]
  exact setDown_pos hE hF (by positivity)

/-! ## The reference of `dot4_pos_rndd` -/

theorem toDouble_pos {E F : ℕ} (hE : 1 ≤ E) (hE' : E ≤ 10) (hF : 1 ≤ F) (hF' : F ≤ 52) (x : Fp E F) (hx : ∀ v, x.datum = .num v → 0 < v) :
    ∃ r, toDouble x = some r ∧ r.datum = x.datum := by
  obtain ⟨r, h1, h2, h3⟩ := C56_to_double_partial hE (by omega) hF hF' x
  refine ⟨r, h1, ?_⟩
  by_cases c : ∃ v, x.datum = .num v
  · obtain ⟨v, hv⟩ := c
    obtain ⟨g0, g1, -, g2, g3⟩ := small_is_binary64 hE hE' hF hF' x hv
    rw [hv]
    exact rounded64_self g0 g2 g3 g1 (h2 v hv (hx v hv))
  · push Not at c
    exact h3 c

theorem dot4RefSmall_correct {E F : ℕ} (hE : 1 ≤ E) (hE' : E ≤ 10) (hF : 1 ≤ F) (hF' : F ≤ 5) (a b : Fin 4 → Fp E F) (u v : Fin 4 → ℚ)
    (ha : ∀ i, (a i).datum = .num (u i)) (hb : ∀ i, (b i).datum = .num (v i)) (pa : ∀ i, 0 < u i) (pb : ∀ i, 0 < v i) :
    ∃ r, dot4RefSmall (a 0) (a 1) (a 2) (a 3) (b 0) (b 1) (b 2) (b 3) = some r ∧ RoundedDown E F (∑ i, u i * v i) r.datum := by
  have ex : ∀ (x : Fp E F) (w : ℚ), x.datum = .num w → 0 < w → ∃ r, toDouble x = some r ∧ r.datum = .num w := fun x w h hw => by
    obtain ⟨r, h1, h2⟩ := toDouble_pos hE hE' hF (by omega) x (fun v hv => by rw [h] at hv; rw [← Datum.num.inj hv]; exact hw)
    exact ⟨r, h1, h2.trans h⟩
  choose x hx hx' using fun i => ex (a i) (u i) (ha i) (pa i)
  choose y hy hy' using fun i => ex (b i) (v i) (hb i) (pb i)
  have hp := fun i => holds_product hE hE' hF (by omega) (ha i) (hb i) (pa i) (pb i) (hx' i) (hy' i)
  obtain ⟨c1, n1, h1⟩ := holds_add (hp 0) (hp 1)
  obtain ⟨c2, n2, h2⟩ := holds_add h1 (hp 2)
  obtain ⟨c, n3, h3⟩ := holds_add h2 (hp 3)
  unfold dot4RefSmall
  rw [if_neg (by omega)]
  simp only [hx, hy, Option.bind_eq_bind, Option.bind_some]
  refine small_final hE hE' hF h3 (Finset.sum_pos (fun i _ => mul_pos (pa i) (pb i)) ⟨0, Finset.mem_univ _⟩) fun w we hsig => ?_
  simp only [fun i => dot_value hE (ha i) (hb i) (pa i) (pb i)]
  exact four_terms (n := fun i => dotFrac (a i) (b i)) (e := fun i => (dotExp (a i) (b i) : ℤ) - 2 * bias E - 2 * F)
    (fun i => dotFrac_lt hF (by omega) _ _) n1 n2 n3 (dot_bounds hE hE' hF (a 0) (b 0)).2 (by omega) (by omega) hsig

/-- One accumulation. -/
theorem dot4RefStep_spec {E F : ℕ} (hE : 1 ≤ E) (hF : 1 ≤ F) {a b : Fp E F} {u v w : ℚ} (ha : a.datum = .num u) (hb : b.datum = .num v)
    (pa : 0 < u) (pb : 0 < v) (hw : 0 < w) {k : ℕ} {l : ℤ} (hk : (k : ℚ) * 2 ^ l = w) :
    (FitsBits (12 * (F + 2)) (w + u * v) → ∃ k' l', dot4RefStep (.num false k l) a b = some (.num false k' l') ∧ (k' : ℚ) * 2 ^ l' = w + u * v) ∧
      (¬ FitsBits (12 * (F + 2)) (w + u * v) → dot4RefStep (.num false k l) a b = none) := by
  obtain ⟨i, j, h1, h2⟩ := mulT_product (W := 2 * (F + 1)) hE hF (by omega) ha hb pa pb
  obtain ⟨f1, f2⟩ := rndn_fits (p := 12 * (F + 2)) (by omega) (add_pos hw (mul_pos pa pb))
  have hadd : Mpfr.addT (Mpfr.rndn (12 * (F + 2))) (.num false k l) (.num false i j) = Mpfr.roundT (Mpfr.rndn (12 * (F + 2))) (w + u * v) := by
    rw [← hk, ← h2]; simp [Mpfr.addT, Mpfr.value]
  unfold dot4RefStep
  simp only [h1, hadd]
  constructor
  · intro hf
    obtain ⟨k', l', g1, g2⟩ := f2 hf
    rw [if_neg (by rw [f1.2 hf]; simp), g1]
    exact ⟨k', l', rfl, g2⟩
  · intro hf
    rw [if_pos (Or.inr (fun h => hf (f1.1 h)))]

theorem dot4RefLarge_spec {E F : ℕ} (hE : 1 ≤ E) (hF : 1 ≤ F) (a b : Fin 4 → Fp E F) (u v : Fin 4 → ℚ)
    (ha : ∀ i, (a i).datum = .num (u i)) (hb : ∀ i, (b i).datum = .num (v i)) (pa : ∀ i, 0 < u i) (pb : ∀ i, 0 < v i) :
    (FitsBits (12 * (F + 2)) (u 0 * v 0 + u 1 * v 1) ∧ FitsBits (12 * (F + 2)) (u 0 * v 0 + u 1 * v 1 + u 2 * v 2) ∧
        FitsBits (12 * (F + 2)) (u 0 * v 0 + u 1 * v 1 + u 2 * v 2 + u 3 * v 3) →
      ∃ r, dot4RefLarge (a 0) (a 1) (a 2) (a 3) (b 0) (b 1) (b 2) (b 3) = some r ∧ RoundedDown E F (∑ i, u i * v i) r.datum) ∧
    (¬ (FitsBits (12 * (F + 2)) (u 0 * v 0 + u 1 * v 1) ∧ FitsBits (12 * (F + 2)) (u 0 * v 0 + u 1 * v 1 + u 2 * v 2) ∧
        FitsBits (12 * (F + 2)) (u 0 * v 0 + u 1 * v 1 + u 2 * v 2 + u 3 * v 3)) →
      dot4RefLarge (a 0) (a 1) (a 2) (a 3) (b 0) (b 1) (b 2) (b 3) = none) := by
  have hp := fun i => mul_pos (pa i) (pb i)
  obtain ⟨k0, l0, h0, w0⟩ := mulT_product (W := 12 * (F + 2)) hE hF (by omega) (ha 0) (hb 0) (pa 0) (pb 0)
  obtain ⟨s1, t1⟩ := dot4RefStep_spec hE hF (ha 1) (hb 1) (pa 1) (pb 1) (hp 0) w0
  have hun : dot4RefLarge (a 0) (a 1) (a 2) (a 3) (b 0) (b 1) (b 2) (b 3) =
      (dot4RefStep (.num false k0 l0) (a 1) (b 1)).bind fun v => (dot4RefStep v (a 2) (b 2)).bind fun v => (dot4RefStep v (a 3) (b 3)).bind fun v =>
        ofMpfr E F true (Mpfr.setDown (F + 1) v) := by
    unfold dot4RefLarge
    simp only [fun i => dotArg_of (ha i) (pa i), fun i => dotArg_of (hb i) (pb i), Bool.and_self, if_true, h0, ne_eq, not_true_eq_false, if_false]
  rw [hun]
  by_cases c1 : FitsBits (12 * (F + 2)) (u 0 * v 0 + u 1 * v 1)
  swap
  · rw [t1 c1]
    exact ⟨fun h => absurd h.1 c1, fun _ => rfl⟩
  obtain ⟨k1, l1, h1, w1⟩ := s1 c1
  rw [h1]
  simp only [Option.bind_some]
  obtain ⟨s2, t2⟩ := dot4RefStep_spec hE hF (ha 2) (hb 2) (pa 2) (pb 2) (add_pos (hp 0) (hp 1)) w1
  by_cases c2 : FitsBits (12 * (F + 2)) (u 0 * v 0 + u 1 * v 1 + u 2 * v 2)
  swap
  · rw [t2 c2]
    exact ⟨fun h => absurd h.2.1 c2, fun _ => rfl⟩
  obtain ⟨k2, l2, h2, w2⟩ := s2 c2
  rw [h2]
  simp only [Option.bind_some]
  obtain ⟨s3, t3⟩ := dot4RefStep_spec hE hF (ha 3) (hb 3) (pa 3) (pb 3) (add_pos (add_pos (hp 0) (hp 1)) (hp 2)) w2
  by_cases c3 : FitsBits (12 * (F + 2)) (u 0 * v 0 + u 1 * v 1 + u 2 * v 2 + u 3 * v 3)
  swap
  · rw [t3 c3]
    exact ⟨fun h => absurd h.2.2 c3, fun _ => rfl⟩
  obtain ⟨k3, l3, h3, w3⟩ := s3 c3
  rw [h3]
  simp only [Option.bind_some]
  refine ⟨fun _ => ?_, fun h => absurd ⟨c1, c2, c3⟩ h⟩
  have : Mpfr.setDown (F + 1) (.num false k3 l3) = Mpfr.directed (F + 1) false (∑ i, u i * v i) := by
    rw [Fin.sum_univ_four, ← w3]; simp [Mpfr.setDown, Mpfr.value]
  rw [this]
  exact setDown_pos hE hF (Finset.sum_pos (fun i _ => hp i) ⟨0, Finset.mem_univ _⟩)

/-- A sum of integers at nearby exponents fits. -/
theorem fits_add {W D : ℕ} {c : ℤ} {q : ℚ} {n : ℕ} (hq : q = n * 2 ^ c) (hn : n < 2 ^ W) (h : W ≤ D) : FitsBits D q :=
  ⟨n, c, lt_of_lt_of_le hn (Nat.pow_le_pow_right (by norm_num) h), hq⟩

/-- Two bits far apart do not fit. -/
theorem not_fits {p t : ℕ} {c : ℤ} (hp : p ≤ t) (ht : 1 ≤ t) : ¬ FitsBits p (((2 ^ t + 1 : ℕ) : ℚ) * 2 ^ c) := by
  rintro ⟨n, g, hn, hv⟩
  have h1 : n < 2 ^ t := lt_of_lt_of_le hn (Nat.pow_le_pow_right (by norm_num) hp)
  have hg : c < g := by
    by_contra hc
    push Not at hc
    have : (n : ℚ) * 2 ^ g < ((2 ^ t + 1 : ℕ) : ℚ) * 2 ^ c :=
      calc (n : ℚ) * 2 ^ g < ((2 ^ t + 1 : ℕ) : ℚ) * 2 ^ g := mul_lt_mul_of_pos_right (by exact_mod_cast (by omega)) (two_zpow_pos _)
        _ ≤ _ := mul_le_mul_of_nonneg_left (zpow_le_zpow_right₀ (by norm_num) hc) (Nat.cast_nonneg _)
    linarith
  obtain ⟨d, hd⟩ : ∃ d : ℕ, g = c + (d + 1 : ℕ) := ⟨(g - c - 1).toNat, by omega⟩
  rw [hd, zpow_add₀ (by norm_num), zpow_natCast] at hv
  have h2 : ((2 ^ t + 1 : ℕ) : ℚ) = ((n * 2 ^ (d + 1) : ℕ) : ℚ) := by
    have := two_zpow_pos c
    refine mul_right_cancel₀ this.ne' ?_
    rw [hv]; push_cast; ring
  have h3 : 2 ^ t + 1 = n * 2 ^ (d + 1) := by exact_mod_cast h2
  obtain ⟨t', rfl⟩ : ∃ t', t = t' + 1 := ⟨t - 1, by omega⟩
  rw [pow_succ, pow_succ, ← mul_assoc] at h3
  omega

theorem dblValue_ok (x : Ieee 11 52) : (dblValue x).Ok := by
  unfold dblValue
  simp only
  split_ifs <;> simp only [Mpfr.Ok] <;> omega

theorem dblNe_spec (x y : Ieee 11 52) (hx : x.datum ≠ .nan) (hy : y.datum ≠ .nan) : dblNe x y = false ↔ x.datum.RealEq y.datum := by
  have h := (Mpfr.cmp_spec (dblValue_ok x) (dblValue_ok y) (by rw [dblValue_datum]; exact hx) (by rw [dblValue_datum]; exact hy)).2.1
  rw [dblValue_datum, dblValue_datum] at h
  rw [← h]
  have hx' : dblValue x ≠ .nan := fun h => hx (by rw [← dblValue_datum, h]; rfl)
  have hy' : dblValue y ≠ .nan := fun h => hy (by rw [← dblValue_datum, h]; rfl)
  unfold dblNe
  cases hu : dblValue x <;> cases hv : dblValue y <;> simp_all

end Thls
