import Verif.Spec
import Mathlib.Tactic.Ring
import Mathlib.Tactic.Linarith
import Mathlib.Tactic.Positivity
import Mathlib.Tactic.NormNum
import Mathlib.Tactic.FieldSimp
import Mathlib.Tactic.Push

/-! # Rounding lemmas (helpers, not property statements) -/

namespace Thls.Spec

theorem two_zpow_pos (e : ℤ) : (0 : ℚ) < 2 ^ e := by positivity

theorem two_zpow_succ (e : ℤ) : (2 : ℚ) ^ (e + 1) = 2 * 2 ^ e := by
  rw [zpow_add₀ (by norm_num)]; ring

theorem two_zpow_pred (e : ℤ) : (2 : ℚ) ^ (e - 1) = 2 ^ e / 2 := by
  rw [zpow_sub₀ (by norm_num)]; norm_num

/-- The gap between consecutive `p`-bit numbers. -/
theorem sig_gap {p m m' : ℕ} {e e' : ℤ} (hp : 1 ≤ p) (hm : IsSig p m) (hm' : IsSig p m')
    (h : (m : ℚ) * 2 ^ e < m' * 2 ^ e') : ((m : ℚ) + 1) * 2 ^ e ≤ m' * 2 ^ e' := by
  rcases le_or_gt e e' with hle | hlt
  · obtain ⟨k, rfl⟩ : ∃ k : ℕ, e' = e + k := ⟨(e' - e).toNat, by omega⟩
    rw [zpow_add₀ (by norm_num), zpow_natCast] at h ⊢
    have hpos := two_zpow_pos e
    have h1 : (m : ℚ) < m' * 2 ^ k := by
      by_contra hc
      push Not at hc
      have := mul_le_mul_of_nonneg_right hc hpos.le
      linarith [this, h, mul_comm ((2:ℚ)^e) (2^k), mul_assoc (m' : ℚ) (2^k) (2^e), mul_assoc (m' : ℚ) (2^e) (2^k)]
    have h2 : m + 1 ≤ m' * 2 ^ k := by
      have : (m : ℚ) < ((m' * 2 ^ k : ℕ) : ℚ) := by push_cast; exact h1
      exact_mod_cast this
    have h3 : (m : ℚ) + 1 ≤ m' * 2 ^ k := by exact_mod_cast h2
    calc ((m : ℚ) + 1) * 2 ^ e ≤ (m' * 2 ^ k) * 2 ^ e := mul_le_mul_of_nonneg_right h3 hpos.le
      _ = m' * (2 ^ e * 2 ^ k) := by ring
  · exfalso
    obtain ⟨k, hk⟩ : ∃ k : ℕ, e = e' + 1 + k := ⟨(e - e' - 1).toNat, by omega⟩
    have hpos := two_zpow_pos e'
    have h1 : (m' : ℚ) ≤ 2 ^ p := by exact_mod_cast hm'.2.le
    have h2 : (2 : ℚ) ^ (p - 1) ≤ m := by exact_mod_cast hm.1
    have h3 : (2 : ℚ) ^ p = 2 * 2 ^ (p - 1) := by
      obtain ⟨q, rfl⟩ := Nat.exists_eq_add_of_le' hp
      simp [pow_succ]; ring
    have h4 : (2 : ℚ) ^ e = 2 * 2 ^ e' * 2 ^ k := by
      rw [hk, zpow_add₀ (by norm_num), zpow_add₀ (by norm_num), zpow_natCast]; ring
    have h5 : (1 : ℚ) ≤ 2 ^ k := one_le_pow₀ (by norm_num)
    have h6 : (m' : ℚ) * 2 ^ e' ≤ 2 ^ p * 2 ^ e' := mul_le_mul_of_nonneg_right h1 hpos.le
    have h7 : (2 : ℚ) ^ (p - 1) * 2 ^ e ≤ m * 2 ^ e :=
      mul_le_mul_of_nonneg_right h2 (two_zpow_pos e).le
    have h8 : (2 : ℚ) ^ p * 2 ^ e' ≤ 2 ^ (p - 1) * 2 ^ e := by
      rw [h3, h4]
      have : (0 : ℚ) < 2 ^ (p - 1) := by positivity
      nlinarith [mul_pos this hpos]
    linarith

/-- Two representations of the same `p`-bit number agree. -/
theorem sig_unique {p m m' : ℕ} {e e' : ℤ} (hp : 1 ≤ p) (hm : IsSig p m) (hm' : IsSig p m')
    (h : (m : ℚ) * 2 ^ e = m' * 2 ^ e') : m = m' ∧ e = e' := by
  have key : ∀ {m m' : ℕ} {e e' : ℤ}, IsSig p m → IsSig p m' →
      (m : ℚ) * 2 ^ e = m' * 2 ^ e' → e ≤ e' := by
    intro m m' e e' hm hm' h
    by_contra hc
    push Not at hc
    obtain ⟨k, hk⟩ : ∃ k : ℕ, e = e' + 1 + k := ⟨(e - e' - 1).toNat, by omega⟩
    have hpos := two_zpow_pos e'
    have h4 : (2 : ℚ) ^ e = 2 ^ e' * (2 * 2 ^ k) := by
      rw [hk, zpow_add₀ (by norm_num), zpow_add₀ (by norm_num), zpow_natCast]; ring
    rw [h4] at h
    have h5 : (m : ℚ) * (2 * 2 ^ k) = m' := by
      have : (2 : ℚ) ^ e' ≠ 0 := hpos.ne'
      field_simp at h
      linarith
    have h6 : m * (2 * 2 ^ k) = m' := by exact_mod_cast h5
    have h7 : 2 ^ p = 2 * 2 ^ (p - 1) := by
      obtain ⟨q, rfl⟩ := Nat.exists_eq_add_of_le' hp
      simp [pow_succ]; ring
    have := hm.1
    have := hm'.2
    have h8 : 1 ≤ 2 ^ k := Nat.one_le_two_pow
    have : m * 2 ≤ m * (2 * 2 ^ k) := Nat.mul_le_mul_left _ (by omega)
    omega
  have he : e = e' := le_antisymm (key hm hm' h) (key hm' hm h.symm)
  subst he
  refine ⟨?_, rfl⟩
  have : (m : ℚ) = m' := mul_right_cancel₀ (two_zpow_pos e).ne' h
  exact_mod_cast this

theorem sig_le_or_ge {p m m' : ℕ} {e e' : ℤ} (hp : 1 ≤ p) (hm : IsSig p m) (hm' : IsSig p m') :
    (m' : ℚ) * 2 ^ e' ≤ m * 2 ^ e ∨ ((m : ℚ) + 1) * 2 ^ e ≤ m' * 2 ^ e' := by
  rcases le_or_gt ((m' : ℚ) * 2 ^ e') (m * 2 ^ e) with h | h
  · exact Or.inl h
  · exact Or.inr (sig_gap hp hm hm' h)

/-- Rounding to the lower neighbour is right when `x` is at most half a unit above it. -/
theorem nearest_down {p m : ℕ} {e : ℤ} {x : ℚ} (hp : 1 ≤ p) (hm : IsSig p m)
    (hL : (m : ℚ) * 2 ^ e ≤ x) (hh : x - m * 2 ^ e ≤ 2 ^ e / 2)
    (ht : x - m * 2 ^ e = 2 ^ e / 2 → Even m) : NearestEven p x m e := by
  have hu := two_zpow_pos e
  have hab : |x - m * 2 ^ e| = x - m * 2 ^ e := abs_of_nonneg (by linarith)
  refine ⟨hm, ?_, ?_⟩
  · intro m' e' hm'
    rw [hab]
    rcases sig_le_or_ge (e := e) (e' := e') hp hm hm' with h | h
    · rw [abs_of_nonneg (by linarith)]; linarith
    · rw [abs_of_nonpos (by linarith)]; linarith
  · intro m' e' hm' heq hne
    rw [hab] at heq
    rcases sig_le_or_ge (e := e) (e' := e') hp hm hm' with h | h
    · rw [abs_of_nonneg (by linarith)] at heq
      exact absurd (by linarith) hne
    · rw [abs_of_nonpos (by linarith)] at heq
      apply ht; linarith

/-- Rounding to the upper neighbour `(m+1) * 2^e = n * 2^e'` is right when `x` is at most half a unit below it. -/
theorem nearest_up {p m n : ℕ} {e e' : ℤ} {x : ℚ} (hp : 1 ≤ p) (hm : IsSig p m) (hn : IsSig p n)
    (hU : (n : ℚ) * 2 ^ e' = ((m : ℚ) + 1) * 2 ^ e)
    (hx : x ≤ ((m : ℚ) + 1) * 2 ^ e) (hh : ((m : ℚ) + 1) * 2 ^ e - x ≤ 2 ^ e / 2)
    (ht : ((m : ℚ) + 1) * 2 ^ e - x = 2 ^ e / 2 → Even n) : NearestEven p x n e' := by
  have hu := two_zpow_pos e
  have hab : |x - n * 2 ^ e'| = ((m : ℚ) + 1) * 2 ^ e - x := by
    rw [hU, abs_of_nonpos (by linarith)]; ring
  refine ⟨hn, ?_, ?_⟩
  · intro m' e'' hm'
    rw [hab]
    rcases sig_le_or_ge (e := e) (e' := e'') hp hm hm' with h | h
    · rw [abs_of_nonneg (by linarith)]; linarith
    · rw [abs_of_nonpos (by linarith)]; linarith
  · intro m' e'' hm' heq hne
    rw [hab] at heq
    rcases sig_le_or_ge (e := e) (e' := e'') hp hm hm' with h | h
    · rw [abs_of_nonneg (by linarith)] at heq
      apply ht; linarith
    · rw [abs_of_nonpos (by linarith)] at heq
      exact absurd (by linarith) hne

/-- The number selected by `NearestEven` is unique. -/
theorem nearest_unique {p m m' : ℕ} {e e' : ℤ} {x : ℚ} (hp : 1 ≤ p)
    (h : NearestEven p x m e) (h' : NearestEven p x m' e') : m = m' ∧ e = e' := by
  have h1 : |x - m * 2 ^ e| = |x - m' * 2 ^ e'| := le_antisymm (h.2.1 _ _ h'.1) (h'.2.1 _ _ h.1)
  by_cases hv : (m : ℚ) * 2 ^ e = m' * 2 ^ e'
  · exact sig_unique hp h.1 h'.1 hv
  · exfalso
    have e1 := h.2.2 _ _ h'.1 h1 (Ne.symm hv)
    have e2 := h'.2.2 _ _ h.1 h1.symm hv
    have key : ∀ {m m' : ℕ} {e e' : ℤ}, NearestEven p x m e → NearestEven p x m' e' →
        Even m → Even m' → (m : ℚ) * 2 ^ e < m' * 2 ^ e' →
        |x - m * 2 ^ e| = |x - m' * 2 ^ e'| → False := by
      intro m m' e e' h h' e1 e2 hlt heq
      have hu := two_zpow_pos e
      have hgap := sig_gap hp h.1 h'.1 hlt
      have hmid : x = (m * 2 ^ e + m' * 2 ^ e') / 2 := by
        rcases abs_eq_abs.mp heq with h | h <;> linarith
      have hx1 : (m : ℚ) * 2 ^ e < x := by linarith
      -- the number one unit above `m * 2^e` would be closer, unless it is `m' * 2^e'`
      have hn : ∃ (n : ℕ) (e'' : ℤ), IsSig p n ∧ (n : ℚ) * 2 ^ e'' = ((m : ℚ) + 1) * 2 ^ e := by
        by_cases hc : m + 1 < 2 ^ p
        · exact ⟨m + 1, e, ⟨by have := h.1.1; omega, hc⟩, by push_cast; ring⟩
        · have hmp : m + 1 = 2 ^ p := by have := h.1.2; omega
          refine ⟨2 ^ (p - 1), e + 1, ⟨le_refl _, ?_⟩, ?_⟩
          · exact Nat.pow_lt_pow_right (by norm_num) (by omega)
          · have : ((m : ℚ) + 1) = 2 ^ p := by exact_mod_cast hmp
            rw [this, two_zpow_succ]
            push_cast
            obtain ⟨q, rfl⟩ := Nat.exists_eq_add_of_le' hp
            simp [pow_succ]; ring
      obtain ⟨n, e'', hn, hnv⟩ := hn
      have hc := h.2.1 n e'' hn
      rw [hnv, abs_of_pos (by linarith)] at hc
      have hxu : ((m : ℚ) + 1) * 2 ^ e = m' * 2 ^ e' := by
        rcases le_or_gt x (((m : ℚ) + 1) * 2 ^ e) with hh | hh
        · rw [abs_of_nonpos (by linarith)] at hc; linarith
        · rw [abs_of_pos (by linarith)] at hc; linarith
      -- then `m+1 = m'` up to normalisation: parity clash
      have hmodd : ¬ Even (m + 1) := by
        rw [Nat.even_add_one]; simpa using e1
      by_cases hc2 : m + 1 < 2 ^ p
      · have hs : IsSig p (m + 1) := ⟨by have := h.1.1; omega, hc2⟩
        have := (sig_unique (m := m + 1) (e := e) (e' := e') hp hs h'.1 (by push_cast; linarith)).1
        rw [this] at hmodd
        exact hmodd e2
      · have hmp : m + 1 = 2 ^ p := by have := h.1.2; omega
        rw [hmp] at hmodd
        exact hmodd (by rw [Nat.even_pow]; exact ⟨by decide, by omega⟩)
    rcases lt_or_gt_of_ne hv with hlt | hlt
    · exact key h h' e1 e2 hlt h1
    · exact key h' h e2 e1 hlt h1.symm

/-- `Rounded` determines the datum. -/
theorem rounded_unique {E F : ℕ} {q : ℚ} {d d' : Datum} (h : Rounded E F q d) (h' : Rounded E F q d') :
    d = d' := by
  obtain ⟨m, e, hn, rfl⟩ := h
  obtain ⟨m', e', hn', rfl⟩ := h'
  obtain ⟨rfl, rfl⟩ := nearest_unique (by omega) hn hn'
  rfl

/-- Core of every rounding step in the library. `m` is the truncated `p`-bit significand, `r` the next
bit, `s` says whether anything non-zero is left below it. -/
theorem nearest_core {p m : ℕ} {e : ℤ} {x : ℚ} {r s : Bool} (hp : 2 ≤ p) (hm : IsSig p m)
    (hlo : (2 * (m : ℚ) + (if r then 1 else 0)) * 2 ^ (e - 1) ≤ x)
    (hhi : x < (2 * (m : ℚ) + (if r then 1 else 0) + 1) * 2 ^ (e - 1))
    (hs : s = false ↔ x = (2 * (m : ℚ) + (if r then 1 else 0)) * 2 ^ (e - 1)) :
    let up : Bool := r && (s || decide (m % 2 = 1))
    (up = false → NearestEven p x m e) ∧
    (up = true → m + 1 < 2 ^ p → NearestEven p x (m + 1) e) ∧
    (up = true → m + 1 = 2 ^ p → NearestEven p x (2 ^ (p - 1)) (e + 1)) := by
  intro up
  have hu := two_zpow_pos e
  rw [two_zpow_pred] at hlo hhi hs
  set u : ℚ := 2 ^ e with hudef
  refine ⟨?_, ?_, ?_⟩
  · intro hup
    cases r with
    | false =>
      simp only [Bool.false_eq_true, ↓reduceIte, add_zero] at hlo hhi hs
      exact nearest_down (by omega) hm (by linarith) (by linarith) (fun h => by exfalso; linarith)
    | true =>
      simp only [↓reduceIte] at hlo hhi hs
      simp [up] at hup
      have hx := hs.mp hup.1
      refine nearest_down (by omega) hm (by linarith) (by linarith) (fun _ => ?_)
      exact Nat.even_iff.mpr (by omega)
  · intro hup hlt
    simp [up] at hup
    obtain ⟨hr, hup⟩ := hup
    subst hr
    simp only [↓reduceIte] at hlo hhi hs
    refine nearest_up (by omega) hm ⟨by have := hm.1; omega, hlt⟩ (by push_cast; ring)
      (by linarith) (by linarith) (fun h => ?_)
    have hx : x = (2 * (m : ℚ) + 1) * (u / 2) := by linarith
    have := hs.mpr hx
    rcases hup with h | h
    · simp [h] at this
    · exact Nat.even_iff.mpr (by omega)
  · intro hup hlt
    simp [up] at hup
    obtain ⟨hr, hup⟩ := hup
    subst hr
    simp only [↓reduceIte] at hlo hhi hs
    refine nearest_up (m := m) (e := e) (by omega) hm
      ⟨le_refl _, Nat.pow_lt_pow_right (by norm_num) (by omega)⟩ ?_
      (by linarith) (by linarith) (fun _ => ?_)
    · have : ((m : ℚ) + 1) = 2 ^ p := by exact_mod_cast hlt
      rw [this, two_zpow_succ]
      push_cast
      obtain ⟨q, rfl⟩ := Nat.exists_eq_add_of_le' hp
      simp [pow_succ]; ring
    · rw [Nat.even_pow]; exact ⟨by decide, by omega⟩

/-- The datum of a packed `exponent.fraction` integer `t` (an integer, so that a borrow makes it negative
and a carry makes it too large). -/
def packedDatum (E F : ℕ) (neg : Bool) (t : ℤ) : Datum :=
  if t < 0 then .zero neg
  else if 2 ^ (E + F) ≤ t then .inf neg
  else .num ((if neg then -1 else 1) * (((2 ^ F + t % 2 ^ F : ℤ) : ℚ) * 2 ^ (t / 2 ^ F - bias E - F)))

theorem rangeCheck_packed {E F : ℕ} {neg : Bool} {be : ℤ} {f : ℕ} (hf : f < 2 ^ F) :
    rangeCheck E F neg (2 ^ F + f) (be - bias E - F) = packedDatum E F neg (be * 2 ^ F + f) := by
  have h2 : (0 : ℤ) < 2 ^ F := by positivity
  have hf' : (f : ℤ) < 2 ^ F := by exact_mod_cast hf
  have hdiv : (be * 2 ^ F + f) / 2 ^ F = be := by
    rw [add_comm, Int.add_mul_ediv_right _ _ h2.ne', Int.ediv_eq_zero_of_lt (by omega) hf']; ring
  have hmod : (be * 2 ^ F + f) % 2 ^ F = f := by
    rw [add_comm, Int.add_mul_emod_self_right, Int.emod_eq_of_lt (by omega) hf']
  have e1 : be - bias E - F + F + bias E = be := by ring
  have c1 : be * 2 ^ F + f < 0 ↔ be < 0 := by
    constructor
    · intro h; by_contra hc; push Not at hc; nlinarith
    · intro h; nlinarith
  have c2 : 2 ^ (E + F) ≤ be * 2 ^ F + f ↔ 2 ^ E ≤ be := by
    rw [pow_add]
    constructor
    · intro h; by_contra hc; push Not at hc; nlinarith
    · intro h; nlinarith
  unfold rangeCheck packedDatum
  simp only [e1, c1, c2, hdiv, hmod]
  push_cast
  rfl

/-- Rounding a packed `exponent.fraction` by adding the round-up bit to the packed integer: the carry out
of the fraction moves into the exponent. -/
theorem rounded_packed {E F : ℕ} (hF : 1 ≤ F) {q : ℚ} {be : ℤ} {f : ℕ} (hf : f < 2 ^ F) {r s : Bool}
    (hlo : (2 * ((2 ^ F + f : ℕ) : ℚ) + (if r then 1 else 0)) * 2 ^ (be - bias E - F - 1) ≤ |q|)
    (hhi : |q| < (2 * ((2 ^ F + f : ℕ) : ℚ) + (if r then 1 else 0) + 1) * 2 ^ (be - bias E - F - 1))
    (hs : s = false ↔ |q| = (2 * ((2 ^ F + f : ℕ) : ℚ) + (if r then 1 else 0)) * 2 ^ (be - bias E - F - 1)) :
    Rounded E F q (packedDatum E F (decide (q < 0))
      (be * 2 ^ F + f + (if r && (s || decide (f % 2 = 1)) then 1 else 0))) := by
  have hp1 : 2 ^ (F + 1) = 2 * 2 ^ F := by rw [pow_succ]; ring
  have hsig : IsSig (F + 1) (2 ^ F + f) := ⟨by simp, by omega⟩
  have hpar : (2 ^ F + f) % 2 = f % 2 := by
    obtain ⟨k, rfl⟩ := Nat.exists_eq_add_of_le' hF
    rw [pow_succ]; omega
  obtain ⟨h1, h2, h3⟩ := nearest_core (r := r) (s := s) (by omega) hsig hlo hhi hs
  rw [hpar] at h1 h2 h3
  by_cases hup : (r && (s || decide (f % 2 = 1))) = true
  · simp only [hup, ↓reduceIte]
    by_cases hc : f + 1 < 2 ^ F
    · refine ⟨_, _, h2 hup (by omega), ?_⟩
      rw [show (2 ^ F + f + 1) = 2 ^ F + (f + 1) from by ring, rangeCheck_packed hc]
      push_cast; rw [add_assoc]
    · have hf1 : f + 1 = 2 ^ F := by omega
      refine ⟨_, _, h3 hup (by omega), ?_⟩
      have : be - bias E - F + 1 = (be + 1) - bias E - F := by ring
      rw [this, Nat.add_sub_cancel]
      have := rangeCheck_packed (E := E) (F := F) (neg := decide (q < 0)) (be := be + 1) (f := 0) (by positivity)
      rw [Nat.add_zero] at this
      rw [this]
      congr 1
      have : (f : ℤ) + 1 = 2 ^ F := by exact_mod_cast hf1
      push_cast
      linarith
  · have hup' : (r && (s || decide (f % 2 = 1))) = false := by simpa using hup
    simp only [hup', Bool.false_eq_true, ↓reduceIte, add_zero]
    exact ⟨_, _, h1 hup', (rangeCheck_packed hf).symm⟩

end Thls.Spec
