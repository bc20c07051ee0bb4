import Verif.Proofs.Midpoint
import Mathlib.Tactic.Linarith
import Mathlib.Tactic.Positivity

/-! # Errors of rounded sums: numbers of `F+1` bits on a grid (lemmas)

Only that results are nearest is used, so that ties may go either way. -/

namespace Thls
open Spec

/-- `v` has `F+1` bits and is a multiple of `2^g`. -/
def OnGrid (F : ℕ) (g : ℤ) (v : ℚ) : Prop := ∃ n k : ℤ, g ≤ k ∧ |n| ≤ 2 ^ (F + 1) ∧ v = n * 2 ^ k

/-- `v` is a number on the grid nearest to `q`. -/
def NearGrid (F : ℕ) (g : ℤ) (q v : ℚ) : Prop := OnGrid F g v ∧ ∀ w, OnGrid F g w → |q - v| ≤ |q - w|

variable {F : ℕ} {g : ℤ}

theorem onGrid_neg {v : ℚ} (h : OnGrid F g v) : OnGrid F g (-v) := by
  obtain ⟨n, k, h1, h2, rfl⟩ := h
  exact ⟨-n, k, h1, by rwa [abs_neg], by push_cast; ring⟩

theorem onGrid_zero : OnGrid F g 0 := ⟨0, g, le_rfl, by positivity, by simp⟩

theorem nearGrid_neg {q v : ℚ} (h : NearGrid F g q v) : NearGrid F g (-q) (-v) := by
  refine ⟨onGrid_neg h.1, fun w hw => ?_⟩
  have := h.2 _ (onGrid_neg hw)
  rw [← abs_neg, ← abs_neg (-q - w)]
  convert this using 2 <;> ring

theorem nearGrid_exact {q v : ℚ} (hq : OnGrid F g q) (h : NearGrid F g q v) : v = q := by
  have := h.2 q hq
  rw [sub_self, abs_zero] at this
  have := abs_eq_zero.mp (le_antisymm this (abs_nonneg _))
  linarith

/-- A nearest number is on the same side of every number of the grid. -/
theorem nearGrid_ge {p q v : ℚ} (hp : OnGrid F g p) (hpq : p ≤ q) (h : NearGrid F g q v) : p ≤ v := by
  by_contra hc
  have := h.2 p hp
  rw [abs_of_nonneg (by linarith), abs_of_nonneg (by linarith)] at this
  linarith

theorem nearGrid_le {p q v : ℚ} (hp : OnGrid F g p) (hpq : q ≤ p) (h : NearGrid F g q v) : v ≤ p := by
  have := nearGrid_ge (onGrid_neg hp) (neg_le_neg hpq) (nearGrid_neg h)
  linarith

/-- A multiple of `2^k` that is no more than `2^(F+1)` of them. -/
theorem onGrid_mult {v : ℚ} {k : ℤ} (hk : g ≤ k) (hm : ∃ n : ℤ, v = n * 2 ^ k) (hb : |v| ≤ 2 ^ (F + 1) * 2 ^ k) : OnGrid F g v := by
  obtain ⟨n, rfl⟩ := hm
  refine ⟨n, k, hk, ?_, rfl⟩
  rw [abs_mul, abs_of_pos (two_zpow_pos k)] at hb
  have := le_of_mul_le_mul_right hb (two_zpow_pos k)
  exact_mod_cast this

theorem mult_lower {n k j : ℤ} (h : j ≤ k) : ∃ m : ℤ, (n : ℚ) * 2 ^ k = m * 2 ^ j := by
  refine ⟨n * 2 ^ (k - j).toNat, ?_⟩
  push_cast
  rw [← zpow_natCast, Int.toNat_of_nonneg (by omega), mul_assoc, ← zpow_add₀ (by norm_num)]
  congr 2; ring

theorem abs_grid_le {n k : ℤ} (h : |n| ≤ 2 ^ (F + 1)) : |(n : ℚ) * 2 ^ k| ≤ 2 ^ (F + 1) * 2 ^ k := by
  rw [abs_mul, abs_of_pos (two_zpow_pos k)]
  exact mul_le_mul_of_nonneg_right (by exact_mod_cast h) (two_zpow_pos k).le

/-- Two numbers of the grid whose difference is no greater than either. -/
theorem onGrid_sub {x y : ℚ} (hx : OnGrid F g x) (hy : OnGrid F g y) (h1 : |x - y| ≤ |x|) (h2 : |x - y| ≤ |y|) : OnGrid F g (x - y) := by
  obtain ⟨n, k, hk, hn, rfl⟩ := hx
  obtain ⟨m, j, hj, hm, rfl⟩ := hy
  rcases le_total k j with h | h
  · obtain ⟨l, hl⟩ := mult_lower (n := m) h
    exact onGrid_mult hk ⟨n - l, by rw [hl]; push_cast; ring⟩ (h1.trans (abs_grid_le hn))
  · obtain ⟨l, hl⟩ := mult_lower (n := n) h
    exact onGrid_mult hj ⟨l - m, by rw [hl]; push_cast; ring⟩ (h2.trans (abs_grid_le hm))

/-- Numbers within a factor of two of each other. -/
theorem onGrid_sterbenz {x y : ℚ} (hx : OnGrid F g x) (hy : OnGrid F g y) (h1 : y ≤ 2 * x) (h2 : x ≤ 2 * y) : OnGrid F g (x - y) := by
  have h : |x - y| ≤ x ∧ |x - y| ≤ y := by constructor <;> rw [abs_le] <;> constructor <;> linarith
  exact onGrid_sub hx hy (h.1.trans (le_abs_self x)) (h.2.trans (le_abs_self y))

/-- The error of a sum is on the grid, and no greater than either summand. -/
theorem onGrid_error {a b s : ℚ} (ha : OnGrid F g a) (hb : OnGrid F g b) (h : NearGrid F g (a + b) s) :
    OnGrid F g (a + b - s) ∧ |a + b - s| ≤ |a| ∧ |a + b - s| ≤ |b| := by
  have e1 : |a + b - s| ≤ |b| := by have := h.2 a ha; rwa [add_sub_cancel_left] at this
  have e2 : |a + b - s| ≤ |a| := by have := h.2 b hb; rwa [add_sub_cancel_right] at this
  refine ⟨?_, e2, e1⟩
  -- the sum is a multiple of the lower last place, and so is the result
  have key : ∀ {n m k j : ℤ}, g ≤ k → k ≤ j → |n| ≤ 2 ^ (F + 1) → a + b = n * 2 ^ k + m * 2 ^ j → |a + b - s| ≤ |(n : ℚ) * 2 ^ k| → OnGrid F g (a + b - s) := by
    intro n m k j hk hkj hn hab he
    obtain ⟨l, hl⟩ := mult_lower (n := m) hkj
    have hq : a + b = ((n + l : ℤ) : ℚ) * 2 ^ k := by rw [hab, hl]; push_cast; ring
    by_cases hbig : |a + b| ≤ 2 ^ (F + 1) * 2 ^ k
    · have := nearGrid_exact (onGrid_mult hk ⟨_, hq⟩ hbig) h
      rw [this, sub_self]; exact onGrid_zero
    push Not at hbig
    have hP : OnGrid F g (2 ^ (F + 1) * 2 ^ k) := ⟨2 ^ (F + 1), k, hk, by rw [abs_of_pos (by positivity)], by push_cast; ring⟩
    obtain ⟨t, i, hi, ht, hs⟩ := h.1
    have hki : k ≤ i := by
      have hs' : 2 ^ (F + 1) * 2 ^ k ≤ |s| := by
        rcases le_total 0 (a + b) with h0 | h0
        · rw [abs_of_nonneg h0] at hbig
          exact (nearGrid_ge hP hbig.le h).trans (le_abs_self s)
        · rw [abs_of_nonpos h0] at hbig
          have := nearGrid_ge hP hbig.le (nearGrid_neg h)
          exact this.trans (neg_le_abs s)
      rw [hs] at hs'
      have h2 := hs'.trans (abs_grid_le ht)
      have h3 := le_of_mul_le_mul_left h2 (by positivity)
      exact (zpow_le_zpow_iff_right₀ (by norm_num)).mp h3
    obtain ⟨u, hu⟩ := mult_lower (n := t) hki
    exact onGrid_mult hk ⟨n + l - u, by rw [hq, hs, hu]; push_cast; ring⟩ (he.trans (abs_grid_le hn))
  obtain ⟨n, k, hk, hn, hav⟩ := ha
  obtain ⟨m, j, hj, hm, hbv⟩ := hb
  rcases le_total k j with h' | h'
  · exact key (m := m) hk h' hn (by rw [hav, hbv]) (hav ▸ e2)
  · exact key (m := n) hj h' hm (by rw [hav, hbv]; ring) (hbv ▸ e1)

theorem onGrid_double {v : ℚ} (h : OnGrid F g v) : OnGrid F g (2 * v) := by
  obtain ⟨n, k, hk, hn, rfl⟩ := h
  exact ⟨n, k + 1, by omega, hn, by rw [zpow_add_one₀ (by norm_num)]; ring⟩

/-- Subtracting the larger summand from a rounded sum is exact. -/
theorem onGrid_back {a b s : ℚ} (ha : OnGrid F g a) (hb : OnGrid F g b) (hab : |b| ≤ |a|) (h : NearGrid F g (a + b) s) :
    OnGrid F g (s - a) ∧ |s - a| ≤ |a| := by
  -- it is enough to look at positive `a`
  have main : ∀ {a b s : ℚ}, OnGrid F g a → OnGrid F g b → 0 ≤ a → |b| ≤ a → NearGrid F g (a + b) s → OnGrid F g (s - a) ∧ |s - a| ≤ a := by
    intro a b s ha hb h0 hab h
    have hb1 := (abs_le.mp hab).1
    have hb2 := (abs_le.mp hab).2
    have s0 : 0 ≤ s := nearGrid_ge onGrid_zero (by linarith) h
    have s2 : s ≤ 2 * a := nearGrid_le (onGrid_double ha) (by linarith) h
    have hle : |s - a| ≤ a := by rw [abs_le]; constructor <;> linarith
    refine ⟨?_, hle⟩
    obtain ⟨n, k, hk, hn, hav⟩ := id ha
    obtain ⟨t, i, hi, ht, hs⟩ := id h.1
    rcases le_or_gt k i with hki | hki
    · obtain ⟨u, hu⟩ := mult_lower (n := t) hki
      refine onGrid_mult hk ⟨u - n, by rw [hs, hav, hu]; push_cast; ring⟩ (hle.trans ?_)
      rw [← abs_of_nonneg h0, hav]; exact abs_grid_le hn
    · have half : OnGrid F g (a / 2) := ⟨n, k - 1, by omega, hn, by rw [hav, zpow_sub_one₀ (by norm_num)]; ring⟩
      rcases le_or_gt (-(a / 2)) b with hb3 | hb3
      · have : a / 2 ≤ s := nearGrid_ge half (by linarith) h
        exact onGrid_sterbenz h.1 ha (by linarith) s2
      · have : OnGrid F g (a - -b) := onGrid_sterbenz ha (onGrid_neg hb) (by linarith) (by linarith)
        rw [sub_neg_eq_add] at this
        rw [nearGrid_exact this h, add_sub_cancel_left]
        exact hb
  rcases le_total 0 a with h0 | h0
  · rw [abs_of_nonneg h0] at hab ⊢; exact main ha hb h0 hab h
  · rw [abs_of_nonpos h0] at hab ⊢
    have := main (onGrid_neg ha) (onGrid_neg hb) (by linarith) (by rwa [abs_neg]) (by have := nearGrid_neg h; rwa [neg_add] at this)
    refine ⟨?_, ?_⟩
    · have := onGrid_neg this.1
      convert this using 1; ring
    · convert this.2 using 1
      rw [← abs_neg]; congr 1; ring

/-- The error of rounding a number below `2^(F+2)` units. -/
theorem nearGrid_close {q s : ℚ} {k : ℤ} (hk : g ≤ k) (hq : |q| ≤ 2 ^ (F + 2) * 2 ^ k) (h : NearGrid F g q s) : |q - s| ≤ 2 ^ k := by
  have hp := two_zpow_pos (k + 1)
  have he : (2 : ℚ) ^ (k + 1) = 2 * 2 ^ k := by rw [zpow_add_one₀ (by norm_num)]; ring
  have hx : |q / 2 ^ (k + 1)| ≤ 2 ^ (F + 1) := by
    rw [abs_div, abs_of_pos hp, div_le_iff₀ hp, he]
    refine hq.trans (le_of_eq ?_); ring
  have hr := abs_sub_round (q / 2 ^ (k + 1))
  have hb : |round (q / 2 ^ (k + 1))| ≤ 2 ^ (F + 1) := by
    have h1 := abs_le.mp hr
    have h2 := abs_le.mp hx
    have h3 : ((round (q / 2 ^ (k + 1)) : ℤ) : ℚ) < ((2 ^ (F + 1) + 1 : ℤ) : ℚ) := by push_cast; linarith
    have h4 : ((-(2 ^ (F + 1)) - 1 : ℤ) : ℚ) < ((round (q / 2 ^ (k + 1)) : ℤ) : ℚ) := by push_cast; linarith
    have h5 := Int.cast_lt.mp h3
    have h6 := Int.cast_lt.mp h4
    rw [abs_le]; constructor <;> omega
  refine (h.2 _ ⟨round (q / 2 ^ (k + 1)), k + 1, by omega, hb, rfl⟩).trans ?_
  have e : q - (round (q / 2 ^ (k + 1)) : ℚ) * 2 ^ (k + 1) = (q / 2 ^ (k + 1) - round (q / 2 ^ (k + 1))) * 2 ^ (k + 1) := by
    rw [sub_mul, div_mul_cancel₀ _ hp.ne']
  rw [e, abs_mul, abs_of_pos hp]
  refine (mul_le_mul_of_nonneg_right hr hp.le).trans (le_of_eq ?_)
  rw [he]; ring

/-- A significand of `F+1` bits, or the least exponent. -/
theorem onGrid_normal {v : ℚ} (h : OnGrid F g v) :
    ∃ n k : ℤ, g ≤ k ∧ |n| ≤ 2 ^ (F + 1) ∧ v = n * 2 ^ k ∧ (2 ^ F ≤ |n| ∨ k = g) := by
  obtain ⟨n, k, hk, hn, hv⟩ := h
  obtain ⟨j, rfl⟩ : ∃ j : ℕ, k = g + j := ⟨(k - g).toNat, by omega⟩
  induction j generalizing n with
  | zero => exact ⟨n, _, hk, hn, hv, Or.inr (by simp)⟩
  | succ j ih =>
    rcases le_or_gt (2 ^ F) |n| with h | h
    · exact ⟨n, _, hk, hn, hv, Or.inl h⟩
    · refine ih (2 * n) ?_ (by omega) ?_
      · rw [abs_mul, pow_succ]; norm_num; linarith
      · rw [hv, show (g + ((j + 1 : ℕ) : ℤ)) = (g + j) + 1 by push_cast; ring, zpow_add_one₀ (by norm_num)]; push_cast; ring

theorem grid_mult {v : ℚ} (h : OnGrid F g v) : ∃ n : ℤ, v = n * 2 ^ g := by
  obtain ⟨n, k, hk, -, rfl⟩ := h
  exact mult_lower hk

/-- All the differences of the summation of two numbers without regard to their order: with `s` the rounded sum and `v` the rounded `s - a`. -/
theorem two_sum_facts (hF : 2 ≤ F) {a b s v : ℚ} (ha : OnGrid F g a) (hb : OnGrid F g b) (hs : NearGrid F g (a + b) s) (hv : NearGrid F g (s - a) v) :
    (OnGrid F g (s - v) ∧ (|s - v| ≤ |s| ∨ |s - v| ≤ |a|)) ∧ (OnGrid F g (a - (s - v)) ∧ |a - (s - v)| ≤ |a|) ∧
      (OnGrid F g (b - v) ∧ (|b - v| ≤ |b| ∨ |b - v| ≤ 2 * 2 ^ g)) ∧ OnGrid F g (a + b - s) ∧ |a + b - s| ≤ |b| := by
  obtain ⟨e1, e2, e3⟩ := onGrid_error ha hb hs
  rcases le_total |b| |a| with hab | hab
  · -- the first subtraction is exact
    have hv' := nearGrid_exact (onGrid_back ha hb hab hs).1 hv
    subst hv'
    have h1 : s - (s - a) = a := by ring
    have h2 : b - (s - a) = a + b - s := by ring
    rw [h1, h2, sub_self]
    exact ⟨⟨ha, Or.inr le_rfl⟩, ⟨onGrid_zero, by rw [abs_zero]; exact abs_nonneg a⟩, ⟨e1, Or.inl e3⟩, e1, e3⟩
  by_cases hexact : a + b = s
  · have hv' : v = b := by
      have := nearGrid_exact (q := s - a) (by rw [← hexact, add_sub_cancel_left]; exact hb) hv
      rw [this, ← hexact]; ring
    subst hv'
    have h1 : s - v = a := by rw [← hexact]; ring
    rw [h1, sub_self, sub_self]
    exact ⟨⟨ha, Or.inr le_rfl⟩, ⟨onGrid_zero, by rw [abs_zero]; exact abs_nonneg a⟩, ⟨onGrid_zero, Or.inl (by rw [abs_zero]; exact abs_nonneg v)⟩, e1, e3⟩
  -- the result is no smaller than the smaller summand, since otherwise the sum would be exact
  have hsa : |a| ≤ |s| := by
    by_contra hlt
    push Not at hlt
    apply hexact
    have main : ∀ {a b s : ℚ}, OnGrid F g a → OnGrid F g b → 0 ≤ b → |a| ≤ b → |s| < |a| → NearGrid F g (a + b) s → a + b = s := by
      intro a b s ha hb h0 hab hlt hs
      have h1 := abs_le.mp hab
      have ha0 : a < 0 := by
        by_contra hc
        push Not at hc
        have h2 := nearGrid_ge ha (by linarith : a ≤ a + b) hs
        rw [abs_of_nonneg hc] at hlt
        linarith [le_abs_self s]
      rw [abs_of_neg ha0] at hlt
      have h3 : b ≤ 2 * -a := by
        by_contra hc
        push Not at hc
        have h2 := nearGrid_ge (onGrid_neg ha) (by linarith : -a ≤ a + b) hs
        linarith [le_abs_self s]
      have := onGrid_sterbenz hb (onGrid_neg ha) (by linarith) h3
      rw [sub_neg_eq_add, add_comm] at this
      exact (nearGrid_exact this hs).symm
    rcases le_total 0 b with h0 | h0
    · exact main ha hb h0 (by rwa [abs_of_nonneg h0] at hab) hlt hs
    · have := main (onGrid_neg ha) (onGrid_neg hb) (by linarith) (by rw [abs_neg]; rwa [abs_of_nonpos h0] at hab) (s := -s) (by rw [abs_neg, abs_neg]; exact hlt)
        (by have := nearGrid_neg hs; rwa [neg_add] at this)
      linarith
  have hv2 : NearGrid F g (s + -a) v := by rwa [← sub_eq_add_neg]
  obtain ⟨b1, b2⟩ := onGrid_back hs.1 (onGrid_neg ha) (by rwa [abs_neg]) hv2
  obtain ⟨c1, c2, c3⟩ := onGrid_error hs.1 (onGrid_neg ha) hv2
  have hx1 : s - v = -(v - s) := by ring
  have hx2 : a - (s - v) = -(s + -a - v) := by ring
  refine ⟨⟨hx1 ▸ onGrid_neg b1, Or.inl (by rw [hx1, abs_neg]; exact b2)⟩, ⟨hx2 ▸ onGrid_neg c1, by rw [hx2, abs_neg]; rwa [abs_neg] at c3⟩, ?_, e1, e3⟩
  obtain ⟨n, k, hk, hn, hbv, hnorm⟩ := onGrid_normal hb
  have hbb : |b| ≤ 2 ^ (F + 1) * 2 ^ k := by rw [hbv]; exact abs_grid_le hn
  have herr : |a + b - s| ≤ 2 ^ k := by
    refine nearGrid_close hk ((abs_add_le a b).trans ?_) hs
    rw [pow_succ]; linarith
  have hd : |b - v| ≤ 2 * 2 ^ k := by
    have h1 := hv.2 b hb
    have h2 : s - a - b = -(a + b - s) := by ring
    rw [h2, abs_neg] at h1
    have h3 : b - v = (s - a - v) + (a + b - s) := by ring
    rw [h3]
    refine (abs_add_le _ _).trans ?_
    linarith
  have hkp := two_zpow_pos k
  rcases hnorm with h | rfl
  · have h4 : 4 * 2 ^ k ≤ |b| := by
      rw [hbv, abs_mul, abs_of_pos hkp]
      refine mul_le_mul_of_nonneg_right ?_ hkp.le
      have : (4 : ℤ) ≤ 2 ^ F := by
        calc (4 : ℤ) = 2 ^ 2 := by norm_num
          _ ≤ 2 ^ F := pow_le_pow_right₀ (by norm_num) hF
      exact_mod_cast this.trans h
    have h5 : |b - v| ≤ |b| := by linarith
    have h6 : |b| ≤ |b - v| + |v| := by
      have := abs_add_le (b - v) v
      rwa [sub_add_cancel] at this
    exact ⟨onGrid_sub hb hv.1 h5 (by linarith), Or.inl h5⟩
  · obtain ⟨m, hm⟩ := grid_mult hv.1
    refine ⟨onGrid_mult le_rfl ⟨n - m, by rw [hbv, hm]; push_cast; ring⟩ (hd.trans (mul_le_mul_of_nonneg_right ?_ hkp.le)), Or.inr hd⟩
    calc (2 : ℚ) = 2 ^ 1 := by norm_num
      _ ≤ 2 ^ (F + 1) := pow_le_pow_right₀ (by norm_num) (by omega)

/-! ## A rounding to a range -/

/-- Multiples of `2^g` are rounded to a nearest number of the grid, and the result is finite if that is below `top`. -/
def SumRounding (F : ℕ) (g : ℤ) (top : ℚ) (R : ℚ → Datum → Prop) : Prop :=
  ∀ (q : ℚ) (d : Datum), (∃ n : ℤ, q = n * 2 ^ g) → R q d → ∃ t, NearGrid F g q t ∧ (|t| < top → d.fin = some t) ∧ ∀ s, d.fin = some s → s = t ∧ |t| < top

section
variable {top : ℚ} {R : ℚ → Datum → Prop}

theorem SumRounding.exact (M : SumRounding F g top R) {q : ℚ} {d : Datum} (hq : OnGrid F g q) (hl : |q| < top) (h : R q d) : d.fin = some q := by
  obtain ⟨t, t1, t2, -⟩ := M _ _ (grid_mult hq) h
  rw [nearGrid_exact hq t1] at t2
  exact t2 hl

theorem SumRounding.near (M : SumRounding F g top R) {q s : ℚ} {d : Datum} (hq : ∃ n : ℤ, q = n * 2 ^ g) (h : R q d) (hs : d.fin = some s) :
    NearGrid F g q s ∧ |s| < top := by
  obtain ⟨t, t1, -, t3⟩ := M _ _ hq h
  obtain ⟨rfl, h2⟩ := t3 s hs
  exact ⟨t1, h2⟩

theorem mult_add {p q : ℚ} (hp : ∃ n : ℤ, p = n * 2 ^ g) (hq : ∃ n : ℤ, q = n * 2 ^ g) : ∃ n : ℤ, p + q = n * 2 ^ g := by
  obtain ⟨n, rfl⟩ := hp
  obtain ⟨m, rfl⟩ := hq
  exact ⟨n + m, by push_cast; ring⟩

theorem mult_sub {p q : ℚ} (hp : ∃ n : ℤ, p = n * 2 ^ g) (hq : ∃ n : ℤ, q = n * 2 ^ g) : ∃ n : ℤ, p - q = n * 2 ^ g := by
  obtain ⟨n, rfl⟩ := hp
  obtain ⟨m, rfl⟩ := hq
  exact ⟨n - m, by push_cast; ring⟩

/-- The two subtractions of the summation of numbers in decreasing order. -/
theorem SumRounding.fast (M : SumRounding F g top R) {a b s : ℚ} {ds : Datum} (ha : OnGrid F g a) (hb : OnGrid F g b) (hat : |a| < top) (hab : |b| ≤ |a|)
    (h1 : R (a + b) ds) (hs : ds.fin = some s) :
    (∀ d, R (s - a) d → d.fin = some (s - a)) ∧ ∀ d, R (b - (s - a)) d → d.fin = some (a + b - s) := by
  obtain ⟨n1, -⟩ := M.near (mult_add (grid_mult ha) (grid_mult hb)) h1 hs
  obtain ⟨b1, b2⟩ := onGrid_back ha hb hab n1
  obtain ⟨e1, e2, -⟩ := onGrid_error ha hb n1
  refine ⟨fun d hd => M.exact b1 (b2.trans_lt hat) hd, fun d hd => ?_⟩
  have : b - (s - a) = a + b - s := by ring
  rw [this] at hd
  exact M.exact e1 (e2.trans_lt hat) hd

/-- The six operations of the summation of two numbers in any order. -/
theorem SumRounding.two (M : SumRounding F g top R) (hF : 2 ≤ F) (htop : 2 * 2 ^ g < top) {a b s v : ℚ} {ds dv : Datum} (ha : OnGrid F g a) (hb : OnGrid F g b)
    (hat : |a| < top) (hbt : |b| < top) (h1 : R (a + b) ds) (hs : ds.fin = some s) (h2 : R (s - a) dv) (hv : dv.fin = some v) :
    (∀ d, R (s - v) d → d.fin = some (s - v)) ∧ (∀ d, R (a - (s - v)) d → d.fin = some (a - (s - v))) ∧ (∀ d, R (b - v) d → d.fin = some (b - v)) ∧
      ∀ d, R (a - (s - v) + (b - v)) d → d.fin = some (a + b - s) := by
  obtain ⟨n1, l1⟩ := M.near (mult_add (grid_mult ha) (grid_mult hb)) h1 hs
  obtain ⟨n2, -⟩ := M.near (mult_sub (grid_mult n1.1) (grid_mult ha)) h2 hv
  obtain ⟨⟨c1, c2⟩, ⟨c3, c4⟩, ⟨c5, c6⟩, c7, c8⟩ := two_sum_facts hF ha hb n1 n2
  refine ⟨fun d => M.exact c1 (c2.elim (·.trans_lt l1) (·.trans_lt hat)), fun d => M.exact c3 (c4.trans_lt hat),
    fun d => M.exact c5 (c6.elim (·.trans_lt hbt) (·.trans_lt htop)), fun d hd => ?_⟩
  have : a - (s - v) + (b - v) = a + b - s := by ring
  rw [this] at hd
  exact M.exact c7 (c8.trans_lt hbt) hd

/-- The second operation gives a finite number unless the second summand is the greatest number and the first one is smaller. -/
theorem SumRounding.second (M : SumRounding F g top R) (hF : 1 ≤ F) {K : ℤ} (hK : g ≤ K) (htop : top = 2 ^ (F + 1) * 2 ^ K) {a b s : ℚ} {ds dv : Datum} (ha : OnGrid F g a)
    (hb : OnGrid F g b) (hat : |a| < top) (hsm : |b| ≤ |a| ∨ |b| < (2 ^ (F + 1) - 1) * 2 ^ K) (h1 : R (a + b) ds) (hs : ds.fin = some s) (h2 : R (s - a) dv) :
    ∃ v, dv.fin = some v := by
  rcases le_total |b| |a| with hab | hab
  · exact ⟨_, (M.fast ha hb hat hab h1 hs).1 _ h2⟩
  rcases hsm with hsm | hsm
  · exact ⟨_, (M.fast ha hb hat hsm h1 hs).1 _ h2⟩
  obtain ⟨n1, -⟩ := M.near (mult_add (grid_mult ha) (grid_mult hb)) h1 hs
  obtain ⟨t, t1, t2, -⟩ := M _ _ (mult_sub (grid_mult n1.1) (grid_mult ha)) h2
  have hKp := two_zpow_pos K
  have hone : (2 : ℚ) ≤ 2 ^ F := by
    calc (2 : ℚ) = 2 ^ 1 := by norm_num
      _ ≤ 2 ^ F := pow_le_pow_right₀ (by norm_num) hF
  have hG : OnGrid F g ((2 ^ (F + 1) - 1) * 2 ^ K) := by
    refine onGrid_mult hK ⟨2 ^ (F + 1) - 1, by push_cast; ring⟩ ?_
    rw [abs_of_nonneg (mul_nonneg (by rw [pow_succ]; linarith) hKp.le)]
    exact mul_le_mul_of_nonneg_right (by linarith) hKp.le
  have hle : |s - a| ≤ (2 ^ (F + 1) - 1) * 2 ^ K := by
    obtain ⟨n, k, hk, hn, hbv, hnorm⟩ := onGrid_normal hb
    have hkp := two_zpow_pos k
    have habs : |b| = |(n : ℚ)| * 2 ^ k := by rw [hbv, abs_mul, abs_of_pos hkp]
    have herr : |a + b - s| ≤ 2 ^ k := by
      refine nearGrid_close hk ((abs_add_le a b).trans ?_) n1
      have : |b| ≤ 2 ^ (F + 1) * 2 ^ k := by rw [hbv]; exact abs_grid_le hn
      rw [pow_succ]; linarith
    have h3 : |s - a| ≤ |b| + 2 ^ k := by
      have e : s - a = b + -(a + b - s) := by ring
      rw [e]
      refine (abs_add_le _ _).trans ?_
      rw [abs_neg]; linarith
    refine h3.trans ?_
    have hnK : |n| * 2 ^ (k - g).toNat < (2 ^ (F + 1) - 1) * 2 ^ (K - g).toNat := by
      have hg := two_zpow_pos g
      have e1 : ∀ {j : ℤ}, g ≤ j → (2 : ℚ) ^ j = 2 ^ (j - g).toNat * 2 ^ g := by
        intro j hj
        rw [← zpow_natCast, Int.toNat_of_nonneg (by omega), ← zpow_add₀ (by norm_num)]
        congr 1; ring
      rw [habs, e1 hk, e1 hK, ← mul_assoc, ← mul_assoc] at hsm
      have := lt_of_mul_lt_mul_right hsm hg.le
      exact_mod_cast this
    have hkK : k ≤ K := by
      rcases hnorm with h | rfl
      · by_contra hc
        push Not at hc
        have h5 : 2 * 2 ^ (K - g).toNat ≤ (2 : ℤ) ^ (k - g).toNat := by
          rw [mul_comm, ← pow_succ]
          exact pow_le_pow_right₀ (by norm_num) (by omega)
        have h6 : 2 ^ F * (2 * 2 ^ (K - g).toNat) ≤ |n| * 2 ^ (k - g).toNat := mul_le_mul h h5 (by positivity) (abs_nonneg n)
        have h7 : (0 : ℤ) < 2 ^ (K - g).toNat := by positivity
        have h8 : (2 : ℤ) ^ F * (2 * 2 ^ (K - g).toNat) = 2 ^ (F + 1) * 2 ^ (K - g).toNat := by rw [pow_succ]; ring
        nlinarith
      · exact hK
    rcases lt_or_eq_of_le hkK with hlt | rfl
    · have e2 : (2 : ℚ) * 2 ^ k ≤ 2 ^ K := by
        rw [mul_comm, ← zpow_add_one₀ (by norm_num)]
        exact zpow_le_zpow_right₀ (by norm_num) (by omega)
      have h6 : |(n : ℚ)| ≤ 2 ^ (F + 1) := by exact_mod_cast hn
      rw [habs]
      rw [pow_succ] at h6 ⊢
      have h9 : |(n : ℚ)| * 2 ^ k ≤ 2 ^ F * 2 * 2 ^ k := mul_le_mul_of_nonneg_right h6 hkp.le
      have h10 : (2 : ℚ) ^ F * (2 * 2 ^ k) ≤ 2 ^ F * 2 ^ K := mul_le_mul_of_nonneg_left e2 (by positivity)
      have h11 : 2 * 2 ^ K ≤ (2 : ℚ) ^ F * 2 ^ K := mul_le_mul_of_nonneg_right hone hKp.le
      linarith
    · have h6 : |n| + 1 ≤ 2 ^ (F + 1) - 1 := by
        have h7 : (0 : ℤ) < 2 ^ (k - g).toNat := by positivity
        have := lt_of_mul_lt_mul_right hnK h7.le
        omega
      have h8 : |(n : ℚ)| + 1 ≤ 2 ^ (F + 1) - 1 := by exact_mod_cast h6
      rw [habs]
      nlinarith
  obtain ⟨l1, l2⟩ := abs_le.mp hle
  refine ⟨t, t2 ?_⟩
  have u1 := nearGrid_le hG l2 t1
  have u2 := nearGrid_ge (onGrid_neg hG) l1 t1
  rw [htop, abs_lt]
  constructor <;> nlinarith

end

/-! ## Flushing and gradual underflow -/

/-- The form with a smaller significand. -/
theorem onGrid_strict {v : ℚ} (h : OnGrid F g v) : ∃ n k : ℤ, g ≤ k ∧ |n| < 2 ^ (F + 1) ∧ v = n * 2 ^ k := by
  obtain ⟨n, k, hk, hn, hv⟩ := h
  rcases lt_or_eq_of_le hn with h | h
  · exact ⟨n, k, hk, h, hv⟩
  · have hp : (0 : ℤ) < 2 ^ F := by positivity
    rcases abs_choice n with h' | h'
    · refine ⟨2 ^ F, k + 1, by omega, by rw [abs_of_pos hp, pow_succ]; omega, ?_⟩
      rw [hv, ← h', h, zpow_add_one₀ (by norm_num), pow_succ]; push_cast; ring
    · refine ⟨-2 ^ F, k + 1, by omega, by rw [abs_neg, abs_of_pos hp, pow_succ]; omega, ?_⟩
      have : n = -2 ^ (F + 1) := by rw [← h, h', neg_neg]
      rw [hv, this, zpow_add_one₀ (by norm_num), pow_succ]; push_cast; ring

theorem onGrid_sig {v : ℚ} (h : OnGrid F g v) (h0 : v ≠ 0) : SigValue F v := by
  obtain ⟨n, k, -, hn, hv⟩ := onGrid_strict h
  exact fits_sig ⟨n, hn, hv⟩ h0

theorem onGrid_gradual {E : ℕ} {v : ℚ} (h : OnGrid F (leastExp E F) v) : GradNum E F v := by
  obtain ⟨n, k, hk, hn, hv⟩ := onGrid_strict h
  refine ⟨n.natAbs, k, ⟨by zify; exact hn, hk⟩, ?_⟩
  rw [hv, abs_mul, abs_of_pos (two_zpow_pos k), Nat.cast_natAbs]; push_cast; rfl

theorem gradual_onGrid {E : ℕ} {v : ℚ} (h : GradNum E F v) : OnGrid F (leastExp E F) v := by
  obtain ⟨m, e, ⟨hm, he⟩, hv⟩ := h
  refine onGrid_mult he (signed_mult hv) ?_
  rw [hv]
  exact mul_le_mul_of_nonneg_right (by exact_mod_cast hm.le) (two_zpow_pos e).le

/-- The signed rounded value is as close as its magnitude is. -/
theorem signed_close {q w x : ℚ} (hx : 0 ≤ x) (h : abs (|q| - x) ≤ abs (|q| - |w|)) : |q - (if q < 0 then -1 else 1) * x| ≤ |q - w| := by
  refine le_trans (le_of_eq ?_) (h.trans (abs_abs_sub_abs_le q w))
  split
  · rename_i h; rw [abs_of_neg h, ← abs_neg]; congr 1; ring
  · rename_i h; rw [abs_of_nonneg (not_lt.mp h)]; congr 1; ring

theorem flush_sum {hi : ℚ} (hhi : 0 < hi) (g : ℤ) : SumRounding F g hi (FlushRounded F (2 ^ g) hi) := by
  intro q d hq h
  by_cases h0 : q = 0
  · subst h0
    unfold FlushRounded at h
    rw [if_pos rfl] at h
    obtain ⟨b, rfl⟩ := h
    refine ⟨0, ⟨onGrid_zero, fun w _ => by rw [sub_zero, abs_zero]; exact abs_nonneg _⟩, fun _ => rfl, fun s hs => ?_⟩
    injection hs with hs
    exact ⟨hs.symm, by rwa [abs_zero]⟩
  unfold FlushRounded at h
  rw [if_neg h0] at h
  obtain ⟨t, ht, rfl⟩ := h
  have hgp := two_zpow_pos g
  -- numbers on the grid are bounds for the magnitude of the result
  have low : ∀ {p : ℚ}, 0 < p → OnGrid F g p → p ≤ |q| → p ≤ |t| := by
    intro p p0 hp hpq
    rcases lt_or_gt_of_ne h0 with hn | hn
    · rw [abs_of_neg hn] at hpq
      have := free_le (p := -p) (Or.inr (onGrid_sig (onGrid_neg hp) (by linarith))) (by linarith) h0 ht
      exact (by linarith : p ≤ -t).trans (neg_le_abs t)
    · rw [abs_of_pos hn] at hpq
      exact (free_ge (Or.inr (onGrid_sig hp p0.ne')) hpq h0 ht).trans (le_abs_self t)
  have hg1 : OnGrid F g (2 ^ g) := ⟨1, g, le_rfl, by rw [abs_one]; exact one_le_pow₀ (by norm_num), by push_cast; ring⟩
  have hg2 : OnGrid F g (2 ^ (F + 1) * 2 ^ g) := ⟨2 ^ (F + 1), g, le_rfl, by rw [abs_of_pos (by positivity)], by push_cast; ring⟩
  have hlow : 2 ^ g ≤ |t| := by
    refine low hgp hg1 ?_
    obtain ⟨n, rfl⟩ := hq
    rw [abs_mul, abs_of_pos hgp]
    have hn : n ≠ 0 := by rintro rfl; simp at h0
    have : (1 : ℚ) ≤ |(n : ℚ)| := by exact_mod_cast Int.one_le_abs hn
    nlinarith
  have hon : OnGrid F g t := by
    rcases le_or_gt |q| (2 ^ (F + 1) * 2 ^ g) with hs | hs
    · have hgq := onGrid_mult le_rfl hq hs
      rw [free_exact (onGrid_sig hgq h0) ht]; exact hgq
    · have h3 := low (by positivity) hg2 hs.le
      obtain ⟨m, e, hm, hte⟩ := (free_facts h0 ht).1
      have h4 : (m : ℚ) ≤ 2 ^ (F + 1) := by exact_mod_cast hm.2.le
      have h5 : g ≤ e := by
        rw [hte] at h3
        have h6 := h3.trans (mul_le_mul_of_nonneg_right h4 (two_zpow_pos e).le)
        exact (zpow_le_zpow_iff_right₀ (by norm_num)).mp (le_of_mul_le_mul_left h6 (by positivity))
      refine onGrid_mult h5 (signed_mult hte) ?_
      rw [hte]
      exact mul_le_mul_of_nonneg_right h4 (two_zpow_pos e).le
  refine ⟨t, ⟨hon, fun w hw => ?_⟩, ?_, ?_⟩
  · by_cases hw0 : w = 0
    · subst hw0
      obtain ⟨-, -, -, h3⟩ := free_facts h0 ht
      have hu : uro F ≤ 1 := by
        unfold uro
        exact (zpow_lt_one_of_neg₀ (by norm_num) (by omega)).le
      rw [← abs_neg, neg_sub, sub_zero]
      have := abs_nonneg q
      nlinarith
    · obtain ⟨m', e', hm', hwe⟩ := onGrid_sig hw hw0
      obtain ⟨m, e, hn, rfl⟩ := ht
      refine signed_close (by have := two_zpow_pos e; positivity) ?_
      rw [hwe]
      exact hn.2.1 m' e' hm'
  · intro h3
    unfold flushRange
    rw [if_neg (not_lt.mpr hlow), if_neg (not_le.mpr h3)]; rfl
  · intro s hs
    unfold flushRange at hs
    rw [if_neg (not_lt.mpr hlow)] at hs
    split_ifs at hs with h3
    · cases hs
    · injection hs with hs
      exact ⟨hs.symm, not_le.mp h3⟩

theorem gradual_sum {E : ℕ} : SumRounding F (leastExp E F) (ieeeLimit E) (RoundedG0 E F) := by
  intro q d _ h
  unfold RoundedG0 at h
  by_cases h0 : q = 0
  · subst h0
    rw [if_pos rfl] at h
    obtain ⟨b, rfl⟩ := h
    refine ⟨0, ⟨onGrid_zero, fun w _ => by rw [sub_zero, abs_zero]; exact abs_nonneg _⟩, fun _ => rfl, fun s hs => ?_⟩
    injection hs with hs
    exact ⟨hs.symm, by rw [abs_zero]; exact two_zpow_pos _⟩
  rw [if_neg h0] at h
  obtain ⟨t, ht, h1, h2⟩ := gradual_free h
  refine ⟨t, ⟨gradual_onGrid (gradFree_num ht), fun w hw => ?_⟩, h1, h2⟩
  obtain ⟨m', e', hm', hwe⟩ := onGrid_gradual hw
  obtain ⟨m, e, hn, rfl⟩ := ht
  refine signed_close (by have := two_zpow_pos e; positivity) ?_
  rw [hwe]
  exact hn.2.2.1 m' e' hm'

end Thls
