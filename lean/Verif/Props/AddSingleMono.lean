import Verif.Props.AddMore
import Verif.Proofs.Fma

/-! # Property C44: the single-path adder is monotone, although it is not correctly rounded -/

namespace Thls
open Spec

/-- The real number whose rounding the single-path adder returns: the sum, except in the clamp case (`c` says whether the format has
one), in which the smaller operand counts as half a unit in the last place below the larger one. -/
def EffectiveSum (c : Prop) (F : ℕ) (a b h : ℚ) : Prop :=
  (c ∧ ClampCase F a b ∧ h = a * (1 - 2 ^ (-(F : ℤ) - 2))) ∨ (c ∧ ClampCase F b a ∧ h = b * (1 - 2 ^ (-(F : ℤ) - 2))) ∨
    (¬ (c ∧ ClampCase F a b) ∧ ¬ (c ∧ ClampCase F b a) ∧ h = a + b)

theorem clamp_tie {E F : ℕ} (hF : 1 ≤ F) (hE : 1 ≤ E) {x : Fp E F} {a b : ℚ} (hx : x.datum = .num a) (hc : ClampCase F a b) :
    Rounded E F (a * (1 - 2 ^ (-(F : ℤ) - 2))) (.num a) := by
  obtain ⟨h0, k, hk, -, -⟩ := hc
  have hδ : (2 : ℚ) ^ (-(F : ℤ) - 2) < 1 := by
    rw [show (1 : ℚ) = 2 ^ (0 : ℤ) by norm_num]
    exact zpow_lt_zpow_right₀ (by norm_num) (by omega)
  have hδ0 : (0 : ℚ) < 2 ^ (-(F : ℤ) - 2) := by positivity
  have hp : 2 ^ (F + 1) = 2 * 2 ^ F := by rw [pow_succ]; ring
  have hp0 : 0 < 2 ^ F := by positivity
  have e1 : (2 : ℚ) ^ (F + 1) * 2 ^ (k - F - 1) = 2 ^ k := by
    rw [← zpow_natCast, ← zpow_add₀ (by norm_num)]; congr 1; push_cast; ring
  have e2 : (2 : ℚ) ^ F * 2 ^ (k - F) = 2 ^ k := by
    rw [← zpow_natCast, ← zpow_add₀ (by norm_num)]; congr 1; ring
  have e3 : (2 : ℚ) ^ k * 2 ^ (-(F : ℤ) - 2) = 2 ^ (k - F - 1) / 2 := by
    rw [← zpow_add₀ (by norm_num), show k - F - 1 = (k + (-(F : ℤ) - 2)) + 1 by ring, two_zpow_succ]; ring
  have hm1 : (((2 ^ (F + 1) - 1 : ℕ) : ℚ) + 1) = 2 ^ (F + 1) := by
    rw [Nat.cast_sub Nat.one_le_two_pow]; push_cast; ring
  have habs : |a * (1 - 2 ^ (-(F : ℤ) - 2))| = 2 ^ k - 2 ^ (k - F - 1) / 2 := by
    rw [abs_mul, hk, abs_of_pos (by linarith), mul_sub, mul_one, e3]
  have hne : NearestEven (F + 1) |a * (1 - 2 ^ (-(F : ℤ) - 2))| (2 ^ F) (k - F) := by
    refine nearest_up (m := 2 ^ (F + 1) - 1) (e := k - F - 1) (by omega) ⟨by rw [Nat.add_sub_cancel]; omega, by omega⟩
      ⟨by simp, by omega⟩ ?_ ?_ ?_ ?_
    · rw [hm1, e1]; push_cast; exact e2
    · rw [hm1, e1, habs]; have : (0 : ℚ) < 2 ^ (k - F - 1) := by positivity
      linarith
    · rw [hm1, e1, habs]; linarith
    · intro _; exact (Nat.even_pow.mpr ⟨even_two, by omega⟩)
  refine ⟨2 ^ F, k - F, hne, ?_⟩
  obtain ⟨m, e, hn, hd⟩ := rounded_self hF hE x a hx
  have hs : (a * (1 - 2 ^ (-(F : ℤ) - 2)) < 0) ↔ a < 0 := by
    constructor
    · intro h; by_contra hc; push Not at hc
      have := mul_nonneg hc (show (0 : ℚ) ≤ 1 - 2 ^ (-(F : ℤ) - 2) by linarith)
      linarith
    · intro h; exact mul_neg_of_neg_of_pos h (by linarith)
  have hn' : NearestEven (F + 1) |a| (2 ^ F) (k - F) := by
    refine nearest_self (by omega) hne.1 ?_
    rw [hk]; push_cast; exact e2.symm
  rw [← hx, decide_eq_decide.mpr hs]
  exact rounded_unique ⟨m, e, hn, hd⟩ ⟨2 ^ F, k - F, hn', rfl⟩

/-- Numbers of a format above a power of two are at least one unit above it. -/
theorem gap_above {E F : ℕ} (hF : 1 ≤ F) {y : Fp E F} {a b : ℚ} (hy : y.datum = .num b) {k : ℤ}
    (hk : a = 2 ^ k) (h : a < b) : a + 2 ^ (k - F) ≤ b := by
  obtain ⟨-, hb⟩ := datum_num_iff.mp hy
  have hb0 : 0 < b := lt_trans (by rw [hk]; positivity) h
  have hsgn : y.sign ≠ 1 := by
    intro hs; rw [if_pos hs] at hb
    have := sig_scaled_pos F y.frac ((y.exp : ℤ) - bias E - F)
    linarith
  rw [if_neg hsgn, one_mul] at hb
  have e2 : (2 : ℚ) ^ F * 2 ^ (k - F) = 2 ^ k := by
    rw [← zpow_natCast, ← zpow_add₀ (by norm_num)]; congr 1; ring
  have hyf := y.frac_lt hF
  have hp : 2 ^ (F + 1) = 2 * 2 ^ F := by rw [pow_succ]; ring
  have hs1 : IsSig (F + 1) (2 ^ F) := ⟨by simp, by have : 0 < 2 ^ F := by positivity
                                                   omega⟩
  have hs2 : IsSig (F + 1) (2 ^ F + y.frac) := ⟨by simp, by omega⟩
  rcases sig_le_or_ge (e := k - F) (e' := (y.exp : ℤ) - bias E - F) (by omega) hs1 hs2 with h' | h'
  · rw [← hb] at h'; push_cast at h'; rw [e2] at h'; linarith
  · rw [← hb] at h'; push_cast at h'; rw [add_mul, e2, one_mul] at h'; linarith

theorem gap_below {E F : ℕ} (hE : 1 ≤ E) (hF : 1 ≤ F) {y : Fp E F} {a b : ℚ} (hy : y.datum = .num b) {k : ℤ}
    (hk : a = -2 ^ k) (h : b < a) : b ≤ a - 2 ^ (k - F) := by
  have := gap_above hF (y := negV1 E F y) (a := -a) (b := -b)
    (by rw [C27_neg_datum hE hF, hy]; rfl) (k := k) (by rw [hk]; ring) (by linarith)
  linarith

theorem clampCase_iff (F : ℕ) (a b : ℚ) : ClampCase F a b ↔
    a * b < 0 ∧ (∃ k : ℤ, |a| = 2 ^ k) ∧ |a| * 2 ^ (-(F : ℤ) - 2) < |b| ∧ |b| < 2 * (|a| * 2 ^ (-(F : ℤ) - 2)) := by
  have e : ∀ k : ℤ, (2 : ℚ) ^ k * 2 ^ (-(F : ℤ) - 2) = 2 ^ (k - F - 2) := fun k => by
    rw [← zpow_add₀ (by norm_num)]; congr 1; ring
  have e' : ∀ k : ℤ, 2 * (2 : ℚ) ^ (k - F - 2) = 2 ^ (k - F - 1) := fun k => by
    rw [← two_zpow_succ]; congr 1; ring
  constructor
  · rintro ⟨h, k, hk, h1, h2⟩
    refine ⟨h, ⟨k, hk⟩, ?_, ?_⟩
    · rw [hk, e]; exact h1
    · rw [hk, e, e']; exact h2
  · rintro ⟨h, ⟨k, hk⟩, h1, h2⟩
    refine ⟨h, k, hk, ?_, ?_⟩
    · rw [hk, e] at h1; exact h1
    · rw [hk, e, e'] at h2; exact h2

theorem effectiveSum_mono {c : Prop} {F : ℕ} {x y z h h' : ℚ} (hF : 1 ≤ F) (hxy : x ≤ y)
    (gx : ∀ k : ℤ, x = 2 ^ k → x < y → x + 2 ^ (k - F) ≤ y) (gy : ∀ k : ℤ, y = -2 ^ k → x < y → x ≤ y - 2 ^ (k - F))
    (h1 : EffectiveSum c F x z h) (h2 : EffectiveSum c F y z h') : h ≤ h' := by
  have e : ∀ k : ℤ, (2 : ℚ) ^ (k - F) = 4 * (2 ^ k * 2 ^ (-(F : ℤ) - 2)) := fun k => by
    rw [← zpow_add₀ (by norm_num), show (4 : ℚ) = 2 ^ (2 : ℤ) by norm_num, ← zpow_add₀ (by norm_num)]; congr 1; ring
  have hδ : (2 : ℚ) ^ (-(F : ℤ) - 2) ≤ 1 / 8 := by
    rw [show (1 / 8 : ℚ) = 2 ^ (-3 : ℤ) by norm_num]
    exact zpow_le_zpow_right₀ (by norm_num) (by omega)
  have hδ0 : (0 : ℚ) < 2 ^ (-(F : ℤ) - 2) := by positivity
  have gx' : (∃ k : ℤ, |x| = 2 ^ k) → 0 < x → x < y → x + 4 * (x * 2 ^ (-(F : ℤ) - 2)) ≤ y := by
    rintro ⟨k, hk⟩ h0 hlt
    rw [abs_of_pos h0] at hk
    have := gx k hk hlt
    rwa [e, ← hk] at this
  have gy' : (∃ k : ℤ, |y| = 2 ^ k) → y < 0 → x < y → x ≤ y + 4 * (y * 2 ^ (-(F : ℤ) - 2)) := by
    rintro ⟨k, hk⟩ h0 hlt
    rw [abs_of_neg h0] at hk
    have := gy k (by linarith) hlt
    rw [e, ← hk] at this
    linarith
  unfold EffectiveSum at h1 h2
  simp only [clampCase_iff] at h1 h2
  clear gx gy e
  generalize (2 : ℚ) ^ (-(F : ℤ) - 2) = δ at *
  have sgn : ∀ {a b : ℚ}, a * b < 0 → (0 < a ∧ b < 0) ∨ (a < 0 ∧ 0 < b) := fun h => mul_neg_iff.mp h
  rcases h1 with ⟨hc, ⟨n1, p1, l1, u1⟩, rfl⟩ | ⟨hc, ⟨n1, p1, l1, u1⟩, rfl⟩ | ⟨m1, m2, rfl⟩ <;>
    rcases h2 with ⟨hc', ⟨n2, p2, l2, u2⟩, rfl⟩ | ⟨hc', ⟨n2, p2, l2, u2⟩, rfl⟩ | ⟨m3, m4, rfl⟩
  · exact mul_le_mul_of_nonneg_right hxy (by linarith)
  · rcases sgn n1 with ⟨a, b⟩ | ⟨a, b⟩
    · rcases sgn n2 with ⟨a', b'⟩ | ⟨a', b'⟩
      · linarith
      · rw [abs_of_pos a] at l1 u1
        rw [abs_of_neg b] at l1 u1 l2 u2
        rw [abs_of_pos b'] at l2 u2
        nlinarith
    · have : x * (1 - δ) ≤ 0 := mul_nonpos_of_nonpos_of_nonneg a.le (by linarith)
      have : 0 ≤ z * (1 - δ) := mul_nonneg b.le (by linarith)
      linarith
  · rcases sgn n1 with ⟨a, b⟩ | ⟨a, b⟩
    · rcases eq_or_lt_of_le hxy with rfl | hlt
      · exact absurd ⟨hc, n1, p1, l1, u1⟩ m3
      · have := gx' p1 a hlt
        rw [abs_of_pos a, abs_of_neg b] at l1 u1
        have : 0 < x * δ := mul_pos a hδ0
        nlinarith
    · rw [abs_of_neg a, abs_of_pos b] at l1 u1
      nlinarith
  · rcases sgn n1 with ⟨a, b⟩ | ⟨a, b⟩
    · have : z * (1 - δ) ≥ 0 := mul_nonneg a.le (by linarith)
      rcases sgn n2 with ⟨a', b'⟩ | ⟨a', b'⟩
      · linarith
      · rw [abs_of_pos a] at l1 u1 l2 u2
        rw [abs_of_neg b] at l1 u1
        rw [abs_of_neg a'] at l2 u2
        nlinarith
    · have : z * (1 - δ) ≤ 0 := mul_nonpos_of_nonpos_of_nonneg a.le (by linarith)
      have : 0 ≤ y * (1 - δ) := mul_nonneg (by linarith) (by linarith)
      linarith
  · exact le_rfl
  · rcases sgn n1 with ⟨a, b⟩ | ⟨a, b⟩
    · rw [abs_of_pos a, abs_of_neg b] at l1 u1
      by_contra hlt
      push Not at hlt
      have hy : y < 0 := by nlinarith
      refine m4 ⟨hc, mul_neg_of_pos_of_neg a hy, p1, ?_, ?_⟩
      · rw [abs_of_pos a, abs_of_neg hy]; nlinarith
      · rw [abs_of_pos a, abs_of_neg hy]; nlinarith
    · rw [abs_of_neg a, abs_of_pos b] at l1 u1
      nlinarith
  · rcases sgn n2 with ⟨a, b⟩ | ⟨a, b⟩
    · rw [abs_of_pos a, abs_of_neg b] at l2 u2
      nlinarith
    · rcases eq_or_lt_of_le hxy with rfl | hlt
      · exact absurd ⟨hc', n2, p2, l2, u2⟩ m1
      · have := gy' p2 a hlt
        rw [abs_of_neg a, abs_of_pos b] at l2 u2
        have : y * δ < 0 := mul_neg_of_neg_of_pos a hδ0
        nlinarith
  · rcases sgn n2 with ⟨a, b⟩ | ⟨a, b⟩
    · rw [abs_of_pos a, abs_of_neg b] at l2 u2
      nlinarith
    · rw [abs_of_neg a, abs_of_pos b] at l2 u2
      by_contra hlt
      push Not at hlt
      have hy : 0 < x := by nlinarith
      refine m2 ⟨hc', mul_neg_of_neg_of_pos a hy, p2, ?_, ?_⟩
      · rw [abs_of_neg a, abs_of_pos hy]; nlinarith
      · rw [abs_of_neg a, abs_of_pos hy]; nlinarith
  · linarith

/-- What the single-path adder returns for zeros and numbers: the rounding of the effective sum. -/
theorem single_effective {E F : ℕ} {norm : ℕ → Option (ℕ × ℕ)} (hn : AddSingle.Normalises F norm) (hE : 2 ≤ E) (hF : 1 ≤ F)
    (hfmt : F + 3 < 2 ^ E) (hfmt2 : F + 3 ≠ 2 ^ (E - 1)) {x y r : Fp E F} {vx vy : ℚ}
    (ho : AddSingle.Orders norm x y (some r)) (hx : x.datum.fin = some vx) (hy : y.datum.fin = some vy) :
    ∃ h, EffectiveSum (F + 3 < 2 ^ (E - 1)) F vx vy h ∧ Rounded0 E F h r.datum := by
  have hz : vx * vy = 0 → EffectiveSum (F + 3 < 2 ^ (E - 1)) F vx vy (vx + vy) := by
    intro h
    refine Or.inr (Or.inr ⟨fun c => ?_, fun c => ?_, rfl⟩)
    · have := c.2.1; linarith
    · have := c.2.1; rw [mul_comm] at this; linarith
  have spec : ∀ {d}, addSpecial x.datum y.datum = some d → r.datum = d := by
    intro d hd
    obtain ⟨r', h1, h2⟩ := AddSingle.orders_special hn hE hF hfmt hfmt2 ho hd
    rw [Option.some.inj h1]; exact h2
  unfold Rounded0
  cases dx : x.datum with
  | nan => rw [dx] at hx; cases hx
  | inf s => rw [dx] at hx; cases hx
  | zero s =>
    rw [dx] at hx; injection hx with hx; subst hx
    refine ⟨_, hz (zero_mul _), ?_⟩
    cases dy : y.datum with
    | nan => rw [dy] at hy; cases hy
    | inf s => rw [dy] at hy; cases hy
    | zero t =>
      rw [dy] at hy; injection hy with hy; subst hy
      rw [if_pos (by ring)]
      exact ⟨_, spec (d := .zero (s && t)) (by rw [dx, dy]; rfl)⟩
    | num v =>
      rw [dy] at hy; injection hy with hy; subst hy
      rw [zero_add, if_neg (num_ne_zero dy), spec (d := .num v) (by rw [dx, dy]; rfl), ← dy]
      exact rounded_self hF (by omega) y v dy
  | num u =>
    rw [dx] at hx; injection hx with hx; subst hx
    cases dy : y.datum with
    | nan => rw [dy] at hy; cases hy
    | inf s => rw [dy] at hy; cases hy
    | zero t =>
      rw [dy] at hy; injection hy with hy; subst hy
      refine ⟨_, hz (mul_zero _), ?_⟩
      rw [add_zero, if_neg (num_ne_zero dx), spec (d := .num u) (by rw [dx, dy]; rfl), ← dx]
      exact rounded_self hF (by omega) x u dx
    | num v =>
      rw [dy] at hy; injection hy with hy; subst hy
      obtain ⟨r', hr', a1, a2, a3, a4⟩ := AddSingle.orders_num hn hE hF hfmt hfmt2 ho dx dy
      rw [← Option.some.inj hr'] at a1 a2 a3 a4
      rw [AddSingle.clamped_iff (by omega) hF dx dy] at a2 a3
      rw [AddSingle.clamped_iff (by omega) hF dy dx] at a2 a4
      have nz : ∀ {w : ℚ}, w ≠ 0 → w * (1 - 2 ^ (-(F : ℤ) - 2)) ≠ 0 := by
        intro w hw
        refine mul_ne_zero hw (ne_of_gt ?_)
        have : (2 : ℚ) ^ (-(F : ℤ) - 2) < 1 := by
          rw [show (1 : ℚ) = 2 ^ (0 : ℤ) by norm_num]
          exact zpow_lt_zpow_right₀ (by norm_num) (by omega)
        linarith
      by_cases c1 : F + 3 < 2 ^ (E - 1) ∧ ClampCase F u v
      · refine ⟨_, Or.inl ⟨c1.1, c1.2, rfl⟩, ?_⟩
        rw [if_neg (nz (num_ne_zero dx)), a3 c1, dx]
        exact clamp_tie hF (by omega) dx c1.2
      by_cases c2 : F + 3 < 2 ^ (E - 1) ∧ ClampCase F v u
      · refine ⟨_, Or.inr (Or.inl ⟨c2.1, c2.2, rfl⟩), ?_⟩
        rw [if_neg (nz (num_ne_zero dy)), a4 c2, dy]
        exact clamp_tie hF (by omega) dy c2.2
      refine ⟨_, Or.inr (Or.inr ⟨c1, c2, rfl⟩), ?_⟩
      by_cases h0 : u + v = 0
      · rw [if_pos h0]; exact ⟨_, a1 h0⟩
      · rw [if_neg h0]; exact a2 h0 c1 c2

theorem single_mono {E F : ℕ} {op : Fp E F → Fp E F → Option (Fp E F)} {norm : ℕ → Option (ℕ × ℕ)} (hn : AddSingle.Normalises F norm)
    (ho : ∀ x y, AddSingle.Orders norm x y (op x y)) (hE : 2 ≤ E) (hF : 1 ≤ F)
    (hfmt : F + 3 < 2 ^ E) (hfmt2 : F + 3 ≠ 2 ^ (E - 1)) (x y z r s : Fp E F) (hxy : x.datum.Le y.datum)
    (hr : op x z = some r) (hs : op y z = some s) (hrn : r.datum ≠ .nan) (hsn : s.datum ≠ .nan) : r.datum.Le s.datum := by
  refine mono_of_special (op := op) ?_ x y z r s hxy hr hs hrn hsn ?_
  · intro a b t d h hd
    have := ho a b
    rw [h] at this
    obtain ⟨r', h1, h2⟩ := AddSingle.orders_special hn hE hF hfmt hfmt2 this hd
    rw [Option.some.inj h1]; exact h2
  · intro u v w hu hv hw huv
    have h1 := ho x z
    have h2 := ho y z
    rw [hr] at h1; rw [hs] at h2
    obtain ⟨p, e1, q1⟩ := single_effective hn hE hF hfmt hfmt2 h1 hu hw
    obtain ⟨q, e2, q2⟩ := single_effective hn hE hF hfmt hfmt2 h2 hv hw
    refine rounded0_mono (effectiveSum_mono hF huv ?_ ?_ e1 e2) q1 q2
    · intro k hk hlt
      cases dy : y.datum with
      | nan => rw [dy] at hv; cases hv
      | inf s => rw [dy] at hv; cases hv
      | zero s =>
        rw [dy] at hv; injection hv with hv; subst hv
        have : (0 : ℚ) < 2 ^ k := by positivity
        linarith
      | num b =>
        rw [dy] at hv; injection hv with hv; subst hv
        exact gap_above hF dy hk hlt
    · intro k hk hlt
      cases dx : x.datum with
      | nan => rw [dx] at hu; cases hu
      | inf s => rw [dx] at hu; cases hu
      | zero s =>
        rw [dx] at hu; injection hu with hu; subst hu
        have : (0 : ℚ) < 2 ^ k := by positivity
        linarith
      | num b =>
        rw [dx] at hu; injection hu with hu; subst hu
        exact gap_below (by omega) hF dx hk hlt

/-- **C44, single-path sums.** The single-path adder (`add_single`, v2 and v5) is monotone in every format in which it does not assert
(C19), for operands of any two formats and all encodings, although it is not correctly rounded in the clamp case (C15). -/
theorem C44_add_single_monotone {wE wF wEZ wFZ : ℕ} (hEX : 1 ≤ wE) (hFX : 1 ≤ wF)
    (hfmt : max wF wFZ + 3 < 2 ^ max wE wEZ) (hfmt2 : max wF wFZ + 3 ≠ 2 ^ (max wE wEZ - 1))
    (x y : Fp wE wF) (z : Fp wEZ wFZ) (hxy : x.datum.Le y.datum) (r s : Fp (max wE wEZ) (max wF wFZ))
    (hr : AddSingle.add x z = some r) (hs : AddSingle.add y z = some s)
    (hrn : r.datum ≠ .nan) (hsn : s.datum ≠ .nan) : r.datum.Le s.datum := by
  have hE : 2 ≤ max wE wEZ := by
    by_contra hc
    have : max wE wEZ = 1 := by omega
    rw [this] at hfmt; omega
  refine single_mono (op := AddSingle.addSame) (AddSingle.lzoc_normalises _)
    (fun a b => AddSingle.addSame_orders (by omega) (by omega) a b) hE (by omega) hfmt hfmt2 (promote _ _ x) (promote _ _ y)
    (promote _ _ z) r s ?_ hr hs hrn hsn
  rw [promote_datum hEX hFX (le_max_left wE wEZ) (le_max_left wF wFZ),
    promote_datum hEX hFX (le_max_left wE wEZ) (le_max_left wF wFZ)]
  exact hxy

/-- Single precision, across the clamp case: `1 - 2^-24`, `1 - 1.5 * 2^-25` (wrongly rounded) and `1 - 2^-25` are in order. -/
example : (AddSingle.addSame (Fp.mk4 8 23 1 1 103 0) (Fp.mk4 8 23 1 0 127 0)).map Fp.frac = some (2 ^ 23 - 1) ∧
    AddSingle.addSame (Fp.mk4 8 23 1 1 102 (2 ^ 22)) (Fp.mk4 8 23 1 0 127 0) = some (Fp.mk4 8 23 1 0 127 0) ∧
    AddSingle.addSame (Fp.mk4 8 23 1 1 102 0) (Fp.mk4 8 23 1 0 127 0) = some (Fp.mk4 8 23 1 0 127 0) := by
  decide +kernel

end Thls
