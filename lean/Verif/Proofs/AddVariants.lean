import Verif.Proofs.AddSingle
import Mathlib.Tactic.IntervalCases

/-! # The other single-path adders (helpers) -/

namespace Thls
namespace AddSingle

theorem lex_lt {M a b c d : ℕ} (hb : b < M) (hd : d < M) : a * M + b < c * M + d ↔ a < c ∨ (a = c ∧ b < d) := by
  constructor
  · intro h
    rcases Nat.lt_trichotomy a c with h1 | h1 | h1
    · exact Or.inl h1
    · subst h1; right; exact ⟨rfl, by omega⟩
    · exfalso
      have : (c + 1) * M ≤ a * M := Nat.mul_le_mul_right _ h1
      nlinarith
  · rintro (h | ⟨rfl, h⟩)
    · have : (a + 1) * M ≤ c * M := Nat.mul_le_mul_right _ h
      nlinarith
    · omega

theorem ordered_lex {E F : ℕ} {X Y : Fp E F} (hF : 1 ≤ F)
    (h : Y.flags < X.flags ∨ (Y.flags = X.flags ∧ (Y.exp < X.exp ∨ (Y.exp = X.exp ∧ Y.frac ≤ X.frac)))) : Ordered X Y := by
  have hX := X.frac_lt hF
  have hY := Y.frac_lt hF
  rcases h with h | ⟨h, h' | ⟨h', h''⟩⟩
  · exact ⟨h.le, fun he => by omega⟩
  · exact ⟨h.le, fun _ => ((lex_lt hY hX).mpr (Or.inl h')).le⟩
  · exact ⟨h.le, fun _ => by rw [h']; omega⟩

/-- Comparing flags, exponents and leading fraction bits orders the operands. -/
theorem ordered_of_key {E F m d : ℕ} {X Y : Fp E F} (hE : 1 ≤ E) (hF : 1 ≤ F) {tx ty : ℕ}
    (htx : tx < 2 ^ m) (hty : ty < 2 ^ m) (hX : X.frac = tx * 2 ^ d) (hY : Y.frac / 2 ^ d = ty) :
    (concat m (concat E Y.flags Y.exp) ty < concat m (concat E X.flags X.exp) tx → Ordered X Y) ∧
    (¬ concat m (concat E Y.flags Y.exp) ty < concat m (concat E X.flags X.exp) tx → Ordered Y X) := by
  have hx := X.exp_lt hE
  have hy := Y.exp_lt hE
  have hp : 0 < 2 ^ d := by positivity
  have hfr : ty < tx ↔ Y.frac < X.frac := by
    rw [← hY, Nat.div_lt_iff_lt_mul hp, hX]
  unfold concat
  rw [lex_lt hty htx, lex_lt hy hx, hfr]
  have heq : Y.flags * 2 ^ E + Y.exp = X.flags * 2 ^ E + X.exp ↔ Y.flags = X.flags ∧ Y.exp = X.exp := by
    constructor
    · intro h
      have h1 : ¬ (Y.flags * 2 ^ E + Y.exp < X.flags * 2 ^ E + X.exp) := by omega
      have h2 : ¬ (X.flags * 2 ^ E + X.exp < Y.flags * 2 ^ E + Y.exp) := by omega
      rw [lex_lt hy hx] at h1
      rw [lex_lt hx hy] at h2
      omega
    · rintro ⟨h1, h2⟩; rw [h1, h2]
  rw [heq]
  constructor
  · intro h; exact ordered_lex hF (by omega)
  · intro h; exact ordered_lex hF (by omega)

theorem getBits_frac {E F m : ℕ} (hm : 1 ≤ m) (hmF : m ≤ F) (x : Fp E F) :
    getBits (F - 1) (F - m) x.bits = x.frac / 2 ^ (F - m) := by
  unfold Fp.frac getBits
  rw [Nat.sub_zero, pow_zero, Nat.div_one, show F - 1 + 1 = F by omega, show F - (F - m) = m by omega]
  conv_rhs => rw [show 2 ^ F = 2 ^ (F - m) * 2 ^ m by rw [← pow_add]; congr 1; omega]
  rw [Nat.mod_mul_right_div_self]

theorem addV5_orders {wEX wFX wEY wFY : ℕ} (hEX : 1 ≤ wEX) (hFX : 1 ≤ wFX) (hEY : 1 ≤ wEY) (hFY : 1 ≤ wFY)
    (x : Fp wEX wFX) (y : Fp wEY wFY) :
    Orders (lzoc? (max wFX wFY + 5) (intlog2 (max wFX wFY + 5))) (promote (max wEX wEY) (max wFX wFY) x)
      (promote (max wEX wEY) (max wFX wFY) y) (addV5 x y) := by
  obtain ⟨x1, -, x3, x4⟩ := promote_fields hEX hFX (le_max_left wEX wEY) (le_max_left wFX wFY) x
  obtain ⟨y1, -, y3, y4⟩ := promote_fields hEY hFY (le_max_right wEX wEY) (le_max_right wFX wFY) y
  have hpx := (promoteExp_eq hEX (le_max_left wEX wEY) (x.exp_lt hEX)).1
  have hpy := (promoteExp_eq hEY (le_max_right wEX wEY) (y.exp_lt hEY)).1
  have hfx := x.frac_lt hFX
  have hfy := y.frac_lt hFY
  unfold addV5 swapV5
  dsimp only
  rw [hpx, hpy, ← x3, ← y3, ← x1, ← y1, getBits_frac (by omega) (by omega), getBits_frac (by omega) (by omega)]
  generalize promote (max wEX wEY) (max wFX wFY) x = X at *
  generalize promote (max wEX wEY) (max wFX wFY) y = Y at *
  by_cases hlt : wFX < wFY
  · simp only [if_pos hlt]
    have hmin : min wFX wFY = wFX := by omega
    have hmax : max wFX wFY - wFX = wFY - wFX := by omega
    rw [hmin]
    rw [show max wFX wFY - wFY = 0 by omega, pow_zero, Nat.mul_one] at y4
    rw [hmax] at x4
    obtain ⟨k1, k2⟩ := ordered_of_key (m := wFX) (d := wFY - wFX) (X := X) (Y := Y) (by omega) (by omega) (tx := x.frac)
      (ty := y.frac / 2 ^ (wFY - wFX)) hfx
      (by rw [Nat.div_lt_iff_lt_mul (by positivity), ← pow_add, show wFX + (wFY - wFX) = wFY by omega]; exact hfy) x4
      (by rw [y4])
    rw [Nat.sub_self, pow_zero, Nat.div_one]
    by_cases h : concat wFX (concat (max wEX wEY) Y.flags Y.exp) (y.frac / 2 ^ (wFY - wFX))
      < concat wFX (concat (max wEX wEY) X.flags X.exp) x.frac
    · left; exact ⟨by simp [Nat.not_le.mpr h], k1 h⟩
    · right; exact ⟨by simp [Nat.not_lt.mp h], k2 h⟩
  · simp only [if_neg hlt]
    have hmin : min wFX wFY = wFY := by omega
    have hmax : max wFX wFY - wFY = wFX - wFY := by omega
    rw [hmin]
    rw [show max wFX wFY - wFX = 0 by omega, pow_zero, Nat.mul_one] at x4
    rw [hmax] at y4
    obtain ⟨k1, k2⟩ := ordered_of_key (m := wFY) (d := wFX - wFY) (X := Y) (Y := X) (by omega) (by omega) (tx := y.frac)
      (ty := x.frac / 2 ^ (wFX - wFY)) hfy
      (by rw [Nat.div_lt_iff_lt_mul (by positivity), ← pow_add, show wFY + (wFX - wFY) = wFX by omega]; exact hfx) y4
      (by rw [x4])
    rw [Nat.sub_self, pow_zero, Nat.div_one]
    by_cases h : concat wFY (concat (max wEX wEY) X.flags X.exp) (x.frac / 2 ^ (wFX - wFY))
      < concat wFY (concat (max wEX wEY) Y.flags Y.exp) y.frac
    · right; exact ⟨by simp [h], k1 h⟩
    · left; exact ⟨by simp [h], k2 h⟩

/-! ## v3: the byte-wise normaliser -/

theorem clz8_norm {u b : ℕ} (h0 : b ≠ 0) (h : b < 256) :
    clz8 u b < 8 ∧ 128 ≤ b * 2 ^ clz8 u b ∧ b * 2 ^ clz8 u b < 256 := by
  unfold clz8
  rw [if_neg h0]
  have h1 := Nat.log2_self_le h0
  have h2 := Nat.lt_log2_self (n := b)
  have h3 : Nat.log2 b < 8 := (Nat.log2_lt h0).mpr (by simpa using h)
  generalize Nat.log2 b = l at *
  interval_cases l <;> norm_num at * <;> omega

theorem byte_norm {u w j : ℕ} (hj : j ≤ 24) (hw : w < 2 ^ (j + 8)) (h0 : w / 2 ^ j ≠ 0) :
    2 ^ (j + 7) ≤ w * 2 ^ clz8 u (w / 2 ^ j) ∧ w * 2 ^ clz8 u (w / 2 ^ j) < 2 ^ (j + 8) ∧ clz8 u (w / 2 ^ j) < 8 := by
  have hb : w / 2 ^ j < 256 := by
    rw [Nat.div_lt_iff_lt_mul (by positivity)]
    rw [pow_add] at hw; norm_num at hw; linarith
  obtain ⟨h1, h2, h3⟩ := clz8_norm (u := u) h0 hb
  have hdm := Nat.div_add_mod w (2 ^ j)
  have hml := Nat.mod_lt w (show 0 < 2 ^ j by positivity)
  generalize w / 2 ^ j = b at *
  generalize clz8 u b = c at *
  have e7 : 2 ^ (j + 7) = 128 * 2 ^ j := by rw [pow_add]; ring
  have e8 : 2 ^ (j + 8) = 256 * 2 ^ j := by rw [pow_add]; ring
  have hp : 0 < 2 ^ j := by positivity
  refine ⟨?_, ?_, h1⟩
  · rw [e7]
    calc 128 * 2 ^ j ≤ b * 2 ^ c * 2 ^ j := Nat.mul_le_mul_right _ h2
      _ = 2 ^ j * b * 2 ^ c := by ring
      _ ≤ w * 2 ^ c := Nat.mul_le_mul_right _ (by omega)
  · rw [e8]
    have h4 : (b + 1) * 2 ^ c ≤ 256 := by
      interval_cases c <;> norm_num at * <;> omega
    calc w * 2 ^ c < (2 ^ j * (b + 1)) * 2 ^ c := by
          refine (Nat.mul_lt_mul_right (a := 2 ^ c) (by positivity)).mpr ?_
          rw [Nat.mul_add, Nat.mul_one]; omega
      _ = (b + 1) * 2 ^ c * 2 ^ j := by ring
      _ ≤ 256 * 2 ^ j := Nat.mul_le_mul_right _ h4

theorem lzocClz_norm (u v : ℕ) {w : ℕ} (hw : w < 2 ^ 32) (h0 : w ≠ 0) :
    ∃ c, lzocClz u v w = (w * 2 ^ c, c) ∧ 2 ^ 31 ≤ w * 2 ^ c ∧ w * 2 ^ c < 2 ^ 32 := by
  have g0 : getBits 31 24 w = w / 2 ^ 24 := getBits_top hw (by norm_num)
  have g1 : getBits 23 16 w = w / 2 ^ 16 % 256 := by unfold getBits; rfl
  have g2 : getBits 15 8 w = w / 2 ^ 8 % 256 := by unfold getBits; rfl
  have g3 : getBits 7 0 w = w % 256 := by unfold getBits; norm_num
  unfold lzocClz
  dsimp only
  rw [g0, g1, g2, g3]
  by_cases c0 : w / 2 ^ 24 = 0
  · have w1 : w < 2 ^ 24 := by omega
    have m1 : w / 2 ^ 16 % 256 = w / 2 ^ 16 := Nat.mod_eq_of_lt (by omega)
    rw [if_neg (by simpa using c0), m1]
    by_cases c1 : w / 2 ^ 16 = 0
    · have w2 : w < 2 ^ 16 := by omega
      have m2 : w / 2 ^ 8 % 256 = w / 2 ^ 8 := Nat.mod_eq_of_lt (by omega)
      rw [if_neg (by simpa using c1), m2]
      by_cases c2 : w / 2 ^ 8 = 0
      · have w3 : w < 2 ^ 8 := by omega
        have m3 : w % 256 = w / 2 ^ 0 := by omega
        rw [if_neg (by simpa using c2), m3, if_pos (by simpa using h0)]
        obtain ⟨k1, k2, k3⟩ := byte_norm (u := u) (j := 0) (w := w) (by norm_num) w3 (by simpa using h0)
        generalize clz8 u (w / 2 ^ 0) = c at *
        have hm1 : w * 2 ^ 24 % 2 ^ 32 = w * 2 ^ 24 := Nat.mod_eq_of_lt (by omega)
        have hm2 : w * 2 ^ 24 * 2 ^ c = w * 2 ^ (24 + c) := by rw [pow_add]; ring
        have hm3 : w * 2 ^ (24 + c) = w * 2 ^ c * 2 ^ 24 := by rw [pow_add]; ring
        refine ⟨24 + c, ?_, by omega, by omega⟩
        rw [hm1, hm2, Nat.mod_eq_of_lt (by omega)]; rfl
      · rw [if_pos c2]
        obtain ⟨k1, k2, k3⟩ := byte_norm (u := u) (j := 8) (w := w) (by norm_num) w2 c2
        generalize clz8 u (w / 2 ^ 8) = c at *
        have hm1 : w * 2 ^ 16 % 2 ^ 32 = w * 2 ^ 16 := Nat.mod_eq_of_lt (by omega)
        have hm2 : w * 2 ^ 16 * 2 ^ c = w * 2 ^ (16 + c) := by rw [pow_add]; ring
        have hm3 : w * 2 ^ (16 + c) = w * 2 ^ c * 2 ^ 16 := by rw [pow_add]; ring
        refine ⟨16 + c, ?_, by omega, by omega⟩
        rw [hm1, hm2, Nat.mod_eq_of_lt (by omega)]; rfl
    · rw [if_pos c1]
      obtain ⟨k1, k2, k3⟩ := byte_norm (u := u) (j := 16) (w := w) (by norm_num) w1 c1
      generalize clz8 u (w / 2 ^ 16) = c at *
      have hm1 : w * 2 ^ 8 % 2 ^ 32 = w * 2 ^ 8 := Nat.mod_eq_of_lt (by omega)
      have hm2 : w * 2 ^ 8 * 2 ^ c = w * 2 ^ (8 + c) := by rw [pow_add]; ring
      have hm3 : w * 2 ^ (8 + c) = w * 2 ^ c * 2 ^ 8 := by rw [pow_add]; ring
      refine ⟨8 + c, ?_, by omega, by omega⟩
      rw [hm1, hm2, Nat.mod_eq_of_lt (by omega)]; rfl
  · rw [if_pos c0]
    obtain ⟨k1, k2, k3⟩ := byte_norm (u := u) (j := 24) (w := w) (by norm_num) hw c0
    generalize clz8 u (w / 2 ^ 24) = c at *
    refine ⟨c, ?_, by omega, by omega⟩
    rw [Nat.mod_eq_of_lt (by omega)]
    unfold concat; simp

theorem clz_normalises (u v : ℕ) {F : ℕ} (h1 : 11 ≤ F) (h2 : F ≤ 26) :
    Normalises F (fun g => let r := lzocClz u v (concat (32 - F - 5) g 0);
      some (getBits 31 (32 - (F + 5)) r.1, r.2)) where
  zero := by
    have : intlog2 (F + 5) = 5 := by interval_cases F <;> decide
    refine ⟨getBits 31 (32 - (F + 5)) (v % 2 ^ 32), ?_⟩
    simp only [this, concat, Nat.zero_mul, Nat.add_zero]
    unfold lzocClz getBits
    simp
  pos g hg h0 := by
    have hl : intlog2 (F + 5) = 5 := by interval_cases F <;> decide
    have hsp : 2 ^ (F + 5) * 2 ^ (27 - F) = 2 ^ 32 := by rw [← pow_add]; congr 1; omega
    have hsp' : 2 ^ (F + 4) * 2 ^ (27 - F) = 2 ^ 31 := by rw [← pow_add]; congr 1; omega
    have hp : 0 < 2 ^ (27 - F) := by positivity
    have hw : g * 2 ^ (27 - F) < 2 ^ 32 := by
      rw [← hsp]; exact (Nat.mul_lt_mul_right (a := 2 ^ (27 - F)) hp).mpr hg
    obtain ⟨c, hc, k1, k2⟩ := lzocClz_norm u v hw (Nat.mul_ne_zero h0 hp.ne')
    have hcc : concat (32 - F - 5) g 0 = g * 2 ^ (27 - F) := by
      unfold concat; rw [show 32 - F - 5 = 27 - F by omega, Nat.add_zero]
    have hre : g * 2 ^ (27 - F) * 2 ^ c = g * 2 ^ c * 2 ^ (27 - F) := by ring
    rw [hre] at k1 k2 hc
    have b1 : 2 ^ (F + 4) ≤ g * 2 ^ c := by
      rw [← hsp'] at k1; exact Nat.le_of_mul_le_mul_right k1 hp
    have b2 : g * 2 ^ c < 2 ^ (F + 5) := by
      rw [← hsp] at k2; exact Nat.lt_of_mul_lt_mul_right k2
    have hcl : c < F + 5 := by
      by_contra hcon
      have : 2 ^ (F + 5) ≤ 2 ^ c := Nat.pow_le_pow_right (by norm_num) (by omega)
      have : 1 * 2 ^ c ≤ g * 2 ^ c := Nat.mul_le_mul_right _ (by omega)
      omega
    refine ⟨c, ?_, hcl, b1, b2, ?_⟩
    · dsimp only
      rw [hcc, hc]
      dsimp only
      rw [getBits_top (by simpa using k2) (by omega), show 32 - (F + 5) = 27 - F by omega, Nat.mul_div_cancel _ hp]
    · rw [hl]; unfold ones; omega

theorem addSameV3_orders (u v : ℕ) {E F : ℕ} (hE : 1 ≤ E) (hF : 1 ≤ F) (x y : Fp E F) :
    Orders (fun g => let r := lzocClz u v (concat (32 - F - 5) g 0); some (getBits 31 (32 - (F + 5)) r.1, r.2)) x y
      (addSameV3 u v x y) := by
  obtain ⟨h1, h2⟩ := flagsExpFrac_lt hE hF x y
  unfold addSameV3
  by_cases h : x.flagsExpFrac < y.flagsExpFrac
  · right; exact ⟨by simp [h], h1 h⟩
  · left; exact ⟨by simp [h], h2 h⟩

end AddSingle
end Thls
