import Verif.Model.Policy
import Verif.Proofs.SoftAgree
import Verif.Proofs.RefOps
import Verif.Proofs.SoftRound

/-! # MPFR with a bounded exponent range and `mpfr_subnormalize` round like IEEE 754 -/

namespace Thls
open Spec

/-- A nearest number does not cross a representable one. -/
theorem nearest_cross {p m : ℕ} {e : ℤ} {x : ℚ} (hp : 1 ≤ p) (h : NearestEven p x m e) {j : ℕ} (c : ℤ) (hj : 0 < j) (hj2 : j < 2 ^ p) :
    (x ≤ j * 2 ^ c → (m : ℚ) * 2 ^ e ≤ j * 2 ^ c) ∧ ((j : ℚ) * 2 ^ c ≤ x → (j : ℚ) * 2 ^ c ≤ m * 2 ^ e) := by
  obtain ⟨F, rfl⟩ : ∃ F, p = F + 1 := ⟨p - 1, by omega⟩
  obtain ⟨m', e', hs, hv⟩ : ∃ (m' : ℕ) (e' : ℤ), IsSig (F + 1) m' ∧ (m' : ℚ) * 2 ^ e' = j * 2 ^ c := by
    have hl : j.log2 ≤ F := by
      have := Nat.log2_self_le hj.ne'
      by_contra hc
      have : 2 ^ (F + 1) ≤ 2 ^ j.log2 := Nat.pow_le_pow_right (by norm_num) (by omega)
      omega
    refine ⟨j * 2 ^ (F - j.log2), c - (F - j.log2 : ℕ), ⟨?_, ?_⟩, ?_⟩
    · calc 2 ^ (F + 1 - 1) = 2 ^ j.log2 * 2 ^ (F - j.log2) := by rw [← pow_add]; congr 1; omega
        _ ≤ j * 2 ^ (F - j.log2) := Nat.mul_le_mul_right _ (Nat.log2_self_le hj.ne')
    · calc j * 2 ^ (F - j.log2) < 2 ^ (j.log2 + 1) * 2 ^ (F - j.log2) := Nat.mul_lt_mul_of_pos_right Nat.lt_log2_self (by positivity)
        _ = 2 ^ (F + 1) := by rw [← pow_add]; congr 1; omega
    · push_cast
      rw [mul_assoc, ← zpow_natCast, ← zpow_add₀ (by norm_num)]
      congr 2; ring
  have hb := h.2.1 m' e' hs
  rw [hv] at hb
  constructor
  · intro hx
    by_contra hc
    push Not at hc
    rw [abs_of_nonpos (by linarith), abs_of_nonpos (by linarith)] at hb
    linarith
  · intro hx
    by_contra hc
    push Not at hc
    rw [abs_of_nonneg (by linarith), abs_of_nonneg (by linarith)] at hb
    linarith

/-- A multiple of the least unit within half a unit, ties even, is a choice. -/
theorem choice_of_near {q : ℕ} {qe : ℤ} {x : ℚ} (hx : 0 < x) (h : |x - q * 2 ^ qe| ≤ 2 ^ qe / 2)
    (ht : |x - q * 2 ^ qe| = 2 ^ qe / 2 → q % 2 = 0) : ∃ n, Choice n q qe x ∧ (n = q ∨ n + 1 = q) := by
  have hu := two_zpow_pos qe
  rcases le_or_gt ((q : ℚ) * 2 ^ qe) x with hle | hlt
  · rw [abs_of_nonneg (by linarith)] at h ht
    exact ⟨q, ⟨hle, by linarith, Or.inl ⟨rfl, h, ht⟩⟩, Or.inl rfl⟩
  · rw [abs_of_neg (by linarith)] at h ht
    obtain ⟨n, rfl⟩ : ∃ n, q = n + 1 := by
      refine ⟨q - 1, ?_⟩
      have : q ≠ 0 := by
        rintro rfl
        simp only [Nat.cast_zero, zero_mul] at hlt
        linarith
      omega
    push_cast at h ht hlt
    refine ⟨n, ⟨by linarith, hlt, Or.inr ⟨rfl, by linarith, ?_⟩⟩, Or.inr rfl⟩
    intro h2
    have := ht (by linarith)
    omega

namespace Mpfr

/-- The magnitude chosen by `subnormalize`. -/
def subSig (d m : ℕ) (s : Bool) (t : ℤ) : ℕ :=
  if 2 ^ d < 2 * (m % 2 ^ d) ∨ (2 ^ d = 2 * (m % 2 ^ d) ∧ (if t = 0 then m / 2 ^ d % 2 = 1 else if s then 0 < t else t < 0))
    then m / 2 ^ d + 1 else m / 2 ^ d

/-- Rounding twice with the ternary value in between is rounding once. -/
theorem subSig_near {F m d : ℕ} {e L t : ℤ} {s : Bool} {x : ℚ} (hx : 0 < x) (h : NearestEven (F + 1) x m e)
    (hd : 1 ≤ d) (hdF : d ≤ F) (he : e + d = L)
    (ht0 : t = 0 ↔ (m : ℚ) * 2 ^ e = x) (hts : (if s then 0 < t else t < 0) ↔ (m : ℚ) * 2 ^ e < x) :
    |x - (subSig d m s t : ℕ) * 2 ^ L| ≤ 2 ^ L / 2 ∧
      (|x - (subSig d m s t : ℕ) * 2 ^ L| = 2 ^ L / 2 → subSig d m s t % 2 = 0) ∧ subSig d m s t ≤ 2 ^ F ∧ 1 ≤ subSig d m s t := by
  have hu := two_zpow_pos L
  obtain ⟨hs1, hs2⟩ := h.1
  rw [Nat.add_sub_cancel] at hs1
  obtain ⟨D, hD⟩ : ∃ D, D = 2 ^ (d - 1) := ⟨_, rfl⟩
  have hDd : 2 ^ d = 2 * D := by rw [hD, ← pow_succ']; congr 1; omega
  have hDpos : 0 < D := by rw [hD]; positivity
  obtain ⟨k, hk⟩ : ∃ k, k = m / 2 ^ d := ⟨_, rfl⟩
  obtain ⟨r, hr⟩ : ∃ r, r = m % 2 ^ d := ⟨_, rfl⟩
  have hm : m = k * 2 ^ d + r := by rw [hk, hr]; exact (Nat.div_add_mod' m (2 ^ d)).symm
  have hrlt : r < 2 ^ d := by rw [hr]; exact Nat.mod_lt _ (by positivity)
  have hkF : k + 1 ≤ 2 ^ F := by
    have : k < 2 ^ F := by
      rw [hk, Nat.div_lt_iff_lt_mul (by positivity)]
      calc m < 2 ^ (F + 1) := hs2
        _ ≤ 2 ^ F * 2 ^ d := by rw [← pow_add]; exact Nat.pow_le_pow_right (by norm_num) (by omega)
    omega
  have hk1 : 1 ≤ k := by
    rw [hk, Nat.le_div_iff_mul_le (by positivity), one_mul]
    exact le_trans (Nat.pow_le_pow_right (by norm_num) hdF) hs1
  have h2F : 2 ^ (F + 1) = 2 * 2 ^ F := by rw [pow_succ]; ring
  have eL : (2 : ℚ) ^ L = 2 ^ e * 2 ^ d := by rw [← he, zpow_add₀ (by norm_num), zpow_natCast]
  have eL1 : (2 : ℚ) ^ (L - 1) = 2 ^ L / 2 := two_zpow_pred L
  have y : (m : ℚ) * 2 ^ e = (k : ℚ) * 2 ^ L + r * 2 ^ e := by rw [eL, hm]; push_cast; ring
  have hue := two_zpow_pos e
  have hDq : (2 : ℚ) ^ L / 2 = D * 2 ^ e := by
    rw [eL]; have : (2 : ℚ) ^ d = 2 * D := by exact_mod_cast hDd
    rw [this]; ring
  have hrq : (r : ℚ) * 2 ^ e < 2 ^ L := by
    rw [eL, mul_comm]; exact mul_lt_mul_of_pos_left (by exact_mod_cast hrlt) hue
  have hr0 : (0 : ℚ) ≤ r * 2 ^ e := by positivity
  -- the representable points
  obtain ⟨u1, u2⟩ := nearest_cross (by omega) h L (j := k + 1) (by omega) (by omega)
  obtain ⟨v1, v2⟩ := nearest_cross (by omega) h (L - 1) (j := 2 * k + 1) (by omega) (by omega)
  obtain ⟨w1, w2⟩ := nearest_cross (by omega) h (L - 1) (j := 2 * k - 1) (by omega) (by omega)
  have c1 : ((2 * k + 1 : ℕ) : ℚ) * 2 ^ (L - 1) = k * 2 ^ L + 2 ^ L / 2 := by rw [eL1]; push_cast; ring
  have c2 : ((2 * k - 1 : ℕ) : ℚ) * 2 ^ (L - 1) = k * 2 ^ L - 2 ^ L / 2 := by
    rw [eL1, Nat.cast_sub (by omega)]; push_cast; ring
  have c3 : ((k + 1 : ℕ) : ℚ) * 2 ^ L = k * 2 ^ L + 2 ^ L := by push_cast; ring
  rw [c1] at v1 v2
  rw [c2] at w1 w2
  rw [c3] at u1 u2
  rw [y] at u1 u2 v1 v2 w1 w2 ht0 hts
  have xlo : (k : ℚ) * 2 ^ L - 2 ^ L / 2 < x := by
    by_contra hc
    have := w1 (not_lt.1 hc)
    linarith
  have xhi : x < k * 2 ^ L + 2 ^ L := by
    by_contra hc
    have := u2 (not_lt.1 hc)
    linarith
  unfold subSig
  rw [← hk, ← hr]
  rcases lt_trichotomy r D with hlt | heq | hgt
  · -- below the midpoint
    have hq : (r : ℚ) * 2 ^ e < 2 ^ L / 2 := by
      rw [hDq]; exact mul_lt_mul_of_pos_right (by exact_mod_cast hlt) hue
    have xm : x < k * 2 ^ L + 2 ^ L / 2 := by
      by_contra hc
      have := v2 (not_lt.1 hc)
      linarith
    rw [if_neg (by omega)]
    have hab : |x - k * 2 ^ L| < 2 ^ L / 2 := by rw [abs_lt]; constructor <;> linarith
    exact ⟨hab.le, fun h => absurd h hab.ne, by omega, hk1⟩
  · have hq : (r : ℚ) * 2 ^ e = 2 ^ L / 2 := by rw [hDq, heq]
    rw [hq] at ht0 hts
    by_cases t0 : t = 0
    · have hx2 := ht0.1 t0
      by_cases hodd : k % 2 = 1
      · rw [if_pos (Or.inr ⟨by omega, by rw [if_pos t0]; exact hodd⟩)]
        have hab : |x - ((k + 1 : ℕ) : ℚ) * 2 ^ L| = 2 ^ L / 2 := by
          rw [c3, ← hx2, abs_of_neg (by linarith)]; ring
        exact ⟨hab.le, fun _ => by omega, hkF, by omega⟩
      · rw [if_neg (by rw [if_pos t0]; omega)]
        have hab : |x - (k : ℚ) * 2 ^ L| = 2 ^ L / 2 := by
          rw [← hx2, abs_of_pos (by linarith)]; ring
        exact ⟨hab.le, fun _ => by omega, by omega, hk1⟩
    · have hne : ¬ (k : ℚ) * 2 ^ L + 2 ^ L / 2 = x := fun h => t0 (ht0.2 h)
      by_cases hup : (if s then 0 < t else t < 0)
      · have hx2 := hts.1 hup
        rw [if_pos (Or.inr ⟨by omega, by rw [if_neg t0]; exact hup⟩)]
        have hab : |x - ((k + 1 : ℕ) : ℚ) * 2 ^ L| < 2 ^ L / 2 := by
          rw [c3, abs_lt]; constructor <;> linarith
        exact ⟨hab.le, fun h => absurd h hab.ne, hkF, by omega⟩
      · have hx2 : x < k * 2 ^ L + 2 ^ L / 2 := by
          rcases lt_trichotomy x (k * 2 ^ L + 2 ^ L / 2) with h | h | h
          · exact h
          · exact absurd h.symm hne
          · exact absurd (hts.2 h) hup
        rw [if_neg (by rw [if_neg t0]; rintro (h | ⟨-, h⟩); omega; exact hup h)]
        have hab : |x - (k : ℚ) * 2 ^ L| < 2 ^ L / 2 := by rw [abs_lt]; constructor <;> linarith
        exact ⟨hab.le, fun h => absurd h hab.ne, by omega, hk1⟩
  · have hq : (2 : ℚ) ^ L / 2 < r * 2 ^ e := by
      rw [hDq]; exact mul_lt_mul_of_pos_right (by exact_mod_cast hgt) hue
    have xm : (k : ℚ) * 2 ^ L + 2 ^ L / 2 < x := by
      by_contra hc
      have := v1 (not_lt.1 hc)
      linarith
    rw [if_pos (Or.inl (by omega))]
    have hab : |x - ((k + 1 : ℕ) : ℚ) * 2 ^ L| < 2 ^ L / 2 := by
      rw [c3, abs_lt]; constructor <;> linarith
    exact ⟨hab.le, fun h => absurd h hab.ne, hkF, by omega⟩

theorem ternary_sign {v : ℚ} {m : ℕ} {e : ℤ} (hv : v ≠ 0) :
    (ternary v (.num (decide (v < 0)) m e) = 0 ↔ (m : ℚ) * 2 ^ e = |v|) ∧
    ((if decide (v < 0) = true then 0 < ternary v (.num (decide (v < 0)) m e) else ternary v (.num (decide (v < 0)) m e) < 0)
      ↔ (m : ℚ) * 2 ^ e < |v|) := by
  simp only [ternary, value]
  rcases lt_or_gt_of_ne hv with h | h
  · simp only [h, decide_true, if_true, abs_of_neg h]
    constructor
    · split_ifs with h1 h2 <;> simp <;> first | linarith | (intro h3; linarith) | skip
    · split_ifs with h1 h2 <;> simp <;> linarith
  · simp only [h.not_gt, decide_false, Bool.false_eq_true, if_false, abs_of_pos h]
    constructor
    · split_ifs with h1 h2 <;> simp <;> first | linarith | (intro h3; linarith) | skip
    · split_ifs with h1 h2 <;> simp <;> linarith

/-- **Key lemma.** Rounding within the exponent range of the format and then `mpfr_subnormalize` is one IEEE 754 rounding. -/
theorem rndnRange_gradual {E F : ℕ} (hE : 2 ≤ E) (hF : 1 ≤ F) {v : ℚ} (hv : v ≠ 0) {emin emax : ℤ} (h1 : emin = leastExp E F + 1)
    (h2 : emax = bias E + 1) :
    RoundedGradual E F v (subnormalize emin (roundT (rndnRange emin emax (F + 1)) v).2 (roundT (rndnRange emin emax (F + 1)) v).1).datum := by
  have hx : 0 < |v| := abs_pos.2 hv
  have hn := rndnPos_spec (p := F + 1) (by omega) hx
  have hb : 1 ≤ bias E := by
    unfold bias
    have : (2 : ℤ) ^ 1 ≤ 2 ^ (E - 1) := pow_le_pow_right₀ (by norm_num) (by omega)
    linarith
  have hL : leastExp E F = 1 - bias E - F := rfl
  obtain ⟨m, hm⟩ : ∃ m, m = (rndnPos (F + 1) |v|).1 := ⟨_, rfl⟩
  obtain ⟨e, he⟩ : ∃ e, e = (rndnPos (F + 1) |v|).2 := ⟨_, rfl⟩
  rw [← hm, ← he] at hn
  obtain ⟨hs1, hs2⟩ := hn.1
  rw [Nat.add_sub_cancel] at hs1
  have hs1q : (2 : ℚ) ^ F ≤ m := by exact_mod_cast hs1
  have hs2q : (m : ℚ) < 2 ^ (F + 1) := by exact_mod_cast hs2
  have m0 : m ≠ 0 := by have := Nat.two_pow_pos F; omega
  have hue := two_zpow_pos e
  have hr : rndnRange emin emax (F + 1) v =
      if emax < e + (F + 1 : ℕ) then .inf (decide (v < 0))
      else if e + (F + 1 : ℕ) < emin then
        if |v| ≤ 2 ^ (emin - 2) then .zero (decide (v < 0)) else .num (decide (v < 0)) (2 ^ F) (emin - (F + 1 : ℕ))
      else .num (decide (v < 0)) m e := by
    rw [rndnRange, if_neg hv, hm, he]; rfl
  simp only [roundT]
  have hsgn : (if v < 0 then (-1 : ℚ) else 1) = (if decide (v < 0) = true then (-1 : ℚ) else 1) := by
    by_cases h : v < 0 <;> simp [h]
  by_cases hov : emax < e + (F + 1 : ℕ)
  · rw [if_pos hov] at hr
    rw [hr]
    push_cast at hov
    refine ⟨m, e, nearest_gradual hx hn (by omega), ?_⟩
    rw [if_neg m0, if_pos]
    · rfl
    · unfold ieeeLimit
      calc (2 : ℚ) ^ (bias E + 1) ≤ 2 ^ ((F : ℤ) + e) := zpow_le_zpow_right₀ (by norm_num) (by omega)
        _ = 2 ^ F * 2 ^ e := by rw [zpow_add₀ (by norm_num), zpow_natCast]
        _ ≤ m * 2 ^ e := mul_le_mul_of_nonneg_right hs1q hue.le
  rw [if_neg hov] at hr
  push_cast at hov
  by_cases hun : e + (F + 1 : ℕ) < emin
  · rw [if_pos hun] at hr
    push_cast at hun
    have hvL : |v| < 2 ^ leastExp E F := by
      by_contra hc
      obtain ⟨-, g⟩ := nearest_cross (by omega) hn (leastExp E F) (j := 1) (by omega) (Nat.one_lt_two_pow (by omega))
      have := g (by rw [Nat.cast_one, one_mul]; exact not_lt.1 hc)
      rw [Nat.cast_one, one_mul] at this
      have h3 : (m : ℚ) * 2 ^ e < 2 ^ leastExp E F := by
        calc (m : ℚ) * 2 ^ e < 2 ^ (F + 1) * 2 ^ e := mul_lt_mul_of_pos_right hs2q hue
          _ = 2 ^ (((F + 1 : ℕ) : ℤ) + e) := by rw [zpow_add₀ (by norm_num), zpow_natCast]
          _ ≤ 2 ^ leastExp E F := zpow_le_zpow_right₀ (by norm_num) (by push_cast; omega)
      linarith
    have hu := two_zpow_pos (leastExp E F)
    have hhalf : (2 : ℚ) ^ (emin - 2) = 2 ^ leastExp E F / 2 := by
      rw [← two_zpow_pred]; congr 1; omega
    rw [hhalf] at hr
    by_cases hz : |v| ≤ 2 ^ leastExp E F / 2
    · rw [if_pos hz] at hr
      rw [hr]
      have hc : Choice 0 0 (leastExp E F) |v| := by
        refine ⟨by simp, by simpa using hvL, Or.inl ⟨rfl, by simpa using hz, fun _ => rfl⟩⟩
      have := nearestG hF (Or.inr rfl) (by positivity) le_rfl hc
      refine ⟨_, _, this, ?_⟩
      rw [if_pos ((canonG_zero _ _ _).2 rfl)]
      rfl
    · rw [if_neg hz] at hr
      rw [hr]
      have hc : Choice 0 1 (leastExp E F) |v| := by
        refine ⟨by simp, by simpa using hvL, Or.inr ⟨rfl, ?_, ?_⟩⟩
        · push_cast; linarith
        · push_cast; intro h; linarith
      have := nearestG hF (Or.inr rfl) (by positivity) le_rfl hc
      have hcan : canonG F 1 (leastExp E F) = (1, leastExp E F) := by
        unfold canonG
        rw [if_neg (Nat.one_lt_two_pow (by omega)).ne]
      rw [hcan] at this
      refine ⟨_, _, this, ?_⟩
      simp only
      rw [if_neg (by norm_num), if_neg]
      · generalize ternary v _ = t
        simp only [subnormalize]
        rw [if_neg (by push_cast; omega)]
        have hd : (emin - 1 - (emin - ((F + 1 : ℕ) : ℤ))).toNat = F := by push_cast; omega
        rw [hd, Nat.mod_self, Nat.div_self (by positivity)]
        have hp := Nat.two_pow_pos F
        rw [if_neg (by rintro (h | ⟨h, -⟩) <;> omega)]
        simp only [datum]
        rw [hsgn]
        congr 4; omega
      · rw [not_le]
        have := ieeeMin_lt_limit hE
        have h3 : (2 : ℚ) ^ leastExp E F ≤ ieeeMin E := by
          rw [← leastExp_min E F]
          have : (1 : ℚ) ≤ 2 ^ F := one_le_pow₀ (by norm_num)
          nlinarith
        push_cast; linarith
  rw [if_neg hun] at hr
  push_cast at hun
  rw [hr]
  obtain ⟨t0, ts⟩ := ternary_sign (m := m) (e := e) hv
  generalize ternary v _ = t at *
  by_cases hle : leastExp E F ≤ e
  · refine ⟨m, e, nearest_gradual hx hn hle, ?_⟩
    rw [if_neg m0, if_neg]
    · simp only [subnormalize]
      rw [if_pos (by omega), hsgn]
      rfl
    · rw [not_le]
      unfold ieeeLimit
      calc (m : ℚ) * 2 ^ e < 2 ^ (F + 1) * 2 ^ e := mul_lt_mul_of_pos_right hs2q hue
        _ = 2 ^ (((F + 1 : ℕ) : ℤ) + e) := by rw [zpow_add₀ (by norm_num), zpow_natCast]
        _ ≤ 2 ^ (bias E + 1) := zpow_le_zpow_right₀ (by norm_num) (by push_cast; omega)
  · obtain ⟨d, hd⟩ : ∃ d : ℕ, leastExp E F - e = d := ⟨(leastExp E F - e).toNat, by omega⟩
    obtain ⟨n1, n2, n3, n4⟩ := subSig_near (d := d) (L := leastExp E F) hx hn (by omega) (by omega) (by omega) t0 ts
    obtain ⟨n, hc, hnq⟩ := choice_of_near hx n1 n2
    generalize hq : subSig d m (decide (v < 0)) t = q at *
    have hqF : q < 2 ^ (F + 1) := by
      have : 2 ^ (F + 1) = 2 * 2 ^ F := by rw [pow_succ]; ring
      have := Nat.two_pow_pos F; omega
    have := nearestG hF (Or.inr rfl) (by omega) le_rfl hc
    have hcan : canonG F q (leastExp E F) = (q, leastExp E F) := by
      unfold canonG
      rw [if_neg hqF.ne]
    rw [hcan] at this
    refine ⟨_, _, this, ?_⟩
    simp only
    rw [if_neg (by omega), if_neg]
    · simp only [subnormalize]
      rw [if_neg (by omega)]
      have hd' : (emin - 1 - e).toNat = d := by omega
      rw [hd']
      change (Mpfr.num (decide (v < 0)) (subSig d m (decide (v < 0)) t) (emin - 1)).datum = _
      rw [hq]
      simp only [datum]
      rw [hsgn]
      congr 4; omega
    · rw [not_le]
      refine lt_of_le_of_lt ?_ (ieeeMin_lt_limit hE)
      rw [← leastExp_min E F]
      exact mul_le_mul_of_nonneg_right (by exact_mod_cast n3) (two_zpow_pos _).le

end Mpfr

end Thls
