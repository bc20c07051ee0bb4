import Verif.Model.Fma
import Verif.Proofs.Mono
import Verif.Proofs.Ieee
import Mathlib.Data.Int.Log

/-! Lemmas for C31. -/

namespace Thls
open Spec

theorem num_range {E F : ℕ} (hE : 1 ≤ E) (hF : 1 ≤ F) {x : Fp E F} {v : ℚ} (hx : x.datum = .num v) :
    (2 : ℚ) ^ (-bias E) ≤ |v| ∧ |v| < 2 ^ (bias E + 2) := by
  obtain ⟨-, hv⟩ := datum_num_iff.mp hx
  have hpos := sig_scaled_pos F x.frac ((x.exp : ℤ) - bias E - F)
  have h := sig_bounds (x.frac_lt hF) ((x.exp : ℤ) - bias E)
  rw [hv, abs_signed hpos]
  have he := x.exp_lt hE
  obtain ⟨b1, b2⟩ := two_bias hE
  have hc : ((2 ^ E : ℕ) : ℤ) = 2 * bias E + 2 := by push_cast; exact b1
  constructor
  · exact le_trans (zpow_le_zpow_right₀ (by norm_num) (by omega)) h.1
  · exact lt_of_lt_of_le h.2 (zpow_le_zpow_right₀ (by norm_num) (by omega))

theorem bias_mono {a b : ℕ} (h : a ≤ b) : bias a ≤ bias b := by
  rw [← pow_bias, ← pow_bias]
  unfold biasN
  have : 2 ^ (a - 1) ≤ 2 ^ (b - 1) := Nat.pow_le_pow_right (by norm_num) (by omega)
  omega

theorem bias_succ {a : ℕ} (h : 1 ≤ a) : bias (a + 1) = 2 * bias a + 1 := by
  have h1 := (two_bias h).1
  have h2 := (two_bias (show 1 ≤ a + 1 by omega)).1
  rw [pow_succ] at h2
  linarith

/-- A signed `p`-bit number. -/
def IsPBit (p : ℕ) (t : ℚ) : Prop := ∃ (m : ℕ) (e : ℤ), IsSig p m ∧ |t| = m * 2 ^ e

theorem nearest_self {p m : ℕ} {e : ℤ} {t : ℚ} (hp : 1 ≤ p) (hm : IsSig p m) (h : t = m * 2 ^ e) : NearestEven p t m e := by
  have := nearest_down (x := t) hp hm (by rw [h]) (by rw [h]; simp; positivity) (by intro hh; exfalso; rw [h] at hh; have := two_zpow_pos e; linarith)
  exact this

/-- Every positive rational lies in the unit interval above a `p`-bit number. -/
theorem sig_floor {p : ℕ} (hp : 1 ≤ p) {q : ℚ} (hq : 0 < q) :
    ∃ (m : ℕ) (e : ℤ), IsSig p m ∧ (m : ℚ) * 2 ^ e ≤ q ∧ q < ((m : ℚ) + 1) * 2 ^ e := by
  have h1 := Int.zpow_log_le_self (b := 2) (r := q) (by norm_num) hq
  have h2 := Int.lt_zpow_succ_log_self (b := 2) (by norm_num) q
  generalize Int.log 2 q = k at h1 h2
  push_cast at h1 h2
  have he := two_zpow_pos (k - (p - 1 : ℕ))
  have hk : (2 : ℚ) ^ k = 2 ^ (p - 1) * 2 ^ (k - (p - 1 : ℕ)) := by
    rw [← zpow_natCast, ← zpow_add₀ (by norm_num)]; congr 1; ring
  have hk1 : (2 : ℚ) ^ (k + 1) = 2 ^ p * 2 ^ (k - (p - 1 : ℕ)) := by
    rw [← zpow_natCast, ← zpow_add₀ (by norm_num)]; congr 1; omega
  set u : ℚ := 2 ^ (k - (p - 1 : ℕ)) with hu
  refine ⟨⌊q / u⌋₊, k - (p - 1 : ℕ), ⟨?_, ?_⟩, ?_, ?_⟩
  · rw [Nat.le_floor_iff (by positivity), le_div_iff₀ he]
    push_cast; linarith
  · rw [Nat.floor_lt (by positivity), div_lt_iff₀ he]
    push_cast; linarith
  · rw [← le_div_iff₀ he]; exact Nat.floor_le (by positivity)
  · rw [← div_lt_iff₀ he]; exact Nat.lt_floor_add_one _

/-- The successor of a `p`-bit number. -/
theorem sig_succ {p m : ℕ} (hp : 1 ≤ p) (hm : IsSig p m) (e : ℤ) :
    ∃ (n : ℕ) (e' : ℤ), IsSig p n ∧ (n : ℚ) * 2 ^ e' = ((m : ℚ) + 1) * 2 ^ e ∧ (m + 1 < 2 ^ p → n = m + 1) ∧
      (2 ^ p ≤ m + 1 → n = 2 ^ (p - 1)) := by
  by_cases hc : m + 1 < 2 ^ p
  · exact ⟨m + 1, e, ⟨by have := hm.1; omega, hc⟩, by push_cast; ring, fun _ => rfl, fun h => by omega⟩
  · have hmp : m + 1 = 2 ^ p := by have := hm.2; omega
    refine ⟨2 ^ (p - 1), e + 1, ⟨le_refl _, ?_⟩, ?_, fun h => by omega, fun _ => rfl⟩
    · exact Nat.pow_lt_pow_right (by norm_num) (by omega)
    · have : ((m : ℚ) + 1) = 2 ^ p := by exact_mod_cast hmp
      rw [this, two_zpow_succ]
      push_cast
      obtain ⟨q, rfl⟩ := Nat.exists_eq_add_of_le' hp
      simp [pow_succ]; ring

/-- Rounding to nearest even is defined for every positive rational. -/
theorem nearest_exists {p : ℕ} (hp : 2 ≤ p) {q : ℚ} (hq : 0 < q) : ∃ (m : ℕ) (e : ℤ), NearestEven p q m e := by
  obtain ⟨m, e, hm, h1, h2⟩ := sig_floor (show 1 ≤ p by omega) hq
  obtain ⟨n, e', hn, hv, hn1, hn2⟩ := sig_succ (show 1 ≤ p by omega) hm e
  have hu := two_zpow_pos e
  rcases lt_trichotomy (q - m * 2 ^ e) (2 ^ e / 2) with h | h | h
  · exact ⟨m, e, nearest_down (by omega) hm h1 h.le (fun h' => absurd h' h.ne)⟩
  · by_cases hev : Even m
    · exact ⟨m, e, nearest_down (by omega) hm h1 h.le (fun _ => hev)⟩
    · refine ⟨n, e', nearest_up (by omega) hm hn hv h2.le (by linarith) (fun _ => ?_)⟩
      by_cases hc : m + 1 < 2 ^ p
      · rw [hn1 hc, Nat.even_add_one]; exact hev
      · rw [hn2 (by omega), Nat.even_pow]; exact ⟨by decide, by omega⟩
  · exact ⟨n, e', nearest_up (by omega) hm hn hv h2.le (by linarith) (fun h' => by exfalso; linarith)⟩

/-- Every non-zero rational has a rounded datum in every format. -/
theorem rounded_exists {E F : ℕ} (hF : 1 ≤ F) {q : ℚ} (hq : q ≠ 0) : ∃ d, Rounded E F q d := by
  obtain ⟨m, e, h⟩ := nearest_exists (p := F + 1) (by omega) (abs_pos.mpr hq)
  exact ⟨_, m, e, h, rfl⟩

/-- Every non-zero rational lies between two neighbouring `p`-bit numbers of its sign. -/
theorem pbit_bracket {p : ℕ} (hp : 1 ≤ p) {q : ℚ} (hq : q ≠ 0) :
    ∃ a b : ℚ, a ≤ q ∧ q ≤ b ∧ IsPBit p a ∧ IsPBit p b ∧ (∀ t, IsPBit p t → t ≤ a ∨ b ≤ t) ∧ (0 < a ∧ 0 < b ∨ a < 0 ∧ b < 0) := by
  have pos : ∀ {r : ℚ}, 0 < r → ∃ a b : ℚ, a ≤ r ∧ r ≤ b ∧ IsPBit p a ∧ IsPBit p b ∧ (∀ t, IsPBit p t → t ≤ a ∨ b ≤ t) ∧ 0 < a ∧ 0 < b := by
    intro r hr
    obtain ⟨m, e, hm, h1, h2⟩ := sig_floor hp hr
    obtain ⟨n, e', hn, hv, -⟩ := sig_succ hp hm e
    have p1 : (0 : ℚ) < m * 2 ^ e := mul_pos (by exact_mod_cast sig_pos hm) (two_zpow_pos _)
    have p2 : (0 : ℚ) < n * 2 ^ e' := mul_pos (by exact_mod_cast sig_pos hn) (two_zpow_pos _)
    refine ⟨m * 2 ^ e, n * 2 ^ e', h1, by rw [hv]; exact h2.le, ⟨m, e, hm, abs_of_pos p1⟩, ⟨n, e', hn, abs_of_pos p2⟩, ?_, p1, p2⟩
    rintro t ⟨k, g, hk, ht⟩
    rcases le_or_gt t 0 with h0 | h0
    · left; linarith
    · rw [abs_of_pos h0] at ht
      rw [ht, hv]
      exact sig_le_or_ge hp hm hk
  rcases lt_or_gt_of_ne hq with h | h
  · obtain ⟨a, b, h1, h2, h3, h4, h5, h6, h7⟩ := pos (neg_pos.mpr h)
    have ng : ∀ {t}, IsPBit p t → IsPBit p (-t) := by
      rintro t ⟨m, e, hm, ht⟩; exact ⟨m, e, hm, by rwa [abs_neg]⟩
    refine ⟨-b, -a, by linarith, by linarith, ng h4, ng h3, ?_, Or.inr ⟨by linarith, by linarith⟩⟩
    intro t ht
    rcases h5 _ (ng ht) with h | h
    · right; linarith
    · left; linarith
  · obtain ⟨a, b, h1, h2, h3, h4, h5, h6, h7⟩ := pos h
    exact ⟨a, b, h1, h2, h3, h4, h5, Or.inl ⟨h6, h7⟩⟩

/-- A narrower significand is a wider one. -/
theorem pbit_widen {p P : ℕ} (hp : 1 ≤ p) (h : p ≤ P) {t : ℚ} (ht : IsPBit p t) : IsPBit P t := by
  obtain ⟨m, e, hm, hv⟩ := ht
  obtain ⟨k, rfl⟩ := Nat.exists_eq_add_of_le h
  refine ⟨m * 2 ^ k, e - k, ⟨?_, ?_⟩, ?_⟩
  · rw [show p + k - 1 = p - 1 + k by omega, pow_add]
    exact Nat.mul_le_mul_right _ hm.1
  · rw [pow_add]
    exact Nat.mul_lt_mul_of_pos_right hm.2 (by positivity)
  · rw [hv, zpow_sub₀ (by norm_num), zpow_natCast]
    push_cast
    field_simp

theorem pbit_fp {E F : ℕ} {y : Fp E F} {v : ℚ} (hF : 1 ≤ F) (h : y.datum = .num v) : IsPBit (F + 1) v := by
  obtain ⟨-, hv⟩ := datum_num_iff.mp h
  have hpos := sig_scaled_pos F y.frac ((y.exp : ℤ) - bias E - F)
  have := y.frac_lt hF
  refine ⟨2 ^ F + y.frac, (y.exp : ℤ) - bias E - F, ⟨by simp, by rw [pow_succ]; omega⟩, ?_⟩
  rw [hv, abs_signed hpos]

theorem lt_of_le_lt {a b c : Datum} (h1 : a.Le b) (h2 : b.Lt c) : a.Lt c := by
  revert h1 h2
  rcases a with _ | s | s | p <;> rcases b with _ | t | t | q <;> rcases c with _ | u | u | r <;>
    (try cases s) <;> (try cases t) <;> (try cases u) <;>
    simp [Datum.Le, Datum.Lt, Datum.RealEq, ← le_iff_lt_or_eq]
  all_goals intros
  all_goals linarith

theorem lt_of_lt_le {a b c : Datum} (h1 : a.Lt b) (h2 : b.Le c) : a.Lt c := by
  revert h1 h2
  rcases a with _ | s | s | p <;> rcases b with _ | t | t | q <;> rcases c with _ | u | u | r <;>
    (try cases s) <;> (try cases t) <;> (try cases u) <;>
    simp [Datum.Le, Datum.Lt, Datum.RealEq, ← le_iff_lt_or_eq]
  all_goals intros
  all_goals linarith

theorem not_lt_of_le {a b : Datum} (h1 : a.Le b) (h2 : b.Lt a) : False := by
  revert h1 h2
  rcases a with _ | s | s | p <;> rcases b with _ | t | t | q <;>
    (try cases s) <;> (try cases t) <;>
    simp [Datum.Le, Datum.Lt, Datum.RealEq, ← le_iff_lt_or_eq]
  all_goals intros
  all_goals linarith

theorem rounded_pbit {E F : ℕ} {a : ℚ} (h : IsPBit (F + 1) a) : ∃ d, Rounded E F a d := by
  obtain ⟨m, e, hm, hv⟩ := h
  exact ⟨_, m, e, nearest_self (by omega) hm hv, rfl⟩

theorem pbit_ne_zero {p : ℕ} {a : ℚ} (h : IsPBit p a) : a ≠ 0 := by
  obtain ⟨m, e, hm, hv⟩ := h
  have : (0 : ℚ) < m * 2 ^ e := mul_pos (by exact_mod_cast sig_pos hm) (two_zpow_pos _)
  intro h0; rw [h0, abs_zero] at hv; linarith

theorem isSig_pow (F : ℕ) : IsSig (F + 1) (2 ^ F) := by
  have : 0 < 2 ^ F := by positivity
  exact ⟨by simp, by rw [pow_succ]; omega⟩

theorem pow_as_sig (F : ℕ) (k : ℤ) : (2 : ℚ) ^ k = ((2 ^ F : ℕ) : ℚ) * 2 ^ (k - F) := by
  rw [zpow_sub₀ (by norm_num), zpow_natCast]; push_cast; field_simp

/-- Rounding twice, first in a format with a longer fraction and a larger exponent, ends at the correctly
rounded value or at one of its neighbours. -/
theorem double_round {E F Ew Fw : ℕ} (hE1 : 1 ≤ E) (hF : 1 ≤ F) (hE : E < Ew) (hFw : F ≤ Fw) {q : ℚ} (hq : q ≠ 0) {d c r : Datum}
    (hd : Rounded Ew Fw q d) (hc : Rounded E F q c) (h1 : ∀ w, d = .num w → Rounded E F w r)
    (h2 : (∀ w, d ≠ .num w) → r = d) (y : Fp E F) :
    ¬ ((c.Lt y.datum ∧ y.datum.Lt r) ∨ (r.Lt y.datum ∧ y.datum.Lt c)) := by
  obtain ⟨m, e, hn, hdv⟩ := hd
  have bw : bias E + 1 ≤ bias Ew := by
    have h3 := bias_succ hE1
    have h4 := bias_mono (show E + 1 ≤ Ew by omega)
    have h5 := (two_bias hE1).2
    omega
  obtain ⟨bE, b0⟩ := two_bias hE1
  obtain ⟨bEw, -⟩ := two_bias (show 1 ≤ Ew by omega)
  unfold rangeCheck at hdv
  by_cases c1 : e + Fw + bias Ew < 0
  · -- the first rounding underflows: so does the correct one
    rw [if_pos c1] at hdv
    have hr := h2 (by intro w hw; rw [hdv] at hw; cases hw)
    obtain ⟨m', e', hn', hcv⟩ := hc
    have hlt : (m : ℚ) * 2 ^ e < 2 ^ (-bias Ew) := by
      have a1 : (m : ℚ) < 2 ^ (Fw + 1) := by exact_mod_cast hn.1.2
      calc (m : ℚ) * 2 ^ e < 2 ^ (Fw + 1) * 2 ^ e := mul_lt_mul_of_pos_right a1 (two_zpow_pos _)
        _ = 2 ^ ((Fw + 1 : ℕ) + e) := by rw [← zpow_natCast, ← zpow_add₀ (by norm_num)]
        _ ≤ 2 ^ (-bias Ew) := zpow_le_zpow_right₀ (by norm_num) (by push_cast; omega)
    have hq1 : |q| < 2 ^ (-bias Ew) := by
      by_contra hcon
      push Not at hcon
      have := nearest_mono (by omega) hcon (nearest_self (by omega) (isSig_pow Fw) (pow_as_sig Fw _)) hn
      rw [← pow_as_sig] at this
      linarith
    have hq2 := nearest_mono (by omega) hq1.le hn' (nearest_self (by omega) (isSig_pow F) (pow_as_sig F _))
    have he' := sig_exp_le (by omega) hn'.1 (isSig_pow F) hq2
    have hcz : c = .zero (decide (q < 0)) := by
      rw [hcv]; unfold rangeCheck; rw [if_pos (by omega)]
    rw [hcz, hr, hdv]
    have self : (Datum.zero (decide (q < 0))).Le (.zero (decide (q < 0))) := Or.inr trivial
    rintro (⟨a, b⟩ | ⟨a, b⟩) <;> exact not_lt_of_le self (lt_of_lt_le a (Or.inl b))
  rw [if_neg c1] at hdv
  by_cases c2 : 2 ^ Ew ≤ e + Fw + bias Ew
  · -- the first rounding overflows: so does the correct one
    rw [if_pos c2] at hdv
    have hr := h2 (by intro w hw; rw [hdv] at hw; cases hw)
    obtain ⟨m', e', hn', hcv⟩ := hc
    have hlt : (2 : ℚ) ^ (bias Ew + 1) < (m : ℚ) * 2 ^ e := by
      have a1 : (2 : ℚ) ^ Fw ≤ m := by exact_mod_cast hn.1.1
      calc (2 : ℚ) ^ (bias Ew + 1) < 2 ^ ((Fw : ℤ) + e) := zpow_lt_zpow_right₀ (by norm_num) (by omega)
        _ = 2 ^ Fw * 2 ^ e := by rw [← zpow_natCast, ← zpow_add₀ (by norm_num)]
        _ ≤ (m : ℚ) * 2 ^ e := mul_le_mul_of_nonneg_right a1 (two_zpow_pos _).le
    have hq1 : (2 : ℚ) ^ (bias Ew + 1) < |q| := by
      by_contra hcon
      push Not at hcon
      have := nearest_mono (by omega) hcon hn (nearest_self (by omega) (isSig_pow Fw) (pow_as_sig Fw _))
      rw [← pow_as_sig] at this
      linarith
    have hq2 := nearest_mono (by omega) hq1.le (nearest_self (by omega) (isSig_pow F) (pow_as_sig F _)) hn'
    have he' := sig_exp_le (by omega) (isSig_pow F) hn'.1 hq2
    have hcz : c = .inf (decide (q < 0)) := by
      rw [hcv]; unfold rangeCheck; rw [if_neg (by omega), if_pos (by omega)]
    rw [hcz, hr, hdv]
    have self : (Datum.inf (decide (q < 0))).Le (.inf (decide (q < 0))) := Or.inr rfl
    rintro (⟨a, b⟩ | ⟨a, b⟩) <;> exact not_lt_of_le self (lt_of_lt_le a (Or.inl b))
  rw [if_neg c2] at hdv
  have hr := h1 _ hdv
  obtain ⟨a, b, haq, hqb, pa, pb, hgap, hsgn⟩ := pbit_bracket (p := F + 1) (by omega) hq
  obtain ⟨ca, hca⟩ := rounded_pbit (E := E) pa
  obtain ⟨cb, hcb⟩ := rounded_pbit (E := E) pb
  have a0 := pbit_ne_zero pa
  have b0 := pbit_ne_zero pb
  have k1 := rounded_mono a0 hq haq hca hc
  have k2 := rounded_mono hq b0 hqb hc hcb
  -- the intermediate value stays in the bracket
  obtain ⟨ma, ea, hsa, hva⟩ := pbit_widen (by omega) (show F + 1 ≤ Fw + 1 by omega) pa
  obtain ⟨mb, eb, hsb, hvb⟩ := pbit_widen (by omega) (show F + 1 ≤ Fw + 1 by omega) pb
  have na := nearest_self (t := |a|) (by omega) hsa hva
  have nb := nearest_self (t := |b|) (by omega) hsb hvb
  have hw : ∃ w, d = .num w ∧ a ≤ w ∧ w ≤ b ∧ w ≠ 0 := by
    have hp : (0 : ℚ) < m * 2 ^ e := mul_pos (by exact_mod_cast sig_pos hn.1) (two_zpow_pos _)
    refine ⟨_, hdv, ?_⟩
    rcases hsgn with ⟨s1, s2⟩ | ⟨s1, s2⟩
    · have hq0 : 0 < q := by linarith
      rw [abs_of_pos s1] at hva na
      rw [abs_of_pos s2] at hvb nb
      rw [abs_of_pos hq0] at hn
      simp only [not_lt.mpr hq0.le, decide_false, Bool.false_eq_true, if_false, one_mul]
      refine ⟨?_, ?_, hp.ne'⟩
      · have := nearest_mono (by omega) haq na hn; linarith
      · have := nearest_mono (by omega) hqb hn nb; linarith
    · have hq0 : q < 0 := by linarith
      rw [abs_of_neg s1] at hva na
      rw [abs_of_neg s2] at hvb nb
      rw [abs_of_neg hq0] at hn
      simp only [hq0, decide_true, if_true, neg_one_mul]
      refine ⟨?_, ?_, by linarith⟩
      · have := nearest_mono (by omega) (show -q ≤ -a by linarith) hn na; linarith
      · have := nearest_mono (by omega) (show -b ≤ -q by linarith) nb hn; linarith
  obtain ⟨w, hw, hw1, hw2, hw0⟩ := hw
  have hr := h1 w hw
  have k3 := rounded_mono a0 hw0 hw1 hca hr
  have k4 := rounded_mono hw0 b0 hw2 hr hcb
  -- nothing representable is strictly inside the bracket
  have none : ∀ {u v : Datum}, ca.Le u → v.Le cb → ¬ (u.Lt y.datum ∧ y.datum.Lt v) := by
    rintro u v hu hv ⟨l1, l2⟩
    have l1 := lt_of_le_lt hu l1
    have l2 := lt_of_lt_le l2 hv
    have ra : Rounded0 E F a ca := by unfold Rounded0; rw [if_neg a0]; exact hca
    have rb : Rounded0 E F b cb := by unfold Rounded0; rw [if_neg b0]; exact hcb
    cases dy : y.datum with
    | nan => rw [dy] at l2; cases l2
    | inf s =>
      rw [dy] at l1 l2
      cases s with
      | false => exact not_lt_of_le (le_top (by intro h; rw [h] at l2; cases l2)) l2
      | true => exact not_lt_of_le (bot_le (by intro h; rw [h] at l1; cases l1)) l1
    | zero s =>
      rw [dy] at l1 l2
      have rz : Rounded0 E F 0 (.zero s) := by unfold Rounded0; rw [if_pos rfl]; exact ⟨s, rfl⟩
      rcases hsgn with ⟨s1, s2⟩ | ⟨s1, s2⟩
      · exact not_lt_of_le (rounded0_mono s1.le rz ra) l1
      · exact not_lt_of_le (rounded0_mono s2.le rb rz) l2
    | num t =>
      have ht := rounded_self hF hE1 y t dy
      have t0 := pbit_ne_zero (pbit_fp hF dy)
      rcases hgap t (pbit_fp hF dy) with h | h
      · exact not_lt_of_le (rounded_mono t0 a0 h ht hca) l1
      · exact not_lt_of_le (rounded_mono b0 t0 h hcb ht) l2
  rintro (h | h)
  · exact none k1 k4 h
  · exact none k3 k2 h

/-- Every rounded datum is the datum of a word. -/
theorem rounded_word {E F : ℕ} (hE : 1 ≤ E) (hF : 1 ≤ F) {q : ℚ} {d : Datum} (h : Rounded E F q d) :
    ∃ c : Fp E F, c.datum = d := by
  obtain ⟨m, e, hn, rfl⟩ := h
  have pE : 0 < 2 ^ E := by positivity
  have pF : 0 < 2 ^ F := by positivity
  have h1 := hn.1.1
  have h2 := hn.1.2
  rw [Nat.add_sub_cancel] at h1
  rw [pow_succ] at h2
  have hs : (decide (q < 0)).toNat < 2 := by cases decide (q < 0) <;> decide
  have hsd : ∀ b : Bool, decide (b.toNat = 1) = b := by decide
  have hsg : ∀ b : Bool, (if b.toNat = 1 then (-1 : ℚ) else 1) = if b = true then -1 else 1 := by intro b; cases b <;> simp
  unfold rangeCheck
  by_cases c1 : e + F + bias E < 0
  · rw [if_pos c1]
    refine ⟨Fp.mk4 E F 0 (decide (q < 0)).toNat 0 0, ?_⟩
    rw [Fp.mk4_datum (by decide) hs pE pF hE hF, denote, hsd]
  rw [if_neg c1]
  by_cases c2 : 2 ^ E ≤ e + F + bias E
  · rw [if_pos c2]
    refine ⟨Fp.mk4 E F 2 (decide (q < 0)).toNat 0 0, ?_⟩
    rw [Fp.mk4_datum (by decide) hs pE pF hE hF, denote, hsd]
  rw [if_neg c2]
  have hc : ((2 ^ E : ℕ) : ℤ) = 2 ^ E := by push_cast; rfl
  refine ⟨Fp.mk4 E F 1 (decide (q < 0)).toNat (e + F + bias E).toNat (m - 2 ^ F), ?_⟩
  rw [Fp.mk4_datum (by decide) hs (by omega) (by omega) hE hF, denote, hsg]
  rw [show 2 ^ F + (m - 2 ^ F) = m by omega, Int.toNat_of_nonneg (by omega), show e + (F : ℤ) + bias E - bias E - F = e by ring]

theorem mk4_num {E F e f : ℕ} (hE : 1 ≤ E) (hF : 1 ≤ F) (he : e < 2 ^ E) (hf : f < 2 ^ F) :
    (Fp.mk4 E F 1 0 e f).datum = .num ((1 + (f : ℚ) / 2 ^ F) * 2 ^ ((e : ℤ) - bias E)) := by
  rw [Fp.mk4_datum (by decide) (by decide) he hf hE hF, denote]
  simp only [zero_ne_one, if_false, one_mul]
  rw [zpow_sub₀ (by norm_num : (2 : ℚ) ≠ 0) _ (F : ℤ), zpow_natCast]
  congr 1
  push_cast
  field_simp

end Thls
