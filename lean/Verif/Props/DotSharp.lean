import Verif.Props.Dot
import Verif.Proofs.DotRef
import Verif.Proofs.RoundErr
import Verif.Proofs.Mono
import Mathlib.Data.Int.Log

/-! # C33: exactly what the four-term dot product returns -/

namespace Thls
open Spec

/-- The positive numbers of a format, and the least magnitude that overflows: the places at which rounding down in the format jumps. -/
def Jump (E F : ℕ) (s : ℚ) : Prop := (0 < s ∧ ∃ x : Fp E F, x.datum = .num s) ∨ s = 2 ^ ((2 : ℤ) ^ E - bias E)

theorem jump_sig {E F : ℕ} (hE : 1 ≤ E) (hF : 1 ≤ F) {s : ℚ} :
    Jump E F s ↔ ∃ (m : ℕ) (e : ℤ), IsSig (F + 1) m ∧ s = m * 2 ^ e ∧ 0 ≤ e + F + bias E ∧
      (e + F + bias E < 2 ^ E ∨ (e + F + bias E = 2 ^ E ∧ m = 2 ^ F)) := by
  constructor
  · rintro (⟨h0, x, hx⟩ | rfl)
    · obtain ⟨hf, hv⟩ := datum_num_iff.mp hx
      have hfr := x.frac_lt hF
      have hex := x.exp_lt hE
      have hp := sig_scaled_pos F x.frac ((x.exp : ℤ) - bias E - F)
      have hs : ¬ x.sign = 1 := by
        intro hs
        rw [if_pos hs] at hv
        linarith
      rw [if_neg hs, one_mul] at hv
      have h2 : (x.exp : ℤ) < 2 ^ E := by exact_mod_cast hex
      refine ⟨2 ^ F + x.frac, (x.exp : ℤ) - bias E - F, ⟨by simp, by rw [pow_succ]; omega⟩, hv, by omega, Or.inl (by omega)⟩
    · refine ⟨2 ^ F, 2 ^ E - bias E - F, ⟨by simp, Nat.pow_lt_pow_right (by norm_num) (by omega)⟩, ?_, ?_, Or.inr ⟨by ring, rfl⟩⟩
      · push_cast
        rw [← zpow_natCast, ← zpow_add₀ (by norm_num)]
        congr 1; ring
      · have : (0 : ℤ) ≤ 2 ^ E := by positivity
        omega
  · rintro ⟨m, e, hm, rfl, h0, h | ⟨h, rfl⟩⟩
    · left
      have hmp : 0 < m := lt_of_lt_of_le (by positivity) hm.1
      refine ⟨mul_pos (by exact_mod_cast hmp) (two_zpow_pos e), ?_⟩
      obtain ⟨k, hk⟩ := Int.eq_ofNat_of_zero_le h0
      have hk2 : k < 2 ^ E := by rw [hk] at h; exact_mod_cast h
      have h1 := hm.1
      have h2 := hm.2
      rw [Nat.add_sub_cancel] at h1
      rw [pow_succ] at h2
      refine ⟨Fp.mk4 E F 1 0 k (m - 2 ^ F), ?_⟩
      have hfl : m - 2 ^ F < 2 ^ F := by omega
      rw [datum_num_iff, Fp.mk4_flags (by norm_num) (by norm_num) hk2 hfl, Fp.mk4_sign (by norm_num) (by norm_num) hk2 hfl,
        Fp.mk4_exp (by norm_num) (by norm_num) hk2 hfl hE, Fp.mk4_frac (by norm_num) (by norm_num) hk2 hfl hF]
      refine ⟨rfl, ?_⟩
      rw [if_neg (by norm_num), one_mul, show 2 ^ F + (m - 2 ^ F) = m by omega, show (k : ℤ) - bias E - F = e by omega]
    · right
      push_cast
      rw [← zpow_natCast, ← zpow_add₀ (by norm_num)]
      congr 1
      omega

/-- Rounding down two positive numbers gives the same datum exactly if there is no jump between them. -/
theorem roundedDown_same_iff {E F : ℕ} (hE : 1 ≤ E) (hF : 1 ≤ F) {t q : ℚ} {d : Datum} (ht : 0 < t) (hq : t ≤ q)
    (hd : RoundedDown E F t d) : RoundedDown E F q d ↔ ¬ ∃ s, Jump E F s ∧ t < s ∧ s ≤ q := by
  obtain ⟨m, e, hr, rfl⟩ := hd
  obtain ⟨m', e', hr'⟩ := roundDown_exists (p := F + 1) (by omega) (lt_of_lt_of_le ht hq)
  have hle : (m : ℚ) * 2 ^ e ≤ m' * 2 ^ e' := hr'.2.2 m e hr.1 (hr.2.1.trans hq)
  have hee := sig_exp_le (by omega) hr.1 hr'.1 hle
  have hiff : RoundedDown E F q (rangeCheck E F false m e) ↔ rangeCheck E F false m e = rangeCheck E F false m' e' :=
    ⟨fun h => roundedDown_unique h ⟨m', e', hr', rfl⟩, fun h => ⟨m', e', hr', h⟩⟩
  rw [hiff]
  constructor
  · rintro h ⟨s, hs, hts, hsq⟩
    obtain ⟨ms, es, hms, rfl, hs0, hs1⟩ := (jump_sig hE hF).mp hs
    have h1 : (m : ℚ) * 2 ^ e < ms * 2 ^ es := lt_of_le_of_lt hr.2.1 hts
    have h2 : (ms : ℚ) * 2 ^ es ≤ m' * 2 ^ e' := hr'.2.2 ms es hms hsq
    have k1 := sig_exp_le (by omega) hr.1 hms h1.le
    have k2 := sig_exp_le (by omega) hms hr'.1 h2
    unfold rangeCheck at h
    have n1 : ¬ (2 : ℤ) ^ E ≤ e + F + bias E := by
      intro hc
      rcases hs1 with hs1 | ⟨hs1, rfl⟩
      · omega
      · have : e = es := by omega
        subst this
        have := hr.1.1
        rw [Nat.add_sub_cancel] at this
        have h3 : ((2 ^ F : ℕ) : ℚ) ≤ m := by exact_mod_cast this
        have := mul_le_mul_of_nonneg_right h3 (two_zpow_pos e).le
        linarith
    have n2 : ¬ e' + F + bias E < 0 := by omega
    rw [if_neg n1, if_neg n2] at h
    by_cases c1 : e + F + bias E < 0
    · rw [if_pos c1] at h
      split_ifs at h
    · rw [if_neg c1] at h
      by_cases c2 : (2 : ℤ) ^ E ≤ e' + F + bias E
      · rw [if_pos c2] at h; cases h
      · rw [if_neg c2] at h
        have := Datum.num.inj h
        simp only [Bool.false_eq_true, if_false, one_mul] at this
        linarith
  · intro h
    by_cases heq : (m : ℚ) * 2 ^ e = m' * 2 ^ e'
    · obtain ⟨rfl, rfl⟩ := sig_unique (by omega) hr.1 hr'.1 heq
      rfl
    have hlt : (m : ℚ) * 2 ^ e < m' * 2 ^ e' := lt_of_le_of_ne hle heq
    have above : ∀ (ms : ℕ) (es : ℤ), IsSig (F + 1) ms → (m : ℚ) * 2 ^ e < ms * 2 ^ es → t < ms * 2 ^ es := by
      intro ms es hms hc
      by_contra hn
      have := hr.2.2 ms es hms (not_lt.mp hn)
      linarith
    unfold rangeCheck
    by_cases c1 : e' + F + bias E < 0
    · rw [if_pos (by omega), if_pos c1]
    rw [if_neg c1]
    by_cases c2 : (2 : ℤ) ^ E ≤ e' + F + bias E
    · rw [if_pos c2]
      by_cases c3 : (2 : ℤ) ^ E ≤ e + F + bias E
      · have : (0 : ℤ) ≤ 2 ^ E := by positivity
        rw [if_neg (by omega), if_pos c3]
      · exfalso
        apply h
        have hs : IsSig (F + 1) (2 ^ F) := ⟨by simp, Nat.pow_lt_pow_right (by norm_num) (by omega)⟩
        have hp : (0 : ℤ) ≤ 2 ^ E := by positivity
        refine ⟨((2 ^ F : ℕ) : ℚ) * 2 ^ ((2 : ℤ) ^ E - bias E - F), (jump_sig hE hF).mpr ⟨2 ^ F, _, hs, rfl, by omega, Or.inr ⟨by omega, rfl⟩⟩, ?_, ?_⟩
        · apply above _ _ hs
          by_contra hn
          have := sig_exp_le (by omega) hs hr.1 (not_lt.mp hn)
          omega
        · refine le_trans ?_ hr'.2.1
          have := hr'.1.1
          rw [Nat.add_sub_cancel] at this
          have h3 : ((2 ^ F : ℕ) : ℚ) ≤ m' := by exact_mod_cast this
          exact mul_le_mul h3 (zpow_le_zpow_right₀ (by norm_num) (by omega)) (two_zpow_pos _).le (by positivity)
    · exfalso
      exact h ⟨(m' : ℚ) * 2 ^ e', (jump_sig hE hF).mpr ⟨m', e', hr'.1, rfl, by omega, Or.inl (by omega)⟩, above _ _ hr'.1 hlt, hr'.2.1⟩

/-- The exponent of a positive number of a format. -/
theorem log_datum {E F : ℕ} (hF : 1 ≤ F) {x : Fp E F} {v : ℚ} (hx : x.datum = .num v) (h0 : 0 < v) :
    Int.log 2 v = (x.exp : ℤ) - bias E := by
  obtain ⟨hf, hv⟩ := datum_num_iff.mp hx
  have hfr := x.frac_lt hF
  have hp := sig_scaled_pos F x.frac ((x.exp : ℤ) - bias E - F)
  have hs : ¬ x.sign = 1 := by
    intro hs
    rw [if_pos hs] at hv
    linarith
  rw [if_neg hs, one_mul] at hv
  obtain ⟨h1, h2⟩ := sig_bounds hfr ((x.exp : ℤ) - bias E)
  rw [← hv] at h1 h2
  have k1 := (Int.zpow_le_iff_le_log (b := 2) (by norm_num) h0).mp (by exact_mod_cast h1)
  have k2 := (Int.lt_zpow_iff_log_lt (b := 2) (by norm_num) h0).mp (by exact_mod_cast h2)
  omega

/-- **C33, the value.** With `G` the largest sum of the exponents of two factors, `dot4_pos_rndd` rounds down, once, the sum of the four
products each truncated to a multiple of `2^(G-(6F-1))`. -/
theorem C33_dot4_value {E F : ℕ} (hE : 1 ≤ E) (hF : 1 ≤ F) (a b : Fin 4 → Fp E F) (u v : Fin 4 → ℚ)
    (ha : ∀ i, (a i).datum = .num (u i)) (hb : ∀ i, (b i).datum = .num (v i)) (pa : ∀ i, 0 < u i) (pb : ∀ i, 0 < v i)
    (G : ℤ) (hG : ∃ i, G = Int.log 2 (u i) + Int.log 2 (v i)) (hG' : ∀ i, Int.log 2 (u i) + Int.log 2 (v i) ≤ G) :
    ∃ r, dot4 (a 0) (a 1) (a 2) (a 3) (b 0) (b 1) (b 2) (b 3) = some r ∧
      RoundedDown E F (∑ i, (⌊u i * v i / 2 ^ (G - (6 * F - 1))⌋ : ℚ) * 2 ^ (G - (6 * F - 1))) r.datum := by
  obtain ⟨r, e, hr, ⟨i0, hi0⟩, hmax, h⟩ := dot4_core hE hF a b u v ha hb pa pb
  have hexp : ∀ i, (dotExp (a i) (b i) : ℤ) = Int.log 2 (u i) + Int.log 2 (v i) + 2 * bias E := by
    intro i
    rw [(dotExp_eq hE (a i) (b i)).1, log_datum hF (ha i) (pa i), log_datum hF (hb i) (pb i)]
    push_cast; ring
  have hGe : G = (e : ℤ) - 2 * bias E := by
    obtain ⟨j, hj⟩ := hG
    have h1 := hexp j
    have h2 := hexp i0
    have h3 := hG' i0
    have h4 : (dotExp (a j) (b j) : ℤ) ≤ e := by exact_mod_cast hmax j
    rw [← hi0] at h2
    omega
  have hW : (G - (6 * F - 1) : ℤ) = (e : ℤ) - 2 * bias E - 2 * F - dot4Pad F := by
    rw [hGe]; unfold dot4Pad; omega
  rw [hW]
  have hw := two_zpow_pos ((e : ℤ) - 2 * bias E - 2 * F - dot4Pad F)
  refine ⟨r, hr, ?_⟩
  have hterm : ∀ i, (⌊u i * v i / 2 ^ ((e : ℤ) - 2 * bias E - 2 * F - dot4Pad F)⌋ : ℤ) =
      (dot4Term F e (dotFrac (a i) (b i)) (dotExp (a i) (b i)) : ℕ) := by
    intro i
    obtain ⟨h1, h2, -⟩ := dot4_term_bounds (F := F) (x := dotFrac (a i) (b i)) (c := 2 * bias E) (hmax i)
    rw [← dot_value hE (ha i) (hb i) (pa i) (pb i)] at h1 h2
    rw [Int.floor_eq_iff]
    exact ⟨by rw [le_div_iff₀ hw]; exact_mod_cast h1, by rw [div_lt_iff₀ hw]; exact_mod_cast h2⟩
  refine h _ rfl _ (le_of_eq ?_) (lt_of_eq_of_lt ?_ (mul_lt_mul_of_pos_right (lt_add_one _) hw))
  · push_cast
    rw [Finset.sum_mul]
    exact Finset.sum_congr rfl fun i _ => by rw [hterm i]; norm_cast
  · push_cast
    rw [Finset.sum_mul]
    exact Finset.sum_congr rfl fun i _ => by rw [hterm i]; norm_cast

/-- **C33, exactly when it holds.** The result is the exact sum rounded down if and only if no number of the format (nor the overflow limit)
lies above the sum of the truncated products and not above the exact sum. -/
theorem C33_dot4_iff {E F : ℕ} (hE : 1 ≤ E) (hF : 1 ≤ F) (a b : Fin 4 → Fp E F) (u v : Fin 4 → ℚ)
    (ha : ∀ i, (a i).datum = .num (u i)) (hb : ∀ i, (b i).datum = .num (v i)) (pa : ∀ i, 0 < u i) (pb : ∀ i, 0 < v i)
    (G : ℤ) (hG : ∃ i, G = Int.log 2 (u i) + Int.log 2 (v i)) (hG' : ∀ i, Int.log 2 (u i) + Int.log 2 (v i) ≤ G) (r : Fp E F)
    (hr : dot4 (a 0) (a 1) (a 2) (a 3) (b 0) (b 1) (b 2) (b 3) = some r) :
    RoundedDown E F (∑ i, u i * v i) r.datum ↔
      ¬ ∃ s, Jump E F s ∧ ∑ i, (⌊u i * v i / 2 ^ (G - (6 * F - 1))⌋ : ℚ) * 2 ^ (G - (6 * F - 1)) < s ∧ s ≤ ∑ i, u i * v i := by
  obtain ⟨r', hr', hv⟩ := C33_dot4_value hE hF a b u v ha hb pa pb G hG hG'
  obtain rfl : r' = r := by rw [hr'] at hr; injection hr
  have hw := two_zpow_pos (G - (6 * F - 1) : ℤ)
  refine roundedDown_same_iff hE hF ?_ ?_ hv
  · obtain ⟨j, hj⟩ := hG
    refine Finset.sum_pos' (fun i _ => ?_) ⟨j, Finset.mem_univ j, ?_⟩
    · refine mul_nonneg ?_ hw.le
      exact_mod_cast Int.floor_nonneg.mpr (div_nonneg (mul_pos (pa i) (pb i)).le hw.le)
    · refine mul_pos ?_ hw
      have hu := Int.zpow_log_le_self (b := 2) (by norm_num) (pa j)
      have hv := Int.zpow_log_le_self (b := 2) (by norm_num) (pb j)
      have h1 : (1 : ℤ) ≤ ⌊u j * v j / 2 ^ (G - (6 * F - 1) : ℤ)⌋ := by
        rw [Int.le_floor, le_div_iff₀ hw]
        push_cast
        rw [one_mul]
        calc (2 : ℚ) ^ (G - (6 * F - 1) : ℤ) ≤ 2 ^ G := zpow_le_zpow_right₀ (by norm_num) (by omega)
          _ = 2 ^ Int.log 2 (u j) * 2 ^ Int.log 2 (v j) := by rw [hj, zpow_add₀ (by norm_num)]
          _ ≤ u j * v j := mul_le_mul (by exact_mod_cast hu) (by exact_mod_cast hv) (two_zpow_pos _).le (pa j).le
      exact_mod_cast h1
  · exact Finset.sum_le_sum fun i _ => by
      rw [← le_div_iff₀ hw]; exact Int.floor_le _

/-- Non-vacuity: four times one times one. Nothing is truncated, so the result is right. -/
example : ∃ r, dot4 (Fp.mk4 8 23 1 0 127 0) (Fp.mk4 8 23 1 0 127 0) (Fp.mk4 8 23 1 0 127 0) (Fp.mk4 8 23 1 0 127 0)
      (Fp.mk4 8 23 1 0 127 0) (Fp.mk4 8 23 1 0 127 0) (Fp.mk4 8 23 1 0 127 0) (Fp.mk4 8 23 1 0 127 0) = some r ∧
    RoundedDown 8 23 (∑ _i : Fin 4, ((⌊(1 : ℚ) * 1 / 2 ^ ((0 : ℤ) - (6 * (23 : ℕ) - 1))⌋ : ℤ) : ℚ) * 2 ^ ((0 : ℤ) - (6 * (23 : ℕ) - 1))) r.datum := by
  have h1 : (Fp.mk4 8 23 1 0 127 0).datum = .num 1 := by decide +kernel
  exact C33_dot4_value (by norm_num) (by norm_num) (fun _ => Fp.mk4 8 23 1 0 127 0) (fun _ => Fp.mk4 8 23 1 0 127 0) (fun _ => 1) (fun _ => 1)
    (fun _ => h1) (fun _ => h1) (fun _ => by norm_num) (fun _ => by norm_num) 0 ⟨0, by simp⟩ (fun _ => by simp)

end Thls
