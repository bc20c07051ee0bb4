import Verif.Proofs.ExactOps
import Verif.Proofs.OpTest
import Verif.Proofs.RoundErr
import Verif.Proofs.SoftMono
import Verif.Proofs.SoftLoops
import Verif.Proofs.SoftExact
import Verif.Props.ThresholdsIeee

/-! # Midpoints: what every kind of rounding has in common (lemmas) -/

namespace Thls
open Spec

/-- What the arguments about midpoints need of a set of numbers and a rounding to it. -/
structure MidRounding (V : ℚ → Prop) (R : ℚ → Datum → Prop) : Prop where
  between : ∀ {p q x d}, V p → V q → p ≤ x → x ≤ q → R x d → ∃ h, d.fin = some h ∧ V h ∧ p ≤ h ∧ h ≤ q
  twice_le : ∀ {p x d s}, V p → 2 * p ≤ x → R x d → d.fin = some s → 2 * p ≤ s
  le_twice : ∀ {p x d s}, V p → x ≤ 2 * p → R x d → d.fin = some s → s ≤ 2 * p
  half_diff : ∀ {p q d s d'}, V p → V q → p ≤ q → R (q - p) d → d.fin = some s → R (s / 2) d' → ∃ h, d'.fin = some h ∧ 0 ≤ h ∧ h ≤ q - p

theorem MidRounding.mean {V : ℚ → Prop} {R : ℚ → Datum → Prop} (M : MidRounding V R) {p q s : ℚ} {d d' : Datum} (hp : V p) (hq : V q) (hpq : p ≤ q)
    (hd : R (p + q) d) (hs : d.fin = some s) (hd' : R (s / 2) d') : ∃ h, d'.fin = some h ∧ p ≤ h ∧ h ≤ q := by
  have h1 := M.twice_le hp (by linarith) hd hs
  have h2 := M.le_twice hq (by linarith) hd hs
  obtain ⟨h, a, -, b, c⟩ := M.between hp hq (by linarith) (by linarith) hd'
  exact ⟨h, a, b, c⟩

theorem MidRounding.step {V : ℚ → Prop} {R : ℚ → Datum → Prop} (M : MidRounding V R) {p q s : ℚ} {d d' : Datum} (hp : V p) (hq : V q) (hpq : p ≤ q)
    (hd : R (q - p) d) (hs : d.fin = some s) (hd' : R (s / 2) d') :
    ∃ h, d'.fin = some h ∧ ∀ r, R (p + h) r → ∃ m, r.fin = some m ∧ p ≤ m ∧ m ≤ q := by
  obtain ⟨h, h1, h2, h3⟩ := M.half_diff hp hq hpq hd hs hd'
  refine ⟨h, h1, fun r hr => ?_⟩
  obtain ⟨m, a, -, b, c⟩ := M.between hp hq (by linarith) (by linarith) hr
  exact ⟨m, a, b, c⟩

/-! ## Flushing underflow -/

/-- `t` is `q` rounded to `F+1` bits, the exponent unbounded. -/
def FreeRounded (F : ℕ) (q t : ℚ) : Prop := ∃ (m : ℕ) (e : ℤ), NearestEven (F + 1) |q| m e ∧ t = (if q < 0 then -1 else 1) * ((m : ℚ) * 2 ^ e)

/-- `v` is a number of `F+1` bits. -/
def SigValue (F : ℕ) (v : ℚ) : Prop := ∃ (m : ℕ) (e : ℤ), IsSig (F + 1) m ∧ |v| = m * 2 ^ e

/-- A rounded value and the range of the format. -/
def flushRange (lo hi t : ℚ) : Datum := if |t| < lo then .zero (decide (t < 0)) else if hi ≤ |t| then .inf (decide (t < 0)) else .num t

def FlushRounded (F : ℕ) (lo hi q : ℚ) (d : Datum) : Prop :=
  if q = 0 then ∃ s, d = .zero s else ∃ t, FreeRounded F q t ∧ d = flushRange lo hi t

def FlushValue (F : ℕ) (lo hi v : ℚ) : Prop := v = 0 ∨ (SigValue F v ∧ lo ≤ |v| ∧ |v| < hi)

variable {F : ℕ}

theorem free_facts {q t : ℚ} (hq : q ≠ 0) (h : FreeRounded F q t) : SigValue F t ∧ (0 < q → 0 < t) ∧ (q < 0 → t < 0) ∧ |t - q| ≤ uro F * |q| := by
  obtain ⟨m, e, hn, rfl⟩ := h
  have hw : 0 < (m : ℚ) * 2 ^ e := by
    have := sig_lower hn.1 e
    have := two_zpow_pos (e + F)
    linarith
  have herr := nearest_err (abs_pos.mpr hq) hn
  by_cases h0 : q < 0
  · rw [if_pos h0]
    refine ⟨⟨m, e, hn.1, by rw [abs_mul, abs_of_pos hw]; norm_num⟩, fun h => by linarith, fun _ => by linarith, ?_⟩
    refine le_trans (le_of_eq ?_) herr
    rw [abs_of_neg h0]; congr 1; ring
  · rw [if_neg h0]
    have h1 : 0 < q := lt_of_le_of_ne (not_lt.mp h0) (Ne.symm hq)
    refine ⟨⟨m, e, hn.1, by rw [abs_mul, abs_of_pos hw]; norm_num⟩, fun _ => by linarith, fun h => by linarith, ?_⟩
    refine le_trans (le_of_eq ?_) herr
    rw [abs_of_pos h1, ← abs_neg]; congr 1; ring

theorem free_exact {q t : ℚ} (hs : SigValue F q) (h : FreeRounded F q t) : t = q := by
  obtain ⟨m, e, hn, rfl⟩ := h
  obtain ⟨m', e', h1, h2⟩ := hs
  obtain ⟨rfl, rfl⟩ := nearest_unique (by omega) hn (nearest_self (by omega) h1 h2)
  rw [← h2]
  split
  · rename_i h; rw [abs_of_neg h]; ring
  · rename_i h; rw [abs_of_nonneg (not_lt.mp h)]; ring

theorem free_mono {q r t u : ℚ} (hq : q ≠ 0) (hr : r ≠ 0) (hqr : q ≤ r) (ht : FreeRounded F q t) (hu : FreeRounded F r u) : t ≤ u := by
  obtain ⟨-, a1, a2, -⟩ := free_facts hq ht
  obtain ⟨-, b1, b2, -⟩ := free_facts hr hu
  obtain ⟨m, e, hn, rfl⟩ := ht
  obtain ⟨m', e', hn', rfl⟩ := hu
  rcases lt_or_gt_of_ne hq with h | h <;> rcases lt_or_gt_of_ne hr with g | g
  · rw [if_pos h, if_pos g]
    rw [abs_of_neg h] at hn
    rw [abs_of_neg g] at hn'
    have := nearest_mono (by omega) (by linarith : -r ≤ -q) hn' hn
    linarith
  · have := a2 h; have := b1 g; linarith
  · linarith
  · rw [if_neg (not_lt.mpr h.le), if_neg (not_lt.mpr g.le)]
    rw [abs_of_pos h] at hn
    rw [abs_of_pos g] at hn'
    have := nearest_mono (by omega) hqr hn hn'
    linarith

theorem free_self {q : ℚ} (hs : SigValue F q) : FreeRounded F q q := by
  obtain ⟨m, e, h1, h2⟩ := hs
  refine ⟨m, e, nearest_self (by omega) h1 h2, ?_⟩
  rw [← h2]
  split
  · rename_i h; rw [abs_of_neg h]; ring
  · rename_i h; rw [abs_of_nonneg (not_lt.mp h)]; ring

theorem sigValue_scale {v : ℚ} (h : SigValue F v) (c : ℤ) : SigValue F (2 ^ c * v) := by
  obtain ⟨m, e, h1, h2⟩ := h
  refine ⟨m, c + e, h1, ?_⟩
  rw [abs_mul, abs_of_pos (two_zpow_pos c), h2, zpow_add₀ (by norm_num)]; ring

theorem free_ge {p x t : ℚ} (hs : p = 0 ∨ SigValue F p) (hp : p ≤ x) (hx : x ≠ 0) (h : FreeRounded F x t) : p ≤ t := by
  by_cases h0 : p = 0
  · subst h0
    exact ((free_facts hx h).2.1 (lt_of_le_of_ne hp (Ne.symm hx))).le
  · exact free_mono h0 hx hp (free_self (hs.resolve_left h0)) h

theorem free_le {p x t : ℚ} (hs : p = 0 ∨ SigValue F p) (hp : x ≤ p) (hx : x ≠ 0) (h : FreeRounded F x t) : t ≤ p := by
  by_cases h0 : p = 0
  · subst h0
    exact ((free_facts hx h).2.2.1 (lt_of_le_of_ne hp hx)).le
  · exact free_mono hx h0 hp h (free_self (hs.resolve_left h0))

/-- A finite result is the rounded value, or zero for a rounded value below the range. -/
theorem flush_fin {lo hi q s : ℚ} {d : Datum} (hq : q ≠ 0) (h : FlushRounded F lo hi q d) (hs : d.fin = some s) :
    ∃ t, FreeRounded F q t ∧ (s = t ∧ lo ≤ |t| ∧ |t| < hi ∨ s = 0 ∧ |t| < lo) := by
  unfold FlushRounded at h
  rw [if_neg hq] at h
  obtain ⟨t, ht, rfl⟩ := h
  refine ⟨t, ht, ?_⟩
  unfold flushRange at hs
  split_ifs at hs with h1 h2
  · injection hs with hs; exact Or.inr ⟨hs.symm, h1⟩
  · cases hs
  · injection hs with hs; exact Or.inl ⟨hs.symm, not_lt.mp h1, not_le.mp h2⟩

theorem flushValue_sig {lo hi v : ℚ} (h : FlushValue F lo hi v) : v = 0 ∨ SigValue F v := h.imp_right fun h => h.1

theorem flush_mid {lo hi : ℚ} (hlo : 0 < lo) (hhi : 0 < hi) : MidRounding (FlushValue F lo hi) (FlushRounded F lo hi) := by
  have two : ∀ {p : ℚ}, p = 0 ∨ SigValue F p → 2 * p = 0 ∨ SigValue F (2 * p) := by
    rintro p (rfl | h)
    · left; simp
    · right; simpa using sigValue_scale h 1
  have hu : uro F ≤ 1 := by
    unfold uro
    exact (zpow_lt_one_of_neg₀ (by norm_num) (by omega)).le
  refine ⟨?_, ?_, ?_, ?_⟩
  · intro p q x d hp hq hpx hxq hd
    by_cases hx : x = 0
    · subst hx
      unfold FlushRounded at hd
      rw [if_pos rfl] at hd
      obtain ⟨s, rfl⟩ := hd
      exact ⟨0, rfl, Or.inl rfl, hpx, hxq⟩
    · unfold FlushRounded at hd
      rw [if_neg hx] at hd
      obtain ⟨t, ht, rfl⟩ := hd
      have h1 := free_ge (flushValue_sig hp) hpx hx ht
      have h2 := free_le (flushValue_sig hq) hxq hx ht
      obtain ⟨st, -, -, -⟩ := free_facts hx ht
      have habs : |t| < hi := by
        rw [abs_lt]
        constructor
        · rcases hp with rfl | ⟨-, -, h3⟩
          · linarith
          · have := (abs_lt.mp h3).1; linarith
        · rcases hq with rfl | ⟨-, -, h3⟩
          · linarith
          · have := (abs_lt.mp h3).2; linarith
      unfold flushRange
      by_cases h3 : |t| < lo
      · rw [if_pos h3]
        obtain ⟨h4, h5⟩ := abs_lt.mp h3
        refine ⟨0, rfl, Or.inl rfl, ?_, ?_⟩
        · rcases hp with rfl | ⟨-, h6, -⟩
          · exact le_rfl
          · by_contra hc
            push Not at hc
            rw [abs_of_pos hc] at h6
            linarith
        · rcases hq with rfl | ⟨-, h6, -⟩
          · exact le_rfl
          · by_contra hc
            push Not at hc
            rw [abs_of_neg hc] at h6
            linarith
      · rw [if_neg h3, if_neg (not_le.mpr habs)]
        exact ⟨t, rfl, Or.inr ⟨st, not_lt.mp h3, habs⟩, h1, h2⟩
  · intro p x d s hp hpx hd hs
    by_cases hx : x = 0
    · subst hx
      unfold FlushRounded at hd
      rw [if_pos rfl] at hd
      obtain ⟨b, rfl⟩ := hd
      injection hs with hs
      linarith
    · obtain ⟨t, ht, ⟨rfl, -, -⟩ | ⟨rfl, h1⟩⟩ := flush_fin hx hd hs
      · exact free_ge (two (flushValue_sig hp)) hpx hx ht
      · have h2 := free_ge (two (flushValue_sig hp)) hpx hx ht
        have h3 := (abs_lt.mp h1).2
        rcases hp with rfl | ⟨-, h6, -⟩
        · simp
        · by_contra hc
          rw [abs_of_pos (by linarith)] at h6
          linarith
  · intro p x d s hp hpx hd hs
    by_cases hx : x = 0
    · subst hx
      unfold FlushRounded at hd
      rw [if_pos rfl] at hd
      obtain ⟨b, rfl⟩ := hd
      injection hs with hs
      linarith
    · obtain ⟨t, ht, ⟨rfl, -, -⟩ | ⟨rfl, h1⟩⟩ := flush_fin hx hd hs
      · exact free_le (two (flushValue_sig hp)) hpx hx ht
      · have h2 := free_le (two (flushValue_sig hp)) hpx hx ht
        have h3 := (abs_lt.mp h1).1
        rcases hp with rfl | ⟨-, h6, -⟩
        · simp
        · by_contra hc
          rw [abs_of_neg (by linarith)] at h6
          linarith
  · intro p q d s d' hp hq hpq hd hs hd'
    have zero : s = 0 → ∃ h, d'.fin = some h ∧ 0 ≤ h ∧ h ≤ q - p := by
      rintro rfl
      unfold FlushRounded at hd'
      rw [if_pos (by norm_num)] at hd'
      obtain ⟨b, rfl⟩ := hd'
      exact ⟨0, rfl, le_rfl, by linarith⟩
    by_cases hx : q - p = 0
    · unfold FlushRounded at hd
      rw [if_pos hx] at hd
      obtain ⟨b, rfl⟩ := hd
      injection hs with hs
      exact zero hs.symm
    · obtain ⟨t, ht, ⟨rfl, h1, h2⟩ | ⟨h1, -⟩⟩ := flush_fin hx hd hs
      · have hpos : 0 < q - p := lt_of_le_of_ne (by linarith) (Ne.symm hx)
        obtain ⟨st, a, -, b⟩ := free_facts hx ht
        have a := a hpos
        rw [abs_of_pos hpos] at b
        have b := (abs_le.mp b).2
        have hs2 : SigValue F (s / 2) := by
          have := sigValue_scale st (-1)
          rwa [zpow_neg_one, inv_mul_eq_div] at this
        unfold FlushRounded at hd'
        rw [if_neg (by linarith)] at hd'
        obtain ⟨u, hu', rfl⟩ := hd'
        have := free_exact hs2 hu'
        subst this
        have hle : s / 2 ≤ q - p := by nlinarith
        rw [abs_of_pos a] at h2
        unfold flushRange
        rw [abs_of_pos (show 0 < s / 2 by linarith)]
        split_ifs with g1 g2
        · exact ⟨0, rfl, le_rfl, hpos.le⟩
        · linarith
        · exact ⟨s / 2, rfl, by linarith, hle⟩
      · exact zero h1

/-! ## Gradual underflow -/

/-- `t` is `q` rounded with gradual underflow, unbounded above. -/
def GradFree (E F : ℕ) (q t : ℚ) : Prop := ∃ (m : ℕ) (e : ℤ), NearestGradual E F |q| m e ∧ t = (if q < 0 then -1 else 1) * ((m : ℚ) * 2 ^ e)

/-- `v` is a number with gradual underflow, unbounded above. -/
def GradNum (E F : ℕ) (v : ℚ) : Prop := ∃ (m : ℕ) (e : ℤ), IsGradual E F m e ∧ |v| = m * 2 ^ e

def GradValue (E F : ℕ) (v : ℚ) : Prop := GradNum E F v ∧ |v| < ieeeLimit E

variable {E : ℕ}

theorem grad_neg {x t : ℚ} (hx : x ≠ 0) (h : GradFree E F x t) : GradFree E F (-x) (-t) := by
  obtain ⟨m, e, hn, rfl⟩ := h
  refine ⟨m, e, by rwa [abs_neg], ?_⟩
  rcases lt_or_gt_of_ne hx with h | h
  · rw [if_pos h, if_neg (by linarith)]; ring
  · rw [if_neg (by linarith), if_pos (by linarith)]; ring

theorem grad_ge {p x t : ℚ} (hs : GradNum E F p) (hp : p ≤ x) (hx : x ≠ 0) (h : GradFree E F x t) : p ≤ t := by
  obtain ⟨m, e, hn, rfl⟩ := h
  obtain ⟨m', e', h1, h2⟩ := hs
  have hm := hn.2.2.1 m' e' h1
  rw [← h2] at hm
  have hw : 0 ≤ (m : ℚ) * 2 ^ e := by have := two_zpow_pos e; positivity
  rcases lt_or_gt_of_ne hx with h | h
  · rw [if_pos h]
    rw [abs_of_neg h, abs_of_neg (by linarith : p < 0)] at hm
    by_contra hc
    rw [abs_of_neg (by linarith), abs_of_nonpos (by linarith)] at hm
    linarith
  · rw [if_neg (by linarith)]
    by_contra hc
    have hp0 : 0 < p := by linarith
    rw [abs_of_pos h, abs_of_pos hp0, abs_of_nonneg (by linarith), abs_of_nonneg (by linarith)] at hm
    linarith

theorem gradNum_neg {p : ℚ} (h : GradNum E F p) : GradNum E F (-p) := by
  obtain ⟨m, e, h1, h2⟩ := h
  exact ⟨m, e, h1, by rwa [abs_neg]⟩

theorem grad_le {p x t : ℚ} (hs : GradNum E F p) (hp : x ≤ p) (hx : x ≠ 0) (h : GradFree E F x t) : t ≤ p := by
  have := grad_ge (gradNum_neg hs) (neg_le_neg hp) (neg_ne_zero.mpr hx) (grad_neg hx h)
  linarith

theorem gradNum_zero : GradNum E F 0 := ⟨0, leastExp E F, ⟨by positivity, le_rfl⟩, by simp⟩

theorem gradNum_two {p : ℚ} (h : GradNum E F p) : GradNum E F (2 * p) := by
  obtain ⟨m, e, ⟨h1, h3⟩, h2⟩ := h
  refine ⟨m, e + 1, ⟨h1, by omega⟩, ?_⟩
  rw [abs_mul, h2, zpow_add_one₀ (by norm_num)]
  norm_num; ring

theorem gradFree_num {x t : ℚ} (h : GradFree E F x t) : GradNum E F t := by
  obtain ⟨m, e, hn, rfl⟩ := h
  refine ⟨m, e, hn.1, ?_⟩
  have := two_zpow_pos e
  rw [abs_mul, abs_of_nonneg (show (0 : ℚ) ≤ m * 2 ^ e by positivity)]
  split <;> norm_num

theorem gradual_free {q : ℚ} {d : Datum} (h : RoundedGradual E F q d) :
    ∃ t, GradFree E F q t ∧ (|t| < ieeeLimit E → d.fin = some t) ∧ (∀ s, d.fin = some s → s = t ∧ |t| < ieeeLimit E) := by
  obtain ⟨m, e, hn, rfl⟩ := h
  have hw : 0 ≤ (m : ℚ) * 2 ^ e := by have := two_zpow_pos e; positivity
  have habs : |(if q < 0 then (-1 : ℚ) else 1) * ((m : ℚ) * 2 ^ e)| = m * 2 ^ e := by
    rw [abs_mul, abs_of_nonneg hw]
    split <;> norm_num
  refine ⟨_, ⟨m, e, hn, rfl⟩, ?_⟩
  rw [habs]
  by_cases h0 : m = 0
  · subst h0
    rw [if_pos rfl]
    have hl : 0 < ieeeLimit E := two_zpow_pos _
    refine ⟨fun _ => ?_, fun s hs => ?_⟩
    · simp [Datum.fin]
    · injection hs with hs
      simp [← hs, hl]
  · rw [if_neg h0]
    by_cases h1 : ieeeLimit E ≤ m * 2 ^ e
    · rw [if_pos h1]
      exact ⟨fun h => absurd h1 (not_le.mpr h), fun s hs => by cases hs⟩
    · rw [if_neg h1]
      exact ⟨fun _ => rfl, fun s hs => by injection hs with hs; exact ⟨hs.symm, not_le.mp h1⟩⟩

theorem gradual_mid (hF : 1 ≤ F) : MidRounding (GradValue E F) (RoundedG0 E F) := by
  have hlim : 0 < ieeeLimit E := two_zpow_pos _
  have hmin : 0 < ieeeMin E := two_zpow_pos _
  have zero : ∀ {d : Datum}, RoundedG0 E F 0 d → d.fin = some 0 := by
    intro d h
    unfold RoundedG0 at h
    rw [if_pos rfl] at h
    obtain ⟨s, rfl⟩ := h
    rfl
  have nz : ∀ {x : ℚ} {d : Datum}, x ≠ 0 → RoundedG0 E F x d → RoundedGradual E F x d := by
    intro x d hx h
    unfold RoundedG0 at h
    rwa [if_neg hx] at h
  have between : ∀ {p q x : ℚ} {d : Datum}, GradValue E F p → GradValue E F q → p ≤ x → x ≤ q → RoundedG0 E F x d →
      ∃ h, d.fin = some h ∧ GradValue E F h ∧ p ≤ h ∧ h ≤ q := by
    intro p q x d hp hq hpx hxq hd
    by_cases hx : x = 0
    · subst hx
      exact ⟨0, zero hd, ⟨gradNum_zero, by rwa [abs_zero]⟩, hpx, hxq⟩
    · obtain ⟨t, ht, h1, -⟩ := gradual_free (nz hx hd)
      have h2 := grad_ge hp.1 hpx hx ht
      have h3 := grad_le hq.1 hxq hx ht
      have h4 : |t| < ieeeLimit E := by
        have := (abs_lt.mp hp.2).1
        have := (abs_lt.mp hq.2).2
        rw [abs_lt]; constructor <;> linarith
      exact ⟨t, h1 h4, ⟨gradFree_num ht, h4⟩, h2, h3⟩
  refine ⟨between, ?_, ?_, ?_⟩
  · intro p x d s hp hpx hd hs
    by_cases hx : x = 0
    · subst hx
      rw [zero hd] at hs
      injection hs with hs
      linarith
    · obtain ⟨t, ht, -, h1⟩ := gradual_free (nz hx hd)
      rw [(h1 s hs).1]
      exact grad_ge (gradNum_two hp.1) hpx hx ht
  · intro p x d s hp hpx hd hs
    by_cases hx : x = 0
    · subst hx
      rw [zero hd] at hs
      injection hs with hs
      linarith
    · obtain ⟨t, ht, -, h1⟩ := gradual_free (nz hx hd)
      rw [(h1 s hs).1]
      exact grad_le (gradNum_two hp.1) hpx hx ht
  · intro p q d s d' hp hq hpq hd hs hd'
    have v0 : GradValue E F 0 := ⟨gradNum_zero, by rwa [abs_zero]⟩
    by_cases hx : q - p = 0
    · rw [hx] at hd
      rw [zero hd] at hs
      injection hs with hs
      subst hs
      rw [zero_div] at hd'
      exact ⟨0, zero hd', le_rfl, by linarith⟩
    · have hpos : 0 < q - p := lt_of_le_of_ne (by linarith) (Ne.symm hx)
      obtain ⟨t, ht, -, h1⟩ := gradual_free (nz hx hd)
      obtain ⟨rfl, h1⟩ := h1 s hs
      have s0 : 0 ≤ s := grad_ge gradNum_zero hpos.le hx ht
      by_cases hg : GradNum E F (q - p)
      · have e : s = q - p := le_antisymm (grad_le hg le_rfl hx ht) (grad_ge hg le_rfl hx ht)
        obtain ⟨h, a, -, b, c⟩ := between v0 (show GradValue E F (q - p) from ⟨hg, by rwa [← e]⟩) (by linarith) (by linarith) hd'
        exact ⟨h, a, b, c⟩
      · have hbig : 2 * ieeeMin E ≤ q - p := by
          by_contra hc
          push Not at hc
          apply hg
          obtain ⟨⟨m1, e1, ⟨-, a1⟩, b1⟩, -⟩ := hp
          obtain ⟨⟨m2, e2, ⟨-, a2⟩, b2⟩, -⟩ := hq
          have mult : ∀ {v : ℚ} {m : ℕ} {e : ℤ}, leastExp E F ≤ e → |v| = m * 2 ^ e → ∃ n : ℤ, v = n * 2 ^ leastExp E F := by
            intro v m e he hv
            obtain ⟨n, hn⟩ := signed_mult hv
            refine ⟨n * 2 ^ (e - leastExp E F).toNat, ?_⟩
            rw [hn]
            push_cast
            rw [mul_assoc, ← zpow_natCast, ← zpow_add₀ (by norm_num)]
            congr 2; omega
          obtain ⟨n1, c1⟩ := mult a1 b1
          obtain ⟨n2, c2⟩ := mult a2 b2
          have hL := two_zpow_pos (leastExp E F)
          have e3 : q - p = ((n2 - n1 : ℤ) : ℚ) * 2 ^ leastExp E F := by rw [c1, c2]; push_cast; ring
          have e4 : 2 * ieeeMin E = 2 ^ (F + 1) * 2 ^ leastExp E F := by
            unfold ieeeMin leastExp
            rw [← zpow_natCast, ← zpow_add₀ (by norm_num), ← zpow_one_add₀ (by norm_num)]
            congr 1; push_cast; ring
          have hn0 : 0 < n2 - n1 := by
            rw [e3] at hpos
            have := (mul_pos_iff_of_pos_right hL).mp hpos
            exact_mod_cast this
          have hn1 : ((n2 - n1 : ℤ) : ℚ) < 2 ^ (F + 1) := by
            rw [e3, e4] at hc
            exact lt_of_mul_lt_mul_right hc hL.le
          have hn2 : n2 - n1 < 2 ^ (F + 1) := by exact_mod_cast hn1
          refine ⟨(n2 - n1).toNat, leastExp E F, ⟨?_, le_rfl⟩, ?_⟩
          · zify; rw [Int.toNat_of_nonneg hn0.le]; exact hn2
          · rw [abs_of_pos hpos, e3]
            congr 1
            have : (((n2 - n1).toNat : ℤ) : ℚ) = ((n2 - n1 : ℤ) : ℚ) := by rw [Int.toNat_of_nonneg hn0.le]
            rw [← this]; push_cast; rfl
        have hu : uro F ≤ 1 / 4 := by
          unfold uro
          have : (2 : ℚ) ^ (-(F : ℤ) - 1) ≤ 2 ^ (-2 : ℤ) := zpow_le_zpow_right₀ (by norm_num) (by omega)
          norm_num at this ⊢
          exact this
        have hup : 0 ≤ uro F := (two_zpow_pos _).le
        have err : ∀ {x t : ℚ}, 0 < x → ieeeMin E ≤ x → GradFree E F x t → t ≤ x + uro F * x := by
          rintro x t h0 hx ⟨m, e, hn, rfl⟩
          rw [abs_of_pos h0] at hn
          rw [if_neg (by linarith)]
          have := (abs_le.mp (gradual_err_normal hx hn)).1
          linarith
        have e1 := err hpos (by linarith) ht
        have gmin : GradNum E F (2 * ieeeMin E) := by
          refine gradNum_two ⟨2 ^ F, leastExp E F, ⟨Nat.pow_lt_pow_right (by norm_num) (by omega), le_rfl⟩, ?_⟩
          rw [abs_of_pos hmin]
          unfold ieeeMin leastExp
          push_cast
          rw [← zpow_natCast, ← zpow_add₀ (by norm_num)]
          congr 1; ring
        have hs2 : 2 * ieeeMin E ≤ s := grad_ge gmin hbig hx ht
        have hsn : s / 2 ≠ 0 := by intro h; linarith
        obtain ⟨h, a, -, b, -⟩ := between v0 (show GradValue E F s from ⟨gradFree_num ht, h1⟩) (by linarith) (by linarith) hd'
        refine ⟨h, a, b, ?_⟩
        obtain ⟨t', ht', -, h2⟩ := gradual_free (nz hsn hd')
        obtain ⟨rfl, -⟩ := h2 h a
        have e2 := err (x := s / 2) (by linarith) (by linarith) ht'
        nlinarith

end Thls
