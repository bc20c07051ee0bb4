import Verif.Model.TypeTest
import Verif.SpecTypeTest
import Verif.Proofs.OpCheck
import Verif.Proofs.DotRef
import Verif.Proofs.Fma
import Verif.Props.Double
import Verif.Props.HostDouble
import Verif.Props.Text

/-! # The tests of the number types: helper lemmas -/

namespace Thls
open Spec

/-- A rounded number reaches a power of two exactly when the number reaches the midpoint below it. -/
theorem nearest_reaches {p m : ℕ} {e k : ℤ} {x : ℚ} (hp : 1 ≤ p) (h : NearestEven p x m e) :
    (2 : ℚ) ^ k ≤ m * 2 ^ e ↔ (1 - 2 ^ (-(p : ℤ) - 1)) * 2 ^ k ≤ x := by
  -- the numbers next to `2^k`
  have pp : 1 ≤ 2 ^ (p - 1) := Nat.one_le_two_pow
  have hpp : 2 ^ p = 2 * 2 ^ (p - 1) := by rw [← pow_succ']; congr 1; omega
  have sTop : IsSig p (2 ^ (p - 1)) := ⟨le_refl _, by omega⟩
  have sPred : IsSig p (2 ^ p - 1) := ⟨by omega, by omega⟩
  have vTop : ((2 ^ (p - 1) : ℕ) : ℚ) * 2 ^ (k - p + 1) = 2 ^ k := by
    push_cast
    rw [← zpow_natCast, ← zpow_add₀ (by norm_num)]; congr 1; omega
  have hw : (2 : ℚ) ^ k = 2 ^ p * 2 ^ (k - p) := by
    rw [← zpow_natCast, ← zpow_add₀ (by norm_num)]; congr 1; omega
  have vPred : ((2 ^ p - 1 : ℕ) : ℚ) * 2 ^ (k - p) = 2 ^ k - 2 ^ (k - p) := by
    rw [Nat.cast_sub (Nat.one_le_two_pow)]; push_cast; rw [hw]; ring
  have mid : (1 - (2 : ℚ) ^ (-(p : ℤ) - 1)) * 2 ^ k = 2 ^ k - 2 ^ (k - p) / 2 := by
    have : (2 : ℚ) ^ (-(p : ℤ) - 1) * 2 ^ k = 2 ^ (k - p) / 2 := by
      rw [← zpow_add₀ (by norm_num), show -(p : ℤ) - 1 + k = (k - p) - 1 by ring, zpow_sub₀ (by norm_num), zpow_one]
    rw [sub_mul, one_mul, this]
  have u : (0 : ℚ) < 2 ^ (k - p) := two_zpow_pos _
  have d1 := h.2.1 _ (k - p + 1) sTop
  have d2 := h.2.1 _ (k - p) sPred
  have t2 := h.2.2 _ (k - p + 1) sTop
  rw [vTop] at d1 t2
  rw [vPred] at d2
  rw [mid]
  constructor
  · intro hk
    by_contra hc
    push Not at hc
    rcases le_or_gt x (2 ^ k - 2 ^ (k - p)) with hx | hx
    · rw [abs_of_nonpos (by linarith), abs_of_nonpos (by linarith)] at d2; linarith
    · rw [abs_of_nonpos (by linarith), abs_of_nonneg (by linarith)] at d2; linarith
  · intro hx
    by_contra hc
    push Not at hc
    have hle : (m : ℚ) * 2 ^ e ≤ 2 ^ k - 2 ^ (k - p) := by
      rcases sig_le_or_ge (e := k - p) (e' := e) hp sPred h.1 with hh | hh
      · rw [vPred] at hh; exact hh
      · have : ((2 ^ p - 1 : ℕ) : ℚ) * 2 ^ (k - p) + 2 ^ (k - p) = 2 ^ k := by rw [vPred]; ring
        rw [add_mul, one_mul, this] at hh
        linarith
    have e1 : |x - m * 2 ^ e| = x - m * 2 ^ e := abs_of_nonneg (by linarith)
    rcases le_or_gt x (2 ^ k) with hx2 | hx2
    · have e2 : |x - 2 ^ k| = 2 ^ k - x := by rw [abs_of_nonpos (by linarith)]; ring
      rw [e1, e2] at d1 t2
      have heq : x - (m : ℚ) * 2 ^ e = 2 ^ k - x := by linarith
      have hev := t2 heq (by linarith)
      have : (m : ℚ) * 2 ^ e = ((2 ^ p - 1 : ℕ) : ℚ) * 2 ^ (k - p) := by rw [vPred]; linarith
      obtain ⟨hm, -⟩ := sig_unique hp h.1 sPred this
      rw [hm] at hev
      rcases hev with ⟨r, hr⟩
      omega
    · have e2 : |x - 2 ^ k| = x - 2 ^ k := abs_of_nonneg (by linarith)
      rw [e1, e2] at d1
      linarith

/-- Rounding a double to at most 53 bits gives a double. -/
theorem nearest_binary64 {p m n : ℕ} {e j : ℤ} (hp : 1 ≤ p) (hp2 : p ≤ 53) (hb : IsBinary64 n j)
    (h : NearestEven p ((n : ℚ) * 2 ^ j) m e) : ∃ m' e', IsBinary64 m' e' ∧ (m : ℚ) * 2 ^ e = m' * 2 ^ e' := by
  have hpp : 2 ^ p = 2 * 2 ^ (p - 1) := by rw [← pow_succ']; congr 1; omega
  have h53 : 2 ^ p ≤ 2 ^ 53 := Nat.pow_le_pow_right (by norm_num) hp2
  by_cases he : -1074 ≤ e
  · exact ⟨m, e, ⟨lt_of_lt_of_le h.1.2 h53, he⟩, rfl⟩
  have hj : -1074 ≤ j := hb.2
  refine ⟨n, j, hb, ?_⟩
  obtain ⟨N, hN⟩ : ∃ N : ℕ, (n : ℚ) * 2 ^ j = N * 2 ^ e := by
    refine ⟨n * 2 ^ (j - e).toNat, ?_⟩
    push_cast
    rw [mul_assoc, ← zpow_natCast, ← zpow_add₀ (by norm_num)]; congr 2; omega
  rw [hN] at h ⊢
  have u : (0 : ℚ) < 2 ^ e := two_zpow_pos _
  rcases lt_trichotomy N m with hlt | heq | hgt
  · exfalso
    have hNm : (N : ℚ) + 1 ≤ m := by exact_mod_cast hlt
    have e1 : |(N : ℚ) * 2 ^ e - m * 2 ^ e| = (m - N) * 2 ^ e := by
      rw [abs_of_nonpos (by nlinarith)]; ring
    by_cases hm : 2 ^ (p - 1) ≤ m - 1
    · have := h.2.1 (m - 1) e ⟨hm, by have := h.1.2; omega⟩
      have c : ((m - 1 : ℕ) : ℚ) = m - 1 := by rw [Nat.cast_sub (by have := h.1.1; omega)]; norm_num
      rw [e1, c, abs_of_nonpos (by nlinarith)] at this
      nlinarith
    · have hm' : m = 2 ^ (p - 1) := by have := h.1.1; omega
      have := h.2.1 (2 * m - 1) (e - 1) ⟨by omega, by omega⟩
      have c : ((2 * m - 1 : ℕ) : ℚ) = 2 * m - 1 := by
        rw [Nat.cast_sub (by omega)]; push_cast; ring
      have c2 : (2 : ℚ) ^ (e - 1) = 2 ^ e / 2 := by rw [zpow_sub₀ (by norm_num), zpow_one]
      rw [e1, c, c2, abs_of_nonpos (by nlinarith)] at this
      nlinarith
  · rw [heq]
  · exfalso
    have hNm : (m : ℚ) + 1 ≤ N := by exact_mod_cast hgt
    have e1 : |(N : ℚ) * 2 ^ e - m * 2 ^ e| = (N - m) * 2 ^ e := by
      rw [abs_of_nonneg (by nlinarith)]; ring
    by_cases hm : m + 1 < 2 ^ p
    · have := h.2.1 (m + 1) e ⟨by have := h.1.1; omega, hm⟩
      push_cast at this
      rw [e1, abs_of_nonneg (by nlinarith)] at this
      nlinarith
    · have hm' : m + 1 = 2 ^ p := by have := h.1.2; omega
      have := h.2.1 (2 ^ (p - 1)) (e + 1) ⟨le_refl _, by omega⟩
      have c : ((2 ^ (p - 1) : ℕ) : ℚ) * 2 ^ (e + 1) = (m + 1) * 2 ^ e := by
        have : ((m : ℚ) + 1) = 2 * ((2 ^ (p - 1) : ℕ) : ℚ) := by
          rw [show (m : ℚ) + 1 = ((m + 1 : ℕ) : ℚ) by push_cast; ring, hm', hpp]; push_cast; ring
        rw [this, zpow_add₀ (by norm_num), zpow_one]; ring
      rw [e1, c, abs_of_nonneg (by nlinarith)] at this
      nlinarith

namespace TypeTest

theorem seqCheck_iff {a b : Option Bool} : seqCheck a b = some true ↔ a = some true ∧ b = some true := by
  unfold seqCheck
  rcases a with _ | _ | _ <;> simp

/-- What the tests need of a number type with `F+1` bits and the least number `2^k`. -/
structure Carries (F : ℕ) (k : ℤ) {T : Type} (ofM : Bool → Mpfr → Option T) (toM : T → Mpfr) : Prop where
  ok : ∀ x, (toM x).Ok
  zero : ∀ allow s, ∃ x, ofM allow (.zero s) = some x ∧ (toM x).datum = .zero s
  inRange : ∀ allow m e, IsSig (F + 1) m → (m : ℚ) * 2 ^ e ≤ 9 → (2 : ℚ) ^ k ≤ m * 2 ^ e →
    ∃ x, ofM allow (.num false m e) = some x ∧ (toM x).datum = .num (m * 2 ^ e)
  small : ∀ m e, IsSig (F + 1) m → (m : ℚ) * 2 ^ e < 2 ^ k →
    ofM false (.num false m e) = none ∧ ∃ x, ofM true (.num false m e) = some x ∧ (toM x).datum = .zero false

/-- What a draw is in MPFR. -/
theorem setD_cases (p : ℕ) {d : Ieee 11 52} {v : ℚ} (h : d.datum.fin = some v) :
    (v = 0 ∧ ∃ s, setD p d = .zero s) ∨ (v ≠ 0 ∧ setD p d = Mpfr.rndn p v) := by
  have hd := dblValue_datum d
  unfold setD
  cases dd : d.datum with
  | nan => rw [dd] at h; cases h
  | inf s => rw [dd] at h; cases h
  | zero s =>
    rw [dd] at h hd
    left
    refine ⟨(Option.some.inj h).symm, s, ?_⟩
    cases hv : dblValue d with
    | nan => rw [hv] at hd; cases hd
    | inf t => rw [hv] at hd; cases hd
    | num t m e => rw [hv] at hd; cases hd
    | zero t => rw [hv] at hd; injection hd with hd; subst hd; rfl
  | num w =>
    rw [dd] at h hd
    injection h with h
    subst h
    right
    obtain ⟨s, m, e, h1, h2, h3⟩ := dblValue_num dd
    refine ⟨Mpfr.num_ne_zero (dblValue_ok d) hd, ?_⟩
    rw [h1, Mpfr.set, Mpfr.value, ← h3]

/-- Rounding a positive number in MPFR. -/
theorem rndn_pos {p : ℕ} (hp : 2 ≤ p) {v : ℚ} (hv : 0 < v) :
    ∃ m e, Mpfr.rndn p v = .num false m e ∧ NearestEven p v m e := by
  refine ⟨_, _, ?_, Mpfr.rndnPos_spec hp hv⟩
  rw [Mpfr.rndn, if_neg hv.ne', abs_of_pos hv, decide_eq_false (by linarith)]

theorem nearest_le_nine {p m : ℕ} {e : ℤ} {v : ℚ} (hp : 4 ≤ p) (hv : v ≤ 9) (h : NearestEven p v m e) : (m : ℚ) * 2 ^ e ≤ 9 := by
  have s9 : IsSig p (9 * 2 ^ (p - 4)) := by
    have : 2 ^ p = 16 * 2 ^ (p - 4) := by rw [show (16 : ℕ) = 2 ^ 4 by norm_num, ← pow_add]; congr 1; omega
    have h2 : 2 ^ (p - 1) = 8 * 2 ^ (p - 4) := by rw [show (8 : ℕ) = 2 ^ 3 by norm_num, ← pow_add]; congr 1; omega
    have : 0 < 2 ^ (p - 4) := by positivity
    exact ⟨by omega, by omega⟩
  have v9 : ((9 * 2 ^ (p - 4) : ℕ) : ℚ) * 2 ^ (-((p - 4 : ℕ) : ℤ)) = 9 := by
    push_cast
    rw [zpow_neg, zpow_natCast]; field_simp
  have d := h.2.1 _ (-((p - 4 : ℕ) : ℤ)) s9
  rw [v9] at d
  by_contra hc
  push Not at hc
  rw [abs_of_nonpos (by linarith), abs_of_nonpos (by linarith)] at d
  linarith

theorem equalP_same {x y : Mpfr} (h : x.datum = y.datum) (hn : x.datum ≠ .nan) : equalP x y = true := by
  have h1 : x.isNan = false := by cases x <;> first | rfl | exact absurd rfl hn
  have h2 : y.isNan = false := by cases y <;> first | rfl | exact absurd h hn
  simp [equalP, h1, h2, Mpfr.cmp_same h]

/-- A draw that is kept: what it becomes. -/
theorem carries_draw {F : ℕ} {k : ℤ} {T : Type} {ofM : Bool → Mpfr → Option T} {toM : T → Mpfr} (C : Carries F k ofM toM) (hF : 3 ≤ F)
    {a : Mpfr} {v : ℚ} (h0 : 0 ≤ v) (h9 : v ≤ 9) (ha : (v = 0 ∧ ∃ s, a = .zero s) ∨ (v ≠ 0 ∧ a = Mpfr.rndn (F + 1) v)) :
    (Reaches (F + 1) k v → ∀ allow, ∃ x, ofM allow a = some x ∧ (toM x).datum = a.datum) ∧
    (¬ Reaches (F + 1) k v → ofM false a = none ∧ ∃ x, ofM true a = some x ∧ (toM x).datum = .zero false) ∧
    a.Ok ∧ ∃ w, a.datum.fin = some w ∧ 0 ≤ w ∧ w ≤ 9 ∧ RoundsTo (F + 1) v w := by
  rcases ha with ⟨rfl, s, rfl⟩ | ⟨hv, rfl⟩
  · exact ⟨fun _ allow => C.zero allow s, fun h => absurd (Or.inl rfl) h, trivial, 0, rfl, le_refl _, by norm_num, Or.inl ⟨rfl, rfl⟩⟩
  · have hpos : 0 < v := lt_of_le_of_ne h0 (Ne.symm hv)
    obtain ⟨m, e, h1, h2⟩ := rndn_pos (p := F + 1) (by omega) hpos
    have h3 := nearest_le_nine (by omega) h9 h2
    have h4 := nearest_reaches (k := k) (by omega) h2
    have hd : (Mpfr.num false m e).datum = .num (m * 2 ^ e) := by simp [Mpfr.datum]
    have hm : 0 < m := lt_of_lt_of_le (by positivity) h2.1.1
    rw [h1]
    refine ⟨?_, ?_, hm, _, by rw [hd]; rfl, by positivity, h3, Or.inr ⟨hpos, m, e, h2, rfl⟩⟩
    · intro hr allow
      have hr' := h4.2 (hr.resolve_left hv)
      obtain ⟨x, x1, x2⟩ := C.inRange allow m e h2.1 h3 hr'
      exact ⟨x, x1, by rw [x2, hd]⟩
    · intro hr
      exact C.small m e h2.1 (not_le.1 (fun hc => hr (Or.inr (h4.1 hc))))

theorem roundsTo_unique {p : ℕ} (hp : 1 ≤ p) {v a b : ℚ} (h : RoundsTo p v a) (h' : RoundsTo p v b) : a = b := by
  rcases h with ⟨h1, h2⟩ | ⟨h1, m, e, h2, h3⟩ <;> rcases h' with ⟨h1', h2'⟩ | ⟨h1', m', e', h2', h3'⟩
  · rw [h2, h2']
  · exact absurd h1 h1'.ne'
  · exact absurd h1' h1.ne'
  · obtain ⟨rfl, rfl⟩ := nearest_unique hp h2 h2'
    rw [h3, h3']

/-- The product of two kept draws, as MPFR computes it from the draws and from what was stored. -/
theorem mul_cases {p : ℕ} {a b x y : Mpfr} (oa : a.Ok) (ob : b.Ok) (ox : x.Ok) (oy : y.Ok) (hx : x.datum = a.datum)
    (hy : y.datum = b.datum) {u w : ℚ} (hu : a.datum.fin = some u) (hw : b.datum.fin = some w) :
    Mpfr.mul p x y = Mpfr.mul p a b ∧
      ((u * w = 0 ∧ ∃ s, Mpfr.mul p a b = .zero s) ∨ (u * w ≠ 0 ∧ Mpfr.mul p a b = Mpfr.rndn p (u * w))) := by
  have m1 := Mpfr.mul_exact p oa ob
  have m2 := Mpfr.mul_exact p ox oy
  rw [hx, hy] at m2
  have spec : ∀ s, exactMul a.datum b.datum = .zero s → Mpfr.mul p x y = .zero s ∧ Mpfr.mul p a b = .zero s := by
    intro s hs
    rw [hs] at m1 m2
    have z : ∀ q : Mpfr, q.datum = .zero s → q = .zero s := by
      intro q hq
      cases q with
      | zero t => injection hq with hq; rw [hq]
      | nan => cases hq
      | inf t => cases hq
      | num t m e => cases hq
    exact ⟨z _ (m2.1 (fun w h => by cases h)), z _ (m1.1 (fun w h => by cases h))⟩
  cases da : a.datum with
  | nan => rw [da] at hu; cases hu
  | inf s => rw [da] at hu; cases hu
  | zero s =>
    rw [da] at hu; injection hu with hu; subst hu
    obtain ⟨t, ht⟩ : ∃ t, exactMul a.datum b.datum = .zero t := by
      cases db : b.datum with
      | nan => rw [db] at hw; cases hw
      | inf s => rw [db] at hw; cases hw
      | zero t => exact ⟨_, by rw [da]; rfl⟩
      | num t => exact ⟨_, by rw [da]; rfl⟩
    obtain ⟨z1, z2⟩ := spec t ht
    exact ⟨by rw [z1, z2], Or.inl ⟨zero_mul _, t, z2⟩⟩
  | num u' =>
    rw [da] at hu; injection hu with hu; subst hu
    cases db : b.datum with
    | nan => rw [db] at hw; cases hw
    | inf s => rw [db] at hw; cases hw
    | zero s =>
      rw [db] at hw; injection hw with hw; subst hw
      obtain ⟨t, ht⟩ : ∃ t, exactMul a.datum b.datum = .zero t := ⟨_, by rw [da, db]; rfl⟩
      obtain ⟨z1, z2⟩ := spec t ht
      exact ⟨by rw [z1, z2], Or.inl ⟨mul_zero _, t, z2⟩⟩
    | num w' =>
      rw [db] at hw; injection hw with hw; subst hw
      have he : exactMul a.datum b.datum = .num (u' * w') := by rw [da, db]; rfl
      rw [he] at m1 m2
      exact ⟨by rw [m1.2 _ rfl, m2.2 _ rfl],
        Or.inr ⟨mul_ne_zero (Mpfr.num_ne_zero oa da) (Mpfr.num_ne_zero ob db), m1.2 _ rfl⟩⟩

/-- The loop body of `test2`. -/
theorem productCheck_iff {F : ℕ} {k : ℤ} {T : Type} {ofM : Bool → Mpfr → Option T} {toM : T → Mpfr} (C : Carries F k ofM toM) (hF : 3 ≤ F)
    {mul : T → T → Option T} (hmul : ∀ x y, mul x y = ofM true (Mpfr.mul (F + 1) (toM x) (toM y)))
    {d d' : Ieee 11 52} {v v' : ℚ} (hd : d.datum.fin = some v) (hd' : d'.datum.fin = some v') (h0 : 0 ≤ v) (h0' : 0 ≤ v')
    (h1 : v < 1) (h1' : v' < 1) :
    productCheck (ofM false) toM mul (F + 1) (setD (F + 1) d) (setD (F + 1) d') = some true ↔
      Reaches (F + 1) k v ∧ Reaches (F + 1) k v' ∧
      ∀ a b, RoundsTo (F + 1) v a → RoundsTo (F + 1) v' b → Reaches (F + 1) k (a * b) := by
  obtain ⟨a1, a2, oa, u, hu, u0, u9, ur⟩ := carries_draw C hF h0 (by linarith) (setD_cases (F + 1) hd)
  obtain ⟨b1, b2, ob, w, hw, w0, w9, wr⟩ := carries_draw C hF h0' (by linarith) (setD_cases (F + 1) hd')
  generalize setD (F + 1) d = a at *
  generalize setD (F + 1) d' = b at *
  have le1 : ∀ {q q' : ℚ}, RoundsTo (F + 1) q q' → q < 1 → q' ≤ 1 := by
    intro q q' hr hq
    rcases hr with ⟨-, h⟩ | ⟨-, m, e, h2, h3⟩
    · rw [h]; norm_num
    · rw [h3]
      have s1 : IsSig (F + 1) (2 ^ F) := ⟨by simp, Nat.pow_lt_pow_right (by norm_num) (by omega)⟩
      have d := h2.2.1 _ (-(F : ℤ)) s1
      have v1 : ((2 ^ F : ℕ) : ℚ) * 2 ^ (-(F : ℤ)) = 1 := by push_cast; rw [zpow_neg, zpow_natCast]; field_simp
      rw [v1] at d
      by_contra hc
      push Not at hc
      rw [abs_of_nonpos (by linarith), abs_of_nonpos (by linarith)] at d
      linarith
  have hu1 := le1 ur h1
  have hw1 := le1 wr h1'
  unfold productCheck
  by_cases r1 : Reaches (F + 1) k v
  swap
  · obtain ⟨n1, -⟩ := a2 r1
    rw [n1]; simp [r1]
  by_cases r2 : Reaches (F + 1) k v'
  swap
  · obtain ⟨n1, -⟩ := b2 r2
    obtain ⟨x, x1, -⟩ := a1 r1 false
    rw [x1, n1]; simp [r2]
  obtain ⟨x, x1, x2⟩ := a1 r1 false
  obtain ⟨y, y1, y2⟩ := b1 r2 false
  obtain ⟨hm, hc⟩ := mul_cases (p := F + 1) oa ob (C.ok x) (C.ok y) x2 y2 hu hw
  obtain ⟨c1, c2, oc, z, hz, z0, z9, zr⟩ := carries_draw C hF (mul_nonneg u0 w0) (by nlinarith) hc
  have key : (∀ a b, RoundsTo (F + 1) v a → RoundsTo (F + 1) v' b → Reaches (F + 1) k (a * b)) ↔ Reaches (F + 1) k (u * w) := by
    constructor
    · intro h; exact h u w ur wr
    · intro h p q hp hq
      rw [roundsTo_unique (by omega) hp ur, roundsTo_unique (by omega) hq wr]; exact h
  rw [key]
  simp only [x1, y1, hmul, hm, Option.bind_eq_bind, Option.bind_some, r1, r2, true_and]
  by_cases r3 : Reaches (F + 1) k (u * w)
  · obtain ⟨r, q1, q2⟩ := c1 r3 true
    simp only [q1, Option.bind_some, r3, iff_true]
    rw [equalP_same q2.symm (fun h => by rw [h] at hz; cases hz)]
  · obtain ⟨-, r, q1, q2⟩ := c2 r3
    simp only [q1, Option.bind_some, r3, iff_false]
    rcases hc with ⟨e0, -⟩ | ⟨e0, e1⟩
    · exact absurd (Or.inl e0) r3
    · have hpos : 0 < u * w := lt_of_le_of_ne (mul_nonneg u0 w0) (Ne.symm e0)
      obtain ⟨m, e, g1, g2⟩ := rndn_pos (p := F + 1) (by omega) hpos
      have hq : ∃ t, toM r = .zero t := by
        cases hr : toM r with
        | zero t => exact ⟨t, rfl⟩
        | nan => rw [hr] at q2; cases q2
        | inf t => rw [hr] at q2; cases q2
        | num t m e => rw [hr] at q2; cases q2
      obtain ⟨t, ht⟩ := hq
      have hm0 : 0 < m := lt_of_lt_of_le (by positivity) g2.1.1
      have hv0 : (0 : ℚ) < m * 2 ^ e := by positivity
      rw [e1, g1, ht]
      simp [equalP, Mpfr.cmp, Mpfr.value, not_lt.2 hv0.le, hv0]

/-- `test2` as a whole. -/
theorem test2_iff {F : ℕ} {k : ℤ} {T : Type} {ofM : Bool → Mpfr → Option T} {toM : T → Mpfr} (C : Carries F k ofM toM) (hF : 3 ≤ F)
    {mul : T → T → Option T} (hmul : ∀ x y, mul x y = ofM true (Mpfr.mul (F + 1) (toM x) (toM y)))
    {draws : ℕ → Ieee 11 52} {d : ℕ → ℚ} (hd : ∀ i, (draws i).datum.fin = some (d i) ∧ 0 ≤ d i ∧ d i < 1) :
    test2 (ofM false) toM mul (F + 1) draws = some true ↔ DrawsInRange (F + 1) k d := by
  unfold test2
  rw [OpTest.forAll_iff]
  have hp : ∀ i, productCheck (ofM false) toM mul (F + 1) (setD (F + 1) (draws (2 * i))) (setD (F + 1) (draws (2 * i + 1))) = some true ↔
      Reaches (F + 1) k (d (2 * i)) ∧ Reaches (F + 1) k (d (2 * i + 1)) ∧
      ∀ a b, RoundsTo (F + 1) (d (2 * i)) a → RoundsTo (F + 1) (d (2 * i + 1)) b → Reaches (F + 1) k (a * b) := fun i =>
    productCheck_iff C hF hmul (hd _).1 (hd _).1 (hd _).2.1 (hd _).2.1 (hd _).2.2 (hd _).2.2
  constructor
  · intro h
    have h' : ∀ i < 100, _ := fun i hi => (hp i).1 (h i (List.mem_range.2 hi))
    refine ⟨fun i hi => ?_, fun i hi => (h' i hi).2.2⟩
    rcases Nat.even_or_odd' i with ⟨j, hj | hj⟩
    · rw [hj]; exact (h' j (by omega)).1
    · rw [hj]; exact (h' j (by omega)).2.1
  · intro h i hi
    have hi' := List.mem_range.1 hi
    exact (hp i).2 ⟨h.1 _ (by omega), h.1 _ (by omega), h.2 i hi'⟩

end TypeTest
end Thls
