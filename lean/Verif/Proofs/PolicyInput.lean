import Verif.Model.PolicyInput
import Verif.Proofs.OpInput
import Verif.Proofs.PolicySoft
import Verif.SpecPolicyInput
import Verif.Props.Ieee

/-! Lemmas for C86: what `make_input` of the policy test produces. -/

namespace Thls
open Spec

namespace PolicyInput
open OpTest
variable {V : Type}

/-- What the inputs need of a policy: `lo..hi` are the exponents of the normal numbers. -/
structure Window (P : TestPolicy V) (L : TestLimits V) (D : V → Datum) (good : V → Prop) (F : ℕ) (lo hi : ℤ) : Prop where
  hF : 1 ≤ F
  lo0 : lo ≤ 0
  hi0 : 0 ≤ hi
  digits : P.digits = F + 1
  inside : ∀ allow s m e, IsSig (F + 1) m → lo ≤ e + F → e + F ≤ hi →
    ∃ v, P.fromMpfr (.num s m e) allow = some v ∧ good v ∧ D v = (Mpfr.num s m e).datum
  special : ∀ allow t, (∀ q, t.datum ≠ .num q) → ∃ v, P.fromMpfr t allow = some v ∧ good v ∧ D v = t.datum
  outside : ∀ s m e, IsSig (F + 1) m → -(F : ℤ) - 7 ≤ e + F → e + F ≤ F + 7 → ¬ (lo ≤ e + F ∧ e + F ≤ hi) →
    ∃ v, P.fromMpfr (.num s m e) true = some v ∧ (e + F < lo ∨ m = 2 ^ F → good v) ∧ D v = if e + F < lo then .zero s else .inf s
  min : P.toMpfr L.min = some (Mpfr.at_ false F ((lo - F) * 2 ^ F)) ∧ good L.min ∧ D L.min = .num (2 ^ lo)
  max : P.toMpfr L.max = some (Mpfr.at_ false F ((hi - F) * 2 ^ F + (2 ^ F - 1))) ∧ good L.max ∧
    D L.max = .num ((2 - 1 / 2 ^ F) * 2 ^ hi)
  inf : good L.infinity ∧ D L.infinity = .inf false

theorem pushAll_some {P : TestPolicy V} {allow : Bool} : ∀ {ts : List Mpfr}, (∀ t ∈ ts, ∃ a b, P.fromMpfr t allow = some a ∧
    P.fromMpfr t.flip allow = some b) → ∃ l, pushAll P allow ts = some l ∧ l.length = 2 * ts.length ∧
      ∀ x, x ∈ l ↔ ∃ t ∈ ts, P.fromMpfr t allow = some x ∨ P.fromMpfr t.flip allow = some x
  | [], _ => ⟨[], rfl, rfl, by simp⟩
  | t :: ts, h => by
    obtain ⟨a, b, ha, hb⟩ := h t (by simp)
    obtain ⟨l, h1, h2, h3⟩ := pushAll_some (ts := ts) (fun u hu => h u (by simp [hu]))
    refine ⟨[a, b] ++ l, ?_, ?_, ?_⟩
    · simp [pushAll, push, ha, hb, h1]
    · simp [h2]; ring
    · intro x
      simp only [List.mem_append, List.mem_cons, List.not_mem_nil, or_false, h3, exists_eq_or_imp, ha, hb, Option.some.injEq]
      constructor
      · rintro ((rfl | rfl) | h)
        · exact .inl (.inl rfl)
        · exact .inl (.inr rfl)
        · exact .inr h
      · rintro ((rfl | rfl) | h)
        · exact .inl (.inl rfl)
        · exact .inl (.inr rfl)
        · exact .inr h

theorem pushAll_none {P : TestPolicy V} {allow : Bool} : ∀ {ts : List Mpfr}, (∃ t ∈ ts, P.fromMpfr t allow = none) →
    pushAll P allow ts = none
  | [], h => by simp at h
  | t :: ts, h => by
    rcases h with ⟨u, hu, hn⟩
    rw [List.mem_cons] at hu
    rcases hu with rfl | hu
    · simp [pushAll, push, hn]
    · have := pushAll_none (ts := ts) ⟨u, hu, hn⟩
      simp [pushAll, this]

section
variable {P : TestPolicy V} {L : TestLimits V} {D : V → Datum} {good : V → Prop} {F : ℕ} {lo hi : ℤ}

/-- The exponent of the `k`-th number lies in the range. -/
def InWin (F : ℕ) (lo hi k : ℤ) : Prop := lo ≤ k / 2 ^ F + F ∧ k / 2 ^ F + F ≤ hi

theorem Window.at_ (h : Window P L D good F lo hi) (allow s : Bool) {k : ℤ} (hk : InWin F lo hi k) :
    ∃ v, P.fromMpfr (Mpfr.at_ s F k) allow = some v ∧ good v ∧ D v = .num ((if s then -1 else 1) * (Mpfr.at_ false F k).value) := by
  obtain ⟨v, h1, h2, h3⟩ := h.inside allow s _ _ (Mpfr.isSig_at F k) hk.1 hk.2
  exact ⟨v, h1, h2, by rw [h3]; simp [Mpfr.at_, Mpfr.value, Mpfr.datum]⟩

theorem Window.plusMinus (h : Window P L D good F lo hi) (allow : Bool) {k : ℤ} (hk : InWin F lo hi k) (d : Datum) :
    (∃ x, (P.fromMpfr (Mpfr.at_ false F k) allow = some x ∨ P.fromMpfr (Mpfr.at_ false F k).flip allow = some x) ∧ D x = d) ↔
      PlusMinus (Mpfr.at_ false F k).value d := by
  obtain ⟨a, ha, -, ha'⟩ := h.at_ allow false hk
  obtain ⟨b, hb, -, hb'⟩ := h.at_ allow true hk
  rw [Mpfr.flip_at, Bool.not_false, ha, hb]
  unfold PlusMinus
  simp only [Bool.false_eq_true, if_false, one_mul, if_true, neg_mul] at ha' hb'
  simp only [Option.some.injEq]
  constructor
  · rintro ⟨x, rfl | rfl, rfl⟩
    · exact .inl ha'
    · exact .inr hb'
  · rintro (rfl | rfl)
    · exact ⟨a, .inl rfl, ha'⟩
    · exact ⟨b, .inr rfl, hb'⟩

/-- A loop without `allow` over numbers of the range. -/
theorem Window.pushAll (h : Window P L D good F lo hi) {ts : List Mpfr}
    (ht : ∀ t ∈ ts, ∃ k, t = Mpfr.at_ false F k ∧ InWin F lo hi k) :
    ∃ l, pushAll P false ts = some l ∧ l.length = 2 * ts.length ∧ (∀ x ∈ l, good x ∧ D x ≠ .nan) ∧
      ∀ d, (∃ x ∈ l, D x = d) ↔ ∃ t ∈ ts, PlusMinus t.value d := by
  obtain ⟨l, h1, h2, h3⟩ := pushAll_some (P := P) (allow := false) (ts := ts) (by
    intro t hm
    obtain ⟨k, rfl, hk⟩ := ht t hm
    obtain ⟨a, ha, -⟩ := h.at_ false false hk
    obtain ⟨b, hb, -⟩ := h.at_ false true hk
    exact ⟨a, b, ha, hb⟩)
  refine ⟨l, h1, h2, fun x hx => ?_, fun d => ?_⟩
  · obtain ⟨t, hm, hx⟩ := (h3 x).mp hx
    obtain ⟨k, rfl, hk⟩ := ht t hm
    obtain ⟨a, ha, g1, d1⟩ := h.at_ false false hk
    obtain ⟨b, hb, g2, d2⟩ := h.at_ false true hk
    rw [Mpfr.flip_at, Bool.not_false, ha, hb] at hx
    rcases hx with hx | hx <;> (injection hx with hx; subst hx)
    · exact ⟨g1, by rw [d1]; exact fun h => Datum.noConfusion h⟩
    · exact ⟨g2, by rw [d2]; exact fun h => Datum.noConfusion h⟩
  · constructor
    · rintro ⟨x, hx, hd⟩
      obtain ⟨t, hm, hx⟩ := (h3 x).mp hx
      obtain ⟨k, rfl, hk⟩ := ht t hm
      exact ⟨_, hm, (h.plusMinus false hk d).mp ⟨x, hx, hd⟩⟩
    · rintro ⟨t, hm, hd⟩
      obtain ⟨k, rfl, hk⟩ := ht t hm
      obtain ⟨x, hx, hd⟩ := (h.plusMinus false hk d).mpr hd
      exact ⟨x, (h3 x).mpr ⟨_, hm, hx⟩, hd⟩

/-- What the range needs for the inputs to exist. -/
structure Room (F : ℕ) (lo hi b : ℤ) : Prop where
  ten : 10 ≤ b * 2 ^ F
  b10 : b ≤ 10
  hlo : lo ≤ -b
  hhi : b ≤ hi
  h3 : 3 ≤ hi

theorem ints_ok {b : ℤ} (hF : 1 ≤ F) (h : Room F lo hi b) : ∀ t ∈ ints (F + 1), ∃ k, t = Mpfr.at_ false F k ∧ InWin F lo hi k := by
  intro t ht
  simp only [ints, List.mem_map, List.mem_range] at ht
  obtain ⟨i, hi, rfl⟩ := ht
  obtain ⟨k, h1, h2, h3⟩ := small_int (F := F) (a := i + 1) hF (by omega) (by omega)
  have hb : 0 ≤ b := by
    by_contra hc
    have : b * 2 ^ F ≤ 0 := mul_nonpos_of_nonpos_of_nonneg (by omega) (by positivity)
    have := h.ten
    omega
  have := h.hlo; have := h.h3
  exact ⟨k, h1, by omega, by omega⟩

theorem above_ok {b c : ℤ} (h10 : 10 ≤ b * 2 ^ F) (h1 : lo ≤ c) (h2 : c + b ≤ hi) (hb : b ≤ 10) (hc : c ≤ 1) :
    (∀ t ∈ tenSteps (Mpfr.nextAbove (F + 1)) (Mpfr.at_ false F ((c - F) * 2 ^ F)), ∃ k, t = Mpfr.at_ false F k ∧ InWin F lo hi k) ∧
    ∀ i ≤ 10, (Mpfr.nextAbove (F + 1))^[i] (Mpfr.at_ false F ((c - F) * 2 ^ F)) = Mpfr.at_ false F ((c - F) * 2 ^ F + i) := by
  have e : ∀ i ≤ 10, (Mpfr.nextAbove (F + 1))^[i] (Mpfr.at_ false F ((c - F) * 2 ^ F)) = Mpfr.at_ false F ((c - F) * 2 ^ F + i) := by
    intro i hi
    have := step_bounds (F := F) (i := i) h10 (by omega) (by omega)
    have := le_emax
    rw [Mpfr.iterate_above i (by rw [index_div]; omega)]
  refine ⟨fun t ht => ?_, e⟩
  obtain ⟨i, _, h4, rfl⟩ := tenSteps_mem.mp ht
  refine ⟨_, e i h4, ?_⟩
  have := step_bounds (F := F) (i := i) h10 (by omega) (by omega)
  unfold InWin; rw [index_div]; omega

theorem below_ok {b c j : ℤ} (h10 : 10 ≤ b * 2 ^ F) (hj : j = 0 ∨ j = 2 ^ F - 1) (h1 : lo ≤ c - b) (h2 : c ≤ hi) (hb : b ≤ 10) (hc : 0 ≤ c) :
    (∀ t ∈ tenSteps (Mpfr.nextBelow (F + 1)) (Mpfr.at_ false F ((c - F) * 2 ^ F + j)), ∃ k, t = Mpfr.at_ false F k ∧ InWin F lo hi k) ∧
    ∀ i ≤ 10, (Mpfr.nextBelow (F + 1))^[i] (Mpfr.at_ false F ((c - F) * 2 ^ F + j)) = Mpfr.at_ false F ((c - F) * 2 ^ F + (j - i)) := by
  have bd : ∀ i : ℕ, i ≤ 10 → -b ≤ (j - i) / 2 ^ F ∧ (j - i) / 2 ^ F ≤ 0 := by
    intro i hi
    have := step_bounds (F := F) (i := i) h10 (by omega) (by omega)
    rcases hj with rfl | rfl
    · rw [zero_sub]; omega
    · omega
  have e : ∀ i ≤ 10, (Mpfr.nextBelow (F + 1))^[i] (Mpfr.at_ false F ((c - F) * 2 ^ F + j)) = Mpfr.at_ false F ((c - F) * 2 ^ F + (j - i)) := by
    intro i hi
    have := bd i hi
    have := emin_le
    rw [Mpfr.iterate_below i (by rw [add_sub_assoc, index_div]; omega), add_sub_assoc]
  refine ⟨fun t ht => ?_, e⟩
  obtain ⟨i, _, h4, rfl⟩ := tenSteps_mem.mp ht
  refine ⟨_, e i h4, ?_⟩
  have := bd i h4
  unfold InWin; rw [index_div]; omega

/-- A power of two converts with `allow`; outside of the range it becomes a zero or an infinity. -/
theorem Window.pow (h : Window P L D good F lo hi) (s : Bool) {k : ℤ} (k1 : -(F : ℤ) - 7 ≤ k) (k2 : k ≤ F + 7) :
    ∃ v, P.fromMpfr (Mpfr.at_ s F ((k - F) * 2 ^ F)) true = some v ∧ good v ∧
      D v = if k < lo then .zero s else if hi < k then .inf s else .num ((if s then -1 else 1) * 2 ^ k) := by
  have e1 : Mpfr.at_ s F ((k - F) * 2 ^ F) = .num s (2 ^ F) (k - F) := by
    have := Mpfr.at_eq s (F := F) (i := 0) (k - F) (by positivity)
    rwa [Nat.cast_zero, add_zero, Nat.add_zero] at this
  rw [e1]
  by_cases hk : lo ≤ k - F + F ∧ k - F + F ≤ hi
  · obtain ⟨v, h1, h2, h3⟩ := h.inside true s _ _ (isSig_pow F) hk.1 hk.2
    refine ⟨v, h1, h2, ?_⟩
    rw [sub_add_cancel] at hk
    rw [h3, if_neg (by omega), if_neg (by omega), Mpfr.datum]
    congr 1
    rw [zpow_sub₀ (by norm_num), zpow_natCast]
    push_cast
    field_simp
  · obtain ⟨v, h1, h2, h3⟩ := h.outside s _ _ (isSig_pow F) (by omega) (by omega) hk
    refine ⟨v, h1, h2 (.inr rfl), ?_⟩
    rw [sub_add_cancel] at hk h3
    rw [h3]
    split_ifs with c1 c2
    · rfl
    · rfl
    · omega

/-- What the loop over the powers of two pushes. -/
theorem Window.powers (h : Window P L D good F lo hi) :
    ∃ l, PolicyInput.pushAll P true (binaryPowers (F + 1)) = some l ∧ l.length = 2 * (2 * (F + 1) + 12) ∧ (∀ x ∈ l, good x ∧ D x ≠ .nan) ∧
      ∀ x, x ∈ l ↔ ∃ t ∈ binaryPowers (F + 1), P.fromMpfr t true = some x ∨ P.fromMpfr t.flip true = some x := by
  have conv : ∀ t ∈ binaryPowers (F + 1), ∀ u, u = t ∨ u = t.flip → ∃ v, P.fromMpfr u true = some v ∧ good v ∧ D v ≠ .nan := by
    intro t ht u hu
    simp only [binaryPowers, List.mem_map, List.mem_range] at ht
    obtain ⟨i, hi, rfl⟩ := ht
    obtain ⟨s1, s2, s3⟩ := setLdexp_at h.hF (((F + 1 : ℕ) : ℤ) + 6 - i)
    by_cases c1 : 1024 ≤ ((F + 1 : ℕ) : ℤ) + 6 - i
    · rw [s1 c1] at hu
      have hs : ∃ s, u = .inf s := by rcases hu with rfl | rfl <;> exact ⟨_, rfl⟩
      obtain ⟨s, rfl⟩ := hs
      obtain ⟨v, g1, g2, g3⟩ := h.special true (.inf s) (by intro q hq; exact Datum.noConfusion hq)
      exact ⟨v, g1, g2, by rw [g3]; exact fun h => Datum.noConfusion h⟩
    · by_cases c2 : ((F + 1 : ℕ) : ℤ) + 6 - i < -1074
      · rw [s2 c2] at hu
        have hs : ∃ s, u = .zero s := by rcases hu with rfl | rfl <;> exact ⟨_, rfl⟩
        obtain ⟨s, rfl⟩ := hs
        obtain ⟨v, g1, g2, g3⟩ := h.special true (.zero s) (by intro q hq; exact Datum.noConfusion hq)
        exact ⟨v, g1, g2, by rw [g3]; exact fun h => Datum.noConfusion h⟩
      · rw [s3 (by omega) (by omega)] at hu
        have : ∃ s, u = Mpfr.at_ s F ((((F + 1 : ℕ) : ℤ) + 6 - i - F) * 2 ^ F) := by
          rcases hu with rfl | rfl
          · exact ⟨_, rfl⟩
          · exact ⟨_, rfl⟩
        obtain ⟨s, rfl⟩ := this
        obtain ⟨v, g1, g2, g3⟩ := h.pow s (k := ((F + 1 : ℕ) : ℤ) + 6 - i) (by push_cast; omega) (by push_cast; omega)
        refine ⟨v, g1, g2, ?_⟩
        rw [g3]
        split_ifs <;> exact fun h => Datum.noConfusion h
  obtain ⟨l, h1, h2, h3⟩ := pushAll_some (P := P) (allow := true) (ts := binaryPowers (F + 1)) (by
    intro t ht
    obtain ⟨a, ha, -⟩ := conv t ht t (.inl rfl)
    obtain ⟨b, hb, -⟩ := conv t ht t.flip (.inr rfl)
    exact ⟨a, b, ha, hb⟩)
  refine ⟨l, h1, by rw [h2]; simp [binaryPowers], fun x hx => ?_, h3⟩
  obtain ⟨t, ht, hx⟩ := (h3 x).mp hx
  rcases hx with hx | hx
  · obtain ⟨a, ha, g⟩ := conv t ht t (.inl rfl)
    rw [hx] at ha; injection ha with ha; subst ha; exact g
  · obtain ⟨a, ha, g⟩ := conv t ht t.flip (.inr rfl)
    rw [hx] at ha; injection ha with ha; subst ha; exact g

theorem min_value (F : ℕ) (k : ℤ) : (Mpfr.at_ false F ((k - F) * 2 ^ F)).value = 2 ^ k := by
  have := at_value (F := F) (i := 0) (k - F) (by positivity)
  rw [Nat.cast_zero, add_zero, Nat.cast_zero, zero_div, add_zero, one_mul, sub_add_cancel] at this
  exact this

theorem max_value (F i : ℕ) (k : ℤ) (hi : i < 2 ^ F) :
    (Mpfr.at_ false F ((k - F) * 2 ^ F + (2 ^ F - 1 - i))).value = (2 - (i + 1) / 2 ^ F) * 2 ^ k := by
  have hc : ((2 ^ F - 1 - i : ℕ) : ℤ) = 2 ^ F - 1 - i := by rw [Nat.cast_sub (by omega), Nat.cast_sub (by omega)]; push_cast; rfl
  have hq : ((2 ^ F - 1 - i : ℕ) : ℚ) = 2 ^ F - 1 - i := by rw [Nat.cast_sub (by omega), Nat.cast_sub (by omega)]; push_cast; rfl
  rw [← hc, at_value _ (by omega), hq, sub_add_cancel]
  congr 1; field_simp; ring

theorem Window.edges (h : Window P L D good F lo hi) : ∃ l, edgeCases P L = some l ∧ l.length = 8 ∧ (∀ x ∈ l, good x ∧ D x ≠ .nan) ∧
    ∀ d, (∃ x ∈ l, D x = d) ↔
      (∃ s, d = .zero s) ∨ (∃ s, d = .inf s) ∨ PlusMinus (2 ^ lo) d ∨ PlusMinus ((2 - 1 / 2 ^ F) * 2 ^ hi) d := by
  obtain ⟨mn, g6, d6⟩ := h.min
  obtain ⟨mx, g7, d7⟩ := h.max
  obtain ⟨g8, d8⟩ := h.inf
  have hlh := h.lo0.trans h.hi0
  obtain ⟨a, ha, g1, d1⟩ := h.special false (.inf true) (by intro q hq; exact Datum.noConfusion hq)
  obtain ⟨d, hd, g4, d4⟩ := h.special false (.zero true) (by intro q hq; exact Datum.noConfusion hq)
  obtain ⟨e, he, g5, d5⟩ := h.special false (.zero false) (by intro q hq; exact Datum.noConfusion hq)
  have hdiv : ∀ c : ℤ, ((c - F) * 2 ^ F) / 2 ^ F = c - F := fun c => Int.mul_ediv_cancel _ (by positivity)
  have hp : (0 : ℤ) < 2 ^ F := by positivity
  have hdm : ((hi - F) * 2 ^ F + (2 ^ F - 1)) / 2 ^ F = hi - F := by
    rw [index_div, Int.ediv_eq_zero_of_lt (by omega) (by omega), add_zero]
  obtain ⟨b, hb, g2, d2⟩ := h.at_ false true (k := (hi - F) * 2 ^ F + (2 ^ F - 1)) ⟨by rw [hdm]; omega, by rw [hdm]; omega⟩
  obtain ⟨c, hc, g3, d3⟩ := h.at_ false true (k := (lo - F) * 2 ^ F) ⟨by rw [hdiv]; omega, by rw [hdiv]; omega⟩
  have v0 := max_value F 0 hi (by positivity)
  rw [Nat.cast_zero, sub_zero, Nat.cast_zero, zero_add] at v0
  rw [v0] at d2
  rw [min_value] at d3
  simp only [if_true, neg_mul, one_mul] at d2 d3
  refine ⟨[a, b, c, d, e, L.min, L.max, L.infinity], ?_, rfl, ?_, ?_⟩
  · simp only [edgeCases, ha, mx, mn, Option.bind_eq_bind, Option.bind_some, Mpfr.flip_at, Bool.not_false, hb, hc, hd, he]
  · have nn : ∀ v : ℚ, Datum.num v ≠ .nan := fun v h => Datum.noConfusion h
    intro x hx
    simp only [List.mem_cons, List.not_mem_nil, or_false] at hx
    rcases hx with rfl | rfl | rfl | rfl | rfl | rfl | rfl | rfl
    · exact ⟨g1, by rw [d1]; exact fun h => Datum.noConfusion h⟩
    · exact ⟨g2, by rw [d2]; exact nn _⟩
    · exact ⟨g3, by rw [d3]; exact nn _⟩
    · exact ⟨g4, by rw [d4]; exact fun h => Datum.noConfusion h⟩
    · exact ⟨g5, by rw [d5]; exact fun h => Datum.noConfusion h⟩
    · exact ⟨g6, by rw [d6]; exact nn _⟩
    · exact ⟨g7, by rw [d7]; exact nn _⟩
    · exact ⟨g8, by rw [d8]; exact fun h => Datum.noConfusion h⟩
  · intro dd
    unfold PlusMinus
    simp only [List.mem_cons, List.not_mem_nil, or_false, exists_eq_or_imp, exists_eq_left, d1, d2, d3, d4, d5, d6, d7, d8, Bool.exists_bool,
      Mpfr.datum]
    simp only [eq_comm (b := dd)]
    tauto

theorem one_at' (hF : 1 ≤ F) : Mpfr.rndn (F + 1) 1 = Mpfr.at_ false F ((0 - F) * 2 ^ F) := by
  rw [one_at hF, zero_sub]

/-- The fixed inputs exist; their number and their values. -/
theorem Window.fixed (h : Window P L D good F lo hi) {b : ℤ} (r : Room F lo hi b) : ∃ l, fixed P L = some l ∧ l.length = 136 + 4 * F ∧
    (∀ x ∈ l, good x ∧ D x ≠ .nan) ∧
    ∀ d, (∃ x ∈ l, D x = d) ↔
      (∃ t ∈ ints (F + 1) ++ tenSteps (Mpfr.nextAbove (F + 1)) (Mpfr.at_ false F ((0 - F) * 2 ^ F)) ++
        tenSteps (Mpfr.nextBelow (F + 1)) (Mpfr.at_ false F ((0 - F) * 2 ^ F + 0)) ++
        tenSteps (Mpfr.nextAbove (F + 1)) (Mpfr.at_ false F ((lo - F) * 2 ^ F)) ++
        tenSteps (Mpfr.nextBelow (F + 1)) (Mpfr.at_ false F ((hi - F) * 2 ^ F + (2 ^ F - 1))), PlusMinus t.value d) ∨
      ((∃ s, d = .zero s) ∨ (∃ s, d = .inf s) ∨ PlusMinus (2 ^ lo) d ∨ PlusMinus ((2 - 1 / 2 ^ F) * 2 ^ hi) d) ∨
      ∃ x, (∃ t ∈ binaryPowers (F + 1), P.fromMpfr t true = some x ∨ P.fromMpfr t.flip true = some x) ∧ D x = d := by
  have hb : 0 ≤ b := by
    by_contra hc
    have : b * 2 ^ F ≤ 0 := mul_nonpos_of_nonpos_of_nonneg (by omega) (by positivity)
    have := r.ten
    omega
  obtain ⟨r1, r2, r3, r4, r5⟩ := r
  obtain ⟨l1, a1, n1, w1, m1⟩ := h.pushAll (ints_ok h.hF ⟨r1, r2, r3, r4, r5⟩)
  obtain ⟨g, ag, ng, wg, mg⟩ := h.edges
  obtain ⟨l2, a2, n2, w2, m2⟩ := h.pushAll (above_ok (c := 0) r1 (by omega) (by omega) r2 (by omega)).1
  obtain ⟨l3, a3, n3, w3, m3⟩ := h.pushAll (below_ok (c := 0) (j := 0) r1 (.inl rfl) (by omega) (by omega) r2 (by omega)).1
  obtain ⟨l4, a4, n4, w4, m4⟩ := h.pushAll (above_ok (c := lo) r1 (by omega) (by omega) r2 (by omega)).1
  obtain ⟨l5, a5, n5, w5, m5⟩ := h.pushAll (below_ok (c := hi) (j := 2 ^ F - 1) r1 (.inr rfl) (by omega) (by omega) r2 (by omega)).1
  obtain ⟨l6, a6, n6, w6, m6⟩ := h.powers
  refine ⟨l1 ++ g ++ l2 ++ l3 ++ l4 ++ l5 ++ l6, ?_, ?_, ?_, ?_⟩
  · rw [add_zero] at a3
    simp only [PolicyInput.fixed, h.digits, one_at' h.hF, a1, ag, a2, a3, h.min.1, a4, h.max.1, a5, a6, Option.bind_eq_bind, Option.bind_some]
  · simp only [List.length_append, n1, n2, n3, n4, n5, n6, ng, ints, tenSteps, List.length_map, List.length_range]
    omega
  · intro x hx
    simp only [List.mem_append] at hx
    rcases hx with (((((hx | hx) | hx) | hx) | hx) | hx) | hx
    · exact w1 x hx
    · exact wg x hx
    · exact w2 x hx
    · exact w3 x hx
    · exact w4 x hx
    · exact w5 x hx
    · exact w6 x hx
  · intro d
    rw [← mg d]
    constructor
    · rintro ⟨x, hx, hd⟩
      simp only [List.mem_append] at hx
      rcases hx with (((((hx | hx) | hx) | hx) | hx) | hx) | hx
      · obtain ⟨t, ht, hp⟩ := (m1 d).mp ⟨x, hx, hd⟩
        exact .inl ⟨t, by simp [ht], hp⟩
      · exact .inr (.inl ⟨x, hx, hd⟩)
      · obtain ⟨t, ht, hp⟩ := (m2 d).mp ⟨x, hx, hd⟩
        exact .inl ⟨t, by rw [List.mem_append, List.mem_append, List.mem_append, List.mem_append]; exact .inl (.inl (.inl (.inr ht))), hp⟩
      · obtain ⟨t, ht, hp⟩ := (m3 d).mp ⟨x, hx, hd⟩
        exact .inl ⟨t, by rw [List.mem_append, List.mem_append, List.mem_append]; exact .inl (.inl (.inr ht)), hp⟩
      · obtain ⟨t, ht, hp⟩ := (m4 d).mp ⟨x, hx, hd⟩
        exact .inl ⟨t, by rw [List.mem_append, List.mem_append]; exact .inl (.inr ht), hp⟩
      · obtain ⟨t, ht, hp⟩ := (m5 d).mp ⟨x, hx, hd⟩
        exact .inl ⟨t, by rw [List.mem_append]; exact .inr ht, hp⟩
      · exact .inr (.inr ⟨x, (m6 x).mp hx, hd⟩)
    · rintro (⟨t, ht, hp⟩ | ⟨x, hx, hd⟩ | ⟨x, hx, hd⟩)
      · simp only [List.mem_append] at ht
        rcases ht with (((ht | ht) | ht) | ht) | ht
        · obtain ⟨x, hx, hd⟩ := (m1 d).mpr ⟨t, ht, hp⟩
          exact ⟨x, by simp [hx], hd⟩
        · obtain ⟨x, hx, hd⟩ := (m2 d).mpr ⟨t, ht, hp⟩
          exact ⟨x, by simp [hx], hd⟩
        · obtain ⟨x, hx, hd⟩ := (m3 d).mpr ⟨t, ht, hp⟩
          exact ⟨x, by simp [hx], hd⟩
        · obtain ⟨x, hx, hd⟩ := (m4 d).mpr ⟨t, ht, hp⟩
          exact ⟨x, by simp [hx], hd⟩
        · obtain ⟨x, hx, hd⟩ := (m5 d).mpr ⟨t, ht, hp⟩
          exact ⟨x, by simp [hx], hd⟩
      · exact ⟨x, by simp [hx], hd⟩
      · exact ⟨x, by simp [(m6 x).mpr hx], hd⟩

/-! ### The values -/

theorem powers_value (h : Window P L D good F lo hi) (hF2 : F + 7 < 1024) (d : Datum) :
    ((∃ s, d = .zero s) ∨ (∃ s, d = .inf s) ∨
      ∃ x, (∃ t ∈ binaryPowers (F + 1), P.fromMpfr t true = some x ∨ P.fromMpfr t.flip true = some x) ∧ D x = d) ↔
    ((∃ s, d = .zero s) ∨ (∃ s, d = .inf s) ∨
      ∃ k : ℤ, -(F : ℤ) - 7 < k ∧ k ≤ F + 7 ∧ lo ≤ k ∧ k ≤ hi ∧ PlusMinus (2 ^ k) d) := by
  constructor
  · rintro (h1 | h1 | ⟨x, ⟨t, ht, hx⟩, rfl⟩)
    · exact .inl h1
    · exact .inr (.inl h1)
    · simp only [binaryPowers, List.mem_map, List.mem_range] at ht
      obtain ⟨i, hi', rfl⟩ := ht
      rw [(setLdexp_at h.hF (((F + 1 : ℕ) : ℤ) + 6 - i)).2.2 (by push_cast; omega) (by push_cast; omega)] at hx
      obtain ⟨k, hk⟩ : ∃ k : ℤ, k = ((F + 1 : ℕ) : ℤ) + 6 - i := ⟨_, rfl⟩
      rw [← hk] at hx
      push_cast at hk
      have : ∃ s, P.fromMpfr (Mpfr.at_ s F ((k - F) * 2 ^ F)) true = some x := by
        rcases hx with hx | hx
        · exact ⟨_, hx⟩
        · exact ⟨_, hx⟩
      obtain ⟨s, hs⟩ := this
      obtain ⟨v, g1, -, g3⟩ := h.pow s (k := k) (by omega) (by omega)
      rw [hs] at g1; injection g1 with g1; subst g1
      rw [g3]
      split_ifs with c1 c2 c3
      · exact .inl ⟨_, rfl⟩
      · exact .inr (.inl ⟨_, rfl⟩)
      · exact .inr (.inr ⟨k, by omega, by omega, by omega, by omega, .inr (by simp)⟩)
      · exact .inr (.inr ⟨k, by omega, by omega, by omega, by omega, .inl (by simp)⟩)
  · rintro (h1 | h1 | ⟨k, h1, h2, h3, h4, h5⟩)
    · exact .inl h1
    · exact .inr (.inl h1)
    · refine .inr (.inr ?_)
      have hs : ∃ s : Bool, d = .num ((if s then -1 else 1) * 2 ^ k) := by
        rcases h5 with h5 | h5
        · exact ⟨false, by simpa using h5⟩
        · exact ⟨true, by simpa using h5⟩
      obtain ⟨s, rfl⟩ := hs
      obtain ⟨v, g1, -, g3⟩ := h.pow s (k := k) (by omega) (by omega)
      rw [if_neg (by omega), if_neg (by omega)] at g3
      refine ⟨v, ⟨_, List.mem_map.mpr ⟨((F : ℤ) + 7 - k).toNat, by rw [List.mem_range]; omega, rfl⟩, ?_⟩, g3⟩
      rw [show ((F + 1 : ℕ) : ℤ) + 6 - (((F : ℤ) + 7 - k).toNat : ℤ) = k by push_cast; omega, (setLdexp_at h.hF k).2.2 (by omega) (by omega)]
      cases s
      · exact .inl g1
      · exact .inr g1

theorem shuffle' {P Q Z I M X W K : Prop} (pw : Z ∨ I ∨ W ↔ Z ∨ I ∨ K) (hq : P ↔ Q) :
    P ∨ (Z ∨ I ∨ M ∨ X) ∨ W ↔ Z ∨ I ∨ Q ∨ M ∨ X ∨ K := by
  rw [hq]
  constructor
  · rintro (h | (h | h | h | h) | h)
    · exact .inr (.inr (.inl h))
    · exact .inl h
    · exact .inr (.inl h)
    · exact .inr (.inr (.inr (.inl h)))
    · exact .inr (.inr (.inr (.inr (.inl h))))
    · rcases pw.mp (.inr (.inr h)) with h | h | h
      · exact .inl h
      · exact .inr (.inl h)
      · exact .inr (.inr (.inr (.inr (.inr h))))
  · rintro (h | h | h | h | h | h)
    · exact .inr (.inl (.inl h))
    · exact .inr (.inl (.inr (.inl h)))
    · exact .inl h
    · exact .inr (.inl (.inr (.inr (.inl h))))
    · exact .inr (.inl (.inr (.inr (.inr h))))
    · rcases pw.mpr (.inr (.inr h)) with h | h | h
      · exact .inr (.inl (.inl h))
      · exact .inr (.inl (.inr (.inl h)))
      · exact .inr (.inr h)

theorem Window.contents (h : Window P L D good F lo hi) {b : ℤ} (r : Room F lo hi b) (hF : 4 ≤ F) (hF2 : F + 7 < 1024) {l : List V}
    (hl : PolicyInput.fixed P L = some l) (d : Datum) : (∃ x ∈ l, D x = d) ↔ PolicyOperand F lo hi d := by
  obtain ⟨l', h1, -, -, h3⟩ := h.fixed r
  rw [hl] at h1; injection h1 with h1; subst h1
  have hb : 0 ≤ b := by
    by_contra hc
    have : b * 2 ^ F ≤ 0 := mul_nonpos_of_nonpos_of_nonneg (by omega) (by positivity)
    have := r.ten
    omega
  obtain ⟨r1, r2, r3, r4, r5⟩ := r
  have h16 : 2 ^ 4 ≤ 2 ^ F := Nat.pow_le_pow_right (by norm_num) hF
  rw [h3 d]
  refine shuffle' (powers_value h hF2 d) ?_
  have v1 : (∃ t ∈ ints (F + 1), PlusMinus t.value d) ↔ ∃ i : ℕ, 1 ≤ i ∧ i ≤ 10 ∧ PlusMinus i d := smallInts_value hF d
  have v2 : (∃ t ∈ tenSteps (Mpfr.nextAbove (F + 1)) (Mpfr.at_ false F ((0 - F) * 2 ^ F)), PlusMinus t.value d) ↔
      ∃ i : ℕ, 1 ≤ i ∧ i ≤ 10 ∧ PlusMinus (1 + i / 2 ^ F) d := by
    rw [← one_at' h.hF]; exact aboveOne_value hF d
  have v3 : (∃ t ∈ tenSteps (Mpfr.nextBelow (F + 1)) (Mpfr.at_ false F ((0 - F) * 2 ^ F + 0)), PlusMinus t.value d) ↔
      ∃ i : ℕ, 1 ≤ i ∧ i ≤ 10 ∧ PlusMinus (1 - i / 2 ^ (F + 1)) d := by
    rw [add_zero, ← one_at' h.hF]; exact belowOne_value hF d
  have v4 : (∃ t ∈ tenSteps (Mpfr.nextAbove (F + 1)) (Mpfr.at_ false F ((lo - F) * 2 ^ F)), PlusMinus t.value d) ↔
      ∃ i : ℕ, 1 ≤ i ∧ i ≤ 10 ∧ PlusMinus ((1 + i / 2 ^ F) * 2 ^ lo) d := by
    refine steps_value (v := fun i => (1 + i / 2 ^ F) * 2 ^ lo) (fun i h1 h2 => ?_) d
    rw [(above_ok (c := lo) (lo := lo) (hi := hi) r1 (by omega) (by omega) r2 (by omega)).2 i h2, at_value _ (by omega), sub_add_cancel]
  have v5 : (∃ t ∈ tenSteps (Mpfr.nextBelow (F + 1)) (Mpfr.at_ false F ((hi - F) * 2 ^ F + (2 ^ F - 1))), PlusMinus t.value d) ↔
      ∃ i : ℕ, 1 ≤ i ∧ i ≤ 10 ∧ PlusMinus ((2 - (i + 1) / 2 ^ F) * 2 ^ hi) d := by
    refine steps_value (v := fun i => (2 - (i + 1) / 2 ^ F) * 2 ^ hi) (fun i h1 h2 => ?_) d
    rw [(below_ok (c := hi) (j := 2 ^ F - 1) (lo := lo) (hi := hi) r1 (.inr rfl) (by omega) (by omega) r2 (by omega)).2 i h2,
      max_value F i hi (by omega)]
  have five : ∀ l1 l2 l3 l4 l5 : List Mpfr, (∃ t ∈ l1 ++ l2 ++ l3 ++ l4 ++ l5, PlusMinus t.value d) ↔
      ((((∃ t ∈ l1, PlusMinus t.value d) ∨ (∃ t ∈ l2, PlusMinus t.value d)) ∨ (∃ t ∈ l3, PlusMinus t.value d)) ∨
        (∃ t ∈ l4, PlusMinus t.value d)) ∨ (∃ t ∈ l5, PlusMinus t.value d) := by
    intro l1 l2 l3 l4 l5
    simp only [List.mem_append, or_and_right, exists_or]
  rw [five, v1, v2, v3, v4, v5]
  constructor
  · rintro ((((⟨i, h1, h2, h⟩ | ⟨i, h1, h2, h⟩) | ⟨i, h1, h2, h⟩) | ⟨i, h1, h2, h⟩) | ⟨i, h1, h2, h⟩)
    · exact ⟨i, h1, h2, .inl h⟩
    · exact ⟨i, h1, h2, .inr (.inl h)⟩
    · exact ⟨i, h1, h2, .inr (.inr (.inl h))⟩
    · exact ⟨i, h1, h2, .inr (.inr (.inr (.inl h)))⟩
    · exact ⟨i, h1, h2, .inr (.inr (.inr (.inr h)))⟩
  · rintro ⟨i, h1, h2, h | h | h | h | h⟩
    · exact .inl (.inl (.inl (.inl ⟨i, h1, h2, h⟩)))
    · exact .inl (.inl (.inl (.inr ⟨i, h1, h2, h⟩)))
    · exact .inl (.inl (.inr ⟨i, h1, h2, h⟩))
    · exact .inl (.inr ⟨i, h1, h2, h⟩)
    · exact .inr ⟨i, h1, h2, h⟩

/-! ### The random inputs -/

/-- The drawn quotients that are numbers. -/
theorem drawn_num {p : ℕ} {d : ℕ × ℕ} {w : ℚ} (h : drawnQuotient p d = .num w) :
    ∃ a b : ℕ, 0 < a ∧ a < 2 ^ p ∧ 0 < b ∧ b < 2 ^ p ∧ w = (a : ℚ) / b := by
  unfold drawnQuotient uniform at h
  have l1 : d.1 % 2 ^ p < 2 ^ p := Nat.mod_lt _ (by positivity)
  have l2 : d.2 % 2 ^ p < 2 ^ p := Nat.mod_lt _ (by positivity)
  by_cases h1 : d.1 % 2 ^ p = 0
  · rw [if_pos h1] at h
    split_ifs at h <;> simp [exactDiv, divSpecial] at h
  · by_cases h2 : d.2 % 2 ^ p = 0
    · rw [if_neg h1, if_pos h2] at h
      simp [exactDiv, divSpecial] at h
    · rw [if_neg h1, if_neg h2, exactDiv] at h
      injection h with h
      refine ⟨_, _, Nat.pos_of_ne_zero h1, l1, Nat.pos_of_ne_zero h2, l2, ?_⟩
      rw [← h]
      have hp : (2 : ℚ) ^ p ≠ 0 := by positivity
      simp only [Datum.val]
      field_simp

/-- The exponents of the drawn quotients. -/
theorem drawn_exp {F m : ℕ} {e : ℤ} (hF : 1 ≤ F) {w : ℚ} {a b : ℕ} (ha : 0 < a) (ha2 : a < 2 ^ (F + 1)) (hb : 0 < b) (hb2 : b < 2 ^ (F + 1))
    (hw : w = (a : ℚ) / b) (hn : NearestEven (F + 1) w m e) : -(F : ℤ) - 1 ≤ e + F ∧ e + F ≤ F := by
  have qa : (1 : ℚ) ≤ a := by exact_mod_cast ha
  have qb : (1 : ℚ) ≤ b := by exact_mod_cast hb
  have qa2 : (a : ℚ) ≤ 2 ^ (F + 1) - 1 := by
    have : (a : ℚ) + 1 ≤ 2 ^ (F + 1) := by exact_mod_cast ha2
    linarith
  have qb2 : (b : ℚ) ≤ 2 ^ (F + 1) := by exact_mod_cast hb2.le
  have c1 := (nearest_cross (by omega) hn (j := 1) (-(F : ℤ) - 1) (by omega) (Nat.one_lt_two_pow (by omega))).2 (by
    rw [hw, Nat.cast_one, one_mul, show -(F : ℤ) - 1 = -((F + 1 : ℕ) : ℤ) by push_cast; ring, zpow_neg, zpow_natCast, ← one_div]
    exact div_le_div₀ (by positivity) qa (by positivity) qb2)
  have c2 := (nearest_cross (by omega) hn (j := 2 ^ (F + 1) - 1) 0 (by have : 2 ≤ 2 ^ (F + 1) := by
                                                                         rw [pow_succ]
                                                                         have : 1 ≤ 2 ^ F := Nat.one_le_two_pow
                                                                         omega
                                                                       omega) (by have : 0 < 2 ^ (F + 1) := by positivity
                                                                                  omega)).1 (by
    rw [hw, zpow_zero, mul_one, Nat.cast_sub Nat.one_le_two_pow]
    push_cast
    refine (div_le_self (by positivity) qb).trans qa2)
  have u := sig_upper hn.1 e
  have l := sig_lower hn.1 e
  have e1 : (2 : ℚ) ^ (-(F : ℤ) - 1) < 2 ^ (e + F + 1) := lt_of_le_of_lt (by simpa using c1) u
  have e2 : (2 : ℚ) ^ (e + F) < 2 ^ ((F + 1 : ℕ) : ℤ) := by
    refine lt_of_le_of_lt (l.trans c2) ?_
    rw [zpow_zero, mul_one, Nat.cast_sub Nat.one_le_two_pow, zpow_natCast]
    push_cast
    linarith
  rw [zpow_lt_zpow_iff_right₀ (by norm_num)] at e1 e2
  push_cast at e2
  omega

/-- One round of the random loop. -/
theorem Window.ratio (h : Window P L D good F lo hi) (d : ℕ × ℕ) :
    ∃ a b, push P true (ratio (F + 1) d) = some [a, b] ∧ QuotientOperand F lo hi (drawnQuotient (F + 1) d) (D a) ∧
      D b = (D a).neg ∧ (F ≤ hi → good a ∧ good b) ∧ (D a = .nan ↔ drawnQuotient (F + 1) d = .nan) := by
  obtain ⟨u1, u2⟩ := urandomb_spec (F + 1) d.1 (by have := h.hF; omega)
  obtain ⟨v1, v2⟩ := urandomb_spec (F + 1) d.2 (by have := h.hF; omega)
  have hex := Mpfr.div_exact (F + 1) u2 v2
  rw [u1, v1] at hex
  change Mpfr.Exact (F + 1) (OpTest.ratio (F + 1) d) (drawnQuotient (F + 1) d) at hex
  obtain ⟨hs, hn⟩ := hex
  by_cases hx : ∃ w, drawnQuotient (F + 1) d = .num w
  · obtain ⟨w, hw⟩ := hx
    obtain ⟨a, b, a1, a2, b1, b2, he⟩ := drawn_num hw
    have wpos : 0 < w := by
      rw [he]
      have : (0 : ℚ) < a := by exact_mod_cast a1
      have : (0 : ℚ) < b := by exact_mod_cast b1
      positivity
    have hr := hn w hw
    have hspec := Mpfr.rndnPos_spec (p := F + 1) (by have := h.hF; omega) wpos
    rw [Mpfr.rndn, if_neg wpos.ne', abs_of_pos wpos, decide_eq_false (by linarith)] at hr
    generalize (Mpfr.rndnPos (F + 1) w).1 = m at *
    generalize (Mpfr.rndnPos (F + 1) w).2 = e at *
    obtain ⟨x1, x2⟩ := drawn_exp h.hF a1 a2 b1 b2 he hspec
    rw [hw]
    have q : ∀ v, QuotientOperand F lo hi (.num w) v ↔ ∃ (m : ℕ) (e : ℤ), NearestEven (F + 1) w m e ∧
        v = if e + F < lo then .zero false else if hi < e + F then .inf false else .num (m * 2 ^ e) := by
      intro v
      rw [QuotientOperand, abs_of_pos wpos, decide_eq_false (by linarith), if_neg (by linarith)]
      simp only [one_mul]
    by_cases hin : lo ≤ e + F ∧ e + F ≤ hi
    · obtain ⟨v, p1, p2, p3⟩ := h.inside true false m e hspec.1 hin.1 hin.2
      obtain ⟨v', q1, q2, q3⟩ := h.inside true true m e hspec.1 hin.1 hin.2
      simp only [Mpfr.datum, Bool.false_eq_true, if_false, if_true, one_mul] at p3 q3
      refine ⟨v, v', ?_, (q _).2 ⟨m, e, hspec, ?_⟩, ?_, fun _ => ⟨p2, q2⟩, ?_⟩
      · simp only [push, hr, Mpfr.flip, Bool.not_false, p1, q1, Option.bind_eq_bind, Option.bind_some]
      · rw [if_neg (by omega), if_neg (by omega), p3]
      · rw [p3, q3]; simp [Datum.neg]
      · rw [p3]; constructor <;> intro h <;> exact Datum.noConfusion h
    · obtain ⟨v, p1, p2, p3⟩ := h.outside false m e hspec.1 (by omega) (by omega) hin
      obtain ⟨v', q1, q2, q3⟩ := h.outside true m e hspec.1 (by omega) (by omega) hin
      refine ⟨v, v', ?_, (q _).2 ⟨m, e, hspec, ?_⟩, ?_, fun hl => ⟨p2 (.inl (by omega)), q2 (.inl (by omega))⟩, ?_⟩
      · simp only [push, hr, Mpfr.flip, Bool.not_false, p1, q1, Option.bind_eq_bind, Option.bind_some]
      · rw [p3]
        split_ifs with c1 c2
        · rfl
        · rfl
        · omega
      · rw [p3, q3]
        split_ifs <;> rfl
      · rw [p3]
        split_ifs <;> simp
  · have hd := hs (fun w hw => hx ⟨w, hw⟩)
    obtain ⟨v, p1, p2, p3⟩ := h.special true (OpTest.ratio (F + 1) d) (by rw [hd]; exact fun w hw => hx ⟨w, hw⟩)
    have hf : (OpTest.ratio (F + 1) d).flip.datum = (OpTest.ratio (F + 1) d).datum.neg := by
      cases OpTest.ratio (F + 1) d with
      | num s m e => cases s <;> simp [Mpfr.flip, Mpfr.datum, Datum.neg]
      | _ => rfl
    obtain ⟨v', q1, q2, q3⟩ := h.special true (OpTest.ratio (F + 1) d).flip (by
      intro w hw
      rw [hf, hd] at hw
      cases hq : drawnQuotient (F + 1) d with
      | num w' => exact hx ⟨w', hq⟩
      | _ => rw [hq] at hw; exact Datum.noConfusion hw)
    refine ⟨v, v', ?_, ?_, by rw [q3, p3, hf], fun _ => ⟨p2, q2⟩, by rw [p3, hd]⟩
    · simp only [push, p1, q1, Option.bind_eq_bind, Option.bind_some]
    · rw [p3, hd]
      cases hq : drawnQuotient (F + 1) d with
      | num w => exact absurd ⟨w, hq⟩ hx
      | _ => rfl

theorem random_spec {P : TestPolicy V} {n : ℕ} (draws : ℕ → ℕ × ℕ) (ok : ∀ i, ∃ a b, push P true (OpTest.ratio P.digits (draws i)) = some [a, b]) :
    ∀ (fuel i : ℕ) (args : List V), n ≤ args.length + 2 * fuel →
      ∃ l, random P n draws fuel i args = some l ∧ l.length = args.length + 2 * ((n - args.length + 1) / 2) ∧
        l.take args.length = args ∧ ∀ j < (n - args.length + 1) / 2, ∃ a b, l[args.length + 2 * j]? = some a ∧
          l[args.length + 2 * j + 1]? = some b ∧ push P true (OpTest.ratio P.digits (draws (i + j))) = some [a, b]
  | 0, i, args, hn => by
    refine ⟨args, rfl, by omega, by simp, fun j hj => by omega⟩
  | fuel + 1, i, args, hn => by
    rw [random]
    by_cases hlt : args.length < n
    · obtain ⟨a, b, hab⟩ := ok i
      obtain ⟨l, h1, h2, h3, h4⟩ := random_spec (n := n) draws ok fuel (i + 1) (args ++ [a, b]) (by simp; omega)
      rw [List.length_append, show [a, b].length = 2 from rfl] at h2 h3 h4
      refine ⟨l, by simp [hlt, hab, h1], by omega, ?_, ?_⟩
      · have := congrArg (List.take args.length) h3
        rw [List.take_take, List.take_left, min_eq_left (by omega)] at this
        exact this
      · intro j hj
        rcases Nat.eq_zero_or_pos j with rfl | hj0
        · have get : ∀ k < args.length + 2, l[k]? = (args ++ [a, b])[k]? := by
            intro k hk
            rw [← h3, List.getElem?_take_of_lt hk]
          refine ⟨a, b, ?_, ?_, hab⟩
          · rw [get _ (by omega), List.getElem?_append_right (by omega)]; simp
          · rw [get _ (by omega), List.getElem?_append_right (by omega)]; simp
        · obtain ⟨a', b', e1, e2, e3⟩ := h4 (j - 1) (by omega)
          rw [show args.length + 2 + 2 * (j - 1) = args.length + 2 * j by omega] at e1 e2
          rw [show i + 1 + (j - 1) = i + j by omega] at e3
          exact ⟨a', b', e1, e2, e3⟩
    · rw [if_neg hlt]
      exact ⟨args, rfl, by omega, by simp, fun j hj => by omega⟩

/-- The number of rounds of the random loop. -/
def rounds (F n : ℕ) : ℕ := (n - (136 + 4 * F) + 1) / 2

/-- All of the inputs. -/
theorem Window.input (h : Window P L D good F lo hi) {b : ℤ} (r : Room F lo hi b) (n : ℕ) (draws : ℕ → ℕ × ℕ) :
    ∃ l0 l, PolicyInput.fixed P L = some l0 ∧ makeInput P L n draws = some l ∧ l.length = 136 + 4 * F + 2 * rounds F n ∧
      l.take (136 + 4 * F) = l0 ∧
      (∀ j < rounds F n, ∃ a b, l[136 + 4 * F + 2 * j]? = some a ∧ l[136 + 4 * F + 2 * j + 1]? = some b ∧
        push P true (OpTest.ratio (F + 1) (draws j)) = some [a, b] ∧
        QuotientOperand F lo hi (drawnQuotient (F + 1) (draws j)) (D a) ∧ D b = (D a).neg) ∧
      ((∃ v ∈ l, D v = .nan) ↔ ∃ j < rounds F n, drawnQuotient (F + 1) (draws j) = .nan) ∧
      (F ≤ hi → ∀ v ∈ l, good v) ∧
      ∀ v ∈ l, v ∈ l0 ∨ ∃ j < rounds F n, ∃ a b, push P true (OpTest.ratio (F + 1) (draws j)) = some [a, b] ∧ (v = a ∨ v = b) := by
  obtain ⟨l0, h1, h2, h3, -⟩ := h.fixed r
  obtain ⟨l, e1, e2, e3, e4⟩ := random_spec (P := P) (n := n) draws (fun i => by
      obtain ⟨a, b, hab, -⟩ := h.ratio (draws i)
      exact ⟨a, b, by rw [h.digits]; exact hab⟩) n 0 l0 (by omega)
  rw [h2] at e2 e3 e4
  change l.length = 136 + 4 * F + 2 * rounds F n at e2
  change ∀ j < rounds F n, _ at e4
  have mem : ∀ v ∈ l, v ∈ l0 ∨ ∃ j < rounds F n, ∃ a b, push P true (OpTest.ratio (F + 1) (draws j)) = some [a, b] ∧ (v = a ∨ v = b) := by
    intro v hv
    obtain ⟨i, hi, rfl⟩ := List.getElem_of_mem hv
    by_cases hlt : i < 136 + 4 * F
    · left
      rw [← e3]
      rw [List.mem_iff_getElem]
      exact ⟨i, by rw [List.length_take]; omega, by simp⟩
    · right
      obtain ⟨a, b, g1, g2, g3⟩ := e4 ((i - (136 + 4 * F)) / 2) (by omega)
      rw [zero_add, h.digits] at g3
      refine ⟨_, by omega, a, b, g3, ?_⟩
      have hc : i = 136 + 4 * F + 2 * ((i - (136 + 4 * F)) / 2) ∨ i = 136 + 4 * F + 2 * ((i - (136 + 4 * F)) / 2) + 1 := by omega
      rcases hc with hc | hc
      · left
        rw [← hc, List.getElem?_eq_getElem hi] at g1
        exact Option.some.inj g1
      · right
        rw [← hc, List.getElem?_eq_getElem hi] at g2
        exact Option.some.inj g2
  have pair : ∀ j a b, push P true (OpTest.ratio (F + 1) (draws j)) = some [a, b] →
      QuotientOperand F lo hi (drawnQuotient (F + 1) (draws j)) (D a) ∧ D b = (D a).neg ∧ (F ≤ hi → good a ∧ good b) ∧
        (D a = .nan ↔ drawnQuotient (F + 1) (draws j) = .nan) := by
    intro j a b hab
    obtain ⟨a', b', g, g'⟩ := h.ratio (draws j)
    rw [hab] at g
    injection g with g
    injection g with g1 g2
    injection g2 with g2
    subst g1 g2
    exact g'
  have nneg : ∀ d : Datum, d.neg = .nan ↔ d = .nan := by
    intro d
    cases d <;> simp [Datum.neg]
  refine ⟨l0, l, h1, by rw [makeInput, h1]; exact e1, e2, e3, ?_, ?_, ?_, mem⟩
  · intro j hj
    obtain ⟨a, b, g1, g2, g3⟩ := e4 j hj
    rw [zero_add, h.digits] at g3
    obtain ⟨p1, p2, -⟩ := pair j a b g3
    exact ⟨a, b, g1, g2, g3, p1, p2⟩
  · constructor
    · rintro ⟨v, hv, hd⟩
      rcases mem v hv with h0 | ⟨j, hj, a, b, hab, hc⟩
      · exact absurd hd (h3 v h0).2
      · obtain ⟨-, p2, -, p4⟩ := pair j a b hab
        refine ⟨j, hj, p4.1 ?_⟩
        rcases hc with rfl | rfl
        · exact hd
        · rwa [p2, nneg] at hd
    · rintro ⟨j, hj, hd⟩
      obtain ⟨a, b, g1, -, g3⟩ := e4 j hj
      rw [zero_add, h.digits] at g3
      exact ⟨a, List.mem_of_getElem? g1, (pair j a b g3).2.2.2.2 hd⟩
  · intro hl v hv
    rcases mem v hv with h0 | ⟨j, hj, a, b, hab, hc⟩
    · exact (h3 v h0).1
    · obtain ⟨g1, g2⟩ := (pair j a b hab).2.2.1 hl
      rcases hc with rfl | rfl
      · exact g1
      · exact g2

end

/-! ### The four policies -/

/-- The infinities of the conversions have no don't-care bits, unless a number that is not a power of two overflows. -/
def PlainInf {E F : ℕ} (v : Fp E F) : Prop := ∀ s, v.datum = .inf s → v.exp = 0 ∧ v.frac = 0

theorem mk3_exp_frac {E F fs e f : ℕ} (hE : 1 ≤ E) (hF : 1 ≤ F) (h1 : fs < 8) (h2 : e < 2 ^ E) (h3 : f < 2 ^ F) :
    (Fp.mk3 E F fs e f).exp = e ∧ (Fp.mk3 E F fs e f).frac = f := by
  obtain ⟨-, -, c⟩ := Fp.mk3_fields (E := E) (F := F) (fs := fs) (e := e) (f := f) hE h1 h2 h3
  rw [← Fp.expFrac_div hE hF, ← Fp.expFrac_mod hE hF, c]
  exact ⟨concat_div h3, concat_mod h3⟩

theorem flopoco_special {E F : ℕ} (hE : 1 ≤ E) (hF : 1 ≤ F) (allow : Bool) (t : Mpfr) (ht : ∀ q, t.datum ≠ .num q) :
    ∃ v : Fp E F, ofMpfr E F allow t = some v ∧ PlainInf v ∧ v.datum = t.datum := by
  obtain ⟨r, h1, h2⟩ := ofMpfr_special hE hF (m := t) rfl ht
  have pE : 0 < 2 ^ E := by positivity
  have pF : 0 < 2 ^ F := by positivity
  have ha : ofMpfr E F allow t = some r := by
    rw [← h1]
    cases t with
    | num s m e => exact absurd rfl (ht _)
    | _ => rfl
  refine ⟨r, ha, ?_, h2⟩
  intro s hs
  rw [h2] at hs
  cases t with
  | num _ _ _ => exact absurd rfl (ht _)
  | inf s' =>
    rw [ofMpfr] at h1
    obtain rfl := Option.some.inj h1
    cases s'
    · exact mk3_exp_frac hE hF (by decide) pE pF
    · exact mk3_exp_frac hE hF (by decide) pE pF
  | nan => cases hs
  | zero _ => cases hs

theorem flopoco_window {E F : ℕ} (hE : 1 ≤ E) (hF : 1 ≤ F) :
    Window (policyFlopoco E F) (limitsFlopoco E F) Fp.datum PlainInf F (-bias E) (2 ^ E - 1 - bias E) := by
  have hb := bias_double hE
  obtain ⟨i1, -, i3, -, -, i6, -⟩ := C46_limits_values_partial (E := E) (F := F) hE hF
  refine ⟨hF, by omega, by omega, rfl, ?_, fun allow t ht => flopoco_special hE hF allow t ht, ?_, ⟨?_, ?_, i1⟩, ⟨?_, ?_, i3⟩, ?_, i6⟩
  · intro allow s m e hm h1 h2
    have h := C47_of_mpfr hE hF allow s e hm
    rw [if_pos (Or.inl ⟨by omega, by omega⟩)] at h
    obtain ⟨v, hv, hd⟩ := h
    rw [rangeCheck, if_neg (by omega), if_neg (by omega)] at hd
    refine ⟨v, hv, ?_, hd⟩
    intro s' hs'
    rw [hd] at hs'
    cases hs'
  · intro s m e hm _ _ h3
    have h := C47_of_mpfr hE hF true s e hm
    rw [if_pos (Or.inr rfl)] at h
    obtain ⟨v, hv, hd⟩ := h
    refine ⟨v, hv, ?_, ?_⟩
    · rintro (h4 | h4) s' hs'
      · rw [hd, rangeCheck, if_pos (by omega)] at hs'
        cases hs'
      · by_cases h5 : e + F < -bias E
        · rw [hd, rangeCheck, if_pos (by omega)] at hs'
          cases hs'
        · rw [← pow_bias] at *
          have c1 : ¬ (e + F < 0 - (biasN E : ℤ)) := by omega
          have c2 : e + F > 0 + (biasN E : ℤ) + 1 := by omega
          have pE : 0 < 2 ^ E := by positivity
          have pF : 0 < 2 ^ F := by positivity
          have c3 : 2 ^ F / 2 ^ F % 2 = 1 := by rw [Nat.div_self pF]
          simp only [ofMpfr, c3, h4, Nat.sub_self, one_ne_zero, if_false, Nat.not_le.2 pF, c1, c2, if_true] at hv
          obtain rfl := Option.some.inj hv
          have hs : s.toNat < 2 := by cases s <;> decide
          exact ⟨Fp.mk4_exp (by decide) hs pE pF hE, Fp.mk4_frac (by decide) hs pE pF hF⟩
    · rw [hd, rangeCheck]
      by_cases h5 : e + F < -bias E
      · rw [if_pos (by omega), if_pos h5]
      · rw [if_neg (by omega), if_pos (by omega), if_neg h5]
  · change some (toMpfr _) = _
    rw [limitsFlopoco, min_at hE hF]
    congr 2; ring
  · intro s hs
    change (Limits.min E F).datum = _ at hs
    rw [i1] at hs
    cases hs
  · change some (toMpfr _) = _
    rw [limitsFlopoco, max_at hE hF]
    congr 2; ring
  · intro s hs
    change (Limits.max E F).datum = _ at hs
    rw [i3] at hs
    cases hs
  · intro s hs
    exact mk3_exp_frac hE hF (by decide) (by positivity) (by positivity)

theorem ieeeRange_sig {E F m : ℕ} {e : ℤ} (hF : 1 ≤ F) (hm : IsSig (F + 1) m) (s : Bool) : ieeeRange E (Mpfr.num s m e).datum =
    if e + F < 1 - bias E then .zero s else if bias E < e + F then .inf s else (Mpfr.num s m e).datum := by
  have u := sig_upper hm e
  have l := sig_lower hm e
  have hpos : (0 : ℚ) < m * 2 ^ e := lt_of_lt_of_le (by positivity) l
  have ab : |((if s = true then -1 else 1) * (m * 2 ^ e) : ℚ)| = m * 2 ^ e := by
    cases s <;> simp [abs_of_pos hpos]
  have sg : decide (((if s = true then -1 else 1) * (m * 2 ^ e) : ℚ) < 0) = s := by
    cases s
    · simp; linarith
    · simp; linarith
  have c1 : ((m : ℚ) * 2 ^ e < ieeeMin E) ↔ e + F < 1 - bias E := by
    rw [ieeeMin]
    constructor
    · intro h
      exact (zpow_lt_zpow_iff_right₀ (by norm_num)).1 (lt_of_le_of_lt l h)
    · intro h
      exact lt_of_lt_of_le u (zpow_le_zpow_right₀ (by norm_num) (by omega))
  have c2 : (ieeeLimit E ≤ (m : ℚ) * 2 ^ e) ↔ bias E < e + F := by
    rw [ieeeLimit]
    constructor
    · intro h
      have := (zpow_lt_zpow_iff_right₀ (by norm_num : (1 : ℚ) < 2)).1 (lt_of_le_of_lt h u)
      omega
    · intro h
      exact (zpow_le_zpow_right₀ (by norm_num) (by omega)).trans l
  simp only [Mpfr.datum, ieeeRange, ab, sg, c1, c2]

theorem ieee_window {E F : ℕ} (hE : 2 ≤ E) (hF : 1 ≤ F) :
    Window (policyIeeeOnFlopoco E F) (limitsIeee E F) Ieee.datum (fun _ => True) F (1 - bias E) (bias E) := by
  obtain ⟨b1, b2⟩ := two_bias (show 1 ≤ E by omega)
  have h4 : 4 ≤ 2 ^ E := by
    calc 4 = 2 ^ 2 := by norm_num
      _ ≤ 2 ^ E := Nat.pow_le_pow_right (by norm_num) hE
  have b3 : 1 ≤ bias E := by
    have : ((4 : ℕ) : ℤ) ≤ ((2 ^ E : ℕ) : ℤ) := by exact_mod_cast h4
    push_cast at this
    omega
  have pF : 0 < 2 ^ F := by positivity
  obtain ⟨l1, -, l3, -, -, -, l7, -⟩ := C51_limits_values_partial (E := E) (F := F) hE hF
  refine ⟨hF, by omega, by omega, rfl, ?_, ?_, ?_, ⟨?_, trivial, l1⟩, ⟨?_, trivial, l3⟩, trivial, l7⟩
  · intro allow s m e hm h1 h2
    have h := C51_of_mpfr hE hF allow s e hm
    rw [if_pos (Or.inl ⟨by omega, by omega⟩)] at h
    obtain ⟨v, hv, hd⟩ := h
    refine ⟨v, hv, trivial, ?_⟩
    rw [hd, ieeeRange_sig hF hm, if_neg (by omega), if_neg (by omega)]
  · intro allow t ht
    obtain ⟨g1, g2, g3, -⟩ := C51_mpfr_round_trip hE hF allow (IeeeLimits.min E F)
    cases t with
    | nan => obtain ⟨v, hv, hd⟩ := g1; exact ⟨v, hv, trivial, hd⟩
    | inf s => obtain ⟨v, hv, hd⟩ := g2 s; exact ⟨v, hv, trivial, hd⟩
    | zero s => obtain ⟨v, hv, hd⟩ := g3 s; exact ⟨v, hv, trivial, hd⟩
    | num s m e => exact absurd rfl (ht _)
  · intro s m e hm _ _ h3
    have h := C51_of_mpfr hE hF true s e hm
    rw [if_pos (Or.inr rfl)] at h
    obtain ⟨v, hv, hd⟩ := h
    refine ⟨v, hv, fun _ => trivial, ?_⟩
    rw [hd, ieeeRange_sig hF hm]
    by_cases c : e + F < 1 - bias E
    · rw [if_pos c, if_pos c]
    · rw [if_neg c, if_neg c, if_pos (by omega)]
  · obtain ⟨f1, f2, f3⟩ := Ieee.mk3_fields (E := E) (F := F) (s := 0) (e := 1) (f := 0) (by omega) hF (by omega) (by omega) pF
    have := Mpfr.at_eq false (F := F) (i := 0) (1 - bias E - F) pF
    rw [Nat.cast_zero, add_zero] at this
    rw [this]
    change some (Ieee.toMpfr (IeeeLimits.min E F)) = _
    have e0 : concat 1 0 1 = 1 := rfl
    simp only [IeeeLimits.min, e0, Ieee.toMpfr, Ieee.isZero, Ieee.isInf, Ieee.isNan, Ieee.isNegative, f1, f2, f3, ones]
    have : ¬ (1 = 2 ^ E - 1) := by omega
    simp [this, ← pow_bias]
    ring
  · obtain ⟨f1, f2, f3⟩ := Ieee.mk3_fields (E := E) (F := F) (s := 0) (e := 2 ^ E - 2) (f := 2 ^ F - 1) (by omega) hF (by omega) (by omega) (by omega)
    have := Mpfr.at_eq false (F := F) (i := 2 ^ F - 1) (bias E - F) (by omega)
    rw [Nat.cast_sub (by omega)] at this
    push_cast at this
    rw [this]
    change some (Ieee.toMpfr (IeeeLimits.max E F)) = _
    have e0 : concat 1 (ones (E - 1)) 0 = 2 ^ E - 2 := by
      have := two_pow_pred (show 1 ≤ E by omega)
      simp only [concat, ones]; omega
    simp only [IeeeLimits.max, Ieee.toMpfr, Ieee.isZero, Ieee.isInf, Ieee.isNan, Ieee.isNegative, e0, show ones F = 2 ^ F - 1 from rfl, f1, f2, f3]
    have c1 : ¬ (2 ^ E - 2 = 0) := by omega
    have c2 : ¬ (2 ^ E - 2 = ones E) := by unfold ones; omega
    simp [c1, c2, ← pow_bias]
    rw [← pow_bias] at b1
    rw [Nat.cast_sub (by omega)]
    push_cast
    omega

theorem gradual_sig {E F m : ℕ} {e : ℤ} (hF : 1 ≤ F) (hm : IsSig (F + 1) m) (s : Bool) (h1 : 1 - bias E ≤ e + F) (h2 : e + F ≤ bias E) :
    Rep E F (Mpfr.num s m e).datum := by
  intro q hq
  have u := sig_upper hm e
  have l := sig_lower hm e
  have hpos : (0 : ℚ) < m * 2 ^ e := lt_of_lt_of_le (by positivity) l
  simp only [Mpfr.datum] at hq
  injection hq with hq
  have ab : |q| = m * 2 ^ e := by
    rw [← hq]
    cases s <;> simp [abs_of_pos hpos]
  have q0 : q ≠ 0 := by
    intro h
    rw [h, abs_zero] at ab
    linarith
  obtain ⟨m1, m2⟩ := hm
  rw [Nat.add_sub_cancel] at m1
  have m0 : 0 < 2 ^ F := by positivity
  refine ⟨q0, m, e, ⟨⟨m2, by unfold leastExp; omega⟩, .inl m1, ?_, ?_⟩, ?_⟩
  · intro m' e' _
    rw [ab, sub_self, abs_zero]
    positivity
  · intro m' e' _ heq hne
    rw [ab, sub_self, abs_zero] at heq
    exact absurd (sub_eq_zero.1 (abs_eq_zero.1 heq.symm)).symm hne
  · rw [if_neg (by omega), if_neg ?_]
    · rw [← hq]
      cases s
      · simp only [Bool.false_eq_true, if_false, one_mul]
        rw [if_neg (by linarith)]
        simp
      · simp only [if_true]
        rw [if_pos (by linarith)]
    · rw [not_le, ieeeLimit]
      exact lt_of_lt_of_le u (zpow_le_zpow_right₀ (by norm_num) (by omega))

theorem single_window (fast : ℕ) :
    Window (policySoftSingle fast) (limitsSoft 8 23) (wordDatum 8 23) (· < 2 ^ 32) 23 (-126) 127 := by
  have hb : bias 8 = 127 := by norm_num [bias]
  refine ⟨by norm_num, by norm_num, by norm_num, rfl, ?_, ?_, ?_, ⟨?_, by decide, ?_⟩, ⟨?_, by decide, ?_⟩, by decide, by decide +kernel⟩
  · intro allow s m e hm h1 h2
    exact fromMpfrSingle_rep (gradual_sig (by norm_num) hm s (by rw [hb]; omega) (by rw [hb]; omega)) allow
  · intro allow t ht
    exact fromMpfrSingle_rep (fun q hq => absurd hq (ht q)) allow
  · intro s m e hm h1 h2 h3
    push_cast at *
    omega
  · change Native.toMpfr 8 23 24 (2 ^ 23) = _
    decide +kernel
  · decide +kernel
  · change Native.toMpfr 8 23 24 ((2 ^ 8 - 1) * 2 ^ 23 - 1) = _
    decide +kernel
  · decide +kernel

theorem double_window (fast : ℕ) :
    Window (policySoftDouble fast) (limitsSoft 11 52) (wordDatum 11 52) (· < 2 ^ 64) 52 (-1022) 1023 := by
  have hb : bias 11 = 1023 := by norm_num [bias]
  refine ⟨by norm_num, by norm_num, by norm_num, rfl, ?_, ?_, ?_, ⟨?_, by decide, ?_⟩, ⟨?_, by decide, ?_⟩, by decide, by decide +kernel⟩
  · intro allow s m e hm h1 h2
    exact fromMpfrDouble_rep (gradual_sig (by norm_num) hm s (by rw [hb]; omega) (by rw [hb]; omega)) allow
  · intro allow t ht
    exact fromMpfrDouble_rep (fun q hq => absurd hq (ht q)) allow
  · intro s m e hm h1 h2 h3
    push_cast at *
    omega
  · change Native.toMpfr 11 52 53 (2 ^ 52) = _
    decide +kernel
  · decide +kernel
  · change Native.toMpfr 11 52 53 ((2 ^ 11 - 1) * 2 ^ 52 - 1) = _
    decide +kernel
  · decide +kernel

/-! ### When the inputs exist -/

theorem fixed_none {V : Type} {P : TestPolicy V} {L : TestLimits V} {F : ℕ} (hd : P.digits = F + 1) {t : Mpfr} (ht : P.fromMpfr t false = none)
    (hm : t ∈ ints (F + 1) ∨ t ∈ aboveOne F ∨ t ∈ belowOne F) : PolicyInput.fixed P L = none := by
  unfold PolicyInput.fixed
  rw [hd]
  rcases hm with hm | hm | hm
  · rw [pushAll_none ⟨t, hm, ht⟩]
    rfl
  · have := pushAll_none ⟨t, hm, ht⟩
    unfold aboveOne at this
    rw [this]
    cases pushAll P false (ints (F + 1)) with
    | none => rfl
    | some a => cases edgeCases P L <;> rfl
  · have := pushAll_none ⟨t, hm, ht⟩
    unfold belowOne at this
    rw [this]
    cases pushAll P false (ints (F + 1)) with
    | none => rfl
    | some a =>
      cases edgeCases P L with
      | none => rfl
      | some g => cases pushAll P false (tenSteps (Mpfr.nextAbove (F + 1)) (Mpfr.rndn (F + 1) 1)) <;> rfl

theorem eight_at {F : ℕ} (hF : 1 ≤ F) : Mpfr.at_ false F ((3 - F) * 2 ^ F) ∈ ints (F + 1) := by
  refine List.mem_map.2 ⟨7, by simp, ?_⟩
  rw [show ((7 + 1 : ℕ) : ℚ) = 2 ^ (3 : ℤ) by norm_num, rndn_eq hF (isSig_pow F) (pow_as_sig F 3).symm]
  have := Mpfr.at_eq false (F := F) (i := 0) (3 - F) (by positivity)
  rw [Nat.cast_zero, add_zero, Nat.add_zero] at this
  exact this.symm

theorem eight_exp {F : ℕ} : ((3 - F) * 2 ^ F : ℤ) / 2 ^ F + F = 3 := by
  have := index_div (F := F) (3 - F) 0
  rw [add_zero, Int.zero_ediv, add_zero] at this
  rw [this]
  ring

theorem ieee_at_none {E F : ℕ} (hE : 2 ≤ E) (hF : 1 ≤ F) {k : ℤ} (h : ¬ InWin F (1 - bias E) (bias E) k) :
    Ieee.ofMpfr E F false (Mpfr.at_ false F k) = none := by
  have h' := C51_of_mpfr hE hF false false (k / 2 ^ F) (Mpfr.isSig_at F k)
  unfold InWin at h
  rw [if_neg (by simp only [Bool.false_eq_true, or_false]; omega)] at h'
  exact h'

theorem ieee_fixed_none {E F : ℕ} (hE : 2 ≤ E) (hF : 1 ≤ F) (h : ¬ (3 ≤ E ∧ (E = 3 → 3 ≤ F))) :
    PolicyInput.fixed (policyIeeeOnFlopoco E F) (limitsIeee E F) = none := by
  by_cases h3 : 3 ≤ E
  · have hE3 : E = 3 ∧ (F = 1 ∨ F = 2) := by
      have : E = 3 := by by_contra hc; exact h ⟨h3, by omega⟩
      refine ⟨this, ?_⟩
      by_contra hc
      exact h ⟨h3, by omega⟩
    obtain ⟨rfl, hf⟩ := hE3
    refine fixed_none rfl (t := (Mpfr.nextBelow (F + 1))^[10] (Mpfr.rndn (F + 1) 1)) ?_
      (.inr (.inr (tenSteps_mem.mpr ⟨10, by omega, le_rfl, rfl⟩)))
    rw [belowOne_eq hF le_rfl]
    rcases hf with rfl | rfl
    · rw [show ∀ t, (policyIeeeOnFlopoco 3 1).fromMpfr t false = Ieee.ofMpfr 3 1 false t from fun _ => rfl]
      refine ieee_at_none hE hF ?_
      unfold InWin bias; decide
    · rw [show ∀ t, (policyIeeeOnFlopoco 3 2).fromMpfr t false = Ieee.ofMpfr 3 2 false t from fun _ => rfl]
      refine ieee_at_none hE hF ?_
      unfold InWin bias; decide
  · have : E = 2 := by omega
    subst this
    refine fixed_none rfl ?_ (.inl (eight_at hF))
    refine ieee_at_none hE hF ?_
    unfold InWin
    rw [eight_exp]
    unfold bias
    norm_num

theorem flopoco_fixed_none {E F : ℕ} (hE : 1 ≤ E) (hF : 1 ≤ F) (h : ¬ (3 ≤ E ∧ (E = 3 → 2 ≤ F))) :
    PolicyInput.fixed (policyFlopoco E F) (limitsFlopoco E F) = none := by
  by_cases h3 : 3 ≤ E
  · have hE3 : E = 3 ∧ F = 1 := by
      constructor <;> by_contra hc <;> exact h ⟨h3, by omega⟩
    obtain ⟨rfl, rfl⟩ := hE3
    refine fixed_none rfl (t := (Mpfr.nextAbove 2)^[10] (Mpfr.rndn 2 1)) ?_ (.inr (.inl (tenSteps_mem.mpr ⟨10, by omega, le_rfl, rfl⟩)))
    rw [aboveOne_eq le_rfl le_rfl]
    rw [show ∀ t, (policyFlopoco 3 1).fromMpfr t false = ofMpfr 3 1 false t from fun _ => rfl]
    refine ofMpfr_at_none hE hF false ?_
    unfold InRange bias; decide
  · refine fixed_none rfl ?_ (.inl (eight_at hF))
    refine ofMpfr_at_none hE hF false ?_
    have := eight_exp (F := F)
    unfold InRange
    have : E = 1 ∨ E = 2 := by omega
    rcases this with rfl | rfl <;> unfold bias <;> omega

theorem flopoco_room {E F : ℕ} (hF : 1 ≤ F) (h : 3 ≤ E ∧ (E = 3 → 2 ≤ F)) : ∃ b, Room F (-bias E) (2 ^ E - 1 - bias E) b := by
  obtain ⟨b, -, -, h10, hb, hr, h3⟩ := roomy_of hF h
  obtain ⟨b1, b2⟩ := two_bias (show 1 ≤ E by omega)
  exact ⟨b, h10, by omega, by omega, by omega, by omega⟩

theorem ieee_room {E F : ℕ} (hF : 1 ≤ F) (h : 3 ≤ E ∧ (E = 3 → 3 ≤ F)) : ∃ b, Room F (1 - bias E) (bias E) b := by
  obtain ⟨h3, h33⟩ := h
  have h4 : (2 : ℤ) ^ 2 ≤ 2 ^ (E - 1) := pow_le_pow_right₀ (by norm_num) (by omega)
  have hb : 3 ≤ bias E := by unfold bias; linarith
  by_cases h2 : 3 ≤ F
  · refine ⟨2, ?_, by norm_num, by omega, by omega, hb⟩
    have : (2 : ℤ) ^ 3 ≤ 2 ^ F := pow_le_pow_right₀ (by norm_num) h2
    linarith
  · have h8 : (2 : ℤ) ^ 3 ≤ 2 ^ (E - 1) := pow_le_pow_right₀ (by norm_num) (by omega)
    have hb' : 7 ≤ bias E := by unfold bias; linarith
    refine ⟨5, ?_, by norm_num, by omega, by omega, hb⟩
    have : (2 : ℤ) ^ 1 ≤ 2 ^ F := pow_le_pow_right₀ (by norm_num) hF
    linarith

/-- A number that overflows and is not a power of two leaves fraction bits in the infinity. -/
theorem flopoco_stray {E F : ℕ} (hE : 1 ≤ E) (hF : 1 ≤ F) {s : Bool} {m : ℕ} {e : ℤ} (hm : IsSig (F + 1) m) (h1 : bias E + 1 < e + F)
    (h2 : m ≠ 2 ^ F) {v : Fp E F} (hv : ofMpfr E F true (.num s m e) = some v) : v.datum = .inf s ∧ v.exp = 0 ∧ v.frac ≠ 0 := by
  have hd := C47_of_mpfr hE hF true s e hm
  rw [if_pos (Or.inr rfl), hv] at hd
  obtain ⟨v', hv', hd⟩ := hd
  obtain rfl := Option.some.inj hv'
  obtain ⟨b1, b2⟩ := two_bias hE
  obtain ⟨m1, m2⟩ := hm
  rw [Nat.add_sub_cancel] at m1
  rw [pow_succ] at m2
  refine ⟨by rw [hd, rangeCheck, if_neg (by omega), if_pos (by omega)], ?_⟩
  rw [← pow_bias] at *
  have c1 : ¬ (e + F < 0 - (biasN E : ℤ)) := by omega
  have c2 : e + F > 0 + (biasN E : ℤ) + 1 := by omega
  have pE : 0 < 2 ^ E := by positivity
  have c3 : m / 2 ^ F % 2 = 1 := by
    have : m / 2 ^ F = 1 := Nat.div_eq_of_lt_le (by omega) (by omega)
    rw [this]
  have c4 : ¬ (2 ^ F ≤ m - 2 ^ F) := by omega
  simp only [ofMpfr, c3, one_ne_zero, if_false, c4, c1, c2, if_true] at hv
  obtain rfl := Option.some.inj hv
  have hs : s.toNat < 2 := by cases s <;> decide
  have hf : m - 2 ^ F < 2 ^ F := by omega
  refine ⟨Fp.mk4_exp (by decide) hs pE hf hE, ?_⟩
  rw [Fp.mk4_frac (by decide) hs pE hf hF]
  omega

theorem Window.same {V : Type} {P Q : TestPolicy V} {L : TestLimits V} {D : V → Datum} {good : V → Prop} {F : ℕ} {lo hi : ℤ}
    (h : Window P L D good F lo hi) (hd : Q.digits = P.digits) (hs : SameReference Q P) : Window Q L D good F lo hi :=
  ⟨h.hF, h.lo0, h.hi0, hd.trans h.digits, by rw [hs.fromMpfr]; exact h.inside, by rw [hs.fromMpfr]; exact h.special,
    by rw [hs.fromMpfr]; exact h.outside, by rw [hs.toMpfr]; exact h.min, by rw [hs.toMpfr]; exact h.max, h.inf⟩

theorem single_room : Room 23 (-126) 127 2 := ⟨by norm_num, by norm_num, by norm_num, by norm_num, by norm_num⟩
theorem double_room : Room 52 (-1022) 1023 2 := ⟨by norm_num, by norm_num, by norm_num, by norm_num, by norm_num⟩

/-- What one round of the random loop computes. -/
theorem ratio_cases {F : ℕ} (hF : 1 ≤ F) (d : ℕ × ℕ) :
    (∃ w m e, drawnQuotient (F + 1) d = .num w ∧ 0 < w ∧ NearestEven (F + 1) w m e ∧ OpTest.ratio (F + 1) d = .num false m e) ∨
    ((∀ w, drawnQuotient (F + 1) d ≠ .num w) ∧ (OpTest.ratio (F + 1) d).datum = drawnQuotient (F + 1) d) := by
  obtain ⟨u1, u2⟩ := urandomb_spec (F + 1) d.1 (by omega)
  obtain ⟨w1, w2⟩ := urandomb_spec (F + 1) d.2 (by omega)
  have hex := Mpfr.div_exact (F + 1) u2 w2
  rw [u1, w1] at hex
  change Mpfr.Exact (F + 1) (OpTest.ratio (F + 1) d) (drawnQuotient (F + 1) d) at hex
  obtain ⟨hs, hn⟩ := hex
  by_cases hx : ∃ w, drawnQuotient (F + 1) d = .num w
  · left
    obtain ⟨w, hw⟩ := hx
    obtain ⟨a, b, a1, a2, b1, b2, he⟩ := drawn_num hw
    have wpos : 0 < w := by
      rw [he]
      have : (0 : ℚ) < a := by exact_mod_cast a1
      have : (0 : ℚ) < b := by exact_mod_cast b1
      positivity
    have hr := hn w hw
    have hspec := Mpfr.rndnPos_spec (p := F + 1) (by omega) wpos
    rw [Mpfr.rndn, if_neg wpos.ne', abs_of_pos wpos, decide_eq_false (by linarith)] at hr
    exact ⟨w, _, _, hw, wpos, hspec, hr⟩
  · exact .inr ⟨fun w hw => hx ⟨w, hw⟩, hs (fun w hw => hx ⟨w, hw⟩)⟩

/-- When the inputs of one round include an infinity with fraction bits. -/
theorem flopoco_ratio_stray {E F : ℕ} (hE : 1 ≤ E) (hF : 1 ≤ F) {d : ℕ × ℕ} {a b : Fp E F}
    (hp : push (policyFlopoco E F) true (OpTest.ratio (F + 1) d) = some [a, b]) :
    ((¬ PlainInf a ∨ ¬ PlainInf b) ↔ ∃ w m e, drawnQuotient (F + 1) d = .num w ∧ NearestEven (F + 1) w m e ∧ bias E + 1 < e + F ∧ m ≠ 2 ^ F) ∧
    ((¬ PlainInf a ∨ ¬ PlainInf b) → a.datum = .inf false ∧ a.exp = 0 ∧ a.frac ≠ 0) := by
  have win := flopoco_window hE hF
  obtain ⟨b1, b2⟩ := two_bias hE
  have fa : ofMpfr E F true (OpTest.ratio (F + 1) d) = some a ∧ ofMpfr E F true (OpTest.ratio (F + 1) d).flip = some b := by
    unfold push at hp
    change (do let a ← ofMpfr E F true (OpTest.ratio (F + 1) d); let b ← ofMpfr E F true (OpTest.ratio (F + 1) d).flip; some [a, b]) = _ at hp
    cases h1 : ofMpfr E F true (OpTest.ratio (F + 1) d) with
    | none => rw [h1] at hp; cases hp
    | some x =>
      cases h2 : ofMpfr E F true (OpTest.ratio (F + 1) d).flip with
      | none => rw [h1, h2] at hp; cases hp
      | some y =>
        rw [h1, h2] at hp
        injection hp with hp
        injection hp with q1 q2
        injection q2 with q2
        exact ⟨by rw [q1], by rw [q2]⟩
  obtain ⟨fa, fb⟩ := fa
  rcases ratio_cases hF d with ⟨w, m, e, hw, wpos, hn, hr⟩ | ⟨hs, hr⟩
  · rw [hr] at fa fb
    by_cases hst : bias E + 1 < e + F ∧ m ≠ 2 ^ F
    · obtain ⟨c1, c2, c3⟩ := flopoco_stray hE hF hn.1 hst.1 hst.2 fa
      have : ¬ PlainInf a := fun hc => c3 (hc _ c1).2
      exact ⟨⟨fun _ => ⟨w, m, e, hw, hn, hst⟩, fun _ => .inl this⟩, fun _ => ⟨c1, c2, c3⟩⟩
    · have good : ∀ s v, ofMpfr E F true (.num s m e) = some v → PlainInf v := by
        intro s v hv
        by_cases hin : -bias E ≤ e + F ∧ e + F ≤ 2 ^ E - 1 - bias E
        · obtain ⟨v', g1, g2, -⟩ := win.inside true s m e hn.1 hin.1 hin.2
          obtain rfl : v' = v := Option.some.inj (g1.symm.trans hv)
          exact g2
        · obtain ⟨a', b', a1, a2, c1, c2, he⟩ := drawn_num hw
          obtain ⟨x1, x2⟩ := drawn_exp hF a1 a2 c1 c2 he hn
          obtain ⟨v', g1, g2, -⟩ := win.outside s m e hn.1 (by omega) (by omega) hin
          obtain rfl : v' = v := Option.some.inj (g1.symm.trans hv)
          refine g2 ?_
          by_contra hc
          push Not at hc
          exact hst ⟨by omega, hc.2⟩
      have ga := good _ _ fa
      have gb := good _ _ fb
      have no : ¬ (¬ PlainInf a ∨ ¬ PlainInf b) := by
        rintro (h | h)
        · exact h ga
        · exact h gb
      refine ⟨⟨fun h => absurd h no, ?_⟩, fun h => absurd h no⟩
      rintro ⟨w', m', e', hw', hn', hc⟩
      rw [hw] at hw'
      injection hw' with hw'
      subst hw'
      obtain ⟨rfl, rfl⟩ := nearest_unique (by omega) hn hn'
      exact absurd hc hst
  · have good : ∀ t v, (∀ q, t.datum ≠ .num q) → ofMpfr E F true t = some v → PlainInf v := by
      intro t v ht hv
      obtain ⟨v', g1, g2, -⟩ := win.special true t ht
      obtain rfl : v' = v := Option.some.inj (g1.symm.trans hv)
      exact g2
    have ga := good _ _ (by rw [hr]; exact hs) fa
    have hf : (OpTest.ratio (F + 1) d).flip.datum = (OpTest.ratio (F + 1) d).datum.neg := by
      cases OpTest.ratio (F + 1) d with
      | num s m e => cases s <;> simp [Mpfr.flip, Mpfr.datum, Datum.neg]
      | _ => rfl
    have gb := good _ _ (by
      intro q hq
      rw [hf, hr] at hq
      cases hd : drawnQuotient (F + 1) d with
      | num w' => exact hs w' hd
      | _ => rw [hd] at hq; exact Datum.noConfusion hq) fb
    have no : ¬ (¬ PlainInf a ∨ ¬ PlainInf b) := by
      rintro (h | h)
      · exact h ga
      · exact h gb
    refine ⟨⟨fun h => absurd h no, ?_⟩, fun h => absurd h no⟩
    rintro ⟨w', m', e', hw', -⟩
    exact absurd hw' (hs w')

end PolicyInput
end Thls
