import Verif.Model.SoftPrim
import Verif.SpecPrim
import Verif.Proofs.SoftDiv
import Verif.Proofs.SoftExact
import Verif.Proofs.SoftQuiet
import Verif.Proofs.SoftMul

/-! # The primitives of the library and their replacements -/

namespace Thls
open Spec

theorem leadingZeros_unique {W a c d : ℕ} (hc : LeadingZeros W a c) (hd : LeadingZeros W a d) : c = d := by
  unfold LeadingZeros at hc hd
  split_ifs at hc hd with h
  · omega
  · obtain ⟨c1, c2, c3⟩ := hc
    obtain ⟨d1, d2, d3⟩ := hd
    by_contra hne
    rcases Nat.lt_or_ge c d with hl | hl
    · have := Nat.pow_le_pow_right (n := 2) (by norm_num) (show W - d ≤ W - 1 - c by omega)
      omega
    · have := Nat.pow_le_pow_right (n := 2) (by norm_num) (show W - c ≤ W - 1 - d by omega)
      omega

theorem builtinClz_spec {w a : ℕ} (h0 : a ≠ 0) (ha : a < 2 ^ w) : ∃ c, builtinClz w a = some c ∧ LeadingZeros w a c := by
  unfold builtinClz LeadingZeros
  simp only [Nat.mod_eq_of_lt ha, if_neg h0]
  have h1 := Nat.log2_self_le h0
  have h2 := Nat.lt_log2_self (n := a)
  have hlt : Nat.log2 a < w := (Nat.log2_lt h0).2 ha
  refine ⟨_, rfl, by omega, ?_, ?_⟩
  · rw [show w - 1 - (w - 1 - Nat.log2 a) = Nat.log2 a by omega]; exact h1
  · rw [show w - (w - 1 - Nat.log2 a) = Nat.log2 a + 1 by omega]; exact h2

/-- The 256 entries of the table. -/
theorem clz8_all : ∀ i : Fin 256, ∃ c : Fin 9, clz8Table[i.val]? = some c.val ∧ (i.val = 0 → c.val = 8) ∧
    (i.val ≠ 0 → c.val < 8 ∧ 2 ^ (7 - c.val) ≤ i.val ∧ i.val < 2 ^ (8 - c.val)) := by
  decide +kernel

theorem clz8_spec {i : ℕ} (h : i < 256) : ∃ c, clz8Table[i]? = some c ∧ LeadingZeros 8 i c := by
  obtain ⟨c, h1, h2, h3⟩ := clz8_all ⟨i, h⟩
  refine ⟨c.val, h1, ?_⟩
  unfold LeadingZeros
  split_ifs with h0
  · exact h2 h0
  · exact h3 h0

/-- Leading zeros of a word read off its top byte, after a shift that loses nothing. -/
theorem leadingZeros_shift {W a c s x : ℕ} (hs : s + 8 ≤ W) (hx : x = a * 2 ^ s) (hx8 : x < 2 ^ W)
    (hc : LeadingZeros 8 (x / 2 ^ (W - 8)) c) (h0 : x / 2 ^ (W - 8) ≠ 0) : LeadingZeros W a (s + c) := by
  unfold LeadingZeros at hc ⊢
  rw [if_neg h0] at hc
  obtain ⟨c1, c2, c3⟩ := hc
  have hp := Nat.two_pow_pos s
  have hW := Nat.two_pow_pos (W - 8)
  have ha : a ≠ 0 := by
    rintro rfl
    rw [zero_mul] at hx
    rw [hx, Nat.zero_div] at h0
    exact h0 rfl
  rw [if_neg ha]
  have k1 : 2 ^ (7 - c) * 2 ^ (W - 8) ≤ x := le_trans (Nat.mul_le_mul_right _ c2) (Nat.div_mul_le_self _ _)
  have k2 : x < 2 ^ (8 - c) * 2 ^ (W - 8) := (Nat.div_lt_iff_lt_mul hW).1 c3
  rw [← pow_add] at k1 k2
  by_cases hcs : s + c < W
  · refine ⟨hcs, ?_, ?_⟩
    · rw [show 7 - c + (W - 8) = (W - 1 - (s + c)) + s by omega, pow_add, hx] at k1
      exact Nat.le_of_mul_le_mul_right k1 hp
    · rw [show 8 - c + (W - 8) = (W - (s + c)) + s by omega, pow_add, hx] at k2
      exact Nat.lt_of_mul_lt_mul_right k2
  · omega

theorem libClz16_spec {a : ℕ} (ha : a < 2 ^ 16) : ∃ c, libClz16 a = some c ∧ LeadingZeros 16 a c := by
  unfold libClz16
  split_ifs with h
  · obtain ⟨c, h1, h2⟩ := clz8_spec (i := a / 2 ^ 8) (by omega)
    refine ⟨c, h1, ?_⟩
    have := leadingZeros_shift (W := 16) (a := a) (s := 0) (x := a) (by norm_num) (by omega) ha h2 (by omega)
    rwa [zero_add] at this
  · obtain ⟨c, h1, h2⟩ := clz8_spec (i := a) (by omega)
    rw [h1]
    refine ⟨8 + c, rfl, ?_⟩
    by_cases h0 : a = 0
    · subst h0
      simp only [LeadingZeros, if_pos] at h2 ⊢
      omega
    · have e : a * 2 ^ 8 / 2 ^ (16 - 8) = a := by omega
      exact leadingZeros_shift (W := 16) (a := a) (s := 8) (x := a * 2 ^ 8) (by norm_num) rfl (by omega) (by rw [e]; exact h2)
        (by rw [e]; exact h0)

theorem libClz32_spec {a : ℕ} (ha : a < 2 ^ 32) : ∃ c, libClz32 a = some c ∧ LeadingZeros 32 a c := by
  by_cases h0 : a = 0
  · subst h0
    exact ⟨32, rfl, by simp [LeadingZeros]⟩
  unfold libClz32
  simp only
  have key : ∀ s x, s + 8 ≤ 32 → x = a * 2 ^ s → x < 2 ^ 32 → 2 ^ 24 ≤ x →
      ∃ c, (clz8Table[x / 2 ^ 24]?).map (s + ·) = some c ∧ LeadingZeros 32 a c := by
    intro s x hs hx h1 h2
    obtain ⟨c, g1, g2⟩ := clz8_spec (i := x / 2 ^ 24) (by omega)
    rw [g1]
    exact ⟨s + c, rfl, leadingZeros_shift hs hx h1 g2 (by omega)⟩
  by_cases h1 : a < 0x10000
  · simp only [if_pos h1]
    have e1 : a * 2 ^ 16 % 2 ^ 32 = a * 2 ^ 16 := Nat.mod_eq_of_lt (by omega)
    rw [e1]
    by_cases h2 : a * 2 ^ 16 < 0x1000000
    · simp only [if_pos h2]
      obtain ⟨x, hx⟩ : ∃ x, x = a * 2 ^ 16 := ⟨_, rfl⟩
      rw [← hx] at h2 ⊢
      have e2 : x * 2 ^ 8 % 2 ^ 32 = x * 2 ^ 8 := Nat.mod_eq_of_lt (by omega)
      rw [e2]
      exact key 24 _ (by norm_num) (by omega) (by omega) (by omega)
    · simp only [if_neg h2]
      exact key 16 _ (by norm_num) (by omega) (by omega) (by omega)
  · simp only [if_neg h1]
    by_cases h2 : a < 0x1000000
    · simp only [if_pos h2]
      rw [Nat.mod_eq_of_lt (show a * 2 ^ 8 < 2 ^ 32 by omega)]
      exact key (0 + 8) _ (by norm_num) (by omega) (by omega) (by omega)
    · simp only [if_neg h2]
      exact key 0 _ (by norm_num) (by omega) (by omega) (by omega)

theorem libClz64_eq {a : ℕ} : libClz64 a = if a / 2 ^ 32 = 0 then (libClz32 (a % 2 ^ 32)).map (32 + ·) else libClz32 (a / 2 ^ 32) := by
  unfold libClz64 libClz32
  simp only
  by_cases h : a / 2 ^ 32 = 0
  · simp only [if_pos h]
    generalize a % 2 ^ 32 = b
    have key : ∀ (o : Option ℕ) (i j : ℕ), i = 32 + j → o.map (i + ·) = (o.map (j + ·)).map (32 + ·) := by
      intro o i j h
      cases o with
      | none => rfl
      | some x => simp only [Option.map_some, h, Nat.add_assoc]
    by_cases h1 : b < 0x10000
    · simp only [if_pos h1]
      by_cases h2 : b * 2 ^ 16 % 2 ^ 32 < 0x1000000
      · simp only [if_pos h2]; exact key _ _ _ rfl
      · simp only [if_neg h2]; exact key _ _ _ rfl
    · simp only [if_neg h1]
      by_cases h2 : b < 0x1000000
      · simp only [if_pos h2]; exact key _ _ _ rfl
      · simp only [if_neg h2]; exact key _ _ _ rfl
  · simp only [if_neg h]

theorem libClz64_spec {a : ℕ} (ha : a < 2 ^ 64) : ∃ c, libClz64 a = some c ∧ LeadingZeros 64 a c := by
  rw [libClz64_eq]
  by_cases h : a / 2 ^ 32 = 0
  · rw [if_pos h]
    obtain ⟨c, h1, h2⟩ := libClz32_spec (a := a % 2 ^ 32) (by omega)
    rw [h1]
    have e : a % 2 ^ 32 = a := by omega
    rw [e] at h2
    refine ⟨32 + c, rfl, ?_⟩
    unfold LeadingZeros at h2 ⊢
    split_ifs at h2 ⊢ with h0
    · omega
    · obtain ⟨c1, c2, c3⟩ := h2
      refine ⟨by omega, ?_, ?_⟩
      · rw [show 64 - 1 - (32 + c) = 32 - 1 - c by omega]; exact c2
      · rw [show 64 - (32 + c) = 32 - c by omega]; exact c3
  · rw [if_neg h]
    obtain ⟨c, h1, h2⟩ := libClz32_spec (a := a / 2 ^ 32) (by omega)
    refine ⟨c, h1, ?_⟩
    unfold LeadingZeros at h2 ⊢
    rw [if_neg h] at h2
    rw [if_neg (by omega)]
    obtain ⟨c1, c2, c3⟩ := h2
    have k1 : 2 ^ (32 - 1 - c) * 2 ^ 32 ≤ a := le_trans (Nat.mul_le_mul_right _ c2) (Nat.div_mul_le_self _ _)
    have k2 : a < 2 ^ (32 - c) * 2 ^ 32 := (Nat.div_lt_iff_lt_mul (by norm_num)).1 c3
    rw [← pow_add] at k1 k2
    refine ⟨by omega, ?_, ?_⟩
    · rw [show 64 - 1 - c = 32 - 1 - c + 32 by omega]; exact k1
    · rw [show 64 - c = 32 - c + 32 by omega]; exact k2

/-- A carry recovered by comparing a wrapped sum with one of its terms. -/
theorem carry_of_lt {M x y : ℕ} (hx : x < M) (hy : y < M) :
    (if (x + y) % M < x then 1 else 0) = (x + y) / M := by
  by_cases h : x + y < M
  · rw [Nat.mod_eq_of_lt h, Nat.div_eq_of_lt h, if_neg (by omega)]
  · have e : x + y = (x + y - M) + M := by omega
    have e2 : (x + y) % M = x + y - M := by
      rw [e, Nat.add_mod_right, Nat.mod_eq_of_lt (by omega)]
      omega
    have e3 : (x + y) / M = 1 := by
      rw [e, Nat.add_div_right _ (by omega), Nat.div_eq_of_lt (by omega)]
    rw [e2, e3, if_pos (by omega)]

theorem libMul_value {a b : ℕ} (ha : a < 2 ^ 64) (hb : b < 2 ^ 64) :
    fourWords (libMul64To128M a b) = a * b ∧ (libMul64To128M a b).1 < 2 ^ 32 ∧ (libMul64To128M a b).2.1 < 2 ^ 32 ∧
      (libMul64To128M a b).2.2.1 < 2 ^ 32 ∧ (libMul64To128M a b).2.2.2 < 2 ^ 32 := by
  have ha' : a = a / 2 ^ 32 * 2 ^ 32 + a % 2 ^ 32 := by omega
  have hb' : b = b / 2 ^ 32 * 2 ^ 32 + b % 2 ^ 32 := by omega
  have hab : a * b = (a / 2 ^ 32) * (b / 2 ^ 32) * 2 ^ 64 + ((a / 2 ^ 32) * (b % 2 ^ 32) + (a % 2 ^ 32) * (b / 2 ^ 32)) * 2 ^ 32 +
      (a % 2 ^ 32) * (b % 2 ^ 32) := by
    conv_lhs => rw [ha', hb']
    ring
  unfold fourWords libMul64To128M
  simp only
  have h1 : a / 2 ^ 32 ≤ 2 ^ 32 - 1 := by omega
  have h2 : a % 2 ^ 32 ≤ 2 ^ 32 - 1 := by omega
  have h3 : b / 2 ^ 32 ≤ 2 ^ 32 - 1 := by omega
  have h4 : b % 2 ^ 32 ≤ 2 ^ 32 - 1 := by omega
  generalize a / 2 ^ 32 = a1 at *
  generalize a % 2 ^ 32 = a0 at *
  generalize b / 2 ^ 32 = b1 at *
  generalize b % 2 ^ 32 = b0 at *
  have p1 := Nat.mul_le_mul h1 h3
  have p2 := Nat.mul_le_mul h1 h4
  have p3 := Nat.mul_le_mul h2 h3
  have p4 := Nat.mul_le_mul h2 h4
  have hlt : a * b < 2 ^ 128 := by
    calc a * b < 2 ^ 64 * 2 ^ 64 := Nat.mul_lt_mul'' ha hb
      _ = 2 ^ 128 := by norm_num
  generalize a1 * b1 = w at *
  generalize a1 * b0 = u at *
  generalize a0 * b1 = v at *
  generalize a0 * b0 = l at *
  generalize a * b = P at *
  rw [Nat.mod_eq_of_lt (show u < 2 ^ 64 by omega), Nat.mod_eq_of_lt (show w < 2 ^ 64 by omega),
    Nat.mod_eq_of_lt (show l < 2 ^ 64 by omega), carry_of_lt (M := 2 ^ 64) (by omega) (by omega)]
  rw [Nat.add_comm l, carry_of_lt (M := 2 ^ 64) (by omega) (by omega)]
  have hor : (u + v) / 2 ^ 64 * 2 ^ 32 ||| (u + v) % 2 ^ 64 / 2 ^ 32 = (u + v) / 2 ^ 64 * 2 ^ 32 + (u + v) % 2 ^ 64 / 2 ^ 32 := by
    rw [Nat.mul_comm, ← Nat.two_pow_add_eq_or_of_lt (by omega)]
  rw [hor]
  omega

theorem mul64To128M_value {a b : ℕ} (ha : a < 2 ^ 64) (hb : b < 2 ^ 64) :
    fourWords (mul64To128M a b) = a * b ∧ (mul64To128M a b).1 < 2 ^ 32 ∧ (mul64To128M a b).2.1 < 2 ^ 32 ∧
      (mul64To128M a b).2.2.1 < 2 ^ 32 ∧ (mul64To128M a b).2.2.2 < 2 ^ 32 := by
  have hlt : a * b < 2 ^ 128 := by
    calc a * b < 2 ^ 64 * 2 ^ 64 := Nat.mul_lt_mul'' ha hb
      _ = 2 ^ 128 := by norm_num
  unfold fourWords mul64To128M
  simp only
  generalize a * b = P at *
  omega

theorem fourWords_inj {v w : ℕ × ℕ × ℕ × ℕ} (h : fourWords v = fourWords w)
    (hv : v.1 < 2 ^ 32 ∧ v.2.1 < 2 ^ 32 ∧ v.2.2.1 < 2 ^ 32 ∧ v.2.2.2 < 2 ^ 32)
    (hw : w.1 < 2 ^ 32 ∧ w.2.1 < 2 ^ 32 ∧ w.2.2.1 < 2 ^ 32 ∧ w.2.2.2 < 2 ^ 32) : v = w := by
  obtain ⟨a, b, c, d⟩ := v
  obtain ⟨a', b', c', d'⟩ := w
  simp only [fourWords] at h hv hw
  obtain ⟨rfl, rfl, rfl, rfl⟩ : a = a' ∧ b = b' ∧ c = c' ∧ d = d' := by omega
  rfl

theorem libMul_eq {a b : ℕ} (ha : a < 2 ^ 64) (hb : b < 2 ^ 64) : libMul64To128M a b = mul64To128M a b := by
  obtain ⟨h1, h2⟩ := libMul_value ha hb
  obtain ⟨g1, g2⟩ := mul64To128M_value ha hb
  exact fourWords_inj (h1.trans g1.symm) h2 g2

theorem libProd64_eq : libProd64 = softProd64 := by
  funext a b
  unfold libProd64 softProd64
  rw [libMul_eq (Nat.mod_lt _ (by norm_num)) (Nat.mod_lt _ (by norm_num))]

theorem libProd32_eq {m n : ℕ} (hm : m < 2 ^ 24) (hn : n < 2 ^ 24) : libProd32 m n = softProd32 m n := by
  unfold libProd32 softProd32
  rw [if_pos ⟨hm, hn⟩]
  have h : m * n ≤ (2 ^ 24 - 1) * (2 ^ 24 - 1) := Nat.mul_le_mul (by omega) (by omega)
  rw [show m * 2 ^ 7 * (n * 2 ^ 8) = m * n * 2 ^ 15 by ring]
  generalize m * n = p at *
  rw [Nat.mod_eq_of_lt (show p < 2 ^ 64 by omega)]

namespace SoftFmt
variable {f : SoftFmt}

/-- The operation depends only on the product of normalised significands. -/
theorem mul_congr (ok : f.Ok) {p q : ℕ → ℕ → Option ℕ}
    (h : ∀ m n, 2 ^ f.F ≤ m → m < 2 ^ (f.F + 1) → 2 ^ f.F ≤ n → n < 2 ^ (f.F + 1) → p m n = q m n) (a b : ℕ) :
    f.mulWith p a b = f.mulWith q a b := by
  unfold mulWith
  simp only
  by_cases hea : f.exp a = f.top
  · rw [if_pos hea, if_pos hea]
  by_cases heb : f.exp b = f.top
  · rw [if_neg hea, if_pos heb, if_neg hea, if_pos heb]
  by_cases h0 : (f.exp a = 0 ∧ f.frac a = 0) ∨ (f.exp b = 0 ∧ f.frac b = 0)
  · rw [if_neg hea, if_neg heb, if_pos h0, if_neg hea, if_neg heb, if_pos h0]
  rw [not_or] at h0
  have la := (fields_lt f a).1
  have lb := (fields_lt f b).1
  obtain ⟨x, m, u1, m1, m2, -⟩ := unpackNorm_spec ok (show f.exp a < f.top by simp only [top] at *; omega) (fields_lt f a).2 h0.1
  obtain ⟨y, n, u2, n1, n2, -⟩ := unpackNorm_spec ok (show f.exp b < f.top by simp only [top] at *; omega) (fields_lt f b).2 h0.2
  rw [u1, u2]
  simp only [Option.bind_eq_bind, Option.bind_some, h m n m1 m2 n1 n2]

/-- Two quotients that are both accurate enough give the same result, NaNs included. -/
theorem div_congr (ok : f.Ok) {p q : ℕ → ℕ → Bool × ℕ} (hp : QuotOk f p) (hq : QuotOk f q) {a b : ℕ} (ha : a < 2 ^ f.W) (hb : b < 2 ^ f.W) :
    f.divWith p a b = f.divWith q a b := by
  by_cases hea : f.exp a = f.top
  · unfold divWith; simp only; rw [if_pos hea, if_pos hea]
  by_cases heb : f.exp b = f.top
  · unfold divWith; simp only; rw [if_neg hea, if_pos heb, if_neg hea, if_pos heb]
  by_cases hb0 : f.exp b = 0 ∧ f.frac b = 0
  · unfold divWith; simp only; rw [if_neg hea, if_neg heb, if_pos hb0, if_neg hea, if_neg heb, if_pos hb0]
  by_cases ha0 : f.exp a = 0 ∧ f.frac a = 0
  · unfold divWith; simp only
    rw [if_neg hea, if_neg heb, if_neg hb0, if_pos ha0, if_neg hea, if_neg heb, if_neg hb0, if_pos ha0]
  have la := (fields_lt f a).1
  have lb := (fields_lt f b).1
  have hF : 1 ≤ f.F := by have := ok.hF; have := ok.hE; omega
  obtain ⟨z, h1, h2, h3⟩ := div_finite ok hp (a := a) (b := b) (by simp only [top] at *; omega) (by simp only [top] at *; omega) ha0 hb0
  obtain ⟨w, g1, g2, g3⟩ := div_finite ok hq (a := a) (b := b) (by simp only [top] at *; omega) (by simp only [top] at *; omega) ha0 hb0
  have hd := roundedG_unique hF h3 g3
  have hn : wordDatum f.E f.F z ≠ .nan := by
    intro hn
    rw [hn] at h3
    exact rounded_not_nan h3
  rw [h1, g1, datum_inj ok h2 g2 hd hn]

end SoftFmt

theorem fastQuotOk32 (fast : ℕ) : (soft32 fast).QuotOk fastQuot32 := by
  intro m n m1 m2 n1 n2
  simp only [soft32, Nat.reduceAdd] at m1 m2 n1 n2
  refine ⟨rfl, ?_⟩
  have hn0 : 0 < n := by omega
  have hX : (m : ℚ) / n * 2 ^ ((soft32 fast).F + (soft32 fast).G + if m < n then 1 else 0) =
      ((m * 2 ^ (if decide (m < n) = true then 31 else 30) : ℕ) : ℚ) / n := by
    have hn : (n : ℚ) ≠ 0 := by exact_mod_cast hn0.ne'
    have hFG : (soft32 fast).F + (soft32 fast).G = 30 := rfl
    rw [hFG]
    by_cases h : m < n
    · rw [if_pos h, if_pos (decide_eq_true h)]
      push_cast
      field_simp
      norm_num
    · rw [if_neg h, if_neg (by simpa using h)]
      push_cast
      field_simp
      norm_num
  rw [hX]
  have hG : 2 ^ ((soft32 fast).G - 1) = 2 ^ 6 := rfl
  rw [hG]
  unfold fastQuot32
  simp only
  generalize m * 2 ^ (if decide (m < n) = true then 31 else 30) = N
  have d1 := Nat.div_add_mod N n
  have d2 := Nat.mod_lt N hn0
  rw [Nat.mul_comm n] at d1
  generalize hz : N / n = z at *
  generalize N % n = r at *
  by_cases h6 : z % 2 ^ 6 = 0
  · rw [if_pos h6]
    by_cases hr : r = 0
    · have he : n * z = N := by rw [Nat.mul_comm]; omega
      rw [if_neg (by simpa using he), Nat.or_zero]
      exact sim_exact hn0 (by omega)
    · have he : n * z ≠ N := by rw [Nat.mul_comm]; omega
      rw [if_pos he]
      have hor : z ||| 1 = z + 1 := by
        have hz2 : z = 2 * (z / 2) := by omega
        rw [hz2, show (2 : ℕ) * (z / 2) = 2 ^ 1 * (z / 2) by ring, ← Nat.two_pow_add_eq_or_of_lt (by norm_num)]
      rw [hor]
      have hk : z / 2 ^ 6 * 2 ^ 6 = z := by omega
      have hk1 : (z / 2 ^ 6 + 1) * 2 ^ 6 = z + 64 := by omega
      refine sim_between (k := z / 2 ^ 6) hn0 (by omega) (by omega) ?_ ?_
      · rw [hk]; omega
      · rw [hk1, Nat.add_mul]; omega
  · rw [if_neg h6]
    refine sim_between (k := z / 2 ^ 6) hn0 (by omega) (by omega) ?_ ?_
    · have : (z / 2 ^ 6 * 2 ^ 6 + 1) * n ≤ z * n := Nat.mul_le_mul_right _ (by omega)
      rw [Nat.add_mul] at this
      omega
    · have : (z + 1) * n ≤ (z / 2 ^ 6 + 1) * 2 ^ 6 * n := Nat.mul_le_mul_right _ (by omega)
      rw [Nat.add_mul] at this
      omega

theorem fastRecip_spec {a : ℕ} (h1 : 2 ^ 31 ≤ a) (h2 : a < 2 ^ 32) :
    fastRecip a * a < 2 ^ 63 ∧ 2 ^ 63 ≤ fastRecip a * a + a := by
  unfold fastRecip
  have ha : 0 < a := by omega
  have d1 := Nat.div_add_mod 0x7FFFFFFFFFFFFFFF a
  have d2 := Nat.mod_lt 0x7FFFFFFFFFFFFFFF ha
  have hlt : 0x7FFFFFFFFFFFFFFF / a < 2 ^ 32 := by
    rw [Nat.div_lt_iff_lt_mul ha]
    omega
  rw [Nat.mod_eq_of_lt hlt]
  rw [Nat.mul_comm a] at d1
  generalize 0x7FFFFFFFFFFFFFFF / a * a = p at *
  omega

theorem fastQuotOk64 (fast : ℕ) : (soft64 fast).QuotOk fastQuot64 := by
  intro m n m1 m2 n1 n2
  simp only [soft64, Nat.reduceAdd] at m1 m2 n1 n2
  obtain ⟨r1, r2⟩ := fastRecip_spec (a := n * 2 ^ 11 / 2 ^ 32) (by omega) (by omega)
  have hfst : (fastQuot64 m n).1 = decide (m < n) := by
    unfold fastQuot64
    simp only
    split_ifs <;> rfl
  refine ⟨hfst, ?_⟩
  have hA : m * 2 ^ (if decide (m < n) = true then 11 else 10) < n * 2 ^ 11 := by
    by_cases h : m < n
    · rw [if_pos (decide_eq_true h)]; omega
    · rw [if_neg (by simpa using h)]; omega
  have hA0 : 0 < m * 2 ^ (if decide (m < n) = true then 11 else 10) := by
    have : 0 < m := by omega
    positivity
  have hA16 : m * 2 ^ (if decide (m < n) = true then 11 else 10) % 16 = 0 := by
    split_ifs <;> omega
  have hX : (m : ℚ) / n * 2 ^ ((soft64 fast).F + (soft64 fast).G + if m < n then 1 else 0) =
      ((m * 2 ^ (if decide (m < n) = true then 11 else 10) * 2 ^ 63 : ℕ) : ℚ) / (n * 2 ^ 11 : ℕ) := by
    have hn : (n : ℚ) ≠ 0 := by have : n ≠ 0 := by omega
                                exact_mod_cast this
    have hFG : (soft64 fast).F + (soft64 fast).G = 62 := rfl
    rw [hFG]
    by_cases h : m < n
    · rw [if_pos h, if_pos (decide_eq_true h)]
      push_cast
      field_simp
      norm_num
    · rw [if_neg h, if_neg (by simpa using h)]
      push_cast
      field_simp
      norm_num
  rw [hX]
  have hG : 2 ^ ((soft64 fast).G - 1) = 2 ^ 9 := rfl
  rw [hG]
  refine quot64_sim hA hA0 hA16 (by omega) (by omega) (by omega) r1 (by omega) rfl rfl rfl rfl ?_
  unfold fastQuot64
  simp only
  generalize m * 2 ^ (if decide (m < n) = true then 11 else 10) = A
  generalize (fastRecip (n * 2 ^ 11 / 2 ^ 32) + 2 ^ 32 - 2) % 2 ^ 32 = R
  generalize A / 2 ^ 32 * R / 2 ^ 32 = z
  generalize softRem64 A z (n * 2 ^ 11) = rem
  generalize (rem / 2 ^ 32 * R / 2 ^ 32 + 4) % 2 ^ 32 = q
  by_cases hc : (z * 2 ^ 32 + q * 2 ^ 4) % 2 ^ 64 % 2 ^ 9 < 2 ^ 6
  · rw [if_pos hc, if_pos hc]
  · rw [if_neg hc, if_neg hc]

end Thls
