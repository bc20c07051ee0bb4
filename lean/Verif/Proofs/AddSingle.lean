import Verif.Proofs.Add

/-! # The single-path adder (helpers) -/

namespace Thls
open Spec

namespace AddSingle

/-- What a normaliser for `F+5` bit words has to do. -/
structure Normalises (F : ℕ) (norm : ℕ → Option (ℕ × ℕ)) : Prop where
  zero : ∃ o, norm 0 = some (o, ones (intlog2 (F + 5)))
  pos : ∀ g, g < 2 ^ (F + 5) → g ≠ 0 → ∃ c, norm g = some (g * 2 ^ c, c) ∧ c < F + 5 ∧ 2 ^ (F + 4) ≤ g * 2 ^ c ∧
    g * 2 ^ c < 2 ^ (F + 5) ∧ c ≠ ones (intlog2 (F + 5))

theorem lzoc_normalises (F : ℕ) : Normalises F (lzoc? (F + 5) (intlog2 (F + 5))) where
  zero := ⟨0, by rw [lzoc_zero _ (intlog2_le_two_mul (by omega)), ones]⟩
  pos g hg h0 := by
    obtain ⟨c, h1, h2, h3, h4, h5⟩ := lzoc_norm (WD := F + 5) (by omega) hg h0
    exact ⟨c, h1, h2, by simpa using h3, h4, h5⟩

theorem getBit_toNat (k G : ℕ) : (getBit k G).toNat = G / 2 ^ k % 2 := by
  unfold getBit
  rcases Nat.mod_two_eq_zero_or_one (G / 2 ^ k) with h | h <;> simp [h]

/-- Fraction, guard bit and the rest of a normalised word. -/
theorem split_norm {F S : ℕ} (hF : 1 ≤ F) (h1 : 2 ^ (F + 4) ≤ S) (h2 : S < 2 ^ (F + 5)) :
    ∃ f, f < 2 ^ F ∧ S = (2 * (2 ^ F + f) + (getBit 3 S).toNat) * 8 + S % 8 ∧
      getBits (F + 3) 3 S = 2 * f + (getBit 3 S).toNat ∧ getBit 4 S = decide (f % 2 = 1) ∧
      ((getBit 2 S || (getBit 1 S || getBit 0 S)) = decide (S % 8 ≠ 0)) := by
  have e4 : 2 ^ (F + 4) = 16 * 2 ^ F := by rw [pow_add]; ring
  have e5 : 2 ^ (F + 5) = 32 * 2 ^ F := by rw [pow_add]; ring
  have hg3 := getBit_toNat 3 S
  norm_num at hg3
  refine ⟨S / 16 - 2 ^ F, by omega, ?_, ?_, ?_, ?_⟩
  · rw [hg3]; omega
  · unfold getBits
    rw [hg3, show F + 3 + 1 - 3 = F + 1 by omega, pow_succ 2 F, show (2 : ℕ) ^ 3 = 8 by norm_num,
      show S / 8 = (2 * (S / 16 - 2 ^ F) + S / 8 % 2) + 2 ^ F * 2 by omega, Nat.add_mod_right,
      Nat.mod_eq_of_lt (by omega)]
    omega
  · unfold getBit
    norm_num
    cases F with
    | zero => exfalso; omega
    | succ n =>
      have : 2 ^ (n + 1) = 2 * 2 ^ n := by rw [pow_succ]; ring
      omega
  · unfold getBit
    rw [Bool.eq_iff_iff]
    simp only [Bool.or_eq_true, decide_eq_true_eq]
    norm_num
    omega

theorem lzCount_bounds {E F : ℕ} (hfmt : F + 3 < 2 ^ E) :
    ones (intlog2 (F + 5)) + 1 ≤ 2 * 2 ^ E ∧ 5 ≤ ones (intlog2 (F + 5)) := by
  obtain ⟨h1, h2, h3⟩ := intlog2_spec (n := F + 5) (by omega)
  have : intlog2 (F + 5) ≤ E + 1 := by
    refine intlog2_le ?_
    rw [pow_succ]
    have : 2 ^ E ≠ 4 ∨ 2 ^ E = 4 := by omega
    omega
  have h4 : 2 ^ intlog2 (F + 5) ≤ 2 ^ (E + 1) := Nat.pow_le_pow_right (by norm_num) this
  rw [pow_succ] at h4
  unfold ones
  omega

theorem half_emod (t m : ℤ) (hm : 0 < m) : t % (m * 2) / 2 = t / 2 % m := by
  have h1 := Int.emod_add_mul_ediv t (m * 2)
  have h2 := Int.emod_nonneg t (show m * 2 ≠ 0 by omega)
  have h3 := Int.emod_lt_of_pos t (show 0 < m * 2 by omega)
  rw [show m * 2 * (t / (m * 2)) = 2 * (m * (t / (m * 2))) by ring] at h1
  have h4 : t / 2 = t % (m * 2) / 2 + m * (t / (m * 2)) := by
    generalize t % (m * 2) = r at *
    generalize m * (t / (m * 2)) = P at *
    omega
  rw [h4, Int.add_mul_emod_self_left]
  generalize t % (m * 2) = r at *
  exact (Int.emod_eq_of_lt (by omega) (by omega)).symm

/-- The rounded word before packing, without the guard bit. -/
theorem roundedExpFrac_half {E F ex S c f g : ℕ} (rule : Bool → Bool → Bool → Bool → Bool) (hc : c ≤ 2 ^ (E + 2))
    (hb : getBits (F + 3) 3 S = 2 * f + g) :
    ((roundedExpFrac rule E F ex S c / 2 : ℕ) : ℤ)
      = (((ex : ℤ) + 1 - c) * 2 ^ F + f + ((g + (rule (getBit 4 S) (getBit 3 S) (getBit 2 S)
          (getBit 1 S || getBit 0 S)).toNat) / 2 : ℕ)) % 2 ^ (E + F + 2) := by
  unfold roundedExpFrac
  dsimp only
  generalize (rule (getBit 4 S) (getBit 3 S) (getBit 2 S) (getBit 1 S || getBit 0 S)).toNat = a
  have h1 : ((subW (E + 2) (addW (E + 2) ex 1) c : ℕ) : ℤ) = ((ex : ℤ) + 1 - c) % 2 ^ (E + 2) := by
    rw [cast_subW hc, cast_addW, Int.emod_sub_emod]; push_cast; rfl
  have h2 := cast_addW_concat (F := F + 1) (f := getBits (F + 3) 3 S) (c := a) h1
    (show E + F + 3 = (E + 2) + (F + 1) by ring)
  push_cast
  rw [h2, hb, show E + F + 3 = (E + F + 2) + 1 by ring, pow_succ (2 : ℤ) (E + F + 2), half_emod _ _ (by positivity)]
  congr 1
  rw [pow_succ]
  push_cast
  rw [← mul_assoc]
  generalize ((ex : ℤ) + 1 - c) * 2 ^ F = w
  omega

/-- The fields `pack` reads off, in terms of the word without the guard bit. -/
theorem pack_fields {E F T : ℕ} (hTl : T < 2 ^ (E + F + 3)) :
    getBits (E + F + 2) (E + F + 1) T = T / 2 / 2 ^ (E + F) ∧ getBits F 1 T = T / 2 % 2 ^ F ∧
    getBits (F + E) (F + 1) T = T / 2 / 2 ^ F % 2 ^ E ∧ T / 2 / 2 ^ (E + F) < 4 := by
  refine ⟨?_, ?_, ?_, ?_⟩
  · rw [getBits_top (by simpa using hTl) (by omega), Nat.div_div_eq_div_mul, pow_succ, Nat.mul_comm]
  · unfold getBits; rw [Nat.add_sub_cancel, pow_one]
  · unfold getBits
    rw [show F + E + 1 - (F + 1) = E by omega, Nat.div_div_eq_div_mul, pow_succ, Nat.mul_comm]
  · rw [Nat.div_lt_iff_lt_mul (by positivity)]
    have : 2 ^ (E + F + 3) = 8 * 2 ^ (E + F) := by rw [pow_add]; ring
    omega

/-- Packing when the larger operand is normal and the other one normal or zero. -/
theorem pack_datum {E F sx sy fy T : ℕ} {t : ℤ} (hE : 1 ≤ E) (hF : 1 ≤ F) (hsx : sx < 2) (hsy : sy < 2)
    (hfy : fy < 2) (hTl : T < 2 ^ (E + F + 3))
    (hT : ((T / 2 : ℕ) : ℤ) = t % 2 ^ (E + F + 2)) (hlo : -2 ^ (E + F + 1) ≤ t) (hhi : t < 2 ^ (E + F + 1)) :
    (pack E F sx sy 1 fy T false).datum = packedDatum E F (decide (sx = 1)) t := by
  obtain ⟨h1, h2, h3, h4⟩ := pack_fields hTl
  rw [← denote_wrapped (s := sx) hT hlo hhi]
  unfold pack
  simp only [Bool.false_and, Bool.false_eq_true, if_false]
  rw [h1, h2, h3]
  have he : T / 2 / 2 ^ F % 2 ^ E < 2 ^ E := Nat.mod_lt _ (by positivity)
  have hf : T / 2 % 2 ^ F < 2 ^ F := Nat.mod_lt _ (by positivity)
  generalize T / 2 / 2 ^ F % 2 ^ E = e at *
  generalize T / 2 % 2 ^ F = f at *
  have hl : excRt2Lut (concat 2 (T / 2 / 2 ^ (E + F)) (excRtLut (concat 2 (concat 2 (concat 1 sx sy) 1) fy)))
      = rangeFlags (T / 2 / 2 ^ (E + F)) := by
    generalize T / 2 / 2 ^ (E + F) = u at *
    interval_cases sx <;> interval_cases sy <;> interval_cases fy <;> interval_cases u <;> rfl
  have hs : (if concat 2 (concat 2 (concat 1 sx sy) 1) fy = 0b100000 ∨ concat 2 (concat 2 (concat 1 sx sy) 1) fy = 0b010000
      then 0 else sx) = sx := by
    interval_cases sx <;> interval_cases sy <;> interval_cases fy <;> rfl
  rw [hl, hs]
  exact Fp.mk4_datum (rangeFlags_lt _) hsx he hf hE hF

/-- Packing after complete cancellation. -/
theorem pack_zero {E F sx sy T : ℕ} {t : ℤ} (hE : 1 ≤ E) (hF : 1 ≤ F) (hsx : sx < 2) (hsy : sy < 2) (hne : sx ≠ sy)
    (hTl : T < 2 ^ (E + F + 3))
    (hT : ((T / 2 : ℕ) : ℤ) = t % 2 ^ (E + F + 2)) (hlo : -2 ^ (E + F + 1) ≤ t) (hhi : t < 2 ^ (E + F)) :
    (pack E F sx sy 1 1 T true).datum = .zero false := by
  obtain ⟨h1, h2, h3, h4⟩ := pack_fields hTl
  unfold pack
  have hes : (sx != sy) = true := by simpa using hne
  simp only [hes, Bool.true_and]
  rw [h1, h2, h3]
  have he : T / 2 / 2 ^ F % 2 ^ E < 2 ^ E := Nat.mod_lt _ (by positivity)
  have hf : T / 2 % 2 ^ F < 2 ^ F := Nat.mod_lt _ (by positivity)
  generalize T / 2 / 2 ^ F % 2 ^ E = e at *
  generalize T / 2 % 2 ^ F = f at *
  have hu : T / 2 / 2 ^ (E + F) ≠ 1 := by
    intro hc
    have e2 : (2 : ℤ) ^ (E + F + 2) = 4 * 2 ^ (E + F) := by rw [pow_add]; ring
    have e1 : (2 : ℤ) ^ (E + F + 1) = 2 * 2 ^ (E + F) := by rw [pow_add]; ring
    have hp : (0 : ℤ) < 2 ^ (E + F) := by positivity
    have hd := Nat.div_add_mod (T / 2) (2 ^ (E + F))
    have hm := Nat.mod_lt (T / 2) (show 0 < 2 ^ (E + F) by positivity)
    rw [hc] at hd
    have hd' : ((T / 2 : ℕ) : ℤ) = 2 ^ (E + F) + ((T / 2 % 2 ^ (E + F) : ℕ) : ℤ) := by
      rw [← hd]; push_cast; simp
    have hm' : ((T / 2 % 2 ^ (E + F) : ℕ) : ℤ) < 2 ^ (E + F) := by exact_mod_cast hm
    have hm0 : (0 : ℤ) ≤ ((T / 2 % 2 ^ (E + F) : ℕ) : ℤ) := Int.natCast_nonneg _
    rw [hd', e2] at hT
    rcases le_or_gt 0 t with ht | ht
    · rw [Int.emod_eq_of_lt ht (by omega)] at hT; omega
    · rw [show t = (t + 4 * 2 ^ (E + F)) + (4 * 2 ^ (E + F)) * (-1) by ring, Int.add_mul_emod_self_left,
        Int.emod_eq_of_lt (by omega) (by omega)] at hT
      omega
  generalize T / 2 / 2 ^ (E + F) = u at *
  have hd : ∀ s, s < 2 → (Fp.mk4 E F 0 s e f).datum = denote E F 0 s e f := fun s hs =>
    Fp.mk4_datum (by omega) hs he hf hE hF
  have hz : (Fp.mk4 E F 0 0 e f).datum = .zero false := hd 0 (by omega)
  rw [← hz]
  congr 1
  interval_cases sx <;> interval_cases sy <;> (try (exfalso; omega)) <;>
    interval_cases u <;> (first | (exfalso; omega) | rfl)

/-- The window of the exact value around the truncated normalised word. -/
theorem sticky_window {A c N low : ℕ} {st : Bool} (hS : (2 * A + st.toNat) * 2 ^ c = 8 * N + low) (hlow : low < 8)
    (hc : st = true → c ≤ 2) {q : ℚ} (h1 : (A : ℚ) ≤ q) (h2 : q < A + 1) (h3 : st = false ↔ q = A) :
    (N : ℚ) * 4 ≤ q * 2 ^ c ∧ q * 2 ^ c < ((N : ℚ) + 1) * 4 ∧ (low = 0 ↔ q * 2 ^ c = N * 4) := by
  cases st with
  | false =>
    have hq : q = A := h3.mp rfl
    have hS' : ((2 * A : ℚ)) * 2 ^ c = 8 * N + low := by
      simp only [Bool.toNat_false, Nat.add_zero] at hS
      exact_mod_cast hS
    have hl : (low : ℚ) < 8 := by exact_mod_cast hlow
    have hl0 : (0 : ℚ) ≤ low := Nat.cast_nonneg _
    subst hq
    refine ⟨by linarith, by linarith, ?_⟩
    constructor
    · intro h; rw [h] at hS'; push_cast at hS'; linarith
    · intro h
      have : (low : ℚ) = 0 := by linarith
      exact_mod_cast this
  | true =>
    have hc := hc rfl
    have hne : q ≠ A := fun h => by simpa using h3.mpr h
    have hlt : (A : ℚ) < q := lt_of_le_of_ne h1 (Ne.symm hne)
    simp only [Bool.toNat_true] at hS
    have key : 4 * N ≤ A * 2 ^ c ∧ (A + 1) * 2 ^ c ≤ 4 * N + 4 ∧ low ≠ 0 := by
      interval_cases c <;> omega
    obtain ⟨k1, k2, k3⟩ := key
    have k1' : (4 * N : ℚ) ≤ A * 2 ^ c := by exact_mod_cast k1
    have k2' : ((A : ℚ) + 1) * 2 ^ c ≤ 4 * N + 4 := by exact_mod_cast k2
    have hp : (0 : ℚ) < 2 ^ c := by positivity
    have m1 : (A : ℚ) * 2 ^ c < q * 2 ^ c := mul_lt_mul_of_pos_right hlt hp
    have m2 : q * 2 ^ c < ((A : ℚ) + 1) * 2 ^ c := mul_lt_mul_of_pos_right h2 hp
    refine ⟨by linarith, by linarith, ?_⟩
    constructor
    · intro h; exact absurd h k3
    · intro h; exfalso; linarith

/-- The sum of the aligned significands, in quarter units of the larger operand. -/
def sumNat (eq : Bool) (mx Y : ℕ) (st : Bool) : ℕ := if eq then 4 * mx + Y else 4 * mx - Y - st.toNat

theorem addFar_eq {F fx Y : ℕ} {st eq : Bool} (hf : fx < 2 ^ F) (hY : Y < 2 ^ (F + 3))
    (hle : eq = false → Y + st.toNat ≤ 4 * (2 ^ F + fx)) :
    addFar F fx Y (!eq) st = sumNat eq (2 ^ F + fx) Y st := by
  cases eq with
  | true => exact addFar_add st hf hY
  | false => exact addFar_sub st hf (hle rfl)

theorem sumNat_lt {F fx Y : ℕ} {st eq : Bool} (hf : fx < 2 ^ F) (hY : Y < 2 ^ (F + 3)) :
    sumNat eq (2 ^ F + fx) Y st < 2 ^ (F + 4) := by
  have e1 : 2 ^ (F + 3) = 8 * 2 ^ F := by rw [pow_add]; ring
  have e2 : 2 ^ (F + 4) = 16 * 2 ^ F := by rw [pow_add]; ring
  unfold sumNat
  split <;> omega

theorem sumNat_sticky {F fx Y : ℕ} {st eq : Bool} (hst : st = true → Y < 2 ^ F) (h : st = true) :
    2 ^ (F + 1) ≤ sumNat eq (2 ^ F + fx) Y st := by
  have := hst h
  have e1 : 2 ^ (F + 1) = 2 * 2 ^ F := by rw [pow_add]; ring
  subst h
  unfold sumNat
  split
  · omega
  · simp only [Bool.toNat_true]; omega

/-- Rounding and packing of a non-zero sum. -/
theorem round_pack {E F ex sx sy fy A c : ℕ} {st : Bool} (hE : 2 ≤ E) (hF : 1 ≤ F) (hfmt : F + 3 < 2 ^ E)
    (hex : ex < 2 ^ E) (hsx : sx < 2) (hsy : sy < 2) (hfy : fy < 2)
    (hA : A < 2 ^ (F + 4)) (hst : st = true → 2 ^ (F + 1) ≤ A)
    (h1 : 2 ^ (F + 4) ≤ (2 * A + st.toNat) * 2 ^ c) (h2 : (2 * A + st.toNat) * 2 ^ c < 2 ^ (F + 5)) (hc : c < F + 5)
    {q : ℚ} (hlo : (A : ℚ) * 2 ^ ((ex : ℤ) - bias E - F - 2) ≤ |q|)
    (hhi : |q| < ((A : ℚ) + 1) * 2 ^ ((ex : ℤ) - bias E - F - 2))
    (hs : st = false ↔ |q| = (A : ℚ) * 2 ^ ((ex : ℤ) - bias E - F - 2)) (hsgn : q < 0 ↔ sx = 1) :
    Rounded E F q (pack E F sx sy 1 fy (roundedExpFrac roundBit E F ex ((2 * A + st.toNat) * 2 ^ c) c) false).datum := by
  obtain ⟨f, hf, hS, hb, hlsb, hlow⟩ := split_norm hF h1 h2
  have hu := two_zpow_pos ((ex : ℤ) - bias E - F - 2)
  have hc2 : st = true → c ≤ 2 := by
    intro h
    have := hst h
    by_contra hcc
    have h8 : 2 ^ 3 ≤ 2 ^ c := Nat.pow_le_pow_right (by norm_num) (by omega)
    have e1 : 2 ^ (F + 5) = 16 * 2 ^ (F + 1) := by rw [show F + 5 = (F + 1) + 4 by ring, pow_add 2 (F + 1)]; ring
    have : (2 * A + st.toNat) * 2 ^ 3 ≤ (2 * A + st.toNat) * 2 ^ c := Nat.mul_le_mul_left _ h8
    omega
  obtain ⟨w1, w2, w3⟩ := sticky_window (q := |q| / 2 ^ ((ex : ℤ) - bias E - F - 2))
    (hS.trans (by ring : _ = 8 * (2 * (2 ^ F + f) + (getBit 3 ((2 * A + st.toNat) * 2 ^ c)).toNat) + _))
    (Nat.mod_lt _ (by norm_num)) hc2 (by rw [le_div_iff₀ hu]; exact hlo) (by rw [div_lt_iff₀ hu]; exact hhi)
    (by rw [div_eq_iff hu.ne']; exact hs)
  have hTl : ∀ S, roundedExpFrac roundBit E F ex S c < 2 ^ (E + F + 3) := fun S => by
    unfold roundedExpFrac; rw [show E + F + 3 = E + F + 3 by rfl]; exact addW_lt _ _ _
  have p1 : 2 ^ (E + 2) = 4 * 2 ^ E := by rw [pow_add]; ring
  have hhalf := roundedExpFrac_half (E := E) (ex := ex) roundBit (show c ≤ 2 ^ (E + 2) by omega) hb
  generalize (2 * A + st.toNat) * 2 ^ c = S at *
  have hgr : (getBit 3 S).toNat + (roundBit (getBit 4 S) (getBit 3 S) (getBit 2 S) (getBit 1 S || getBit 0 S)).toNat
      = (if getBit 3 S && (decide (S % 8 ≠ 0) || decide (f % 2 = 1)) then 2 else 1) ∨
      (getBit 3 S && (decide (S % 8 ≠ 0) || decide (f % 2 = 1))) = false ∧
      ((getBit 3 S).toNat + (roundBit (getBit 4 S) (getBit 3 S) (getBit 2 S) (getBit 1 S || getBit 0 S)).toNat) / 2 = 0 := by
    rw [← hlow, ← hlsb]
    unfold roundBit
    generalize getBit 3 S = a
    generalize getBit 4 S = b
    generalize getBit 2 S = d
    generalize (getBit 1 S || getBit 0 S) = e
    revert a b d e
    decide
  have hup : ((getBit 3 S).toNat + (roundBit (getBit 4 S) (getBit 3 S) (getBit 2 S) (getBit 1 S || getBit 0 S)).toNat) / 2
      = if getBit 3 S && (decide (S % 8 ≠ 0) || decide (f % 2 = 1)) then 1 else 0 := by
    rcases hgr with h | ⟨h, h'⟩
    · rw [h]; split <;> rfl
    · rw [h', h]; rfl
  rw [hup] at hhalf
  have hexp : (2 : ℚ) ^ (((ex : ℤ) + 1 - c) - bias E - F - 1) * 2 ^ c = 4 * 2 ^ ((ex : ℤ) - bias E - F - 2) := by
    rw [← zpow_natCast, ← zpow_add₀ (by norm_num),
      show ((ex : ℤ) + 1 - c) - bias E - F - 1 + c = ((ex : ℤ) - bias E - F - 2) + 2 by ring, zpow_add₀ (by norm_num)]
    norm_num; ring
  have hv := two_zpow_pos (((ex : ℤ) + 1 - c) - bias E - F - 1)
  have hpc : (0 : ℚ) < 2 ^ c := by positivity
  have hN : ((2 * (2 ^ F + f) + (getBit 3 S).toNat : ℕ) : ℚ)
      = 2 * ((2 ^ F + f : ℕ) : ℚ) + (if getBit 3 S then 1 else 0) := by
    cases getBit 3 S <;> push_cast <;> simp
  rw [hN] at w1 w2 w3
  have conv : ∀ N : ℚ, N * 4 * 2 ^ ((ex : ℤ) - bias E - F - 2)
      = N * 2 ^ (((ex : ℤ) + 1 - c) - bias E - F - 1) * 2 ^ c := fun N => by
    rw [mul_assoc N, mul_assoc N, hexp]
  have hR := rounded_packed (E := E) (F := F) hF (q := q) (be := (ex : ℤ) + 1 - c) (f := f) hf (r := getBit 3 S)
    (s := decide (S % 8 ≠ 0)) ?_ ?_ ?_
  · have hsd : decide (q < 0) = decide (sx = 1) := by simp only [hsgn]
    rw [hsd] at hR
    have hb1 : (ex : ℤ) < 2 ^ E := by exact_mod_cast hex
    have hb2 : (F : ℤ) + 3 < 2 ^ E := by exact_mod_cast hfmt
    have hf' : (f : ℤ) < 2 ^ F := by exact_mod_cast hf
    have hpF : (0 : ℤ) < 2 ^ F := by positivity
    have hEF : (2 : ℤ) ^ (E + F + 1) = 2 * 2 ^ E * 2 ^ F := by rw [pow_succ, pow_add]; ring
    rw [pack_datum (t := ((ex : ℤ) + 1 - c) * 2 ^ F + f +
        (if getBit 3 S && (decide (S % 8 ≠ 0) || decide (f % 2 = 1)) then 1 else 0)) (by omega) hF hsx hsy hfy (hTl S)
        (by rw [hhalf]; congr 1; split <;> rfl)]
    · exact hR
    · rw [hEF]
      have : -(2 * 2 ^ E) * 2 ^ F ≤ ((ex : ℤ) + 1 - c) * 2 ^ F := mul_le_mul_of_nonneg_right (by omega) hpF.le
      split <;> linarith
    · rw [hEF]
      have h2F : (0 : ℤ) < 2 ^ E := by positivity
      have : ((ex : ℤ) + 1 - c) * 2 ^ F ≤ (2 ^ E) * 2 ^ F := mul_le_mul_of_nonneg_right (by omega) hpF.le
      have h4 : (4 : ℤ) * 2 ^ F ≤ 2 ^ E * 2 ^ F := mul_le_mul_of_nonneg_right (by omega) hpF.le
      split <;> linarith
  · rw [div_mul_eq_mul_div, le_div_iff₀ hu, conv] at w1
    exact le_of_mul_le_mul_right w1 hpc
  · rw [div_mul_eq_mul_div, div_lt_iff₀ hu, conv] at w2
    exact lt_of_mul_lt_mul_right w2 hpc.le
  · rw [div_mul_eq_mul_div, div_eq_iff hu.ne', conv] at w3
    simp only [ne_eq, decide_not, Bool.not_eq_eq_eq_not, Bool.not_false, decide_eq_true_eq]
    rw [w3]
    exact mul_left_inj' hpc.ne'

/-- What the adder computes once the operands are ordered and aligned. -/
theorem core_result {E F : ℕ} {norm : ℕ → Option (ℕ × ℕ)} (hn : Normalises F norm) (hE : 2 ≤ E) (hF : 1 ≤ F)
    (hfmt : F + 3 < 2 ^ E) {X Y : Fp E F} (hX : X.flags = 1) (hY : Y.flags < 2) {s y : ℕ} {st : Bool}
    (hs : shiftVal? E F (subW (E + 1) X.exp Y.exp) = some s)
    (ha : addAlign? F 0 (if Y.flags = 0b00 then 0 else opadHi1 F Y.frac) s = some (y, st))
    (hy : y < 2 ^ (F + 3)) (hst : st = true → y < 2 ^ F)
    (hle : decide (X.sign = Y.sign) = false → y + st.toNat ≤ 4 * (2 ^ F + X.frac)) :
    ∃ r, core roundBit norm X Y = some r ∧
      (sumNat (decide (X.sign = Y.sign)) (2 ^ F + X.frac) y st = 0 → Y.flags = 1 → X.sign ≠ Y.sign →
        r.datum = .zero false) ∧
      ∀ q : ℚ, q ≠ 0 → (q < 0 ↔ X.sign = 1) →
        (sumNat (decide (X.sign = Y.sign)) (2 ^ F + X.frac) y st : ℚ) * 2 ^ ((X.exp : ℤ) - bias E - F - 2) ≤ |q| →
        |q| < ((sumNat (decide (X.sign = Y.sign)) (2 ^ F + X.frac) y st : ℚ) + 1) * 2 ^ ((X.exp : ℤ) - bias E - F - 2) →
        (st = false ↔
          |q| = (sumNat (decide (X.sign = Y.sign)) (2 ^ F + X.frac) y st : ℚ) * 2 ^ ((X.exp : ℤ) - bias E - F - 2)) →
        Rounded E F q r.datum := by
  have hXf := X.frac_lt hF
  have hXe := X.exp_lt (by omega)
  have hes : (X.sign != Y.sign) = !decide (X.sign = Y.sign) := by rw [bne, beq_eq_decide]
  have hfar := addFar_eq (eq := decide (X.sign = Y.sign)) hXf hy hle
  have hA := sumNat_lt (eq := decide (X.sign = Y.sign)) (st := st) hXf hy
  have hA2 := sumNat_sticky (fx := X.frac) (eq := decide (X.sign = Y.sign)) hst
  have hcore : core roundBit norm X Y = (norm (2 * sumNat (decide (X.sign = Y.sign)) (2 ^ F + X.frac) y st + st.toNat)).bind
      (fun p => some (pack E F X.sign Y.sign X.flags Y.flags (roundedExpFrac roundBit E F X.exp p.1 p.2)
        (decide (p.2 = ones (intlog2 (F + 5)))))) := by
    unfold core
    dsimp only
    rw [hs]
    dsimp only
    rw [ha]
    dsimp only
    rw [hes, hfar, concat, pow_one, Nat.mul_comm]
    cases norm (2 * sumNat (decide (X.sign = Y.sign)) (2 ^ F + X.frac) y st + st.toNat) <;> rfl
  rw [hcore, hX]
  generalize hAd : sumNat (decide (X.sign = Y.sign)) (2 ^ F + X.frac) y st = A at *
  have e5 : 2 ^ (F + 5) = 2 * 2 ^ (F + 4) := by rw [pow_succ]; ring
  by_cases h0 : 2 * A + st.toNat = 0
  · obtain ⟨o, ho⟩ := hn.zero
    rw [h0, ho]
    refine ⟨_, rfl, ?_, ?_⟩
    · intro _ hY1 hne
      rw [hY1]
      dsimp only
      rw [decide_eq_true rfl]
      obtain ⟨l1, l2⟩ := lzCount_bounds hfmt
      generalize ones (intlog2 (F + 5)) = c at *
      have p1 : 2 ^ (E + 2) = 4 * 2 ^ E := by rw [pow_add]; ring
      have hb : getBits (F + 3) 3 o = 2 * (getBits (F + 3) 3 o / 2) + getBits (F + 3) 3 o % 2 := by omega
      have hbl := getBits_lt (F + 3) 3 o
      rw [show F + 3 + 1 - 3 = F + 1 by omega, pow_succ] at hbl
      have hhalf := roundedExpFrac_half (E := E) (ex := X.exp) roundBit (show c ≤ 2 ^ (E + 2) by omega) hb
      have hTl : roundedExpFrac roundBit E F X.exp o c < 2 ^ (E + F + 3) := by unfold roundedExpFrac; exact addW_lt _ _ _
      have ha1 := Bool.toNat_le (roundBit (getBit 4 o) (getBit 3 o) (getBit 2 o) (getBit 1 o || getBit 0 o))
      generalize (roundBit (getBit 4 o) (getBit 3 o) (getBit 2 o) (getBit 1 o || getBit 0 o)).toNat = a at *
      have hk : (getBits (F + 3) 3 o % 2 + a) / 2 ≤ 1 := by omega
      have hf : getBits (F + 3) 3 o / 2 < 2 ^ F := by omega
      generalize (getBits (F + 3) 3 o % 2 + a) / 2 = k at *
      generalize getBits (F + 3) 3 o / 2 = f at *
      have hb1 : (X.exp : ℤ) < 2 ^ E := by exact_mod_cast hXe
      have hb2 : (F : ℤ) + 3 < 2 ^ E := by exact_mod_cast hfmt
      have hf' : (f : ℤ) < 2 ^ F := by exact_mod_cast hf
      have hk' : (k : ℤ) ≤ 1 := by exact_mod_cast hk
      have l1' : (c : ℤ) + 1 ≤ 2 * 2 ^ E := by exact_mod_cast l1
      have hpF : (0 : ℤ) < 2 ^ F := by positivity
      have hEF : (2 : ℤ) ^ (E + F + 1) = 2 * 2 ^ E * 2 ^ F := by rw [pow_succ, pow_add]; ring
      have hEF0 : (2 : ℤ) ^ (E + F) = 2 ^ E * 2 ^ F := by rw [pow_add]
      refine pack_zero (by omega) hF X.sign_lt Y.sign_lt hne hTl hhalf ?_ ?_
      · rw [hEF]
        have : -(2 * 2 ^ E) * 2 ^ F ≤ ((X.exp : ℤ) + 1 - c) * 2 ^ F := mul_le_mul_of_nonneg_right (by omega) hpF.le
        linarith
      · rw [hEF0]
        have : ((X.exp : ℤ) + 1 - c) * 2 ^ F ≤ (2 ^ E - 5) * 2 ^ F := mul_le_mul_of_nonneg_right (by omega) hpF.le
        linarith
    · intro q hq _ _ _ h3
      exfalso
      have hA0 : A = 0 := by omega
      have hst0 : st = false := by
        cases st with
        | false => rfl
        | true => simp at h0
      have := h3.mp hst0
      rw [hA0] at this
      simp at this
      exact hq this
  · obtain ⟨c, c1, c2, c3, c4, c5⟩ := hn.pos (2 * A + st.toNat)
      (by cases st <;> simp only [Bool.toNat_true, Bool.toNat_false] <;> omega) h0
    rw [c1]
    refine ⟨_, rfl, ?_, ?_⟩
    · intro hA0
      exfalso
      cases st with
      | false => simp [hA0] at h0
      | true =>
        have := hA2 rfl
        have : 0 < 2 ^ (F + 1) := by positivity
        omega
    · intro q hq hsgn h1 h2 h3
      dsimp only
      rw [decide_eq_false c5]
      exact round_pack hE hF hfmt hXe X.sign_lt Y.sign_lt hY hA hA2 c3 c4 c2 h1 h2 h3 hsgn

/-- The signed sum, in quarter units of the larger operand. -/
def sumQ (eq : Bool) (mx : ℕ) (y : ℚ) : ℚ := 4 * mx + (if eq then y else -y)

theorem sum_window {mx y : ℕ} {st eq : Bool} {y' : ℚ} (hal : Aligned y' y st)
    (hle : eq = false → y + st.toNat ≤ 4 * mx) :
    (sumNat eq mx y st : ℚ) ≤ sumQ eq mx y' ∧ sumQ eq mx y' < sumNat eq mx y st + 1 ∧
      (st = false ↔ sumQ eq mx y' = sumNat eq mx y st) := by
  obtain ⟨a1, a2, a3⟩ := hal
  unfold sumNat sumQ
  cases eq with
  | true =>
    simp only [if_true]
    push_cast
    refine ⟨by linarith, by linarith, a3.trans ?_⟩
    constructor <;> intro h <;> linarith
  | false =>
    have hle := hle rfl
    simp only [Bool.false_eq_true, if_false]
    rw [Nat.sub_sub, Nat.cast_sub hle]
    cases st with
    | false =>
      have : y' = y := a3.mp rfl
      subst this
      simp only [Bool.toNat_false]
      push_cast
      refine ⟨by linarith, by linarith, ?_⟩
      constructor
      · intro _; ring
      · intro _; trivial
    | true =>
      have hne : y' ≠ y := fun h => by simpa using a3.mpr h
      have hlt : (y : ℚ) < y' := lt_of_le_of_ne a1 (Ne.symm hne)
      simp only [Bool.toNat_true]
      push_cast
      refine ⟨by linarith, by linarith, ?_⟩
      constructor
      · intro h; cases h
      · intro h; exfalso; linarith

theorem core_aligned {E F : ℕ} {norm : ℕ → Option (ℕ × ℕ)} (hn : Normalises F norm) (hE : 2 ≤ E) (hF : 1 ≤ F)
    (hfmt : F + 3 < 2 ^ E) {X Y : Fp E F} (hX : X.flags = 1) (hY : Y.flags < 2) {s y : ℕ} {st : Bool}
    (hs : shiftVal? E F (subW (E + 1) X.exp Y.exp) = some s)
    (ha : addAlign? F 0 (if Y.flags = 0b00 then 0 else opadHi1 F Y.frac) s = some (y, st))
    (hy : y < 2 ^ (F + 3)) (hst : st = true → y < 2 ^ F)
    (hle : decide (X.sign = Y.sign) = false → y + st.toNat ≤ 4 * (2 ^ F + X.frac)) :
    ∃ r, core roundBit norm X Y = some r ∧ ∀ y' : ℚ, Aligned y' y st → ∀ q : ℚ,
      q = (if X.sign = 1 then -1 else 1) *
        (sumQ (decide (X.sign = Y.sign)) (2 ^ F + X.frac) y' * 2 ^ ((X.exp : ℤ) - bias E - F - 2)) →
      (q = 0 → Y.flags = 1 → r.datum = .zero false) ∧ (q ≠ 0 → Rounded E F q r.datum) := by
  obtain ⟨r, hr, h0, h1⟩ := core_result hn hE hF hfmt hX hY hs ha hy hst hle
  refine ⟨r, hr, ?_⟩
  intro y' hal q hq
  obtain ⟨w1, w2, w3⟩ := sum_window hal hle
  have hu := two_zpow_pos ((X.exp : ℤ) - bias E - F - 2)
  have hA0 : (0 : ℚ) ≤ (sumNat (decide (X.sign = Y.sign)) (2 ^ F + X.frac) y st : ℚ) := Nat.cast_nonneg _
  have habs : |q| = sumQ (decide (X.sign = Y.sign)) (2 ^ F + X.frac) y' * 2 ^ ((X.exp : ℤ) - bias E - F - 2) := by
    rw [hq]
    have : 0 ≤ sumQ (decide (X.sign = Y.sign)) (2 ^ F + X.frac) y' * 2 ^ ((X.exp : ℤ) - bias E - F - 2) :=
      mul_nonneg (by linarith) hu.le
    split <;> simp [abs_of_nonneg this]
  constructor
  · intro hz hYf
    rw [hz, abs_zero] at habs
    have hS0 : sumQ (decide (X.sign = Y.sign)) (2 ^ F + X.frac) y' = 0 := by
      rcases mul_eq_zero.mp habs.symm with h | h
      · exact h
      · exact absurd h hu.ne'
    refine h0 ?_ hYf ?_
    · rw [hS0] at w1
      have : (sumNat (decide (X.sign = Y.sign)) (2 ^ F + X.frac) y st : ℚ) = 0 := le_antisymm w1 hA0
      exact_mod_cast this
    · intro he
      rw [decide_eq_true he] at hS0
      unfold sumQ at hS0
      simp only [if_true] at hS0
      have := hal.1
      have h5 : (0 : ℚ) ≤ y := Nat.cast_nonneg _
      have h6 : (0 : ℚ) < ((2 ^ F + X.frac : ℕ) : ℚ) := by
        have : 0 < 2 ^ F + X.frac := by positivity
        exact_mod_cast this
      linarith
  · intro hne
    refine h1 q hne ?_ ?_ ?_ ?_
    · have hpos : 0 < sumQ (decide (X.sign = Y.sign)) (2 ^ F + X.frac) y' * 2 ^ ((X.exp : ℤ) - bias E - F - 2) := by
        rw [← habs]; exact abs_pos.mpr hne
      rw [hq]; exact signed_neg hpos
    · rw [habs]; exact mul_le_mul_of_nonneg_right w1 hu.le
    · rw [habs]; exact mul_lt_mul_of_pos_right w2 hu
    · rw [habs, w3]; exact (mul_left_inj' hu.ne').symm

theorem shiftVal_some {E F : ℕ} (D : ℕ) (hE : 1 ≤ E) (hfmt : F + 3 < 2 ^ E) (hfmt2 : F + 3 ≠ 2 ^ (E - 1)) :
    ∃ s, shiftVal? E F D = some s ∧ s < 2 * F + 4 := by
  unfold shiftVal?
  have hle := intlog2_le hfmt
  obtain ⟨h1, h2, h3⟩ := intlog2_spec (n := F + 3) (by omega)
  dsimp only
  rcases Nat.lt_or_eq_of_le hle with h | h
  · rw [if_pos h]
    refine ⟨_, rfl, ?_⟩
    split
    · omega
    · rename_i hD
      rw [getBits_zero_eq_mod, show intlog2 (F + 3) - 1 + 1 = intlog2 (F + 3) by omega, Nat.mod_eq_of_lt (by omega)]
      omega
  · rw [if_neg (by omega), if_pos h.symm]
    refine ⟨_, rfl, ?_⟩
    rw [getBits_zero_eq_mod, show intlog2 (F + 3) - 1 + 1 = intlog2 (F + 3) by omega]
    have := Nat.mod_lt D (show 0 < 2 ^ intlog2 (F + 3) by positivity)
    rw [h] at h1 this ⊢
    have e : 2 ^ E = 2 * 2 ^ (E - 1) := by
      conv_lhs => rw [show E = (E - 1) + 1 by omega, pow_succ]
      ring
    omega

theorem shiftVal_cases {E F d s : ℕ} (hfmt : F + 3 < 2 ^ E) (hd : d < 2 ^ E)
    (h : shiftVal? E F d = some s) :
    (s = d ∧ (d < F + 2 ∨ intlog2 (F + 3) = E)) ∨ (s = F + 3 ∧ F + 2 ≤ d ∧ intlog2 (F + 3) < E) := by
  unfold shiftVal? at h
  have hle := intlog2_le hfmt
  obtain ⟨h1, h2, h3⟩ := intlog2_spec (n := F + 3) (by omega)
  dsimp only at h
  rcases Nat.lt_or_eq_of_le hle with h' | h'
  · rw [if_pos h'] at h
    injection h with h
    split at h
    · right; exact ⟨h.symm, by omega, h'⟩
    · left
      rw [getBits_zero_eq_mod, show intlog2 (F + 3) - 1 + 1 = intlog2 (F + 3) by omega, Nat.mod_eq_of_lt (by omega)] at h
      exact ⟨h.symm, by omega⟩
  · rw [if_neg (by omega), if_pos h'.symm] at h
    injection h with h
    rw [getBits_zero_eq_mod, show intlog2 (F + 3) - 1 + 1 = intlog2 (F + 3) by omega, h', Nat.mod_eq_of_lt hd] at h
    exact Or.inl ⟨h.symm, Or.inr h'⟩

theorem subW_of_le {w a b : ℕ} (h : b ≤ a) (ha : a < 2 ^ w) : subW w a b = a - b := by
  unfold subW
  rw [show a + (2 ^ w - b) = (a - b) + 2 ^ w by omega, Nat.add_mod_right, Nat.mod_eq_of_lt (by omega)]

/-- The sum of two values, the second one `d` binades below the first. -/
theorem value_sum {E F ex ey mx my sx sy : ℕ} (hsx : sx < 2) (hsy : sy < 2) (h : ey ≤ ex) :
    (if sx = 1 then (-1 : ℚ) else 1) * ((mx : ℚ) * 2 ^ ((ex : ℤ) - bias E - F)) +
      (if sy = 1 then (-1 : ℚ) else 1) * ((my : ℚ) * 2 ^ ((ey : ℤ) - bias E - F))
      = (if sx = 1 then -1 else 1) *
        (sumQ (decide (sx = sy)) mx (4 * my / 2 ^ (ex - ey)) * 2 ^ ((ex : ℤ) - bias E - F - 2)) := by
  have e1 : (2 : ℚ) ^ ((ex : ℤ) - bias E - F) = 4 * 2 ^ ((ex : ℤ) - bias E - F - 2) := by
    rw [show (ex : ℤ) - bias E - F = ((ex : ℤ) - bias E - F - 2) + 2 by ring, zpow_add₀ (by norm_num)]; norm_num; ring
  have e2 : (2 : ℚ) ^ ((ey : ℤ) - bias E - F) = 4 / 2 ^ (ex - ey) * 2 ^ ((ex : ℤ) - bias E - F - 2) := by
    obtain ⟨k, rfl⟩ := Nat.exists_eq_add_of_le h
    rw [Nat.add_sub_cancel_left, show (((ey + k : ℕ) : ℤ) - bias E - F - 2) = ((ey : ℤ) - bias E - F) + k - 2 by push_cast; ring]
    generalize (ey : ℤ) - bias E - F = g
    rw [zpow_sub₀ (by norm_num), zpow_add₀ (by norm_num), zpow_natCast]
    field_simp
    norm_num
  rw [e1, e2]
  unfold sumQ
  interval_cases sx <;> interval_cases sy <;> simp <;> ring

/-- The shape of the operands on which the shift clamp loses the correct rounding: the exponents differ by
exactly `F+2`, the signs differ, the larger operand is a power of two and the smaller one is not. -/
def Clamped {E F : ℕ} (X Y : Fp E F) : Prop :=
  intlog2 (F + 3) < E ∧ X.sign ≠ Y.sign ∧ X.exp = Y.exp + F + 2 ∧ X.frac = 0 ∧ Y.frac ≠ 0

theorem sig_isSig {F f : ℕ} (hf : f < 2 ^ F) : IsSig (F + 1) (2 ^ F + f) := by
  have : 2 ^ (F + 1) = 2 * 2 ^ F := by rw [pow_succ]; ring
  exact ⟨by simp, by omega⟩

/-- A small addend is absorbed. -/
theorem rounded_absorb {E F mx ex sx : ℕ} {eq : Bool} {y : ℚ} (hF : 1 ≤ F) (hm : IsSig (F + 1) mx) (h0 : 0 ≤ y)
    (h2 : y < 2) (h1 : eq = false → mx = 2 ^ F → y ≤ 1) {q : ℚ}
    (hq : q = (if sx = 1 then -1 else 1) * (sumQ eq mx y * 2 ^ ((ex : ℤ) - bias E - F - 2))) :
    Rounded E F q (rangeCheck E F (decide (sx = 1)) mx ((ex : ℤ) - bias E - F)) := by
  have hu := two_zpow_pos ((ex : ℤ) - bias E - F - 2)
  have hm1 : (1 : ℚ) ≤ mx := by
    have : 1 ≤ mx := by
      have := hm.1
      have : 0 < 2 ^ (F + 1 - 1) := by positivity
      omega
    exact_mod_cast this
  have hpos : 0 < sumQ eq mx y * 2 ^ ((ex : ℤ) - bias E - F - 2) := by
    refine mul_pos ?_ hu
    unfold sumQ
    split <;> linarith
  refine ⟨mx, (ex : ℤ) - bias E - F, ?_, ?_⟩
  · rw [hq, abs_signed hpos]
    unfold sumQ
    refine nearest_absorb hF hm ?_ ?_ ?_
    · split <;> linarith
    · split <;> linarith
    · intro hp
      cases eq with
      | true => simp only [if_true]; linarith
      | false => simp only [Bool.false_eq_true, if_false]; linarith [h1 rfl hp]
  · congr 1
    rw [hq]
    simp only [signed_neg hpos]

theorem rangeCheck_self {E F sx mx ex : ℕ} (hex : ex < 2 ^ E) :
    rangeCheck E F (decide (sx = 1)) mx ((ex : ℤ) - bias E - F)
      = .num ((if sx = 1 then -1 else 1) * ((mx : ℚ) * 2 ^ ((ex : ℤ) - bias E - F))) := by
  unfold rangeCheck
  have : (ex : ℤ) < 2 ^ E := by exact_mod_cast hex
  rw [if_neg (by omega), if_neg (by omega)]
  simp

theorem ordered_exp {E F : ℕ} {X Y : Fp E F} (hF : 1 ≤ F)
    (hord : Y.exp * 2 ^ F + Y.frac ≤ X.exp * 2 ^ F + X.frac) :
    Y.exp ≤ X.exp ∧ (Y.exp = X.exp → Y.frac ≤ X.frac) := by
  have hX := X.frac_lt hF
  constructor
  · by_contra hc
    have : (X.exp + 1) * 2 ^ F ≤ Y.exp * 2 ^ F := Nat.mul_le_mul_right _ (by omega)
    nlinarith
  · intro h; rw [h] at hord; omega

/-- The sum of two ordered normal numbers. -/
theorem ordered_num {E F : ℕ} {norm : ℕ → Option (ℕ × ℕ)} (hn : Normalises F norm) (hE : 2 ≤ E) (hF : 1 ≤ F)
    (hfmt : F + 3 < 2 ^ E) (hfmt2 : F + 3 ≠ 2 ^ (E - 1)) {X Y : Fp E F} {vx vy : ℚ} (hX : X.datum = .num vx)
    (hY : Y.datum = .num vy) (hord : Y.exp * 2 ^ F + Y.frac ≤ X.exp * 2 ^ F + X.frac) :
    ∃ r, core roundBit norm X Y = some r ∧ (vx + vy = 0 → r.datum = .zero false) ∧
      (vx + vy ≠ 0 → ¬ Clamped X Y → Rounded E F (vx + vy) r.datum) ∧ (Clamped X Y → r.datum = X.datum) := by
  obtain ⟨hfx, rfl⟩ := datum_num_iff.mp hX
  obtain ⟨hfy, rfl⟩ := datum_num_iff.mp hY
  obtain ⟨o1, o2⟩ := ordered_exp hF hord
  have hXf := X.frac_lt hF
  have hYf := Y.frac_lt hF
  have hXe := X.exp_lt (show 1 ≤ E by omega)
  obtain ⟨s, hs, hsl⟩ := shiftVal_some (F := F) (subW (E + 1) X.exp Y.exp) (show 1 ≤ E by omega) hfmt hfmt2
  have hm : 2 ^ F + Y.frac < 2 ^ (F + 1) := (sig_isSig hYf).2
  have hal := addAlign_spec (F := F) (pad := 0) hm (by omega : s < 2 * F + 4 + 0)
  have hd : subW (E + 1) X.exp Y.exp = X.exp - Y.exp := subW_of_le o1 (by rw [pow_succ]; omega)
  have hc := shiftVal_cases (d := X.exp - Y.exp) hfmt (by omega) (by rw [← hd]; exact hs)
  have hyl := align_lt (s := s) hm
  have hstk := sticky_shift (s := s) hm
  have e2 : 2 ^ (F + 2) = 4 * 2 ^ F := by rw [pow_add]; ring
  have e1 : 2 ^ (F + 1) = 2 * 2 ^ F := by rw [pow_succ]; ring
  -- the aligned significand is not larger than the other one
  have hyle : 4 * (2 ^ F + Y.frac) / 2 ^ s ≤ 4 * (2 ^ F + X.frac) := by
    rcases Nat.eq_zero_or_pos s with h0 | h0
    · have : X.exp = Y.exp := by rcases hc with ⟨h, -⟩ | ⟨h, -⟩ <;> omega
      rw [h0]
      have := o2 this.symm
      simp only [pow_zero, Nat.div_one]
      omega
    · refine (Nat.div_le_div_left (b := 2 ^ s) (c := 2) ?_ (by norm_num)).trans ?_
      · calc 2 = 2 ^ 1 := by norm_num
          _ ≤ 2 ^ s := Nat.pow_le_pow_right (by norm_num) h0
      · omega
  have hle : decide (X.sign = Y.sign) = false → 4 * (2 ^ F + Y.frac) / 2 ^ s +
      (decide ((2 ^ F + Y.frac) * 2 ^ (F + 3) / 2 ^ s % 2 ^ (F + 1) ≠ 0)).toNat ≤ 4 * (2 ^ F + X.frac) := by
    intro _
    cases hst : decide ((2 ^ F + Y.frac) * 2 ^ (F + 3) / 2 ^ s % 2 ^ (F + 1) ≠ 0) with
    | false => simpa using hyle
    | true =>
      have := hstk hst
      simp only [Bool.toNat_true]
      omega
  obtain ⟨r, hr, H⟩ := core_aligned hn hE hF hfmt hfx (by omega) hs
    (by rw [if_neg (by omega)]; exact hal) hyl hstk hle
  refine ⟨r, hr, ?_⟩
  have hval := value_sum (E := E) (F := F) (mx := 2 ^ F + X.frac) (my := 2 ^ F + Y.frac) X.sign_lt Y.sign_lt o1
  have hrest : (s = X.exp - Y.exp ∧ s ≤ F + 3) ∨ (F + 2 ≤ X.exp - Y.exp ∧ F + 3 ≤ s) := by
    rcases hc with ⟨h, h'⟩ | ⟨h, h', -⟩
    · rcases Nat.lt_or_ge (F + 3) s with h5 | h5
      · right; omega
      · left; exact ⟨h, h5⟩
    · right; omega
  generalize hv : ((if X.sign = 1 then (-1 : ℚ) else 1) * (((2 ^ F + X.frac : ℕ) : ℚ) * 2 ^ ((X.exp : ℤ) - bias E - F)) +
      (if Y.sign = 1 then (-1 : ℚ) else 1) * (((2 ^ F + Y.frac : ℕ) : ℚ) * 2 ^ ((Y.exp : ℤ) - bias E - F))) = q at *
  rcases hrest with ⟨hse, hs3⟩ | ⟨hdd, hs3⟩
  · have hal' := aligned_of_le (m := 2 ^ F + Y.frac) hs3
    obtain ⟨z1, z2⟩ := H _ hal' q (by rw [hval, hse])
    refine ⟨fun h => z1 h hfy, fun h _ => z2 h, ?_⟩
    rintro ⟨c1, c2, c3, -⟩
    exfalso
    rcases hc with ⟨h, h'⟩ | ⟨h, h', -⟩ <;> omega
  · have hy0 : 4 * (2 ^ F + Y.frac) / 2 ^ s = 0 := align_big hm hs3
    rw [hy0] at H
    generalize decide ((2 ^ F + Y.frac) * 2 ^ (F + 3) / 2 ^ s % 2 ^ (F + 1) ≠ 0) = st at *
    -- a value the hardware result is certainly right for
    obtain ⟨y'', hal'', hy0'', hy1''⟩ : ∃ y'' : ℚ, Aligned y'' 0 st ∧ 0 ≤ y'' ∧ y'' ≤ 1 := by
      cases st with
      | false => exact ⟨0, ⟨by norm_num, by norm_num, by simp⟩, le_rfl, by norm_num⟩
      | true => exact ⟨1 / 2, ⟨by norm_num, by norm_num, by norm_num⟩, by norm_num, by norm_num⟩
    have hsig := sig_isSig hXf
    obtain ⟨-, z2⟩ := H _ hal'' _ rfl
    have ha'' := rounded_absorb (E := E) (ex := X.exp) (sx := X.sign) (eq := decide (X.sign = Y.sign)) hF hsig hy0''
      (by linarith) (fun _ _ => hy1'') rfl
    have hmx : (1 : ℚ) ≤ ((2 ^ F + X.frac : ℕ) : ℚ) := by
      have : 1 ≤ 2 ^ F + X.frac := by have : 0 < 2 ^ F := by positivity
                                      omega
      exact_mod_cast this
    have hpos'' : 0 < sumQ (decide (X.sign = Y.sign)) (2 ^ F + X.frac) y'' := by
      unfold sumQ; split <;> linarith
    have hr' : r.datum = rangeCheck E F (decide (X.sign = 1)) (2 ^ F + X.frac) ((X.exp : ℤ) - bias E - F) := by
      refine rounded_unique (z2 ?_) ha''
      have := mul_pos hpos'' (two_zpow_pos ((X.exp : ℤ) - bias E - F - 2))
      split
      · rw [neg_one_mul]; exact (neg_neg_of_pos this).ne
      · rw [one_mul]; exact this.ne'
    -- the true value
    have hmq : ((2 ^ F + Y.frac : ℕ) : ℚ) < 2 ^ (F + 1) := by exact_mod_cast hm
    have hpd : (2 : ℚ) ^ (F + 2) ≤ 2 ^ (X.exp - Y.exp) := pow_le_pow_right₀ (by norm_num) hdd
    have hpd0 : (0 : ℚ) < 2 ^ (X.exp - Y.exp) := by positivity
    have e3 : (2 : ℚ) ^ (F + 2) = 2 * 2 ^ (F + 1) := by rw [pow_succ]; ring
    have hy2 : 4 * ((2 ^ F + Y.frac : ℕ) : ℚ) / 2 ^ (X.exp - Y.exp) < 2 := by
      rw [div_lt_iff₀ hpd0]; linarith
    have hy0' : 0 ≤ 4 * ((2 ^ F + Y.frac : ℕ) : ℚ) / 2 ^ (X.exp - Y.exp) := by positivity
    refine ⟨?_, ?_, ?_⟩
    · intro h0
      exfalso
      have : 0 < sumQ (decide (X.sign = Y.sign)) (2 ^ F + X.frac) (4 * ((2 ^ F + Y.frac : ℕ) : ℚ) / 2 ^ (X.exp - Y.exp)) := by
        unfold sumQ; split <;> linarith
      have := mul_pos this (two_zpow_pos ((X.exp : ℤ) - bias E - F - 2))
      rw [hval] at h0
      revert h0
      split
      · rw [neg_one_mul]; intro h0; linarith
      · rw [one_mul]; intro h0; linarith
    · intro _ hcl
      rw [hr']
      refine rounded_absorb hF hsig hy0' hy2 ?_ hval
      intro hsg hfr
      rw [div_le_one hpd0]
      rcases Nat.lt_or_ge (F + 2) (X.exp - Y.exp) with h5 | h5
      · have hp3 : (2 : ℚ) ^ (F + 3) ≤ 2 ^ (X.exp - Y.exp) := pow_le_pow_right₀ (by norm_num) h5
        have e4 : (2 : ℚ) ^ (F + 3) = 4 * 2 ^ (F + 1) := by rw [show F + 3 = (F + 1) + 2 by ring, pow_add]; ring
        linarith
      · have hdeq : X.exp - Y.exp = F + 2 := by omega
        have hY0 : Y.frac = 0 := by
          by_contra hne
          apply hcl
          refine ⟨?_, of_decide_eq_false hsg, by omega, by omega, hne⟩
          rcases hc with ⟨h, h'⟩ | ⟨h, h', h''⟩
          · exfalso; omega
          · exact h''
        rw [hdeq, hY0, e3]
        push_cast
        rw [pow_succ]
        linarith
    · intro _
      rw [hr', rangeCheck_self hXe, datum_normal X hfx]

/-- A zero addend. -/
theorem ordered_zero {E F : ℕ} {norm : ℕ → Option (ℕ × ℕ)} (hn : Normalises F norm) (hE : 2 ≤ E) (hF : 1 ≤ F)
    (hfmt : F + 3 < 2 ^ E) (hfmt2 : F + 3 ≠ 2 ^ (E - 1)) {X Y : Fp E F} (hX : X.flags = 1) (hY : Y.flags = 0) :
    ∃ r, core roundBit norm X Y = some r ∧ r.datum = X.datum := by
  have hXf := X.frac_lt hF
  have hXe := X.exp_lt (show 1 ≤ E by omega)
  obtain ⟨s, hs, hsl⟩ := shiftVal_some (F := F) (subW (E + 1) X.exp Y.exp) (show 1 ≤ E by omega) hfmt hfmt2
  have hal := addAlign_spec (F := F) (pad := 0) (m := 0) (by positivity) (by omega : s < 2 * F + 4 + 0)
  simp only [Nat.mul_zero, Nat.zero_div, Nat.zero_mul, Nat.zero_mod, ne_eq, not_true_eq_false, decide_false] at hal
  obtain ⟨r, hr, H⟩ := core_aligned hn hE hF hfmt hX (by omega) hs
    (by rw [if_pos hY]; exact hal) (by positivity) (by simp) (by simp)
  refine ⟨r, hr, ?_⟩
  have hal0 : Aligned 0 0 false := ⟨by norm_num, by norm_num, by simp⟩
  obtain ⟨-, z2⟩ := H 0 hal0 _ rfl
  have ha := rounded_absorb (E := E) (ex := X.exp) (sx := X.sign) (eq := decide (X.sign = Y.sign)) hF (sig_isSig hXf)
    le_rfl (by norm_num) (fun _ _ => by norm_num) rfl
  rw [datum_normal X hX, ← rangeCheck_self hXe]
  refine rounded_unique (z2 ?_) ha
  have h1 : 0 < sumQ (decide (X.sign = Y.sign)) (2 ^ F + X.frac) 0 := by
    unfold sumQ
    have : (0 : ℚ) < ((2 ^ F + X.frac : ℕ) : ℚ) := by
      have : 0 < 2 ^ F + X.frac := by positivity
      exact_mod_cast this
    split <;> linarith
  have := mul_pos h1 (two_zpow_pos ((X.exp : ℤ) - bias E - F - 2))
  split
  · rw [neg_one_mul]; exact (neg_neg_of_pos this).ne
  · rw [one_mul]; exact this.ne'

/-- The adder always runs to completion. -/
theorem core_some {E F : ℕ} {norm : ℕ → Option (ℕ × ℕ)} (hn : Normalises F norm) (hE : 1 ≤ E) (hF : 1 ≤ F)
    (hfmt : F + 3 < 2 ^ E) (hfmt2 : F + 3 ≠ 2 ^ (E - 1)) (rule : Bool → Bool → Bool → Bool → Bool) (X Y : Fp E F) :
    ∃ T z, core rule norm X Y = some (pack E F X.sign Y.sign X.flags Y.flags T z) ∧ T < 2 ^ (E + F + 3) := by
  obtain ⟨s, hs, hsl⟩ := shiftVal_some (F := F) (subW (E + 1) X.exp Y.exp) hE hfmt hfmt2
  have hm : (if Y.flags = 0b00 then 0 else opadHi1 F Y.frac) < 2 ^ (F + 1) := by
    split
    · positivity
    · exact (sig_isSig (Y.frac_lt hF)).2
  have hal := addAlign_spec (F := F) (pad := 0) hm (by omega : s < 2 * F + 4 + 0)
  unfold core
  dsimp only
  rw [hs]
  dsimp only
  rw [hal]
  dsimp only
  generalize decide ((if Y.flags = 0b00 then 0 else opadHi1 F Y.frac) * 2 ^ (F + 3) / 2 ^ s % 2 ^ (F + 1) ≠ 0) = st
  generalize hA : addFar F X.frac (4 * (if Y.flags = 0b00 then 0 else opadHi1 F Y.frac) / 2 ^ s) (X.sign != Y.sign) st = A
  have hAl : A < 2 ^ (F + 4) := by rw [← hA]; unfold addFar; exact addW_lt _ _ _
  have hg : concat 1 A st.toNat < 2 ^ (F + 5) := by
    have := Bool.toNat_le st
    have e5 : 2 ^ (F + 5) = 2 * 2 ^ (F + 4) := by rw [pow_succ]; ring
    unfold concat; omega
  generalize concat 1 A st.toNat = g at *
  have hTl : ∀ S c, roundedExpFrac rule E F X.exp S c < 2 ^ (E + F + 3) := fun S c => by
    unfold roundedExpFrac; exact addW_lt _ _ _
  by_cases h0 : g = 0
  · obtain ⟨o, ho⟩ := hn.zero
    rw [h0, ho]
    exact ⟨_, _, rfl, hTl _ _⟩
  · obtain ⟨c, c1, -⟩ := hn.pos g hg h0
    rw [c1]
    exact ⟨_, _, rfl, hTl _ _⟩

/-- Flags and sign when the larger operand is not normal. -/
theorem pack_special {E F sx sy fx fy T : ℕ} {z : Bool} (hE : 1 ≤ E) (hF : 1 ≤ F) (hsx : sx < 2) (hsy : sy < 2)
    (hfx : fx < 4) (hle : fy ≤ fx) (hne : fx ≠ 1) (hTl : T < 2 ^ (E + F + 3)) :
    (pack E F sx sy fx fy T z).flags = (if fx = 2 ∧ fy = 2 ∧ sx ≠ sy then 3 else fx) ∧
    (pack E F sx sy fx fy T z).sign = if fx = 0 ∧ sx ≠ sy then 0 else sx := by
  obtain ⟨h1, h2, h3, h4⟩ := pack_fields hTl
  have he : T / 2 / 2 ^ F % 2 ^ E < 2 ^ E := Nat.mod_lt _ (by positivity)
  have hf : T / 2 % 2 ^ F < 2 ^ F := Nat.mod_lt _ (by positivity)
  unfold pack
  dsimp only
  rw [h1, h2, h3]
  generalize T / 2 / 2 ^ F % 2 ^ E = e at *
  generalize T / 2 % 2 ^ F = f at *
  generalize T / 2 / 2 ^ (E + F) = u at *
  have key : ∀ fl s, fl < 4 → s < 2 → (Fp.mk4 E F fl s e f).flags = fl ∧ (Fp.mk4 E F fl s e f).sign = s :=
    fun fl s hfl hs => ⟨Fp.mk4_flags hfl hs he hf, Fp.mk4_sign hfl hs he hf⟩
  clear h1 h2 h3 hTl he hf
  interval_cases fx <;> (try (exfalso; omega)) <;> interval_cases fy <;> interval_cases sx <;> interval_cases sy <;>
    interval_cases u <;> cases z <;> exact key _ _ (by decide) (by decide)

/-- The larger operand (by flags, then exponent, then fraction) comes first. -/
def Ordered {E F : ℕ} (X Y : Fp E F) : Prop :=
  Y.flags ≤ X.flags ∧ (Y.flags = X.flags → Y.exp * 2 ^ F + Y.frac ≤ X.exp * 2 ^ F + X.frac)

theorem core_special {E F : ℕ} {norm : ℕ → Option (ℕ × ℕ)} (hn : Normalises F norm) (hE : 2 ≤ E) (hF : 1 ≤ F)
    (hfmt : F + 3 < 2 ^ E) (hfmt2 : F + 3 ≠ 2 ^ (E - 1)) {X Y : Fp E F} (hord : Ordered X Y) {d : Datum}
    (hd : addSpecial X.datum Y.datum = some d) : ∃ r, core roundBit norm X Y = some r ∧ r.datum = d := by
  obtain ⟨hle, -⟩ := hord
  have hsx := X.sign_lt
  have hsy := Y.sign_lt
  by_cases h1 : X.flags = 1
  · have hY : Y.flags = 0 := by
      by_contra hc
      have hY1 : Y.flags = 1 := by omega
      rw [datum_normal X h1, datum_normal Y hY1] at hd
      simp [addSpecial] at hd
    obtain ⟨r, hr, h⟩ := ordered_zero hn hE hF hfmt hfmt2 h1 hY
    refine ⟨r, hr, ?_⟩
    rw [h]
    rw [datum_normal X h1, datum_flags0 Y hY] at hd
    rw [datum_normal X h1]
    simpa [addSpecial] using hd
  · obtain ⟨T, z, hr, hT⟩ := core_some hn (by omega) hF hfmt hfmt2 roundBit X Y
    obtain ⟨p1, p2⟩ := pack_special (z := z) (by omega) hF hsx hsy X.flags_lt hle h1 hT
    refine ⟨_, hr, ?_⟩
    generalize pack E F X.sign Y.sign X.flags Y.flags T z = r at *
    rcases flags_cases X with h | h | h | h
    · have hY : Y.flags = 0 := by omega
      rw [if_neg (by omega), h] at p1
      rw [datum_flags0 _ h, datum_flags0 _ hY] at hd
      rw [datum_flags0 _ p1, p2, ← Option.some.inj hd]
      congr 1
      rw [h]
      generalize X.sign = a at *
      generalize Y.sign = b at *
      interval_cases a <;> interval_cases b <;> rfl
    · exact absurd h h1
    · rcases flags_cases Y with h' | h' | h' | h'
      · rw [if_neg (by omega), h] at p1
        rw [if_neg (by omega)] at p2
        rw [datum_flags2 _ h, datum_flags0 _ h'] at hd
        rw [datum_flags2 _ p1, p2, ← Option.some.inj hd]
      · rw [if_neg (by omega), h] at p1
        rw [if_neg (by omega)] at p2
        rw [datum_flags2 _ h, datum_normal _ h'] at hd
        rw [datum_flags2 _ p1, p2, ← Option.some.inj hd]
      · rw [datum_flags2 _ h, datum_flags2 _ h'] at hd
        rw [if_neg (by omega)] at p2
        rw [h, h'] at p1
        rw [← Option.some.inj hd]
        by_cases hs : X.sign = Y.sign
        · rw [if_neg (by simp [hs])] at p1
          rw [datum_flags2 _ p1, p2, if_pos (by rw [hs])]
        · rw [if_pos (by simp [hs])] at p1
          rw [datum_flags3 _ p1, if_neg]
          generalize X.sign = a at *
          generalize Y.sign = b at *
          interval_cases a <;> interval_cases b <;> simp at hs ⊢
      · omega
    · rw [if_neg (by omega), h] at p1
      rw [datum_flags3 _ h] at hd
      rw [datum_flags3 _ p1, ← Option.some.inj hd]

theorem addSpecial_comm (a b : Datum) : addSpecial a b = addSpecial b a := by
  cases a <;> cases b <;> simp only [addSpecial, Option.some.injEq, Datum.zero.injEq]
  · rename_i s t; cases s <;> cases t <;> rfl
  · exact Bool.and_comm _ _

/-- The value of a sum, and when the shift clamp matters, do not depend on which operand comes first. -/
theorem flagsExpFrac_lt {E F : ℕ} (hE : 1 ≤ E) (hF : 1 ≤ F) (x y : Fp E F) :
    (x.flagsExpFrac < y.flagsExpFrac → Ordered y x) ∧ (¬ x.flagsExpFrac < y.flagsExpFrac → Ordered x y) := by
  have hef : ∀ z : Fp E F, z.expFrac = z.exp * 2 ^ F + z.frac := fun z => by
    unfold Fp.expFrac Fp.exp Fp.frac
    rw [getBits_zero_eq_mod, getBits_zero_eq_mod, show E + F - 1 + 1 = E + F by omega, show F - 1 + 1 = F by omega]
    unfold getBits
    rw [show E + F - 1 + 1 - F = E by omega, show E + F = F + E by ring, pow_add, Nat.mod_mul]
    ring
  have hl : ∀ z : Fp E F, z.expFrac < 2 ^ (E + F) := fun z => getBits_lt' (by omega)
  have hx := hl x
  have hy := hl y
  unfold Fp.flagsExpFrac concat Ordered
  rw [← hef, ← hef]
  generalize x.expFrac = a at *
  generalize y.expFrac = b at *
  generalize x.flags = c at *
  generalize y.flags = d at *
  constructor
  · intro h
    constructor
    · by_contra hc
      have : (d + 1) * 2 ^ (E + F) ≤ c * 2 ^ (E + F) := Nat.mul_le_mul_right _ (by omega)
      nlinarith
    · rintro rfl; omega
  · intro h
    push Not at h
    constructor
    · by_contra hc
      have : (c + 1) * 2 ^ (E + F) ≤ d * 2 ^ (E + F) := Nat.mul_le_mul_right _ (by omega)
      nlinarith
    · rintro rfl; omega

theorem intlog2_lt_iff {E F : ℕ} (hE : 1 ≤ E) : intlog2 (F + 3) < E ↔ F + 3 < 2 ^ (E - 1) := by
  constructor
  · intro h
    obtain ⟨-, h2, -⟩ := intlog2_spec (n := F + 3) (by omega)
    exact h2.trans_le (Nat.pow_le_pow_right (by norm_num) (by omega))
  · intro h
    have := intlog2_le h
    omega

theorem abs_normal {E F : ℕ} {x : Fp E F} {v : ℚ} (h : x.datum = .num v) :
    |v| = ((2 ^ F + x.frac : ℕ) : ℚ) * 2 ^ ((x.exp : ℤ) - bias E - F) ∧ (v < 0 ↔ x.sign = 1) := by
  obtain ⟨-, rfl⟩ := datum_num_iff.mp h
  have := sig_scaled_pos F x.frac ((x.exp : ℤ) - bias E - F)
  exact ⟨abs_signed this, signed_neg this⟩

theorem sign_ne_iff {E F : ℕ} {x y : Fp E F} {vx vy : ℚ} (hx : x.datum = .num vx) (hy : y.datum = .num vy) :
    vx * vy < 0 ↔ x.sign ≠ y.sign := by
  have h1 := (abs_normal hx).2
  have h2 := (abs_normal hy).2
  have z1 := normal_ne_zero hx
  have z2 := normal_ne_zero hy
  have s1 := x.sign_lt
  have s2 := y.sign_lt
  rcases lt_or_gt_of_ne z1 with a | a <;> rcases lt_or_gt_of_ne z2 with b | b
  · have := h1.mp a; have := h2.mp b
    have := mul_pos_of_neg_of_neg a b
    constructor
    · intro h; linarith
    · intro h; omega
  · have := h1.mp a
    have hb : y.sign ≠ 1 := fun h => absurd (h2.mpr h) (not_lt.mpr b.le)
    exact ⟨fun _ => by omega, fun _ => mul_neg_of_neg_of_pos a b⟩
  · have := h2.mp b
    have hb : x.sign ≠ 1 := fun h => absurd (h1.mpr h) (not_lt.mpr a.le)
    exact ⟨fun _ => by omega, fun _ => mul_neg_of_pos_of_neg a b⟩
  · have ha : x.sign ≠ 1 := fun h => absurd (h1.mpr h) (not_lt.mpr a.le)
    have hb : y.sign ≠ 1 := fun h => absurd (h2.mpr h) (not_lt.mpr b.le)
    have := mul_pos a b
    constructor
    · intro h; linarith
    · intro h; omega

theorem clamped_iff {E F : ℕ} {X Y : Fp E F} {vx vy : ℚ} (hE : 1 ≤ E) (hF : 1 ≤ F) (hX : X.datum = .num vx)
    (hY : Y.datum = .num vy) :
    Clamped X Y ↔ F + 3 < 2 ^ (E - 1) ∧ vx * vy < 0 ∧
      ∃ k : ℤ, |vx| = 2 ^ k ∧ (2 : ℚ) ^ (k - F - 2) < |vy| ∧ |vy| < 2 ^ (k - F - 1) := by
  unfold Clamped
  rw [intlog2_lt_iff hE, sign_ne_iff hX hY]
  refine and_congr_right fun _ => and_congr_right fun _ => ?_
  obtain ⟨ax, -⟩ := abs_normal hX
  obtain ⟨ay, -⟩ := abs_normal hY
  have hXf := X.frac_lt hF
  have hYf := Y.frac_lt hF
  have hpF : (0 : ℚ) < 2 ^ F := by positivity
  have hyf' : (Y.frac : ℚ) < 2 ^ F := by exact_mod_cast hYf
  have hsplit : ∀ g : ℤ, (2 : ℚ) ^ (g - F) * 2 ^ F = 2 ^ g := fun g => by
    rw [← zpow_natCast, ← zpow_add₀ (by norm_num)]; congr 1; ring
  have hYr : (2 : ℚ) ^ ((Y.exp : ℤ) - bias E) ≤ |vy| ∧ |vy| < 2 ^ ((Y.exp : ℤ) - bias E + 1) ∧
      (Y.frac ≠ 0 → (2 : ℚ) ^ ((Y.exp : ℤ) - bias E) < |vy|) ∧ (Y.frac = 0 → |vy| = (2 : ℚ) ^ ((Y.exp : ℤ) - bias E)) := by
    have hs := hsplit ((Y.exp : ℤ) - bias E)
    have hp := two_zpow_pos ((Y.exp : ℤ) - bias E - F)
    rw [ay, two_zpow_succ, ← hs]
    push_cast
    have hf0 : (0 : ℚ) ≤ Y.frac := Nat.cast_nonneg _
    refine ⟨by nlinarith, by nlinarith, ?_, ?_⟩
    · intro h
      have : (0 : ℚ) < Y.frac := by exact_mod_cast Nat.pos_of_ne_zero h
      nlinarith
    · intro h; rw [h]; push_cast; ring
  constructor
  · rintro ⟨h1, h2, h3⟩
    refine ⟨(X.exp : ℤ) - bias E, ?_, ?_, ?_⟩
    · rw [ax, h2]; push_cast; linear_combination hsplit ((X.exp : ℤ) - bias E)
    · have := hYr.2.2.1 h3
      rwa [show (X.exp : ℤ) - bias E - F - 2 = (Y.exp : ℤ) - bias E by rw [h1]; push_cast; ring]
    · have := hYr.2.1
      rwa [show (X.exp : ℤ) - bias E - F - 1 = (Y.exp : ℤ) - bias E + 1 by rw [h1]; push_cast; ring]
  · rintro ⟨k, k1, k2, k3⟩
    have hu : (2 ^ F + X.frac) = 2 ^ F ∧ (X.exp : ℤ) - bias E - F = k - F := by
      refine sig_unique (p := F + 1) (by omega) (sig_isSig hXf) (sig_isSig (show 0 < 2 ^ F by positivity)) ?_
      rw [← ax, k1, ← hsplit k]
      push_cast; ring
    have hk : (X.exp : ℤ) - bias E = k := by omega
    have l1 : (2 : ℚ) ^ (k - F - 2) < 2 ^ ((Y.exp : ℤ) - bias E + 1) := k2.trans hYr.2.1
    have l2 : (2 : ℚ) ^ ((Y.exp : ℤ) - bias E) < 2 ^ (k - F - 1) := hYr.1.trans_lt k3
    rw [zpow_lt_zpow_iff_right₀ (by norm_num)] at l1 l2
    refine ⟨by omega, by omega, ?_⟩
    intro h0
    rw [hYr.2.2.2 h0, zpow_lt_zpow_iff_right₀ (by norm_num)] at k2
    omega

/-- In the clamped case the larger operand is not the rounded sum. -/
theorem clamp_not_rounded {E F : ℕ} {vx vy : ℚ} (hneg : vx * vy < 0) {k : ℤ} (hk : |vx| = 2 ^ k)
    (hk2 : (2 : ℚ) ^ (k - F - 2) < |vy|) (hk3 : |vy| < 2 ^ (k - F - 1)) : ¬ Rounded E F (vx + vy) (.num vx) := by
  rintro ⟨m, e, hn, hd⟩
  have habs : |vx + vy| = |vx| - |vy| ∧ (vx + vy < 0 ↔ vx < 0) := by
    have hlt : |vy| < |vx| := by
      rw [hk]; refine hk3.trans_le (zpow_le_zpow_right₀ (by norm_num) (by omega))
    rcases lt_or_ge vx 0 with h | h
    · have hy : 0 < vy := by
        by_contra hc; push Not at hc; nlinarith
      rw [abs_of_neg h, abs_of_pos hy] at hlt ⊢
      rw [abs_of_neg (by linarith)]
      exact ⟨by ring, fun _ => h, fun _ => by linarith⟩
    · have hy : vy < 0 := by
        by_contra hc; push Not at hc; nlinarith
      rw [abs_of_nonneg h, abs_of_neg hy] at hlt ⊢
      rw [abs_of_pos (by linarith)]
      exact ⟨by ring, fun _ => by linarith, fun _ => by linarith⟩
  have hme : (m : ℚ) * 2 ^ e = |vx| := by
    unfold rangeCheck at hd
    split at hd
    · cases hd
    · split at hd
      · cases hd
      · injection hd with hd
        have h0 : 0 ≤ (m : ℚ) * 2 ^ e := mul_nonneg (Nat.cast_nonneg _) (two_zpow_pos e).le
        rw [hd]
        split <;> simp [abs_of_nonneg h0]
  have hpos := two_zpow_pos (k - F - 2)
  have e1 : (2 : ℚ) ^ (k - F - 1) = 2 * 2 ^ (k - F - 2) := by
    rw [show k - F - 1 = (k - F - 2) + 1 by ring, two_zpow_succ]
  have hp := hn.2.1 (2 ^ (F + 1) - 1) (k - F - 1) ?_
  · have hc : ((2 ^ (F + 1) - 1 : ℕ) : ℚ) = 2 ^ (F + 1) - 1 := by
      rw [Nat.cast_sub Nat.one_le_two_pow]; push_cast; rfl
    have hpk : (2 : ℚ) ^ (F + 1) * 2 ^ (k - F - 1) = 2 ^ k := by
      rw [← zpow_natCast, ← zpow_add₀ (by norm_num)]; congr 1; push_cast; ring
    rw [hc, habs.1, hme, sub_mul, hpk, one_mul, hk,
      show (2 : ℚ) ^ k - |vy| - 2 ^ k = -|vy| by ring, abs_neg, abs_abs,
      show (2 : ℚ) ^ k - |vy| - (2 ^ k - 2 ^ (k - F - 1)) = 2 ^ (k - F - 1) - |vy| by ring,
      abs_of_pos (show 0 < (2 : ℚ) ^ (k - F - 1) - |vy| by linarith)] at hp
    linarith
  · have : 2 ^ (F + 1) = 2 * 2 ^ F := by rw [pow_succ]; ring
    have : 0 < 2 ^ F := by positivity
    constructor
    · rw [Nat.add_sub_cancel]; omega
    · omega

/-- An adder that hands the ordered operands to `core`. -/
def Orders {E F : ℕ} (norm : ℕ → Option (ℕ × ℕ)) (x y : Fp E F) (res : Option (Fp E F)) : Prop :=
  (res = core roundBit norm x y ∧ Ordered x y) ∨ (res = core roundBit norm y x ∧ Ordered y x)

theorem orders_num {E F : ℕ} {norm : ℕ → Option (ℕ × ℕ)} (hn : Normalises F norm) (hE : 2 ≤ E) (hF : 1 ≤ F)
    (hfmt : F + 3 < 2 ^ E) (hfmt2 : F + 3 ≠ 2 ^ (E - 1)) {x y : Fp E F} {res : Option (Fp E F)} {vx vy : ℚ}
    (ho : Orders norm x y res) (hx : x.datum = .num vx) (hy : y.datum = .num vy) :
    ∃ r, res = some r ∧ (vx + vy = 0 → r.datum = .zero false) ∧
      (vx + vy ≠ 0 → ¬ Clamped x y → ¬ Clamped y x → Rounded E F (vx + vy) r.datum) ∧
      (Clamped x y → r.datum = x.datum) ∧ (Clamped y x → r.datum = y.datum) := by
  have hfx := (datum_num_iff.mp hx).1
  have hfy := (datum_num_iff.mp hy).1
  have hcl : ∀ {a b : Fp E F}, Clamped a b → b.exp * 2 ^ F + b.frac ≤ a.exp * 2 ^ F + a.frac → ¬ Clamped b a := by
    rintro a b ⟨-, -, h1, -⟩ - ⟨-, -, h2, -⟩; omega
  have hcl2 : ∀ {a b : Fp E F}, Clamped a b → ¬ (a.exp * 2 ^ F + a.frac ≤ b.exp * 2 ^ F + b.frac) := by
    rintro a b ⟨-, -, h1, -⟩ h
    have := (ordered_exp (X := b) (Y := a) hF h).1
    omega
  rcases ho with ⟨rfl, h1, h2⟩ | ⟨rfl, h1, h2⟩
  · have h2 := h2 (by omega)
    obtain ⟨r, hr, z, n, c⟩ := ordered_num hn hE hF hfmt hfmt2 hx hy h2
    exact ⟨r, hr, z, fun h a _ => n h a, c, fun h => absurd h2 (hcl2 h)⟩
  · have h2 := h2 (by omega)
    obtain ⟨r, hr, z, n, c⟩ := ordered_num hn hE hF hfmt hfmt2 hy hx h2
    rw [add_comm vy vx] at z n
    exact ⟨r, hr, z, fun h _ a => n h a, fun h => absurd h2 (hcl2 h), c⟩

theorem orders_special {E F : ℕ} {norm : ℕ → Option (ℕ × ℕ)} (hn : Normalises F norm) (hE : 2 ≤ E) (hF : 1 ≤ F)
    (hfmt : F + 3 < 2 ^ E) (hfmt2 : F + 3 ≠ 2 ^ (E - 1)) {x y : Fp E F} {res : Option (Fp E F)} {d : Datum}
    (ho : Orders norm x y res) (hd : addSpecial x.datum y.datum = some d) :
    ∃ r, res = some r ∧ r.datum = d := by
  rcases ho with ⟨rfl, h⟩ | ⟨rfl, h⟩
  · exact core_special hn hE hF hfmt hfmt2 h hd
  · exact core_special hn hE hF hfmt hfmt2 h (by rwa [addSpecial_comm])

theorem addSame_orders {E F : ℕ} (hE : 1 ≤ E) (hF : 1 ≤ F) (x y : Fp E F) :
    Orders (lzoc? (F + 5) (intlog2 (F + 5))) x y (addSame x y) := by
  obtain ⟨h1, h2⟩ := flagsExpFrac_lt hE hF x y
  unfold addSame
  by_cases h : x.flagsExpFrac < y.flagsExpFrac
  · right; exact ⟨by simp [h], h1 h⟩
  · left; exact ⟨by simp [h], h2 h⟩

end AddSingle
end Thls
