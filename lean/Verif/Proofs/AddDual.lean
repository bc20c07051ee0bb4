import Verif.Proofs.AddSingle

/-! # The dual-path adder (helpers) -/

namespace Thls
open Spec AddSingle

/-- Rounding a truncated sum with a sticky bit. -/
theorem rounded_of_sticky {E F : ℕ} (hF : 1 ≤ F) {q : ℚ} {A f low k : ℕ} {r st : Bool} {be g : ℤ}
    (hf : f < 2 ^ F) (hlo : (A : ℚ) * 2 ^ g ≤ |q|) (hhi : |q| < ((A : ℚ) + 1) * 2 ^ g)
    (hst : st = false ↔ |q| = (A : ℚ) * 2 ^ g)
    (hA : A = (2 * (2 ^ F + f) + r.toNat) * 2 ^ k + low) (hlow : low < 2 ^ k)
    (hg : g + k = be - bias E - F - 1) :
    Rounded E F q (packedDatum E F (decide (q < 0))
      (be * 2 ^ F + f + (if r && (st || decide (low ≠ 0) || decide (f % 2 = 1)) then 1 else 0))) := by
  have hpos := two_zpow_pos g
  have hpow : (2 : ℚ) ^ (be - bias E - F - 1) = 2 ^ g * 2 ^ k := by
    rw [← hg, zpow_add₀ (by norm_num), zpow_natCast]
  have hN : ((2 * (2 ^ F + f) + r.toNat : ℕ) : ℚ) = 2 * ((2 ^ F + f : ℕ) : ℚ) + (if r then 1 else 0) := by
    cases r <;> push_cast <;> simp
  have hA' : (A : ℚ) = (2 * ((2 ^ F + f : ℕ) : ℚ) + (if r then 1 else 0)) * 2 ^ k + low := by
    rw [hA]
    push_cast at hN ⊢
    rw [← hN]
  have hl1 : (low : ℚ) + 1 ≤ 2 ^ k := by exact_mod_cast hlow
  have hl0 : (0 : ℚ) ≤ low := Nat.cast_nonneg _
  refine rounded_packed hF hf ?_ ?_ ?_
  · rw [hpow]
    generalize (2 * ((2 ^ F + f : ℕ) : ℚ) + (if r then 1 else 0)) = N at *
    refine le_trans ?_ hlo
    rw [hA', ← mul_assoc, mul_right_comm]
    exact mul_le_mul_of_nonneg_right (by linarith) hpos.le
  · rw [hpow]
    generalize (2 * ((2 ^ F + f : ℕ) : ℚ) + (if r then 1 else 0)) = N at *
    refine lt_of_lt_of_le hhi ?_
    rw [hA', ← mul_assoc, mul_right_comm]
    exact mul_le_mul_of_nonneg_right (by linarith) hpos.le
  · rw [hpow]
    generalize (2 * ((2 ^ F + f : ℕ) : ℚ) + (if r then 1 else 0)) = N at *
    have hx : N * (2 ^ g * 2 ^ k) = (N * 2 ^ k) * 2 ^ g := by ring
    rw [hx, Bool.or_eq_false_iff, hst]
    constructor
    · rintro ⟨h1, h2⟩
      rw [h1, hA']
      have : low = 0 := by simpa using h2
      rw [this]; push_cast; ring
    · intro h
      have h2 : (A : ℚ) * 2 ^ g ≤ N * 2 ^ k * 2 ^ g := by rw [← h]; exact hlo
      have h3 := le_of_mul_le_mul_right h2 hpos
      have h4 : (low : ℚ) = 0 := by linarith
      have h5 : low = 0 := by exact_mod_cast h4
      rw [h, hA', h4, h5]
      simp

namespace AddDual

/-! ## Close path -/

theorem closeDiff_spec {F fx fy : ℕ} {b : Bool} (hx : fx < 2 ^ F) (hy : fy < 2 ^ F) {X Y : ℕ}
    (hX : X = 2 * (2 ^ F + fx)) (hY : Y = if b then 2 ^ F + fy else 2 * (2 ^ F + fy)) :
    closeDiff F fx fy b = (decide (X < Y), if X < Y then Y - X else X - Y) := by
  have e2 : 2 ^ (F + 2) = 4 * 2 ^ F := by rw [pow_add]; ring
  have e3 : 2 ^ (F + 3) = 8 * 2 ^ F := by rw [pow_add]; ring
  have hXl : X < 2 ^ (F + 2) := by omega
  have hYl : Y < 2 ^ (F + 2) := by rw [hY]; split <;> omega
  have c1 : concat 1 (concat F 0b01 fx) 0 = X := by unfold concat; omega
  have c2 : (if b then concat F 0b001 fy else concat 1 (concat F 0b01 fy) 0) = Y := by
    rw [hY]; unfold concat; cases b <;> simp <;> omega
  unfold closeDiff
  dsimp only
  rw [c1, c2]
  have key : ∀ a b, a < 2 ^ (F + 2) → b < 2 ^ (F + 2) → b ≤ a →
      subW (F + 3) a b = a - b ∧ getBit (F + 2) (subW (F + 3) a b) = false ∧
      getBits (F + 1) 0 (subW (F + 3) a b) = a - b := by
    intro a b ha hb hle
    have h1 : subW (F + 3) a b = a - b := subW_of_le hle (by omega)
    refine ⟨h1, ?_, ?_⟩
    · rw [h1]; unfold getBit
      rw [Nat.div_eq_of_lt (by omega)]; rfl
    · rw [h1, getBits_zero_eq_mod, Nat.mod_eq_of_lt (by omega)]
  have key2 : ∀ a b, a < 2 ^ (F + 2) → b < 2 ^ (F + 2) → a < b → getBit (F + 2) (subW (F + 3) a b) = true := by
    intro a b ha hb hlt
    unfold subW getBit
    rw [Nat.mod_eq_of_lt (show a + (2 ^ (F + 3) - b) < 2 ^ (F + 3) by omega)]
    have : (a + (2 ^ (F + 3) - b)) / 2 ^ (F + 2) = 1 := by
      rw [Nat.div_eq_iff (by positivity)]; omega
    rw [this]; rfl
  by_cases h : X < Y
  · rw [key2 X Y hXl hYl h, (key Y X hYl hXl h.le).2.2]
    simp [h]
  · rw [(key X Y hXl hYl (by omega)).2.1, (key X Y hXl hYl (by omega)).2.2]
    simp [h]

/-! ## Packing -/

theorem top_lt (E F w : ℕ) : getBits (E + F + 1) (E + F) w < 4 := by
  have := getBits_lt (E + F + 1) (E + F) w
  rwa [show E + F + 1 + 1 - (E + F) = 2 by omega] at this

theorem concat_two (a b : ℕ) : concat 2 a b = a * 4 + b := rfl

/-- Packing the sum of two normal numbers that do not cancel. -/
theorem pack_normal {E F ep f rs : ℕ} {be : ℤ} {X Y : Fp E F} (up : Bool) (hE : 1 ≤ E) (hF : 1 ≤ F)
    (hX : X.flags = 1) (hY : Y.flags = 1) (hep : (ep : ℤ) = be % 2 ^ (E + 2)) (hf : f < 2 ^ F) (hs : rs < 2)
    (hlo : -(2 * 2 ^ E) ≤ be) (hhi : be + 1 < 2 * 2 ^ E) :
    (pack E F X Y rs (concat F ep f) up false).datum
      = packedDatum E F (decide (rs = 1)) (be * 2 ^ F + f + (if up then 1 else 0)) := by
  rw [← finish_datum up hE hF hep hf hs hlo hhi]
  unfold pack
  dsimp only
  have h4 := top_lt E F (addW (E + F + 2) (concat F ep f) up.toNat)
  simp only [hX, hY, concat_two, Nat.reduceMul, Nat.reduceAdd, if_true]
  generalize addW (E + F + 2) (concat F ep f) up.toNat = T at *
  have hfl : (if getBits (E + F + 1) (E + F) T = 1 then concat 1 (!false).toNat 0
      else if getBits (E + F + 1) (E + F) T = 2 ∨ getBits (E + F + 1) (E + F) T = 3 then 0 else (!false).toNat)
      = rangeFlags (getBits (E + F + 1) (E + F) T) := by
    generalize getBits (E + F + 1) (E + F) T = u at *
    interval_cases u <;> simp [rangeFlags, concat]
  rw [hfl]

theorem pack_cancel {E F : ℕ} {X Y : Fp E F} (pre : ℕ) (up : Bool) (hE : 1 ≤ E) (hF : 1 ≤ F)
    (hX : X.flags = 1) (hY : Y.flags = 1) : (pack E F X Y 0 pre up true).datum = .zero false := by
  unfold pack
  dsimp only
  have h4 := top_lt E F (addW (E + F + 2) pre up.toNat)
  simp only [hX, hY, concat_two, Nat.reduceMul, Nat.reduceAdd, if_true]
  generalize addW (E + F + 2) pre up.toNat = T at *
  have hfl : (if getBits (E + F + 1) (E + F) T = 1 then concat 1 (!true).toNat 0
      else if getBits (E + F + 1) (E + F) T = 2 ∨ getBits (E + F + 1) (E + F) T = 3 then 0 else (!true).toNat)
      = 0 := by
    generalize getBits (E + F + 1) (E + F) T = u at *
    interval_cases u <;> simp [concat]
  rw [hfl, ofBits_concat_datum hE hF (by omega) (by omega) (getBits_lt' (by omega))]
  rfl

/-- Packing a sum whose exponent has wrapped to a positive one: never zero, nor one of the smallest numbers. -/
theorem pack_wrapped {E F ep f rs : ℕ} {X Y : Fp E F} (hE : 1 ≤ E) (hF : 1 ≤ F) (hX : X.flags = 1) (hY : Y.flags = 1)
    (hep : ep < 2 * 2 ^ E) (hep0 : 1 ≤ ep) (hf : f < 2 ^ F) (hs : rs < 2) :
    (∀ z, (pack E F X Y rs (concat F ep f) false false).datum ≠ .zero z) ∧
      (∀ v, (pack E F X Y rs (concat F ep f) false false).datum = .num v → (2 : ℚ) ^ (1 - bias E) ≤ |v|) ∧
      (pack E F X Y rs (concat F ep f) false false).datum = rangeCheck E F (decide (rs = 1)) (2 ^ F + f) ((ep : ℤ) - bias E - F) := by
  unfold pack
  dsimp only
  have hT : concat F ep f < 2 * (2 ^ E * 2 ^ F) := by
    unfold concat
    have : (ep + 1) * 2 ^ F ≤ 2 * 2 ^ E * 2 ^ F := Nat.mul_le_mul_right _ (by omega)
    nlinarith
  have hp : 2 ^ (E + F + 2) = 4 * (2 ^ E * 2 ^ F) := by rw [pow_add, pow_add]; ring
  have hadd : addW (E + F + 2) (concat F ep f) false.toNat = concat F ep f := by
    unfold addW; simp only [Bool.toNat_false, Nat.add_zero]; exact Nat.mod_eq_of_lt (by omega)
  rw [hadd]
  have htop : getBits (E + F + 1) (E + F) (concat F ep f) < 2 := by
    rw [getBits_top (by rw [show E + F + 1 + 1 = E + F + 2 by ring]; omega) (by omega), Nat.div_lt_iff_lt_mul (by positivity), pow_add]
    omega
  simp only [hX, hY, concat_two, Nat.reduceMul, Nat.reduceAdd, if_true]
  have hfl : ∃ fl, (fl = 1 ∧ getBits (E + F + 1) (E + F) (concat F ep f) = 0 ∨
      fl = 2 ∧ getBits (E + F + 1) (E + F) (concat F ep f) = 1) ∧ (if getBits (E + F + 1) (E + F) (concat F ep f) = 1 then concat 1 (!false).toNat 0
      else if getBits (E + F + 1) (E + F) (concat F ep f) = 2 ∨ getBits (E + F + 1) (E + F) (concat F ep f) = 3 then 0 else (!false).toNat) = fl := by
    generalize getBits (E + F + 1) (E + F) (concat F ep f) = u at *
    interval_cases u
    · exact ⟨1, Or.inl ⟨rfl, rfl⟩, rfl⟩
    · exact ⟨2, Or.inr ⟨rfl, rfl⟩, rfl⟩
  obtain ⟨fl, h12, hfl⟩ := hfl
  rw [hfl, ofBits_concat_datum hE hF (by omega) (by omega) (getBits_lt' (by omega))]
  have hmod : concat F ep f % 2 ^ F = f := by
    unfold concat
    rw [Nat.mul_add_mod_self_right, Nat.mod_eq_of_lt hf]
  have hdiv : concat F ep f / 2 ^ F = ep := by
    unfold concat
    rw [mul_comm, Nat.mul_add_div (by positivity), Nat.div_eq_of_lt hf, Nat.add_zero]
  rcases h12 with ⟨rfl, h0⟩ | ⟨rfl, h0⟩
  · have hlt : concat F ep f < 2 ^ (E + F) := by
      rw [getBits_top (by rw [show E + F + 1 + 1 = E + F + 2 by ring]; omega) (by omega)] at h0
      rcases Nat.div_eq_zero_iff.mp h0 with h | h
      · exact absurd h (by positivity)
      · exact h
    have hge : getBits (E + F - 1) 0 (concat F ep f) = concat F ep f := by
      rw [getBits_top (by rw [show E + F - 1 + 1 = E + F by omega]; exact hlt) (by omega), pow_zero, Nat.div_one]
    have hepE : ep < 2 ^ E := by
      rw [← hdiv, Nat.div_lt_iff_lt_mul (by positivity), ← pow_add]; exact hlt
    rw [hge, hdiv, hmod]
    refine ⟨fun _ hc => Datum.noConfusion hc, fun v hv => ?_, ?_⟩
    · simp only [denote] at hv
      rw [← Datum.num.inj hv, abs_mul, abs_of_nonneg (show (0 : ℚ) ≤ ((2 ^ F + f : ℕ) : ℚ) * 2 ^ ((ep : ℤ) - bias E - F) by
        positivity)]
      have h1 : |(if rs = 1 then (-1 : ℚ) else 1)| = 1 := by split_ifs <;> norm_num
      rw [h1, one_mul]
      calc (2 : ℚ) ^ (1 - bias E) ≤ 2 ^ ((ep : ℤ) - bias E) := zpow_le_zpow_right₀ (by norm_num) (by omega)
        _ = ((2 ^ F : ℕ) : ℚ) * 2 ^ ((ep : ℤ) - bias E - F) := by
          push_cast
          rw [← zpow_natCast, ← zpow_add₀ (by norm_num)]; congr 1; ring
        _ ≤ _ := by
          apply mul_le_mul_of_nonneg_right _ (by positivity)
          exact_mod_cast Nat.le_add_right _ _
    · have : (ep : ℤ) < 2 ^ E := by exact_mod_cast hepE
      unfold rangeCheck
      rw [if_neg (by omega), if_neg (by omega)]
      simp only [denote, decide_eq_true_eq]
  · refine ⟨fun _ hc => Datum.noConfusion hc, fun _ hc => Datum.noConfusion hc, ?_⟩
    have hepE : 2 ^ E ≤ ep := by
      rw [getBits_top (by rw [show E + F + 1 + 1 = E + F + 2 by ring]; omega) (by omega)] at h0
      have h1 : 1 * 2 ^ (E + F) ≤ concat F ep f := (Nat.le_div_iff_mul_le (by positivity)).mp h0.ge
      rw [← hdiv, Nat.le_div_iff_mul_le (by positivity), ← pow_add]
      omega
    have : (2 : ℤ) ^ E ≤ (ep : ℤ) := by exact_mod_cast hepE
    unfold rangeCheck
    rw [if_neg (by have : (0 : ℤ) < 2 ^ E := by positivity
                   omega), if_pos (by omega)]
    rfl

/-- Packing when an operand is not normal: the fields of the first operand, or NaN. -/
theorem pack_other {E F rs pre : ℕ} {up z : Bool} {X Y : Fp E F} (hE : 1 ≤ E) (hF : 1 ≤ F)
    (hle : Y.flags ≤ X.flags) (h : ¬ (X.flags = 1 ∧ Y.flags = 1)) :
    (pack E F X Y rs pre up z).datum = denote E F (if X.flags = 2 ∧ Y.flags = 2 ∧ X.sign ≠ Y.sign then 3 else X.flags)
      (if X.flags = 0 ∧ Y.sign = 0 then 0 else X.sign) X.exp X.frac := by
  have hXf := X.flags_lt
  have hXs := X.sign_lt
  have hYs := Y.sign_lt
  have hef : X.expFrac < 2 ^ (E + F) := getBits_lt' (by omega)
  have h5 : ¬ concat 2 X.flags Y.flags = 5 := by rw [concat_two]; omega
  unfold pack
  dsimp only
  rw [if_neg h5, if_neg h5, if_neg h5]
  have hfl : (if concat 2 X.flags Y.flags = 10 then concat 1 1 (X.sign != Y.sign).toNat
      else if concat 2 X.flags Y.flags = 14 then 3 else X.flags)
      = if X.flags = 2 ∧ Y.flags = 2 ∧ X.sign ≠ Y.sign then 3 else X.flags := by
    simp only [concat_two]
    generalize X.flags = a at *
    generalize Y.flags = b at *
    generalize X.sign = c at *
    generalize Y.sign = d at *
    interval_cases a <;> interval_cases b <;> interval_cases c <;> interval_cases d <;>
      simp [concat] at *
  have hsg : (if concat 2 X.flags Y.flags = 0 then (if X.sign = 1 ∧ Y.sign = 1 then 1 else 0) else X.sign)
      = if X.flags = 0 ∧ Y.sign = 0 then 0 else X.sign := by
    simp only [concat_two]
    generalize X.flags = a at *
    generalize Y.flags = b at *
    generalize X.sign = c at *
    generalize Y.sign = d at *
    interval_cases a <;> interval_cases b <;> interval_cases c <;> interval_cases d <;>
      simp at *
  rw [hfl, hsg, ofBits_concat_datum hE hF (by split <;> omega) (by split <;> omega) hef]
  congr 1
  · unfold Fp.expFrac Fp.exp getBits
    rw [Nat.sub_zero, pow_zero, Nat.div_one, show E + F - 1 + 1 = F + E by omega, show F + E - F = E by omega,
      pow_add, Nat.mod_mul_right_div_self]
  · unfold Fp.expFrac Fp.frac getBits
    rw [Nat.sub_zero, Nat.sub_zero, pow_zero, Nat.div_one, show E + F - 1 + 1 = F + E by omega,
      show F - 1 + 1 = F by omega, Nat.mod_mod_of_dvd _ (pow_dvd_pow 2 (by omega))]

/-! ## Far path -/

theorem farRound_spec {E F ex A : ℕ} (st : Bool) (hF : 1 ≤ F) (h1 : 2 ^ (F + 1) ≤ A) (h2 : A < 2 ^ (F + 4)) :
    ∃ (k f low ep : ℕ) (r : Bool), k ≤ 2 ∧ f < 2 ^ F ∧ A = (2 * (2 ^ F + f) + r.toNat) * 2 ^ k + low ∧ low < 2 ^ k ∧
      (ep : ℤ) = ((ex : ℤ) - 1 + k) % 2 ^ (E + 2) ∧
      farRound E F ex A st = (concat F ep f, r && (st || decide (low ≠ 0) || decide (f % 2 = 1))) := by
  have e1 : 2 ^ (F + 1) = 2 * 2 ^ F := by rw [pow_add]; ring
  have e2 : 2 ^ (F + 2) = 4 * 2 ^ F := by rw [pow_add]; ring
  have e3 : 2 ^ (F + 3) = 8 * 2 ^ F := by rw [pow_add]; ring
  have e4 : 2 ^ (F + 4) = 16 * 2 ^ F := by rw [pow_add]; ring
  have hlead : getBits (F + 3) (F + 2) A = A / (4 * 2 ^ F) := by
    rw [getBits_top (by simpa using h2) (by omega), e2]
  have hpos : 0 < 2 ^ F := by positivity
  have hl4 : A / (4 * 2 ^ F) < 4 := by rw [Nat.div_lt_iff_lt_mul (by omega)]; omega
  have hfr : ∀ k, getBits (F + k) (k + 1) A = A / 2 ^ (k + 1) % 2 ^ F := by
    intro k; unfold getBits; rw [show F + k + 1 - (k + 1) = F by omega]
  have g0 := getBit_toNat 0 A
  have g1 := getBit_toNat 1 A
  have g2 := getBit_toNat 2 A
  norm_num at g0 g1 g2
  have b0 : getBit 0 A = decide (A % 2 = 1) := by unfold getBit; simp
  have b1 : getBit 1 A = decide (A / 2 % 2 = 1) := by unfold getBit; simp
  have lsb : ∀ f, getBit 0 f = decide (f % 2 = 1) := by intro f; unfold getBit; simp
  unfold farRound
  dsimp only
  rw [hlead]
  by_cases c0 : A / (4 * 2 ^ F) = 0
  · have hA : A < 4 * 2 ^ F := by
      rcases Nat.div_eq_zero_iff.mp c0 with h | h <;> omega
    refine ⟨0, A / 2 - 2 ^ F, 0, addW (E + 2) ex (ones (E + 2)), getBit 0 A, by omega, by omega, by rw [g0]; omega, by norm_num, ?_, ?_⟩
    rotate_left
    · simp only [c0, if_true]
      rw [show getBits F 1 A = A / 2 ^ (0 + 1) % 2 ^ F from hfr 0, show A / 2 ^ (0 + 1) = (A / 2 - 2 ^ F) + 2 ^ F by norm_num; omega, Nat.add_mod_right,
        Nat.mod_eq_of_lt (by omega), lsb (A / 2 - 2 ^ F)]
      simp
    · rw [cast_addW]
      unfold ones
      have : (1 : ℕ) ≤ 2 ^ (E + 2) := Nat.one_le_two_pow
      push_cast [Nat.cast_sub this]
      rw [show (ex : ℤ) + (2 ^ (E + 2) - 1) = ((ex : ℤ) - 1 + 0) + 2 ^ (E + 2) by ring, Int.add_emod_right]
  · by_cases c1 : A / (4 * 2 ^ F) = 1
    · have hA := Nat.div_add_mod A (4 * 2 ^ F)
      have hA2 := Nat.mod_lt A (show 0 < 4 * 2 ^ F by omega)
      rw [c1] at hA
      refine ⟨1, A / 4 - 2 ^ F, A % 2, addW (E + 2) ex 0, getBit 1 A, by omega, by omega, by rw [g1]; omega, by omega, ?_, ?_⟩
      rotate_left
      · simp only [c1, if_true, one_ne_zero, if_false]
        rw [hfr 1, show A / 2 ^ (1 + 1) = (A / 4 - 2 ^ F) + 2 ^ F by norm_num; omega, Nat.add_mod_right,
          Nat.mod_eq_of_lt (by omega), b0, lsb (A / 4 - 2 ^ F)]
        congr 4
        rcases Nat.mod_two_eq_zero_or_one A with h | h <;> simp [h]
      · rw [cast_addW]; push_cast; congr 1; ring
    · have hA : 8 * 2 ^ F ≤ A := by
        have hA := Nat.div_add_mod A (4 * 2 ^ F)
        have : 4 * 2 ^ F * 2 ≤ 4 * 2 ^ F * (A / (4 * 2 ^ F)) := Nat.mul_le_mul_left _ (by omega)
        omega
      refine ⟨2, A / 8 - 2 ^ F, A % 4, addW (E + 2) ex 1, getBit 2 A, by omega, by omega, by rw [g2]; omega, by omega, ?_, ?_⟩
      rotate_left
      · simp only [c0, c1, if_false]
        rw [hfr 2, show A / 2 ^ (2 + 1) = (A / 8 - 2 ^ F) + 2 ^ F by norm_num; omega, Nat.add_mod_right,
          Nat.mod_eq_of_lt (by omega), b0, b1, lsb (A / 8 - 2 ^ F)]
        congr 3
        have : A % 4 = A % 2 + 2 * (A / 2 % 2) := by omega
        rw [this]
        rcases Nat.mod_two_eq_zero_or_one A with h | h <;>
          rcases Nat.mod_two_eq_zero_or_one (A / 2) with h' | h' <;> simp [h, h']
      · rw [cast_addW]; push_cast; congr 1; ring

/-- The far path, packed: the rounding of any value inside the window of the computed sum. -/
theorem far_datum {E F A rs : ℕ} {X Y : Fp E F} {st : Bool} (hE : 2 ≤ E) (hF : 1 ≤ F) (hX : X.flags = 1)
    (hY : Y.flags = 1) (h1 : 2 ^ (F + 1) ≤ A) (h2 : A < 2 ^ (F + 4)) (hs : rs < 2) {q : ℚ}
    (hlo : (A : ℚ) * 2 ^ ((X.exp : ℤ) - bias E - F - 2) ≤ |q|)
    (hhi : |q| < ((A : ℚ) + 1) * 2 ^ ((X.exp : ℤ) - bias E - F - 2))
    (hst : st = false ↔ |q| = (A : ℚ) * 2 ^ ((X.exp : ℤ) - bias E - F - 2)) (hsgn : q < 0 ↔ rs = 1) :
    Rounded E F q (pack E F X Y rs (farRound E F X.exp A st).1 (farRound E F X.exp A st).2 false).datum := by
  obtain ⟨k, f, low, ep, r, hk, hf, hA, hlow, hep, hfr⟩ := farRound_spec (E := E) (ex := X.exp) st hF h1 h2
  have hXe := X.exp_lt (show 1 ≤ E by omega)
  have hXe' : (X.exp : ℤ) < 2 ^ E := by exact_mod_cast hXe
  have h4 : (4 : ℤ) ≤ 2 ^ E := by
    have : 2 ^ 2 ≤ 2 ^ E := Nat.pow_le_pow_right (by norm_num) hE
    exact_mod_cast this
  rw [hfr]
  dsimp only
  rw [pack_normal _ (by omega) hF hX hY hep hf hs (by omega) (by omega),
    show decide (rs = 1) = decide (q < 0) by simp [hsgn]]
  exact rounded_of_sticky hF hf hlo hhi hst hA hlow (by omega)

/-! ## Alignment distance -/

/-- Format hypothesis under which the alignment shift never exceeds the shifted word: `F+3` is not a power of two
below `2^E`, except 8, 16 and 32 (which the code pads for). -/
def ShiftOk (E F : ℕ) : Prop := ∀ k, F + 3 = 2 ^ k → E ≤ k ∨ F = 5 ∨ F = 13 ∨ F = 29

theorem shift_width {E F : ℕ} (hE : 1 ≤ E) (hok : ShiftOk E F) :
    2 ^ intlog2 (F + 3) ≤ 2 * F + 4 + pad1 F ∨ 2 ^ E ≤ F + 3 := by
  obtain ⟨h1, h2, h3⟩ := intlog2_spec (n := F + 3) (by omega)
  have e : 2 ^ intlog2 (F + 3) = 2 * 2 ^ (intlog2 (F + 3) - 1) := by
    conv_lhs => rw [show intlog2 (F + 3) = (intlog2 (F + 3) - 1) + 1 by omega, pow_succ]
    ring
  by_cases h : F + 3 = 2 ^ (intlog2 (F + 3) - 1)
  · rcases hok _ h with h' | h' | h' | h'
    · right
      rw [h]; exact Nat.pow_le_pow_right (by norm_num) h'
    all_goals
      left
      unfold pad1
      rw [if_pos (by omega)]
      omega
  · left; omega

/-- The alignment shift does not fail for an exponent difference `d`. -/
def ShiftFits (E F d : ℕ) : Prop := shiftVal E F d < 2 * F + 4 + pad1 F

theorem shiftVal_cases {E F d : ℕ} (hE : 1 ≤ E) (hd : d < 2 ^ E) :
    (shiftVal E F d = d ∧ d < 2 ^ intlog2 (F + 3)) ∨ (shiftVal E F d = F + 3 ∧ F + 4 ≤ d) := by
  obtain ⟨h1, h2, h3⟩ := intlog2_spec (n := F + 3) (by omega)
  unfold shiftVal
  dsimp only
  by_cases h : E > intlog2 (F + 3)
  · rw [if_pos h]
    have hg : getBits (E - 1) (intlog2 (F + 3)) d = d / 2 ^ intlog2 (F + 3) :=
      getBits_top (by rwa [show E - 1 + 1 = E by omega]) (by omega)
    rw [hg]
    by_cases hz : d / 2 ^ intlog2 (F + 3) = 0
    · have hdl : d < 2 ^ intlog2 (F + 3) := by
        rcases Nat.div_eq_zero_iff.mp hz with h | h
        · have : 0 < 2 ^ intlog2 (F + 3) := by positivity
          omega
        · exact h
      simp only [hz, ne_eq, not_true_eq_false, decide_false, Bool.not_false, if_true]
      rw [getBits_zero_eq_mod, show intlog2 (F + 3) - 1 + 1 = intlog2 (F + 3) by omega, Nat.mod_eq_of_lt hdl]
      exact Or.inl ⟨rfl, hdl⟩
    · simp only [hz, ne_eq, not_false_eq_true, decide_true, Bool.not_true, Bool.false_eq_true, if_false]
      have hdl : 2 ^ intlog2 (F + 3) ≤ d := by
        by_contra hc
        exact hz (Nat.div_eq_of_lt (by omega))
      exact Or.inr ⟨trivial, by omega⟩
  · rw [if_neg h]
    have : 2 ^ E ≤ 2 ^ intlog2 (F + 3) := Nat.pow_le_pow_right (by norm_num) (by omega)
    exact Or.inl ⟨rfl, by omega⟩

theorem shiftVal_spec {E F d : ℕ} (hE : 1 ≤ E) (hok : ShiftFits E F d) (hd : d < 2 ^ E) :
    shiftVal E F d < 2 * F + 4 + pad1 F ∧
      (shiftVal E F d = d ∨ (shiftVal E F d = F + 3 ∧ F + 4 ≤ d)) := by
  refine ⟨hok, ?_⟩
  rcases shiftVal_cases (F := F) hE hd with h | h
  · exact Or.inl h.1
  · exact Or.inr h

theorem shiftOk_fits {E F d : ℕ} (hE : 1 ≤ E) (hok : ShiftOk E F) (hd : d < 2 ^ E) : ShiftFits E F d := by
  unfold ShiftFits
  rcases shiftVal_cases (F := F) hE hd with ⟨h, hl⟩ | ⟨h, -⟩
  · rw [h]
    rcases shift_width hE hok with hw | hw <;> omega
  · omega

/-- Exactly which differences fail. -/
theorem not_shiftFits {E F d : ℕ} (hE : 1 ≤ E) (hd : d < 2 ^ E) :
    ¬ ShiftFits E F d ↔ ¬ ShiftOk E F ∧ (d = 2 * F + 4 ∨ d = 2 * F + 5) := by
  constructor
  · intro h
    refine ⟨fun hok => h (shiftOk_fits hE hok hd), ?_⟩
    obtain ⟨h1, h2, h3⟩ := intlog2_spec (n := F + 3) (by omega)
    have e : 2 ^ intlog2 (F + 3) = 2 * 2 ^ (intlog2 (F + 3) - 1) := by
      conv_lhs => rw [show intlog2 (F + 3) = (intlog2 (F + 3) - 1) + 1 by omega, pow_succ]
      ring
    unfold ShiftFits at h
    rcases shiftVal_cases (F := F) hE hd with ⟨h', hl⟩ | ⟨h', -⟩ <;> omega
  · rintro ⟨hno, hd'⟩ hf
    unfold ShiftOk at hno
    push Not at hno
    obtain ⟨k, hk, hkE, n5, n13, n29⟩ := hno
    have hil : intlog2 (F + 3) = k + 1 := by
      have a := le_intlog2 (n := F + 3) (k := k) (by omega)
      have b := intlog2_le (n := F + 3) (k := k + 1) (by rw [pow_succ]; omega)
      omega
    have hpad : pad1 F = 0 := by unfold pad1; rw [if_neg (by omega)]
    unfold ShiftFits at hf
    rw [hpad] at hf
    have hsv : shiftVal E F d = d := by
      unfold shiftVal
      dsimp only
      rw [hil]
      have hlt : d < 2 ^ (k + 1) := by rw [pow_succ]; omega
      split
      · have hz : getBits (E - 1) (k + 1) d = 0 := by
          rw [getBits_top (by rwa [show E - 1 + 1 = E by omega]) (by omega)]
          exact Nat.div_eq_of_lt hlt
        rw [hz]
        simp only [ne_eq, not_true_eq_false, decide_false, Bool.not_false, if_true]
        rw [getBits_zero_eq_mod, show k + 1 - 1 + 1 = k + 1 by omega]
        exact Nat.mod_eq_of_lt hlt
      · rfl
    omega

/-! ## The ordered adder -/

theorem core_none {E F : ℕ} (X Y : Fp E F) (h : ¬ ShiftFits E F (subW E X.exp Y.exp)) : core X Y = none := by
  have hal : ∀ m, addAlign? F (pad1 F) m (shiftVal E F (subW E X.exp Y.exp)) = none := by
    intro m; unfold addAlign? shr?
    have h' : ¬ shiftVal E F (subW E X.exp Y.exp) < 2 * F + 4 + pad1 F := h
    rw [if_neg h']
  unfold core
  dsimp only
  rw [hal]
  split <;> simp_all

theorem core_some {E F : ℕ} (hE : 2 ≤ E) (hF : 1 ≤ F) (X Y : Fp E F) (hok : ShiftFits E F (subW E X.exp Y.exp)) :
    ∃ rs pre up z, core X Y = some (pack E F X Y rs pre up z) := by
  have hd : subW E X.exp Y.exp < 2 ^ E := subW_lt _ _ _
  obtain ⟨hs, -⟩ := shiftVal_spec (by omega) hok hd
  have hm : opadHi1 F Y.frac < 2 ^ (F + 1) := (sig_isSig (Y.frac_lt hF)).2
  have hal := addAlign_spec (F := F) (pad := pad1 F) hm hs
  have hn : ∃ o, lzoc? (F + 2) (intlog2 (F + 2)) (closeDiff F X.frac Y.frac (getBit 0 (subW E X.exp Y.exp))).2 = some o := by
    rw [closeDiff_spec (X.frac_lt hF) (Y.frac_lt hF) rfl rfl]
    dsimp only
    generalize hD : (if 2 * (2 ^ F + X.frac) < (if getBit 0 (subW E X.exp Y.exp) = true then 2 ^ F + Y.frac else
      2 * (2 ^ F + Y.frac)) then (if getBit 0 (subW E X.exp Y.exp) = true then 2 ^ F + Y.frac else
      2 * (2 ^ F + Y.frac)) - 2 * (2 ^ F + X.frac) else 2 * (2 ^ F + X.frac) -
      (if getBit 0 (subW E X.exp Y.exp) = true then 2 ^ F + Y.frac else 2 * (2 ^ F + Y.frac))) = D
    have hDl : D < 2 ^ (F + 2) := by
      have e2 : 2 ^ (F + 2) = 4 * 2 ^ F := by rw [pow_add]; ring
      have := X.frac_lt hF
      have := Y.frac_lt hF
      rw [← hD]
      split_ifs <;> omega
    by_cases h0 : D = 0
    · rw [h0]; exact ⟨_, lzoc_zero _ (intlog2_le_two_mul (by omega))⟩
    · obtain ⟨c, h, -⟩ := lzoc_norm (WD := F + 2) (by omega) hDl h0
      exact ⟨_, h⟩
  obtain ⟨⟨o1, o2⟩, ho⟩ := hn
  unfold core
  dsimp only
  rw [ho, hal]
  dsimp only
  exact ⟨_, _, _, _, rfl⟩

/-- The close path: operands of different sign whose exponents differ by at most one. -/
theorem core_close {E F : ℕ} (hE : 2 ≤ E) (hF : 1 ≤ F) {X Y : Fp E F} (hok : ShiftFits E F (X.exp - Y.exp))
    {vx vy : ℚ} (hX : X.datum = .num vx) (hY : Y.datum = .num vy) (hs : X.sign ≠ Y.sign) (h1 : Y.exp ≤ X.exp)
    (h2 : X.exp ≤ Y.exp + 1) :
    ∃ r, core X Y = some r ∧ (vx + vy = 0 → r.datum = .zero false) ∧
      (vx + vy ≠ 0 → (2 : ℚ) ^ (-bias E - 2 * 2 ^ E) ≤ |vx + vy| → Rounded E F (vx + vy) r.datum) ∧
      (vx + vy ≠ 0 → F + 2 < 2 ^ (E + 2) → |vx + vy| < (2 : ℚ) ^ (-bias E - 2 * 2 ^ E) →
        (∀ z, r.datum ≠ .zero z) ∧ (∀ v, r.datum = .num v → (2 : ℚ) ^ (1 - bias E) ≤ |v|) ∧
          Rounded E F ((vx + vy) * 2 ^ 2 ^ (E + 2)) r.datum) := by
  obtain ⟨hfx, rfl⟩ := datum_num_iff.mp hX
  obtain ⟨hfy, rfl⟩ := datum_num_iff.mp hY
  have hXf := X.frac_lt hF
  have hYf := Y.frac_lt hF
  have hXe := X.exp_lt (show 1 ≤ E by omega)
  have hXs := X.sign_lt
  have hd : subW E X.exp Y.exp = X.exp - Y.exp := subW_of_le h1 hXe
  obtain ⟨hsv, -⟩ := shiftVal_spec (d := X.exp - Y.exp) (by omega) hok (by omega)
  have hm : opadHi1 F Y.frac < 2 ^ (F + 1) := (sig_isSig hYf).2
  have hal := addAlign_spec (F := F) (pad := pad1 F) hm hsv
  have hlow : getBit 0 (X.exp - Y.exp) = decide (X.exp ≠ Y.exp) := by
    unfold getBit
    rcases Nat.lt_or_ge Y.exp X.exp with h | h
    · rw [show X.exp - Y.exp = 1 by omega]; simp; omega
    · rw [show X.exp - Y.exp = 0 by omega]; simp; omega
  have hclose : getBits (E - 1) 1 (X.exp - Y.exp) = 0 := by
    unfold getBits
    rw [show (X.exp - Y.exp) / 2 ^ 1 = 0 by norm_num; omega]; simp
  have hval := value_sum (E := E) (F := F) (mx := 2 ^ F + X.frac) (my := 2 ^ F + Y.frac) X.sign_lt Y.sign_lt h1
  generalize hv : ((if X.sign = 1 then (-1 : ℚ) else 1) * (((2 ^ F + X.frac : ℕ) : ℚ) * 2 ^ ((X.exp : ℤ) - bias E - F)) +
      (if Y.sign = 1 then (-1 : ℚ) else 1) * (((2 ^ F + Y.frac : ℕ) : ℚ) * 2 ^ ((Y.exp : ℤ) - bias E - F))) = q at *
  obtain ⟨M, hM⟩ : ∃ M, M = 2 * (2 ^ F + X.frac) := ⟨_, rfl⟩
  obtain ⟨W, hW⟩ : ∃ W, W = if decide (X.exp ≠ Y.exp) then 2 ^ F + Y.frac else 2 * (2 ^ F + Y.frac) := ⟨_, rfl⟩
  have hq : q = (if X.sign = 1 then -1 else 1) * (((M : ℚ) - W) * 2 ^ ((X.exp : ℤ) - bias E - F - 1)) := by
    have e1 : (2 : ℚ) ^ ((X.exp : ℤ) - bias E - F - 1) = 2 * 2 ^ ((X.exp : ℤ) - bias E - F - 2) := by
      rw [show (X.exp : ℤ) - bias E - F - 1 = ((X.exp : ℤ) - bias E - F - 2) + 1 by ring, two_zpow_succ]
    have e2 : sumQ (decide (X.sign = Y.sign)) (2 ^ F + X.frac) (4 * ((2 ^ F + Y.frac : ℕ) : ℚ) / 2 ^ (X.exp - Y.exp))
        = ((M : ℚ) - W) * 2 := by
      rw [decide_eq_false hs, sumQ, hM, hW]
      simp only [Bool.false_eq_true, if_false]
      rcases Nat.lt_or_ge Y.exp X.exp with h | h
      · rw [show X.exp - Y.exp = 1 by omega, if_pos (by simp; omega)]; push_cast; ring
      · rw [show X.exp - Y.exp = 0 by omega, if_neg (by simp; omega)]; push_cast; ring
    rw [hval, e2, e1]; ring
  have hcd := closeDiff_spec (b := decide (X.exp ≠ Y.exp)) hXf hYf hM hW
  have hes : (X.sign != Y.sign) = true := by simpa using hs
  have hMl : M < 2 ^ (F + 2) := by have : 2 ^ (F + 2) = 4 * 2 ^ F := by { rw [pow_add]; ring }
                                   omega
  have hWl : W < 2 ^ (F + 2) := by have : 2 ^ (F + 2) = 4 * 2 ^ F := by { rw [pow_add]; ring }
                                   rw [hW]; split <;> omega
  have hu := two_zpow_pos ((X.exp : ℤ) - bias E - F - 1)
  unfold core
  dsimp only
  rw [hd, hlow, hcd, hal]
  simp only [hclose, if_true, hes, Bool.true_and]
  by_cases hMW : M = W
  · -- exact cancellation
    have hq0 : q = 0 := by rw [hq, hMW]; simp
    have hD : (if M < W then W - M else M - W) = 0 := by rw [hMW]; simp
    rw [hD, lzoc_zero _ (intlog2_le_two_mul (by omega))]
    refine ⟨_, rfl, ?_, fun h => absurd hq0 h, fun h => absurd hq0 h⟩
    intro _
    simp only [decide_true, if_true, ones]
    exact pack_cancel _ _ (by omega) hF hfx hfy
  · have hD0 : (if M < W then W - M else M - W) ≠ 0 := by split <;> omega
    have hDl : (if M < W then W - M else M - W) < 2 ^ (F + 2) := by split <;> omega
    obtain ⟨c, hc1, hc2, hc3, hc4, hc5⟩ := lzoc_norm (WD := F + 2) (by omega) hDl hD0
    rw [hc1]
    have habs : |q| = ((if M < W then W - M else M - W : ℕ) : ℚ) * 2 ^ ((X.exp : ℤ) - bias E - F - 1) := by
      rw [hq]
      split_ifs with ha hb hb
      · rw [neg_one_mul, abs_neg, abs_mul, abs_of_pos hu, Nat.cast_sub hb.le, abs_of_neg (by
          have : (M : ℚ) < W := by exact_mod_cast hb
          linarith), neg_sub]
      · rw [neg_one_mul, abs_neg, abs_mul, abs_of_pos hu, Nat.cast_sub (by omega), abs_of_nonneg (by
          have : (W : ℚ) ≤ M := by exact_mod_cast (by omega)
          linarith)]
      · rw [one_mul, abs_mul, abs_of_pos hu, Nat.cast_sub hb.le, abs_of_neg (by
          have : (M : ℚ) < W := by exact_mod_cast hb
          linarith), neg_sub]
      · rw [one_mul, abs_mul, abs_of_pos hu, Nat.cast_sub (by omega), abs_of_nonneg (by
          have : (W : ℚ) ≤ M := by exact_mod_cast (by omega)
          linarith)]
    have hne : q ≠ 0 := by
      rw [← abs_pos, habs]
      refine mul_pos ?_ hu
      exact_mod_cast Nat.pos_of_ne_zero hD0
    have hsgn : q < 0 ↔ (X.sign + (decide (M < W)).toNat) % 2 = 1 := by
      rcases Nat.lt_or_gt_of_ne hMW with h | h
      · have hlt : (M : ℚ) < W := by exact_mod_cast h
        have hneg : ((M : ℚ) - W) * 2 ^ ((X.exp : ℤ) - bias E - F - 1) < 0 := mul_neg_of_neg_of_pos (by linarith) hu
        rw [hq, decide_eq_true h]
        generalize X.sign = a at *
        interval_cases a
        · simp [hneg]
        · simp [hneg.le]
      · have hlt : (W : ℚ) < M := by exact_mod_cast h
        have hpos : 0 < ((M : ℚ) - W) * 2 ^ ((X.exp : ℤ) - bias E - F - 1) := mul_pos (by linarith) hu
        rw [hq, decide_eq_false (by omega)]
        generalize X.sign = a at *
        interval_cases a
        · simp [hpos.le]
        · simp [hpos]
    generalize (if M < W then W - M else M - W) = D at *
    obtain ⟨S, hS⟩ : ∃ S, S = D * 2 ^ c := ⟨_, rfl⟩
    rw [← hS] at hc3 hc4 ⊢
    have e1 : 2 ^ (F + 2 - 1) = 2 * 2 ^ F := by rw [show F + 2 - 1 = F + 1 by omega, pow_succ]; ring
    have e2 : 2 ^ (F + 2) = 4 * 2 ^ F := by rw [pow_add]; ring
    have g0 := getBit_toNat 0 S
    norm_num at g0
    have hfr : getBits F 1 S = S / 2 - 2 ^ F := by
      unfold getBits
      rw [Nat.add_sub_cancel, pow_one, show S / 2 = (S / 2 - 2 ^ F) + 2 ^ F by omega, Nat.add_mod_right,
        Nat.mod_eq_of_lt (by omega)]
      omega
    have hb1 : getBit 1 S = decide ((S / 2 - 2 ^ F) % 2 = 1) := by
      unfold getBit
      have : 2 ^ F % 2 = 0 := by
        rw [show F = (F - 1) + 1 by omega, pow_succ]; omega
      rw [pow_one]
      congr 1
      rw [show (S / 2 - 2 ^ F) % 2 = S / 2 % 2 by omega]
    have hXe' : (X.exp : ℤ) < 2 ^ E := by exact_mod_cast hXe
    have e4 : 2 ^ (E + 2) = 4 * 2 ^ E := by rw [pow_add]; ring
    have h4 : (4 : ℤ) ≤ 2 ^ E := by
      have : 2 ^ 2 ≤ 2 ^ E := Nat.pow_le_pow_right (by norm_num) hE
      exact_mod_cast this
    have hqS : |q| = (S : ℚ) * 2 ^ ((X.exp : ℤ) - bias E - F - 1 - c) := by
      rw [habs, hS, zpow_sub₀ (by norm_num) ((X.exp : ℤ) - bias E - F - 1), zpow_natCast]
      push_cast
      field_simp
    have hq1 : (2 : ℚ) ^ ((X.exp : ℤ) - c - bias E) ≤ |q| := by
      rw [hqS, show (X.exp : ℤ) - c - bias E = ((F + 1 : ℕ) : ℤ) + ((X.exp : ℤ) - bias E - F - 1 - c) by push_cast; ring,
        zpow_add₀ (by norm_num), zpow_natCast]
      exact mul_le_mul_of_nonneg_right (by exact_mod_cast (show F + 2 - 1 = F + 1 by omega) ▸ hc3) (two_zpow_pos _).le
    have hq2 : |q| < (2 : ℚ) ^ ((X.exp : ℤ) - c - bias E + 1) := by
      rw [hqS, show (X.exp : ℤ) - c - bias E + 1 = ((F + 2 : ℕ) : ℤ) + ((X.exp : ℤ) - bias E - F - 1 - c) by push_cast; ring,
        zpow_add₀ (by norm_num), zpow_natCast]
      exact mul_lt_mul_of_pos_right (by exact_mod_cast hc4) (two_zpow_pos _)
    refine ⟨_, rfl, fun h => absurd h hne, fun _ hbig => ?_, fun _ hcomp hsmall => ?_⟩
    · rw [decide_eq_false hD0, decide_eq_false hc5]
      simp only [Bool.false_eq_true, if_false]
      have hbe : -(2 * 2 ^ E) ≤ (X.exp : ℤ) - c := by
        have := (zpow_lt_zpow_iff_right₀ (by norm_num : (1 : ℚ) < 2)).mp (lt_of_le_of_lt hbig hq2)
        omega
      unfold closeRound
      dsimp only
      rw [hfr, hb1, pack_normal (be := (X.exp : ℤ) - c) _ (by omega) hF hfx hfy (cast_subW (by
        have : (c : ℤ) ≤ 4 * 2 ^ E := by omega
        rw [e4]; exact_mod_cast this)) (by omega)
        (Nat.mod_lt _ (by norm_num)) hbe (by omega)]
      rw [show decide ((X.sign + (decide (M < W)).toNat) % 2 = 1) = decide (q < 0) by simp [hsgn]]
      have := rounded_of_int (E := E) (N := S) (f := S / 2 - 2 ^ F) (low := 0) (k := 0) (r := getBit 0 S) (q := q)
        (be := (X.exp : ℤ) - c) (g := (X.exp : ℤ) - bias E - F - 1 - c) hF (by omega) hqS (by rw [g0]; omega) (by norm_num)
        (by push_cast; ring)
      simpa using this
    · rw [decide_eq_false hD0, decide_eq_false hc5]
      simp only [Bool.false_eq_true, if_false]
      have hbe : (X.exp : ℤ) - c < -(2 * 2 ^ E) := by
        have := (zpow_lt_zpow_iff_right₀ (by norm_num : (1 : ℚ) < 2)).mp (lt_of_le_of_lt hq1 hsmall)
        omega
      have hcE : c < 2 ^ (E + 2) := by omega
      have hbn : X.exp + 2 * 2 ^ E < c := by
        have : (X.exp : ℤ) + 2 * 2 ^ E < c := by omega
        exact_mod_cast this
      have hev : getBit 0 S = false := by
        have : S % 2 = 0 := by
          rw [hS, show c = (c - 1) + 1 by omega, pow_succ, ← mul_assoc]; omega
        unfold getBit
        simp [this]
      have hsub : subW (E + 2) X.exp c = X.exp + 2 ^ (E + 2) - c := by
        unfold subW
        rw [show X.exp + (2 ^ (E + 2) - c) = X.exp + 2 ^ (E + 2) - c by omega]
        exact Nat.mod_eq_of_lt (by omega)
      unfold closeRound
      dsimp only
      rw [hfr, hev, hsub]
      obtain ⟨w1, w2, w3⟩ := pack_wrapped (ep := X.exp + 2 ^ (E + 2) - c) (f := S / 2 - 2 ^ F)
        (rs := (X.sign + (decide (M < W)).toNat) % 2) (X := X) (Y := Y)
        (by omega) hF hfx hfy (by omega) (by omega) (by omega) (Nat.mod_lt _ (by norm_num))
      refine ⟨w1, w2, 2 ^ F + (S / 2 - 2 ^ F), ((X.exp + 2 ^ (E + 2) - c : ℕ) : ℤ) - bias E - F, ?_, ?_⟩
      · have hS2 : S % 2 = 0 := by
          rw [hS, show c = (c - 1) + 1 by omega, pow_succ, ← mul_assoc]; omega
        have hval : |q * 2 ^ 2 ^ (E + 2)| = ((2 ^ F + (S / 2 - 2 ^ F) : ℕ) : ℚ) * 2 ^ (((X.exp + 2 ^ (E + 2) - c : ℕ) : ℤ) - bias E - F) := by
          have hS3 : (S : ℚ) = ((2 ^ F + (S / 2 - 2 ^ F) : ℕ) : ℚ) * 2 := by
            have : S = (2 ^ F + (S / 2 - 2 ^ F)) * 2 := by omega
            exact_mod_cast this
          have hex : (((X.exp + 2 ^ (E + 2) - c : ℕ) : ℤ)) = (X.exp : ℤ) + ((2 ^ (E + 2) : ℕ) : ℤ) - c := by
            rw [Nat.cast_sub (by omega)]; push_cast; ring
          rw [abs_mul, abs_of_pos (show (0 : ℚ) < 2 ^ 2 ^ (E + 2) by positivity), hqS, hS3, hex,
            show (X.exp : ℤ) + ((2 ^ (E + 2) : ℕ) : ℤ) - c - bias E - F
              = 1 + ((2 ^ (E + 2) : ℕ) : ℤ) + ((X.exp : ℤ) - bias E - F - 1 - c) by ring,
            zpow_add₀ (by norm_num), zpow_add₀ (by norm_num), zpow_natCast, zpow_one]
          ring
        rw [hval]
        have hm : IsSig (F + 1) (2 ^ F + (S / 2 - 2 ^ F)) := ⟨by simp, by rw [pow_succ]; omega⟩
        exact nearest_down (by omega) hm le_rfl (by simp; positivity) (by
          intro hh; exfalso; have := two_zpow_pos (((X.exp + 2 ^ (E + 2) - c : ℕ) : ℤ) - bias E - F); linarith)
      · refine w3.trans ?_
        congr 1
        rw [show decide ((X.sign + (decide (M < W)).toNat) % 2 = 1) = decide (q < 0) by simp [hsgn]]
        simp only [mul_neg_iff, show ¬ ((2 : ℚ) ^ 2 ^ (E + 2) < 0) from not_lt.2 (by positivity),
          show (0 : ℚ) < 2 ^ 2 ^ (E + 2) by positivity, and_true, and_false, false_or]

/-- The far path: operands of equal sign, or whose exponents differ by at least two. -/
theorem core_far {E F : ℕ} (hE : 2 ≤ E) (hF : 1 ≤ F) {X Y : Fp E F} (hok : ShiftFits E F (X.exp - Y.exp))
    (hfx : X.flags = 1) (hfy : Y.flags = 1) (h1 : Y.exp ≤ X.exp) (h2 : X.sign = Y.sign ∨ Y.exp + 2 ≤ X.exp) {y : ℕ} {st : Bool}
    (ha : addAlign? F (pad1 F) (opadHi1 F Y.frac) (shiftVal E F (X.exp - Y.exp)) = some (y, st))
    (hy : y < 2 ^ (F + 3)) (hst : st = true → y < 2 ^ F) (hyd : X.sign ≠ Y.sign → y < 2 ^ (F + 1)) :
    ∃ r, core X Y = some r ∧ ∀ y' : ℚ, Aligned y' y st → ∀ q : ℚ,
      q = (if X.sign = 1 then -1 else 1) *
        (sumQ (decide (X.sign = Y.sign)) (2 ^ F + X.frac) y' * 2 ^ ((X.exp : ℤ) - bias E - F - 2)) →
      q ≠ 0 ∧ Rounded E F q r.datum := by
  have hXf := X.frac_lt hF
  have hXe := X.exp_lt (show 1 ≤ E by omega)
  have hXs := X.sign_lt
  have hd : subW E X.exp Y.exp = X.exp - Y.exp := subW_of_le h1 hXe
  obtain ⟨rs, pre, up, z, hr⟩ := core_some hE hF X Y (by rw [hd]; exact hok)
  have hcl : (if getBits (E - 1) 1 (X.exp - Y.exp) = 0 then X.sign != Y.sign else false) = false := by
    rcases h2 with h | h
    · simp [h]
    · rw [if_neg]
      rw [getBits_top (by rw [show E - 1 + 1 = E by omega]; omega) (by omega), pow_one]
      omega
  have e1 : 2 ^ (F + 1) = 2 * 2 ^ F := by rw [pow_add]; ring
  have hle : decide (X.sign = Y.sign) = false → y + st.toNat ≤ 4 * (2 ^ F + X.frac) := by
    intro h
    have := hyd (of_decide_eq_false h)
    cases st
    · simp; omega
    · simp only [Bool.toNat_true]; omega
  have hfar := addFar_eq (F := F) hXf hy hle
  have hA1 : 2 ^ (F + 1) ≤ sumNat (decide (X.sign = Y.sign)) (2 ^ F + X.frac) y st := by
    unfold sumNat
    split
    · omega
    · rename_i hh
      have := hyd (by simpa using hh)
      cases st
      · simp; omega
      · have := hst rfl
        simp only [Bool.toNat_true]; omega
  have hA2 := sumNat_lt (F := F) (eq := decide (X.sign = Y.sign)) (st := st) hXf hy
  have hes : (X.sign != Y.sign) = !decide (X.sign = Y.sign) := by
    by_cases h : X.sign = Y.sign <;> simp [h]
  unfold core at hr ⊢
  dsimp only at hr ⊢
  rw [hd, ha, hcl] at hr ⊢
  simp only [Bool.false_and, Bool.false_eq_true, if_false, Bool.toNat_false, Nat.add_zero] at hr ⊢
  cases hlz : lzoc? (F + 2) (intlog2 (F + 2)) (closeDiff F X.frac Y.frac (getBit 0 (X.exp - Y.exp))).2 with
  | none => rw [hlz] at hr; cases hr
  | some o =>
    obtain ⟨o1, o2⟩ := o
    dsimp only
    refine ⟨_, rfl, ?_⟩
    intro y' hal q hq
    obtain ⟨w1, w2, w3⟩ := sum_window hal hle
    have hu := two_zpow_pos ((X.exp : ℤ) - bias E - F - 2)
    have hApos : (0 : ℚ) < (sumNat (decide (X.sign = Y.sign)) (2 ^ F + X.frac) y st : ℚ) := by
      have : 0 < sumNat (decide (X.sign = Y.sign)) (2 ^ F + X.frac) y st := by
        have : 0 < 2 ^ (F + 1) := by positivity
        omega
      exact_mod_cast this
    have hpos : 0 < sumQ (decide (X.sign = Y.sign)) (2 ^ F + X.frac) y' * 2 ^ ((X.exp : ℤ) - bias E - F - 2) :=
      mul_pos (by linarith) hu
    have habs : |q| = sumQ (decide (X.sign = Y.sign)) (2 ^ F + X.frac) y' * 2 ^ ((X.exp : ℤ) - bias E - F - 2) := by
      rw [hq]; exact abs_signed hpos
    refine ⟨by rw [← abs_pos, habs]; exact hpos, ?_⟩
    rw [hes, hfar, Nat.mod_eq_of_lt hXs]
    refine far_datum hE hF hfx hfy hA1 hA2 hXs ?_ ?_ ?_ ?_
    · rw [habs]; exact mul_le_mul_of_nonneg_right w1 hu.le
    · rw [habs]; exact mul_lt_mul_of_pos_right w2 hu
    · rw [habs, w3]; exact (mul_left_inj' hu.ne').symm
    · rw [hq]; exact signed_neg hpos

/-- The sum of two normal numbers with ordered exponents, far path. -/
theorem ordered_far {E F : ℕ} (hE : 2 ≤ E) (hF : 1 ≤ F) {X Y : Fp E F} (hok : ShiftFits E F (X.exp - Y.exp))
    {vx vy : ℚ} (hX : X.datum = .num vx) (hY : Y.datum = .num vy) (h1 : Y.exp ≤ X.exp) (h2 : X.sign = Y.sign ∨ Y.exp + 2 ≤ X.exp) :
    ∃ r, core X Y = some r ∧ (vx + vy = 0 → r.datum = .zero false) ∧ (vx + vy ≠ 0 → Rounded E F (vx + vy) r.datum) := by
  obtain ⟨hfx, rfl⟩ := datum_num_iff.mp hX
  obtain ⟨hfy, rfl⟩ := datum_num_iff.mp hY
  have hXf := X.frac_lt hF
  have hYf := Y.frac_lt hF
  have hXe := X.exp_lt (show 1 ≤ E by omega)
  obtain ⟨hsl, hc⟩ := shiftVal_spec (d := X.exp - Y.exp) (by omega) hok (by omega)
  generalize hs : shiftVal E F (X.exp - Y.exp) = s at hsl hc
  have hm : 2 ^ F + Y.frac < 2 ^ (F + 1) := (sig_isSig hYf).2
  have hal := addAlign_spec (F := F) (pad := pad1 F) hm hsl
  have hyl := align_lt (s := s) hm
  have hstk := sticky_shift (s := s) hm
  have e1 : 2 ^ (F + 1) = 2 * 2 ^ F := by rw [pow_succ]; ring
  have hyd : X.sign ≠ Y.sign → 4 * (2 ^ F + Y.frac) / 2 ^ s < 2 ^ (F + 1) := by
    intro h
    have hs2 : 2 ≤ s := by
      rcases h2 with h' | h'
      · exact absurd h' h
      · rcases hc with hc | hc <;> omega
    rw [Nat.div_lt_iff_lt_mul (by positivity)]
    have : 2 ^ 2 ≤ 2 ^ s := Nat.pow_le_pow_right (by norm_num) hs2
    nlinarith
  obtain ⟨r, hr, H⟩ := core_far hE hF hok hfx hfy h1 h2 (by rw [hs]; exact hal) hyl hstk hyd
  refine ⟨r, hr, ?_⟩
  have hval := value_sum (E := E) (F := F) (mx := 2 ^ F + X.frac) (my := 2 ^ F + Y.frac) X.sign_lt Y.sign_lt h1
  generalize hv : ((if X.sign = 1 then (-1 : ℚ) else 1) * (((2 ^ F + X.frac : ℕ) : ℚ) * 2 ^ ((X.exp : ℤ) - bias E - F)) +
      (if Y.sign = 1 then (-1 : ℚ) else 1) * (((2 ^ F + Y.frac : ℕ) : ℚ) * 2 ^ ((Y.exp : ℤ) - bias E - F))) = q at *
  have hrest : (s = X.exp - Y.exp ∧ s ≤ F + 3) ∨ (F + 4 ≤ X.exp - Y.exp ∧ F + 3 ≤ s) := by omega
  rcases hrest with ⟨hse, hs3⟩ | ⟨hdd, hs3⟩
  · have hal' := aligned_of_le (m := 2 ^ F + Y.frac) hs3
    obtain ⟨z1, z2⟩ := H _ hal' q (by rw [hval, hse])
    exact ⟨fun h => absurd h z1, fun _ => z2⟩
  · have hy0 : 4 * (2 ^ F + Y.frac) / 2 ^ s = 0 := align_big hm hs3
    rw [hy0] at H
    generalize decide ((2 ^ F + Y.frac) * 2 ^ (F + 3) / 2 ^ s % 2 ^ (F + 1) ≠ 0) = st at *
    obtain ⟨y'', hal'', hy0'', hy1''⟩ : ∃ y'' : ℚ, Aligned y'' 0 st ∧ 0 ≤ y'' ∧ y'' ≤ 1 := by
      cases st with
      | false => exact ⟨0, ⟨by norm_num, by norm_num, by simp⟩, le_rfl, by norm_num⟩
      | true => exact ⟨1 / 2, ⟨by norm_num, by norm_num, by norm_num⟩, by norm_num, by norm_num⟩
    have hsig := sig_isSig hXf
    obtain ⟨-, z2⟩ := H _ hal'' _ rfl
    have ha'' := rounded_absorb (E := E) (ex := X.exp) (sx := X.sign) (eq := decide (X.sign = Y.sign)) hF hsig hy0''
      (by linarith) (fun _ _ => hy1'') rfl
    have hr' : r.datum = rangeCheck E F (decide (X.sign = 1)) (2 ^ F + X.frac) ((X.exp : ℤ) - bias E - F) :=
      rounded_unique z2 ha''
    have hmx : (1 : ℚ) ≤ ((2 ^ F + X.frac : ℕ) : ℚ) := by
      have : 1 ≤ 2 ^ F + X.frac := by have : 0 < 2 ^ F := by positivity
                                      omega
      exact_mod_cast this
    have hmq : ((2 ^ F + Y.frac : ℕ) : ℚ) < 2 ^ (F + 1) := by exact_mod_cast hm
    have hp3 : (2 : ℚ) ^ (F + 3) ≤ 2 ^ (X.exp - Y.exp) := pow_le_pow_right₀ (by norm_num) (by omega)
    have hpd0 : (0 : ℚ) < 2 ^ (X.exp - Y.exp) := by positivity
    have e4 : (2 : ℚ) ^ (F + 3) = 4 * 2 ^ (F + 1) := by rw [show F + 3 = (F + 1) + 2 by ring, pow_add]; ring
    have hy1 : 4 * ((2 ^ F + Y.frac : ℕ) : ℚ) / 2 ^ (X.exp - Y.exp) ≤ 1 := by
      rw [div_le_one hpd0]; linarith
    have hy0' : 0 ≤ 4 * ((2 ^ F + Y.frac : ℕ) : ℚ) / 2 ^ (X.exp - Y.exp) := by positivity
    refine ⟨?_, ?_⟩
    · intro h0
      exfalso
      have : 0 < sumQ (decide (X.sign = Y.sign)) (2 ^ F + X.frac) (4 * ((2 ^ F + Y.frac : ℕ) : ℚ) / 2 ^ (X.exp - Y.exp)) := by
        unfold sumQ; split <;> linarith
      have := mul_pos this (two_zpow_pos ((X.exp : ℤ) - bias E - F - 2))
      rw [hval] at h0
      revert h0
      split
      · rw [neg_one_mul]; intro h0; linarith
      · rw [one_mul]; intro h0; linarith
    · intro _
      rw [hr']
      exact rounded_absorb hF hsig hy0' (by linarith) (fun _ _ => hy1) hval

theorem num_bounds {E F : ℕ} (hF : 1 ≤ F) {X : Fp E F} {v : ℚ} (hX : X.datum = .num v) :
    (2 : ℚ) ^ ((X.exp : ℤ) - bias E) ≤ |v| ∧ |v| < (2 : ℚ) ^ ((X.exp : ℤ) - bias E + 1) ∧ (0 < v ↔ X.sign = 0) := by
  obtain ⟨-, rfl⟩ := datum_num_iff.mp hX
  have hf := X.frac_lt hF
  have hs := X.sign_lt
  have hp : (0 : ℚ) < ((2 ^ F + X.frac : ℕ) : ℚ) * 2 ^ ((X.exp : ℤ) - bias E - F) :=
    mul_pos (by exact_mod_cast (by positivity)) (two_zpow_pos _)
  have habs : |(if X.sign = 1 then (-1 : ℚ) else 1) * (((2 ^ F + X.frac : ℕ) : ℚ) * 2 ^ ((X.exp : ℤ) - bias E - F))| =
      ((2 ^ F + X.frac : ℕ) : ℚ) * 2 ^ ((X.exp : ℤ) - bias E - F) := by
    split
    · rw [neg_one_mul, abs_neg, abs_of_pos hp]
    · rw [one_mul, abs_of_pos hp]
  rw [habs]
  refine ⟨?_, ?_, ?_⟩
  · rw [show (X.exp : ℤ) - bias E = (F : ℤ) + ((X.exp : ℤ) - bias E - F) by ring, zpow_add₀ (by norm_num), zpow_natCast,
      show (F : ℤ) + ((X.exp : ℤ) - bias E - F) - F = (X.exp : ℤ) - bias E - F by ring]
    exact mul_le_mul_of_nonneg_right (by exact_mod_cast (by omega)) (two_zpow_pos _).le
  · rw [show (X.exp : ℤ) - bias E + 1 = ((F + 1 : ℕ) : ℤ) + ((X.exp : ℤ) - bias E - F) by push_cast; ring, zpow_add₀ (by norm_num), zpow_natCast]
    refine mul_lt_mul_of_pos_right ?_ (two_zpow_pos _)
    have : 2 ^ F + X.frac < 2 ^ (F + 1) := by rw [pow_succ]; omega
    exact_mod_cast this
  · split
    · rename_i h; rw [h, neg_one_mul]; constructor
      · intro h'; linarith
      · intro h'; omega
    · rename_i h; rw [one_mul]; exact ⟨fun _ => by omega, fun _ => hp⟩

/-- In the far path the sum is not small. -/
theorem far_large {E F : ℕ} (hF : 1 ≤ F) {X Y : Fp E F} {vx vy : ℚ} (hX : X.datum = .num vx) (hY : Y.datum = .num vy)
    (h2 : X.sign = Y.sign ∨ Y.exp + 2 ≤ X.exp) : (2 : ℚ) ^ (-bias E - 2 * 2 ^ E) ≤ |vx + vy| := by
  obtain ⟨x1, x2, x3⟩ := num_bounds hF hX
  obtain ⟨y1, y2, y3⟩ := num_bounds hF hY
  have h2E : (0 : ℤ) < 2 ^ E := by positivity
  rcases h2 with h | h
  · have hge : |vx| ≤ |vx + vy| := by
      have hxs := X.sign_lt
      by_cases hs : X.sign = 0
      · have a := x3.mpr hs
        have b := y3.mpr (by omega)
        rw [abs_of_pos a, abs_of_pos (by linarith)]; linarith
      · have a : vx ≤ 0 := not_lt.1 fun hh => hs (x3.mp hh)
        have b : vy ≤ 0 := not_lt.1 fun hh => hs (h ▸ y3.mp hh)
        rw [abs_of_nonpos a, abs_of_nonpos (by linarith)]; linarith
    refine le_trans ?_ (le_trans x1 hge)
    exact zpow_le_zpow_right₀ (by norm_num) (by omega)
  · have h3 : |vx| - |vy| ≤ |vx + vy| := by
      have := abs_sub_abs_le_abs_sub vx (-vy)
      rwa [abs_neg, sub_neg_eq_add] at this
    have h4 : (2 : ℚ) ^ ((Y.exp : ℤ) - bias E + 1) ≤ 2 ^ ((X.exp : ℤ) - bias E - 1) := zpow_le_zpow_right₀ (by norm_num) (by omega)
    have h5 : (2 : ℚ) ^ ((X.exp : ℤ) - bias E) = 2 * 2 ^ ((X.exp : ℤ) - bias E - 1) := by
      rw [show (X.exp : ℤ) - bias E = ((X.exp : ℤ) - bias E - 1) + 1 by ring, two_zpow_succ,
        show (X.exp : ℤ) - bias E - 1 + 1 - 1 = (X.exp : ℤ) - bias E - 1 by ring]
    have h6 : (2 : ℚ) ^ (-bias E - 2 * 2 ^ E) ≤ 2 ^ ((X.exp : ℤ) - bias E - 1) := zpow_le_zpow_right₀ (by norm_num) (by omega)
    linarith

/-- The sum of two normal numbers with ordered exponents: right unless it is too small for the exponent to be computed. -/
theorem ordered_sharp {E F : ℕ} (hE : 2 ≤ E) (hF : 1 ≤ F) {X Y : Fp E F} (hok : ShiftFits E F (X.exp - Y.exp))
    {vx vy : ℚ} (hX : X.datum = .num vx) (hY : Y.datum = .num vy) (h1 : Y.exp ≤ X.exp) :
    ∃ r, core X Y = some r ∧ (vx + vy = 0 → r.datum = .zero false) ∧
      (vx + vy ≠ 0 → (2 : ℚ) ^ (-bias E - 2 * 2 ^ E) ≤ |vx + vy| → Rounded E F (vx + vy) r.datum) ∧
      (vx + vy ≠ 0 → F + 2 < 2 ^ (E + 2) → |vx + vy| < (2 : ℚ) ^ (-bias E - 2 * 2 ^ E) →
        (∀ z, r.datum ≠ .zero z) ∧ (∀ v, r.datum = .num v → (2 : ℚ) ^ (1 - bias E) ≤ |v|) ∧
          Rounded E F ((vx + vy) * 2 ^ 2 ^ (E + 2)) r.datum) := by
  by_cases hcl : X.sign ≠ Y.sign ∧ X.exp ≤ Y.exp + 1
  · exact core_close hE hF hok hX hY hcl.1 h1 hcl.2
  have h2 : X.sign = Y.sign ∨ Y.exp + 2 ≤ X.exp := by
    by_cases h : X.sign = Y.sign
    · exact Or.inl h
    · right; by_contra hc; exact hcl ⟨h, by omega⟩
  obtain ⟨r, hr, a, b⟩ := ordered_far hE hF hok hX hY h1 h2
  exact ⟨r, hr, a, fun h _ => b h, fun _ _ h => absurd (far_large hF hX hY h2) (not_le.2 h)⟩

/-- The least difference of two numbers. -/
theorem sum_ge {E F : ℕ} {X Y : Fp E F} {vx vy : ℚ} (hX : X.datum = .num vx) (hY : Y.datum = .num vy) (hne : vx + vy ≠ 0) :
    (2 : ℚ) ^ (-bias E - F) ≤ |vx + vy| := by
  obtain ⟨-, rfl⟩ := datum_num_iff.mp hX
  obtain ⟨-, rfl⟩ := datum_num_iff.mp hY
  have key : ∀ e : ℕ, (2 : ℚ) ^ ((e : ℤ) - bias E - F) = ((2 ^ e : ℕ) : ℚ) * 2 ^ (-bias E - F) := by
    intro e
    rw [show (e : ℤ) - bias E - F = (e : ℤ) + (-bias E - F) by ring, zpow_add₀ (by norm_num), zpow_natCast]; push_cast; ring
  obtain ⟨k, hk⟩ : ∃ k : ℤ, (if X.sign = 1 then (-1 : ℚ) else 1) * (((2 ^ F + X.frac : ℕ) : ℚ) * 2 ^ ((X.exp : ℤ) - bias E - F)) +
      (if Y.sign = 1 then (-1 : ℚ) else 1) * (((2 ^ F + Y.frac : ℕ) : ℚ) * 2 ^ ((Y.exp : ℤ) - bias E - F)) = (k : ℚ) * 2 ^ (-bias E - F) := by
    rw [key, key]
    refine ⟨(if X.sign = 1 then (-1 : ℤ) else 1) * (((2 ^ F + X.frac) * 2 ^ X.exp : ℕ) : ℤ) +
      (if Y.sign = 1 then (-1 : ℤ) else 1) * (((2 ^ F + Y.frac) * 2 ^ Y.exp : ℕ) : ℤ), ?_⟩
    split_ifs <;> push_cast <;> ring
  rw [hk] at hne ⊢
  have hk0 : k ≠ 0 := by rintro rfl; simp at hne
  rw [abs_mul, abs_of_pos (two_zpow_pos _)]
  have h1 : (1 : ℚ) ≤ |(k : ℚ)| := by
    rw [← Int.cast_abs]
    exact_mod_cast Int.one_le_abs hk0
  nlinarith [two_zpow_pos (-bias E - F)]

/-- The sum of two normal numbers with ordered exponents. -/
theorem ordered_num {E F : ℕ} (hE : 2 ≤ E) (hF : 1 ≤ F) (hok : ShiftOk E F) (hfmt : F ≤ 2 * 2 ^ E) {X Y : Fp E F}
    {vx vy : ℚ} (hX : X.datum = .num vx) (hY : Y.datum = .num vy) (h1 : Y.exp ≤ X.exp) :
    ∃ r, core X Y = some r ∧ (vx + vy = 0 → r.datum = .zero false) ∧ (vx + vy ≠ 0 → Rounded E F (vx + vy) r.datum) := by
  have hXe := X.exp_lt (show 1 ≤ E by omega)
  obtain ⟨r, hr, a, b, -⟩ := ordered_sharp hE hF (shiftOk_fits (by omega) hok (by omega)) hX hY h1
  refine ⟨r, hr, a, fun h => b h (le_trans ?_ (sum_ge hX hY h))⟩
  have : (F : ℤ) ≤ 2 * 2 ^ E := by exact_mod_cast hfmt
  exact zpow_le_zpow_right₀ (by norm_num) (by omega)

theorem core_special {E F : ℕ} (hE : 2 ≤ E) (hF : 1 ≤ F) {X Y : Fp E F} (hok : ShiftFits E F (subW E X.exp Y.exp))
    (hle : Y.flags ≤ X.flags) {d : Datum} (hd : addSpecial X.datum Y.datum = some d) :
    ∃ r, core X Y = some r ∧ r.datum = d := by
  have hsx := X.sign_lt
  have hsy := Y.sign_lt
  have hn : ¬ (X.flags = 1 ∧ Y.flags = 1) := by
    rintro ⟨h1, h2⟩
    rw [datum_normal X h1, datum_normal Y h2] at hd
    simp [addSpecial] at hd
  obtain ⟨rs, pre, up, z, hr⟩ := core_some hE hF X Y hok
  have hp := pack_other (rs := rs) (pre := pre) (up := up) (z := z) (by omega) hF hle hn
  refine ⟨_, hr, ?_⟩
  rw [hp]
  rcases flags_cases X with h | h | h | h
  · have hY : Y.flags = 0 := by omega
    rw [datum_flags0 _ h, datum_flags0 _ hY] at hd
    rw [← Option.some.inj hd, h, if_neg (by omega)]
    show Datum.zero _ = _
    congr 1
    generalize X.sign = a at *
    generalize Y.sign = b at *
    interval_cases a <;> interval_cases b <;> rfl
  · have hY : Y.flags = 0 := by omega
    rw [datum_normal _ h, datum_flags0 _ hY] at hd
    rw [← Option.some.inj hd, ← datum_normal _ h, if_neg (by omega), if_neg (by omega)]
    rfl
  · rcases flags_cases Y with h' | h' | h' | h'
    · rw [datum_flags2 _ h, datum_flags0 _ h'] at hd
      rw [← Option.some.inj hd, if_neg (by omega), if_neg (by omega), h]; rfl
    · rw [datum_flags2 _ h, datum_normal _ h'] at hd
      rw [← Option.some.inj hd, if_neg (by omega), if_neg (by omega), h]; rfl
    · rw [datum_flags2 _ h, datum_flags2 _ h'] at hd
      rw [← Option.some.inj hd, if_neg (c := X.flags = 0 ∧ Y.sign = 0) (by omega), h, h']
      generalize X.sign = a at *
      generalize Y.sign = b at *
      interval_cases a <;> interval_cases b <;> rfl
    · omega
  · rw [datum_flags3 _ h] at hd
    rw [← Option.some.inj hd, if_neg (by omega), h]; rfl

theorem swap_spec {E F : ℕ} (hE : 1 ≤ E) (x y : Fp E F) :
    getBit E (subW (E + 1) x.exp y.exp) = decide (x.exp < y.exp) := by
  have hx := x.exp_lt hE
  have hy := y.exp_lt hE
  have e1 : 2 ^ (E + 1) = 2 * 2 ^ E := by rw [pow_succ]; ring
  unfold getBit subW
  by_cases h : x.exp < y.exp
  · rw [Nat.mod_eq_of_lt (show x.exp + (2 ^ (E + 1) - y.exp) < 2 ^ (E + 1) by omega)]
    have : (x.exp + (2 ^ (E + 1) - y.exp)) / 2 ^ E = 1 := by
      rw [Nat.div_eq_iff (by positivity)]; omega
    rw [this]; simp [h]
  · rw [show x.exp + (2 ^ (E + 1) - y.exp) = (x.exp - y.exp) + 2 ^ (E + 1) by omega, Nat.add_mod_right,
      Nat.mod_eq_of_lt (show x.exp - y.exp < 2 ^ (E + 1) by omega), Nat.div_eq_of_lt (by omega)]
    simp [h]

/-- The dual-path adder hands over operands ordered by flags and exponent. -/
theorem addSame_ordered {E F : ℕ} (hE : 1 ≤ E) (x y : Fp E F) :
    (addSame x y = core x y ∧ y.flags ≤ x.flags ∧ (y.flags = x.flags → y.exp ≤ x.exp)) ∨
    (addSame x y = core y x ∧ x.flags ≤ y.flags ∧ (x.flags = y.flags → x.exp ≤ y.exp)) := by
  unfold addSame
  dsimp only
  rw [swap_spec hE]
  by_cases h : (decide (x.flags = y.flags) && decide (x.exp < y.exp) || !decide (x.flags ≥ y.flags)) = true
  · right
    rw [if_pos h, if_pos h]
    simp at h
    exact ⟨rfl, by omega, by omega⟩
  · left
    rw [if_neg h, if_neg h]
    simp at h
    exact ⟨rfl, by omega, by omega⟩

theorem addSame_num {E F : ℕ} (hE : 2 ≤ E) (hF : 1 ≤ F) (hok : ShiftOk E F) (hfmt : F ≤ 2 * 2 ^ E) {x y : Fp E F}
    {vx vy : ℚ} (hx : x.datum = .num vx) (hy : y.datum = .num vy) :
    ∃ r, addSame x y = some r ∧ (vx + vy = 0 → r.datum = .zero false) ∧ (vx + vy ≠ 0 → Rounded E F (vx + vy) r.datum) := by
  have h1 := (datum_num_iff.mp hx).1
  have h2 := (datum_num_iff.mp hy).1
  rcases addSame_ordered (by omega) x y with ⟨h, -, ho⟩ | ⟨h, -, ho⟩
  · rw [h]; exact ordered_num hE hF hok hfmt hx hy (ho (by omega))
  · rw [h, add_comm vx vy]; exact ordered_num hE hF hok hfmt hy hx (ho (by omega))

theorem addSame_special {E F : ℕ} (hE : 2 ≤ E) (hF : 1 ≤ F) (hok : ShiftOk E F) {x y : Fp E F} {d : Datum}
    (hd : addSpecial x.datum y.datum = some d) : ∃ r, addSame x y = some r ∧ r.datum = d := by
  rcases addSame_ordered (by omega) x y with ⟨h, ho, -⟩ | ⟨h, ho, -⟩
  · rw [h]; exact core_special hE hF (shiftOk_fits (by omega) hok (subW_lt _ _ _)) ho hd
  · rw [h]; exact core_special hE hF (shiftOk_fits (by omega) hok (subW_lt _ _ _)) ho (by rwa [addSpecial_comm])

/-- The assertion of the sum of two numbers, exactly. -/
theorem addSame_none {E F : ℕ} (hE : 2 ≤ E) (hF : 1 ≤ F) {x y : Fp E F} (hf : x.flags = y.flags) :
    addSame x y = none ↔ ¬ ShiftOk E F ∧ ((x.exp - y.exp) + (y.exp - x.exp) = 2 * F + 4 ∨ (x.exp - y.exp) + (y.exp - x.exp) = 2 * F + 5) := by
  have key : ∀ X Y : Fp E F, Y.exp ≤ X.exp → (core X Y = none ↔ ¬ ShiftOk E F ∧ (X.exp - Y.exp = 2 * F + 4 ∨ X.exp - Y.exp = 2 * F + 5)) := by
    intro X Y h
    have hXe := X.exp_lt (show 1 ≤ E by omega)
    have hd : subW E X.exp Y.exp = X.exp - Y.exp := subW_of_le h hXe
    rw [← not_shiftFits (E := E) (by omega) (by omega)]
    constructor
    · intro hn hfit
      obtain ⟨_, _, _, _, hs⟩ := core_some hE hF X Y (by rw [hd]; exact hfit)
      rw [hn] at hs
      cases hs
    · intro hn
      exact core_none X Y (by rw [hd]; exact hn)
  rcases addSame_ordered (by omega) x y with ⟨h, -, ho⟩ | ⟨h, -, ho⟩
  · have := ho hf.symm
    rw [h, key _ _ this, show x.exp - y.exp + (y.exp - x.exp) = x.exp - y.exp by omega]
  · have := ho hf
    rw [h, key _ _ this, show x.exp - y.exp + (y.exp - x.exp) = y.exp - x.exp by omega]

/-- The sum of two numbers whenever it is returned, exactly. -/
theorem addSame_sharp {E F : ℕ} (hE : 2 ≤ E) (hF : 1 ≤ F) {x y r : Fp E F} {vx vy : ℚ} (hx : x.datum = .num vx) (hy : y.datum = .num vy)
    (hr : addSame x y = some r) : (vx + vy = 0 → r.datum = .zero false) ∧
      (vx + vy ≠ 0 → (2 : ℚ) ^ (-bias E - 2 * 2 ^ E) ≤ |vx + vy| → Rounded E F (vx + vy) r.datum) ∧
      (vx + vy ≠ 0 → F + 2 < 2 ^ (E + 2) → |vx + vy| < (2 : ℚ) ^ (-bias E - 2 * 2 ^ E) →
        (∀ z, r.datum ≠ .zero z) ∧ (∀ v, r.datum = .num v → (2 : ℚ) ^ (1 - bias E) ≤ |v|) ∧
          Rounded E F ((vx + vy) * 2 ^ 2 ^ (E + 2)) r.datum) := by
  have h1 := (datum_num_iff.mp hx).1
  have h2 := (datum_num_iff.mp hy).1
  have key : ∀ X Y : Fp E F, Y.exp ≤ X.exp → core X Y = some r → ShiftFits E F (X.exp - Y.exp) := by
    intro X Y h hc
    have hXe := X.exp_lt (show 1 ≤ E by omega)
    by_contra hn
    rw [core_none X Y (by rwa [subW_of_le h hXe])] at hc
    cases hc
  rcases addSame_ordered (by omega) x y with ⟨h, -, ho⟩ | ⟨h, -, ho⟩
  · rw [h] at hr
    have ho' := ho (by omega)
    obtain ⟨s, hs, H⟩ := ordered_sharp hE hF (key _ _ ho' hr) hx hy ho'
    rw [hs] at hr
    rw [← Option.some.inj hr]; exact H
  · rw [h] at hr
    have ho' := ho (by omega)
    obtain ⟨s, hs, H⟩ := ordered_sharp hE hF (key _ _ ho' hr) hy hx ho'
    rw [hs] at hr
    rw [← Option.some.inj hr, add_comm vx vy]; exact H

theorem addSame_special_some {E F : ℕ} (hE : 2 ≤ E) (hF : 1 ≤ F) {x y r : Fp E F} {d : Datum} (hd : addSpecial x.datum y.datum = some d)
    (hr : addSame x y = some r) : r.datum = d := by
  have key : ∀ X Y : Fp E F, core X Y = some r → ShiftFits E F (subW E X.exp Y.exp) := by
    intro X Y hc
    by_contra hn
    rw [core_none X Y hn] at hc
    cases hc
  rcases addSame_ordered (by omega) x y with ⟨h, ho, -⟩ | ⟨h, ho, -⟩
  · rw [h] at hr
    obtain ⟨s, hs, H⟩ := core_special hE hF (key _ _ hr) ho hd
    rw [hs] at hr
    rw [← Option.some.inj hr]; exact H
  · rw [h] at hr
    obtain ⟨s, hs, H⟩ := core_special hE hF (key _ _ hr) ho (by rwa [addSpecial_comm])
    rw [hs] at hr
    rw [← Option.some.inj hr]; exact H

end AddDual
end Thls
