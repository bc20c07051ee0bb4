import Verif.Proofs.AddSingle
import Verif.SpecCut

/-! # The single-path adder with the rounding rule of version 4 -/

namespace Thls
open Spec

namespace AddSingle

theorem cut_unique {E F : ℕ} {q : ℚ} {d d' : Datum} (h : CutRounded E F q d) (h' : CutRounded E F q d') : d = d' := by
  obtain ⟨m, e, hm, h1, h2, rfl⟩ := h
  obtain ⟨m', e', hm', h1', h2', rfl⟩ := h'
  have key : (m : ℚ) * 2 ^ e = m' * 2 ^ e' := by
    rcases lt_trichotomy ((m : ℚ) * 2 ^ e) (m' * 2 ^ e') with h | h | h
    · have := sig_gap (by omega) hm hm' h
      linarith
    · exact h
    · have := sig_gap (by omega) hm' hm h
      linarith
  obtain ⟨rfl, rfl⟩ := sig_unique (by omega) hm hm' key
  rfl

/-- Cutting a packed `exponent.fraction`: one is added at an exact tie with an even fraction, which cannot carry. -/
theorem cut_packed {E F : ℕ} (hF : 1 ≤ F) {q : ℚ} {be : ℤ} {f : ℕ} (hf : f < 2 ^ F) {r s : Bool}
    (hlo : (2 * ((2 ^ F + f : ℕ) : ℚ) + (if r then 1 else 0)) * 2 ^ (be - bias E - F - 1) ≤ |q|)
    (hhi : |q| < (2 * ((2 ^ F + f : ℕ) : ℚ) + (if r then 1 else 0) + 1) * 2 ^ (be - bias E - F - 1))
    (hs : s = false ↔ |q| = (2 * ((2 ^ F + f : ℕ) : ℚ) + (if r then 1 else 0)) * 2 ^ (be - bias E - F - 1)) :
    CutRounded E F q (packedDatum E F (decide (q < 0))
      (be * 2 ^ F + f + (if r && !s && !decide (f % 2 = 1) then 1 else 0))) := by
  have hp1 : 2 ^ (F + 1) = 2 * 2 ^ F := by rw [pow_succ]; ring
  have hsig : IsSig (F + 1) (2 ^ F + f) := ⟨by simp, by omega⟩
  have hpar : (2 ^ F + f) % 2 = f % 2 := by
    obtain ⟨k, rfl⟩ := Nat.exists_eq_add_of_le' hF
    rw [pow_succ]; omega
  have hF2 : 2 ^ F % 2 = 0 := by
    obtain ⟨k, rfl⟩ := Nat.exists_eq_add_of_le' hF
    rw [pow_succ]; omega
  have he : (2 : ℚ) ^ (be - bias E - F) = 2 * 2 ^ (be - bias E - F - 1) := by
    rw [two_zpow_pred]; ring
  have hw := two_zpow_pos (be - bias E - F - 1)
  have hup : (|q| = (((2 ^ F + f : ℕ) : ℚ) + 1 / 2) * 2 ^ (be - bias E - F) ∧ (2 ^ F + f) % 2 = 0) ↔
      (r && !s && !decide (f % 2 = 1)) = true := by
    rw [hpar, he]
    have : (f % 2 = 0) ↔ (!decide (f % 2 = 1)) = true := by simp
    rw [this, Bool.and_eq_true, Bool.and_eq_true]
    refine and_congr ?_ Iff.rfl
    cases r with
    | false =>
      simp only [Bool.false_eq_true, if_false, false_and, iff_false] at hhi ⊢
      intro h
      rw [h] at hhi
      linarith
    | true =>
      simp only [if_true, true_and] at hs ⊢
      rw [Bool.not_eq_true', hs]
      constructor <;> intro h <;> rw [h] <;> ring
  refine ⟨2 ^ F + f, be - bias E - F, hsig, ?_, ?_, ?_⟩
  · rw [he]
    refine le_trans ?_ hlo
    split <;> nlinarith
  · rw [he]
    refine lt_of_lt_of_le hhi ?_
    split <;> nlinarith
  · simp only [hup]
    by_cases h : (r && !s && !decide (f % 2 = 1)) = true
    · rw [if_pos h, if_pos h]
      have hev : f % 2 = 0 := by
        simp only [Bool.and_eq_true, Bool.not_eq_true', decide_eq_false_iff_not] at h
        omega
      rw [add_assoc (2 ^ F) f 1, rangeCheck_packed (by omega)]
      push_cast
      ring_nf
    · rw [if_neg h, if_neg h, rangeCheck_packed hf]
      simp

/-- A small addend is absorbed in the same way whatever its size. -/
theorem cut_absorb {E F mx ex sx : ℕ} {eq : Bool} (hm : IsSig (F + 1) mx) :
    ∃ d, ∀ y : ℚ, 0 < y → y < 2 → ∀ q : ℚ,
      q = (if sx = 1 then -1 else 1) * (sumQ eq mx y * 2 ^ ((ex : ℤ) - bias E - F - 2)) → CutRounded E F q d := by
  have hm1 := hm.1
  have hm2 := hm.2
  rw [Nat.add_sub_cancel] at hm1
  have hp1 : 2 ^ (F + 1) = 2 * 2 ^ F := by rw [pow_succ]; ring
  have h2F : 0 < 2 ^ F := by positivity
  have hmq : (1 : ℚ) ≤ mx := by
    have : 1 ≤ mx := by omega
    exact_mod_cast this
  have he : (2 : ℚ) ^ ((ex : ℤ) - bias E - F) = 4 * 2 ^ ((ex : ℤ) - bias E - F - 2) := by
    rw [show (ex : ℤ) - bias E - F = ((ex : ℤ) - bias E - F - 2) + 1 + 1 by ring, two_zpow_succ, two_zpow_succ]
    ring_nf
  have he' : (2 : ℚ) ^ ((ex : ℤ) - bias E - F - 1) = 2 * 2 ^ ((ex : ℤ) - bias E - F - 2) := by
    rw [show (ex : ℤ) - bias E - F - 1 = ((ex : ℤ) - bias E - F - 2) + 1 by ring, two_zpow_succ]
  have hu := two_zpow_pos ((ex : ℤ) - bias E - F - 2)
  have pos : ∀ y : ℚ, 0 < y → y < 2 → 0 < sumQ eq mx y * 2 ^ ((ex : ℤ) - bias E - F - 2) := by
    intro y h0 h2
    refine mul_pos ?_ hu
    unfold sumQ
    split <;> linarith
  cases eq with
  | true =>
    refine ⟨rangeCheck E F (decide (sx = 1)) mx ((ex : ℤ) - bias E - F), ?_⟩
    intro y h0 h2 q hq
    have hpos := pos y h0 h2
    have hn : decide (q < 0) = decide (sx = 1) := by rw [hq]; simp only [signed_neg hpos]
    have ha : |q| = sumQ true mx y * 2 ^ ((ex : ℤ) - bias E - F - 2) := by rw [hq, abs_signed hpos]
    refine ⟨mx, (ex : ℤ) - bias E - F, hm, ?_, ?_, ?_⟩
    · rw [ha, he]; unfold sumQ; simp only [if_true]; nlinarith
    · rw [ha, he]; unfold sumQ; simp only [if_true]; nlinarith
    · rw [hn, if_neg]
      rintro ⟨h, -⟩
      rw [ha, he] at h
      unfold sumQ at h
      simp only [if_true] at h
      nlinarith
  | false =>
    rcases Nat.lt_or_ge (2 ^ F) mx with h5 | h5
    · refine ⟨rangeCheck E F (decide (sx = 1)) (mx - 1) ((ex : ℤ) - bias E - F), ?_⟩
      intro y h0 h2 q hq
      have hpos := pos y h0 h2
      have hn : decide (q < 0) = decide (sx = 1) := by rw [hq]; simp only [signed_neg hpos]
      have ha : |q| = sumQ false mx y * 2 ^ ((ex : ℤ) - bias E - F - 2) := by rw [hq, abs_signed hpos]
      have hc : ((mx - 1 : ℕ) : ℚ) = mx - 1 := by rw [Nat.cast_sub (by omega)]; simp
      refine ⟨mx - 1, (ex : ℤ) - bias E - F, ⟨by rw [Nat.add_sub_cancel]; omega, by omega⟩, ?_, ?_, ?_⟩
      · rw [ha, he, hc]; unfold sumQ; simp only [Bool.false_eq_true, if_false]; nlinarith
      · rw [ha, he, hc]; unfold sumQ; simp only [Bool.false_eq_true, if_false]; nlinarith
      · rw [hn, if_neg]
        rintro ⟨h, -⟩
        rw [ha, he, hc] at h
        unfold sumQ at h
        simp only [Bool.false_eq_true, if_false] at h
        nlinarith
    · have hmx : mx = 2 ^ F := by omega
      refine ⟨rangeCheck E F (decide (sx = 1)) (2 * mx - 1) ((ex : ℤ) - bias E - F - 1), ?_⟩
      intro y h0 h2 q hq
      have hpos := pos y h0 h2
      have hn : decide (q < 0) = decide (sx = 1) := by rw [hq]; simp only [signed_neg hpos]
      have ha : |q| = sumQ false mx y * 2 ^ ((ex : ℤ) - bias E - F - 2) := by rw [hq, abs_signed hpos]
      have hc : ((2 * mx - 1 : ℕ) : ℚ) = 2 * mx - 1 := by rw [Nat.cast_sub (by omega)]; simp
      refine ⟨2 * mx - 1, (ex : ℤ) - bias E - F - 1, ⟨by rw [Nat.add_sub_cancel]; omega, by omega⟩, ?_, ?_, ?_⟩
      · rw [ha, he', hc]; unfold sumQ; simp only [Bool.false_eq_true, if_false]; nlinarith
      · rw [ha, he', hc]; unfold sumQ; simp only [Bool.false_eq_true, if_false]; nlinarith
      · rw [hn, if_neg]
        rintro ⟨-, h⟩
        omega

/-- A number of the format is not changed. -/
theorem cut_self {E F mx ex sx : ℕ} (hm : IsSig (F + 1) mx) {q : ℚ}
    (hq : q = (if sx = 1 then -1 else 1) * ((mx : ℚ) * 2 ^ ((ex : ℤ) - bias E - F))) :
    CutRounded E F q (rangeCheck E F (decide (sx = 1)) mx ((ex : ℤ) - bias E - F)) := by
  have hm1 := hm.1
  have h2F : 0 < 2 ^ F := by positivity
  rw [Nat.add_sub_cancel] at hm1
  have hmq : (1 : ℚ) ≤ mx := by
    have : 1 ≤ mx := by omega
    exact_mod_cast this
  have hu := two_zpow_pos ((ex : ℤ) - bias E - F)
  have hpos : 0 < (mx : ℚ) * 2 ^ ((ex : ℤ) - bias E - F) := by positivity
  have hn : decide (q < 0) = decide (sx = 1) := by rw [hq]; simp only [signed_neg hpos]
  have ha : |q| = (mx : ℚ) * 2 ^ ((ex : ℤ) - bias E - F) := by rw [hq, abs_signed hpos]
  refine ⟨mx, _, hm, ha.ge, by rw [ha]; nlinarith, ?_⟩
  rw [hn, if_neg]
  rintro ⟨h, -⟩
  rw [ha] at h
  nlinarith

/-- Rounding and packing of a non-zero sum. -/
theorem round_pack_cut {E F ex sx sy fy A c : ℕ} {st : Bool} (hE : 2 ≤ E) (hF : 1 ≤ F) (hfmt : F + 3 < 2 ^ E)
    (hex : ex < 2 ^ E) (hsx : sx < 2) (hsy : sy < 2) (hfy : fy < 2)
    (hA : A < 2 ^ (F + 4)) (hst : st = true → 2 ^ (F + 1) ≤ A)
    (h1 : 2 ^ (F + 4) ≤ (2 * A + st.toNat) * 2 ^ c) (h2 : (2 * A + st.toNat) * 2 ^ c < 2 ^ (F + 5)) (hc : c < F + 5)
    {q : ℚ} (hlo : (A : ℚ) * 2 ^ ((ex : ℤ) - bias E - F - 2) ≤ |q|)
    (hhi : |q| < ((A : ℚ) + 1) * 2 ^ ((ex : ℤ) - bias E - F - 2))
    (hs : st = false ↔ |q| = (A : ℚ) * 2 ^ ((ex : ℤ) - bias E - F - 2)) (hsgn : q < 0 ↔ sx = 1) :
    CutRounded E F q (pack E F sx sy 1 fy (roundedExpFrac roundBitV4 E F ex ((2 * A + st.toNat) * 2 ^ c) c) false).datum := by
  obtain ⟨f, hf, hS, hb, hlsb, hlow⟩ := split_norm hF h1 h2
  have hu := two_zpow_pos ((ex : ℤ) - bias E - F - 2)
  have hc2 : st = true → c ≤ 2 := by
    intro h
    have := hst h
    by_contra hcc
    have h8 : 2 ^ 3 ≤ 2 ^ c := Nat.pow_le_pow_right (by norm_num) (by omega)
    have e1 : 2 ^ (F + 5) = 16 * 2 ^ (F + 1) := by rw [show F + 5 = (F + 1) + 4 by ring, pow_add 2 (F + 1)]; ring
    have : (2 * A + st.toNat) * 2 ^ 3 ≤ (2 * A + st.toNat) * 2 ^ c := Nat.mul_le_mul_left _ h8
    omega
  obtain ⟨w1, w2, w3⟩ := sticky_window (q := |q| / 2 ^ ((ex : ℤ) - bias E - F - 2))
    (hS.trans (by ring : _ = 8 * (2 * (2 ^ F + f) + (getBit 3 ((2 * A + st.toNat) * 2 ^ c)).toNat) + _))
    (Nat.mod_lt _ (by norm_num)) hc2 (by rw [le_div_iff₀ hu]; exact hlo) (by rw [div_lt_iff₀ hu]; exact hhi)
    (by rw [div_eq_iff hu.ne']; exact hs)
  have hTl : ∀ S, roundedExpFrac roundBitV4 E F ex S c < 2 ^ (E + F + 3) := fun S => by
    unfold roundedExpFrac; rw [show E + F + 3 = E + F + 3 by rfl]; exact addW_lt _ _ _
  have p1 : 2 ^ (E + 2) = 4 * 2 ^ E := by rw [pow_add]; ring
  have hhalf := roundedExpFrac_half (E := E) (ex := ex) roundBitV4 (show c ≤ 2 ^ (E + 2) by omega) hb
  generalize (2 * A + st.toNat) * 2 ^ c = S at *
  have hup : ((getBit 3 S).toNat + (roundBitV4 (getBit 4 S) (getBit 3 S) (getBit 2 S) (getBit 1 S || getBit 0 S)).toNat) / 2
      = if getBit 3 S && !decide (S % 8 ≠ 0) && !decide (f % 2 = 1) then 1 else 0 := by
    rw [← hlow, ← hlsb]
    unfold roundBitV4
    generalize getBit 3 S = a
    generalize getBit 4 S = b
    generalize getBit 2 S = d
    generalize (getBit 1 S || getBit 0 S) = e
    revert a b d e
    decide
  rw [hup] at hhalf
  have hexp : (2 : ℚ) ^ (((ex : ℤ) + 1 - c) - bias E - F - 1) * 2 ^ c = 4 * 2 ^ ((ex : ℤ) - bias E - F - 2) := by
    rw [← zpow_natCast, ← zpow_add₀ (by norm_num),
      show ((ex : ℤ) + 1 - c) - bias E - F - 1 + c = ((ex : ℤ) - bias E - F - 2) + 2 by ring, zpow_add₀ (by norm_num)]
    norm_num; ring
  have hv := two_zpow_pos (((ex : ℤ) + 1 - c) - bias E - F - 1)
  have hpc : (0 : ℚ) < 2 ^ c := by positivity
  have hN : ((2 * (2 ^ F + f) + (getBit 3 S).toNat : ℕ) : ℚ)
      = 2 * ((2 ^ F + f : ℕ) : ℚ) + (if getBit 3 S then 1 else 0) := by
    cases getBit 3 S <;> push_cast <;> simp
  rw [hN] at w1 w2 w3
  have conv : ∀ N : ℚ, N * 4 * 2 ^ ((ex : ℤ) - bias E - F - 2)
      = N * 2 ^ (((ex : ℤ) + 1 - c) - bias E - F - 1) * 2 ^ c := fun N => by
    rw [mul_assoc N, mul_assoc N, hexp]
  have hR := cut_packed (E := E) (F := F) hF (q := q) (be := (ex : ℤ) + 1 - c) (f := f) hf (r := getBit 3 S)
    (s := decide (S % 8 ≠ 0)) ?_ ?_ ?_
  · have hsd : decide (q < 0) = decide (sx = 1) := by simp only [hsgn]
    rw [hsd] at hR
    have hb1 : (ex : ℤ) < 2 ^ E := by exact_mod_cast hex
    have hb2 : (F : ℤ) + 3 < 2 ^ E := by exact_mod_cast hfmt
    have hf' : (f : ℤ) < 2 ^ F := by exact_mod_cast hf
    have hpF : (0 : ℤ) < 2 ^ F := by positivity
    have hEF : (2 : ℤ) ^ (E + F + 1) = 2 * 2 ^ E * 2 ^ F := by rw [pow_succ, pow_add]; ring
    rw [pack_datum (t := ((ex : ℤ) + 1 - c) * 2 ^ F + f +
        (if getBit 3 S && !decide (S % 8 ≠ 0) && !decide (f % 2 = 1) then 1 else 0)) (by omega) hF hsx hsy hfy (hTl S)
        (by rw [hhalf]; congr 1; split <;> rfl)]
    · exact hR
    · rw [hEF]
      have : -(2 * 2 ^ E) * 2 ^ F ≤ ((ex : ℤ) + 1 - c) * 2 ^ F := mul_le_mul_of_nonneg_right (by omega) hpF.le
      split <;> linarith
    · rw [hEF]
      have h2F : (0 : ℤ) < 2 ^ E := by positivity
      have : ((ex : ℤ) + 1 - c) * 2 ^ F ≤ (2 ^ E) * 2 ^ F := mul_le_mul_of_nonneg_right (by omega) hpF.le
      have h4 : (4 : ℤ) * 2 ^ F ≤ 2 ^ E * 2 ^ F := mul_le_mul_of_nonneg_right (by omega) hpF.le
      split <;> linarith
  · rw [div_mul_eq_mul_div, le_div_iff₀ hu, conv] at w1
    exact le_of_mul_le_mul_right w1 hpc
  · rw [div_mul_eq_mul_div, div_lt_iff₀ hu, conv] at w2
    exact lt_of_mul_lt_mul_right w2 hpc.le
  · rw [div_mul_eq_mul_div, div_eq_iff hu.ne', conv] at w3
    simp only [ne_eq, decide_not, Bool.not_eq_eq_eq_not, Bool.not_false, decide_eq_true_eq]
    rw [w3]
    exact mul_left_inj' hpc.ne'

/-- What the adder computes once the operands are ordered and aligned. -/
theorem core_result_cut {E F : ℕ} {norm : ℕ → Option (ℕ × ℕ)} (hn : Normalises F norm) (hE : 2 ≤ E) (hF : 1 ≤ F)
    (hfmt : F + 3 < 2 ^ E) {X Y : Fp E F} (hX : X.flags = 1) (hY : Y.flags < 2) {s y : ℕ} {st : Bool}
    (hs : shiftVal? E F (subW (E + 1) X.exp Y.exp) = some s)
    (ha : addAlign? F 0 (if Y.flags = 0b00 then 0 else opadHi1 F Y.frac) s = some (y, st))
    (hy : y < 2 ^ (F + 3)) (hst : st = true → y < 2 ^ F)
    (hle : decide (X.sign = Y.sign) = false → y + st.toNat ≤ 4 * (2 ^ F + X.frac)) :
    ∃ r, core roundBitV4 norm X Y = some r ∧
      (sumNat (decide (X.sign = Y.sign)) (2 ^ F + X.frac) y st = 0 → Y.flags = 1 → X.sign ≠ Y.sign →
        r.datum = .zero false) ∧
      ∀ q : ℚ, q ≠ 0 → (q < 0 ↔ X.sign = 1) →
        (sumNat (decide (X.sign = Y.sign)) (2 ^ F + X.frac) y st : ℚ) * 2 ^ ((X.exp : ℤ) - bias E - F - 2) ≤ |q| →
        |q| < ((sumNat (decide (X.sign = Y.sign)) (2 ^ F + X.frac) y st : ℚ) + 1) * 2 ^ ((X.exp : ℤ) - bias E - F - 2) →
        (st = false ↔
          |q| = (sumNat (decide (X.sign = Y.sign)) (2 ^ F + X.frac) y st : ℚ) * 2 ^ ((X.exp : ℤ) - bias E - F - 2)) →
        CutRounded E F q r.datum := by
  have hXf := X.frac_lt hF
  have hXe := X.exp_lt (by omega)
  have hes : (X.sign != Y.sign) = !decide (X.sign = Y.sign) := by rw [bne, beq_eq_decide]
  have hfar := addFar_eq (eq := decide (X.sign = Y.sign)) hXf hy hle
  have hA := sumNat_lt (eq := decide (X.sign = Y.sign)) (st := st) hXf hy
  have hA2 := sumNat_sticky (fx := X.frac) (eq := decide (X.sign = Y.sign)) hst
  have hcore : core roundBitV4 norm X Y = (norm (2 * sumNat (decide (X.sign = Y.sign)) (2 ^ F + X.frac) y st + st.toNat)).bind
      (fun p => some (pack E F X.sign Y.sign X.flags Y.flags (roundedExpFrac roundBitV4 E F X.exp p.1 p.2)
        (decide (p.2 = ones (intlog2 (F + 5)))))) := by
    unfold core
    dsimp only
    rw [hs]
    dsimp only
    rw [ha]
    dsimp only
    rw [hes, hfar, concat, pow_one, Nat.mul_comm]
    cases norm (2 * sumNat (decide (X.sign = Y.sign)) (2 ^ F + X.frac) y st + st.toNat) <;> rfl
  rw [hcore, hX]
  generalize hAd : sumNat (decide (X.sign = Y.sign)) (2 ^ F + X.frac) y st = A at *
  have e5 : 2 ^ (F + 5) = 2 * 2 ^ (F + 4) := by rw [pow_succ]; ring
  by_cases h0 : 2 * A + st.toNat = 0
  · obtain ⟨o, ho⟩ := hn.zero
    rw [h0, ho]
    refine ⟨_, rfl, ?_, ?_⟩
    · intro _ hY1 hne
      rw [hY1]
      dsimp only
      rw [decide_eq_true rfl]
      obtain ⟨l1, l2⟩ := lzCount_bounds hfmt
      generalize ones (intlog2 (F + 5)) = c at *
      have p1 : 2 ^ (E + 2) = 4 * 2 ^ E := by rw [pow_add]; ring
      have hb : getBits (F + 3) 3 o = 2 * (getBits (F + 3) 3 o / 2) + getBits (F + 3) 3 o % 2 := by omega
      have hbl := getBits_lt (F + 3) 3 o
      rw [show F + 3 + 1 - 3 = F + 1 by omega, pow_succ] at hbl
      have hhalf := roundedExpFrac_half (E := E) (ex := X.exp) roundBitV4 (show c ≤ 2 ^ (E + 2) by omega) hb
      have hTl : roundedExpFrac roundBitV4 E F X.exp o c < 2 ^ (E + F + 3) := by unfold roundedExpFrac; exact addW_lt _ _ _
      have ha1 := Bool.toNat_le (roundBitV4 (getBit 4 o) (getBit 3 o) (getBit 2 o) (getBit 1 o || getBit 0 o))
      generalize (roundBitV4 (getBit 4 o) (getBit 3 o) (getBit 2 o) (getBit 1 o || getBit 0 o)).toNat = a at *
      have hk : (getBits (F + 3) 3 o % 2 + a) / 2 ≤ 1 := by omega
      have hf : getBits (F + 3) 3 o / 2 < 2 ^ F := by omega
      generalize (getBits (F + 3) 3 o % 2 + a) / 2 = k at *
      generalize getBits (F + 3) 3 o / 2 = f at *
      have hb1 : (X.exp : ℤ) < 2 ^ E := by exact_mod_cast hXe
      have hb2 : (F : ℤ) + 3 < 2 ^ E := by exact_mod_cast hfmt
      have hf' : (f : ℤ) < 2 ^ F := by exact_mod_cast hf
      have hk' : (k : ℤ) ≤ 1 := by exact_mod_cast hk
      have l1' : (c : ℤ) + 1 ≤ 2 * 2 ^ E := by exact_mod_cast l1
      have hpF : (0 : ℤ) < 2 ^ F := by positivity
      have hEF : (2 : ℤ) ^ (E + F + 1) = 2 * 2 ^ E * 2 ^ F := by rw [pow_succ, pow_add]; ring
      have hEF0 : (2 : ℤ) ^ (E + F) = 2 ^ E * 2 ^ F := by rw [pow_add]
      refine pack_zero (by omega) hF X.sign_lt Y.sign_lt hne hTl hhalf ?_ ?_
      · rw [hEF]
        have : -(2 * 2 ^ E) * 2 ^ F ≤ ((X.exp : ℤ) + 1 - c) * 2 ^ F := mul_le_mul_of_nonneg_right (by omega) hpF.le
        linarith
      · rw [hEF0]
        have : ((X.exp : ℤ) + 1 - c) * 2 ^ F ≤ (2 ^ E - 5) * 2 ^ F := mul_le_mul_of_nonneg_right (by omega) hpF.le
        linarith
    · intro q hq _ _ _ h3
      exfalso
      have hA0 : A = 0 := by omega
      have hst0 : st = false := by
        cases st with
        | false => rfl
        | true => simp at h0
      have := h3.mp hst0
      rw [hA0] at this
      simp at this
      exact hq this
  · obtain ⟨c, c1, c2, c3, c4, c5⟩ := hn.pos (2 * A + st.toNat)
      (by cases st <;> simp only [Bool.toNat_true, Bool.toNat_false] <;> omega) h0
    rw [c1]
    refine ⟨_, rfl, ?_, ?_⟩
    · intro hA0
      exfalso
      cases st with
      | false => simp [hA0] at h0
      | true =>
        have := hA2 rfl
        have : 0 < 2 ^ (F + 1) := by positivity
        omega
    · intro q hq hsgn h1 h2 h3
      dsimp only
      rw [decide_eq_false c5]
      exact round_pack_cut hE hF hfmt hXe X.sign_lt Y.sign_lt hY hA hA2 c3 c4 c2 h1 h2 h3 hsgn

theorem core_aligned_cut {E F : ℕ} {norm : ℕ → Option (ℕ × ℕ)} (hn : Normalises F norm) (hE : 2 ≤ E) (hF : 1 ≤ F)
    (hfmt : F + 3 < 2 ^ E) {X Y : Fp E F} (hX : X.flags = 1) (hY : Y.flags < 2) {s y : ℕ} {st : Bool}
    (hs : shiftVal? E F (subW (E + 1) X.exp Y.exp) = some s)
    (ha : addAlign? F 0 (if Y.flags = 0b00 then 0 else opadHi1 F Y.frac) s = some (y, st))
    (hy : y < 2 ^ (F + 3)) (hst : st = true → y < 2 ^ F)
    (hle : decide (X.sign = Y.sign) = false → y + st.toNat ≤ 4 * (2 ^ F + X.frac)) :
    ∃ r, core roundBitV4 norm X Y = some r ∧ ∀ y' : ℚ, Aligned y' y st → ∀ q : ℚ,
      q = (if X.sign = 1 then -1 else 1) *
        (sumQ (decide (X.sign = Y.sign)) (2 ^ F + X.frac) y' * 2 ^ ((X.exp : ℤ) - bias E - F - 2)) →
      (q = 0 → Y.flags = 1 → r.datum = .zero false) ∧ (q ≠ 0 → CutRounded E F q r.datum) := by
  obtain ⟨r, hr, h0, h1⟩ := core_result_cut hn hE hF hfmt hX hY hs ha hy hst hle
  refine ⟨r, hr, ?_⟩
  intro y' hal q hq
  obtain ⟨w1, w2, w3⟩ := sum_window hal hle
  have hu := two_zpow_pos ((X.exp : ℤ) - bias E - F - 2)
  have hA0 : (0 : ℚ) ≤ (sumNat (decide (X.sign = Y.sign)) (2 ^ F + X.frac) y st : ℚ) := Nat.cast_nonneg _
  have habs : |q| = sumQ (decide (X.sign = Y.sign)) (2 ^ F + X.frac) y' * 2 ^ ((X.exp : ℤ) - bias E - F - 2) := by
    rw [hq]
    have : 0 ≤ sumQ (decide (X.sign = Y.sign)) (2 ^ F + X.frac) y' * 2 ^ ((X.exp : ℤ) - bias E - F - 2) :=
      mul_nonneg (by linarith) hu.le
    split <;> simp [abs_of_nonneg this]
  constructor
  · intro hz hYf
    rw [hz, abs_zero] at habs
    have hS0 : sumQ (decide (X.sign = Y.sign)) (2 ^ F + X.frac) y' = 0 := by
      rcases mul_eq_zero.mp habs.symm with h | h
      · exact h
      · exact absurd h hu.ne'
    refine h0 ?_ hYf ?_
    · rw [hS0] at w1
      have : (sumNat (decide (X.sign = Y.sign)) (2 ^ F + X.frac) y st : ℚ) = 0 := le_antisymm w1 hA0
      exact_mod_cast this
    · intro he
      rw [decide_eq_true he] at hS0
      unfold sumQ at hS0
      simp only [if_true] at hS0
      have := hal.1
      have h5 : (0 : ℚ) ≤ y := Nat.cast_nonneg _
      have h6 : (0 : ℚ) < ((2 ^ F + X.frac : ℕ) : ℚ) := by
        have : 0 < 2 ^ F + X.frac := by positivity
        exact_mod_cast this
      linarith
  · intro hne
    refine h1 q hne ?_ ?_ ?_ ?_
    · have hpos : 0 < sumQ (decide (X.sign = Y.sign)) (2 ^ F + X.frac) y' * 2 ^ ((X.exp : ℤ) - bias E - F - 2) := by
        rw [← habs]; exact abs_pos.mpr hne
      rw [hq]; exact signed_neg hpos
    · rw [habs]; exact mul_le_mul_of_nonneg_right w1 hu.le
    · rw [habs]; exact mul_lt_mul_of_pos_right w2 hu
    · rw [habs, w3]; exact (mul_left_inj' hu.ne').symm

/-- The sum of two ordered normal numbers. -/
theorem ordered_num_cut {E F : ℕ} {norm : ℕ → Option (ℕ × ℕ)} (hn : Normalises F norm) (hE : 2 ≤ E) (hF : 1 ≤ F)
    (hfmt : F + 3 < 2 ^ E) {X Y : Fp E F} {s : ℕ}
    (hs : shiftVal? E F (subW (E + 1) X.exp Y.exp) = some s) (hsl : s < F + 4) {vx vy : ℚ} (hX : X.datum = .num vx)
    (hY : Y.datum = .num vy) (hord : Y.exp * 2 ^ F + Y.frac ≤ X.exp * 2 ^ F + X.frac) :
    ∃ r, core roundBitV4 norm X Y = some r ∧ CutsTo E F vx vy r.datum := by
  obtain ⟨hfx, rfl⟩ := datum_num_iff.mp hX
  obtain ⟨hfy, rfl⟩ := datum_num_iff.mp hY
  obtain ⟨o1, o2⟩ := ordered_exp hF hord
  have hXf := X.frac_lt hF
  have hYf := Y.frac_lt hF
  have hXe := X.exp_lt (show 1 ≤ E by omega)
  have hm : 2 ^ F + Y.frac < 2 ^ (F + 1) := (sig_isSig hYf).2
  have hal := addAlign_spec (F := F) (pad := 0) hm (by omega : s < 2 * F + 4 + 0)
  have hd : subW (E + 1) X.exp Y.exp = X.exp - Y.exp := subW_of_le o1 (by rw [pow_succ]; omega)
  have hc := shiftVal_cases (d := X.exp - Y.exp) hfmt (by omega) (by rw [← hd]; exact hs)
  have hyl := align_lt (s := s) hm
  have hstk := sticky_shift (s := s) hm
  have e2 : 2 ^ (F + 2) = 4 * 2 ^ F := by rw [pow_add]; ring
  have e1 : 2 ^ (F + 1) = 2 * 2 ^ F := by rw [pow_succ]; ring
  -- the aligned significand is not larger than the other one
  have hyle : 4 * (2 ^ F + Y.frac) / 2 ^ s ≤ 4 * (2 ^ F + X.frac) := by
    rcases Nat.eq_zero_or_pos s with h0 | h0
    · have : X.exp = Y.exp := by rcases hc with ⟨h, -⟩ | ⟨h, -⟩ <;> omega
      rw [h0]
      have := o2 this.symm
      simp only [pow_zero, Nat.div_one]
      omega
    · refine (Nat.div_le_div_left (b := 2 ^ s) (c := 2) ?_ (by norm_num)).trans ?_
      · calc 2 = 2 ^ 1 := by norm_num
          _ ≤ 2 ^ s := Nat.pow_le_pow_right (by norm_num) h0
      · omega
  have hle : decide (X.sign = Y.sign) = false → 4 * (2 ^ F + Y.frac) / 2 ^ s +
      (decide ((2 ^ F + Y.frac) * 2 ^ (F + 3) / 2 ^ s % 2 ^ (F + 1) ≠ 0)).toNat ≤ 4 * (2 ^ F + X.frac) := by
    intro _
    cases hst : decide ((2 ^ F + Y.frac) * 2 ^ (F + 3) / 2 ^ s % 2 ^ (F + 1) ≠ 0) with
    | false => simpa using hyle
    | true =>
      have := hstk hst
      simp only [Bool.toNat_true]
      omega
  obtain ⟨r, hr, H⟩ := core_aligned_cut hn hE hF hfmt hfx (by omega) hs
    (by rw [if_neg (by omega)]; exact hal) hyl hstk hle
  refine ⟨r, hr, ?_⟩
  have hval := value_sum (E := E) (F := F) (mx := 2 ^ F + X.frac) (my := 2 ^ F + Y.frac) X.sign_lt Y.sign_lt o1
  have hrest : (s = X.exp - Y.exp ∧ s ≤ F + 3) ∨ (F + 2 ≤ X.exp - Y.exp ∧ F + 3 ≤ s) := by
    rcases hc with ⟨h, h'⟩ | ⟨h, h', -⟩
    · rcases Nat.lt_or_ge (F + 3) s with h5 | h5
      · right; omega
      · left; exact ⟨h, h5⟩
    · right; omega
  generalize hv : ((if X.sign = 1 then (-1 : ℚ) else 1) * (((2 ^ F + X.frac : ℕ) : ℚ) * 2 ^ ((X.exp : ℤ) - bias E - F)) +
      (if Y.sign = 1 then (-1 : ℚ) else 1) * (((2 ^ F + Y.frac : ℕ) : ℚ) * 2 ^ ((Y.exp : ℤ) - bias E - F))) = q at *
  rcases hrest with ⟨hse, hs3⟩ | ⟨hdd, hs3⟩
  · have hal' := aligned_of_le (m := 2 ^ F + Y.frac) hs3
    obtain ⟨z1, z2⟩ := H _ hal' q (by rw [hval, hse])
    unfold CutsTo
    rw [hv]
    split
    · rename_i h; exact z1 h hfy
    · rename_i h; exact z2 h
  · have hs3 : s = F + 3 := by omega
    have hy0 : 4 * (2 ^ F + Y.frac) / 2 ^ s = 0 := align_big hm hs3.ge
    have hst : decide ((2 ^ F + Y.frac) * 2 ^ (F + 3) / 2 ^ s % 2 ^ (F + 1) ≠ 0) = true := by
      rw [hs3, Nat.mul_div_cancel _ (by positivity), Nat.mod_eq_of_lt hm]
      have : 0 < 2 ^ F := by positivity
      simp
    rw [hy0, hst] at H
    have hsig := sig_isSig hXf
    obtain ⟨d, hd⟩ := cut_absorb (E := E) (ex := X.exp) (sx := X.sign) (eq := decide (X.sign = Y.sign)) hsig
    obtain ⟨-, z2⟩ := H (1 / 2) ⟨by norm_num, by norm_num, by norm_num⟩ _ rfl
    have hmx : (1 : ℚ) ≤ ((2 ^ F + X.frac : ℕ) : ℚ) := by
      have : 1 ≤ 2 ^ F + X.frac := by have : 0 < 2 ^ F := by positivity
                                      omega
      exact_mod_cast this
    have nz : ∀ y : ℚ, 0 < y → y < 2 → (if X.sign = 1 then (-1 : ℚ) else 1) *
        (sumQ (decide (X.sign = Y.sign)) (2 ^ F + X.frac) y * 2 ^ ((X.exp : ℤ) - bias E - F - 2)) ≠ 0 := by
      intro y h0 h2
      have : 0 < sumQ (decide (X.sign = Y.sign)) (2 ^ F + X.frac) y := by
        unfold sumQ; split <;> linarith
      have := mul_pos this (two_zpow_pos ((X.exp : ℤ) - bias E - F - 2))
      split
      · rw [neg_one_mul]; exact (neg_neg_of_pos this).ne
      · rw [one_mul]; exact this.ne'
    have hr' : r.datum = d := cut_unique (z2 (nz _ (by norm_num) (by norm_num))) (hd _ (by norm_num) (by norm_num) _ rfl)
    have hmq : ((2 ^ F + Y.frac : ℕ) : ℚ) < 2 ^ (F + 1) := by exact_mod_cast hm
    have hpd : (2 : ℚ) ^ (F + 2) ≤ 2 ^ (X.exp - Y.exp) := pow_le_pow_right₀ (by norm_num) hdd
    have hpd0 : (0 : ℚ) < 2 ^ (X.exp - Y.exp) := by positivity
    have e3 : (2 : ℚ) ^ (F + 2) = 2 * 2 ^ (F + 1) := by rw [pow_succ]; ring
    have hy2 : 4 * ((2 ^ F + Y.frac : ℕ) : ℚ) / 2 ^ (X.exp - Y.exp) < 2 := by
      rw [div_lt_iff₀ hpd0]; linarith
    have hy0' : 0 < 4 * ((2 ^ F + Y.frac : ℕ) : ℚ) / 2 ^ (X.exp - Y.exp) := by
      refine div_pos ?_ hpd0
      have : (0 : ℚ) < ((2 ^ F + Y.frac : ℕ) : ℚ) := by
        have : 0 < 2 ^ F + Y.frac := by positivity
        exact_mod_cast this
      linarith
    have hq0 : q ≠ 0 := by rw [hval]; exact nz _ hy0' hy2
    unfold CutsTo
    rw [hv, if_neg hq0, hr']
    exact hd _ hy0' hy2 q hval

/-- A zero addend. -/
theorem ordered_zero_cut {E F : ℕ} {norm : ℕ → Option (ℕ × ℕ)} (hn : Normalises F norm) (hE : 2 ≤ E) (hF : 1 ≤ F)
    (hfmt : F + 3 < 2 ^ E) (hfmt2 : F + 3 ≠ 2 ^ (E - 1)) {X Y : Fp E F} (hX : X.flags = 1) (hY : Y.flags = 0) :
    ∃ r, core roundBitV4 norm X Y = some r ∧ r.datum = X.datum := by
  have hXf := X.frac_lt hF
  have hXe := X.exp_lt (show 1 ≤ E by omega)
  obtain ⟨s, hs, hsl⟩ := shiftVal_some (F := F) (subW (E + 1) X.exp Y.exp) (show 1 ≤ E by omega) hfmt hfmt2
  have hal := addAlign_spec (F := F) (pad := 0) (m := 0) (by positivity) (by omega : s < 2 * F + 4 + 0)
  simp only [Nat.mul_zero, Nat.zero_div, Nat.zero_mul, Nat.zero_mod, ne_eq, not_true_eq_false, decide_false] at hal
  obtain ⟨r, hr, H⟩ := core_aligned_cut hn hE hF hfmt hX (by omega) hs
    (by rw [if_pos hY]; exact hal) (by positivity) (by simp) (by simp)
  refine ⟨r, hr, ?_⟩
  have hal0 : Aligned 0 0 false := ⟨by norm_num, by norm_num, by simp⟩
  obtain ⟨-, z2⟩ := H 0 hal0 _ rfl
  have ha := cut_self (E := E) (ex := X.exp) (sx := X.sign) (sig_isSig hXf)
    (q := (if X.sign = 1 then -1 else 1) *
        (sumQ (decide (X.sign = Y.sign)) (2 ^ F + X.frac) 0 * 2 ^ ((X.exp : ℤ) - bias E - F - 2))) (by
      unfold sumQ
      rw [show (2 : ℚ) ^ ((X.exp : ℤ) - bias E - F) = 4 * 2 ^ ((X.exp : ℤ) - bias E - F - 2) by
        rw [show (X.exp : ℤ) - bias E - F = ((X.exp : ℤ) - bias E - F - 2) + 1 + 1 by ring, two_zpow_succ, two_zpow_succ]
        ring_nf]
      simp only [neg_zero, ite_self, add_zero]
      ring)
  rw [datum_normal X hX, ← rangeCheck_self hXe]
  refine cut_unique (z2 ?_) ha
  have h1 : 0 < sumQ (decide (X.sign = Y.sign)) (2 ^ F + X.frac) 0 := by
    unfold sumQ
    have : (0 : ℚ) < ((2 ^ F + X.frac : ℕ) : ℚ) := by
      have : 0 < 2 ^ F + X.frac := by positivity
      exact_mod_cast this
    split <;> linarith
  have := mul_pos h1 (two_zpow_pos ((X.exp : ℤ) - bias E - F - 2))
  split
  · rw [neg_one_mul]; exact (neg_neg_of_pos this).ne
  · rw [one_mul]; exact this.ne'

/-- Sums that are not of two normal numbers. -/
theorem core_special_cut {E F : ℕ} {norm : ℕ → Option (ℕ × ℕ)} (hn : Normalises F norm) (hE : 2 ≤ E) (hF : 1 ≤ F)
    (hfmt : F + 3 < 2 ^ E) (hfmt2 : F + 3 ≠ 2 ^ (E - 1)) {X Y : Fp E F} (hord : Ordered X Y) {d : Datum}
    (hd : addSpecial X.datum Y.datum = some d) : ∃ r, core roundBitV4 norm X Y = some r ∧ r.datum = d := by
  obtain ⟨hle, -⟩ := hord
  have hsx := X.sign_lt
  have hsy := Y.sign_lt
  by_cases h1 : X.flags = 1
  · have hY : Y.flags = 0 := by
      by_contra hc
      have hY1 : Y.flags = 1 := by omega
      rw [datum_normal X h1, datum_normal Y hY1] at hd
      simp [addSpecial] at hd
    obtain ⟨r, hr, h⟩ := ordered_zero_cut hn hE hF hfmt hfmt2 h1 hY
    refine ⟨r, hr, ?_⟩
    rw [h]
    rw [datum_normal X h1, datum_flags0 Y hY] at hd
    rw [datum_normal X h1]
    simpa [addSpecial] using hd
  · obtain ⟨T, z, hr, hT⟩ := core_some hn (by omega) hF hfmt hfmt2 roundBitV4 X Y
    obtain ⟨p1, p2⟩ := pack_special (z := z) (by omega) hF hsx hsy X.flags_lt hle h1 hT
    refine ⟨_, hr, ?_⟩
    generalize pack E F X.sign Y.sign X.flags Y.flags T z = r at *
    rcases flags_cases X with h | h | h | h
    · have hY : Y.flags = 0 := by omega
      rw [if_neg (by omega), h] at p1
      rw [datum_flags0 _ h, datum_flags0 _ hY] at hd
      rw [datum_flags0 _ p1, p2, ← Option.some.inj hd]
      congr 1
      rw [h]
      generalize X.sign = a at *
      generalize Y.sign = b at *
      interval_cases a <;> interval_cases b <;> rfl
    · exact absurd h h1
    · rcases flags_cases Y with h' | h' | h' | h'
      · rw [if_neg (by omega), h] at p1
        rw [if_neg (by omega)] at p2
        rw [datum_flags2 _ h, datum_flags0 _ h'] at hd
        rw [datum_flags2 _ p1, p2, ← Option.some.inj hd]
      · rw [if_neg (by omega), h] at p1
        rw [if_neg (by omega)] at p2
        rw [datum_flags2 _ h, datum_normal _ h'] at hd
        rw [datum_flags2 _ p1, p2, ← Option.some.inj hd]
      · rw [datum_flags2 _ h, datum_flags2 _ h'] at hd
        rw [if_neg (by omega)] at p2
        rw [h, h'] at p1
        rw [← Option.some.inj hd]
        by_cases hs : X.sign = Y.sign
        · rw [if_neg (by simp [hs])] at p1
          rw [datum_flags2 _ p1, p2, if_pos (by rw [hs])]
        · rw [if_pos (by simp [hs])] at p1
          rw [datum_flags3 _ p1, if_neg]
          generalize X.sign = a at *
          generalize Y.sign = b at *
          interval_cases a <;> interval_cases b <;> simp at hs ⊢
      · omega
    · rw [if_neg (by omega), h] at p1
      rw [datum_flags3 _ h] at hd
      rw [datum_flags3 _ p1, ← Option.some.inj hd]

end AddSingle
end Thls
