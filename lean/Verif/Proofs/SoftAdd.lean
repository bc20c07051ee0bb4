import Verif.Proofs.SoftNaN

/-! # Sums and differences of magnitudes -/

namespace Thls
open Spec

theorem log2_spec {n : ℕ} (h : n ≠ 0) : 2 ^ Nat.log2 n ≤ n ∧ n < 2 ^ (Nat.log2 n + 1) :=
  ⟨Nat.log2_self_le h, Nat.lt_log2_self⟩

namespace SoftFmt
variable {f : SoftFmt}

theorem sg_if (s : Bool) : (if s then (-1 : ℚ) else 1) = sg s := rfl

/-- A word whose significand is exact. -/
theorem exact_rounded (ok : f.Ok) (s : Bool) {q t : ℕ} (h0 : 0 < q) (hn : 2 ^ f.F ≤ q ∨ t = 0) (hq : q < 2 ^ (f.F + 1))
    (ht : q + t * 2 ^ f.F < f.top * 2 ^ f.F) :
    RoundedGradual f.E f.F (sg s * (q * 2 ^ ((t : ℤ) + leastExp f.E f.F))) (wordDatum f.E f.F (f.pack s t q)) ∧
      f.pack s t q < 2 ^ f.W := by
  obtain ⟨T, hT, htop, hpe, -⟩ := top_pow ok
  have hp : f.top * 2 ^ f.F = T * 2 ^ f.F + 3 * 2 ^ f.F := by rw [htop]; ring
  have hE := ok.hE
  have hF := ok.hF
  have h := rounded_of_choice (E := f.E) (F := f.F) (by omega) (by omega) s
    (mul_pos (by exact_mod_cast h0) (two_zpow_pos ((t : ℤ) + leastExp f.E f.F))) hn hq (choice_exact q _)
  rw [if_neg (show ¬ (2 ^ f.E - 1) * 2 ^ f.F ≤ q + t * 2 ^ f.F from not_le.mpr ht), sg_if] at h
  rw [pack_eq ok s (by omega)]
  refine ⟨h, ?_⟩
  rw [W_pow]
  have : s.toNat ≤ 1 := by cases s <;> simp
  have : s.toNat * 2 ^ (f.E + f.F) ≤ 1 * 2 ^ (f.E + f.F) := Nat.mul_le_mul_right _ this
  have := Nat.two_pow_pos f.F
  omega

theorem Ok.cast_bounds (ok : f.Ok) : 2 * ((2 ^ f.E : ℕ) : ℤ) + 8 * f.F < 2 ^ (f.cast - 1) := by
  have h1 := ok.hcast.1
  have h2 := ok.hcast.2
  have : (2 : ℤ) ^ (f.cast - 1) = 2 * 2 ^ (f.cast - 2) := by rw [← pow_succ']; congr 1; omega
  rw [this]
  have h3 : ((2 ^ f.E + 4 * f.F : ℕ) : ℤ) < ((2 ^ (f.cast - 2) : ℕ) : ℤ) := by exact_mod_cast h1
  push_cast at h3 ⊢
  have : (0 : ℤ) < 2 ^ (f.cast - 2) := by positivity
  linarith

/-- The pattern of a sum with different exponents. -/
theorem far_value (e1 e2 small : ℕ) (h : e2 < e1) (Y g : ℕ)
    (hY : Y = if e2 ≠ 0 then (2 ^ f.F + small) * 2 ^ g else 2 * small * 2 ^ g) :
    (Y : ℚ) / 2 ^ (e1 - e2) / 2 ^ g * 2 ^ ((e1 : ℤ) - 1 + leastExp f.E f.F) = f.mag e2 small := by
  obtain ⟨d, rfl⟩ : ∃ d, e1 = e2 + d := ⟨e1 - e2, by omega⟩
  rw [Nat.add_sub_cancel_left]
  have hg : (2 : ℚ) ^ g ≠ 0 := by positivity
  have hd : (2 : ℚ) ^ d ≠ 0 := by positivity
  unfold mag sigOf tOf
  by_cases h0 : e2 = 0
  · subst h0
    rw [if_neg (by simp)] at hY
    rw [if_pos rfl, if_pos rfl, hY]
    push_cast
    rw [show ((0 : ℤ) + (d : ℤ) - 1 + leastExp f.E f.F) = (d : ℤ) + (-1 + leastExp f.E f.F) by ring,
      zpow_add₀ (by norm_num) (d : ℤ), zpow_natCast, zpow_add₀ (by norm_num) (-1 : ℤ), zero_add]
    field_simp
  · rw [if_pos h0] at hY
    rw [if_neg h0, if_neg h0, hY]
    push_cast
    rw [show ((e2 : ℤ) + (d : ℤ) - 1 + leastExp f.E f.F) = (d : ℤ) + (((e2 - 1 : ℕ) : ℤ) + leastExp f.E f.F) by
        rw [Nat.cast_sub (by omega)]; push_cast; ring,
      zpow_add₀ (by norm_num) (d : ℤ), zpow_natCast]
    field_simp

theorem mag_pos_value {e s : ℕ} (h : e ≠ 0) :
    f.mag e s = ((2 ^ f.F + s : ℕ) : ℚ) * 2 ^ ((e : ℤ) - 1 + leastExp f.E f.F) := by
  unfold mag sigOf tOf
  rw [if_neg h, if_neg h, Nat.cast_sub (by omega)]
  push_cast; rfl

theorem addFar_rounded (ok : f.Ok) (s : Bool) {e1 e2 big small : ℕ} (h12 : e2 < e1) (ht : e1 < f.top)
    (hb : big < 2 ^ f.F) (hs : small < 2 ^ f.F) :
    RoundedGradual f.E f.F (sg s * (f.mag e1 big + f.mag e2 small)) (wordDatum f.E f.F (f.addFar s e1 big e2 small (e1 - e2))) ∧
      f.addFar s e1 big e2 small (e1 - e2) < 2 ^ f.W := by
  obtain ⟨w1, w2, w3, g3, eg⟩ := ok.facts
  obtain ⟨T, hT, htop, hpe, hT4⟩ := top_pow ok
  have hfl := ok.fast_le
  have hcb := ok.cast_bounds
  obtain ⟨g, hg⟩ : ∃ g, f.G = g + 1 := ⟨f.G - 1, by omega⟩
  have hgp := Nat.two_pow_pos g
  have hF := Nat.two_pow_pos f.F
  have p1 : 2 ^ (f.F + g) = 2 ^ f.F * 2 ^ g := pow_add _ _ _
  have p2 : 2 ^ (f.F + f.G) = 2 * (2 ^ f.F * 2 ^ g) := by rw [hg, ← Nat.add_assoc, pow_succ, p1]; ring
  have p3 : 2 ^ (f.E + f.F) = 4 * (2 ^ f.F * 2 ^ g) := by
    rw [eg, show f.G + 1 + f.F = f.F + f.G + 1 by omega, pow_succ, p2]; ring
  have b1 : big * 2 ^ g < 2 ^ f.F * 2 ^ g := Nat.mul_lt_mul_of_pos_right hb hgp
  have b2 : small * 2 ^ g < 2 ^ f.F * 2 ^ g := Nat.mul_lt_mul_of_pos_right hs hgp
  have hd4 : 4 ∣ 2 ^ g := by
    obtain ⟨m, rfl⟩ : ∃ m, g = m + 2 := ⟨g - 2, by omega⟩
    exact ⟨2 ^ m, by rw [pow_add]; ring⟩
  have hd2 : 2 ∣ 2 ^ g := (by norm_num : (2 : ℕ) ∣ 4).trans hd4
  set Y := if e2 ≠ 0 then (2 ^ f.F + small) * 2 ^ g else 2 * small * 2 ^ g with hYd
  have hY : Y < 2 ^ (f.F + g + 1) := by
    rw [pow_succ, p1, hYd]
    split_ifs
    · rw [Nat.add_mul]; omega
    · rw [Nat.mul_assoc]; omega
  have hval := far_value (f := f) e1 e2 small h12 Y g hYd
  have hst : sticky Y (e1 - e2) < 2 ^ (f.F + g) := sticky_lt (by omega) (by omega) hY
  have hYW : Y < 2 ^ f.W := by rw [W_pow, p3]; rw [pow_succ, p1] at hY; omega
  have hsim0 : Sim 2 ((2 ^ f.F + big) * 2 ^ g + sticky Y (e1 - e2)) (((2 ^ f.F + big) * 2 ^ g : ℕ) + (Y : ℚ) / 2 ^ (e1 - e2)) :=
    sim_add (Dvd.dvd.mul_left hd2 _) (sim_sticky _ _)
  have hdef : f.addFar s e1 big e2 small (e1 - e2) =
      if (2 ^ f.F + big) * 2 ^ g + sticky Y (e1 - e2) < 2 ^ (f.F + f.G)
      then f.roundPack s ((e1 : ℤ) - 1) (((2 ^ f.F + big) * 2 ^ g + sticky Y (e1 - e2)) * 2)
      else f.roundPack s e1 ((2 ^ f.F + big) * 2 ^ g + sticky Y (e1 - e2)) := by
    unfold addFar
    simp only
    rw [w3, w2, hg, Nat.add_sub_cancel, p1]
    rw [Nat.mod_eq_of_lt (show big * 2 ^ g < 2 ^ f.fast by omega), Nat.mod_eq_of_lt (show small * 2 ^ g < 2 ^ f.fast by omega)]
    have hYe : (small * 2 ^ g + if e2 ≠ 0 then 2 ^ f.F * 2 ^ g else small * 2 ^ g) % 2 ^ f.fast = Y := by
      rw [hYd]
      split_ifs
      · rw [Nat.mod_eq_of_lt (show small * 2 ^ g + 2 ^ f.F * 2 ^ g < 2 ^ f.fast by omega)]; ring
      · rw [Nat.mod_eq_of_lt (show small * 2 ^ g + small * 2 ^ g < 2 ^ f.fast by omega)]; ring
    rw [hYe, Nat.mod_eq_of_lt hYW, jam_eq ok hYW (by omega)]
    rw [p1] at hst
    rw [Nat.mod_eq_of_lt (show 2 ^ f.F * 2 ^ g + big * 2 ^ g + sticky Y (e1 - e2) < 2 ^ f.fast by omega), ← Nat.add_mul]
    have hC : (2 ^ f.F + big) * 2 ^ g = 2 ^ f.F * 2 ^ g + big * 2 ^ g := Nat.add_mul _ _ _
    split_ifs with hc
    · rw [Nat.mod_eq_of_lt]
      rw [← hg, p2] at hc
      omega
    · rfl
  rw [hdef]
  have hC : (2 ^ f.F + big) * 2 ^ g = 2 ^ f.F * 2 ^ g + big * 2 ^ g := Nat.add_mul _ _ _
  have hq : f.mag e1 big + f.mag e2 small =
      (((2 ^ f.F + big) * 2 ^ g : ℕ) + (Y : ℚ) / 2 ^ (e1 - e2)) / 2 ^ g * 2 ^ ((e1 : ℤ) - 1 + leastExp f.E f.F) := by
    rw [add_div, add_mul, hval, mag_pos_value (by omega)]
    push_cast
    have : (2 : ℚ) ^ g ≠ 0 := by positivity
    field_simp
  have hge : (0 : ℤ) ≤ (e1 : ℤ) - 1 := by omega
  have hle : (e1 : ℤ) < ((2 ^ f.E : ℕ) : ℤ) := by rw [hT]; push_cast; omega
  split_ifs with hc
  · have := roundPack_rounded ok s (exp := (e1 : ℤ) - 1)
      (sim_mono (h' := 2 ^ (f.G - 1)) (by rw [hg, Nat.add_sub_cancel]; exact hd4) (sim_mul (c := 2) (by norm_num) hsim0))
      (by rw [p2]; omega) (by rw [p3]; rw [p2] at hc; omega)
      (by have : (0 : ℤ) < 2 ^ (f.cast - 1) := by positivity
          linarith) (by omega)
    refine ⟨?_, this.2⟩
    rw [hq]
    convert this.1 using 2
    rw [sg_if]
    rw [hg, pow_succ]
    have : (2 : ℚ) ^ g ≠ 0 := by positivity
    push_cast
    field_simp
  · have := roundPack_rounded ok s (exp := (e1 : ℤ))
      (sim_mono (h' := 2 ^ (f.G - 1)) (by rw [hg, Nat.add_sub_cancel]; exact hd2) hsim0)
      (by omega) (by rw [p3]; rw [p1] at hst; omega)
      (by have : (0 : ℤ) < 2 ^ (f.cast - 1) := by positivity
          linarith) (by omega)
    refine ⟨?_, this.2⟩
    rw [hq]
    convert this.1 using 2
    rw [sg_if]
    rw [show (e1 : ℤ) + leastExp f.E f.F = 1 + ((e1 : ℤ) - 1 + leastExp f.E f.F) by ring,
      zpow_add₀ (by norm_num) (1 : ℤ), hg, pow_succ]
    have : (2 : ℚ) ^ g ≠ 0 := by positivity
    push_cast
    field_simp

theorem clz_eq (ok : f.Ok) {x : ℕ} (h0 : x ≠ 0) (hx : x < 2 ^ (f.E + f.F)) :
    f.clz x = f.E + f.F - Nat.log2 x ∧ Nat.log2 x + 1 ≤ f.E + f.F := by
  have hl : Nat.log2 x < f.E + f.F := (Nat.log2_lt h0).mpr hx
  unfold clz
  rw [Nat.mod_eq_of_lt (by rw [W_pow]; omega), if_neg h0, ok.facts.1]
  exact ⟨rfl, hl⟩

theorem normRoundPack_rounded (ok : f.Ok) (s : Bool) {exp : ℤ} {sig : ℕ} {X : ℚ} (h0 : 0 < sig) (hlt : sig < 2 ^ (f.E + f.F))
    (hs : Sim 2 sig X) (hx : X = sig ∨ 2 ^ (f.F + f.G) ≤ sig * 2) (he1 : 0 ≤ exp) (he2 : exp < ((2 ^ f.E : ℕ) : ℤ)) :
    ∃ z, f.normRoundPack s exp sig = some z ∧
      RoundedGradual f.E f.F (sg s * (X / 2 ^ f.G * 2 ^ (exp + leastExp f.E f.F))) (wordDatum f.E f.F z) ∧ z < 2 ^ f.W := by
  obtain ⟨w1, w2, w3, g3, eg⟩ := ok.facts
  obtain ⟨T, hT, htop, hpe, hT4⟩ := top_pow ok
  have hfl := ok.fast_le
  have hcb := ok.cast_bounds
  have hEF := ok.hF
  obtain ⟨hc, hlog⟩ := clz_eq ok h0.ne' hlt
  obtain ⟨l1, l2⟩ := log2_spec h0.ne'
  set k := Nat.log2 sig with hk
  obtain ⟨sh, hsh⟩ : ∃ sh, k + sh = f.F + f.G := ⟨f.F + f.G - k, by omega⟩
  have hshd : (f.clz sig : ℤ) - 1 = sh := by rw [hc]; omega
  have hfast := ok.hfast
  have hW : f.W = f.F + f.G + 2 := by simp only [W]; omega
  have hmul1 : 2 ^ (f.F + f.G) ≤ sig * 2 ^ sh := by rw [← hsh, pow_add]; exact Nat.mul_le_mul_right _ l1
  have hmul2 : sig * 2 ^ sh < 2 ^ (f.E + f.F) := by
    rw [show f.E + f.F = k + 1 + sh by omega, pow_add]; exact Nat.mul_lt_mul_of_pos_right l2 (by positivity)
  have hexact : 2 ≤ sh → X = sig := by
    intro h2
    rcases hx with h | h
    · exact h
    · exfalso
      have e4 : 2 ^ (f.F + f.G) = 2 ^ (k + 1) * 2 ^ (sh - 1) := by rw [← pow_add]; congr 1; omega
      have : 2 ≤ 2 ^ (sh - 1) := by
        calc 2 = 2 ^ 1 := rfl
          _ ≤ _ := Nat.pow_le_pow_right (by norm_num) (by omega)
      have : 2 ^ (k + 1) * 2 ≤ 2 ^ (k + 1) * 2 ^ (sh - 1) := Nat.mul_le_mul_left _ this
      omega
  unfold normRoundPack
  simp only [hshd]
  have h32 := ok.h32
  have hsF : (sh : ℤ) ≤ 2 * f.F := by omega
  have hmodr : exp - (sh : ℤ) < 0 → (2 : ℤ) ^ 31 < (exp - sh) % 2 ^ 32 := by
    intro hneg
    rw [← Int.add_mul_emod_self_left (exp - sh) (2 ^ 32) 1, Int.emod_eq_of_lt (by omega) (by omega)]
    omega
  by_cases hbr : (f.G : ℤ) ≤ sh ∧ (exp - sh) % 2 ^ 32 < (f.top : ℤ) - 2
  · rw [if_pos hbr]
    have hge : 0 ≤ exp - (sh : ℤ) := by
      by_contra hneg
      have := hmodr (by omega)
      rw [htop] at hbr
      omega
    rw [Int.emod_eq_of_lt hge (by omega)] at hbr
    obtain ⟨t, ht⟩ : ∃ t : ℕ, exp - sh = t := ⟨(exp - sh).toNat, by omega⟩
    obtain ⟨j, hj⟩ : ∃ j, sh = f.G + j := ⟨sh - f.G, by omega⟩
    have hj2 : (sh : ℤ) - f.G = j := by omega
    have hq1 : 2 ^ f.F ≤ sig * 2 ^ j := by
      rw [hj, pow_add, pow_add] at hmul1
      have h1 : 2 ^ f.F * 2 ^ f.G ≤ sig * 2 ^ j * 2 ^ f.G := by calc _ ≤ _ := hmul1
            _ = _ := by ring
      exact Nat.le_of_mul_le_mul_right h1 (by positivity)
    have hq2 : sig * 2 ^ j < 2 ^ (f.F + 1) := by
      rw [hj, pow_add, show f.E + f.F = f.F + 1 + f.G by omega, pow_add 2 (f.F + 1)] at hmul2
      have h1 : sig * 2 ^ j * 2 ^ f.G < 2 ^ (f.F + 1) * 2 ^ f.G := by calc _ = _ := by ring
            _ < _ := hmul2
      exact lt_of_mul_lt_mul_right h1 (Nat.zero_le _)
    have hshl : f.shl sig ((sh : ℤ) - f.G) = some (sig * 2 ^ j) := by
      unfold shl
      rw [hj2, if_pos ⟨by omega, by omega⟩, Int.toNat_natCast, Nat.mod_eq_of_lt]
      have : 2 ^ (f.F + 1) ≤ 2 ^ (f.E + f.F) := Nat.pow_le_pow_right (by norm_num) (by omega)
      omega
    rw [hshl, Option.map_some, if_pos (by omega), ht]
    refine ⟨_, rfl, ?_⟩
    have hF := Nat.two_pow_pos f.F
    have hte : (t + 2) * 2 ^ f.F ≤ f.top * 2 ^ f.F := Nat.mul_le_mul_right _ (by omega)
    have h2F : 2 ^ (f.F + 1) = 2 * 2 ^ f.F := by rw [pow_succ]; ring
    have := exact_rounded ok s (q := sig * 2 ^ j) (t := t) (by omega) (Or.inl hq1) hq2 (by rw [Nat.add_mul] at hte; omega)
    refine ⟨?_, this.2⟩
    convert this.1 using 2
    rw [hexact (by omega), ← ht]
    rw [show exp + leastExp f.E f.F = (sh : ℤ) + (exp - sh + leastExp f.E f.F) by ring, zpow_add₀ (by norm_num) (sh : ℤ),
      zpow_natCast, hj, pow_add]
    push_cast
    have : (2 : ℚ) ^ f.G ≠ 0 := by positivity
    field_simp
  · rw [if_neg hbr]
    have hshl : f.shl sig (sh : ℤ) = some (sig * 2 ^ sh) := by
      unfold shl
      rw [if_pos ⟨by omega, by omega⟩, Int.toNat_natCast, Nat.mod_eq_of_lt]
      omega
    rw [hshl, Option.map_some]
    refine ⟨_, rfl, ?_⟩
    have hsim : Sim (2 ^ (f.G - 1)) (sig * 2 ^ sh) (X * (2 ^ sh : ℕ)) := by
      by_cases h2 : 2 ≤ sh
      · rw [hexact h2, ← Nat.cast_mul]; exact sim_self _ _
      · refine sim_mono ?_ (sim_mul (Nat.two_pow_pos sh) hs)
        obtain ⟨m, hm⟩ : ∃ m, f.G - 1 = m + 2 := ⟨f.G - 3, by omega⟩
        rw [hm, ← pow_succ']
        exact pow_dvd_pow 2 (by omega)
    have := roundPack_rounded ok s (exp := exp - sh) hsim hmul1 hmul2 (by omega) (by omega)
    refine ⟨?_, this.2⟩
    convert this.1 using 2
    rw [sg_if]
    rw [show exp + leastExp f.E f.F = (sh : ℤ) + (exp - sh + leastExp f.E f.F) by ring, zpow_add₀ (by norm_num) (sh : ℤ),
      zpow_natCast]
    push_cast
    ring

theorem subFar_rounded (ok : f.Ok) (s : Bool) {e1 e2 big small : ℕ} (h12 : e2 < e1) (ht : e1 < f.top)
    (hb : big < 2 ^ f.F) (hs : small < 2 ^ f.F) :
    ∃ z, f.subFar s e1 big e2 small (e1 - e2) = some z ∧
      RoundedGradual f.E f.F (sg s * (f.mag e1 big - f.mag e2 small)) (wordDatum f.E f.F z) ∧ z < 2 ^ f.W := by
  obtain ⟨w1, w2, w3, g3, eg⟩ := ok.facts
  obtain ⟨T, hT, htop, hpe, hT4⟩ := top_pow ok
  have hfl := ok.fast_le
  have hgp := Nat.two_pow_pos f.G
  have hF := Nat.two_pow_pos f.F
  have p1 : 2 ^ (f.F + f.G) = 2 ^ f.F * 2 ^ f.G := pow_add _ _ _
  have p3 : 2 ^ (f.E + f.F) = 2 * (2 ^ f.F * 2 ^ f.G) := by
    rw [eg, show f.G + 1 + f.F = f.F + f.G + 1 by omega, pow_succ, p1]; ring
  have b1 : big * 2 ^ f.G < 2 ^ f.F * 2 ^ f.G := Nat.mul_lt_mul_of_pos_right hb hgp
  have b2 : small * 2 ^ f.G < 2 ^ f.F * 2 ^ f.G := Nat.mul_lt_mul_of_pos_right hs hgp
  have hd2 : 2 ∣ 2 ^ f.G := ⟨2 ^ (f.G - 1), by rw [← pow_succ']; congr 1; omega⟩
  set Y := if e2 ≠ 0 then (2 ^ f.F + small) * 2 ^ f.G else 2 * small * 2 ^ f.G with hYd
  have hY : Y < 2 ^ (f.F + f.G + 1) := by
    rw [pow_succ, p1, hYd]
    split_ifs
    · rw [Nat.add_mul]; omega
    · rw [Nat.mul_assoc]; omega
  have hY2 : 2 ∣ Y := by rw [hYd]; split_ifs <;> exact Dvd.dvd.mul_left hd2 _
  have hval := far_value (f := f) e1 e2 small h12 Y f.G hYd
  have hst : sticky Y (e1 - e2) < 2 ^ (f.F + f.G) := sticky_lt (by omega) (by omega) hY
  have hYW : Y < 2 ^ f.W := by rw [W_pow, p3]; rw [pow_succ, p1] at hY; omega
  have hC : (2 ^ f.F + big) * 2 ^ f.G = 2 ^ f.F * 2 ^ f.G + big * 2 ^ f.G := Nat.add_mul _ _ _
  rw [p1] at hst
  have hsim0 : Sim 2 ((2 ^ f.F + big) * 2 ^ f.G - sticky Y (e1 - e2)) (((2 ^ f.F + big) * 2 ^ f.G : ℕ) - (Y : ℚ) / 2 ^ (e1 - e2)) :=
    sim_sub (Dvd.dvd.mul_left hd2 _) (by omega) (sim_sticky _ _)
  have hor : big * 2 ^ f.G ||| 2 ^ f.F * 2 ^ f.G = (2 ^ f.F + big) * 2 ^ f.G := by
    have h1 := Nat.two_pow_add_eq_or_of_lt (show big * 2 ^ f.G < 2 ^ (f.F + f.G) by rw [p1]; exact b1) 1
    rw [Nat.mul_one, p1] at h1
    rw [Nat.or_comm, ← h1, hC]
  have hdef : f.subFar s e1 big e2 small (e1 - e2) =
      f.normRoundPack s ((e1 : ℤ) - 1) ((2 ^ f.F + big) * 2 ^ f.G - sticky Y (e1 - e2)) := by
    unfold subFar
    simp only
    rw [w2, p1]
    rw [Nat.mod_eq_of_lt (show big * 2 ^ f.G < 2 ^ f.fast by omega), Nat.mod_eq_of_lt (show small * 2 ^ f.G < 2 ^ f.fast by omega)]
    have hYe : (small * 2 ^ f.G + if e2 ≠ 0 then 2 ^ f.F * 2 ^ f.G else small * 2 ^ f.G) % 2 ^ f.fast = Y := by
      rw [hYd]
      split_ifs
      · rw [Nat.mod_eq_of_lt (show small * 2 ^ f.G + 2 ^ f.F * 2 ^ f.G < 2 ^ f.fast by omega)]; ring
      · rw [Nat.mod_eq_of_lt (show small * 2 ^ f.G + small * 2 ^ f.G < 2 ^ f.fast by omega)]; ring
    rw [hYe, Nat.mod_eq_of_lt hYW, jam_eq ok hYW (by omega), hor]
    congr 1
    rw [show (2 ^ f.F + big) * 2 ^ f.G + 2 ^ f.fast - sticky Y (e1 - e2) = (2 ^ f.F + big) * 2 ^ f.G - sticky Y (e1 - e2) + 2 ^ f.fast by omega,
      Nat.add_mod_right, Nat.mod_eq_of_lt]
    omega
  rw [hdef]
  have hq : f.mag e1 big - f.mag e2 small =
      (((2 ^ f.F + big) * 2 ^ f.G : ℕ) - (Y : ℚ) / 2 ^ (e1 - e2)) / 2 ^ f.G * 2 ^ ((e1 : ℤ) - 1 + leastExp f.E f.F) := by
    rw [sub_div, sub_mul, hval, mag_pos_value (by omega)]
    push_cast
    have : (2 : ℚ) ^ f.G ≠ 0 := by positivity
    field_simp
  rw [hq]
  refine normRoundPack_rounded ok s (by omega) (by rw [p3]; omega) hsim0 ?_ (by omega) (by rw [hT]; push_cast; omega)
  by_cases hd : e1 - e2 = 1
  · left
    rw [hd, pow_one, Nat.cast_sub (by rw [← hd]; omega)]
    congr 1
    obtain ⟨y, hy⟩ := hY2
    unfold sticky
    rw [if_pos (by rw [hy]; simp), pow_one, hy, Nat.mul_div_cancel_left _ (by norm_num)]
    push_cast; field_simp
  · right
    rw [p1]
    have h1 : sticky Y (e1 - e2) < 2 ^ (f.F + f.G - 1) := by
      have hs2 : sticky Y (e1 - e2) ≤ Y / 2 ^ (e1 - e2) + 1 := by
        unfold sticky; split_ifs <;> omega
      have h3 : Y / 2 ^ (e1 - e2) < 2 ^ (f.F + f.G - 1) := by
        rw [Nat.div_lt_iff_lt_mul (by positivity), ← pow_add]
        exact lt_of_lt_of_le hY (Nat.pow_le_pow_right (by norm_num) (by omega))
      have h4 : sticky Y (e1 - e2) ≤ Y / 2 ^ (e1 - e2) / 2 * 2 + 1 := by
        unfold sticky; split_ifs <;> omega
      obtain ⟨m, hm⟩ : ∃ m, f.F + f.G - 1 = m + 1 := ⟨f.F + f.G - 2, by omega⟩
      rw [hm, pow_succ] at h3 ⊢
      omega
    have h5 : 2 ^ (f.F + f.G) = 2 * 2 ^ (f.F + f.G - 1) := by rw [← pow_succ']; congr 1; omega
    rw [p1] at h5
    omega

theorem subNear_rounded (ok : f.Ok) (s : Bool) {e sA sB : ℕ} (ht : e < f.top) (hA : sA < 2 ^ f.F) (hB : sB < 2 ^ f.F) :
    ∃ z, f.subNear s e sA sB = some z ∧ z < 2 ^ f.W ∧
      if sA = sB then wordDatum f.E f.F z = .zero false
      else RoundedGradual f.E f.F (sg s * (f.mag e sA - f.mag e sB)) (wordDatum f.E f.F z) := by
  obtain ⟨w1, w2, w3, g3, eg⟩ := ok.facts
  obtain ⟨T, hT, htop, hpe, hT4⟩ := top_pow ok
  have hfl := ok.fast_le
  have hEF := ok.hF
  have hfast := ok.hfast
  have hW : f.W = f.F + f.G + 2 := by simp only [W]; omega
  have hF := Nat.two_pow_pos f.F
  unfold subNear
  simp only
  by_cases h0 : sA = sB
  · rw [if_pos (by omega)]
    refine ⟨_, rfl, (pack_zero ok false).2, ?_⟩
    rw [if_pos h0]; exact (pack_zero ok false).1
  rw [if_neg (by omega)]
  simp only [if_neg h0]
  set D := ((sA : ℤ) - sB).natAbs with hD
  have hD0 : D ≠ 0 := by omega
  have hDF : D < 2 ^ f.F := by omega
  have hDEF : D < 2 ^ (f.E + f.F) := lt_of_lt_of_le hDF (Nat.pow_le_pow_right (by norm_num) (by omega))
  obtain ⟨hc, hlog⟩ := clz_eq ok hD0 hDEF
  obtain ⟨l1, l2⟩ := log2_spec hD0
  have hkF : Nat.log2 D < f.F := (Nat.log2_lt hD0).mpr hDF
  set k := Nat.log2 D with hk
  obtain ⟨sh, hsh⟩ : ∃ sh, k + sh = f.F := ⟨f.F - k, by omega⟩
  have hshd : (f.clz D : ℤ) - f.E = sh := by rw [hc]; omega
  have htO : (if e ≠ 0 then e - 1 else e) = tOf e := by unfold tOf; split_ifs <;> omega
  have htb : tOf e < f.top := by unfold tOf; split_ifs <;> omega
  rw [htO, hshd]
  have h2F : 2 ^ (f.F + 1) = 2 * 2 ^ f.F := by rw [pow_succ]; ring
  have m1 : 2 ^ f.F ≤ D * 2 ^ sh := by rw [← hsh, pow_add]; exact Nat.mul_le_mul_right _ l1
  have m2 : D * 2 ^ sh < 2 ^ (f.F + 1) := by
    rw [show f.F + 1 = k + 1 + sh by omega, pow_add]; exact Nat.mul_lt_mul_of_pos_right l2 (by positivity)
  have hFE : 2 ^ (f.F + 1) ≤ 2 ^ (f.E + f.F) := Nat.pow_le_pow_right (by norm_num) (by omega)
  have hval : sg s * (f.mag e sA - f.mag e sB) =
      sg (if (sA : ℤ) - sB < 0 then !s else s) * ((D : ℚ) * 2 ^ ((tOf e : ℤ) + leastExp f.E f.F)) := by
    have h1 : f.mag e sA - f.mag e sB = ((sA : ℚ) - sB) * 2 ^ ((tOf e : ℤ) + leastExp f.E f.F) := by
      unfold mag sigOf
      split_ifs
      · ring
      · push_cast; ring
    have h2 : (D : ℚ) = |(sA : ℚ) - sB| := by
      rw [hD]
      have := Nat.cast_natAbs (α := ℚ) ((sA : ℤ) - sB)
      rw [this]; push_cast; rfl
    rw [h1, h2]
    by_cases hneg : (sA : ℤ) - sB < 0
    · rw [if_pos hneg, sg_not, abs_of_neg (by have : (sA : ℚ) < sB := by exact_mod_cast (show (sA : ℤ) < sB by omega)
                                              linarith)]
      ring
    · rw [if_neg hneg, abs_of_nonneg (by have : (sB : ℚ) ≤ sA := by exact_mod_cast (show (sB : ℤ) ≤ sA by omega)
                                         linarith)]
  rw [hval]
  generalize (if (sA : ℤ) - sB < 0 then !s else s) = s'
  by_cases hz : (tOf e : ℤ) - sh < 0
  · rw [if_pos hz]
    have m3 : D * 2 ^ tOf e < 2 ^ f.F := by
      calc D * 2 ^ tOf e < 2 ^ (k + 1) * 2 ^ tOf e := Nat.mul_lt_mul_of_pos_right l2 (by positivity)
        _ = 2 ^ (k + 1 + tOf e) := (pow_add _ _ _).symm
        _ ≤ 2 ^ f.F := Nat.pow_le_pow_right (by norm_num) (by omega)
    have hshl : f.shl D (tOf e : ℤ) = some (D * 2 ^ tOf e) := by
      unfold shl
      rw [if_pos ⟨by omega, by omega⟩, Int.toNat_natCast, Nat.mod_eq_of_lt (by omega)]
    rw [hshl, Option.map_some]
    have htF : f.top * 2 ^ f.F = T * 2 ^ f.F + 3 * 2 ^ f.F := by rw [htop]; ring
    have := exact_rounded ok s' (q := D * 2 ^ tOf e) (t := 0) (by positivity) (Or.inr rfl) (by omega) (by omega)
    rw [Nat.cast_zero] at this
    refine ⟨_, rfl, this.2, ?_⟩
    convert this.1 using 2
    rw [zpow_add₀ (by norm_num), zpow_natCast, zero_add]
    push_cast; ring
  · rw [if_neg hz]
    have hshl : f.shl D (sh : ℤ) = some (D * 2 ^ sh) := by
      unfold shl
      rw [if_pos ⟨by omega, by omega⟩, Int.toNat_natCast, Nat.mod_eq_of_lt (by omega)]
    rw [hshl, Option.map_some]
    obtain ⟨t, ht'⟩ : ∃ t : ℕ, (tOf e : ℤ) - sh = t := ⟨((tOf e : ℤ) - sh).toNat, by omega⟩
    have htF : (t + 2) * 2 ^ f.F ≤ f.top * 2 ^ f.F := Nat.mul_le_mul_right _ (by
      have : tOf e ≤ e - 1 := by unfold tOf; split_ifs <;> omega
      omega)
    rw [Nat.add_mul] at htF
    have := exact_rounded ok s' (q := D * 2 ^ sh) (t := t) (by omega) (Or.inl m1) m2 (by omega)
    rw [ht']
    refine ⟨_, rfl, this.2, ?_⟩
    convert this.1 using 2
    rw [show (tOf e : ℤ) = sh + t by omega, add_assoc, zpow_add₀ (by norm_num) (sh : ℤ), zpow_natCast]
    push_cast; ring

end SoftFmt
end Thls
