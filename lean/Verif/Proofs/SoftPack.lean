import Verif.Proofs.SoftSim

/-! # `softfloat_roundPackToF32`, `softfloat_roundPackToF64` round correctly -/

namespace Thls
open Spec

/-- What the proofs use of the constants; both formats satisfy it. -/
structure SoftFmt.Ok (f : SoftFmt) : Prop where
  hE : 4 ≤ f.E
  hF : f.E ≤ f.F
  hfast : f.W ≤ f.fast
  hcast : 2 ^ f.E + 4 * f.F < 2 ^ (f.cast - 2) ∧ 3 ≤ f.cast
  h32 : 2 ^ f.E + 4 * f.F < 2 ^ 30

theorem soft32_ok {fast : ℕ} (h : 32 ≤ fast) : (soft32 fast).Ok :=
  ⟨by simp [soft32], by simp [soft32], by simpa [soft32, SoftFmt.W] using h, by simp [soft32], by simp [soft32]⟩

theorem soft64_ok {fast : ℕ} (h : 64 ≤ fast) : (soft64 fast).Ok :=
  ⟨by simp [soft64], by simp [soft64], by simpa [soft64, SoftFmt.W] using h, by simp [soft64], by simp [soft64]⟩

namespace SoftFmt
variable {f : SoftFmt}

theorem Ok.facts (ok : f.Ok) : f.W - 1 = f.E + f.F ∧ f.W - 2 = f.F + f.G ∧ f.W - 3 = f.F + (f.G - 1) ∧ 3 ≤ f.G ∧ f.E = f.G + 1 := by
  have := ok.hE
  simp only [W, G]
  omega

theorem Ok.fast_le (ok : f.Ok) : 2 ^ (f.E + f.F) * 2 ≤ 2 ^ f.fast := by
  rw [← pow_succ]
  have := ok.hfast
  exact Nat.pow_le_pow_right (by norm_num) (by simp only [W] at this; omega)

theorem W_pow : 2 ^ f.W = 2 ^ (f.E + f.F) * 2 := by
  rw [← pow_succ]; congr 1; simp only [W]; omega

theorem pack_eq (ok : f.Ok) (sign : Bool) {t sig : ℕ} (h : t * 2 ^ f.F + sig < 2 ^ (f.E + f.F)) :
    f.pack sign t sig = sign.toNat * 2 ^ (f.E + f.F) + (sig + t * 2 ^ f.F) := by
  unfold pack
  have hF := Nat.two_pow_pos f.F
  have ht : t < 2 ^ f.W := by
    have : t ≤ t * 2 ^ f.F := Nat.le_mul_of_pos_right _ hF
    rw [W_pow]; omega
  have h1 : ((t : ℤ) % 2 ^ f.W).toNat = t := by
    have : (t : ℤ) % 2 ^ f.W = ((t % 2 ^ f.W : ℕ) : ℤ) := by push_cast; rfl
    rw [this, Int.toNat_natCast, Nat.mod_eq_of_lt ht]
  rw [h1, ok.facts.1, Nat.mod_eq_of_lt (show t * 2 ^ f.F < 2 ^ f.W by rw [W_pow]; omega)]
  have hs : sign.toNat * 2 ^ (f.E + f.F) ≤ 2 ^ (f.E + f.F) := by cases sign <;> simp
  rw [Nat.mod_eq_of_lt (by rw [W_pow]; omega)]
  ring

theorem jam_eq (ok : f.Ok) {a d : ℕ} (ha : a < 2 ^ f.W) (hd : 1 ≤ d) : f.jam a d = sticky a d := by
  unfold jam
  have hW : 4 ≤ f.W := by have := ok.hE; simp only [W]; omega
  by_cases h : d < f.W - 1
  · rw [if_pos h, ← lor_sticky]
    congr 1
    rw [Nat.mod_eq_of_lt (show d < f.W by omega), Nat.mod_eq_of_lt (show f.W - d < f.W by omega)]
    have hp : 2 ^ f.W = 2 ^ d * 2 ^ (f.W - d) := by rw [← pow_add]; congr 1; omega
    rw [hp, Nat.mul_mod_mul_right]
    have : a % 2 ^ d * 2 ^ (f.W - d) ≠ 0 ↔ a % 2 ^ d ≠ 0 := by
      rw [ne_eq, Nat.mul_eq_zero]
      have := Nat.two_pow_pos (f.W - d)
      omega
    simp only [this]
  · rw [if_neg h]
    have hlt : a / 2 ^ d < 2 := by
      rw [Nat.div_lt_iff_lt_mul (by positivity)]
      calc a < 2 ^ f.W := ha
        _ ≤ 2 ^ (d + 1) := Nat.pow_le_pow_right (by norm_num) (by omega)
        _ = 2 * 2 ^ d := by rw [pow_succ]; ring
    unfold sticky
    have hdm : 2 ^ d * (a / 2 ^ d) + a % 2 ^ d = a := Nat.div_add_mod _ _
    have hp := Nat.two_pow_pos d
    generalize a / 2 ^ d = q at *
    generalize a % 2 ^ d = r at *
    by_cases h0 : a = 0
    · have hr : r = 0 := by omega
      have hq : q = 0 := by
        rcases Nat.eq_zero_or_pos q with h2 | h2
        · exact h2
        · have := Nat.mul_le_mul_left (2 ^ d) h2
          omega
      rw [hr, hq, if_pos rfl, h0]; rfl
    · rw [if_pos h0]
      split_ifs with h1
      · rcases Nat.lt_or_ge q 1 with h2 | h2
        · have : q = 0 := by omega
          rw [this, Nat.mul_zero, h1] at hdm; omega
        · omega
      · omega

theorem sticky_lt {a d K : ℕ} (hd : 1 ≤ d) (hK : 1 ≤ K) (ha : a < 2 ^ (K + 1)) : sticky a d < 2 ^ K := by
  have h1 : a / 2 ^ d < 2 ^ K := by
    rw [Nat.div_lt_iff_lt_mul (by positivity)]
    calc a < 2 ^ (K + 1) := ha
      _ = 2 ^ K * 2 ^ 1 := by rw [pow_succ, pow_one]
      _ ≤ 2 ^ K * 2 ^ d := Nat.mul_le_mul_left _ (Nat.pow_le_pow_right (by norm_num) hd)
  obtain ⟨k, rfl⟩ : ∃ k, K = k + 1 := ⟨K - 1, by omega⟩
  have h2 : 2 ^ (k + 1) = 2 * 2 ^ k := by rw [pow_succ]; ring
  unfold sticky
  split_ifs <;> omega

theorem roundFinish_eq (ok : f.Ok) (sign : Bool) {t sig : ℕ} (hsig : sig < 2 ^ (f.E + f.F))
    (hn : 2 ^ f.F ≤ roundShift sig f.G ∨ t = 0) (h : roundShift sig f.G + t * 2 ^ f.F < 2 ^ (f.E + f.F)) :
    f.roundFinish sign t sig = sign.toNat * 2 ^ (f.E + f.F) + (roundShift sig f.G + t * 2 ^ f.F) := by
  obtain ⟨p, hp⟩ : ∃ p, f.G = p + 1 := ⟨f.G - 1, by have := ok.facts; omega⟩
  have hpp : 2 ^ (p + 1) = 2 * 2 ^ p := by rw [pow_succ]; ring
  have hle : 2 ^ p ≤ 2 ^ (f.E + f.F) := Nat.pow_le_pow_right (by norm_num) (by have := ok.facts; omega)
  have hfl := ok.fast_le
  unfold roundFinish
  simp only
  rw [Nat.mod_eq_of_lt (show sig + 2 ^ (f.G - 1) < 2 ^ f.fast by rw [hp, Nat.add_sub_cancel]; omega)]
  have hr : (if sig % 2 ^ f.G = 2 ^ (f.G - 1) then (sig + 2 ^ (f.G - 1)) / 2 ^ f.G / 2 * 2 else (sig + 2 ^ (f.G - 1)) / 2 ^ f.G)
      = roundShift sig f.G := by
    rw [hp, Nat.add_sub_cancel]
    unfold roundShift
    simp only
    have hdm : 2 ^ (p + 1) * (sig / 2 ^ (p + 1)) + sig % 2 ^ (p + 1) = sig := Nat.div_add_mod _ _
    have hml : sig % 2 ^ (p + 1) < 2 ^ (p + 1) := Nat.mod_lt _ (by positivity)
    have hd : (sig + 2 ^ p) / 2 ^ (p + 1) = sig / 2 ^ (p + 1) + (if 2 ^ p ≤ sig % 2 ^ (p + 1) then 1 else 0) := by
      generalize sig / 2 ^ (p + 1) = n at *
      generalize sig % 2 ^ (p + 1) = r at *
      rw [← hdm, Nat.add_assoc, Nat.mul_add_div (by positivity)]
      congr 1
      split_ifs with h1
      · rw [Nat.div_eq_iff (by positivity)]; omega
      · rw [Nat.div_eq_of_lt]; omega
    rw [hd]
    generalize sig / 2 ^ (p + 1) = n at *
    generalize sig % 2 ^ (p + 1) = r at *
    split_ifs <;> omega
  rw [hr]
  have hz : (if roundShift sig f.G = 0 then (0 : ℤ) else (t : ℤ)) = ((t : ℕ) : ℤ) := by
    split_ifs with h0
    · have := Nat.two_pow_pos f.F
      have : t = 0 := by omega
      rw [this]; rfl
    · rfl
  rw [hz, pack_eq ok sign (by omega)]

theorem top_pow (ok : f.Ok) : ∃ T, 2 ^ f.E = T + 4 ∧ f.top = T + 3 ∧ 2 ^ (f.E + f.F) = T * 2 ^ f.F + 4 * 2 ^ f.F ∧ 4 ≤ T := by
  have h : 2 ^ 3 ≤ 2 ^ f.E := Nat.pow_le_pow_right (by norm_num) (by have := ok.hE; omega)
  refine ⟨2 ^ f.E - 4, by omega, by simp only [top]; omega, ?_, by omega⟩
  rw [pow_add, ← Nat.add_mul]; congr 1; omega

theorem roundShift_bounds {s g K : ℕ} (hlo : 2 ^ (K + g) ≤ s) (hhi : s < 2 ^ (K + g + 1)) :
    2 ^ K ≤ s / 2 ^ g ∧ s / 2 ^ g < 2 ^ (K + 1) ∧ s / 2 ^ g ≤ roundShift s g ∧ roundShift s g ≤ s / 2 ^ g + 1 := by
  refine ⟨?_, ?_, ?_, ?_⟩
  · rw [Nat.le_div_iff_mul_le (by positivity), ← pow_add]; exact hlo
  · rw [Nat.div_lt_iff_lt_mul (by positivity), ← pow_add]
    convert hhi using 2; omega
  · rcases roundShift_spec s g with h | h <;> omega
  · rcases roundShift_spec s g with h | h <;> omega

/-- The rounding of a normalised significand (a bit at `F+G`), whatever its exponent. -/
theorem roundPack_rounded (ok : f.Ok) (sign : Bool) {exp : ℤ} {sig : ℕ} {X : ℚ} (hs : Sim (2 ^ (f.G - 1)) sig X)
    (hlo : 2 ^ (f.F + f.G) ≤ sig) (hhi : sig < 2 ^ (f.E + f.F)) (he1 : -2 ^ (f.cast - 1) ≤ exp) (he2 : exp < 2 ^ (f.cast - 1)) :
    RoundedGradual f.E f.F ((if sign then -1 else 1) * (X / 2 ^ f.G * 2 ^ (exp + leastExp f.E f.F)))
      (wordDatum f.E f.F (f.roundPack sign exp sig)) ∧ f.roundPack sign exp sig < 2 ^ f.W := by
  obtain ⟨w1, w2, w3, g2, eg⟩ := ok.facts
  obtain ⟨T, hT, htop, hpe, hT4⟩ := top_pow ok
  have hF := Nat.two_pow_pos f.F
  have h2F : 2 ^ (f.F + 1) = 2 * 2 ^ f.F := by rw [pow_succ]; ring
  have hE2 : 2 ≤ f.E := by omega
  have hF1 : 1 ≤ f.F := by have := ok.hF; omega
  have hhi' : sig < 2 ^ (f.F + f.G + 1) := by rw [show f.F + f.G + 1 = f.E + f.F by omega]; exact hhi
  have hcast : (2 : ℤ) ^ f.cast = 2 * 2 ^ (f.cast - 1) := by
    rw [← pow_succ']; congr 1; have := ok.hcast.2; omega
  have hc2 : (2 : ℤ) ^ f.E ≤ 2 ^ (f.cast - 1) := by
    have h1 : 2 ^ f.E ≤ 2 ^ (f.cast - 2) := by have := ok.hcast.1; omega
    have h2 : 2 ^ (f.cast - 2) ≤ 2 ^ (f.cast - 1) := Nat.pow_le_pow_right (by norm_num) (by omega)
    exact_mod_cast le_trans h1 h2
  have hTz : (2 : ℤ) ^ f.E = T + 4 := by exact_mod_cast hT
  have hX : 0 < X := by
    have hd : 2 ^ (f.G - 1) ∣ 2 ^ (f.F + f.G) := pow_dvd_pow 2 (by omega)
    have := (sim_ge hs hd).mp hlo
    push_cast at this
    exact lt_of_lt_of_le (by positivity) this
  have hpt : (2 ^ f.E - 1) * 2 ^ f.F = T * 2 ^ f.F + 3 * 2 ^ f.F := by
    rw [← Nat.add_mul, show 2 ^ f.E - 1 = T + 3 by omega]
  rcases lt_or_ge exp 0 with hneg | hpos
  · -- denormals
    obtain ⟨d, hd⟩ : ∃ d : ℕ, exp = -(d : ℤ) := ⟨(-exp).toNat, by omega⟩
    have hd1 : 1 ≤ d := by omega
    have hmod : exp % 2 ^ f.cast = exp + 2 ^ f.cast := by
      rw [← Int.add_emod_right]
      exact Int.emod_eq_of_lt (by omega) (by omega)
    have hcond : (f.top : ℤ) - 2 ≤ exp % 2 ^ f.cast := by rw [hmod, htop]; push_cast; omega
    have hW : sig < 2 ^ f.W := by rw [W_pow]; omega
    have hdn : (-exp).toNat = d := by omega
    have h2 : (2 : ℕ) ∣ 2 ^ (f.G - 1) := dvd_pow_self 2 (by omega)
    have hss := sim_sticky_of h2 hs d
    have hsl : sticky sig d < 2 ^ (f.F + f.G) := sticky_lt hd1 (by omega) hhi'
    have hq1 : sticky sig d / 2 ^ f.G < 2 ^ f.F := by
      rw [Nat.div_lt_iff_lt_mul (by positivity), ← pow_add]; exact hsl
    have hq2 : roundShift (sticky sig d) f.G ≤ 2 ^ f.F := by
      rcases roundShift_spec (sticky sig d) f.G with h | h <;> omega
    have e1 : 2 ^ (f.F + f.G) ≤ 2 ^ (f.E + f.F) := Nat.pow_le_pow_right (by norm_num) (by omega)
    have hval : f.roundPack sign exp sig = sign.toNat * 2 ^ (f.E + f.F) + (roundShift (sticky sig d) f.G + 0 * 2 ^ f.F) := by
      unfold roundPack
      rw [if_pos hcond, if_pos hneg, Nat.mod_eq_of_lt hW, hdn, jam_eq ok hW hd1]
      exact roundFinish_eq ok sign (t := 0) (by omega) (Or.inr rfl) (by omega)
    have hno : ¬ (2 ^ f.E - 1) * 2 ^ f.F ≤ roundShift (sticky sig d) f.G + 0 * 2 ^ f.F := by omega
    constructor
    · have := rounded_of_choice (E := f.E) (F := f.F) (t := 0) hE2 hF1 sign
        (x := X / 2 ^ d / 2 ^ f.G * 2 ^ (((0 : ℕ) : ℤ) + leastExp f.E f.F)) (by have := two_zpow_pos (((0 : ℕ) : ℤ) + leastExp f.E f.F); positivity)
        (Or.inr rfl) (by omega) (choice_of_sim (by omega) hss _)
      rw [if_neg hno, ← hval] at this
      convert this using 2
      rw [hd, zpow_add₀ (by norm_num), zpow_add₀ (by norm_num), zpow_neg, zpow_natCast]
      push_cast
      field_simp
    · rw [hval, W_pow]
      have : sign.toNat ≤ 1 := by cases sign <;> simp
      have : sign.toNat * 2 ^ (f.E + f.F) ≤ 1 * 2 ^ (f.E + f.F) := Nat.mul_le_mul_right _ this
      omega
  · obtain ⟨t, rfl⟩ : ∃ t : ℕ, exp = t := ⟨exp.toNat, by omega⟩
    have hmod : (t : ℤ) % 2 ^ f.cast = t := Int.emod_eq_of_lt (by omega) (by omega)
    obtain ⟨n1, n2, n3, n4⟩ := roundShift_bounds hlo hhi'
    have hval : f.roundPack sign t sig = sign.toNat * 2 ^ (f.E + f.F) +
        (if (2 ^ f.E - 1) * 2 ^ f.F ≤ roundShift sig f.G + t * 2 ^ f.F then (2 ^ f.E - 1) * 2 ^ f.F else roundShift sig f.G + t * 2 ^ f.F) := by
      have hfin : ¬ (2 ^ f.E - 1) * 2 ^ f.F ≤ roundShift sig f.G + t * 2 ^ f.F →
          f.roundFinish sign t sig = sign.toNat * 2 ^ (f.E + f.F) +
            (if (2 ^ f.E - 1) * 2 ^ f.F ≤ roundShift sig f.G + t * 2 ^ f.F then (2 ^ f.E - 1) * 2 ^ f.F else roundShift sig f.G + t * 2 ^ f.F) := by
        intro hno
        rw [if_neg hno]
        exact roundFinish_eq ok sign hhi (by omega) (by omega)
      have hinf : f.pack sign f.top 0 = sign.toNat * 2 ^ (f.E + f.F) + (2 ^ f.E - 1) * 2 ^ f.F := by
        rw [pack_eq ok sign (by show (2 ^ f.E - 1) * 2 ^ f.F + 0 < _; omega), Nat.zero_add]
      have hsum : sig + 2 ^ (f.G - 1) < 2 ^ f.fast := by
        have h1 := ok.fast_le
        have h3 : 2 ^ (f.G - 1) ≤ 2 ^ (f.E + f.F) := Nat.pow_le_pow_right (by norm_num) (by omega)
        omega
      unfold roundPack
      rw [hmod, Nat.mod_eq_of_lt hsum, w1, htop]
      by_cases hc : (((T + 3 : ℕ) : ℤ) - 2 ≤ t)
      · rw [if_pos hc, if_neg (by omega)]
        have ht1 : T + 1 ≤ t := by push_cast at hc; omega
        have hround : 2 ^ (f.E + f.F) ≤ sig + 2 ^ (f.G - 1) ↔ 2 * 2 ^ f.F ≤ roundShift sig f.G := by
          obtain ⟨p, hp⟩ : ∃ p, f.G = p + 1 := ⟨f.G - 1, by omega⟩
          have hp2 : 2 ^ (p + 1) = 2 * 2 ^ p := by rw [pow_succ]; ring
          have e2 : 2 ^ (f.E + f.F) = 2 ^ (p + 1) * (2 * 2 ^ f.F) := by
            rw [← h2F, ← pow_add]; congr 1; omega
          have hdm : 2 ^ (p + 1) * (sig / 2 ^ (p + 1)) + sig % 2 ^ (p + 1) = sig := Nat.div_add_mod _ _
          have hml : sig % 2 ^ (p + 1) < 2 ^ (p + 1) := Nat.mod_lt _ (by positivity)
          have hrs := roundShift_spec sig (p + 1)
          rw [hp] at n1 n2 n3 n4 ⊢
          rw [Nat.add_sub_cancel, e2]
          generalize roundShift sig (p + 1) = q at *
          generalize sig / 2 ^ (p + 1) = n at *
          generalize sig % 2 ^ (p + 1) = r at *
          constructor
          · intro h1
            by_contra h2
            have h3 : n + 1 ≤ 2 * 2 ^ f.F := by omega
            have h4 := Nat.mul_le_mul_left (2 ^ (p + 1)) h3
            rw [Nat.mul_add] at h4
            rcases hrs with ⟨r1, r2, r3⟩ | ⟨r1, r2, r3⟩
            · rcases Nat.lt_or_ge (n + 1) (2 * 2 ^ f.F) with h5 | h5
              · have h6 := Nat.mul_le_mul_left (2 ^ (p + 1)) (show n + 2 ≤ 2 * 2 ^ f.F by omega)
                rw [Nat.mul_add] at h6
                omega
              · have h7 : n + 1 = 2 * 2 ^ f.F := by omega
                have h8 : 2 ^ (p + 1) * (2 * 2 ^ f.F) = 2 ^ (p + 1) * n + 2 ^ (p + 1) := by rw [← h7]; ring
                have h9 : 2 * r = 2 ^ (p + 1) := by omega
                have := r3 h9
                omega
            · have h6 := Nat.mul_le_mul_left (2 ^ (p + 1)) (show n + 2 ≤ 2 * 2 ^ f.F by omega)
              rw [Nat.mul_add] at h6
              omega
          · intro h1
            have h3 : n + 1 = 2 * 2 ^ f.F := by omega
            have h8 : 2 ^ (p + 1) * (2 * 2 ^ f.F) = 2 ^ (p + 1) * n + 2 ^ (p + 1) := by rw [← h3]; ring
            rcases hrs with ⟨r1, r2, r3⟩ | ⟨r1, r2, r3⟩ <;> omega
        simp only [hround]
        by_cases hc2 : ((T + 3 : ℕ) : ℤ) - 2 < t ∨ 2 * 2 ^ f.F ≤ roundShift sig f.G
        · rw [if_pos hc2, ← htop, hinf, if_pos]
          rw [hpt]
          rcases hc2 with h1 | h1
          · have h3 : T + 2 ≤ t := by push_cast at h1; omega
            have h4 : (T + 2) * 2 ^ f.F ≤ t * 2 ^ f.F := Nat.mul_le_mul_right _ h3
            rw [Nat.add_mul] at h4
            omega
          · have h4 : (T + 1) * 2 ^ f.F ≤ t * 2 ^ f.F := Nat.mul_le_mul_right _ ht1
            rw [Nat.add_mul] at h4
            omega
        · rw [if_neg hc2]
          push Not at hc2
          have h3 : t = T + 1 := by have := hc2.1; push_cast at this; omega
          apply hfin
          rw [hpt, h3, Nat.add_mul]
          omega
      · rw [if_neg hc]
        apply hfin
        have h3 : t ≤ T := by push_cast at hc; omega
        have h4 : t * 2 ^ f.F ≤ T * 2 ^ f.F := Nat.mul_le_mul_right _ h3
        rw [hpt]
        omega
    constructor
    · have := rounded_of_choice (E := f.E) (F := f.F) (t := t) hE2 hF1 sign
        (x := X / 2 ^ f.G * 2 ^ ((t : ℤ) + leastExp f.E f.F)) (by have := two_zpow_pos ((t : ℤ) + leastExp f.E f.F); positivity)
        (Or.inl n1) n2 (choice_of_sim (by omega) hs _)
      rw [← hval] at this
      exact this
    · rw [hval, W_pow]
      have : sign.toNat ≤ 1 := by cases sign <;> simp
      have : sign.toNat * 2 ^ (f.E + f.F) ≤ 1 * 2 ^ (f.E + f.F) := Nat.mul_le_mul_right _ this
      split_ifs <;> omega

end SoftFmt
end Thls
