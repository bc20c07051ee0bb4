import Verif.Model.Dot
import Verif.Proofs.Pack
import Verif.Proofs.Ieee

/-! # Lemmas about the dot products -/

namespace Thls
open Spec

/-- Dropping the low bits of `N = ⌊q / 2^g⌋` rounds `q` down. -/
theorem round_down_int {F N k : ℕ} {g : ℤ} {q : ℚ} (h1 : 2 ^ (F + k) ≤ N) (h2 : N < 2 ^ (F + k + 1))
    (hq1 : (N : ℚ) * 2 ^ g ≤ q) (hq2 : q < ((N : ℚ) + 1) * 2 ^ g) : RoundDown (F + 1) q (N / 2 ^ k) (g + k) := by
  have hk : 0 < 2 ^ k := by positivity
  have hg := two_zpow_pos g
  have hsig : IsSig (F + 1) (N / 2 ^ k) := by
    refine ⟨?_, ?_⟩
    · rw [Nat.add_sub_cancel, Nat.le_div_iff_mul_le hk, ← pow_add]; exact h1
    · rw [Nat.div_lt_iff_lt_mul hk, ← pow_add]; convert h2 using 2; ring
  have hpow : (2 : ℚ) ^ (g + k) = 2 ^ k * 2 ^ g := by rw [zpow_add₀ (by norm_num), zpow_natCast]; ring
  have hd : ((N / 2 ^ k : ℕ) : ℚ) * 2 ^ k ≤ N := by exact_mod_cast Nat.div_mul_le_self N (2 ^ k)
  have hu : (N : ℚ) + 1 ≤ (((N / 2 ^ k : ℕ) : ℚ) + 1) * 2 ^ k := by
    have : N + 1 ≤ (N / 2 ^ k + 1) * 2 ^ k := by
      have := Nat.lt_div_mul_add hk (a := N)
      rw [add_mul, one_mul]; omega
    exact_mod_cast this
  refine ⟨hsig, ?_, ?_⟩
  · rw [hpow, ← mul_assoc]
    exact le_trans (mul_le_mul_of_nonneg_right hd hg.le) hq1
  · intro m' e' hm' hle
    rcases sig_le_or_ge (e := g + k) (e' := e') (by omega) hsig hm' with h | h
    · exact h
    · exfalso
      rw [hpow, ← mul_assoc] at h
      have := mul_le_mul_of_nonneg_right hu hg.le
      linarith

/-- The result of the final conversion. -/
theorem dotPack_datum {E F ex f : ℕ} (hE : 1 ≤ E) (hF : 1 ≤ F) (hex : ex < 2 ^ (E + 2)) (hf : f < 2 ^ F) :
    (dotPack E F ex f).datum = rangeCheck E F false (2 ^ F + f) ((ex : ℤ) - 2 * bias E - F) := by
  have hb : (biasN E : ℤ) = bias E := pow_bias
  have hbE : biasN E < 2 ^ E := biasN_lt
  have hexp : getBits (E - 1) 0 (subW (E + 2) ex (biasN E)) < 2 ^ E := by
    have := getBits_lt (E - 1) 0 (subW (E + 2) ex (biasN E))
    rwa [show E - 1 + 1 - 0 = E by omega] at this
  have he : (ex : ℤ) - 2 * bias E - F + F + bias E = ex - bias E := by ring
  unfold dotPack rangeCheck
  rw [he]
  by_cases c1 : ex < biasN E
  · simp only [c1, if_true]
    rw [Fp.mk4_datum (by decide) (by decide) hexp hf hE hF, if_pos (by omega)]
    rfl
  · simp only [c1, if_false]
    by_cases c2 : biasN E + 2 ^ E ≤ ex
    · rw [if_pos c2, Fp.mk4_datum (by decide) (by decide) hexp hf hE hF, if_neg (by omega),
        if_pos (by have : ((biasN E + 2 ^ E : ℕ) : ℤ) ≤ ex := by exact_mod_cast c2
                   push_cast at this; omega)]
      rfl
    · have c3 : (ex : ℤ) < bias E + 2 ^ E := by
        have : (ex : ℤ) < ((biasN E + 2 ^ E : ℕ) : ℤ) := by omega
        push_cast at this; omega
      rw [if_neg c2, Fp.mk4_datum (by decide) (by decide) hexp hf hE hF, if_neg (by omega), if_neg (by omega)]
      have hv : getBits (E - 1) 0 (subW (E + 2) ex (biasN E)) = ex - biasN E := by
        have h1 : subW (E + 2) ex (biasN E) = ex - biasN E := by
          unfold subW
          have : ex + (2 ^ (E + 2) - biasN E) = ex - biasN E + 2 ^ (E + 2) := by
            have : 2 ^ E ≤ 2 ^ (E + 2) := Nat.pow_le_pow_right (by norm_num) (by omega)
            omega
          rw [this, Nat.add_mod_right, Nat.mod_eq_of_lt (by omega)]
        rw [h1, getBits_zero_eq_mod, show E - 1 + 1 = E by omega, Nat.mod_eq_of_lt (by omega)]
      rw [hv]
      unfold denote
      simp only [zero_ne_one, if_false, one_mul, Bool.false_eq_true]
      congr 3
      push_cast [Nat.cast_sub (show biasN E ≤ ex by omega)]
      omega

/-- Normalisation by `j` places, truncation and packing of a sum `N` with `L` bits below the fraction. -/
theorem dot_norm {E F L j ex N n : ℕ} {q : ℚ} (hE : 1 ≤ E) (hF : 1 ≤ F) (hex : ex + j < 2 ^ (E + 2)) (hn : F + L + j < n)
    (hN : N < 2 ^ n)
    (h1 : 2 ^ j ≤ N / 2 ^ (F + L)) (h2 : N / 2 ^ (F + L) < 2 ^ (j + 1))
    (hq1 : (N : ℚ) * 2 ^ ((ex : ℤ) - 2 * bias E - F - L) ≤ q)
    (hq2 : q < ((N : ℚ) + 1) * 2 ^ ((ex : ℤ) - 2 * bias E - F - L)) :
    RoundedDown E F q (dotPack E F (addW (E + 2) ex j) (getBits (F - 1 + j) j (getBits (n - 1) L N))).datum := by
  have hk : 0 < 2 ^ (F + L) := by positivity
  have a1 : 2 ^ (F + (L + j)) ≤ N := by
    rw [Nat.le_div_iff_mul_le hk, ← pow_add] at h1; convert h1 using 2; ring
  have a2 : N < 2 ^ (F + (L + j) + 1) := by
    rw [Nat.div_lt_iff_lt_mul hk, ← pow_add] at h2; convert h2 using 2; ring
  have e1 : getBits (n - 1) L N = N / 2 ^ L := getBits_top (by rwa [show n - 1 + 1 = n by omega]) (by omega)
  have hm : N / 2 ^ (L + j) = 2 ^ F + getBits (F - 1 + j) j (N / 2 ^ L) := by
    have hpj : 0 < 2 ^ (L + j) := by positivity
    unfold getBits
    rw [Nat.div_div_eq_div_mul, ← pow_add, show F - 1 + j + 1 - j = F by omega]
    have b1 : 2 ^ F ≤ N / 2 ^ (L + j) := by rw [Nat.le_div_iff_mul_le hpj, ← pow_add]; exact a1
    have b2 : N / 2 ^ (L + j) < 2 ^ F + 2 ^ F := by
      rw [Nat.div_lt_iff_lt_mul hpj, ← two_mul, ← pow_succ', ← pow_add]; convert a2 using 2; ring
    rw [Nat.mod_eq_sub_mod b1, Nat.mod_eq_of_lt (by omega)]; omega
  have hfr : getBits (F - 1 + j) j (N / 2 ^ L) < 2 ^ F := by
    have := getBits_lt (F - 1 + j) j (N / 2 ^ L)
    rwa [show F - 1 + j + 1 - j = F by omega] at this
  refine ⟨_, _, round_down_int a1 a2 hq1 hq2, ?_⟩
  rw [e1, dotPack_datum hE hF (addW_lt _ _ _) hfr, ← hm]
  congr 1
  unfold addW
  rw [Nat.mod_eq_of_lt hex]
  push_cast; ring

theorem dot2Places_spec {t : ℕ} (h0 : t ≠ 0) (h8 : t < 8) : 2 ^ dot2Places t ≤ t ∧ t < 2 ^ (dot2Places t + 1) ∧ dot2Places t ≤ 2 := by
  interval_cases t <;> first | omega | decide

theorem dot4Places_spec {t : ℕ} (h0 : t ≠ 0) (h8 : t < 16) : 2 ^ dot4Places t ≤ t ∧ t < 2 ^ (dot4Places t + 1) ∧ dot4Places t ≤ 3 := by
  interval_cases t <;> first | omega | decide

theorem safeRshift_eq (w x s : ℕ) (hx : x < 2 ^ w) : safeRshift w x s = some (x / 2 ^ s) := by
  unfold safeRshift shr?
  by_cases h : s ≥ w
  · rw [if_pos h, Nat.div_eq_of_lt]
    exact lt_of_lt_of_le hx (Nat.pow_le_pow_right (by norm_num) h)
  · rw [if_neg h, if_pos (by omega)]

theorem dot2Shift_eq (w x s : ℕ) (hx : x < 2 ^ w) : dot2Shift w x s = some (x / 2 ^ s) := safeRshift_eq w x s hx

theorem dotFrac_bounds {E F : ℕ} (hF : 1 ≤ F) (a b : Fp E F) : 2 ^ (2 * F) ≤ dotFrac a b ∧ dotFrac a b < 2 ^ (2 * F + 2) := by
  have ha := a.frac_lt hF
  have hb := b.frac_lt hF
  unfold dotFrac opadHi1
  have e : 2 ^ (2 * F) = 2 ^ F * 2 ^ F := by rw [two_mul, pow_add]
  rw [pow_add, e]
  constructor <;> nlinarith

theorem dotExp_eq {E F : ℕ} (hE : 1 ≤ E) (a b : Fp E F) : dotExp a b = a.exp + b.exp ∧ dotExp a b + 2 ≤ 2 ^ (E + 1) := by
  have ha := a.exp_lt hE
  have hb := b.exp_lt hE
  have : dotExp a b = a.exp + b.exp := by
    unfold dotExp addW
    rw [Nat.mod_eq_of_lt]; rw [pow_succ]; omega
  refine ⟨this, ?_⟩
  rw [this, pow_succ]; omega

theorem dotArg_of {E F : ℕ} {x : Fp E F} {v : ℚ} (h : x.datum = .num v) (hv : 0 < v) : dotArg x = true := by
  obtain ⟨hf, hval⟩ := datum_num_iff.mp h
  have hs : ¬ x.sign = 1 := by
    intro hs
    rw [hval] at hv
    have := (signed_neg (s := x.sign) (sig_scaled_pos F x.frac ((x.exp : ℤ) - bias E - F))).mpr hs
    linarith
  have := x.sign_lt
  unfold dotArg Fp.isPositive Fp.isNormal
  simp [hf, show x.sign = 0 by omega]

/-- A product of two positive numbers from its significand product and exponent sum. -/
theorem dot_value {E F : ℕ} (hE : 1 ≤ E) {a b : Fp E F} {va vb : ℚ} (ha : a.datum = .num va) (hb : b.datum = .num vb)
    (pa : 0 < va) (pb : 0 < vb) : va * vb = (dotFrac a b : ℚ) * 2 ^ ((dotExp a b : ℤ) - 2 * bias E - 2 * F) := by
  have key : ∀ {x : Fp E F} {v : ℚ}, x.datum = .num v → 0 < v →
      v = ((2 ^ F + x.frac : ℕ) : ℚ) * 2 ^ ((x.exp : ℤ) - bias E - F) := by
    intro x v h hv
    obtain ⟨hf, hval⟩ := datum_num_iff.mp h
    have hs : ¬ x.sign = 1 := by
      intro hs
      rw [hval] at hv
      have := (signed_neg (s := x.sign) (sig_scaled_pos F x.frac ((x.exp : ℤ) - bias E - F))).mpr hs
      linarith
    rwa [if_neg hs, one_mul] at hval
  rw [key ha pa, key hb pb, (dotExp_eq hE a b).1]
  have : (2 : ℚ) ^ (((a.exp + b.exp : ℕ) : ℤ) - 2 * bias E - 2 * F) = 2 ^ ((a.exp : ℤ) - bias E - F) * 2 ^ ((b.exp : ℤ) - bias E - F) := by
    rw [← zpow_add₀ (by norm_num)]; congr 1; push_cast; ring
  rw [this]
  unfold dotFrac opadHi1
  push_cast
  ring

theorem subW_of_le {w a b : ℕ} (h : b ≤ a) (ha : a < 2 ^ w) : subW w a b = a - b := by
  unfold subW
  rw [show a + (2 ^ w - b) = a - b + 2 ^ w by omega, Nat.add_mod_right, Nat.mod_eq_of_lt (by omega)]

theorem div_floor_bounds (x s : ℕ) : ((x / 2 ^ s : ℕ) : ℚ) ≤ x / 2 ^ s ∧ (x : ℚ) / 2 ^ s < ((x / 2 ^ s : ℕ) : ℚ) + 1 := by
  have hp : (0 : ℚ) < 2 ^ s := by positivity
  constructor
  · rw [le_div_iff₀ hp]; exact_mod_cast Nat.div_mul_le_self x (2 ^ s)
  · rw [div_lt_iff₀ hp]
    have := Nat.lt_div_mul_add (show 0 < 2 ^ s by positivity) (a := x)
    have h : x < (x / 2 ^ s + 1) * 2 ^ s := by rw [add_mul, one_mul]; exact this
    exact_mod_cast h

theorem dot2Core_correct {E F majF majE minF minE : ℕ} (hE : 1 ≤ E) (hF : 1 ≤ F) (hM : 2 ^ (2 * F) ≤ majF)
    (hM2 : majF < 2 ^ (2 * F + 2)) (hm2 : minF < 2 ^ (2 * F + 2)) (he : minE ≤ majE) (hle : majE + 2 ≤ 2 ^ (E + 1)) :
    ∃ r, dot2Core E F (2 * F + 4) majF majE minF minE = some r ∧
      RoundedDown E F ((majF : ℚ) * 2 ^ ((majE : ℤ) - 2 * bias E - 2 * F) +
        minF * 2 ^ ((minE : ℤ) - 2 * bias E - 2 * F)) r.datum := by
  have p1 : 2 ^ (2 * F + 2) = 4 * 2 ^ (2 * F) := by rw [pow_add]; ring
  have p2 : 2 ^ (2 * F + 4) = 16 * 2 ^ (2 * F) := by rw [pow_add]; ring
  have c1 : concat 1 minF 0 = 2 * minF := by unfold concat; ring
  have c2 : concat 1 majF 0 = 2 * majF := by unfold concat; ring
  unfold dot2Core
  rw [c1, dot2Shift_eq _ _ _ (by omega), Option.bind_some, c2, subW_of_le he (by omega)]
  have hsh : 2 * minF / 2 ^ (majE - minE) ≤ 2 * minF := Nat.div_le_self _ _
  obtain ⟨N, hN⟩ : ∃ N, N = 2 * majF + 2 * minF / 2 ^ (majE - minE) := ⟨_, rfl⟩
  have hfull : addW (2 * F + 4) (2 * majF) (2 * minF / 2 ^ (majE - minE)) = N := by
    unfold addW; rw [Nat.mod_eq_of_lt (by omega), hN]
  have hNlt : N < 2 ^ (2 * F + 4) := by omega
  have hNlo : 2 * majF ≤ N := by rw [hN]; exact Nat.le_add_right _ _
  have p3 : 2 ^ (F + (F + 1)) = 2 * 2 ^ (2 * F) := by rw [show F + (F + 1) = 2 * F + 1 by ring, pow_succ]; ring
  have htop : getBits (2 * F + 4 - 1) (2 * F + 4 - 3) N = N / 2 ^ (F + (F + 1)) := by
    rw [getBits_top (by rwa [show 2 * F + 4 - 1 + 1 = 2 * F + 4 by omega]) (by omega)]; congr 2; omega
  have t0 : N / 2 ^ (F + (F + 1)) ≠ 0 := by
    have : 1 ≤ N / 2 ^ (F + (F + 1)) := by rw [Nat.le_div_iff_mul_le (by positivity)]; omega
    omega
  have t8 : N / 2 ^ (F + (F + 1)) < 8 := by rw [Nat.div_lt_iff_lt_mul (by positivity)]; omega
  simp only [hfull, htop, if_neg t0]
  obtain ⟨j1, j2, j3⟩ := dot2Places_spec t0 t8
  rw [show 2 * F + 4 - (3 + F) = F + 1 by omega]
  refine ⟨_, rfl, dot_norm hE hF ?_ ?_ hNlt j1 j2 ?_ ?_⟩
  · rw [pow_succ] at hle ⊢; rw [pow_succ]; omega
  · omega
  all_goals
    have hg := two_zpow_pos ((majE : ℤ) - 2 * bias E - F - (F + 1 : ℕ))
    have v1 : (2 : ℚ) ^ ((majE : ℤ) - 2 * bias E - 2 * F) = 2 * 2 ^ ((majE : ℤ) - 2 * bias E - F - (F + 1 : ℕ)) := by
      rw [← zpow_one_add₀ (by norm_num)]; congr 1; push_cast; ring
    have v2 : (2 : ℚ) ^ ((minE : ℤ) - 2 * bias E - 2 * F) =
        2 * 2 ^ ((majE : ℤ) - 2 * bias E - F - (F + 1 : ℕ)) / 2 ^ (majE - minE) := by
      rw [eq_div_iff (by positivity), ← zpow_one_add₀ (by norm_num), ← zpow_natCast, ← zpow_add₀ (by norm_num)]
      congr 1; push_cast [Nat.cast_sub he]; ring
    obtain ⟨b1, b2⟩ := div_floor_bounds (2 * minF) (majE - minE)
    have b3 : (N : ℚ) = 2 * majF + ((2 * minF / 2 ^ (majE - minE) : ℕ) : ℚ) := by rw [hN]; push_cast; ring
    rw [v1, v2, b3]
    generalize (2 : ℚ) ^ ((majE : ℤ) - 2 * bias E - F - (F + 1 : ℕ)) = u at *
    have e3 : (majF : ℚ) * (2 * u) + minF * (2 * u / 2 ^ (majE - minE)) =
      (2 * majF + ((2 * minF : ℕ) : ℚ) / 2 ^ (majE - minE)) * u := by push_cast; ring
    rw [e3]
  · exact mul_le_mul_of_nonneg_right (by linarith) hg.le
  · exact mul_lt_mul_of_pos_right (by linarith) hg

/-- A product aligned with exponent `e` and truncated. -/
def dot4Term (F e x ei : ℕ) : ℕ := x * 2 ^ dot4Pad F / 2 ^ (e - ei)

theorem dot4Core_eq {E F x0 e0 x1 e1 x2 e2 x3 e3 : ℕ} (hE : 1 ≤ E) (hF : 1 ≤ F) (h0 : 2 ^ (2 * F) ≤ x0)
    (l0 : x0 < 2 ^ (2 * F + 2)) (l1 : x1 < 2 ^ (2 * F + 2)) (l2 : x2 < 2 ^ (2 * F + 2)) (l3 : x3 < 2 ^ (2 * F + 2))
    (m1 : e1 ≤ e0) (m2 : e2 ≤ e0) (m3 : e3 ≤ e0) (hle : e0 + 2 ≤ 2 ^ (E + 1)) :
    ∃ r, dot4Core E F (2 + (2 * F + 2) + dot4Pad F) x0 e0 x1 e1 x2 e2 x3 e3 = some r ∧
      ∀ N : ℕ, N = dot4Term F e0 x0 e0 + dot4Term F e0 x1 e1 + dot4Term F e0 x2 e2 + dot4Term F e0 x3 e3 →
      ∀ q : ℚ, (N : ℚ) * 2 ^ ((e0 : ℤ) - 2 * bias E - 2 * F - dot4Pad F) ≤ q →
        q < ((N : ℚ) + 1) * 2 ^ ((e0 : ℤ) - 2 * bias E - 2 * F - dot4Pad F) → RoundedDown E F q r.datum := by
  obtain ⟨P, hP⟩ : ∃ P, P = dot4Pad F := ⟨_, rfl⟩
  obtain ⟨n, hn⟩ : ∃ n, n = 2 + (2 * F + 2) + P := ⟨_, rfl⟩
  unfold dot4Core dot4Term
  rw [← hP, ← hn]
  have p1 : 2 ^ (2 * F + 2) = 4 * 2 ^ (2 * F) := by rw [pow_add]; ring
  have pP : 0 < 2 ^ P := by positivity
  have pn : 2 ^ n = 16 * (2 ^ (2 * F) * 2 ^ P) := by rw [hn, ← pow_add]; rw [show 2 + (2 * F + 2) + P = (2 * F + P) + 4 by ring, pow_add]; ring
  have pq : 2 ^ (2 * F + P) = 2 ^ (2 * F) * 2 ^ P := pow_add _ _ _
  have hc : ∀ x, concat P x 0 = x * 2 ^ P := fun x => by unfold concat; ring
  have hlt : ∀ {x}, x < 2 ^ (2 * F + 2) → x * 2 ^ P < 4 * (2 ^ (2 * F) * 2 ^ P) := by
    intro x hx; rw [p1] at hx; rw [← mul_assoc]; exact Nat.mul_lt_mul_of_pos_right hx pP
  have hq := hlt l0
  have hq1 := hlt l1
  have hq2 := hlt l2
  have hq3 := hlt l3
  have h0' : 2 ^ (2 * F) * 2 ^ P ≤ x0 * 2 ^ P := Nat.mul_le_mul_right _ h0
  rw [hc, hc, hc, hc, safeRshift_eq _ _ _ (by omega), safeRshift_eq _ _ _ (by omega), safeRshift_eq _ _ _ (by omega)]
  simp only [Option.bind_some]
  rw [subW_of_le m1 (by omega), subW_of_le m2 (by omega), subW_of_le m3 (by omega), Nat.sub_self, pow_zero, Nat.div_one]
  have d1 := Nat.div_le_self (x1 * 2 ^ P) (2 ^ (e0 - e1))
  have d2 := Nat.div_le_self (x2 * 2 ^ P) (2 ^ (e0 - e2))
  have d3 := Nat.div_le_self (x3 * 2 ^ P) (2 ^ (e0 - e3))
  generalize x1 * 2 ^ P / 2 ^ (e0 - e1) = y1 at *
  generalize x2 * 2 ^ P / 2 ^ (e0 - e2) = y2 at *
  generalize x3 * 2 ^ P / 2 ^ (e0 - e3) = y3 at *
  obtain ⟨N, hN⟩ : ∃ N, N = x0 * 2 ^ P + y1 + y2 + y3 := ⟨_, rfl⟩
  have hfull : addW n (addW n (addW n (x0 * 2 ^ P) y1) y2) y3 = N := by
    unfold addW
    rw [Nat.mod_eq_of_lt (b := 2 ^ n) (a := x0 * 2 ^ P + y1) (by omega), Nat.mod_eq_of_lt (a := x0 * 2 ^ P + y1 + y2) (by omega),
      Nat.mod_eq_of_lt (by omega), hN]
  have hNlt : N < 2 ^ n := by omega
  have htop : getBits (n - 1) (n - 4) N = N / 2 ^ (F + (F + P)) := by
    rw [getBits_top (by rwa [show n - 1 + 1 = n by omega]) (by omega)]; congr 2; omega
  have p3 : 2 ^ (F + (F + P)) = 2 ^ (2 * F) * 2 ^ P := by rw [← pq]; congr 1; ring
  have t0 : N / 2 ^ (F + (F + P)) ≠ 0 := by
    have : 1 ≤ N / 2 ^ (F + (F + P)) := by rw [Nat.le_div_iff_mul_le (by positivity)]; omega
    omega
  have t8 : N / 2 ^ (F + (F + P)) < 16 := by rw [Nat.div_lt_iff_lt_mul (by positivity)]; omega
  simp only [hfull, htop, if_neg t0]
  obtain ⟨j1, j2, j3⟩ := dot4Places_spec t0 t8
  rw [show n - (4 + F) = F + P by omega]
  refine ⟨_, rfl, ?_⟩
  intro N' hN' q a1 a2
  have : N' = N := by omega
  subst this
  have hg : ((e0 : ℤ) - 2 * bias E - 2 * F - P) = (e0 : ℤ) - 2 * bias E - F - (F + P : ℕ) := by push_cast; ring
  rw [hg] at a1 a2
  refine dot_norm hE hF ?_ ?_ hNlt j1 j2 a1 a2
  · have h4 : 2 ^ (E + 2) = 2 * 2 ^ (E + 1) := by rw [pow_succ 2 (E + 1)]; ring
    have : 4 ≤ 2 ^ (E + 1) := by
      calc 4 = 2 ^ 2 := rfl
        _ ≤ _ := Nat.pow_le_pow_right (by norm_num) (by omega)
    omega
  · omega

/-- The four products in any order: a largest exponent `e` is found and everything is aligned with it. -/
theorem dot4Rot_eq {E F x0 e0 x1 e1 x2 e2 x3 e3 : ℕ} (hE : 1 ≤ E) (hF : 1 ≤ F) (h0 : 2 ^ (2 * F) ≤ x0)
    (h1 : 2 ^ (2 * F) ≤ x1) (h2 : 2 ^ (2 * F) ≤ x2) (h3 : 2 ^ (2 * F) ≤ x3)
    (l0 : x0 < 2 ^ (2 * F + 2)) (l1 : x1 < 2 ^ (2 * F + 2)) (l2 : x2 < 2 ^ (2 * F + 2)) (l3 : x3 < 2 ^ (2 * F + 2))
    (b0 : e0 + 2 ≤ 2 ^ (E + 1)) (b1 : e1 + 2 ≤ 2 ^ (E + 1)) (b2 : e2 + 2 ≤ 2 ^ (E + 1)) (b3 : e3 + 2 ≤ 2 ^ (E + 1)) :
    ∃ r e, dot4Rot E F x0 e0 x1 e1 x2 e2 x3 e3 = some r ∧ (e = e0 ∨ e = e1 ∨ e = e2 ∨ e = e3) ∧
      e0 ≤ e ∧ e1 ≤ e ∧ e2 ≤ e ∧ e3 ≤ e ∧
      ∀ N : ℕ, N = dot4Term F e x0 e0 + dot4Term F e x1 e1 + dot4Term F e x2 e2 + dot4Term F e x3 e3 →
      ∀ q : ℚ, (N : ℚ) * 2 ^ ((e : ℤ) - 2 * bias E - 2 * F - dot4Pad F) ≤ q →
        q < ((N : ℚ) + 1) * 2 ^ ((e : ℤ) - 2 * bias E - 2 * F - dot4Pad F) → RoundedDown E F q r.datum := by
  have hs : (dot4Sel e0 e1 e2 e3 = 0 ∧ e1 ≤ e0 ∧ e2 ≤ e0 ∧ e3 ≤ e0) ∨ (dot4Sel e0 e1 e2 e3 = 1 ∧ e0 ≤ e1 ∧ e2 ≤ e1 ∧ e3 ≤ e1) ∨
      (dot4Sel e0 e1 e2 e3 = 2 ∧ e0 ≤ e2 ∧ e1 ≤ e2 ∧ e3 ≤ e2) ∨ (dot4Sel e0 e1 e2 e3 = 3 ∧ e0 ≤ e3 ∧ e1 ≤ e3 ∧ e2 ≤ e3) := by
    unfold dot4Sel concat
    by_cases c1 : e1 > e0 <;> by_cases c2 : e3 > e2 <;> simp only [c1, c2, decide_true, decide_false, if_true, Bool.false_eq_true, if_false]
    · by_cases c3 : e3 > e1 <;> simp [c3] <;> omega
    · by_cases c3 : e2 > e1 <;> simp [c3] <;> omega
    · by_cases c3 : e3 > e0 <;> simp [c3] <;> omega
    · by_cases c3 : e2 > e0 <;> simp [c3] <;> omega
  unfold dot4Rot
  rcases hs with ⟨hs, o1, o2, o3⟩ | ⟨hs, o1, o2, o3⟩ | ⟨hs, o1, o2, o3⟩ | ⟨hs, o1, o2, o3⟩
  · simp only [hs, rotate4, Nat.reduceAdd, Nat.reduceMod, Nat.reduceEqDiff, if_true, if_false, OfNat.zero_ne_ofNat, zero_ne_one]
    obtain ⟨r, hr, h⟩ := dot4Core_eq hE hF h0 l0 l3 l2 l1 o3 o2 o1 b0
    exact ⟨r, e0, hr, by omega, le_refl _, o1, o2, o3, fun N hN => h N (by omega)⟩
  · simp only [hs, rotate4, Nat.reduceAdd, Nat.reduceMod, Nat.reduceEqDiff, if_true, if_false, OfNat.one_ne_ofNat, one_ne_zero]
    obtain ⟨r, hr, h⟩ := dot4Core_eq hE hF h1 l1 l0 l3 l2 o1 o3 o2 b1
    exact ⟨r, e1, hr, by omega, o1, le_refl _, o2, o3, fun N hN => h N (by omega)⟩
  · simp only [hs, rotate4, Nat.reduceAdd, Nat.reduceMod, Nat.reduceEqDiff, if_true, if_false, OfNat.ofNat_ne_zero, OfNat.ofNat_ne_one]
    obtain ⟨r, hr, h⟩ := dot4Core_eq hE hF h2 l2 l1 l0 l3 o2 o1 o3 b2
    exact ⟨r, e2, hr, by omega, o1, o2, le_refl _, o3, fun N hN => h N (by omega)⟩
  · simp only [hs, rotate4, Nat.reduceAdd, Nat.reduceMod, Nat.reduceEqDiff, if_true, if_false, OfNat.ofNat_ne_zero, OfNat.ofNat_ne_one]
    obtain ⟨r, hr, h⟩ := dot4Core_eq hE hF h3 l3 l2 l1 l0 o3 o2 o1 b3
    exact ⟨r, e3, hr, by omega, o1, o2, o3, le_refl _, fun N hN => h N (by omega)⟩

/-- A product in units of the last place of the aligned sum. -/
theorem dot4_term_bounds {F e x ei : ℕ} {c : ℤ} (h : ei ≤ e) :
    ((dot4Term F e x ei : ℕ) : ℚ) * 2 ^ ((e : ℤ) - c - 2 * F - dot4Pad F) ≤ x * 2 ^ ((ei : ℤ) - c - 2 * F) ∧
    (x : ℚ) * 2 ^ ((ei : ℤ) - c - 2 * F) < (((dot4Term F e x ei : ℕ) : ℚ) + 1) * 2 ^ ((e : ℤ) - c - 2 * F - dot4Pad F) ∧
    (e - ei ≤ dot4Pad F → ((dot4Term F e x ei : ℕ) : ℚ) * 2 ^ ((e : ℤ) - c - 2 * F - dot4Pad F) = x * 2 ^ ((ei : ℤ) - c - 2 * F)) := by
  have hg := two_zpow_pos ((e : ℤ) - c - 2 * F - dot4Pad F)
  have v2 : (2 : ℚ) ^ ((ei : ℤ) - c - 2 * F) =
      2 ^ dot4Pad F * 2 ^ ((e : ℤ) - c - 2 * F - dot4Pad F) / 2 ^ (e - ei) := by
    rw [eq_div_iff (by positivity), ← zpow_natCast, ← zpow_natCast, ← zpow_add₀ (by norm_num), ← zpow_add₀ (by norm_num)]
    congr 1; push_cast [Nat.cast_sub h]; ring
  rw [v2]
  generalize (2 : ℚ) ^ ((e : ℤ) - c - 2 * F - dot4Pad F) = u at *
  unfold dot4Term
  obtain ⟨b1, b2⟩ := div_floor_bounds (x * 2 ^ dot4Pad F) (e - ei)
  have e3 : (x : ℚ) * (2 ^ dot4Pad F * u / 2 ^ (e - ei)) = ((x * 2 ^ dot4Pad F : ℕ) : ℚ) / 2 ^ (e - ei) * u := by push_cast; ring
  rw [e3]
  refine ⟨mul_le_mul_of_nonneg_right b1 hg.le, mul_lt_mul_of_pos_right b2 hg, ?_⟩
  intro hle
  obtain ⟨k, hk⟩ := Nat.exists_eq_add_of_le hle
  rw [hk, pow_add, ← mul_assoc, mul_comm x, mul_assoc, Nat.mul_div_cancel_left _ (by positivity)]
  push_cast
  rw [mul_div_assoc, mul_comm, mul_comm u]
  congr 1
  field_simp

end Thls
