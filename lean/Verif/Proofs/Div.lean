import Verif.Model.Div
import Verif.Proofs.AddDual
import Verif.Proofs.Convert
import Verif.Proofs.Mul
import Mathlib.Data.Rat.Floor
import Mathlib.Data.Int.ModEq

/-! # The digit-recurrence divider (helpers) -/

namespace Thls
open Spec

namespace Div

/-- The signed value of a three-bit digit. -/
def sd (q : ℕ) : ℤ := (q : ℤ) - 8 * (q / 4 : ℕ)

theorem srtTable_lt (s : ℕ) : srtTable s < 8 := by
  unfold srtTable; split <;> norm_num

theorem fYTimes3_eq {F D : ℕ} (hD : D < 2 ^ (F + 1)) : fYTimes3 F D = 3 * D := by
  have : 2 ^ (F + 3) = 4 * 2 ^ (F + 1) := by rw [show F + 3 = (F + 1) + 2 by omega, pow_add]; ring
  unfold fYTimes3 addW concat
  rw [Nat.mod_eq_of_lt] <;> omega

theorem qTimesD_le {F D q : ℕ} (hD : D < 2 ^ (F + 1)) : qTimesD F D q ≤ 3 * D := by
  unfold qTimesD
  rw [fYTimes3_eq hD]
  unfold concat
  split_ifs <;> omega

theorem qTimesD_sd {F D : ℕ} (hD : D < 2 ^ (F + 1)) (s : ℕ) :
    sd (srtTable s) * D =
      if getBit 2 (srtTable s) = false then (qTimesD F D (srtTable s) : ℤ) else -(qTimesD F D (srtTable s) : ℤ) := by
  unfold qTimesD
  rw [fYTimes3_eq hD]
  unfold srtTable
  split <;> simp [sd, getBit, concat] <;> ring

theorem srtFull1_cast {F w D : ℕ} (hD : D < 2 ^ (F + 1)) :
    ((srtFull1 F w D : ℕ) : ℤ) = (2 * (w : ℤ) - sd (srtTable (srtSel F w D)) * D) % 2 ^ (F + 4) := by
  have hq := qTimesD_sd hD (srtSel F w D)
  have hle := qTimesD_le (q := srtTable (srtSel F w D)) hD
  have h8 : 2 ^ (F + 4) = 8 * 2 ^ (F + 1) := by rw [show F + 4 = (F + 1) + 3 by omega, pow_add]; ring
  unfold srtFull1
  dsimp only
  rw [hq]
  split_ifs with h
  · rw [cast_subW (by omega)]
    congr 2
    unfold concat; push_cast; ring
  · rw [cast_addW]
    congr 1
    unfold concat; push_cast; ring

theorem srtNext_cast (F x : ℕ) : ((srtNext F x : ℕ) : ℤ) = (2 * (x : ℤ)) % 2 ^ (F + 3) := by
  unfold srtNext
  rw [getBits_zero_eq_mod]
  unfold concat
  push_cast
  rw [show (2 : ℤ) ^ (F + 3) = 2 * 2 ^ (F + 1 + 1) by ring, Int.mul_emod_mul_of_pos _ _ (by norm_num)]
  ring

theorem step_cast {F w D : ℕ} {W : ℤ} (hD : D < 2 ^ (F + 1)) (hw : (w : ℤ) = W % 2 ^ (F + 3)) :
    ((srtNext F (srtFull1 F w D) : ℕ) : ℤ) = (4 * W - 2 * sd (srtTable (srtSel F w D)) * D) % 2 ^ (F + 3) := by
  rw [srtNext_cast, srtFull1_cast hD]
  generalize sd (srtTable (srtSel F w D)) = s
  rw [hw, Int.emod_def (2 * _ - _), Int.emod_def W]
  generalize W / 2 ^ (F + 3) = c
  generalize (2 * (W - 2 ^ (F + 3) * c) - s * ↑D) / 2 ^ (F + 4) = d
  apply (Int.modEq_iff_dvd).mpr
  refine ⟨4 * c + 4 * d, ?_⟩
  rw [show F + 4 = (F + 3) + 1 by omega, pow_succ]
  ring

/-- Facts about the selection bits in units of `u = 2^(F-1)`. -/
theorem sel_units {F w D : ℕ} (hF : 1 ≤ F) (hw : w < 2 ^ (F + 3)) (hD1 : 2 ^ F ≤ D) (hD2 : D < 2 ^ (F + 1)) :
    ∃ t r b d : ℕ, srtSel F w D = 2 * t + b ∧ t < 16 ∧ b < 2 ∧ w = t * 2 ^ (F - 1) + r ∧ r < 2 ^ (F - 1) ∧
      D = 2 * 2 ^ (F - 1) + b * 2 ^ (F - 1) + d ∧ d < 2 ^ (F - 1) := by
  obtain ⟨k, rfl⟩ : ∃ k, F = k + 1 := ⟨F - 1, by omega⟩
  have h16 : 2 ^ (k + 1 + 3) = 16 * 2 ^ k := by rw [show k + 1 + 3 = k + 4 by omega, pow_add]; ring
  have h4 : 2 ^ (k + 1 + 1) = 4 * 2 ^ k := by rw [show k + 1 + 1 = k + 2 by omega, pow_add]; ring
  have h2 : 2 ^ (k + 1) = 2 * 2 ^ k := by rw [pow_succ]; ring
  have hpos : 0 < 2 ^ k := by positivity
  rw [h16] at hw
  rw [h4] at hD2
  rw [h2] at hD1
  simp only [Nat.add_sub_cancel]
  have hdD := Nat.div_add_mod D (2 ^ k)
  have hmD := Nat.mod_lt D hpos
  have hD3 : D / 2 ^ k < 4 := Nat.div_lt_of_lt_mul (by linarith)
  have hD4 : 2 ≤ D / 2 ^ k := (Nat.le_div_iff_mul_le hpos).mpr hD1
  refine ⟨w / 2 ^ k, w % 2 ^ k, (getBit k D).toNat, D % 2 ^ k, ?_, Nat.div_lt_of_lt_mul (by linarith), ?_, ?_,
    Nat.mod_lt _ hpos, ?_, hmD⟩
  · unfold srtSel
    rw [getBits_top (by rw [show k + 1 + 2 + 1 = k + 1 + 3 by omega, h16]; exact hw) (by omega)]
    unfold concat
    simp only [Nat.add_sub_cancel]
    ring
  · cases getBit k D <;> decide
  · have := Nat.div_add_mod w (2 ^ k); linarith
  · unfold getBit
    rcases (by omega : D / 2 ^ k = 2 ∨ D / 2 ^ k = 3) with h | h <;> rw [h] at hdD ⊢ <;> simp <;> linarith

/-- One step of the recurrence keeps the partial remainder inside the table. -/
theorem step_bound {F w D : ℕ} {W : ℤ} (hF : 1 ≤ F) (hD1 : 2 ^ F ≤ D) (hD2 : D < 2 ^ (F + 1))
    (hw : (w : ℤ) = W % 2 ^ (F + 3)) (hlo : -(2 * (D : ℤ)) < W) (hhi : W < 2 * D) (h0 : D = 2 ^ F → 0 ≤ W)
    {W' : ℤ} (hW' : W' = 4 * W - 2 * sd (srtTable (srtSel F w D)) * D) :
    -(2 * (D : ℤ)) < W' ∧ W' < 2 * D ∧ (D = 2 ^ F → 0 ≤ W') ∧
      srtSel F w D ∉ [0b01100, 0b01110, 0b10000, 0b10010] := by
  have hwlt : w < 2 ^ (F + 3) := by
    have := Int.emod_lt_of_pos W (show (0 : ℤ) < 2 ^ (F + 3) by positivity)
    rw [← hw] at this
    exact_mod_cast this
  obtain ⟨t, r, b, d, hs, ht, hb, hwt, hr, hD, hd⟩ := sel_units hF hwlt hD1 hD2
  have h2 : 2 ^ F = 2 * 2 ^ (F - 1) := two_pow_pred hF
  have hW : W = w ∨ W = (w : ℤ) - 16 * 2 ^ (F - 1) := by
    have e : (2 : ℤ) ^ (F + 3) = 16 * 2 ^ (F - 1) := by
      rw [show F + 3 = (F - 1) + 4 by omega, pow_add]; ring
    have hD' : (D : ℤ) < 4 * 2 ^ (F - 1) := by
      have : D < 4 * 2 ^ (F - 1) := by rw [pow_succ] at hD2; omega
      exact_mod_cast this
    rw [e] at hw
    generalize (2 : ℤ) ^ (F - 1) = u at *
    rcases le_or_gt 0 W with h | h
    · left
      rw [hw, Int.emod_eq_of_lt h (by linarith)]
    · right
      have : W % (16 * u) = (W + 16 * u) % (16 * u) := by rw [Int.add_emod_right]
      rw [hw, this, Int.emod_eq_of_lt (by linarith) (by linarith)]
      ring
  have hWu : W = w ∨ W = (w : ℤ) - 16 * ((2 ^ (F - 1) : ℕ) : ℤ) := by push_cast; exact hW
  clear hW hw hwlt hD1 hD2
  rw [h2] at h0 ⊢
  rw [hs] at hW' ⊢
  generalize 2 ^ (F - 1) = u at *
  clear hs h2
  interval_cases t <;> interval_cases b <;> simp [srtTable, sd] at hW' ⊢ <;> omega

/-- The signed partial remainders. -/
def WS (F fX D : ℕ) : ℕ → ℤ
  | 0 => fX
  | j + 1 => 4 * WS F fX D j - 2 * sd (srtTable (srtSel F (srtRem srtFull1 F fX D j) D)) * D

theorem rem_inv {F fX D : ℕ} (hF : 1 ≤ F) (hX2 : fX < 2 ^ (F + 1)) (hD1 : 2 ^ F ≤ D)
    (hD2 : D < 2 ^ (F + 1)) (j : ℕ) :
    ((srtRem srtFull1 F fX D j : ℕ) : ℤ) = WS F fX D j % 2 ^ (F + 3) ∧ -(2 * (D : ℤ)) < WS F fX D j ∧
      WS F fX D j < 2 * D ∧ (D = 2 ^ F → 0 ≤ WS F fX D j) := by
  have h1 : 2 ^ (F + 1) = 2 * 2 ^ F := by rw [pow_succ]; ring
  have h3 : 2 ^ (F + 3) = 8 * 2 ^ F := by rw [pow_add]; ring
  have hp : 0 < 2 ^ F := by positivity
  induction j with
  | zero =>
    refine ⟨?_, ?_, ?_, ?_⟩
    · have : fX < 2 ^ (F + 3) := by omega
      have h' : (fX : ℤ) < 2 ^ (F + 3) := by exact_mod_cast this
      simp only [srtRem, WS]
      rw [Int.emod_eq_of_lt (by positivity) h']
    · simp only [WS]; omega
    · simp only [WS]; omega
    · simp only [WS]; omega
  | succ j ih =>
    obtain ⟨hw, hlo, hhi, h0⟩ := ih
    have h := step_bound hF hD1 hD2 hw hlo hhi h0 (W' := WS F fX D (j + 1)) rfl
    refine ⟨?_, h.1, h.2.1, h.2.2.1⟩
    simp only [srtRem, WS]
    exact step_cast hD2 hw

/-- A base-4 sum. -/
def sumZ (a : ℕ → ℤ) : ℕ → ℤ
  | 0 => a 0
  | m + 1 => a (m + 1) * 4 ^ (m + 1) + sumZ a m

theorem concatArray_cast (x : ℕ → ℕ) (m : ℕ) : ((concatArray 2 x m : ℕ) : ℤ) = sumZ (fun i => x i) m := by
  induction m with
  | zero => rfl
  | succ m ih =>
    simp only [concatArray, sumZ, concat]
    push_cast
    rw [ih, show (2 : ℤ) ^ ((m + 1) * 2) = 4 ^ (m + 1) by rw [mul_comm, pow_mul]; norm_num]

theorem concatArray_lt {x : ℕ → ℕ} (h : ∀ i, x i < 4) (m : ℕ) : concatArray 2 x m < 4 ^ (m + 1) := by
  induction m with
  | zero => simpa [concatArray] using h 0
  | succ m ih =>
    simp only [concatArray, concat]
    have h1 := h (m + 1)
    rw [show 2 ^ ((m + 1) * 2) = 4 ^ (m + 1) by rw [mul_comm, pow_mul]; norm_num, pow_succ 4 (m + 1)]
    have : x (m + 1) * 4 ^ (m + 1) ≤ 3 * 4 ^ (m + 1) := Nat.mul_le_mul_right _ (by omega)
    omega

theorem sumZ_sub (a b : ℕ → ℤ) (m : ℕ) : sumZ (fun i => a i - 2 * b i) m = sumZ a m - 2 * sumZ b m := by
  induction m with
  | zero => rfl
  | succ m ih => simp only [sumZ]; rw [ih]; ring

theorem sumZ_split (a : ℕ → ℤ) (m : ℕ) : ∃ Q : ℤ, sumZ a m = a 0 + 4 * Q := by
  induction m with
  | zero => exact ⟨0, by simp [sumZ]⟩
  | succ m ih =>
    obtain ⟨Q, hQ⟩ := ih
    refine ⟨Q + a (m + 1) * 4 ^ m, ?_⟩
    simp only [sumZ]
    rw [hQ]
    ring

theorem digitM_eq {q : ℕ} (h : q < 8) : digitM q = 2 * (q / 4) := by
  interval_cases q <;> decide

theorem digit_sd {q : ℕ} (h : q < 8) : sd q = (digitP q : ℤ) - 2 * (digitM q : ℤ) := by
  interval_cases q <;> decide

theorem divQuot_cast {n : ℕ} (hn : 2 ≤ n) {q : ℕ → ℕ} (hq : ∀ i, q i < 8) :
    ((divQuot n q : ℕ) : ℤ) = sumZ (fun i => sd (q i)) (n - 1) % 2 ^ (2 * n) := by
  obtain ⟨k, rfl⟩ : ∃ k, n = k + 2 := ⟨n - 2, by omega⟩
  have hM : ∀ i, digitM (q i) < 4 := fun i => by rw [digitM_eq (hq i)]; have := hq i; omega
  have htop : (getBit 0 (digitM (q (k + 1)))).toNat = 0 := by
    rw [digitM_eq (hq _)]; simp [getBit]
  have hlt := concatArray_lt hM k
  have h4 : 2 ^ (2 * (k + 2)) = 16 * 4 ^ k := by rw [pow_mul, pow_add]; norm_num; ring
  have hsd : (fun i => sd (q i)) = fun i => (digitP (q i) : ℤ) - 2 * (digitM (q i) : ℤ) := by
    funext i; exact digit_sd (hq i)
  unfold divQuot
  dsimp only
  rw [show k + 2 - 1 = k + 1 by omega, show k + 2 - 2 = k by omega, htop]
  have e : concat 1 (concat (2 * (k + 1)) 0 (concatArray 2 (fun i => digitM (q i)) k)) 0
      = 2 * concatArray 2 (fun i => digitM (q i)) k := by unfold concat; ring
  rw [e, cast_subW (by rw [h4]; rw [pow_succ] at hlt; omega)]
  push_cast
  rw [concatArray_cast, concatArray_cast, hsd, sumZ_sub]
  have hs : sumZ (fun i => (digitM (q i) : ℤ)) (k + 1)
      = (digitM (q (k + 1)) : ℤ) * 4 ^ (k + 1) + sumZ (fun i => (digitM (q i) : ℤ)) k := rfl
  rw [hs, digitM_eq (hq _)]
  generalize sumZ (fun i => (digitM (q i) : ℤ)) k = M
  generalize sumZ (fun i => (digitP (q i) : ℤ)) (k + 1) = P
  apply (Int.modEq_iff_dvd).mpr
  refine ⟨-((q (k + 1) / 4 : ℕ) : ℤ), ?_⟩
  have h4' : (2 : ℤ) ^ (2 * (k + 2)) = 16 * 4 ^ k := by exact_mod_cast h4
  rw [h4']
  push_cast
  ring

theorem sd_last {F w : ℕ} {W : ℤ} (hw : (w : ℤ) = W % 2 ^ (F + 3)) (h1 : -2 ^ (F + 2) ≤ W) (h2 : W < 2 ^ (F + 2)) :
    sd (srtLast F w) = if W = 0 then 0 else if 0 < W then 2 else -2 := by
  have e : (2 : ℤ) ^ (F + 3) = 2 * 2 ^ (F + 2) := by ring
  have hp : (0 : ℤ) < 2 ^ (F + 2) := by positivity
  have hwW : (w : ℤ) = if 0 ≤ W then W else W + 2 * 2 ^ (F + 2) := by
    rw [e] at hw
    split_ifs with h
    · rw [hw, Int.emod_eq_of_lt h (by linarith)]
    · have : W % (2 * 2 ^ (F + 2)) = (W + 2 * 2 ^ (F + 2)) % (2 * 2 ^ (F + 2)) := by rw [Int.add_emod_right]
      rw [hw, this, Int.emod_eq_of_lt (by linarith) (by linarith)]
  have hwlt : w < 2 ^ (F + 2 + 1) := by
    have := Int.emod_lt_of_pos W (show (0 : ℤ) < 2 ^ (F + 3) by positivity)
    rw [← hw] at this
    exact_mod_cast this
  unfold srtLast
  rw [getBits_all hwlt, getBit_top hwlt]
  obtain ⟨u, hu⟩ : ∃ u : ℕ, u = 2 ^ (F + 2) := ⟨_, rfl⟩
  have huz : (2 : ℤ) ^ (F + 2) = u := by rw [hu]; push_cast; rfl
  rw [huz] at h1 h2 hp hwW
  rw [← hu]
  clear hwlt e hw huz hu
  by_cases hW0 : W = 0
  · rw [if_pos hW0, if_pos (by split_ifs at hwW <;> omega)]; decide
  · rw [if_neg hW0]
    by_cases hpos : 0 < W
    · rw [if_pos hpos, if_neg (by split_ifs at hwW <;> omega), decide_eq_false (by split_ifs at hwW <;> omega)]
      decide
    · rw [if_neg hpos, if_neg (by split_ifs at hwW <;> omega), decide_eq_true (by split_ifs at hwW <;> omega)]
      decide

theorem divDigit_lt (full : ℕ → ℕ → ℕ → ℕ) (n F fX D i : ℕ) : divDigit full n F fX D i < 8 := by
  unfold divDigit
  split_ifs
  · unfold srtLast concat
    split_ifs
    · norm_num
    · have : (getBit (F + 2) (srtRem full F fX D (n - 1))).toNat ≤ 1 := Bool.toNat_le _
      omega
  · exact srtTable_lt _

theorem telescope (n F fX D : ℕ) (m : ℕ) (hm : m ≤ n - 1) :
    2 * (D : ℤ) * sumZ (fun i => sd (divDigit srtFull1 n F fX D i)) m
      = 4 * (4 ^ m * WS F fX D (n - 1 - m) - WS F fX D (n - 1))
        + 2 * D * sd (srtLast F (srtRem srtFull1 F fX D (n - 1))) := by
  induction m with
  | zero => simp [sumZ, divDigit]
  | succ m ih =>
    have ih := ih (by omega)
    have hstep : WS F fX D (n - 1 - m) = 4 * WS F fX D (n - 1 - (m + 1))
        - 2 * sd (srtTable (srtSel F (srtRem srtFull1 F fX D (n - 1 - (m + 1))) D)) * D := by
      rw [show n - 1 - m = (n - 1 - (m + 1)) + 1 by omega]
      rfl
    have hd : sd (divDigit srtFull1 n F fX D (m + 1))
        = sd (srtTable (srtSel F (srtRem srtFull1 F fX D (n - 1 - (m + 1))) D)) := by
      unfold divDigit; rw [if_neg (by omega)]
    simp only [sumZ]
    rw [mul_add, ih, hd, hstep]
    ring

/-- The quotient digits assemble to the truncated quotient with a sticky bit. -/
theorem divQuot_eq {n F fX D : ℕ} (hn : 2 ≤ n) (hF : 1 ≤ F) (hX2 : fX < 2 ^ (F + 1))
    (hD1 : 2 ^ F ≤ D) (hD2 : D < 2 ^ (F + 1)) :
    divQuot n (divDigit srtFull1 n F fX D)
      = 4 * (4 ^ (n - 1) * fX / (2 * D)) + (if 2 * D ∣ 4 ^ (n - 1) * fX then 0 else 2) := by
  obtain ⟨hw, hlo, hhi, -⟩ := rem_inv hF hX2 hD1 hD2 (n - 1)
  have hDz : (D : ℤ) < 2 ^ (F + 1) := by exact_mod_cast hD2
  have hDpos : 0 < D := lt_of_lt_of_le (by positivity) hD1
  have hpw : (2 : ℤ) ^ (F + 2) = 2 * 2 ^ (F + 1) := by ring
  have hlast := sd_last hw (by linarith) (by linarith)
  have hT := telescope n F fX D (n - 1) le_rfl
  have hc := divQuot_cast hn (q := divDigit srtFull1 n F fX D) (fun i => divDigit_lt _ _ _ _ _ i)
  rw [hlast, Nat.sub_self] at hT
  simp only [WS] at hT
  obtain ⟨Q, hQ⟩ := sumZ_split (fun i => sd (divDigit srtFull1 n F fX D i)) (n - 1)
  have hq0 : sd (divDigit srtFull1 n F fX D 0) = sd (srtLast F (srtRem srtFull1 F fX D (n - 1))) := by
    unfold divDigit; rw [if_pos rfl]
  simp only [hq0, hlast] at hQ
  generalize WS F fX D (n - 1) = R at *
  generalize sumZ (fun i => sd (divDigit srtFull1 n F fX D i)) (n - 1) = S at *
  generalize divQuot n (divDigit srtFull1 n F fX D) = fR at *
  have h4n : (2 : ℤ) ^ (2 * n) = 4 * ((4 ^ (n - 1) : ℕ) : ℤ) := by
    rw [pow_mul, show n = (n - 1) + 1 by omega, pow_succ]; push_cast; norm_num; ring
  have hNlt : 4 ^ (n - 1) * fX < 4 ^ (n - 1) * (2 * D) := Nat.mul_lt_mul_of_pos_left (by rw [pow_succ] at hX2; omega) (by positivity)
  rw [h4n] at hc
  have hNc : (4 : ℤ) ^ (n - 1) * (fX : ℤ) = ((4 ^ (n - 1) * fX : ℕ) : ℤ) := by push_cast; rfl
  rw [hNc] at hT
  generalize 4 ^ (n - 1) * fX = N at *
  have hAlt : N / (2 * D) < 4 ^ (n - 1) := Nat.div_lt_of_lt_mul (by linarith)
  generalize 4 ^ (n - 1) = P at *
  have hdm := Nat.div_add_mod N (2 * D)
  have hml := Nat.mod_lt N (show 0 < 2 * D by omega)
  simp only [Nat.dvd_iff_mod_eq_zero]
  generalize N / (2 * D) = A at *
  generalize N % (2 * D) = m at *
  have key : S = 4 * A + (if m = 0 then 0 else 2) := by
    have hdm' : 2 * (D : ℤ) * A + m = N := by exact_mod_cast hdm
    have hml' : (m : ℤ) < 2 * D := by exact_mod_cast hml
    have hm0 : (0 : ℤ) ≤ m := Int.natCast_nonneg _
    have hDz0 : (0 : ℤ) < D := by exact_mod_cast hDpos
    rw [← hdm'] at hT
    generalize (A : ℤ) = a at *
    generalize hd2 : (D : ℤ) = d at *
    have h1 : 2 * d * (Q - a) = m - R := by rw [hQ] at hT; linarith
    have h2 : Q - a < 2 := by nlinarith
    have h3 : -1 < Q - a := by nlinarith
    rcases (by omega : Q - a = 0 ∨ Q - a = 1) with h | h
    · rw [h] at h1
      have hRm : R = m := by linarith
      rw [hQ]
      split_ifs <;> omega
    · rw [h] at h1
      rw [hQ]
      split_ifs <;> omega
  rw [key, Int.emod_eq_of_lt (by split_ifs <;> omega) (by split_ifs <;> omega)] at hc
  split_ifs at hc ⊢ <;> omega

/-- The `wF+4`-bit quotient is the truncated quotient, scaled by `2^(F+2)`, followed by a sticky bit. -/
theorem divSig_eq {F fX D : ℕ} (hF : 1 ≤ F) (hX2 : fX < 2 ^ (F + 1))
    (hD1 : 2 ^ F ≤ D) (hD2 : D < 2 ^ (F + 1)) :
    divSig srtFull1 F fX D = 2 * (2 ^ (F + 2) * fX / D) + (if D ∣ 2 ^ (F + 2) * fX then 0 else 1) := by
  have hDpos : 0 < D := lt_of_lt_of_le (by positivity) hD1
  have hQ := divQuot_eq (n := (F + 6) / 2) (by omega) hF hX2 hD1 hD2
  unfold divSig
  rw [hQ]
  have hNlt : 2 ^ (F + 2) * fX < 2 ^ (F + 3) * D := by
    have : fX < 2 * D := by rw [pow_succ] at hX2; omega
    calc 2 ^ (F + 2) * fX < 2 ^ (F + 2) * (2 * D) := Nat.mul_lt_mul_of_pos_left this (by positivity)
      _ = 2 ^ (F + 3) * D := by ring
  have hAlt : 2 ^ (F + 2) * fX / D < 2 ^ (F + 3) := Nat.div_lt_of_lt_mul (by linarith)
  rcases Nat.even_or_odd' F with ⟨k, hk | hk⟩
  · -- even
    have hn : (F + 6) / 2 = k + 3 := by omega
    have h4 : 4 ^ (k + 3 - 1) * fX = 4 * (2 ^ (F + 2) * fX) := by
      rw [hk, show k + 3 - 1 = k + 2 by omega, show (4 : ℕ) = 2 ^ 2 by norm_num, ← pow_mul]
      ring
    unfold divFR
    rw [hn, h4, if_neg (by omega)]
    generalize 2 ^ (F + 2) * fX = N at *
    have e1 : 4 * N / (2 * D) = 2 * N / D := by
      rw [show 4 * N = 2 * (2 * N) by ring, Nat.mul_div_mul_left _ _ (by norm_num)]
    have e2 : (2 * D ∣ 4 * N) ↔ (D ∣ 2 * N) := by
      rw [show 4 * N = 2 * (2 * N) by ring, Nat.mul_dvd_mul_iff_left (by norm_num)]
    have e3 : 2 * N / D / 2 = N / D := by
      rw [Nat.div_div_eq_div_mul, mul_comm D, Nat.mul_div_mul_left _ _ (by norm_num)]
    have e4 : (D ∣ N) ↔ (D ∣ 2 * N) ∧ 2 * N / D % 2 = 0 := by
      constructor
      · rintro ⟨c, rfl⟩
        refine ⟨⟨2 * c, by ring⟩, ?_⟩
        rw [show 2 * (D * c) = D * (2 * c) by ring, Nat.mul_div_cancel_left _ hDpos]
        omega
      · rintro ⟨⟨c, hc⟩, h⟩
        rw [hc, Nat.mul_div_cancel_left _ hDpos] at h
        refine ⟨c / 2, ?_⟩
        have : 2 * (c / 2) = c := by omega
        have h2 : 2 * N = 2 * (D * (c / 2)) := by rw [hc, ← this]; simp; ring
        omega
    simp only [e2, e4, e1]
    have hB : 2 * N / D < 2 ^ (F + 4) := by rw [show 2 ^ (F + 4) = 2 * 2 ^ (F + 3) by ring]; omega
    rw [← e3]
    generalize 2 * N / D = B at *
    have hp : 2 ^ (2 * (k + 3) - 1 + 1) = 4 * 2 ^ (F + 4) := by
      rw [show 2 * (k + 3) - 1 + 1 = F + 4 + 2 by omega, pow_add]; ring
    rw [getBits_top (by split_ifs <;> omega) (by omega)]
    unfold concat getBit
    have r3 : ∀ c, (c = 0 ∨ c = 2) →
        (4 * B + c) / 2 ^ 3 = B / 2 ∧ (4 * B + c) / 2 ^ 2 % 2 = B % 2 ∧ (4 * B + c) / 2 ^ 1 % 2 = c / 2 := by
      intro c hc
      norm_num
      omega
    rcases Nat.mod_two_eq_zero_or_one B with hb | hb <;> by_cases hd : D ∣ 2 * N
    · obtain ⟨a, b, c⟩ := r3 0 (by norm_num)
      simp only [hd, hb, if_true, if_false, a, b, c]
      simp [mul_comm]
    · obtain ⟨a, b, c⟩ := r3 2 (by norm_num)
      simp only [hd, hb, if_true, if_false, a, b, c]
      simp [mul_comm]
    · obtain ⟨a, b, c⟩ := r3 0 (by norm_num)
      simp only [hd, hb, if_true, if_false, a, b, c]
      simp [mul_comm]
    · obtain ⟨a, b, c⟩ := r3 2 (by norm_num)
      simp only [hd, hb, if_true, if_false, a, b, c]
      simp [mul_comm]
  · -- odd
    have hn : (F + 6) / 2 = k + 3 := by omega
    have h4 : 4 ^ (k + 3 - 1) * fX = 2 * (2 ^ (F + 2) * fX) := by
      rw [hk, show k + 3 - 1 = k + 2 by omega, show (4 : ℕ) = 2 ^ 2 by norm_num, ← pow_mul]
      ring
    unfold divFR
    rw [hn, h4, if_pos (by omega)]
    generalize 2 ^ (F + 2) * fX = N at *
    have e2 : (2 * D ∣ 2 * N) ↔ (D ∣ N) := Nat.mul_dvd_mul_iff_left (by norm_num)
    rw [Nat.mul_div_mul_left _ _ (by norm_num)]
    simp only [e2]
    generalize N / D = A at *
    have hp : 2 ^ (2 * (k + 3) - 1 + 1) = 4 * 2 ^ (F + 3) := by
      rw [show 2 * (k + 3) - 1 + 1 = F + 3 + 2 by omega, pow_add]; ring
    rw [getBits_top (by split_ifs <;> omega) (by omega)]
    split_ifs <;> omega

/-- Normalisation splits the quotient into fraction, round bit and sticky bit. -/
theorem divNorm_spec {F A st : ℕ} (hF : 1 ≤ F) (h1 : 2 ^ (F + 1) ≤ A) (h2 : A < 2 ^ (F + 3)) (hst : st < 2) :
    ∃ f low k : ℕ, ∃ r : Bool, f < 2 ^ F ∧ A = (2 * (2 ^ F + f) + r.toNat) * 2 ^ k + low ∧ low < 2 ^ k ∧
      k = (getBit (F + 3) (2 * A + st)).toNat ∧ getBits (F + 1) 2 (divNorm F (2 * A + st)) = f ∧
      getBit 1 (divNorm F (2 * A + st)) = r ∧ getBit 2 (divNorm F (2 * A + st)) = decide (f % 2 = 1) ∧
      getBit 0 (divNorm F (2 * A + st)) = (decide (st = 1) || decide (low ≠ 0)) := by
  have e3 : 2 ^ (F + 3) = 8 * 2 ^ F := by rw [pow_add]; ring
  have e1 : 2 ^ (F + 1) = 2 * 2 ^ F := by rw [pow_add]; ring
  have e2 : 2 ^ (F + 2) = 4 * 2 ^ F := by rw [pow_add]; ring
  have e4 : 2 ^ (F + 4) = 16 * 2 ^ F := by rw [pow_add]; ring
  have hp : 0 < 2 ^ F := by positivity
  have hnorm : getBit (F + 3) (2 * A + st) = decide (4 * 2 ^ F ≤ A) := by
    rw [getBit_top (by rw [show F + 3 + 1 = F + 4 by omega, e4]; omega), e3]
    simp only [decide_eq_decide]
    omega
  by_cases hn : 4 * 2 ^ F ≤ A
  · have hG : divNorm F (2 * A + st)
        = 2 * (A / 2 - 2 * 2 ^ F) + (decide (A % 2 = 1) || decide (st = 1)).toNat := by
      unfold divNorm
      rw [hnorm, decide_eq_true hn, if_pos rfl]
      have : getBits (F + 2) 2 (2 * A + st) = A / 2 - 2 * 2 ^ F := by
        unfold getBits
        rw [show F + 2 + 1 - 2 = F + 1 by omega, e1, show (2 * A + st) / 2 ^ 2 = A / 2 by norm_num; omega,
          Nat.mod_eq_sub_mod (by omega), Nat.mod_eq_of_lt (by omega)]
      rw [this]
      unfold concat getBit
      rw [show (2 * A + st) / 2 ^ 1 % 2 = A % 2 by norm_num; omega,
        show (2 * A + st) / 2 ^ 0 % 2 = st by norm_num; omega]
      ring
    have hs : (decide (A % 2 = 1) || decide (st = 1)).toNat < 2 := Bool.toNat_lt _
    rw [hG, hnorm, decide_eq_true hn]
    have hs' : decide ((decide (A % 2 = 1) || decide (st = 1)).toNat = 1) = (decide (A % 2 = 1) || decide (st = 1)) := by
      cases decide (A % 2 = 1) <;> cases decide (st = 1) <;> rfl
    generalize hsb : (decide (A % 2 = 1) || decide (st = 1)) = sb at *
    generalize sb.toNat = s at *
    obtain ⟨h, hh⟩ : ∃ h, A / 2 - 2 * 2 ^ F = h := ⟨_, rfl⟩
    rw [hh]
    refine ⟨h / 2, A % 2, 1, decide (h % 2 = 1), ?_, ?_, ?_, rfl, ?_, ?_, ?_, ?_⟩
    · omega
    · have : (decide (h % 2 = 1)).toNat = h % 2 := by
        rcases Nat.mod_two_eq_zero_or_one h with h | h <;> rw [h] <;> rfl
      rw [this]
      omega
    · omega
    · unfold getBits
      rw [show F + 1 + 1 - 2 = F by omega, show (2 * h + s) / 2 ^ 2 = h / 2 by norm_num; omega,
        Nat.mod_eq_of_lt (by omega)]
    · unfold getBit
      rw [show (2 * h + s) / 2 ^ 1 = h by norm_num; omega]
    · unfold getBit
      rw [show (2 * h + s) / 2 ^ 2 = h / 2 by norm_num; omega]
    · unfold getBit
      rw [show (2 * h + s) / 2 ^ 0 % 2 = s by norm_num; omega, hs', ← hsb, Bool.or_comm]
      congr 1
      simp only [decide_eq_decide]
      omega
  · have hG : divNorm F (2 * A + st) = 2 * (A - 2 * 2 ^ F) + st := by
      unfold divNorm
      rw [hnorm, decide_eq_false hn, if_neg (by decide), getBits_zero_eq_mod, show F + 1 + 1 = F + 2 by omega, e2,
        Nat.mod_eq_sub_mod (by omega), Nat.mod_eq_of_lt (by omega)]
      omega
    rw [hG, hnorm, decide_eq_false hn]
    obtain ⟨h, hh⟩ : ∃ h, A - 2 * 2 ^ F = h := ⟨_, rfl⟩
    rw [hh]
    refine ⟨h / 2, 0, 0, decide (h % 2 = 1), ?_, ?_, ?_, rfl, ?_, ?_, ?_, ?_⟩
    · omega
    · have : (decide (h % 2 = 1)).toNat = h % 2 := by
        rcases Nat.mod_two_eq_zero_or_one h with h | h <;> rw [h] <;> rfl
      rw [this]
      omega
    · norm_num
    · unfold getBits
      rw [show F + 1 + 1 - 2 = F by omega, show (2 * h + st) / 2 ^ 2 = h / 2 by norm_num; omega,
        Nat.mod_eq_of_lt (by omega)]
    · unfold getBit
      rw [show (2 * h + st) / 2 ^ 1 = h by norm_num; omega]
    · unfold getBit
      rw [show (2 * h + st) / 2 ^ 2 = h / 2 by norm_num; omega]
    · unfold getBit
      rw [show (2 * h + st) / 2 ^ 0 % 2 = st by norm_num; omega]
      simp

theorem divRange_eq {t : ℕ} (h : t < 4) : divRange t = rangeFlags t := by
  interval_cases t <;> decide

theorem divExp_cast {E ex ey : ℕ} (hE : 2 ≤ E) (hy : ey < 2 ^ E) (norm : Bool) :
    ((divExp E ex ey norm : ℕ) : ℤ) = ((ex : ℤ) - ey + bias E - 1 + norm.toNat) % 2 ^ (E + 2) := by
  have h1 : 2 ^ (E + 2) = 4 * 2 ^ E := by rw [pow_add]; ring
  have h2 : ((concat 1 (ones (E - 2)) norm.toNat : ℕ) : ℤ) = bias E - 1 + norm.toNat := by
    unfold concat ones bias
    have hp : 0 < 2 ^ (E - 2) := by positivity
    rw [show E - 1 = (E - 2) + 1 by omega, pow_succ]
    push_cast [Nat.cast_sub (show 1 ≤ 2 ^ (E - 2) from hp)]
    ring
  unfold divExp
  rw [cast_addW, cast_subW (by omega), h2, Int.emod_add_emod]
  congr 1
  ring

theorem divPack_datum {E F ep s G f low : ℕ} {r st : Bool} {be : ℤ} (hE : 1 ≤ E) (hF : 1 ≤ F)
    (hep : (ep : ℤ) = be % 2 ^ (E + 2)) (hf : f < 2 ^ F) (hs : s < 2)
    (hlo : -(2 * 2 ^ E) ≤ be) (hhi : be + 1 < 2 * 2 ^ E)
    (g1 : getBits (F + 1) 2 G = f) (g2 : getBit 1 G = r) (g3 : getBit 2 G = decide (f % 2 = 1))
    (g4 : getBit 0 G = (st || decide (low ≠ 0))) :
    (divPack E F 1 s ep G).datum = packedDatum E F (decide (s = 1))
      (be * 2 ^ F + f + (if r && (st || decide (low ≠ 0) || decide (f % 2 = 1)) then 1 else 0)) := by
  have hlt := getBits_lt (E + F + 1) (E + F)
    (addW (E + F + 2) (concat F ep f) (r && (st || decide (low ≠ 0) || decide (f % 2 = 1))).toNat)
  rw [show E + F + 1 + 1 - (E + F) = 2 by omega] at hlt
  rw [← finish_datum (r && (st || decide (low ≠ 0) || decide (f % 2 = 1))) hE hF hep hf hs hlo hhi]
  unfold divPack
  dsimp only
  rw [g1, g2, g3, g4, if_pos rfl, Bool.or_comm (decide (f % 2 = 1)), divRange_eq hlt]

theorem divExc_normal : divExc 1 1 = 1 := by decide

/-- The quotient of two normal numbers of one format. -/
theorem divSame_round {E F : ℕ} (hE : 2 ≤ E) (hF : 1 ≤ F) {x y : Fp E F} {vx vy : ℚ}
    (hx : x.datum = .num vx) (hy : y.datum = .num vy) :
    Rounded E F (vx / vy) (divSame srtFull1 x y).datum := by
  obtain ⟨hfx, rfl⟩ := datum_num_iff.mp hx
  obtain ⟨hfy, rfl⟩ := datum_num_iff.mp hy
  have hxf := x.frac_lt hF
  have hyf := y.frac_lt hF
  have hxe := x.exp_lt (by omega)
  have hye := y.exp_lt (by omega)
  have hdiv : ∀ a b : ℚ, 0 < a → 0 < b →
      |((if x.sign = 1 then (-1 : ℚ) else 1) * a) / ((if y.sign = 1 then (-1 : ℚ) else 1) * b)| = a / b ∧
      (((if x.sign = 1 then (-1 : ℚ) else 1) * a) / ((if y.sign = 1 then (-1 : ℚ) else 1) * b) < 0 ↔
        (x.sign + y.sign) % 2 = 1) := by
    intro a b ha hb
    have e : ((if x.sign = 1 then (-1 : ℚ) else 1) * a) / ((if y.sign = 1 then (-1 : ℚ) else 1) * b)
        = (if (x.sign + y.sign) % 2 = 1 then (-1 : ℚ) else 1) * (a / b) := by
      rw [← sign_mul_sign x.sign_lt y.sign_lt]
      have : ((if y.sign = 1 then (-1 : ℚ) else 1))⁻¹ = (if y.sign = 1 then (-1 : ℚ) else 1) := by
        split_ifs <;> norm_num
      rw [div_eq_mul_inv, mul_inv, this]
      ring
    rw [e]
    exact ⟨abs_signed (div_pos ha hb), signed_neg (div_pos ha hb)⟩
  obtain ⟨hq, hsgn⟩ := hdiv (((2 ^ F + x.frac : ℕ) : ℚ) * 2 ^ ((x.exp : ℤ) - bias E - F))
    (((2 ^ F + y.frac : ℕ) : ℚ) * 2 ^ ((y.exp : ℤ) - bias E - F)) (sig_scaled_pos _ _ _) (sig_scaled_pos _ _ _)
  generalize ((if x.sign = 1 then (-1 : ℚ) else 1) * _) / _ = q at *
  have hS := divSig_eq hF (fX := 2 ^ F + x.frac) (D := 2 ^ F + y.frac) (by rw [pow_succ]; omega) (by omega)
    (by rw [pow_succ]; omega)
  unfold divSame
  dsimp only
  rw [hfx, hfy, divExc_normal]
  simp only [opadHi1]
  rw [hS]
  have hX2 : 2 ^ F + x.frac < 2 * 2 ^ F := by omega
  have hX1 : 2 ^ F ≤ 2 ^ F + x.frac := by omega
  have hD2 : 2 ^ F + y.frac < 2 * 2 ^ F := by omega
  have hD1 : 2 ^ F ≤ 2 ^ F + y.frac := by omega
  generalize 2 ^ F + x.frac = X at *
  generalize 2 ^ F + y.frac = D at *
  have hp : 0 < 2 ^ F := by positivity
  have hDpos : 0 < D := by omega
  have hA1 : 2 ^ (F + 1) ≤ 2 ^ (F + 2) * X / D := by
    rw [Nat.le_div_iff_mul_le hDpos]
    calc 2 ^ (F + 1) * D ≤ 2 ^ (F + 1) * (2 * 2 ^ F) := Nat.mul_le_mul_left _ hD2.le
      _ = 2 ^ (F + 2) * 2 ^ F := by ring
      _ ≤ _ := Nat.mul_le_mul_left _ hX1
  have hA2 : 2 ^ (F + 2) * X / D < 2 ^ (F + 3) := by
    rw [Nat.div_lt_iff_lt_mul hDpos]
    calc 2 ^ (F + 2) * X < 2 ^ (F + 2) * (2 * 2 ^ F) := Nat.mul_lt_mul_of_pos_left hX2 (by positivity)
      _ = 2 ^ (F + 3) * 2 ^ F := by ring
      _ ≤ _ := Nat.mul_le_mul_left _ hD1
  have hst : (if D ∣ 2 ^ (F + 2) * X then 0 else 1) < 2 := by split_ifs <;> norm_num
  obtain ⟨f, low, k, r, hf, hA, hlow, hk, g1, g2, g3, g4⟩ := divNorm_spec hF hA1 hA2 hst
  obtain ⟨b1, b2⟩ := bias_bounds hE
  have hxe' : (x.exp : ℤ) < 2 ^ E := by exact_mod_cast hxe
  have hye' : (y.exp : ℤ) < 2 ^ E := by exact_mod_cast hye
  have hep := divExp_cast (ex := x.exp) hE hye
    (getBit (F + 3) (2 * (2 ^ (F + 2) * X / D) + if D ∣ 2 ^ (F + 2) * X then 0 else 1))
  have hk1 : k ≤ 1 := by rw [hk]; exact Bool.toNat_le _
  rw [← hk] at hep
  rw [divPack_datum (by omega) hF hep hf (Nat.mod_lt _ (by norm_num)) (by omega) (by omega) g1 g2 g3 g4,
    show decide ((x.sign + y.sign) % 2 = 1) = decide (q < 0) by simp [hsgn]]
  have hD0 : (0 : ℚ) < D := by exact_mod_cast hDpos
  have hqv : |q| = (((2 ^ (F + 2) * X : ℕ) : ℚ) / D) * 2 ^ ((x.exp : ℤ) - y.exp - F - 2) := by
    have e1 : (2 : ℚ) ^ ((x.exp : ℤ) - bias E - F)
        = 2 ^ (F + 2) * 2 ^ ((x.exp : ℤ) - y.exp - F - 2) * 2 ^ ((y.exp : ℤ) - bias E - F) := by
      rw [← zpow_natCast, ← zpow_add₀ (by norm_num), ← zpow_add₀ (by norm_num)]
      congr 1
      push_cast
      ring
    have h0 := two_zpow_pos ((y.exp : ℤ) - bias E - F)
    rw [hq, e1]
    push_cast
    field_simp
  have hdm := Nat.div_add_mod (2 ^ (F + 2) * X) D
  have hml := Nat.mod_lt (2 ^ (F + 2) * X) hDpos
  simp only [Nat.dvd_iff_mod_eq_zero]
  generalize 2 ^ (F + 2) * X = N at *
  generalize N / D = A at *
  generalize N % D = m at *
  have hN : (N : ℚ) / D = A + (m : ℚ) / D := by
    rw [← hdm]; push_cast; field_simp
  have hm0 : (0 : ℚ) ≤ (m : ℚ) / D := by positivity
  have hm1 : (m : ℚ) / D < 1 := by rw [div_lt_one hD0]; exact_mod_cast hml
  have hg := two_zpow_pos ((x.exp : ℤ) - y.exp - F - 2)
  refine rounded_of_sticky hF (A := A) (k := k) (g := (x.exp : ℤ) - y.exp - F - 2) hf ?_ ?_ ?_ hA hlow ?_
  · rw [hqv, hN]
    exact mul_le_mul_of_nonneg_right (by linarith) hg.le
  · rw [hqv, hN]
    exact mul_lt_mul_of_pos_right (by linarith) hg
  · rw [hqv, hN]
    constructor
    · intro h
      have : m = 0 := by
        by_contra hc
        simp [hc] at h
      rw [this]; simp
    · intro h
      have h' := mul_right_cancel₀ hg.ne' h
      have h'' : (m : ℚ) / D = 0 := by linarith
      rw [div_eq_zero_iff] at h''
      rcases h'' with h'' | h''
      · have : m = 0 := by exact_mod_cast h''
        simp [this]
      · linarith
  · linarith

theorem divExc_lt (a b : ℕ) : divExc a b < 4 := by
  unfold divExc
  dsimp only
  split_ifs <;> norm_num

theorem divSame_special_flags {E F : ℕ} (hE : 1 ≤ E) (full : ℕ → ℕ → ℕ → ℕ) {x y r : Fp E F}
    (hr : divSame full x y = r) (h : divExc x.flags y.flags ≠ 1) :
    r.flags = divExc x.flags y.flags ∧ r.sign = (x.sign + y.sign) % 2 := by
  have h4 := divExc_lt x.flags y.flags
  have hs : (x.sign + y.sign) % 2 < 2 := Nat.mod_lt _ (by norm_num)
  rw [← hr]
  unfold divSame divPack
  dsimp only
  generalize divExc x.flags y.flags = e at *
  generalize (x.sign + y.sign) % 2 = s at *
  rw [if_neg h, ofBits_concat]
  have hb := fun t => getBits_lt' (E := E) (F := F) (x := t) (by omega)
  constructor
  · refine Fp.mk4_flags h4 hs ?_ (Nat.mod_lt _ (by positivity))
    rw [Nat.div_lt_iff_lt_mul (by positivity), ← pow_add]
    exact hb _
  · refine Fp.mk4_sign h4 hs ?_ (Nat.mod_lt _ (by positivity))
    rw [Nat.div_lt_iff_lt_mul (by positivity), ← pow_add]
    exact hb _

theorem divSame_special {E F : ℕ} (hE : 1 ≤ E) (full : ℕ → ℕ → ℕ → ℕ) {x y r : Fp E F}
    (hr : divSame full x y = r) {d : Datum} (hd : divSpecial x.datum y.datum = some d) : r.datum = d := by
  have key := divSame_special_flags hE full hr
  clear hr
  have hx := datum_isNeg x
  have hy := datum_isNeg y
  have hsx := sign_xor x.sign_lt y.sign_lt
  rcases flags_cases x with h0 | h0 | h0 | h0 <;> rcases flags_cases y with h1 | h1 | h1 | h1 <;>
    rw [h0, h1] at key <;> rw [h0] at hx <;> rw [h1] at hy <;>
    (try have hx := hx (by decide)) <;> (try have hy := hy (by decide)) <;>
    (try (have key := key (by decide); obtain ⟨kf, ks⟩ := key)) <;>
    (try rw [← ks] at hsx) <;>
    (try rw [datum_flags0 x h0] at hd) <;> (try rw [datum_flags2 x h0] at hd) <;>
    (try rw [datum_flags3 x h0] at hd) <;>
    (try rw [datum_flags0 y h1] at hd) <;> (try rw [datum_flags2 y h1] at hd) <;>
    (try rw [datum_flags3 y h1] at hd) <;>
    (try rw [datum_normal x h0] at hd hx) <;> (try rw [datum_normal y h1] at hd hy) <;>
    simp only [divSpecial, Option.some.injEq, reduceCtorEq] at hd <;>
    subst hd <;>
    first
      | exact datum_flags3 r kf
      | (rw [datum_flags2 r kf, hsx]; first | rfl | rw [hx] | rw [hy])
      | (rw [datum_flags0 r kf, hsx]; first | rfl | rw [hx] | rw [hy])

/-- The add/subtract of version 2 computes the same full remainder as version 1. -/
theorem srtFull2_eq {F w D : ℕ} (hD : D < 2 ^ (F + 1)) : srtFull2 F w D = srtFull1 F w D := by
  have h8 : 2 ^ (F + 4) = 8 * 2 ^ (F + 1) := by rw [show F + 4 = (F + 1) + 3 by omega, pow_add]; ring
  have hsub : ∀ b, b ≤ 3 * D → addSub (F + 4) true (concat 1 w 0) b = subW (F + 4) (concat 1 w 0) b := by
    intro b hb
    unfold addSub addW subW notW
    simp only [if_true, Bool.toNat_true]
    rw [Nat.mod_add_mod]
    congr 1
    omega
  have hadd : ∀ b, addSub (F + 4) false (concat 1 w 0) b = addW (F + 4) (concat 1 w 0) b := by
    intro b
    unfold addSub addW
    simp
  have hzero : addW (F + 4) (concat 1 w 0) 0 = subW (F + 4) (concat 1 w 0) 0 := by
    unfold addW subW
    simp
  unfold srtFull2 srtFull1
  dsimp only
  generalize srtSel F w D = s
  have h3 := fYTimes3_eq hD
  unfold srtSwitch2 srtTable
  have s1 := hsub D (by omega)
  have s2 := hsub (concat 1 D 0) (by unfold concat; omega)
  have s3 := hsub (fYTimes3 F D) (by omega)
  split <;> simp [getBit, qTimesD, hadd, hzero, s1, s2, s3]

theorem srtRem2_eq {F fX D : ℕ} (hD : D < 2 ^ (F + 1)) (j : ℕ) :
    srtRem srtFull2 F fX D j = srtRem srtFull1 F fX D j := by
  induction j with
  | zero => rfl
  | succ j ih => simp only [srtRem]; rw [ih, srtFull2_eq hD]

theorem divSame2_eq {E F : ℕ} (hF : 1 ≤ F) (x y : Fp E F) : divSame srtFull2 x y = divSame srtFull1 x y := by
  have hy := y.frac_lt hF
  have hD : opadHi1 F y.frac < 2 ^ (F + 1) := by unfold opadHi1; rw [pow_succ]; omega
  have h : divDigit srtFull2 ((F + 6) / 2) F (opadHi1 F x.frac) (opadHi1 F y.frac)
      = divDigit srtFull1 ((F + 6) / 2) F (opadHi1 F x.frac) (opadHi1 F y.frac) := by
    funext i
    unfold divDigit
    rw [srtRem2_eq hD, srtRem2_eq hD]
  unfold divSame divSig
  rw [h]

end Div
end Thls
