import Verif.Props.ExactOps
import Verif.Props.AddSingleMono
import Verif.Props.MonoMore
import Verif.Props.Loops
import Verif.Props.Bench

/-! # Property C99: arithmetic on integers and fixed-point numbers is exact

A number is written `n * 2^k` with integers `n` and `k`: an integer for `k = 0`, a fixed-point number with `-k` fraction bits for `k < 0`. The
condition on `k` is always `-bias ≤ k` and `k + F ≤ bias`. -/

namespace Thls
open Spec

variable {E F : ℕ}

/-- The scales `2^k` for which the multiples of `2^k` up to `2^(F+1) * 2^k` are in the range of the format. -/
def ScaleOk (E F : ℕ) (k : ℤ) : Prop := -bias E ≤ k ∧ k + F ≤ bias E

/-- The word stands for `n * 2^k`. -/
def IsMultiple {E F : ℕ} (x : Fp E F) (n k : ℤ) : Prop := x.datum.fin = some ((n : ℚ) * 2 ^ k)

/-! ## Which multiples there are -/

/-- **C99, representable.** For every `|n| ≤ 2^(F+1)` there is a word that stands for `n * 2^k`. -/
theorem C99_representable (hE : 1 ≤ E) (hF : 1 ≤ F) {n k : ℤ} (hk : ScaleOk E F k) (hn : |n| ≤ 2 ^ (F + 1)) : ∃ x : Fp E F, IsMultiple x n k := by
  have hp := two_zpow_pos k
  by_cases h0 : n = 0
  · exact ⟨Fp.default E F, by unfold IsMultiple; rw [default_fin, h0]; simp⟩
  · have hq : (n : ℚ) * 2 ^ k ≠ 0 := mul_ne_zero (by exact_mod_cast h0) hp.ne'
    obtain ⟨d, hd⟩ := rounded_exists (E := E) hF hq
    obtain ⟨c, hc⟩ := rounded_word hE hF hd
    refine ⟨c, ?_⟩
    unfold IsMultiple
    rw [hc]
    exact rounded0_multiple hE (by unfold Rounded0; rw [if_neg hq]; exact hd) hn hk.1 hk.2

/-- **C99, the bound is sharp.** No word stands for `(2^(F+1)+1) * 2^k`. -/
theorem C99_bound_sharp (hF : 1 ≤ F) (k : ℤ) (x : Fp E F) : ¬ IsMultiple x (2 ^ (F + 1) + 1) k := by
  intro h
  unfold IsMultiple at h
  have hp := two_zpow_pos k
  push_cast at h
  have hpos : (0 : ℚ) < (2 ^ (F + 1) + 1) * 2 ^ k := by positivity
  cases dx : x.datum with
  | nan => rw [dx] at h; cases h
  | inf s => rw [dx] at h; cases h
  | zero s => rw [dx] at h; injection h with h; exact hpos.ne h
  | num v =>
    rw [dx] at h; injection h with h
    obtain ⟨m, j, hm, hv⟩ := num_sig hF dx
    rw [h, abs_of_pos hpos] at hv
    have hu := sig_upper hm j
    have hlow := sig_lower hm j
    rw [← hv] at hu hlow
    have h1 : (2 : ℚ) ^ (k + F + 1) < 2 ^ (j + F + 1) := by
      refine lt_trans ?_ hu
      rw [show k + (F : ℤ) + 1 = ((F + 1 : ℕ) : ℤ) + k by push_cast; ring, zpow_add₀ (by norm_num), zpow_natCast]
      exact mul_lt_mul_of_pos_right (by linarith) hp
    have h2 := (zpow_lt_zpow_iff_right₀ (a := (2 : ℚ)) (by norm_num)).mp h1
    obtain ⟨i, rfl⟩ : ∃ i : ℕ, j = k + 1 + i := ⟨(j - k - 1).toNat, by omega⟩
    rw [zpow_add₀ (by norm_num), zpow_add₀ (by norm_num), zpow_natCast] at hv
    have h3 : ((2 ^ (F + 1) + 1 : ℕ) : ℚ) = ((m * 2 * 2 ^ i : ℕ) : ℚ) := by
      push_cast
      refine mul_right_cancel₀ hp.ne' ?_
      rw [hv]; norm_num; ring
    have h4 : 2 ^ (F + 1) + 1 = m * 2 * 2 ^ i := by exact_mod_cast h3
    have h5 : (2 ^ (F + 1) + 1) % 2 = 1 := by rw [pow_succ]; omega
    rw [h4, show m * 2 * 2 ^ i = (m * 2 ^ i) * 2 by ring] at h5
    omega

/-- **C99, when an operation is exact.** A correctly rounded result equals the exact value `q` exactly when some word of the format stands for `q`. -/
theorem C99_exact_iff_representable (hE : 1 ≤ E) (hF : 1 ≤ F) {q : ℚ} {r : Fp E F} (h : Rounded0 E F q r.datum) :
    r.datum.fin = some q ↔ ∃ x : Fp E F, x.datum.fin = some q := by
  refine ⟨fun h => ⟨r, h⟩, fun ⟨x, hx⟩ => ?_⟩
  unfold Rounded0 at h
  by_cases hq : q = 0
  · rw [if_pos hq] at h
    obtain ⟨s, hs⟩ := h
    rw [hs, hq]; rfl
  · rw [if_neg hq] at h
    have hxn : x.datum = .num q := by
      revert hx
      rcases x.datum with _ | s | s | v <;> simp only [Datum.fin, Option.some.injEq, reduceCtorEq, false_imp_iff]
      · exact fun h => absurd h.symm hq
      · rintro rfl; rfl
    rw [rounded_unique h (rounded_self hF hE x q hxn), hxn]; rfl

/-! ## The operations -/

/-- An addition that is exact on multiples of `2^k`. -/
def ExactAdder (E F : ℕ) (add : Fp E F → Fp E F → Option (Fp E F)) : Prop :=
  ∀ (k : ℤ), ScaleOk E F k → ∀ (x y : Fp E F) (m n : ℤ), IsMultiple x m k → IsMultiple y n k → |m + n| ≤ 2 ^ (F + 1) →
    ∃ r, add x y = some r ∧ IsMultiple r (m + n) k

/-- **C99, sums.** `add_dual` (`add`) returns the exact sum of two multiples of `2^k` whenever the sum is at most `2^(F+1) * 2^k` in magnitude. -/
theorem C99_add_exact (hA : AdderFormat E F) : ExactAdder E F AddDual.addSame := by
  intro k hk x y m n hx hy hb
  obtain ⟨r, hr, h⟩ := adder_fin hA hx hy
  rw [show (m : ℚ) * 2 ^ k + n * 2 ^ k = ((m + n : ℤ) : ℚ) * 2 ^ k by push_cast; ring] at h
  exact ⟨r, hr, rounded0_multiple (by have := hA.1; omega) h hb hk.1 hk.2⟩

theorem clamp_not_multiple (hF : 1 ≤ F) {k m n : ℤ} (hb : |m + n| ≤ 2 ^ (F + 1)) : ¬ ClampCase F ((m : ℚ) * 2 ^ k) (n * 2 ^ k) := by
  rintro ⟨hneg, j, hj, h1, h2⟩
  have hp := two_zpow_pos k
  have hn : n ≠ 0 := by rintro rfl; simp at hneg
  have h3 : (1 : ℚ) ≤ abs (n : ℚ) := by exact_mod_cast Int.one_le_abs hn
  rw [abs_mul, abs_of_pos hp] at hj h1 h2
  have h4 : (2 : ℚ) ^ k < 2 ^ (j - F - 1) := lt_of_le_of_lt (by nlinarith) h2
  have h5 := (zpow_lt_zpow_iff_right₀ (a := (2 : ℚ)) (by norm_num)).mp h4
  -- the larger operand has at least `F+2` bits above the scale, the smaller one at most a quarter of it
  have h6 : (2 : ℚ) ^ (k + F + 2) ≤ 2 ^ j := zpow_le_zpow_right₀ (by norm_num) (by omega)
  have h7 : (2 : ℚ) ^ (j - F - 1) ≤ 2 ^ (j - 2) := zpow_le_zpow_right₀ (by norm_num) (by omega)
  have h8 : (2 : ℚ) ^ (j - 2) = 2 ^ j / 4 := by rw [zpow_sub₀ (by norm_num)]; norm_num
  have h9 : (2 : ℚ) ^ (k + F + 2) = 2 * (2 ^ (F + 1) * 2 ^ k) := by
    rw [show k + (F : ℤ) + 2 = ((F + 1 : ℕ) : ℤ) + (1 + k) by push_cast; ring, zpow_add₀ (by norm_num), zpow_add₀ (by norm_num), zpow_natCast]
    norm_num; ring
  have hb' : abs ((m : ℚ) + n) ≤ 2 ^ (F + 1) := by exact_mod_cast hb
  have h10 : |(m : ℚ)| ≤ abs ((m : ℚ) + n) + |(n : ℚ)| := by
    have := abs_sub (( m : ℚ) + n) n
    simpa using this
  have h11 := mul_le_mul_of_nonneg_right h10 hp.le
  have h12 := mul_le_mul_of_nonneg_right hb' hp.le
  have h13 := two_zpow_pos j
  have h14 : (0 : ℚ) < 2 ^ (F + 1) * 2 ^ k := by positivity
  rw [add_mul, hj] at h11
  linarith

/-- **C99, sums, the single-path adder.** The same for `add_single`, whose clamp error (C15) never strikes such operands. -/
theorem C99_add_single_exact (hE : 2 ≤ E) (hF : 1 ≤ F) (h1 : F + 3 < 2 ^ E) (h2 : F + 3 ≠ 2 ^ (E - 1)) :
    ExactAdder E F AddSingle.addSame := by
  intro k hk x y m n hx hy hb
  obtain ⟨r, hr⟩ := (single_adder hE hF h1 h2).total x y
  obtain ⟨h, he, hR⟩ := single_effective (AddSingle.lzoc_normalises _) hE hF h1 h2 (hr ▸ AddSingle.addSame_orders (by omega) hF x y) hx hy
  refine ⟨r, hr, ?_⟩
  rcases he with ⟨-, hc, -⟩ | ⟨-, hc, -⟩ | ⟨-, -, rfl⟩
  · exact absurd hc (clamp_not_multiple hF hb)
  · exact absurd hc (clamp_not_multiple hF (by rwa [add_comm]))
  · rw [show (m : ℚ) * 2 ^ k + n * 2 ^ k = ((m + n : ℤ) : ℚ) * 2 ^ k by push_cast; ring] at hR
    exact rounded0_multiple (by omega) hR hb hk.1 hk.2

theorem mulNarrow_total {FR FX FY : ℕ} (hE : 1 ≤ E) (hpath : FR ≤ FX + FY) (x : Fp E FX) (y : Fp E FY) : ∃ r : Fp E FR, mulV1 E FR x y = some r := by
  have h1 : biasN E < 2 ^ (E + 2) := by
    have := two_pow_pred hE
    have h2 : 2 ^ (E + 2) = 4 * 2 ^ E := by rw [pow_add]; ring
    have h3 : biasN E ≤ 2 ^ (E - 1) := by unfold biasN; exact Nat.sub_le _ _
    have h4 : 0 < 2 ^ (E - 1) := by positivity
    omega
  unfold mulV1
  dsimp only
  rw [if_neg (not_le.mpr h1), if_neg (show ¬ 1 + FR ≥ FX + FY + 2 by omega), if_neg (by simp)]
  exact ⟨_, rfl⟩

/-- **C99, products.** The product of `m * 2^k` and `n * 2^l` is exactly `m*n * 2^(k+l)` whenever `|m*n| ≤ 2^(FR+1)`. The operands and the result
may have different fraction widths. -/
theorem C99_mul_exact {FR FX FY : ℕ} (hE : 2 ≤ E) (hR : 1 ≤ FR) (hX : 1 ≤ FX) (hY : 1 ≤ FY) (hpath : FR ≤ FX + FY) {k l m n : ℤ}
    (hk : ScaleOk E FR (k + l)) (x : Fp E FX) (y : Fp E FY) (hx : IsMultiple x m k) (hy : IsMultiple y n l) (hb : |m * n| ≤ 2 ^ (FR + 1)) :
    ∃ r, mulV1 E FR x y = some r ∧ IsMultiple r (m * n) (k + l) := by
  obtain ⟨r, hr⟩ := mulNarrow_total (by omega) hpath x y
  have h := mul_fin hE hR hX hY hpath x y hx hy hr
  rw [show (m : ℚ) * 2 ^ k * (n * 2 ^ l) = ((m * n : ℤ) : ℚ) * 2 ^ (k + l) by rw [zpow_add₀ (by norm_num)]; push_cast; ring] at h
  exact ⟨r, hr, rounded0_multiple (by omega) h hb hk.1 hk.2⟩

/-- **C99, quotients.** The quotient of `m*n * 2^(k+l)` by `n * 2^l` is exactly `m * 2^k`. -/
theorem C99_div_exact (hE : 2 ≤ E) (hF : 1 ≤ F) {k l m n : ℤ} (hk : ScaleOk E F k) (hn : n ≠ 0) (x y : Fp E F) (hx : IsMultiple x (m * n) (k + l))
    (hy : IsMultiple y n l) (hb : |m| ≤ 2 ^ (F + 1)) : IsMultiple (divV1 E F x y) m k := by
  have hl := two_zpow_pos l
  have hq : (n : ℚ) * 2 ^ l ≠ 0 := mul_ne_zero (by exact_mod_cast hn) hl.ne'
  have he : ((m * n : ℤ) : ℚ) * 2 ^ (k + l) = (m * 2 ^ k) * (n * 2 ^ l) := by rw [zpow_add₀ (by norm_num)]; push_cast; ring
  unfold IsMultiple at *
  rw [he] at hx
  have hyn : y.datum = .num (n * 2 ^ l) := by
    revert hy
    rcases y.datum with _ | s | s | v <;> simp only [Datum.fin, Option.some.injEq, reduceCtorEq, false_imp_iff]
    · exact fun h => absurd h.symm hq
    · rintro rfl; rfl
  refine rounded0_multiple (by omega) ?_ hb hk.1 hk.2
  unfold Rounded0
  cases dx : x.datum with
  | nan => rw [dx] at hx; cases hx
  | inf s => rw [dx] at hx; cases hx
  | zero s =>
    rw [dx] at hx; injection hx with hx
    have hm : (m : ℚ) * 2 ^ k = 0 := by
      rcases mul_eq_zero.mp hx.symm with h | h
      · exact h
      · exact absurd h hq
    rw [if_pos hm]
    exact ⟨_, C22_div_exceptions (by omega) hF (by omega) hF ⟨le_rfl, le_rfl⟩ ⟨le_rfl, le_rfl⟩ x y _ (by rw [dx, hyn]; rfl)⟩
  | num v =>
    rw [dx] at hx; injection hx with hx
    have hv := num_ne_zero dx
    have hm : (m : ℚ) * 2 ^ k ≠ 0 := by
      intro h; rw [h, zero_mul] at hx; exact hv hx
    rw [if_neg hm]
    have := C20_div_correctly_rounded hE (by omega) hF (by omega) hF ⟨le_rfl, le_rfl⟩ ⟨le_rfl, le_rfl⟩ x y v _ dx hyn
    rwa [hx, mul_div_cancel_right₀ _ hq] at this

/-- **C99, conversions.** Converting `n * 2^k` to a format in which `|n| ≤ 2^(FR+1)` is exact, whether it widens or narrows (a conversion to the same
exponent width with a narrower fraction is excluded: C24). -/
theorem C99_convert_exact {ER FR EX FX : ℕ} (hER : 1 ≤ ER) (hFR : 1 ≤ FR) (hEX : 1 ≤ EX) (hFX : 1 ≤ FX) (h : ER ≠ EX ∨ FX ≤ FR) {k n : ℤ}
    (hk : ScaleOk ER FR k) (x : Fp EX FX) (hx : IsMultiple x n k) (hb : |n| ≤ 2 ^ (FR + 1)) : IsMultiple (convert ER FR x) n k :=
  rounded0_multiple hER (convert_fin hER hFR hEX hFX h x hx) hb hk.1 hk.2

/-- **C99, fused multiply-add.** `fma(m * 2^k, n * 2^l, c * 2^(k+l))` is exactly `(m*n + c) * 2^(k+l)` whenever `|m*n + c| ≤ 2^(F+1)`, however large
`m*n` and `c` are. -/
theorem C99_fma_exact (hE : 2 ≤ E) (hF : 1 ≤ F) (hok : DualFormat (E + 2) (2 * F + 2)) (hfmt : 2 * F + 2 ≤ 2 ^ (E + 3)) {k l m n c : ℤ}
    (hk : ScaleOk E F (k + l)) (x y z : Fp E F) (hx : IsMultiple x m k) (hy : IsMultiple y n l) (hz : IsMultiple z c (k + l))
    (hb : |m * n + c| ≤ 2 ^ (F + 1)) : ∃ r, fma E F x y z = some r ∧ IsMultiple r (m * n + c) (k + l) := by
  have hfE : fmaE E E E = E + 2 := by unfold fmaE; rw [if_pos (by simp)]; simp
  have hfF : fmaF F F F = 2 * F + 2 := by unfold fmaF; rw [max_eq_left (by omega)]; omega
  unfold IsMultiple at *
  have hv : ((m : ℚ) * 2 ^ k) * (n * 2 ^ l) + c * 2 ^ (k + l) = ((m * n + c : ℤ) : ℚ) * 2 ^ (k + l) := by
    rw [zpow_add₀ (by norm_num)]; push_cast; ring
  suffices h : ∃ r, fma E F x y z = some r ∧ Rounded0 E F (((m : ℚ) * 2 ^ k) * (n * 2 ^ l) + c * 2 ^ (k + l)) r.datum by
    obtain ⟨r, hr, h⟩ := h
    rw [hv] at h
    exact ⟨r, hr, rounded0_multiple (by omega) h hb hk.1 hk.2⟩
  cases hsp : fmaSpecial x.datum y.datum z.datum with
  | none =>
    obtain ⟨p, q, t, dx, dy, dz⟩ := (C31_fmaSpecial_domain _ _ _).mp hsp
    rw [dx] at hx; rw [dy] at hy; rw [dz] at hz
    injection hx with hx; injection hy with hy; injection hz with hz
    obtain ⟨r, hr, hi⟩ := C31_fma_correct_iff (wER := E) (wFR := F) (by omega) hF (by omega) hF (by omega) hF (by omega) hF (by rw [hfE]; omega)
      (by rw [hfE, hfF]; exact hok) (by rw [hfE, hfF]; exact hfmt) (by rw [hfF]; omega) x y z p q t dx dy dz
    refine ⟨r, hr, ?_⟩
    have ha := hi.mpr (by
      rw [hx, hy, hz, hv]
      refine fits_not_twice (n := (m * n + c).natAbs) (k := k + l) (by rw [hfF]; omega) ?_ ?_
      · rw [abs_mul, abs_of_pos (two_zpow_pos _), Nat.cast_natAbs]; push_cast; rfl
      · have h1 : (m * n + c).natAbs ≤ 2 ^ (F + 1) := by zify; exact hb
        exact h1.trans_lt (Nat.pow_lt_pow_right (by norm_num) (by rw [hfF]; omega)))
    rw [hx, hy, hz] at ha
    unfold AddsTo at ha
    unfold Rounded0
    by_cases h0 : ((m : ℚ) * 2 ^ k) * (n * 2 ^ l) + c * 2 ^ (k + l) = 0
    · rw [if_pos h0] at ha ⊢; exact ⟨_, ha⟩
    · rw [if_neg h0] at ha ⊢; exact ha
  | some d =>
    obtain ⟨r, hr, h1, h2⟩ := C31_fma_exceptions_partial (wER := E) (wFR := F) (by omega) hF (by omega) hF (by omega) hF (by omega) hF
      (by rw [hfE]; omega) (by rw [hfE, hfF]; exact hok) x y z d hsp
    refine ⟨r, hr, ?_⟩
    -- a zero factor or a zero addend
    have hd : d.fin = some (((m : ℚ) * 2 ^ k) * (n * 2 ^ l) + c * 2 ^ (k + l)) := by
      generalize (m : ℚ) * 2 ^ k = a at *
      generalize (n : ℚ) * 2 ^ l = b at *
      generalize (c : ℚ) * 2 ^ (k + l) = e at *
      clear h1 h2 hr hv
      revert hx hy hz hsp
      rcases x.datum with _ | s | s | p <;> rcases y.datum with _ | t | t | q <;> rcases z.datum with _ | u | u | w <;>
        simp [fmaSpecial, mulSpecial, addSpecial, Datum.fin] <;>
        (intros; subst_vars; simp [Datum.fin])
    have hnz : ∀ w, d = .num w → w ≠ 0 := by
      rintro w rfl
      have nx := fun v => num_ne_zero (z := x) (v := v)
      have ny := fun v => num_ne_zero (z := y) (v := v)
      have nz := fun v => num_ne_zero (z := z) (v := v)
      clear h1 h2 hr hv hd
      revert hsp nx ny nz hx hy hz
      rcases x.datum with _ | s | s | p <;> rcases y.datum with _ | t | t | q <;> rcases z.datum with _ | u | u | w' <;>
        simp [fmaSpecial, mulSpecial, addSpecial, Datum.fin] <;> (intros; subst_vars; simp_all)
    unfold Rounded0
    cases d with
    | nan => cases hd
    | inf s => cases hd
    | zero s => injection hd with hd; rw [if_pos hd.symm]; exact ⟨_, h2 (by simp)⟩
    | num w =>
      injection hd with hd
      have hR := h1 w rfl
      rw [← hd]
      by_cases h0 : w = 0
      · exact absurd h0 (hnz w rfl)
      · rw [if_neg h0]; exact hR

/-! ## Loops -/

theorem fold_exact {α : Type} {add : Fp E F → Fp E F → Option (Fp E F)} (hadd : ExactAdder E F add) {k : ℤ} (hk : ScaleOk E F k)
    {f : α → Option (Fp E F)} : ∀ {xs : List α} {ns : List ℤ}, List.Forall₂ (fun x n => ∃ z, f x = some z ∧ IsMultiple z n k) xs ns →
    ∀ (acc : Fp E F) (T : ℤ), IsMultiple acc T k → |T| + (ns.map abs).sum ≤ 2 ^ (F + 1) →
      ∃ r, xs.foldlM (fun acc x => (f x).bind (add acc)) acc = some r ∧ IsMultiple r (T + ns.sum) k := by
  intro xs ns h
  induction h with
  | nil => intro acc T ha _; exact ⟨acc, rfl, by simpa using ha⟩
  | cons hx hrest ih =>
    rename_i x n xs ns
    intro acc T ha hb
    simp only [List.map_cons, List.sum_cons] at hb
    have hnn : 0 ≤ (ns.map abs).sum := List.sum_nonneg (by simp)
    have htri := abs_add_le T n
    obtain ⟨z, hz, hm⟩ := hx
    obtain ⟨a, hr, hfin⟩ := hadd k hk acc z T n ha hm (by omega)
    obtain ⟨r, h1, h2⟩ := ih a (T + n) hfin (by omega)
    refine ⟨r, ?_, by rwa [List.sum_cons, ← add_assoc]⟩
    rw [List.foldlM_cons, hz]
    simp only [Option.bind_some, Option.bind_eq_bind, hr]
    exact h1

theorem abs_le_sum_int {l : List ℤ} {x : ℤ} (h : x ∈ l) : |x| ≤ (l.map abs).sum := by
  induction l with
  | nil => cases h
  | cons a l ih =>
    have hnn : 0 ≤ (l.map abs).sum := List.sum_nonneg (by simp)
    rw [List.map_cons, List.sum_cons]
    rcases List.mem_cons.mp h with rfl | h
    · omega
    · have := ih h
      have := abs_nonneg a
      omega

/-- **C99, dot products.** The dot product of vectors of multiples `m_i * 2^k` and `n_i * 2^l` is exactly `(Σ m_i n_i) * 2^(k+l)` whenever
`Σ|m_i n_i| ≤ 2^(F+1)`. -/
theorem C99_dot_exact (hA : AdderFormat E F) {k l : ℤ} (hk : ScaleOk E F (k + l)) (xs : List (Fp E F × Fp E F)) (ns : List (ℤ × ℤ))
    (hx : List.Forall₂ (fun x n => IsMultiple x.1 n.1 k ∧ IsMultiple x.2 n.2 l) xs ns)
    (hb : (ns.map fun n => |n.1 * n.2|).sum ≤ 2 ^ (F + 1)) :
    ∃ r, dotLoop xs = some r ∧ IsMultiple r (ns.map fun n => n.1 * n.2).sum (k + l) := by
  obtain ⟨hE, hF, -, -⟩ := id hA
  have hb' : ((ns.map fun n => n.1 * n.2).map abs).sum ≤ 2 ^ (F + 1) := by
    rw [List.map_map]; exact hb
  have hp : List.Forall₂ (fun (x : Fp E F × Fp E F) n => ∃ z, wrapMul x.1 x.2 = some z ∧ IsMultiple z n (k + l)) xs (ns.map fun n => n.1 * n.2) := by
    rw [List.forall₂_map_right_iff]
    have hall : ∀ n ∈ ns, |n.1 * n.2| ≤ 2 ^ (F + 1) := fun n hn =>
      (abs_le_sum_int (List.mem_map.mpr ⟨n, hn, rfl⟩)).trans hb'
    clear hb hb'
    induction hx with
    | nil => exact .nil
    | cons h hr ih =>
      refine .cons ?_ (ih fun n hn => hall n (by simp [hn]))
      exact C99_mul_exact (by omega) hF hF hF (by omega) hk _ _ h.1 h.2 (hall _ (by simp))
  obtain ⟨r, h1, h2⟩ := fold_exact (C99_add_exact hA) hk hp (Fp.default E F) 0 (by unfold IsMultiple; rw [default_fin]; simp) (by simpa using hb')
  exact ⟨r, h1, by simpa using h2⟩

/-- **C99, matrix products.** The entries of the product of two integer matrices are exact, in both benchmark designs, for every matrix size, as long
as `Σ|m_i n_i| ≤ 2^(AF+1)`; the "round" design, which rounds each product to the wider fraction of the factors, needs also each
`|m_i n_i| ≤ 2^(max LF RF + 1)`. -/
theorem C99_mat_mul_exact {LF RF N : ℕ} (hLF : 1 ≤ LF) (hRF : 1 ≤ RF) {k l : ℤ} (left : Fin N → Fin N → Fp E LF)
    (right : Fin N → Fin N → Fp E RF) (a b : Fin N → Fin N → ℤ) (hx : ∀ i j, IsMultiple (left i j) (a i j) k)
    (hy : ∀ i j, IsMultiple (right i j) (b i j) l) (r c : Fin N) (hk : ScaleOk E F (k + l)) (hb : ∑ i, |a r i * b i c| ≤ 2 ^ (F + 1)) :
    (AdderFormat E F → F ≤ LF + RF →
      ∃ z : Fp E F, matMulEntry fullAddMul left right r c = some z ∧ IsMultiple z (∑ i, a r i * b i c) (k + l)) ∧
    (2 ≤ E → max LF RF ≤ F → F + 3 < 2 ^ E → F + 3 ≠ 2 ^ (E - 1) → (∀ i, |a r i * b i c| ≤ 2 ^ (max LF RF + 1)) →
      ∃ z : Fp E F, matMulEntry roundAddMul left right r c = some z ∧ IsMultiple z (∑ i, a r i * b i c) (k + l)) := by
  have hsum : |(0 : ℤ)| + (((List.finRange N).map fun i => a r i * b i c).map abs).sum ≤ 2 ^ (F + 1) := by
    rw [List.map_map, abs_zero, zero_add]
    rw [Fin.sum_univ_def] at hb
    exact hb
  have hall : ∀ i, |a r i * b i c| ≤ 2 ^ (F + 1) := fun i =>
    (Finset.single_le_sum (f := fun i => |a r i * b i c|) (fun _ _ => abs_nonneg _) (Finset.mem_univ i)).trans hb
  have hd : IsMultiple (Fp.default E F) 0 (k + l) := by unfold IsMultiple; rw [default_fin]; simp
  constructor
  · intro hA hpath
    obtain ⟨hE, hF, -, -⟩ := id hA
    obtain ⟨z, h1, h2⟩ := fold_exact (C99_add_exact hA) hk (f := fun i => mulV1 E F (left r i) (right i c)) (xs := List.finRange N)
      (ns := (List.finRange N).map fun i => a r i * b i c) (by
        rw [List.forall₂_map_right_iff, List.forall₂_same]
        intro i _
        exact C99_mul_exact (by omega) hF hLF hRF hpath hk _ _ (hx r i) (hy i c) (hall i)) _ 0 hd hsum
    exact ⟨z, h1, by rw [Fin.sum_univ_def]; simpa using h2⟩
  · intro hE hmax f1 f2 hpr
    have hk' : ScaleOk E (max LF RF) (k + l) := ⟨hk.1, by have := hk.2; omega⟩
    obtain ⟨z, h1, h2⟩ := fold_exact (C99_add_single_exact hE (by omega) f1 f2) hk
      (f := fun i => (mulV1 E (max LF RF) (left r i) (right i c)).map (promote E F)) (xs := List.finRange N)
      (ns := (List.finRange N).map fun i => a r i * b i c) (by
        rw [List.forall₂_map_right_iff, List.forall₂_same]
        intro i _
        obtain ⟨z, hz, hm⟩ := C99_mul_exact hE (by omega) hLF hRF (by omega) hk' _ _ (hx r i) (hy i c) (hpr i)
        refine ⟨promote E F z, by rw [hz]; rfl, ?_⟩
        unfold IsMultiple at hm ⊢
        rw [promote_datum (by omega) (by omega) le_rfl hmax]; exact hm) _ 0 hd hsum
    refine ⟨z, ?_, by rw [Fin.sum_univ_def]; simpa using h2⟩
    rw [← h1, matMulEntry]
    congr 1
    funext acc i
    rw [roundAddMul, Option.bind_map]; rfl

/-- **C99, counting.** Adding `n` ones gives exactly `n` as long as `n ≤ 2^(F+1)`, and exactly `2^(F+1)` from there on: the counter stops. -/
theorem C99_counting (hA : AdderFormat E F) (hb : (F : ℤ) ≤ bias E) (one : Fp E F) (h1 : one.datum = .num 1) (n : ℕ) :
    ∃ r, sumLoop (List.replicate n one) = some r ∧ r.datum.fin = some ((min n (2 ^ (F + 1)) : ℕ) : ℚ) := by
  obtain ⟨hE, hF, -, -⟩ := id hA
  have hk : ScaleOk E F 0 := ⟨by unfold bias; have : (1 : ℤ) ≤ 2 ^ (E - 1) := one_le_pow₀ (by norm_num); omega, by omega⟩
  have ho : IsMultiple one 1 0 := by unfold IsMultiple; rw [h1]; simp [Datum.fin]
  induction n with
  | zero => exact ⟨Fp.default E F, rfl, by rw [default_fin]; simp⟩
  | succ n ih =>
    obtain ⟨r, hr, hv⟩ := ih
    unfold sumLoop at hr ⊢
    rw [List.replicate_succ', List.foldlM_append, hr]
    simp only [Option.bind_eq_bind, Option.bind_some, List.foldlM_cons, List.foldlM_nil, Option.pure_def]
    unfold wrapAdd
    by_cases hn : n < 2 ^ (F + 1)
    · obtain ⟨s, hs, hm⟩ := C99_add_exact hA 0 hk r one n 1 (by unfold IsMultiple; rw [hv, min_eq_left hn.le]; simp) ho (by
        rw [abs_of_nonneg (by positivity)]
        have : n + 1 ≤ 2 ^ (F + 1) := hn
        exact_mod_cast this)
      refine ⟨s, by rw [hs]; rfl, ?_⟩
      unfold IsMultiple at hm
      rw [hm, min_eq_left (show n + 1 ≤ 2 ^ (F + 1) from hn)]
      simp
    · rw [min_eq_right (not_lt.mp hn)] at hv
      obtain ⟨s, hs, hR⟩ := adder_fin hA hv (show one.datum.fin = some 1 by rw [h1]; rfl)
      refine ⟨s, by rw [hs]; rfl, ?_⟩
      rw [min_eq_right (by omega)]
      -- a tie, between `2^(F+1)` and `2^(F+1) + 2`
      have hq : ((2 ^ (F + 1) : ℕ) : ℚ) + 1 ≠ 0 := by positivity
      have hq0 : ¬ ((2 ^ (F + 1) : ℕ) : ℚ) + 1 < 0 := not_lt.mpr (by positivity)
      unfold Rounded0 at hR
      rw [if_neg hq] at hR
      have hne : NearestEven (F + 1) (abs (((2 ^ (F + 1) : ℕ) : ℚ) + 1)) (2 ^ F) 1 := by
        rw [abs_of_nonneg (not_lt.mp hq0)]
        refine nearest_down (by omega) ⟨by simp, Nat.pow_lt_pow_right (by norm_num) (by omega)⟩ ?_ ?_ ?_
        · push_cast; rw [pow_succ]; norm_num
        · push_cast; rw [pow_succ]; norm_num
        · intro _; exact (Nat.even_pow.mpr ⟨even_two, by omega⟩)
      rw [rounded_unique hR ⟨2 ^ F, 1, hne, rfl⟩]
      have hbe : 2 ^ E = 2 * bias E + 2 := by
        unfold bias
        conv_lhs => rw [show E = (E - 1) + 1 by omega, pow_succ]
        ring
      unfold rangeCheck
      rw [if_neg (by omega), if_neg (by omega)]
      simp only [Datum.fin, hq0, decide_false, Bool.false_eq_true, if_false]
      congr 1
      push_cast; rw [pow_succ]; norm_num

/-! ## Non-vacuity -/

/-- Single precision is such a format: all integers up to `2^24` are exact there, and `2^24 + 1` is not a number of the format. -/
example : AdderFormat 8 23 ∧ ScaleOk 8 23 0 ∧ ScaleOk 8 23 (-20) ∧ DualFormat 10 48 ∧ (∃ x : Fp 8 23, IsMultiple x 16777216 0) ∧
    ∀ x : Fp 8 23, ¬ IsMultiple x 16777217 0 := by
  have h0 : ScaleOk 8 23 0 := by unfold ScaleOk bias; norm_num
  refine ⟨⟨by norm_num, by norm_num, dual_8_23', by norm_num⟩, h0, by unfold ScaleOk bias; norm_num, ?_,
    C99_representable (by norm_num) (by norm_num) h0 (by norm_num), fun x h => C99_bound_sharp (F := 23) (by norm_num) 0 x (by norm_num; exact h)⟩
  intro k hk
  exfalso
  rw [show 48 + 3 = 51 from rfl] at hk
  have h1 : 5 < k := by
    by_contra h
    have : 2 ^ k ≤ 2 ^ 5 := Nat.pow_le_pow_right (by norm_num) (by omega)
    omega
  have h2 : 2 ^ 6 ≤ 2 ^ k := Nat.pow_le_pow_right (by norm_num) h1
  omega

/-- In format (5,2), whose integers are exact up to 8: `7 + 1 = 8`, `8 + 1 = 8`, `2 * 3 = 6`, `6 / 3 = 2`, `fma(3, 3, -2) = 7`. -/
example : AddDual.addSame (Fp.mk4 5 2 1 0 17 3) (Fp.mk4 5 2 1 0 15 0) = some (Fp.mk4 5 2 1 0 18 0) ∧
    AddDual.addSame (Fp.mk4 5 2 1 0 18 0) (Fp.mk4 5 2 1 0 15 0) = some (Fp.mk4 5 2 1 0 18 0) ∧
    mulV1 5 2 (Fp.mk4 5 2 1 0 16 0) (Fp.mk4 5 2 1 0 16 2) = some (Fp.mk4 5 2 1 0 17 2) ∧
    divV1 5 2 (Fp.mk4 5 2 1 0 17 2) (Fp.mk4 5 2 1 0 16 2) = Fp.mk4 5 2 1 0 16 0 ∧
    fma 5 2 (Fp.mk4 5 2 1 0 16 2) (Fp.mk4 5 2 1 0 16 2) (Fp.mk4 5 2 1 1 16 0) = some (Fp.mk4 5 2 1 0 17 3) := by
  decide +kernel

/-- The hypotheses are met together: `3 * 5 + 1000 * 1000` by the dot product loop in single precision, and `84 / 7`. -/
example : (∃ a b c d r : Fp 8 23, IsMultiple a 3 0 ∧ IsMultiple b 5 0 ∧ IsMultiple c 1000 0 ∧ IsMultiple d 1000 0 ∧
      dotLoop [(a, b), (c, d)] = some r ∧ IsMultiple r 1000015 0) ∧
    ∃ x y : Fp 8 23, IsMultiple x 84 0 ∧ IsMultiple y 7 0 ∧ IsMultiple (divV1 8 23 x y) 12 0 := by
  have h0 : ScaleOk 8 23 0 := by unfold ScaleOk bias; norm_num
  have hr : ∀ n : ℤ, |n| ≤ 2 ^ (23 + 1) → ∃ x : Fp 8 23, IsMultiple x n 0 := fun n hn =>
    C99_representable (by norm_num) (by norm_num) h0 hn
  obtain ⟨a, ha⟩ := hr 3 (by norm_num)
  obtain ⟨b, hb⟩ := hr 5 (by norm_num)
  obtain ⟨c, hc⟩ := hr 1000 (by norm_num)
  obtain ⟨x, hx⟩ := hr 84 (by norm_num)
  obtain ⟨y, hy⟩ := hr 7 (by norm_num)
  obtain ⟨r, hr1, hr2⟩ := C99_dot_exact (k := 0) (l := 0) ⟨by norm_num, by norm_num, dual_8_23', by norm_num⟩ h0 [(a, b), (c, c)]
    [(3, 5), (1000, 1000)] (.cons ⟨ha, hb⟩ (.cons ⟨hc, hc⟩ .nil)) (by norm_num)
  refine ⟨⟨a, b, c, c, r, ha, hb, hc, hc, hr1, ?_⟩, x, y, hx, hy,
    C99_div_exact (k := 0) (l := 0) (m := 12) (n := 7) (by norm_num) (by norm_num) h0 (by norm_num) x y hx hy (by norm_num)⟩
  simpa using hr2

end Thls
