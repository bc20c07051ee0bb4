import Verif.Proofs.TwoSum

/-! # Splitting a number in two, and the error of a product without a fused operation (lemmas) -/

namespace Thls
open Spec

variable {F : ℕ} {g : ℤ}

/-- `x` has exactly `F+1` bits and unit `2^e`. -/
def NormAt (F : ℕ) (e : ℤ) (x : ℚ) : Prop := ∃ n : ℤ, x = n * 2 ^ e ∧ 2 ^ F ≤ |n| ∧ |n| < 2 ^ (F + 1)

theorem normAt_neg {e : ℤ} {x : ℚ} (h : NormAt F e x) : NormAt F e (-x) := by
  obtain ⟨n, rfl, h1, h2⟩ := h
  exact ⟨-n, by push_cast; ring, by rwa [abs_neg], by rwa [abs_neg]⟩

theorem normAt_bounds {e : ℤ} {x : ℚ} (h : NormAt F e x) : (2 : ℚ) ^ F * 2 ^ e ≤ |x| ∧ |x| + 2 ^ e ≤ 2 ^ (F + 1) * 2 ^ e := by
  obtain ⟨n, rfl, h1, h2⟩ := h
  have hp := two_zpow_pos e
  rw [abs_mul, abs_of_pos hp]
  have h3 : (2 : ℚ) ^ F ≤ |(n : ℚ)| := by exact_mod_cast h1
  have h4 : |(n : ℚ)| + 1 ≤ 2 ^ (F + 1) := by exact_mod_cast h2
  constructor <;> nlinarith

theorem normAt_mult {e : ℤ} {x : ℚ} (h : NormAt F e x) : ∃ n : ℤ, x = n * 2 ^ e := by
  obtain ⟨n, h, -⟩ := h
  exact ⟨n, h⟩

/-- A large rounded value has a large unit. -/
theorem nearGrid_unit {q t : ℚ} {k : ℤ} (hk : g ≤ k) (hq : 2 ^ F * 2 ^ k ≤ |q|) (h : NearGrid F g q t) : ∃ n : ℤ, t = n * 2 ^ k := by
  have hkp := two_zpow_pos k
  have hon : OnGrid F g (2 ^ F * 2 ^ k) := onGrid_mult hk ⟨2 ^ F, by push_cast; rfl⟩ (by
    rw [abs_of_pos (by positivity), pow_succ]; nlinarith [mul_pos (pow_pos (by norm_num : (0 : ℚ) < 2) F) hkp])
  have ht : 2 ^ F * 2 ^ k ≤ |t| := by
    rcases le_abs'.mp hq with h1 | h1
    · have := nearGrid_le (onGrid_neg hon) h1 h
      exact (by linarith : 2 ^ F * 2 ^ k ≤ -t).trans (neg_le_abs t)
    · exact (nearGrid_ge hon h1 h).trans (le_abs_self t)
  obtain ⟨n, j, hj, hn, rfl⟩ := onGrid_strict h.1
  have hjp := two_zpow_pos j
  have hkj : k ≤ j := by
    rw [abs_mul, abs_of_pos hjp] at ht
    have hn' : |(n : ℚ)| < 2 ^ (F + 1) := by exact_mod_cast hn
    have h1 : (2 : ℚ) ^ F * 2 ^ k < 2 ^ F * 2 ^ (j + 1) := by
      rw [zpow_add_one₀ (by norm_num)]
      calc (2 : ℚ) ^ F * 2 ^ k ≤ |(n : ℚ)| * 2 ^ j := ht
        _ < 2 ^ (F + 1) * 2 ^ j := mul_lt_mul_of_pos_right hn' hjp
        _ = _ := by rw [pow_succ]; ring
    have := (zpow_lt_zpow_iff_right₀ (by norm_num)).mp (lt_of_mul_lt_mul_left h1 (by positivity))
    omega
  exact mult_lower hkj

/-- What splitting gives: `h` is a multiple of `2^(e+s)` with few bits and `x - h` is at most half of that. -/
def SplitAt (F : ℕ) (e : ℤ) (s : ℕ) (x h : ℚ) : Prop :=
  ∃ n : ℤ, h = n * 2 ^ (e + s) ∧ |n| ≤ 2 ^ (F + 1 - s) ∧ 2 * |x - h| ≤ 2 ^ (e + s)

theorem splitAt_neg {e : ℤ} {s : ℕ} {x h : ℚ} (hs : SplitAt F e s x h) : SplitAt F e s (-x) (-h) := by
  obtain ⟨n, rfl, h1, h2⟩ := hs
  refine ⟨-n, by push_cast; ring, by rwa [abs_neg], ?_⟩
  rwa [← abs_neg, show -(-x - -((n : ℚ) * 2 ^ (e + s))) = x - n * 2 ^ (e + s) by ring]

/-- The facts about the splitting of a positive number. -/
theorem split_pos {e : ℤ} {s : ℕ} {x c d : ℚ} (hge : g ≤ e) (h1s : 1 ≤ s) (hsF : s ≤ F) (hx : NormAt F e x) (h0 : 0 < x)
    (hc : NearGrid F g ((2 ^ s + 1) * x) c) (hd : NearGrid F g (x - c) d) :
    SplitAt F e s x (c + d) ∧ OnGrid F g (c + d) ∧ |d| ≤ |c| ∧ |c + d| ≤ |c| := by
  have hu := two_zpow_pos e
  have hP : (2 : ℚ) ≤ 2 ^ s := by
    calc (2 : ℚ) = 2 ^ 1 := by norm_num
      _ ≤ 2 ^ s := pow_le_pow_right₀ (by norm_num) h1s
  have hPN : (2 : ℚ) ^ s ≤ 2 ^ F := pow_le_pow_right₀ (by norm_num) hsF
  have hes : (2 : ℚ) ^ (e + s) = 2 ^ e * 2 ^ s := by rw [zpow_add₀ (by norm_num), zpow_natCast]
  have hes1 : (2 : ℚ) ^ (e + s - 1) = 2 ^ e * 2 ^ s / 2 := by rw [zpow_sub_one₀ (by norm_num), hes]; ring
  have hge1 : g ≤ e + s := by omega
  obtain ⟨b1, b2⟩ := normAt_bounds hx
  rw [abs_of_pos h0] at b1 b2
  set u : ℚ := 2 ^ e with hudef
  set P : ℚ := 2 ^ s with hPdef
  have hN1 : (2 : ℚ) ^ (F + 1) = 2 * 2 ^ F := by rw [pow_succ]; ring
  have hN2 : (2 : ℚ) ^ (F + 2) = 4 * 2 ^ F := by rw [pow_add]; ring
  set N : ℚ := 2 ^ F with hNdef
  have hNp : 0 < N := by positivity
  have hPu : 0 < u * P := by positivity
  have hNu : 0 < N * u := by positivity
  -- the first product is a multiple of the unit
  obtain ⟨nc, hnc⟩ : ∃ n : ℤ, c = n * 2 ^ (e + s) := by
    refine nearGrid_unit hge1 ?_ hc
    rw [abs_of_pos (by positivity), hes]
    nlinarith [mul_le_mul_of_nonneg_left b1 (by linarith : 0 ≤ P)]
  have e1 : |(P + 1) * x - c| ≤ u * P := by
    have := nearGrid_close (k := e + s) hge1 (q := (P + 1) * x) (s := c) (by
      rw [abs_of_pos (by positivity), hes, hN2]
      have h1 : x ≤ 2 * N * u := by rw [hN1] at b2; linarith
      have h2 : (P + 1) * x ≤ (2 * P) * (2 * N * u) := mul_le_mul (by linarith) h1 h0.le (by linarith)
      linarith) hc
    rwa [hes] at this
  obtain ⟨l1, l2⟩ := abs_le.mp e1
  -- the difference
  obtain ⟨hdm, e2⟩ : (∃ n : ℤ, d = n * 2 ^ (e + s)) ∧ |x - c - d| ≤ u * P / 2 := by
    by_cases hB : x = N * u
    · -- a power of two: everything is exact
      have hcx : c = (P + 1) * x := by
        refine nearGrid_exact ?_ hc
        refine onGrid_mult (k := e + F) (by omega) ⟨2 ^ s + 1, ?_⟩ ?_
        · rw [hB, zpow_add₀ (by norm_num), zpow_natCast]; push_cast; ring
        · rw [abs_of_pos (by positivity), hB, zpow_add₀ (by norm_num), zpow_natCast, hN1]
          have : P + 1 ≤ 2 * N := by linarith
          nlinarith
      have hdx : d = x - c := by
        refine nearGrid_exact ?_ hd
        rw [hcx, show x - (P + 1) * x = -(P * x) by ring]
        refine onGrid_neg (onGrid_mult (k := e + s) hge1 ⟨2 ^ F, ?_⟩ ?_)
        · rw [hes, hB]; push_cast; ring
        · rw [abs_of_pos (by positivity), hB, hes, hN1]; nlinarith
      refine ⟨⟨-2 ^ F, ?_⟩, by rw [hdx, sub_self, abs_zero]; positivity⟩
      rw [hdx, hcx, hes, hB]; push_cast; ring
    · have hx1 : N * u + u ≤ x := by
        obtain ⟨n, hn, h1, h2⟩ := hx
        have hn0 : 0 < n := by
          rw [hn] at h0
          have := (mul_pos_iff_of_pos_right hu).mp h0
          exact_mod_cast this
        rw [abs_of_pos hn0] at h1
        have hne : n ≠ 2 ^ F := by
          rintro rfl
          exact hB (by rw [hn]; push_cast; rfl)
        have h3 : 2 ^ F + 1 ≤ n := by omega
        have h4 : N + 1 ≤ (n : ℚ) := (by exact_mod_cast h3 : (2 : ℚ) ^ F + 1 ≤ n)
        rw [hn]; nlinarith
      have hlow : N * (u * P) ≤ c - x := by nlinarith
      have hhigh : c - x ≤ 2 * N * (u * P) := by
        rw [hN1] at b2
        have : P * (x + u) ≤ P * (2 * N * u) := mul_le_mul_of_nonneg_left b2 (by linarith)
        nlinarith
      have habs : |x - c| = c - x := by
        rw [abs_sub_comm, abs_of_nonneg]
        have : 0 < N * (u * P) := by positivity
        linarith
      constructor
      · exact nearGrid_unit hge1 (by rw [habs, hes]; exact hlow) hd
      · have := nearGrid_close (k := e + s - 1) (by omega) (q := x - c) (s := d) (by
          rw [habs, hes1, hN2]; linarith) hd
        rwa [hes1] at this
  obtain ⟨nd, hnd⟩ := hdm
  obtain ⟨m1, m2⟩ := abs_le.mp e2
  have hcx : x ≤ c := by nlinarith
  have hd1 : -c ≤ d := nearGrid_ge (onGrid_neg hc.1) (by linarith) hd
  have hd2 : d ≤ 0 := nearGrid_le onGrid_zero (by linarith) hd
  have hsplit : SplitAt F e s x (c + d) := by
    refine ⟨nc + nd, by rw [hnc, hnd]; push_cast; ring, ?_, ?_⟩
    · have hdvd : (2 : ℚ) ^ (F + 1) = 2 ^ (F + 1 - s) * P := by rw [hPdef, ← pow_add]; congr 1; omega
      have h1 : 0 ≤ ((nc + nd : ℤ) : ℚ) * (u * P) := by
        have : ((nc + nd : ℤ) : ℚ) * (u * P) = c + d := by rw [hnc, hnd, hes]; push_cast; ring
        rw [this]; linarith
      have h2 : ((nc + nd : ℤ) : ℚ) * (u * P) < (2 ^ (F + 1 - s) + 1) * (u * P) := by
        have : ((nc + nd : ℤ) : ℚ) * (u * P) = c + d := by rw [hnc, hnd, hes]; push_cast; ring
        rw [this]
        have h3 : x < 2 ^ (F + 1 - s) * (u * P) := by
          calc x < 2 ^ (F + 1) * u := by linarith
            _ = _ := by rw [hdvd]; ring
        linarith
      have h3 : (0 : ℚ) ≤ ((nc + nd : ℤ) : ℚ) := nonneg_of_mul_nonneg_left h1 hPu
      have h4 := lt_of_mul_lt_mul_right h2 hPu.le
      have h5 : 0 ≤ nc + nd := by exact_mod_cast h3
      have h6 : nc + nd < 2 ^ (F + 1 - s) + 1 := by exact_mod_cast h4
      rw [abs_of_nonneg h5]; omega
    · rw [hes, show x - (c + d) = x - c - d by ring]
      linarith
  refine ⟨hsplit, ?_, ?_, ?_⟩
  · obtain ⟨n, hn, hb, -⟩ := hsplit
    refine onGrid_mult hge1 ⟨n, hn⟩ ?_
    rw [hn, abs_mul, abs_of_pos (two_zpow_pos (e + s))]
    refine mul_le_mul_of_nonneg_right ?_ (two_zpow_pos _).le
    have h3 : |(n : ℚ)| ≤ 2 ^ (F + 1 - s) := by exact_mod_cast hb
    exact h3.trans (pow_le_pow_right₀ (by norm_num) (by omega))
  · rw [abs_of_nonpos hd2, abs_of_nonneg (by linarith)]; linarith
  · rw [abs_of_nonneg (by linarith), abs_of_nonneg (by linarith)]; linarith

theorem split_facts {e : ℤ} {s : ℕ} {x c d : ℚ} (hge : g ≤ e) (h1s : 1 ≤ s) (hsF : s ≤ F) (hx : NormAt F e x)
    (hc : NearGrid F g ((2 ^ s + 1) * x) c) (hd : NearGrid F g (x - c) d) :
    SplitAt F e s x (c + d) ∧ OnGrid F g (c + d) ∧ |d| ≤ |c| ∧ |c + d| ≤ |c| := by
  rcases lt_trichotomy x 0 with h | h | h
  · have h1 := split_pos hge h1s hsF (normAt_neg hx) (by linarith) (c := -c) (d := -d) (by have := nearGrid_neg hc; rwa [← mul_neg] at this)
      (by have := nearGrid_neg hd; rwa [neg_sub', ] at this)
    rw [← neg_add, abs_neg, abs_neg, abs_neg] at h1
    obtain ⟨a, b, c', d'⟩ := h1
    refine ⟨?_, ?_, c', d'⟩
    · have := splitAt_neg a; rwa [neg_neg, neg_neg] at this
    · have := onGrid_neg b; rwa [neg_neg] at this
  · exfalso
    have h1 := (normAt_bounds hx).1
    have := two_zpow_pos e
    rw [h, abs_zero] at h1
    have : (0 : ℚ) < 2 ^ F * 2 ^ e := by positivity
    linarith
  · exact split_pos hge h1s hsF hx h hc hd

/-- The low part is at most the number. -/
theorem split_low {e : ℤ} {s : ℕ} {x h : ℚ} (hge : g ≤ e) (hsF : s ≤ F) (hx : NormAt F e x) (hs : SplitAt F e s x h) :
    (∃ n : ℤ, x - h = n * 2 ^ e) ∧ OnGrid F g (x - h) ∧ |x - h| ≤ |x| := by
  obtain ⟨n, hn, -, h2⟩ := hs
  have hu := two_zpow_pos e
  have hes : (2 : ℚ) ^ (e + s) = 2 ^ e * 2 ^ s := by rw [zpow_add₀ (by norm_num), zpow_natCast]
  have hPN : (2 : ℚ) ^ s ≤ 2 ^ F := pow_le_pow_right₀ (by norm_num) hsF
  have h3 : |x - h| ≤ 2 ^ F * 2 ^ e := by
    rw [hes] at h2
    nlinarith [abs_nonneg (x - h)]
  have hm : ∃ n : ℤ, x - h = n * 2 ^ e := mult_sub (normAt_mult hx) (by rw [hn]; exact mult_lower (by omega))
  refine ⟨hm, onGrid_mult hge hm (h3.trans ?_), h3.trans (normAt_bounds hx).1⟩
  rw [pow_succ]
  have : (0 : ℚ) < 2 ^ F * 2 ^ e := by positivity
  linarith

/-- A product of two multiples. -/
theorem mult_mul {p q : ℚ} {j k : ℤ} (hp : ∃ n : ℤ, p = n * 2 ^ j) (hq : ∃ n : ℤ, q = n * 2 ^ k) : ∃ n : ℤ, p * q = n * 2 ^ (j + k) := by
  obtain ⟨n, rfl⟩ := hp
  obtain ⟨m, rfl⟩ := hq
  exact ⟨n * m, by rw [zpow_add₀ (by norm_num)]; push_cast; ring⟩

theorem mult_le {p : ℚ} {j k : ℤ} (hjk : j ≤ k) (hp : ∃ n : ℤ, p = n * 2 ^ k) : ∃ n : ℤ, p = n * 2 ^ j := by
  obtain ⟨n, rfl⟩ := hp
  exact mult_lower hjk

set_option maxHeartbeats 400000 in
/-- The products of the parts, and the partial sums of their difference to the rounded product, are all on the grid. -/
theorem product_facts {e f : ℤ} {s : ℕ} {x y hx hy r : ℚ} (hge : g ≤ e + f) (h1 : F + 1 ≤ 2 * s) (h2 : 2 * s ≤ F + 2) (h3 : s + 2 ≤ F)
    (nx : NormAt F e x) (ny : NormAt F f y) (sx : SplitAt F e s x hx) (sy : SplitAt F f s y hy) (hr : NearGrid F g (x * y) r) :
    let ok (v : ℚ) := OnGrid F g v ∧ |v| ≤ |r|
    OnGrid F g (hx * hy) ∧ ok (hx * hy - r) ∧ ok (hx * (y - hy)) ∧ ok (hx * y - r) ∧ ok ((x - hx) * hy) ∧ ok (x * y - (x - hx) * (y - hy) - r) ∧
      ok ((x - hx) * (y - hy)) ∧ ok (x * y - r) := by
  intro ok
  have hu := two_zpow_pos e
  have hw := two_zpow_pos f
  have hU := two_zpow_pos (e + f)
  have hUe : (2 : ℚ) ^ (e + f) = 2 ^ e * 2 ^ f := zpow_add₀ (by norm_num) _ _
  obtain ⟨x1, x2⟩ := normAt_bounds nx
  obtain ⟨y1, y2⟩ := normAt_bounds ny
  have mx := normAt_mult nx
  have my := normAt_mult ny
  obtain ⟨lx1, -, -⟩ := split_low (g := e) le_rfl (by omega) nx sx
  obtain ⟨ly1, -, -⟩ := split_low (g := f) le_rfl (by omega) ny sy
  obtain ⟨n, hn, bn, cn⟩ := sx
  obtain ⟨m, hm, bm, cm⟩ := sy
  have mhx : ∃ n : ℤ, hx = n * 2 ^ (e + s) := ⟨n, hn⟩
  have mhy : ∃ n : ℤ, hy = n * 2 ^ (f + s) := ⟨m, hm⟩
  have ees : (2 : ℚ) ^ (e + s) = 2 ^ e * 2 ^ s := by rw [zpow_add₀ (by norm_num), zpow_natCast]
  have efs : (2 : ℚ) ^ (f + s) = 2 ^ f * 2 ^ s := by rw [zpow_add₀ (by norm_num), zpow_natCast]
  -- sizes in units
  have hhx : |hx| ≤ 2 ^ (F + 1) * 2 ^ e := by
    rw [hn, abs_mul, abs_of_pos (two_zpow_pos _), ees]
    have h4 : |(n : ℚ)| ≤ 2 ^ (F + 1 - s) := by exact_mod_cast bn
    have h5 : (2 : ℚ) ^ (F + 1) = 2 ^ (F + 1 - s) * 2 ^ s := by rw [← pow_add]; congr 1; omega
    rw [h5]
    calc |(n : ℚ)| * (2 ^ e * 2 ^ s) ≤ 2 ^ (F + 1 - s) * (2 ^ e * 2 ^ s) := mul_le_mul_of_nonneg_right h4 (by positivity)
      _ = _ := by ring
  have hhy : |hy| ≤ 2 ^ (F + 1) * 2 ^ f := by
    rw [hm, abs_mul, abs_of_pos (two_zpow_pos _), efs]
    have h4 : |(m : ℚ)| ≤ 2 ^ (F + 1 - s) := by exact_mod_cast bm
    have h5 : (2 : ℚ) ^ (F + 1) = 2 ^ (F + 1 - s) * 2 ^ s := by rw [← pow_add]; congr 1; omega
    rw [h5]
    calc |(m : ℚ)| * (2 ^ f * 2 ^ s) ≤ 2 ^ (F + 1 - s) * (2 ^ f * 2 ^ s) := mul_le_mul_of_nonneg_right h4 (by positivity)
      _ = _ := by ring
  have hyy : |y| ≤ 2 ^ (F + 1) * 2 ^ f := by linarith
  have hxx : |x| ≤ 2 ^ (F + 1) * 2 ^ e := by linarith
  rw [ees] at cn
  rw [efs] at cm
  set U : ℚ := 2 ^ (e + f) with hUdef
  set P : ℚ := 2 ^ s with hPdef
  have hN1 : (2 : ℚ) ^ (F + 1) = 2 * 2 ^ F := by rw [pow_succ]; ring
  have hN2 : (2 : ℚ) ^ (F + 2) = 4 * 2 ^ F := by rw [pow_add]; ring
  have hPP : P * P ≤ 4 * 2 ^ F := by rw [hPdef, ← pow_add, ← hN2]; exact pow_le_pow_right₀ (by norm_num) (by omega)
  have hPN : 4 * P ≤ 2 ^ F := by
    calc 4 * P = 2 ^ (s + 2) := by rw [hPdef, pow_add]; ring
      _ ≤ 2 ^ F := pow_le_pow_right₀ (by norm_num) h3
  have hP1 : 1 ≤ P := one_le_pow₀ (by norm_num)
  rw [hN1] at hhx hhy hyy hxx
  set N : ℚ := 2 ^ F with hNdef
  have hNp : 0 < N := by positivity
  have hN4 : 4 ≤ N := by linarith
  -- products of bounds
  have prod : ∀ {a b A B : ℚ}, |a| ≤ A * 2 ^ e → |b| ≤ B * 2 ^ f → |a * b| ≤ A * B * U := by
    intro a b A B ha hb
    rw [abs_mul, hUe]
    calc |a| * |b| ≤ (A * 2 ^ e) * (B * 2 ^ f) := mul_le_mul ha hb (abs_nonneg b) ((abs_nonneg a).trans ha)
      _ = _ := by ring
  have lx : |x - hx| ≤ (P / 2) * 2 ^ e := by linarith
  have ly : |y - hy| ≤ (P / 2) * 2 ^ f := by linarith
  have q1 := prod hhx ly
  have q2 := prod lx hhy
  have q3 := prod lx ly
  have q4 := prod lx hyy
  -- the rounded product
  have hxy : N * N * U ≤ |x * y| := by
    rw [abs_mul, hUe]
    calc N * N * (2 ^ e * 2 ^ f) = (N * 2 ^ e) * (N * 2 ^ f) := by ring
      _ ≤ |x| * |y| := mul_le_mul x1 y1 (by positivity) (abs_nonneg x)
  have eFk : (2 : ℚ) ^ (e + f + F) = N * U := by rw [zpow_add₀ (by norm_num), zpow_natCast]; ring
  have mr : ∃ n : ℤ, r = n * 2 ^ (e + f + F) := by
    refine nearGrid_unit (by omega) ?_ hr
    rw [eFk, ← mul_assoc]; exact hxy
  have er : |x * y - r| ≤ N * U := by
    have := nearGrid_close (k := e + f + F) (by omega) (q := x * y) (s := r) (by
      rw [eFk, hN2]
      have := prod hxx hyy
      linarith) hr
    rwa [eFk] at this
  have hrl : N * N * U ≤ |r| := by
    have hon : OnGrid F g (N * N * U) := by
      refine onGrid_mult (k := e + f + F) (by omega) ⟨2 ^ F, ?_⟩ ?_
      · rw [eFk]; push_cast; ring
      · rw [eFk, abs_of_pos (by positivity), hN1]
        have : 0 < N * (N * U) := by positivity
        linarith
    rcases le_abs'.mp hxy with h | h
    · have := nearGrid_le (onGrid_neg hon) h hr
      exact (by linarith : N * N * U ≤ -r).trans (neg_le_abs r)
    · exact (nearGrid_ge hon h hr).trans (le_abs_self r)
  have eps : (2 : ℚ) ^ (e + f + s) = P * U := by rw [zpow_add₀ (by norm_num), zpow_natCast]; ring
  -- a value that is a multiple and small enough
  have mk : ∀ {v B : ℚ} {k : ℤ}, e + f ≤ k → (∃ n : ℤ, v = n * 2 ^ k) → |v| ≤ B * U → B * U ≤ 2 ^ (F + 1) * 2 ^ k → B ≤ N * N → ok v := by
    intro v B k hk hm hv hB hBN
    exact ⟨onGrid_mult (by omega) hm (hv.trans hB), hv.trans ((mul_le_mul_of_nonneg_right hBN hU.le).trans hrl)⟩
  have hPNU : 0 < P * U := by positivity
  have hNU : 0 < N * U := by positivity
  have hPN2 : 4 * (P * N) ≤ N * N := by
    have := mul_le_mul_of_nonneg_right hPN hNp.le
    linarith
  have hNN : 4 * N ≤ N * N := mul_le_mul_of_nonneg_right hN4 hNp.le
  have q3' : |(x - hx) * (y - hy)| ≤ N * U := by
    refine q3.trans (mul_le_mul_of_nonneg_right ?_ hU.le)
    linarith
  have k1 : (2 * P * N + N) * U ≤ N * N * U := mul_le_mul_of_nonneg_right (by linarith) hU.le
  have k2 : 0 < P * N * U := by positivity
  have k3 : N * U ≤ P * (N * U) := le_mul_of_one_le_left hNU.le hP1
  have k4 : 0 < N * N * U := by positivity
  have k5 : 0 < P * N := by positivity
  have mhxhy : ∃ n : ℤ, hx * hy = n * 2 ^ (e + f + F) := mult_le (by omega) (mult_mul mhx mhy)
  have mhxy : ∃ n : ℤ, hx * y = n * 2 ^ (e + f + s) := mult_le (by omega) (mult_mul mhx my)
  have mlxhy : ∃ n : ℤ, (x - hx) * hy = n * 2 ^ (e + f + s) := mult_le (by omega) (mult_mul lx1 mhy)
  have mr' : ∃ n : ℤ, r = n * 2 ^ (e + f + s) := mult_le (by omega) mr
  refine ⟨?_, ?_, ?_, ?_, ?_, ?_, ?_, ?_⟩
  · -- the product of the high parts
    refine ⟨n * m, e + s + (f + s), by omega, ?_, ?_⟩
    · rw [abs_mul]
      calc |n| * |m| ≤ 2 ^ (F + 1 - s) * 2 ^ (F + 1 - s) := mul_le_mul bn bm (abs_nonneg m) (by positivity)
        _ = 2 ^ (F + 1 - s + (F + 1 - s)) := (pow_add _ _ _).symm
        _ ≤ 2 ^ (F + 1) := pow_le_pow_right₀ (by norm_num) (by omega)
    · rw [hn, hm, zpow_add₀ (by norm_num) (e + s)]; push_cast; ring
  · refine mk (B := 2 * P * N + N) (by omega) (mult_sub mhxhy mr) ?_ ?_ (by linarith)
    · have : hx * hy - r = (x * y - r) - ((x - hx) * y + hx * (y - hy)) := by ring
      rw [this]
      refine (abs_sub _ _).trans ?_
      have := abs_add_le ((x - hx) * y) (hx * (y - hy))
      linarith
    · rw [eFk, hN1]; linarith
  · refine mk (B := P * N) (k := e + f + s) (by omega) (mult_le (by omega) (mult_mul mhx ly1)) (by linarith) ?_ (by linarith)
    rw [eps, hN1]; linarith
  · refine mk (B := P * N + N) (k := e + f + s) (by omega) (mult_sub mhxy mr') ?_ ?_ (by linarith)
    · have : hx * y - r = (x * y - r) - (x - hx) * y := by ring
      rw [this]
      refine (abs_sub _ _).trans ?_
      linarith
    · rw [eps, hN1]; linarith
  · refine mk (B := P * N) (k := e + f + s) (by omega) mlxhy (by linarith) ?_ (by linarith)
    rw [eps, hN1]; linarith
  · refine mk (B := 2 * N) (k := e + f) le_rfl ?_ ?_ (by rw [hN1]) (by linarith)
    · have : x * y - (x - hx) * (y - hy) - r = hx * y - r + (x - hx) * hy := by ring
      rw [this]
      exact mult_le (by omega) (mult_add (mult_sub mhxy mr') mlxhy)
    · have : x * y - (x - hx) * (y - hy) - r = (x * y - r) - (x - hx) * (y - hy) := by ring
      rw [this]
      refine (abs_sub _ _).trans ?_
      linarith
  · refine mk (B := N) (k := e + f) le_rfl (mult_mul lx1 ly1) q3' (by rw [hN1]; linarith) (by linarith)
  · exact mk (B := N) (k := e + f) le_rfl (mult_sub (mult_mul mx my) (mult_le (by omega) mr)) er (by rw [hN1]; linarith) (by linarith)

section
variable {top : ℚ} {R : ℚ → Datum → Prop}

/-- The four operations of the splitting. -/
theorem SumRounding.split (M : SumRounding F g top R) {e : ℤ} {s : ℕ} {x c : ℚ} {dc : Datum} (hge : g ≤ e) (h1s : 1 ≤ s) (hsF : s ≤ F) (hx : NormAt F e x)
    (hxt : |x| < top) (h1 : R ((2 ^ s + 1) * x) dc) (hc : dc.fin = some c) :
    ∀ dd, R (x - c) dd → ∃ d, dd.fin = some d ∧ ∀ dh, R (c + d) dh → ∃ h, dh.fin = some h ∧ SplitAt F e s x h ∧ ∀ dl, R (x - h) dl → dl.fin = some (x - h) := by
  have hxm : ∃ n : ℤ, x = n * 2 ^ g := mult_le hge (normAt_mult hx)
  have hcm : ∃ n : ℤ, (2 ^ s + 1) * x = n * 2 ^ g := by
    obtain ⟨n, hn⟩ := hxm
    exact ⟨(2 ^ s + 1) * n, by rw [hn]; push_cast; ring⟩
  obtain ⟨nc, lc⟩ := M.near hcm h1 hc
  intro dd hdd
  obtain ⟨d, nd, d2, -⟩ := M _ _ (mult_sub hxm (grid_mult nc.1)) hdd
  obtain ⟨f1, f2, f3, f4⟩ := split_facts hge h1s hsF hx nc nd
  refine ⟨d, d2 (f3.trans_lt lc), fun dh hdh => ⟨c + d, M.exact f2 (f4.trans_lt lc) hdh, f1, fun dl hdl => ?_⟩⟩
  obtain ⟨-, g1, g2⟩ := split_low hge hsF hx f1
  exact M.exact g1 (g2.trans_lt hxt) hdl

/-- The operations of the product of two split numbers. -/
theorem SumRounding.product (M : SumRounding F g top R) {e f : ℤ} {s : ℕ} {x y hx hy r : ℚ} {dr : Datum} (hge : g ≤ e + f) (h1 : F + 1 ≤ 2 * s)
    (h2 : 2 * s ≤ F + 2) (h3 : s + 2 ≤ F) (nx : NormAt F e x) (ny : NormAt F f y) (sx : SplitAt F e s x hx) (sy : SplitAt F f s y hy) (hr : R (x * y) dr)
    (hfr : dr.fin = some r) :
    (∀ d q, R (hx * hy) d → d.fin = some q → q = hx * hy) ∧ (∀ d, R (hx * hy + -r) d → d.fin = some (hx * hy - r)) ∧
      (∀ d, R (hx * (y - hy)) d → d.fin = some (hx * (y - hy))) ∧ (∀ d, R (hx * hy - r + hx * (y - hy)) d → d.fin = some (hx * y - r)) ∧
      (∀ d, R ((x - hx) * hy) d → d.fin = some ((x - hx) * hy)) ∧
      (∀ d, R (hx * y - r + (x - hx) * hy) d → d.fin = some (x * y - (x - hx) * (y - hy) - r)) ∧
      (∀ d, R ((x - hx) * (y - hy)) d → d.fin = some ((x - hx) * (y - hy))) ∧
      (∀ d, R (x * y - (x - hx) * (y - hy) - r + (x - hx) * (y - hy)) d → d.fin = some (x * y - r)) := by
  obtain ⟨nr, lr⟩ := M.near (mult_le hge (mult_mul (normAt_mult nx) (normAt_mult ny))) hr hfr
  obtain ⟨f1, f2, f3, f4, f5, f6, f7, f8⟩ := product_facts hge h1 h2 h3 nx ny sx sy nr
  have use : ∀ {v : ℚ}, OnGrid F g v ∧ |v| ≤ |r| → ∀ {q : ℚ}, q = v → ∀ d, R q d → d.fin = some v := by
    rintro v ⟨hv, hb⟩ q rfl d hd
    exact M.exact hv (hb.trans_lt lr) hd
  refine ⟨fun d q hd hq => ?_, use f2 (by ring), use f3 rfl, use f4 (by ring), use f5 rfl, use f6 (by ring), use f7 rfl, use f8 (by ring)⟩
  exact nearGrid_exact f1 (M.near (grid_mult f1) hd hq).1

end

/-- A number of `F+1` bits that is large enough. -/
theorem sigValue_normAt {x : ℚ} (h : SigValue F x) (hb : (2 : ℚ) ^ ((F : ℤ) + g) ≤ |x|) : ∃ e, g ≤ e ∧ NormAt F e x := by
  obtain ⟨m, e, hm, he⟩ := h
  refine ⟨e, ?_, ?_⟩
  · rw [he] at hb
    have := (zpow_lt_zpow_iff_right₀ (by norm_num)).mp (hb.trans_lt (sig_upper hm e))
    omega
  · have h1 : 2 ^ F ≤ m := hm.1
    have h2 : m < 2 ^ (F + 1) := hm.2
    rcases abs_choice x with h | h
    · exact ⟨m, by rw [← h, he]; rfl, by rw [abs_of_nonneg (by positivity)]; exact_mod_cast h1, by rw [abs_of_nonneg (by positivity)]; exact_mod_cast h2⟩
    · refine ⟨-m, by push_cast; linarith, ?_, ?_⟩ <;> rw [abs_neg, abs_of_nonneg (by positivity)]
      · exact_mod_cast h1
      · exact_mod_cast h2

/-- The unit of a product. -/
theorem normAt_product {e f : ℤ} {x y : ℚ} (hx : NormAt F e x) (hy : NormAt F f y) (h : (2 : ℚ) ^ (2 * (F : ℤ) + 1 + g) ≤ |x * y|) : g ≤ e + f := by
  have h1 := (normAt_bounds hx).2
  have h2 := (normAt_bounds hy).2
  have he := two_zpow_pos e
  have hf := two_zpow_pos f
  rw [abs_mul] at h
  have h3 : |x| * |y| < (2 ^ (F + 1) * 2 ^ e) * (2 ^ (F + 1) * 2 ^ f) :=
    mul_lt_mul'' (by linarith) (by linarith) (abs_nonneg x) (abs_nonneg y)
  have h4 : ((2 : ℚ) ^ (F + 1) * 2 ^ e) * (2 ^ (F + 1) * 2 ^ f) = 2 ^ (2 * (F : ℤ) + 2 + e + f) := by
    rw [← zpow_natCast, ← zpow_add₀ (by norm_num), ← zpow_add₀ (by norm_num), ← zpow_add₀ (by norm_num)]
    congr 1; push_cast; ring
  rw [h4] at h3
  have := (zpow_lt_zpow_iff_right₀ (by norm_num)).mp (h.trans_lt h3)
  omega

end Thls
