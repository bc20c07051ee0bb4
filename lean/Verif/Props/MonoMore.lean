import Verif.Props.FmaSharp
import Verif.Props.AddMore
import Verif.Props.AddWrap
import Verif.Props.DotSharp
import Mathlib.Data.Fintype.Lattice

/-! # Property C93: conversions, fused multiply-adds and dot products preserve order and sign -/

namespace Thls
open Spec

/-! ## Conversions -/

theorem convert_fin {ER FR EX FX : ℕ} (hER : 1 ≤ ER) (hFR : 1 ≤ FR) (hEX : 1 ≤ EX) (hFX : 1 ≤ FX) (h : ER ≠ EX ∨ FX ≤ FR)
    (x : Fp EX FX) {u : ℚ} (hx : x.datum.fin = some u) : Rounded0 ER FR u (convert ER FR x).datum := by
  unfold Rounded0
  cases dx : x.datum with
  | nan => rw [dx] at hx; cases hx
  | inf s => rw [dx] at hx; cases hx
  | zero s =>
    rw [dx] at hx; injection hx with hx; subst hx
    rw [if_pos rfl]
    refine ⟨s, ?_⟩
    rw [(C24_convert_special_iff hER hFR hEX hFX x (by rw [dx]; simp)).mpr (by rintro ⟨-, a, b, -⟩; rcases h with h | h <;> omega), dx]
  | num q =>
    rw [dx] at hx; injection hx with hx; subst hx
    rw [if_neg (num_ne_zero dx)]
    exact convert_rounded hER hFR hEX hFX x _ dx

theorem convert_keeps {ER FR EX FX : ℕ} (hER : 1 ≤ ER) (hFR : 1 ≤ FR) (hEX : 1 ≤ EX) (hFX : 1 ≤ FX) (h : ER ≠ EX ∨ FX ≤ FR)
    (x : Fp EX FX) (hx : ∀ v, x.datum ≠ .num v) : (convert ER FR x).datum = x.datum :=
  (C24_convert_special_iff hER hFR hEX hFX x hx).mpr (by rintro ⟨-, a, b, -⟩; rcases h with h | h <;> omega)

theorem rounded0_ne_nan {E F : ℕ} {q : ℚ} {d : Datum} (h : Rounded0 E F q d) : d ≠ .nan := by
  unfold Rounded0 at h
  split_ifs at h with h0
  · obtain ⟨s, rfl⟩ := h; simp
  · obtain ⟨m, e, -, rfl⟩ := h
    unfold rangeCheck; split_ifs <;> simp

theorem convert_mono {ER FR EX FX : ℕ} (hER : 1 ≤ ER) (hFR : 1 ≤ FR) (hEX : 1 ≤ EX) (hFX : 1 ≤ FX) (h : ER ≠ EX ∨ FX ≤ FR)
    (x y : Fp EX FX) (hxy : x.datum.Le y.datum) : (convert ER FR x).datum.Le (convert ER FR y).datum := by
  obtain ⟨nx, ny⟩ := le_not_nan hxy
  have nn : ∀ z : Fp EX FX, z.datum ≠ .nan → (convert ER FR z).datum ≠ .nan := by
    intro z hz
    rcases fin_or hz with ⟨v, hv⟩ | ⟨s, hs⟩
    · exact rounded0_ne_nan (convert_fin hER hFR hEX hFX h z hv)
    · rw [convert_keeps hER hFR hEX hFX h z (by rw [hs]; simp), hs]; simp
  rcases fin_or nx with ⟨u, hu⟩ | ⟨s, hs⟩
  · rcases fin_or ny with ⟨v, hv⟩ | ⟨t, ht⟩
    · exact rounded0_mono (le_fin hu hv hxy) (convert_fin hER hFR hEX hFX h x hu) (convert_fin hER hFR hEX hFX h y hv)
    · rw [convert_keeps hER hFR hEX hFX h y (by rw [ht]; simp), ht]
      cases t with
      | false => exact le_top (nn x nx)
      | true => rw [ht] at hxy; rw [le_bot hxy] at hu; cases hu
  · rw [convert_keeps hER hFR hEX hFX h x (by rw [hs]; simp), hs]
    cases s with
    | true => exact bot_le (nn y ny)
    | false =>
      rw [hs] at hxy
      rw [convert_keeps hER hFR hEX hFX h y (by rw [top_le hxy]; simp), top_le hxy]
      right; rfl

/-- **C93, conversions, exactly.** Conversion between two formats preserves the order of the extended reals on all operands exactly
when the exponent width changes or the fraction is not narrowed. -/
theorem C93_convert_monotone_iff {ER FR EX FX : ℕ} (hER : 1 ≤ ER) (hFR : 1 ≤ FR) (hEX : 1 ≤ EX) (hFX : 1 ≤ FX) :
    (∀ x y : Fp EX FX, x.datum.Le y.datum → (convert ER FR x).datum.Le (convert ER FR y).datum) ↔ (ER ≠ EX ∨ FX ≤ FR) := by
  refine ⟨fun hm => ?_, convert_mono hER hFR hEX hFX⟩
  by_contra hc
  push Not at hc
  obtain ⟨rfl, hlt⟩ := hc
  obtain ⟨z, -, hz, hz', -⟩ := C24_convert_special_wrong (E := ER) hER hFR hlt
  have h0 : (0 : ℕ) < 2 ^ ER := by positivity
  have hF0 : (0 : ℕ) < 2 ^ FX := by positivity
  have hd : (Fp.mk4 ER FX 0 0 0 0).datum = .zero false := by
    rw [Fp.mk4_datum (by decide) (by decide) h0 hF0 hER hFX]; rfl
  have h := hm z (Fp.mk4 ER FX 0 0 0 0) (by rw [hz, hd]; right; trivial)
  rw [hz', (C24_convert_special_iff hER hFR hER hFX (Fp.mk4 ER FX 0 0 0 0) (by rw [hd]; simp)).mpr, hd] at h
  · have := top_le h
    simp at this
  · rintro ⟨-, -, -, he, -⟩
    rw [Fp.mk4_exp (by norm_num) (by norm_num) h0 hF0 hER] at he
    have : 2 ^ 1 ≤ 2 ^ ER := Nat.pow_le_pow_right (by norm_num) hER
    omega

/-- Two numbers in order, before and after a conversion to a smaller format that rounds both. -/
example : convert 4 3 (Fp.mk4 8 23 1 0 127 0x7fffff) = Fp.mk4 4 3 1 0 8 0 ∧
    convert 4 3 (Fp.mk4 8 23 1 0 129 0x380001) = Fp.mk4 4 3 1 0 9 4 := by decide +kernel

theorem convert_bounds {ER FR EX FX : ℕ} (hER : 1 ≤ ER) (hFX : 1 ≤ FX) (x : Fp EX FX) :
    (convertExp ER EX x.flags x.exp (convertFrac FR FX x.frac).2).1 < 4 ∧
    (convertExp ER EX x.flags x.exp (convertFrac FR FX x.frac).2).2 < 2 ^ ER ∧ (convertFrac FR FX x.frac).1 < 2 ^ FR := by
  have hfl := x.flags_lt
  refine ⟨?_, ?_, ?_⟩
  · unfold convertExp
    dsimp only
    split_ifs <;> first | exact hfl | norm_num
  · unfold convertExp
    dsimp only
    split_ifs
    · exact addW_lt _ _ _
    · exact addW_lt _ _ _
    · exact addW_lt _ _ _
    all_goals
      have := getBits_lt (ER - 1) 0 (subW EX (addW EX x.exp ((convertFrac FR FX x.frac).2).toNat) (2 ^ (EX - 1) - 2 ^ (ER - 1)))
      rwa [show ER - 1 + 1 - 0 = ER by omega] at this
  · have hf := x.frac_lt hFX
    unfold convertFrac
    split_ifs with a b
    · show concat (FR - FX) x.frac 0 < _
      unfold concat
      rw [Nat.add_zero, show FR = FX + (FR - FX) by omega, pow_add, show FX + (FR - FX) - FX = FR - FX by omega]
      exact Nat.mul_lt_mul_of_pos_right hf (by positivity)
    · rw [b]; exact hf
    · exact addW_lt _ _ _

theorem negV1_same {E F : ℕ} (hE : 1 ≤ E) (hF : 1 ≤ F) (x : Fp E F) : negV1 E F x = flipSign x := by
  unfold negV1
  rw [convert_same]
  conv_rhs => rw [← Fp.mk4_eta hE hF (flipSign x)]
  congr 1
  unfold addW
  rw [Nat.add_zero, Nat.mod_eq_of_lt ((flipSign x).exp_lt hE)]

theorem num_bits_unique {E F : ℕ} (hE : 1 ≤ E) (hF : 1 ≤ F) {x y : Fp E F} {v : ℚ} (hx : x.datum = .num v) (hy : y.datum = .num v) :
    x = y := by
  obtain ⟨f1, -⟩ := datum_num_iff.mp hx
  obtain ⟨f2, -⟩ := datum_num_iff.mp hy
  obtain ⟨-, h2, h3⟩ := (Fp.datum_inj hE hF x y).mp (hx.trans hy.symm)
  have h4 := h3 f1
  rw [Fp.expFrac_eq hE hF, Fp.expFrac_eq hE hF] at h4
  have a := concat_div (a := x.exp) (x.frac_lt hF)
  have b := concat_div (a := y.exp) (y.frac_lt hF)
  have he : x.exp = y.exp := by rw [← a, ← b, h4]
  refine Fp.ext_fields hE hF (by rw [f1, f2]) (h2 (by omega)) he ?_
  unfold concat at h4
  rw [he] at h4
  omega

/-- **C93, conversion and negation.** Converting the negation of an operand, and negating the converted operand, give the same bits, and
`neg` into another format is either; for all formats and encodings, NaN included. -/
theorem C93_convert_neg {ER FR EX FX : ℕ} (hER : 1 ≤ ER) (hFR : 1 ≤ FR) (hEX : 1 ≤ EX) (hFX : 1 ≤ FX) (x : Fp EX FX) :
    convert ER FR (negV1 EX FX x) = negV1 ER FR (convert ER FR x) ∧ negV1 ER FR x = negV1 ER FR (convert ER FR x) := by
  have key : negV1 ER FR x = negV1 ER FR (convert ER FR x) := by
    rw [negV1_same hER hFR]
    obtain ⟨h1, h2, h3⟩ := convert_bounds (FR := FR) hER hFX x
    have hs := x.sign_lt
    obtain ⟨f1, f2, f3, f4⟩ := flipSign_fields hEX hFX x
    have hn : notW 1 x.sign = 1 - x.sign := by
      obtain h | h : x.sign = 0 ∨ x.sign = 1 := by omega
      all_goals rw [h]; decide
    unfold negV1
    conv_lhs => unfold convert
    dsimp only
    rw [f1, f2, f3, f4]
    unfold flipSign convert
    dsimp only
    rw [Fp.mk4_flags h1 hs h2 h3, Fp.mk4_sign h1 hs h2 h3, Fp.mk4_exp h1 hs h2 h3 hER, Fp.mk4_frac h1 hs h2 h3 hFR, hn]
  rw [negV1_same hEX hFX]
  exact ⟨key, key⟩

example : negV1 4 3 (Fp.mk4 8 23 1 0 127 0x7fffff) = Fp.mk4 4 3 1 1 8 0 := by decide +kernel

/-! ## Fused multiply-add -/

/-- **C93, `fma` is commutative in its factors**, bit for bit, for every choice of formats, assertion failures included. -/
theorem C93_fma_comm {wER wFR wEX wFX wEY wFY wEZ wFZ : ℕ} (x : Fp wEX wFX) (y : Fp wEY wFY) (z : Fp wEZ wFZ) :
    fma wER wFR x y z = fma wER wFR y x z := by
  unfold fma fmaSum fmaE fmaF
  rw [Nat.max_comm wEY wEX, Nat.add_comm wFY wFX]
  rw [C13_mul_comm]

/-- Both orders of the factors, in mixed formats. -/
example : fma 5 4 (Fp.mk4 4 3 1 0 7 4) (Fp.mk4 5 6 1 0 15 8) (Fp.mk4 4 4 1 0 7 3) =
    fma 5 4 (Fp.mk4 5 6 1 0 15 8) (Fp.mk4 4 3 1 0 7 4) (Fp.mk4 4 4 1 0 7 3) ∧
    (fma 5 4 (Fp.mk4 4 3 1 0 7 4) (Fp.mk4 5 6 1 0 15 8) (Fp.mk4 4 4 1 0 7 3)).isSome := by decide +kernel

/-- The exact product of two data, as extended reals with signed zeros and NaN. -/
def exactProduct (a b : Datum) : Datum :=
  match mulSpecial a b, a, b with
  | some d, _, _ => d
  | none, .num p, .num q => .num (p * q)
  | none, _, _ => .nan

section
variable {wEX wFX wEY wFY : ℕ} (hEX : 1 ≤ wEX) (hFX : 1 ≤ wFX) (hEY : 1 ≤ wEY) (hFY : 1 ≤ wFY)
include hEX hFX hEY hFY

theorem fma_product_datum (x : Fp wEX wFX) (y : Fp wEY wFY) :
    ∃ r : Fp (max wEX wEY + 2) (wFX + wFY + 2), mulV1 (max wEX wEY + 2) (wFX + wFY + 2)
      (convert (max wEX wEY + 2) wFX x) (convert (max wEX wEY + 2) wFY y) = some r ∧ r.datum = exactProduct x.datum y.datum := by
  cases hsp : mulSpecial x.datum y.datum with
  | some e =>
    obtain ⟨r, hr⟩ := mulWide_total (show 1 ≤ max wEX wEY + 2 by omega) (show wFX + wFY + 1 ≤ wFX + wFY + 2 by omega)
      (convert (max wEX wEY + 2) wFX x) (convert (max wEX wEY + 2) wFY y)
    refine ⟨r, hr, ?_⟩
    rw [C12_mul_exceptions (by omega) (by omega) (by omega) _ _ r hr e
      (by rw [C23_convert_widen_exact hEX hFX (by omega) le_rfl, C23_convert_widen_exact hEY hFY (by omega) le_rfl]; exact hsp)]
    unfold exactProduct
    rw [hsp]
  | none =>
    obtain ⟨p, q, hp, hq⟩ : ∃ p q, x.datum = .num p ∧ y.datum = .num q := by
      revert hsp
      rcases x.datum with _ | s | s | p <;> rcases y.datum with _ | t | t | q <;> simp [mulSpecial]
    obtain ⟨r, h1, h2⟩ := fma_product_exact hEX hFX hEY hFY x y p q hp hq
    refine ⟨r, h1, ?_⟩
    rw [h2, hp, hq]
    rfl

end

theorem exactProduct_mono {a b c : Datum} (hab : a.Le b) (hc : (Datum.zero false).Lt c) (ha : exactProduct a c ≠ .nan)
    (hb : exactProduct b c ≠ .nan) : (exactProduct a c).Le (exactProduct b c) := by
  rcases c with _ | t | t | r
  · simp [Datum.Lt] at hc
  · cases t
    · rcases a with _ | s | s | p <;> rcases b with _ | u | u | q
      all_goals simp [exactProduct, mulSpecial] at ha hb ⊢
      · simpa [Datum.isNeg] using hab
      · cases s
        · simp [Datum.Le, Datum.Lt, Datum.RealEq] at hab
        · by_cases h : q < 0 <;> simp [Datum.Le, Datum.Lt, Datum.RealEq, Datum.isNeg, h]
      · cases u
        · by_cases h : p < 0 <;> simp [Datum.Le, Datum.Lt, Datum.RealEq, Datum.isNeg, h]
        · simp [Datum.Le, Datum.Lt, Datum.RealEq] at hab
      · by_cases h : p < 0 <;> by_cases h' : q < 0 <;> simp [Datum.Le, Datum.Lt, Datum.RealEq, Datum.isNeg, h, h'] at hab ⊢
        rcases hab with h2 | h2 <;> linarith
    · simp [Datum.Lt] at hc
  · simp [Datum.Lt] at hc
  · have hr : 0 < r := hc
    have hr' : ¬ r < 0 := by linarith
    rcases a with _ | s | s | p <;> rcases b with _ | u | u | q
    all_goals simp [exactProduct, mulSpecial, Datum.isNeg, hr'] at ha hb ⊢
    all_goals try exact hab
    · cases s <;> simp [Datum.Le, Datum.Lt, Datum.RealEq] at hab ⊢
    · simp [Datum.Le, Datum.Lt, Datum.RealEq] at hab ⊢
      exact mul_pos hab hr
    · cases u <;> simp [Datum.Le, Datum.Lt, Datum.RealEq] at hab ⊢
    · simp [Datum.Le, Datum.Lt, Datum.RealEq] at hab ⊢
      exact mul_neg_of_neg_of_pos hab hr
    · simp [Datum.Le, Datum.Lt, Datum.RealEq] at hab ⊢
      rcases hab with h | h
      · exact Or.inl (mul_lt_mul_of_pos_right h hr)
      · exact Or.inr (Or.inl h)

section
variable {wER wFR wEX wFX wEY wFY wEZ wFZ : ℕ} (hER : 1 ≤ wER) (hFR : 1 ≤ wFR) (hEX : 1 ≤ wEX) (hFX : 1 ≤ wFX)
  (hEY : 1 ≤ wEY) (hFY : 1 ≤ wFY) (hEZ : 1 ≤ wEZ) (hFZ : 1 ≤ wFZ)

include hER hFR hEX hFX hEY hFY hEZ hFZ

/-- **C93, `fma` is monotone in the addend.** Whenever both results are returned and are not NaN, `z ≤ z'` gives
`fma(x, y, z) ≤ fma(x, y, z')`; zeros and infinities included. -/
theorem C93_fma_monotone_addend (hRE : wER ≠ fmaE wEX wEY wEZ ∨ fmaF wFX wFY wFZ ≤ wFR)
    (hfmt : fmaF wFX wFY wFZ ≤ 2 ^ (fmaE wEX wEY wEZ + 1)) (x : Fp wEX wFX) (y : Fp wEY wFY) (z z' : Fp wEZ wFZ)
    (hz : z.datum.Le z'.datum) (r r' : Fp wER wFR) (hr : fma wER wFR x y z = some r) (hr' : fma wER wFR x y z' = some r')
    (hn : r.datum ≠ .nan) (hn' : r'.datum ≠ .nan) : r.datum.Le r'.datum := by
  have hE2 := (fmaE_bounds wEX wEY wEZ).1
  have hF1 : wFX + wFY + 2 ≤ fmaF wFX wFY wFZ := le_max_left _ _
  obtain ⟨xy, h1, h2⟩ := fma_product_datum hEX hFX hEY hFY x y
  unfold fma fmaSum at hr hr'
  rw [h1, Option.bind_some] at hr hr'
  obtain ⟨s, hs, rfl⟩ := Option.map_eq_some_iff.mp hr
  obtain ⟨s', hs', rfl⟩ := Option.map_eq_some_iff.mp hr'
  have keep : ∀ t : Fp (fmaE wEX wEY wEZ) (fmaF wFX wFY wFZ), (convert wER wFR t).datum ≠ .nan → t.datum ≠ .nan := by
    intro t ht h
    exact ht (by rw [convert_keeps hER hFR (by omega) (by omega) hRE t (by rw [h]; simp), h])
  refine convert_mono hER hFR (by omega) (by omega) hRE _ _ ?_
  refine mono_of_special (op := fun a b => AddDual.addSame b a)
    (fun h hd => AddDual.addSame_special_some (by omega) (by omega) (by rwa [AddSingle.addSpecial_comm] at hd) h) _ _ _ s s' ?_ hs hs'
    (keep s hn) (keep s' hn')
    fun u v w hu hv hw h => rounded0_mono (by linarith)
      (add_fin_returned (by omega) (by omega) hfmt _ _ hw hu hs) (add_fin_returned (by omega) (by omega) hfmt _ _ hw hv hs')
  have hF2 : wFZ ≤ fmaF wFX wFY wFZ := le_max_right _ _
  rw [C23_convert_widen_exact hEZ hFZ (fmaE_bounds wEX wEY wEZ).2.le hF2,
    C23_convert_widen_exact hEZ hFZ (fmaE_bounds wEX wEY wEZ).2.le hF2]
  exact hz

/-- **C93, `fma` is monotone in a factor.** For a positive other factor (`+inf` included), whenever both results are returned and are
not NaN, `x ≤ x'` gives `fma(x, y, z) ≤ fma(x', y, z)`. -/
theorem C93_fma_monotone_factor (hRE : wER ≠ fmaE wEX wEY wEZ ∨ fmaF wFX wFY wFZ ≤ wFR)
    (hfmt : fmaF wFX wFY wFZ ≤ 2 ^ (fmaE wEX wEY wEZ + 1)) (x x' : Fp wEX wFX) (y : Fp wEY wFY) (z : Fp wEZ wFZ)
    (hx : x.datum.Le x'.datum) (hy : (Datum.zero false).Lt y.datum) (r r' : Fp wER wFR) (hr : fma wER wFR x y z = some r)
    (hr' : fma wER wFR x' y z = some r') (hn : r.datum ≠ .nan) (hn' : r'.datum ≠ .nan) : r.datum.Le r'.datum := by
  have hE2 := (fmaE_bounds wEX wEY wEZ).1
  have hF1 : wFX + wFY + 2 ≤ fmaF wFX wFY wFZ := le_max_left _ _
  have keep : ∀ t : Fp (fmaE wEX wEY wEZ) (fmaF wFX wFY wFZ), (convert wER wFR t).datum ≠ .nan → t.datum ≠ .nan := by
    intro t ht h
    exact ht (by rw [convert_keeps hER hFR (by omega) (by omega) hRE t (by rw [h]; simp), h])
  have spec : ∀ {a b t : Fp (fmaE wEX wEY wEZ) (fmaF wFX wFY wFZ)} {d : Datum}, AddDual.addSame a b = some t →
      addSpecial a.datum b.datum = some d → t.datum = d :=
    fun h hd => AddDual.addSame_special_some (by omega) (by omega) hd h
  obtain ⟨hE1, hE3⟩ := fmaE_bounds wEX wEY wEZ
  have hF2 : wFZ ≤ fmaF wFX wFY wFZ := le_max_right _ _
  obtain ⟨xy, h1, h2⟩ := fma_product_datum hEX hFX hEY hFY x y
  obtain ⟨xy', h1', h2'⟩ := fma_product_datum hEX hFX hEY hFY x' y
  unfold fma fmaSum at hr hr'
  rw [h1, Option.bind_some] at hr
  rw [h1', Option.bind_some] at hr'
  obtain ⟨s, hs, rfl⟩ := Option.map_eq_some_iff.mp hr
  obtain ⟨s', hs', rfl⟩ := Option.map_eq_some_iff.mp hr'
  have ha : (convert (fmaE wEX wEY wEZ) (fmaF wFX wFY wFZ) xy).datum = exactProduct x.datum y.datum := by
    rw [C23_convert_widen_exact (by omega) (by omega) hE1 hF1, h2]
  have ha' : (convert (fmaE wEX wEY wEZ) (fmaF wFX wFY wFZ) xy').datum = exactProduct x'.datum y.datum := by
    rw [C23_convert_widen_exact (by omega) (by omega) hE1 hF1, h2']
  refine convert_mono hER hFR (by omega) (by omega) hRE _ _ ?_
  refine mono_of_special (op := AddDual.addSame) spec _ _ _ s s' ?_ hs hs' (keep s hn) (keep s' hn')
    fun u v w hu hv hw h => rounded0_mono (by linarith)
      (add_fin_returned (by omega) (by omega) hfmt _ _ hu hw hs) (add_fin_returned (by omega) (by omega) hfmt _ _ hv hw hs')
  rw [ha, ha']
  refine exactProduct_mono hx hy ?_ ?_
  · intro h
    exact keep s hn (spec hs (by rw [ha, h]; rfl))
  · intro h
    exact keep s' hn' (spec hs' (by rw [ha', h]; rfl))

/-- **C93, `fma` and negation.** Negating the addend and one factor negates the result, for numbers that do not cancel, in every
intermediate format for which the adder compiles, assertion failures and wrong sums included. -/
theorem C93_fma_neg (hE : 3 < fmaE wEX wEY wEZ) (hfit : fmaF wFX wFY wFZ + 2 < 2 ^ (fmaE wEX wEY wEZ + 2))
    (hRE : wER ≠ fmaE wEX wEY wEZ ∨ fmaF wFX wFY wFZ ≤ wFR) (x : Fp wEX wFX) (y : Fp wEY wFY) (z : Fp wEZ wFZ) (vx vy vz : ℚ)
    (hx : x.datum = .num vx) (hy : y.datum = .num vy) (hz : z.datum = .num vz) (h0 : vx * vy + vz ≠ 0) :
    (fma wER wFR (negV1 wEX wFX x) y (negV1 wEZ wFZ z)).map Fp.datum = (fma wER wFR x y z).map fun r => (negV1 wER wFR r).datum := by
  obtain ⟨hE1, hE3⟩ := fmaE_bounds wEX wEY wEZ
  have hF1 : wFX + wFY + 2 ≤ fmaF wFX wFY wFZ := le_max_left _ _
  have hF2 : wFZ ≤ fmaF wFX wFY wFZ := le_max_right _ _
  have hnx : (negV1 wEX wFX x).datum = .num (-vx) := by rw [C27_neg_datum hEX hFX, hx]; rfl
  have hnz : (negV1 wEZ wFZ z).datum = .num (-vz) := by rw [C27_neg_datum hEZ hFZ, hz]; rfl
  obtain ⟨xy, h1, h2⟩ := fma_product_exact hEX hFX hEY hFY x y vx vy hx hy
  obtain ⟨xy', h1', h2'⟩ := fma_product_exact hEX hFX hEY hFY (negV1 wEX wFX x) y (-vx) vy hnx hy
  have ha : (convert (fmaE wEX wEY wEZ) (fmaF wFX wFY wFZ) xy).datum = .num (vx * vy) := by
    rw [C23_convert_widen_exact (by omega) (by omega) hE1 hF1, h2]
  have ha' : (convert (fmaE wEX wEY wEZ) (fmaF wFX wFY wFZ) xy').datum = .num (-vx * vy) := by
    rw [C23_convert_widen_exact (by omega) (by omega) hE1 hF1, h2']
  have hb : (convert (fmaE wEX wEY wEZ) (fmaF wFX wFY wFZ) z).datum = .num vz := by
    rw [C23_convert_widen_exact hEZ hFZ hE3.le hF2, hz]
  have e1 : convert (fmaE wEX wEY wEZ) (fmaF wFX wFY wFZ) xy' =
      negV1 (fmaE wEX wEY wEZ) (fmaF wFX wFY wFZ) (convert (fmaE wEX wEY wEZ) (fmaF wFX wFY wFZ) xy) := by
    refine num_bits_unique (by omega) (by omega) ha' ?_
    rw [C27_neg_datum (by omega) (by omega), ha, neg_mul]; rfl
  have e2 : convert (fmaE wEX wEY wEZ) (fmaF wFX wFY wFZ) (negV1 wEZ wFZ z) =
      negV1 (fmaE wEX wEY wEZ) (fmaF wFX wFY wFZ) (convert (fmaE wEX wEY wEZ) (fmaF wFX wFY wFZ) z) :=
    (C93_convert_neg (by omega) (by omega) hEZ hFZ z).1
  have key := C45_neg_add_everywhere hE (by omega) hfit _ _ _ _ ha hb h0
  unfold fma fmaSum
  rw [h1, h1', Option.bind_some, Option.bind_some, e1, e2]
  generalize AddDual.addSame (negV1 (fmaE wEX wEY wEZ) (fmaF wFX wFY wFZ) (convert (fmaE wEX wEY wEZ) (fmaF wFX wFY wFZ) xy))
    (negV1 (fmaE wEX wEY wEZ) (fmaF wFX wFY wFZ) (convert (fmaE wEX wEY wEZ) (fmaF wFX wFY wFZ) z)) = A at key ⊢
  generalize AddDual.addSame (convert (fmaE wEX wEY wEZ) (fmaF wFX wFY wFZ) xy)
    (convert (fmaE wEX wEY wEZ) (fmaF wFX wFY wFZ) z) = B at key ⊢
  cases A with
  | none => cases B with
    | none => rfl
    | some b => cases key
  | some a => cases B with
    | none => cases key
    | some b =>
      simp only [Option.map_some, Option.some.injEq] at key ⊢
      rw [← (C93_convert_neg hER hFR (by omega) (by omega) b).1]
      by_cases hnum : ∃ v, a.datum = .num v
      · obtain ⟨v, hv⟩ := hnum
        rw [num_bits_unique (by omega) (by omega) hv (key ▸ hv)]
      · push Not at hnum
        rw [convert_keeps hER hFR (by omega) (by omega) hRE a hnum,
          convert_keeps hER hFR (by omega) (by omega) hRE _ (by rw [← key]; exact hnum), key]

end

/-- Single precision operands meet the format conditions; `1.5*1.25+z` for two addends in order. -/
example : 8 ≠ fmaE 8 8 8 ∧ fmaF 23 23 23 ≤ 2 ^ (fmaE 8 8 8 + 1) ∧ 3 < fmaE 8 8 8 ∧ fmaF 23 23 23 + 2 < 2 ^ (fmaE 8 8 8 + 2) := by decide

/-! ## Dot products -/

theorem roundedDown_mono {E F : ℕ} {q r : ℚ} {d d' : Datum} (hqr : q ≤ r) (h : RoundedDown E F q d)
    (h' : RoundedDown E F r d') : d.Le d' := by
  obtain ⟨m, e, ⟨h1, h2, -⟩, rfl⟩ := h
  obtain ⟨m', e', ⟨h4, -, h6⟩, rfl⟩ := h'
  exact rangeCheck_mono h1 h4 (h6 m e h1 (h2.trans hqr))

/-- **C93, `dot2` is monotone** in all four operands together. -/
theorem C93_dot2_monotone {E F : ℕ} (hE : 1 ≤ E) (hF : 1 ≤ F) (a0 a1 b0 b1 a0' a1' b0' b1' r r' : Fp E F)
    (h : dot2 a0 a1 b0 b1 = some r) (h' : dot2 a0' a1' b0' b1' = some r') (ha0 : a0.datum.Le a0'.datum)
    (ha1 : a1.datum.Le a1'.datum) (hb0 : b0.datum.Le b0'.datum) (hb1 : b1.datum.Le b1'.datum) : r.datum.Le r'.datum := by
  have hp := C32_dot2_precondition _ _ _ _ _ h
  have hp' := C32_dot2_precondition _ _ _ _ _ h'
  obtain ⟨u0, da0, pa0⟩ := hp a0 (by simp)
  obtain ⟨u1, da1, pa1⟩ := hp a1 (by simp)
  obtain ⟨v0, db0, pb0⟩ := hp b0 (by simp)
  obtain ⟨v1, db1, pb1⟩ := hp b1 (by simp)
  obtain ⟨u0', da0', pa0'⟩ := hp' a0' (by simp)
  obtain ⟨u1', da1', pa1'⟩ := hp' a1' (by simp)
  obtain ⟨v0', db0', pb0'⟩ := hp' b0' (by simp)
  obtain ⟨v1', db1', pb1'⟩ := hp' b1' (by simp)
  obtain ⟨s, hs, hr⟩ := C32_dot2 hE hF a0 a1 b0 b1 _ _ _ _ da0 da1 db0 db1 pa0 pa1 pb0 pb1
  obtain rfl : s = r := by rw [hs] at h; injection h
  obtain ⟨s', hs', hr'⟩ := C32_dot2 hE hF a0' a1' b0' b1' _ _ _ _ da0' da1' db0' db1' pa0' pa1' pb0' pb1'
  obtain rfl : s' = r' := by rw [hs'] at h'; injection h'
  have le : ∀ {x y : Fp E F} {u v : ℚ}, x.datum = .num u → y.datum = .num v → x.datum.Le y.datum → u ≤ v :=
    fun hx hy hxy => le_fin (by rw [hx]; rfl) (by rw [hy]; rfl) hxy
  refine roundedDown_mono (add_le_add ?_ ?_) hr hr'
  · exact mul_le_mul (le da0 da0' ha0) (le db0 db0' hb0) pb0.le pa0'.le
  · exact mul_le_mul (le da1 da1' ha1) (le db1 db1' hb1) pb1.le pa1'.le

theorem num_gap {E F : ℕ} (hF : 1 ≤ F) {x : Fp E F} {v : ℚ} (hx : x.datum = .num v) (h0 : 0 < v) :
    v ≤ 2 ^ (Int.log 2 v + 1) - 2 ^ (Int.log 2 v - F) := by
  rw [log_datum hF hx h0]
  obtain ⟨hf, hv⟩ := datum_num_iff.mp hx
  have hfr := x.frac_lt hF
  have hp := sig_scaled_pos F x.frac ((x.exp : ℤ) - bias E - F)
  have hs : ¬ x.sign = 1 := by
    intro hs
    rw [if_pos hs] at hv
    linarith
  rw [if_neg hs, one_mul] at hv
  have e : (2 : ℚ) ^ ((x.exp : ℤ) - bias E + 1) = 2 ^ (F + 1) * 2 ^ ((x.exp : ℤ) - bias E - F) := by
    rw [← zpow_natCast, ← zpow_add₀ (by norm_num)]; congr 1; push_cast; ring
  rw [hv, e]
  have h1 : ((2 ^ F + x.frac : ℕ) : ℚ) ≤ 2 ^ (F + 1) - 1 := by
    have : 2 ^ F + x.frac + 1 ≤ 2 ^ (F + 1) := by rw [pow_succ]; omega
    have : ((2 ^ F + x.frac + 1 : ℕ) : ℚ) ≤ 2 ^ (F + 1) := by exact_mod_cast this
    push_cast at this ⊢; linarith
  have := mul_le_mul_of_nonneg_right h1 (two_zpow_pos ((x.exp : ℤ) - bias E - F)).le
  linarith

/-- If the binary exponent of a number grows, the number grows by at least half its last place. -/
theorem num_step {E F : ℕ} (hF : 1 ≤ F) {x : Fp E F} {v v' : ℚ} (hx : x.datum = .num v) (h0 : 0 < v) (h0' : 0 < v')
    (hl : Int.log 2 v < Int.log 2 v') : (2 : ℚ) ^ (Int.log 2 v' - 1 - F) ≤ v' - v := by
  have h1 := num_gap hF hx h0
  have h2 : (2 : ℚ) ^ Int.log 2 v' ≤ v' := by exact_mod_cast Int.zpow_log_le_self (b := 2) (by norm_num) h0'
  have h3 : v ≤ 2 ^ (Int.log 2 v' - 1 + 1) - 2 ^ (Int.log 2 v' - 1 - F) := by
    refine h1.trans ?_
    have f : ∀ k : ℤ, (2 : ℚ) ^ (k + 1) - 2 ^ (k - F) = (2 - 2 ^ (-(F : ℤ))) * 2 ^ k := by
      intro k
      rw [sub_mul, ← zpow_add₀ (by norm_num : (2 : ℚ) ≠ 0) (-(F : ℤ)) k, show -(F : ℤ) + k = k - F by ring,
        zpow_add₀ (by norm_num : (2 : ℚ) ≠ 0) k 1, zpow_one]; ring
    rw [f, f]
    refine mul_le_mul_of_nonneg_left (zpow_le_zpow_right₀ (by norm_num) (by omega)) ?_
    have : (2 : ℚ) ^ (-(F : ℤ)) ≤ 2 ^ (0 : ℤ) := zpow_le_zpow_right₀ (by norm_num) (by omega)
    rw [zpow_zero] at this; linarith
  rw [show Int.log 2 v' - 1 + 1 = Int.log 2 v' by ring] at h3
  linarith

theorem log_mono {v v' : ℚ} (h0 : 0 < v) (h : v ≤ v') : Int.log 2 v ≤ Int.log 2 v' := Int.log_mono_right h0 h

/-- **C93, `dot4` is monotone** in all eight operands together, although it does not always round the exact sum down (C33). -/
theorem C93_dot4_monotone {E F : ℕ} (hE : 1 ≤ E) (hF : 1 ≤ F) (a b a' b' : Fin 4 → Fp E F) (u v u' v' : Fin 4 → ℚ)
    (ha : ∀ i, (a i).datum = .num (u i)) (hb : ∀ i, (b i).datum = .num (v i)) (ha' : ∀ i, (a' i).datum = .num (u' i))
    (hb' : ∀ i, (b' i).datum = .num (v' i)) (pa : ∀ i, 0 < u i) (pb : ∀ i, 0 < v i) (hu : ∀ i, u i ≤ u' i) (hv : ∀ i, v i ≤ v' i) :
    ∃ r r', dot4 (a 0) (a 1) (a 2) (a 3) (b 0) (b 1) (b 2) (b 3) = some r ∧
      dot4 (a' 0) (a' 1) (a' 2) (a' 3) (b' 0) (b' 1) (b' 2) (b' 3) = some r' ∧ r.datum.Le r'.datum := by
  have pa' : ∀ i, 0 < u' i := fun i => lt_of_lt_of_le (pa i) (hu i)
  have pb' : ∀ i, 0 < v' i := fun i => lt_of_lt_of_le (pb i) (hv i)
  obtain ⟨j, hj⟩ := Finite.exists_max (fun i => Int.log 2 (u i) + Int.log 2 (v i))
  obtain ⟨j', hj'⟩ := Finite.exists_max (fun i => Int.log 2 (u' i) + Int.log 2 (v' i))
  obtain ⟨r, hr, hd⟩ := C33_dot4_value hE hF a b u v ha hb pa pb _ ⟨j, rfl⟩ hj
  obtain ⟨r', hr', hd'⟩ := C33_dot4_value hE hF a' b' u' v' ha' hb' pa' pb' _ ⟨j', rfl⟩ hj'
  refine ⟨r, r', hr, hr', roundedDown_mono ?_ hd hd'⟩
  have hjj : Int.log 2 (u j) + Int.log 2 (v j) ≤ Int.log 2 (u' j') + Int.log 2 (v' j') :=
    le_trans (add_le_add (log_mono (pa j) (hu j)) (log_mono (pb j) (hv j))) (hj' j)
  have hp : ∀ i, u i * v i ≤ u' i * v' i := fun i => mul_le_mul (hu i) (hv i) (pb i).le (pa' i).le
  rcases hjj.lt_or_eq with hlt | heq
  · -- the cut moves up: the largest product has grown by more than what is cut off
    have hj1 := hj j'
    generalize hG : Int.log 2 (u j) + Int.log 2 (v j) = G at *
    generalize hG' : Int.log 2 (u' j') + Int.log 2 (v' j') = G' at *
    have grow : (2 : ℚ) ^ (G' - 1 - F) ≤ u' j' * v' j' - u j' * v j' := by
      have split : (2 : ℚ) ^ (G' - 1 - F) = 2 ^ (Int.log 2 (u' j') - 1 - F) * 2 ^ Int.log 2 (v' j') := by
        rw [← zpow_add₀ (by norm_num), ← hG']; congr 1; ring
      have split2 : (2 : ℚ) ^ (G' - 1 - F) = 2 ^ Int.log 2 (u' j') * 2 ^ (Int.log 2 (v' j') - 1 - F) := by
        rw [← zpow_add₀ (by norm_num), ← hG']; congr 1; ring
      have lu : (2 : ℚ) ^ Int.log 2 (u' j') ≤ u' j' := by exact_mod_cast Int.zpow_log_le_self (b := 2) (by norm_num) (pa' j')
      have lv : (2 : ℚ) ^ Int.log 2 (v' j') ≤ v' j' := by exact_mod_cast Int.zpow_log_le_self (b := 2) (by norm_num) (pb' j')
      by_cases hc : Int.log 2 (u j') < Int.log 2 (u' j')
      · have := mul_le_mul (num_step hF (ha j') (pa j') (pa' j') hc) lv (two_zpow_pos _).le (by have := hu j'; linarith)
        have h5 := mul_le_mul_of_nonneg_left (hv j') (pa j').le
        rw [split]; linarith
      · have := mul_le_mul lu (num_step hF (hb j') (pb j') (pb' j') (by omega)) (two_zpow_pos _).le (pa' j').le
        have h5 := mul_le_mul_of_nonneg_right (hu j') (pb j').le
        rw [split2]; linarith
    have hw := two_zpow_pos (G - (6 * F - 1) : ℤ)
    have hw' := two_zpow_pos (G' - (6 * F - 1) : ℤ)
    have cut : 4 * (2 : ℚ) ^ (G' - (6 * F - 1) : ℤ) ≤ 2 ^ (G' - 1 - F) := by
      rw [show (4 : ℚ) = 2 ^ (2 : ℤ) by norm_num, ← zpow_add₀ (by norm_num)]
      exact zpow_le_zpow_right₀ (by norm_num) (by omega)
    have lower : ∀ i, u' i * v' i - 2 ^ (G' - (6 * F - 1) : ℤ) ≤
        (⌊u' i * v' i / 2 ^ (G' - (6 * F - 1) : ℤ)⌋ : ℚ) * 2 ^ (G' - (6 * F - 1) : ℤ) := by
      intro i
      have := (Int.lt_floor_add_one (u' i * v' i / 2 ^ (G' - (6 * F - 1) : ℤ))).le
      have := mul_le_mul_of_nonneg_right this hw'.le
      rw [div_mul_cancel₀ _ hw'.ne'] at this
      linarith
    have upper : ∀ i, (⌊u i * v i / 2 ^ (G - (6 * F - 1) : ℤ)⌋ : ℚ) * 2 ^ (G - (6 * F - 1) : ℤ) ≤ u i * v i := by
      intro i
      have := mul_le_mul_of_nonneg_right (Int.floor_le (u i * v i / 2 ^ (G - (6 * F - 1) : ℤ))) hw.le
      rwa [div_mul_cancel₀ _ hw.ne'] at this
    calc _ ≤ ∑ i, u i * v i := Finset.sum_le_sum fun i _ => upper i
      _ ≤ ∑ i, (u' i * v' i) - 2 ^ (G' - 1 - F) := by
        have : ∑ i, (u' i * v' i - u i * v i) ≥ u' j' * v' j' - u j' * v j' :=
          Finset.single_le_sum (f := fun i => u' i * v' i - u i * v i) (fun i _ => sub_nonneg.mpr (hp i)) (Finset.mem_univ j')
        rw [Finset.sum_sub_distrib] at this
        linarith
      _ ≤ ∑ i, (u' i * v' i - 2 ^ (G' - (6 * F - 1) : ℤ)) := by
        rw [Finset.sum_sub_distrib, Finset.sum_const, Finset.card_univ, Fintype.card_fin, nsmul_eq_mul]
        push_cast; linarith
      _ ≤ _ := Finset.sum_le_sum fun i _ => lower i
  · rw [← heq]
    refine Finset.sum_le_sum fun i _ => mul_le_mul_of_nonneg_right ?_ (two_zpow_pos _).le
    exact_mod_cast Int.floor_le_floor (div_le_div_of_nonneg_right (hp i) (two_zpow_pos _).le)

/-- Operands for which the cut moves: the first product grows from just below 2 to 2, the others are tiny and are cut off. -/
example : (dot4 (Fp.mk4 8 4 1 0 127 15) (Fp.mk4 8 4 1 0 100 1) (Fp.mk4 8 4 1 0 100 1) (Fp.mk4 8 4 1 0 100 1)
      (Fp.mk4 8 4 1 0 127 0) (Fp.mk4 8 4 1 0 127 1) (Fp.mk4 8 4 1 0 127 1) (Fp.mk4 8 4 1 0 127 1)) = some (Fp.mk4 8 4 1 0 127 15) ∧
    (dot4 (Fp.mk4 8 4 1 0 128 0) (Fp.mk4 8 4 1 0 100 1) (Fp.mk4 8 4 1 0 100 1) (Fp.mk4 8 4 1 0 100 1)
      (Fp.mk4 8 4 1 0 127 0) (Fp.mk4 8 4 1 0 127 1) (Fp.mk4 8 4 1 0 127 1) (Fp.mk4 8 4 1 0 127 1)) = some (Fp.mk4 8 4 1 0 128 0) := by
  decide +kernel

/-- **C93, `dot4` is symmetric.** The value does not depend on the order of the four products, nor on the order of the two factors. -/
theorem C93_dot4_symmetric {E F : ℕ} (hE : 1 ≤ E) (hF : 1 ≤ F) (a b : Fin 4 → Fp E F) (u v : Fin 4 → ℚ)
    (ha : ∀ i, (a i).datum = .num (u i)) (hb : ∀ i, (b i).datum = .num (v i)) (pa : ∀ i, 0 < u i) (pb : ∀ i, 0 < v i)
    (σ : Equiv.Perm (Fin 4)) :
    ∃ r r' r'', dot4 (a 0) (a 1) (a 2) (a 3) (b 0) (b 1) (b 2) (b 3) = some r ∧
      dot4 (a (σ 0)) (a (σ 1)) (a (σ 2)) (a (σ 3)) (b (σ 0)) (b (σ 1)) (b (σ 2)) (b (σ 3)) = some r' ∧
      dot4 (b 0) (b 1) (b 2) (b 3) (a 0) (a 1) (a 2) (a 3) = some r'' ∧ r.datum = r'.datum ∧ r.datum = r''.datum := by
  obtain ⟨j, hj⟩ := Finite.exists_max (fun i => Int.log 2 (u i) + Int.log 2 (v i))
  obtain ⟨r, hr, hd⟩ := C33_dot4_value hE hF a b u v ha hb pa pb _ ⟨j, rfl⟩ hj
  obtain ⟨r', hr', hd'⟩ := C33_dot4_value hE hF (fun i => a (σ i)) (fun i => b (σ i)) (fun i => u (σ i)) (fun i => v (σ i))
    (fun i => ha _) (fun i => hb _) (fun i => pa _) (fun i => pb _) (Int.log 2 (u j) + Int.log 2 (v j))
    ⟨σ.symm j, by simp⟩ (fun i => hj (σ i))
  obtain ⟨r'', hr'', hd''⟩ := C33_dot4_value hE hF b a v u hb ha pb pa (Int.log 2 (u j) + Int.log 2 (v j))
    ⟨j, add_comm _ _⟩ (fun i => by rw [add_comm]; exact hj i)
  refine ⟨r, r', r'', hr, hr', hr'', roundedDown_unique hd ?_, roundedDown_unique hd ?_⟩
  · rwa [Equiv.sum_comp σ (fun i => (⌊u i * v i / 2 ^ (Int.log 2 (u j) + Int.log 2 (v j) - (6 * F - 1) : ℤ)⌋ : ℚ) *
      2 ^ (Int.log 2 (u j) + Int.log 2 (v j) - (6 * F - 1) : ℤ))] at hd'
  · simpa only [mul_comm (v _) (u _)] using hd''

/-- The hypotheses are met together, by four different numbers and a swap of the first two. -/
example : ∃ r r' r'' : Fp 5 3, dot4 (Fp.mk4 5 3 1 0 15 0) (Fp.mk4 5 3 1 0 15 1) (Fp.mk4 5 3 1 0 15 2) (Fp.mk4 5 3 1 0 15 3)
      (Fp.mk4 5 3 1 0 15 0) (Fp.mk4 5 3 1 0 15 0) (Fp.mk4 5 3 1 0 15 0) (Fp.mk4 5 3 1 0 15 0) = some r ∧
    dot4 (Fp.mk4 5 3 1 0 15 1) (Fp.mk4 5 3 1 0 15 0) (Fp.mk4 5 3 1 0 15 2) (Fp.mk4 5 3 1 0 15 3)
      (Fp.mk4 5 3 1 0 15 0) (Fp.mk4 5 3 1 0 15 0) (Fp.mk4 5 3 1 0 15 0) (Fp.mk4 5 3 1 0 15 0) = some r' ∧
    dot4 (Fp.mk4 5 3 1 0 15 0) (Fp.mk4 5 3 1 0 15 0) (Fp.mk4 5 3 1 0 15 0) (Fp.mk4 5 3 1 0 15 0)
      (Fp.mk4 5 3 1 0 15 0) (Fp.mk4 5 3 1 0 15 1) (Fp.mk4 5 3 1 0 15 2) (Fp.mk4 5 3 1 0 15 3) = some r'' ∧
    r.datum = r'.datum ∧ r.datum = r''.datum := by
  refine C93_dot4_symmetric (by decide) (by decide) (fun i => Fp.mk4 5 3 1 0 15 i.val) (fun _ => Fp.mk4 5 3 1 0 15 0)
    (fun i => 1 + (i.val : ℚ) / 8) (fun _ => 1) ?_ ?_ ?_ ?_ (Equiv.swap 0 1)
  · intro i
    rw [mk4_num (by decide) (by decide) (by decide) (by have := i.isLt; omega)]
    norm_num [bias]
  · intro i
    rw [mk4_num (by decide) (by decide) (by decide) (by decide)]
    norm_num [bias]
  · intro i; positivity
  · intro i; norm_num

end Thls
