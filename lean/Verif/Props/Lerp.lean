import Verif.Proofs.Lerp
import Verif.Props.LoopMono
import Verif.Props.Midpoint

/-! # Property C117: interpolation between two numbers

`x + t * (y - x)` and `(1 - t) * x + t * y`, every operation rounded, with the operators of the number types. -/

namespace Thls
open Spec

variable {E F : ℕ}

/-! ## `fp_flopoco` -/

theorem flopoco_between (hA : AdderFormat E F) {p q x : ℚ} {d : Datum} (hp : FlushValue F (2 ^ (-bias E)) (2 ^ ((2 : ℤ) ^ E - bias E)) p)
    (hq : FlushValue F (2 ^ (-bias E)) (2 ^ ((2 : ℤ) ^ E - bias E)) q) (h1 : p ≤ x) (h2 : x ≤ q) (h : Rounded0 E F x d) :
    ∃ k, d.fin = some k ∧ FlushValue F (2 ^ (-bias E)) (2 ^ ((2 : ℤ) ^ E - bias E)) k ∧ p ≤ k ∧ k ≤ q :=
  (flopoco_mid E F).between hp hq h1 h2 (flush_of_rounded0 h)

theorem flopoco_exact (hA : AdderFormat E F) {p : ℚ} {d : Datum} (hp : FlushValue F (2 ^ (-bias E)) (2 ^ ((2 : ℤ) ^ E - bias E)) p)
    (h : Rounded0 E F p d) : d.fin = some p := by
  obtain ⟨k, k1, -, k2, k3⟩ := flopoco_between hA hp hp le_rfl le_rfl h
  rw [k1, le_antisymm k3 k2]

theorem AdderFormat.ord (hA : AdderFormat E F) : OrdArith (fun _ : Fp E F => True) Fp.datum (Rounded0 E F) wrapAdd wrapMul :=
  flopoco_ord hA.1 hA.2.1 hA.2.2.1 hA.2.2.2

/-- **C117, order.** If `y - x` is finite, `x + t * (y - x)` grows with `t` when `x ≤ y` and falls when `y ≤ x`, for all finite `t`, overflow and
underflow of the product and the sum included; it is never a NaN. -/
theorem C117_lerp_monotone (hA : AdderFormat E F) (x y d t t' : Fp E F) (p q v u u' : ℚ) (hx : x.datum.fin = some p) (hy : y.datum.fin = some q)
    (hd : wrapAdd y (negV1 E F x) = some d) (hv : d.datum.fin = some v) (ht : t.datum.fin = some u) (ht' : t'.datum.fin = some u') (huu : u ≤ u') :
    ∃ r r', lerp wrapAdd wrapMul x (negV1 E F x) y t = some r ∧ lerp wrapAdd wrapMul x (negV1 E F x) y t' = some r' ∧
      (p ≤ q → r.datum.Le r'.datum) ∧ (q ≤ p → r'.datum.Le r.datum) :=
  hA.ord.lerp_le trivial trivial trivial trivial trivial hx (neg_fin (by have := hA.1; omega) hA.2.1 hx) hy hd hv ht ht' huu
    (fun h => flopoco_exact hA (Or.inl rfl) h)

/-- **C117, the start.** At `t = 0` the result is `x`. -/
theorem C117_lerp_start (hA : AdderFormat E F) (x y d t : Fp E F) (p v : ℚ) (hx : x.datum.fin = some p)
    (hd : wrapAdd y (negV1 E F x) = some d) (hv : d.datum.fin = some v) (ht : t.datum.fin = some 0) :
    ∃ r, lerp wrapAdd wrapMul x (negV1 E F x) y t = some r ∧ r.datum.fin = some p :=
  hA.ord.lerp_start trivial trivial trivial trivial hx hd hv ht (fun h => flopoco_exact hA (Or.inl rfl) h)
    (fun h => flopoco_exact hA (flush_value (by have := hA.1; omega) hA.2.1 hx) h)

/-- **C117, the side of `x`.** For `t ≥ 0` the result is never on the wrong side of `x`. -/
theorem C117_lerp_side (hA : AdderFormat E F) (x y d t : Fp E F) (p q v u : ℚ) (hx : x.datum.fin = some p) (hy : y.datum.fin = some q)
    (hd : wrapAdd y (negV1 E F x) = some d) (hv : d.datum.fin = some v) (ht : t.datum.fin = some u) (hu : 0 ≤ u) :
    ∃ r, lerp wrapAdd wrapMul x (negV1 E F x) y t = some r ∧ (p ≤ q → x.datum.Le r.datum) ∧ (q ≤ p → r.datum.Le x.datum) :=
  hA.ord.lerp_side trivial trivial trivial trivial hx (neg_fin (by have := hA.1; omega) hA.2.1 hx) hy hd hv ht hu
    (fun _ e => num_ne_zero e rfl) (fun h => flopoco_exact hA (Or.inl rfl) h)
    (fun h => flopoco_exact hA (flush_value (by have := hA.1; omega) hA.2.1 hx) h)

/-- **C117, the interval.** If the difference `y - x` is exact, every result for `0 ≤ t ≤ 1` is finite and between the end points, and at `t = 1` it is
`y`. -/
theorem C117_lerp_between (hA : AdderFormat E F) (x y d t : Fp E F) (p q u : ℚ) (hx : x.datum.fin = some p) (hy : y.datum.fin = some q)
    (hd : wrapAdd y (negV1 E F x) = some d) (hv : d.datum.fin = some (q - p)) (ht : t.datum.fin = some u) (hu : 0 ≤ u) (hu1 : u ≤ 1) :
    ∃ r v, lerp wrapAdd wrapMul x (negV1 E F x) y t = some r ∧ r.datum.fin = some v ∧ min p q ≤ v ∧ v ≤ max p q ∧ (u = 1 → v = q) :=
  hA.ord.lerp_exact (W := FlushValue F (2 ^ (-bias E)) (2 ^ ((2 : ℤ) ^ E - bias E))) (fun h1 h2 h3 h4 h5 => flopoco_between hA h1 h2 h3 h4 h5)
    (Or.inl rfl) (fun _ h => flush_value (by have := hA.1; omega) hA.2.1 h) trivial trivial trivial trivial hx hy hd hv ht hu hu1

/-- **C117, the other formula.** `(1 - t) * x + t * y` is `x` at `t = 0` and `y` at `t = 1`, for all finite `x` and `y`. -/
theorem C117_blend_ends (hA : AdderFormat E F) (x y o z : Fp E F) (p q : ℚ) (hx : x.datum.fin = some p) (hy : y.datum.fin = some q)
    (ho : o.datum.fin = some 1) (hz : z.datum.fin = some 0) :
    (∃ r, blend wrapAdd wrapMul x y o z = some r ∧ r.datum.fin = some p) ∧ (∃ r, blend wrapAdd wrapMul x y z o = some r ∧ r.datum.fin = some q) :=
  hA.ord.blend_ends (W := FlushValue F (2 ^ (-bias E)) (2 ^ ((2 : ℤ) ^ E - bias E))) (fun h1 h2 h3 h4 h5 => flopoco_between hA h1 h2 h3 h4 h5)
    (Or.inl rfl) (fun _ h => flush_value (by have := hA.1; omega) hA.2.1 h) trivial trivial trivial trivial hx hy ho hz

/-- **C117, the end.** With a rounded difference the first formula misses `y` at `t = 1`, on either side: from `-2^25` to `1` it ends at `0`, and to `3`
it ends at `4`. -/
theorem C117_lerp_end_missed :
    (lerp wrapAdd wrapMul (Fp.mk4 8 23 1 1 152 0) (negV1 8 23 (Fp.mk4 8 23 1 1 152 0)) (Fp.mk4 8 23 1 0 127 0) (Fp.mk4 8 23 1 0 127 0)).map Fp.datum =
      some (.zero false) ∧
    (lerp wrapAdd wrapMul (Fp.mk4 8 23 1 1 152 0) (negV1 8 23 (Fp.mk4 8 23 1 1 152 0)) (Fp.mk4 8 23 1 0 128 (2 ^ 22)) (Fp.mk4 8 23 1 0 127 0)).map
      Fp.datum = some (.num 4) := by decide +kernel

/-- **C117, overflow of the difference.** With an infinite `y - x` the first formula is a NaN at `t = 0`, although both end points are finite. -/
theorem C117_lerp_overflow :
    (lerp wrapAdd wrapMul (Fp.mk4 8 23 1 1 255 0) (negV1 8 23 (Fp.mk4 8 23 1 1 255 0)) (Fp.mk4 8 23 1 0 255 0) (Fp.mk4 8 23 0 0 0 0)).map Fp.datum =
      some .nan := by decide +kernel

/-- **C117, the other formula is not monotone.** Between `x < y` of (8,23) it falls from `x + 2^-23` back to `x` when `t` grows; the weights `1 - t`
are the rounded ones. -/
theorem C117_blend_falls :
    wrapAdd (Fp.mk4 8 23 1 0 127 0) (negV1 8 23 (Fp.mk4 8 23 1 0 125 0x6C0F34)) = some (Fp.mk4 8 23 1 0 126 0x9F866) ∧
    wrapAdd (Fp.mk4 8 23 1 0 127 0) (negV1 8 23 (Fp.mk4 8 23 1 0 125 0x6C0F37)) = some (Fp.mk4 8 23 1 0 126 0x9F864) ∧
    blend wrapAdd wrapMul (Fp.mk4 8 23 1 0 127 0x2A) (Fp.mk4 8 23 1 0 127 0x2C) (Fp.mk4 8 23 1 0 126 0x9F866) (Fp.mk4 8 23 1 0 125 0x6C0F34) =
      some (Fp.mk4 8 23 1 0 127 0x2B) ∧
    blend wrapAdd wrapMul (Fp.mk4 8 23 1 0 127 0x2A) (Fp.mk4 8 23 1 0 127 0x2C) (Fp.mk4 8 23 1 0 126 0x9F864) (Fp.mk4 8 23 1 0 125 0x6C0F37) =
      some (Fp.mk4 8 23 1 0 127 0x2A) := by decide +kernel

/-! ## The host float types -/

theorem soft_between {f : SoftFmt} (ok : f.Ok) {p q x : ℚ} {d : Datum} (hp : GradValue f.E f.F p) (hq : GradValue f.E f.F q) (h1 : p ≤ x) (h2 : x ≤ q)
    (h : RoundedG0 f.E f.F x d) : ∃ k, d.fin = some k ∧ GradValue f.E f.F k ∧ p ≤ k ∧ k ≤ q :=
  (gradual_mid (by have := ok.hF; have := ok.hE; omega)).between hp hq h1 h2 h

theorem soft_zero_value (E F : ℕ) : GradValue E F 0 := ⟨gradNum_zero, by rw [abs_zero]; exact two_zpow_pos _⟩

theorem soft_exact_value {f : SoftFmt} (ok : f.Ok) {p : ℚ} {d : Datum} (hp : GradValue f.E f.F p) (h : RoundedG0 f.E f.F p d) : d.fin = some p := by
  obtain ⟨k, k1, -, k2, k3⟩ := soft_between ok hp hp le_rfl le_rfl h
  rw [k1, le_antisymm k3 k2]

/-- Everything about the first formula for a SoftFloat format. -/
theorem soft_lerp {f : SoftFmt} (ok : f.Ok) {prod : ℕ → ℕ → Option ℕ} (hp : SoftFmt.ProdOk f prod) {a n b d t t' : ℕ} {p q v u u' : ℚ}
    (ha : a < 2 ^ f.W) (hn : n < 2 ^ f.W) (hb : b < 2 ^ f.W) (ht : t < 2 ^ f.W) (ht' : t' < 2 ^ f.W)
    (ea : (wordDatum f.E f.F a).fin = some p) (en : (wordDatum f.E f.F n).fin = some (-p)) (eb : (wordDatum f.E f.F b).fin = some q)
    (hd : f.add b n = some d) (ed : (wordDatum f.E f.F d).fin = some v) (et : (wordDatum f.E f.F t).fin = some u)
    (et' : (wordDatum f.E f.F t').fin = some u') (huu : u ≤ u') :
    ∃ r r', lerp f.add (f.mulWith prod) a n b t = some r ∧ lerp f.add (f.mulWith prod) a n b t' = some r' ∧
      (p ≤ q → (wordDatum f.E f.F r).Le (wordDatum f.E f.F r')) ∧ (q ≤ p → (wordDatum f.E f.F r').Le (wordDatum f.E f.F r)) ∧
      (u = 0 → (wordDatum f.E f.F r).fin = some p) ∧
      (0 ≤ u → p ≤ q → (wordDatum f.E f.F a).Le (wordDatum f.E f.F r)) ∧ (0 ≤ u → q ≤ p → (wordDatum f.E f.F r).Le (wordDatum f.E f.F a)) ∧
      (v = q - p → 0 ≤ u → u ≤ 1 → ∃ w, (wordDatum f.E f.F r).fin = some w ∧ min p q ≤ w ∧ w ≤ max p q ∧ (u = 1 → w = q)) := by
  have hA := soft_ord ok hp
  obtain ⟨r, r', h1, h2, h3, h4⟩ := hA.lerp_le ha hn hb ht ht' ea en eb hd ed et et' huu (fun h => soft_exact_value ok (soft_zero_value _ _) h)
  refine ⟨r, r', h1, h2, h3, h4, ?_, ?_, ?_, ?_⟩
  · intro h0
    obtain ⟨s, s1, s2⟩ := hA.lerp_start ha hn hb ht ea hd ed (by rw [et, h0]) (fun h => soft_exact_value ok (soft_zero_value _ _) h)
      (fun h => soft_exact_value ok (soft_value ok ha ea) h)
    obtain rfl := Option.some.inj (h1.symm.trans s1)
    exact s2
  · intro h0
    obtain ⟨s, s1, s2, -⟩ := hA.lerp_side ha hn hb ht ea en eb hd ed et h0 (fun hw e => SoftFmt.num_word_ne ok hw e rfl)
      (fun h => soft_exact_value ok (soft_zero_value _ _) h) (fun h => soft_exact_value ok (soft_value ok ha ea) h)
    obtain rfl := Option.some.inj (h1.symm.trans s1)
    exact s2
  · intro h0
    obtain ⟨s, s1, -, s2⟩ := hA.lerp_side ha hn hb ht ea en eb hd ed et h0 (fun hw e => SoftFmt.num_word_ne ok hw e rfl)
      (fun h => soft_exact_value ok (soft_zero_value _ _) h) (fun h => soft_exact_value ok (soft_value ok ha ea) h)
    obtain rfl := Option.some.inj (h1.symm.trans s1)
    exact s2
  · intro hv h0 h5
    obtain ⟨s, w, s1, s2⟩ := hA.lerp_exact (W := GradValue f.E f.F) (fun h1 h2 h3 h4 h5 => soft_between ok h1 h2 h3 h4 h5) (soft_zero_value _ _)
      (fun hw h => soft_value ok hw h) ha hn hb ht ea eb hd (by rw [ed, hv]) et h0 h5
    obtain rfl := Option.some.inj (h1.symm.trans s1)
    exact ⟨w, s2⟩

/-- **C117, `float32_t`.** `n` is the word of `-a`, `d` the difference. The result grows with the parameter (falls, if `b` is below `a`), starts at `a`,
stays on its side of `a`, and, if the difference is exact, between `a` and `b` with its end at `b`. Denormals are included. -/
theorem C117_soft_lerp32 {fast a n b d t t' : ℕ} {p q v u u' : ℚ} (hfast : 32 ≤ fast) (ha : a < 2 ^ 32) (hn : n < 2 ^ 32) (hb : b < 2 ^ 32)
    (ht : t < 2 ^ 32) (ht' : t' < 2 ^ 32) (ea : (wordDatum 8 23 a).fin = some p) (en : (wordDatum 8 23 n).fin = some (-p))
    (eb : (wordDatum 8 23 b).fin = some q) (hd : f32Add fast b n = some d) (ed : (wordDatum 8 23 d).fin = some v)
    (et : (wordDatum 8 23 t).fin = some u) (et' : (wordDatum 8 23 t').fin = some u') (huu : u ≤ u') :
    ∃ r r', lerp (f32Add fast) (f32Mul fast) a n b t = some r ∧ lerp (f32Add fast) (f32Mul fast) a n b t' = some r' ∧
      (p ≤ q → (wordDatum 8 23 r).Le (wordDatum 8 23 r')) ∧ (q ≤ p → (wordDatum 8 23 r').Le (wordDatum 8 23 r)) ∧
      (u = 0 → (wordDatum 8 23 r).fin = some p) ∧
      (0 ≤ u → p ≤ q → (wordDatum 8 23 a).Le (wordDatum 8 23 r)) ∧ (0 ≤ u → q ≤ p → (wordDatum 8 23 r).Le (wordDatum 8 23 a)) ∧
      (v = q - p → 0 ≤ u → u ≤ 1 → ∃ w, (wordDatum 8 23 r).fin = some w ∧ min p q ≤ w ∧ w ≤ max p q ∧ (u = 1 → w = q)) :=
  soft_lerp (soft32_ok hfast) (prodOk32 fast) ha hn hb ht ht' ea en eb hd ed et et' huu

/-- **C117, `float64_t`.** -/
theorem C117_soft_lerp64 {fast a n b d t t' : ℕ} {p q v u u' : ℚ} (hfast : 64 ≤ fast) (ha : a < 2 ^ 64) (hn : n < 2 ^ 64) (hb : b < 2 ^ 64)
    (ht : t < 2 ^ 64) (ht' : t' < 2 ^ 64) (ea : (wordDatum 11 52 a).fin = some p) (en : (wordDatum 11 52 n).fin = some (-p))
    (eb : (wordDatum 11 52 b).fin = some q) (hd : f64Add fast b n = some d) (ed : (wordDatum 11 52 d).fin = some v)
    (et : (wordDatum 11 52 t).fin = some u) (et' : (wordDatum 11 52 t').fin = some u') (huu : u ≤ u') :
    ∃ r r', lerp (f64Add fast) (f64Mul fast) a n b t = some r ∧ lerp (f64Add fast) (f64Mul fast) a n b t' = some r' ∧
      (p ≤ q → (wordDatum 11 52 r).Le (wordDatum 11 52 r')) ∧ (q ≤ p → (wordDatum 11 52 r').Le (wordDatum 11 52 r)) ∧
      (u = 0 → (wordDatum 11 52 r).fin = some p) ∧
      (0 ≤ u → p ≤ q → (wordDatum 11 52 a).Le (wordDatum 11 52 r)) ∧ (0 ≤ u → q ≤ p → (wordDatum 11 52 r).Le (wordDatum 11 52 a)) ∧
      (v = q - p → 0 ≤ u → u ≤ 1 → ∃ w, (wordDatum 11 52 r).fin = some w ∧ min p q ≤ w ∧ w ≤ max p q ∧ (u = 1 → w = q)) :=
  soft_lerp (soft64_ok hfast) (prodOk64 fast) ha hn hb ht ht' ea en eb hd ed et et' huu

/-! ## The hypotheses are met -/

/-- From `1` to `2` at `1/4` and `1/2` in (8,23): `5/4` and `3/2`. -/
example : lerp wrapAdd wrapMul (Fp.mk4 8 23 1 0 127 0) (negV1 8 23 (Fp.mk4 8 23 1 0 127 0)) (Fp.mk4 8 23 1 0 128 0) (Fp.mk4 8 23 1 0 125 0) =
      some (Fp.mk4 8 23 1 0 127 (2 ^ 21)) ∧
    lerp wrapAdd wrapMul (Fp.mk4 8 23 1 0 127 0) (negV1 8 23 (Fp.mk4 8 23 1 0 127 0)) (Fp.mk4 8 23 1 0 128 0) (Fp.mk4 8 23 1 0 126 0) =
      some (Fp.mk4 8 23 1 0 127 (2 ^ 22)) := by decide +kernel

/-- All hypotheses together, for `1`, `2` and the parameter `1/4`. -/
example : ∃ r v, lerp wrapAdd wrapMul (Fp.mk4 8 23 1 0 127 0) (negV1 8 23 (Fp.mk4 8 23 1 0 127 0)) (Fp.mk4 8 23 1 0 128 0) (Fp.mk4 8 23 1 0 125 0) =
      some r ∧ r.datum.fin = some v ∧ min 1 2 ≤ v ∧ v ≤ max 1 2 ∧ ((1 / 4 : ℚ) = 1 → v = 2) := by
  refine C117_lerp_between ⟨by decide, by decide, dual_8_23', by decide⟩ _ _ (Fp.mk4 8 23 1 0 127 0) _ 1 2 (1 / 4) ?_ ?_ (by decide +kernel) ?_ ?_
    (by norm_num) (by norm_num)
  all_goals
    rw [mk4_num (by decide) (by decide) (by decide) (by decide)]
    norm_num [bias, Datum.fin]

/-- The same for `float32_t`, with the least denormal as the parameter's companion: at `2^-149` the result is still `1`. -/
example : lerp (f32Add 32) (f32Mul 32) 0x3F800000 0xBF800000 0x40000000 0x3E800000 = some 0x3FA00000 ∧
    lerp (f32Add 32) (f32Mul 32) 0x3F800000 0xBF800000 0x40000000 1 = some 0x3F800000 := by decide +kernel

/-- All hypotheses of `C117_soft_lerp32` together, for `1`, `2` and the parameters `1/4`, `1/2`. -/
example : ∃ r r', lerp (f32Add 32) (f32Mul 32) 0x3F800000 0xBF800000 0x40000000 0x3E800000 = some r ∧
    lerp (f32Add 32) (f32Mul 32) 0x3F800000 0xBF800000 0x40000000 0x3F000000 = some r' ∧ (wordDatum 8 23 r).Le (wordDatum 8 23 r') := by
  obtain ⟨r, r', h1, h2, h3, -⟩ := C117_soft_lerp32 (fast := 32) (a := 0x3F800000) (n := 0xBF800000) (b := 0x40000000) (d := 0x3F800000)
    (t := 0x3E800000) (t' := 0x3F000000) (p := 1) (q := 2) (v := 1) (u := 1 / 4) (u' := 1 / 2) le_rfl (by decide) (by decide) (by decide) (by decide)
    (by decide) (by decide +kernel) (by decide +kernel) (by decide +kernel) (by decide +kernel) (by decide +kernel) (by decide +kernel)
    (by decide +kernel) (by norm_num)
  exact ⟨r, r', h1, h2, h3 (by norm_num)⟩

end Thls
