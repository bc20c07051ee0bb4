import Verif.Props.Loops
import Mathlib.Algebra.BigOperators.Fin

/-! # C58: the benchmark kernels -/

namespace Thls

open Spec

/-- One addition node of a tree: relative errors compose. -/
theorem Adder.node {E F : ℕ} {u : ℚ} {add : Fp E F → Fp E F → Option (Fp E F)} (h : Adder E F u add) (hu : 0 ≤ u)
    {x y r : Fp E F} {p p' t t' A A' α β : ℚ} (hx : x.datum.fin = some p) (hy : y.datum.fin = some p') (hr : add x y = some r)
    (h1 : |p - t| ≤ α * A + β) (h2 : |p' - t'| ≤ α * A' + β) (hA : |t| ≤ A) (hA' : |t'| ≤ A') :
    (∀ s, r.datum.fin = some s → |s - (t + t')| ≤ ((1 + u) * (1 + α) - 1) * (A + A') + ((1 + u) * (2 * β) + minPos E)) ∧
    ((1 + α) * (A + A') + 2 * β ≤ maxFin E F → ∃ s, r.datum.fin = some s) := by
  have a2 : |p + p'| ≤ |t| + |t'| + (|p - t| + |p' - t'|) := by
    calc |p + p'| = |(t + t') + ((p - t) + (p' - t'))| := by congr 1; ring
      _ ≤ _ := le_trans (abs_add_le _ _) (by linarith [abs_add_le (p - t) (p' - t'), abs_add_le t t'])
  constructor
  · intro s hs
    have he := h.err _ _ _ _ _ _ hx hy hr hs
    have a1 : |s - (t + t')| ≤ |s - (p + p')| + (|p - t| + |p' - t'|) := by
      calc |s - (t + t')| = |(s - (p + p')) + ((p - t) + (p' - t'))| := by congr 1; ring
        _ ≤ _ := le_trans (abs_add_le _ _) (by linarith [abs_add_le (p - t) (p' - t')])
    have a3 : u * |p + p'| ≤ u * (A + A' + (α * A + β + (α * A' + β))) := mul_le_mul_of_nonneg_left (by linarith) hu
    linarith
  · intro hb
    exact h.finite _ _ _ _ _ hx hy hr (by linarith)

/-- One product of the round traits, promoted to the accumulator format. -/
theorem round_product {AE AF LE LF RE RF : ℕ} (hLE : 1 ≤ LE) (hLF : 1 ≤ LF) (hRE : 1 ≤ RE) (hRF : 1 ≤ RF) (hL : LE ≤ AE) (hR : RE ≤ AE)
    (hE : 2 ≤ AE) (hF : max LF RF ≤ AF) (x : Fp LE LF) (y : Fp RE RF) {a b : ℚ} (hx : x.datum.fin = some a) (hy : y.datum.fin = some b) :
    ∃ p, mulV1 AE (max LF RF) (promote AE LF x) (promote AE RF y) = some p ∧
      (∀ s, (promote AE AF p).datum.fin = some s → |s - a * b| ≤ uro (max LF RF) * |a * b| + minPos AE) ∧
      (|a * b| ≤ maxFin AE (max LF RF) → ∃ s, (promote AE AF p).datum.fin = some s) := by
  obtain ⟨p, hp⟩ := mulV1_total (wFR := max LF RF) (promote AE LF x) (promote AE RF y)
  have hm := mul_fin hE (by omega) hLF hRF (by omega) (promote AE LF x) (promote AE RF y) (a := a) (b := b)
    (by rw [promote_datum hLE hLF hL le_rfl]; exact hx) (by rw [promote_datum hRE hRF hR le_rfl]; exact hy) hp
  have hd : (promote AE AF p).datum = p.datum := promote_datum (by omega) (by omega) le_rfl hF p
  refine ⟨p, hp, ?_⟩
  rw [hd]
  exact ⟨fun s hs => rounded0_err hm hs, fun hb => rounded0_finite (by omega) hm hb⟩

theorem maxFin_mono {E F G : ℕ} (h : F ≤ G) : maxFin E F ≤ maxFin E G := by
  have hp : ∀ F : ℕ, maxFin E F = 2 ^ (bias E + 2) - 2 ^ (bias E + 1 - F) := by
    intro F
    unfold maxFin
    have : 1 ≤ 2 ^ (F + 1) := Nat.one_le_two_pow
    rw [Nat.cast_sub this]
    push_cast
    rw [sub_mul, one_mul, ← zpow_natCast, ← zpow_add₀ (by norm_num)]
    congr 2
    push_cast; ring
  rw [hp, hp]
  have : (2 : ℚ) ^ (bias E + 1 - G) ≤ 2 ^ (bias E + 1 - F) := zpow_le_zpow_right₀ (by norm_num) (by omega)
  linarith

theorem roundDot2_spec {AE AF LE LF RE RF : ℕ} (hLE : 1 ≤ LE) (hLF : 1 ≤ LF) (hRE : 1 ≤ RE) (hRF : 1 ≤ RF) (hL : LE ≤ AE) (hR : RE ≤ AE)
    (hE : 2 ≤ AE) (hF : max LF RF ≤ AF) (h1 : AF + 3 < 2 ^ AE) (h2 : AF + 3 ≠ 2 ^ (AE - 1)) (p0 p1 : Fp LE LF × Fp RE RF)
    {a0 b0 a1 b1 : ℚ} (hx0 : p0.1.datum.fin = some a0) (hy0 : p0.2.datum.fin = some b0) (hx1 : p1.1.datum.fin = some a1)
    (hy1 : p1.2.datum.fin = some b1) :
    ∃ r, roundDot2 AE AF p0 p1 = some r ∧
      (∀ s, r.datum.fin = some s → |s - (a0 * b0 + a1 * b1)| ≤
        ((1 + 2 * uro AF) * (1 + uro (max LF RF)) - 1) * (|a0 * b0| + |a1 * b1|) + ((1 + 2 * uro AF) * (2 * minPos AE) + minPos AE)) ∧
      (|a0 * b0| ≤ maxFin AE (max LF RF) → |a1 * b1| ≤ maxFin AE (max LF RF) →
        (1 + uro (max LF RF)) * (|a0 * b0| + |a1 * b1|) + 2 * minPos AE ≤ maxFin AE AF → ∃ s, r.datum.fin = some s) := by
  have hA := single_adder hE (by omega) h1 h2
  have hu := uro_pos AF
  obtain ⟨z0, hz0, e0, f0⟩ := round_product hLE hLF hRE hRF hL hR hE hF p0.1 p0.2 hx0 hy0
  obtain ⟨z1, hz1, e1, f1⟩ := round_product hLE hLF hRE hRF hL hR hE hF p1.1 p1.2 hx1 hy1
  obtain ⟨r, hr⟩ := hA.total (promote AE AF z0) (promote AE AF z1)
  refine ⟨r, by rw [roundDot2, hz0, Option.bind_some, hz1, Option.bind_some, hr], ?_, ?_⟩
  · intro s hs
    rcases q0 : (promote AE AF z0).datum.fin with _ | s0
    · rw [hA.sticky _ _ _ hr (Or.inl q0)] at hs; cases hs
    rcases q1 : (promote AE AF z1).datum.fin with _ | s1
    · rw [hA.sticky _ _ _ hr (Or.inr q1)] at hs; cases hs
    exact (hA.node (by linarith) q0 q1 hr (e0 _ q0) (e1 _ q1) le_rfl le_rfl).1 s hs
  · intro g0 g1 hb
    obtain ⟨s0, q0⟩ := f0 g0
    obtain ⟨s1, q1⟩ := f1 g1
    exact (hA.node (by linarith) q0 q1 hr (e0 _ q0) (e1 _ q1) le_rfl le_rfl).2 hb

/-- **C58.** `dot_product_par4` with the "round" traits (narrow factors widened to the accumulator's exponent, products rounded
to the wider of the factors' fractions, sums in the accumulator format), for all finite factors: it never violates a precondition; a
finite result differs from the exact dot product by at most `((1+v)^2 (1+w) - 1) * Σ|a_i b_i| + 13 minPos`, where `w` is the unit
roundoff of the product and `v` twice that of the accumulator (the single-path adder is not correctly rounded, C15); and it is finite
when `(1+v) (1+w) Σ|a_i b_i| + 13 minPos` is at most the largest finite number having the product's fraction width. -/
theorem C58_par4_round_error {AE AF LE LF RE RF : ℕ} (hLE : 1 ≤ LE) (hLF : 1 ≤ LF) (hRE : 1 ≤ RE) (hRF : 1 ≤ RF) (hL : LE ≤ AE)
    (hR : RE ≤ AE) (hE : 2 ≤ AE) (hF : max LF RF ≤ AF) (h1 : AF + 3 < 2 ^ AE) (h2 : AF + 3 ≠ 2 ^ (AE - 1))
    (p : Fin 4 → Fp LE LF × Fp RE RF) (a b : Fin 4 → ℚ) (hx : ∀ i, (p i).1.datum.fin = some (a i))
    (hy : ∀ i, (p i).2.datum.fin = some (b i)) :
    ∃ r, roundPar4 AE AF (p 0) (p 1) (p 2) (p 3) = some r ∧
      (∀ s, r.datum.fin = some s → |s - ∑ i, a i * b i| ≤
        ((1 + 2 * uro AF) ^ 2 * (1 + uro (max LF RF)) - 1) * (∑ i, |a i * b i|) + 13 * minPos AE) ∧
      ((1 + 2 * uro AF) * (1 + uro (max LF RF)) * (∑ i, |a i * b i|) + 13 * minPos AE ≤ maxFin AE (max LF RF) →
        ∃ s, r.datum.fin = some s) := by
  have hA := single_adder hE (by omega) h1 h2
  have hu := uro_pos AF
  have hw := uro_pos (max LF RF)
  have hmp : 0 < minPos AE := two_zpow_pos _
  have hu4 : uro AF ≤ 1 / 4 := by
    have : (2 : ℚ) ^ (-(AF : ℤ) - 1) ≤ 2 ^ (-2 : ℤ) := zpow_le_zpow_right₀ (by norm_num) (by omega)
    unfold uro
    norm_num at this ⊢
    exact this
  have hmax := maxFin_mono (E := AE) hF
  obtain ⟨r0, hr0, e0, f0⟩ := roundDot2_spec hLE hLF hRE hRF hL hR hE hF h1 h2 (p 0) (p 1) (hx 0) (hy 0) (hx 1) (hy 1)
  obtain ⟨r1, hr1, e1, f1⟩ := roundDot2_spec hLE hLF hRE hRF hL hR hE hF h1 h2 (p 2) (p 3) (hx 2) (hy 2) (hx 3) (hy 3)
  obtain ⟨r, hr⟩ := hA.total r0 r1
  have s1 : ∑ i, a i * b i = (a 0 * b 0 + a 1 * b 1) + (a 2 * b 2 + a 3 * b 3) := by rw [Fin.sum_univ_four]; ring
  have s2 : ∑ i, |a i * b i| = (|a 0 * b 0| + |a 1 * b 1|) + (|a 2 * b 2| + |a 3 * b 3|) := by rw [Fin.sum_univ_four]; ring
  have k0 := abs_nonneg (a 0 * b 0)
  have k1 := abs_nonneg (a 1 * b 1)
  have k2 := abs_nonneg (a 2 * b 2)
  have k3 := abs_nonneg (a 3 * b 3)
  rw [s1, s2]
  refine ⟨r, by rw [roundPar4, hr0, Option.bind_some, hr1, Option.bind_some, hr], ?_, ?_⟩
  · intro s hs
    rcases q0 : r0.datum.fin with _ | t0
    · rw [hA.sticky _ _ _ hr (Or.inl q0)] at hs; cases hs
    rcases q1 : r1.datum.fin with _ | t1
    · rw [hA.sticky _ _ _ hr (Or.inr q1)] at hs; cases hs
    have := (hA.node (by linarith) q0 q1 hr (e0 _ q0) (e1 _ q1) (abs_add_le _ _) (abs_add_le _ _)).1 s hs
    have hc : (1 + 2 * uro AF) * (2 * ((1 + 2 * uro AF) * (2 * minPos AE) + minPos AE)) + minPos AE ≤ 13 * minPos AE := by
      have e : (1 + 2 * uro AF) * (2 * ((1 + 2 * uro AF) * (2 * minPos AE) + minPos AE)) + minPos AE =
        (7 + 20 * uro AF + 16 * uro AF * uro AF) * minPos AE := by ring
      rw [e]
      refine mul_le_mul_of_nonneg_right ?_ hmp.le
      nlinarith
    have e : (1 + 2 * uro AF) * (1 + ((1 + 2 * uro AF) * (1 + uro (max LF RF)) - 1)) = (1 + 2 * uro AF) ^ 2 * (1 + uro (max LF RF)) := by
      ring
    rw [e] at this
    linarith
  · intro hb
    generalize hS : |a 0 * b 0| + |a 1 * b 1| + (|a 2 * b 2| + |a 3 * b 3|) = S at hb
    have hS0 : 0 ≤ S := by linarith
    have hwS : 0 ≤ uro (max LF RF) * S := mul_nonneg hw.le hS0
    have huS : 0 ≤ 2 * uro AF * ((1 + uro (max LF RF)) * S) := by positivity
    have m0 : uro (max LF RF) * (|a 0 * b 0| + |a 1 * b 1|) ≤ uro (max LF RF) * S := mul_le_mul_of_nonneg_left (by linarith) hw.le
    have m1 : uro (max LF RF) * (|a 2 * b 2| + |a 3 * b 3|) ≤ uro (max LF RF) * S := mul_le_mul_of_nonneg_left (by linarith) hw.le
    have hb' : S + uro (max LF RF) * S + 13 * minPos AE ≤ maxFin AE (max LF RF) := by linarith
    obtain ⟨t0, q0⟩ := f0 (by linarith) (by linarith) (by linarith)
    obtain ⟨t1, q1⟩ := f1 (by linarith) (by linarith) (by linarith)
    refine (hA.node (by linarith) q0 q1 hr (e0 _ q0) (e1 _ q1) (abs_add_le _ _) (abs_add_le _ _)).2 ?_
    rw [hS]
    have hc : 2 * ((1 + 2 * uro AF) * (2 * minPos AE) + minPos AE) ≤ 13 * minPos AE := by nlinarith
    have e : (1 + ((1 + 2 * uro AF) * (1 + uro (max LF RF)) - 1)) * S = (1 + 2 * uro AF) * (1 + uro (max LF RF)) * S := by ring
    rw [e]
    linarith

/-- **C58, where it fails.** The "full" traits multiply directly into the accumulator's format. Whenever the accumulator has
more exponent bits than the factors, as in every mixed configuration of the benchmark, all three kernels violate a
precondition on every input; so does `add_mul`, hence `mat_mul` on any non-empty matrix, with either traits. -/
theorem C58_wider_accumulator_asserts {AE AF E LF RF : ℕ} (h : E < AE) (p0 p1 p2 p3 : Fp E LF × Fp E RF) (acc : Fp AE AF) {n : ℕ}
    (left : Fin (n + 1) → Fin (n + 1) → Fp E LF) (right : Fin (n + 1) → Fin (n + 1) → Fp E RF) (r c : Fin (n + 1)) :
    fullAddMul acc p0.1 p0.2 = none ∧ fullDot2 AE AF p0 p1 = none ∧ fullPar4 AE AF p0 p1 p2 p3 = none ∧
    roundAddMul acc p0.1 p0.2 = none ∧
    matMulEntry (AE := AE) (AF := AF) fullAddMul left right r c = none ∧
    matMulEntry (AE := AE) (AF := AF) roundAddMul left right r c = none := by
  have hm : ∀ (FR : ℕ) (x : Fp E LF) (y : Fp E RF), mulV1 AE FR x y = none := fun FR x y => C11_mul_wider_exponent_asserts h x y
  have hf : ∀ (acc : Fp AE AF) (x : Fp E LF) (y : Fp E RF), fullAddMul acc x y = none := by
    intro acc x y; rw [fullAddMul, hm]; rfl
  have hr : ∀ (acc : Fp AE AF) (x : Fp E LF) (y : Fp E RF), roundAddMul acc x y = none := by
    intro acc x y; rw [roundAddMul, hm]; rfl
  have hd : ∀ p0 p1 : Fp E LF × Fp E RF, fullDot2 AE AF p0 p1 = none := by
    intro p0 p1; rw [fullDot2, hm]; rfl
  refine ⟨hf _ _ _, hd _ _, ?_, hr _ _ _, ?_, ?_⟩
  · rw [fullPar4, hd]; rfl
  · rw [matMulEntry, List.finRange_succ, List.foldlM_cons, hf]; rfl
  · rw [matMulEntry, List.finRange_succ, List.foldlM_cons, hr]; rfl

/-- A loop of multiply-accumulate steps whose products are rounded to `FR` fraction bits and widened to the accumulator. -/
theorem mac_loop {α : Type} {AE AF FR FX FY : ℕ} {u : ℚ} {add : Fp AE AF → Fp AE AF → Option (Fp AE AF)} (hA : Adder AE AF u add)
    (hu : 0 < u) (hu1 : u ≤ 1 / 2)
    (hE : 2 ≤ AE) (hR : 1 ≤ FR) (hX : 1 ≤ FX) (hY : 1 ≤ FY) (hpath : FR ≤ FX + FY) (hFR : FR ≤ AF) (l : List α) (x : α → Fp AE FX)
    (y : α → Fp AE FY) (g : Fp AE FR → Fp AE AF) (hg : ∀ p, (g p).datum = p.datum) (a b : α → ℚ)
    (hx : ∀ i, (x i).datum.fin = some (a i)) (hy : ∀ i, (y i).datum.fin = some (b i)) :
    ∃ r, l.foldlM (fun acc i => ((mulV1 AE FR (x i) (y i)).map g).bind (add acc)) (Fp.default AE AF) = some r ∧
      (∀ s, r.datum.fin = some s → |s - (l.map fun i => a i * b i).sum| ≤
        ((1 + u) ^ (l.length - 1) * (1 + uro FR) - 1) * (l.map fun i => |a i * b i|).sum +
          4 * (1 + u) ^ (l.length - 1) * (minPos AE / u)) ∧
      ((1 + u) ^ (l.length - 1) * ((1 + uro FR) * (l.map fun i => |a i * b i|).sum + 4 * (minPos AE / u)) ≤ maxFin AE FR →
        ∃ s, r.datum.fin = some s) := by
  have hw := uro_pos FR
  have hmp : 0 < minPos AE := two_zpow_pos _
  have hc : 0 < minPos AE / u := by positivity
  have hmc : minPos AE = u * (minPos AE / u) := by field_simp
  obtain ⟨ps, hps, hfold⟩ := foldlM_terms (f := fun i => (mulV1 AE FR (x i) (y i)).map g) (add := add)
    (fun i => by obtain ⟨z, hz⟩ := mulV1_total (wFR := FR) (x i) (y i); exact ⟨g z, by rw [hz]; rfl⟩) l
  obtain ⟨r, hr⟩ := hA.fold_total ps (Fp.default AE AF)
  have hlen := hps.length_eq
  have hv : List.Forall₂ (fun i (v : ℚ × ℚ) => (x i).datum.fin = some v.1 ∧ (y i).datum.fin = some v.2) l (l.map fun i => (a i, b i)) := by
    rw [List.forall₂_map_right_iff, List.forall₂_same]
    exact fun i _ => ⟨hx i, hy i⟩
  obtain ⟨g1, g2⟩ := products_approx hE hR hX hY hpath x y g hg hv hps
  have hmul : ((l.map fun i => (a i, b i)).map fun v : ℚ × ℚ => v.1 * v.2) = l.map fun i => a i * b i := by
    rw [List.map_map]; rfl
  rw [hmul] at g1
  have habs : ((l.map fun i => a i * b i).map abs).sum = (l.map fun i => |a i * b i|).sum := by
    rw [List.map_map]; rfl
  have key : (∀ z ∈ ps, z.datum.fin ≠ none) → _ := fun hf =>
    hA.loop (w := uro FR) (δ := minPos AE) (γ := (2 + u) * (minPos AE / u)) hu.le hw.le hmp.le
      (by have := mul_pos hu hc; linarith) (by field_simp; ring) (g1 hf) default_fin hr
  rw [habs, ← hlen] at key
  have hP : (1 : ℚ) ≤ (1 + u) ^ (l.length - 1) := one_le_pow₀ (by linarith)
  generalize (1 + u) ^ (l.length - 1) = P at *
  generalize hS : (l.map fun i => |a i * b i|).sum = S at *
  have hS0 : 0 ≤ S := by
    rw [← hS]
    refine List.sum_nonneg fun z hz => ?_
    obtain ⟨w, -, rfl⟩ := List.mem_map.mp hz
    exact abs_nonneg _
  have hcc : minPos AE + (2 + u) * (minPos AE / u) ≤ 4 * (minPos AE / u) := by
    have : u * (minPos AE / u) ≤ 1 / 2 * (minPos AE / u) := mul_le_mul_of_nonneg_right hu1 hc.le
    linarith
  have hPc : P * (minPos AE + (2 + u) * (minPos AE / u)) ≤ P * (4 * (minPos AE / u)) :=
    mul_le_mul_of_nonneg_left hcc (by linarith)
  refine ⟨r, by rw [hfold, hr], ?_, ?_⟩
  · intro s hs
    have hf : ∀ z ∈ ps, z.datum.fin ≠ none := by
      intro z hz hcc
      have := hA.fold_sticky hr (Or.inr ⟨z, hz, hcc⟩)
      rw [this] at hs; cases hs
    have h1 := (key hf).1 s hs
    have h2 : 0 ≤ (2 + u) * (minPos AE / u) := by positivity
    linarith
  · intro hb
    have hbase : S ≤ maxFin AE FR := by
      have e1 : 1 * ((1 + uro FR) * S + 4 * (minPos AE / u)) ≤ P * ((1 + uro FR) * S + 4 * (minPos AE / u)) :=
        mul_le_mul_of_nonneg_right hP (by positivity)
      have e2 : 0 ≤ uro FR * S := by positivity
      linarith
    have hf := g2 fun v hv => by
      obtain ⟨i, hi, rfl⟩ := List.mem_map.mp hv
      have := abs_le_sum (l := l.map fun i => a i * b i) (List.mem_map.mpr ⟨i, hi, rfl⟩)
      rw [habs] at this
      exact le_trans this hbase
    refine (key hf).2 ?_
    have := maxFin_mono (E := AE) hFR
    linarith

/-- **C58.** `mat_mul` with the "round" traits, for any matrix size, when the factors have the accumulator's exponent width: every
entry of the product is computed without violating a precondition and, if finite, is within
`((1+v)^(n-1) (1+w) - 1) * Σ|l_i r_i| + 4 (1+v)^(n-1) minPos/v` of the exact entry, `v` twice the accumulator's unit roundoff and `w` the
product's; it is finite when the magnitudes leave room. -/
theorem C58_mat_mul_round_error {AE AF LF RF n : ℕ} (hLF : 1 ≤ LF) (hRF : 1 ≤ RF) (hE : 2 ≤ AE) (hF : max LF RF ≤ AF)
    (h1 : AF + 3 < 2 ^ AE) (h2 : AF + 3 ≠ 2 ^ (AE - 1)) (left : Fin n → Fin n → Fp AE LF) (right : Fin n → Fin n → Fp AE RF)
    (a b : Fin n → Fin n → ℚ) (hx : ∀ r i, (left r i).datum.fin = some (a r i)) (hy : ∀ i c, (right i c).datum.fin = some (b i c))
    (r c : Fin n) :
    ∃ z : Fp AE AF, matMulEntry roundAddMul left right r c = some z ∧
      (∀ s, z.datum.fin = some s → |s - ∑ i, a r i * b i c| ≤
        ((1 + 2 * uro AF) ^ (n - 1) * (1 + uro (max LF RF)) - 1) * (∑ i, |a r i * b i c|) +
          4 * (1 + 2 * uro AF) ^ (n - 1) * (minPos AE / (2 * uro AF))) ∧
      ((1 + 2 * uro AF) ^ (n - 1) * ((1 + uro (max LF RF)) * (∑ i, |a r i * b i c|) + 4 * (minPos AE / (2 * uro AF))) ≤
          maxFin AE (max LF RF) → ∃ s, z.datum.fin = some s) := by
  have hu := uro_pos AF
  have hu4 : uro AF ≤ 1 / 4 := by
    have : (2 : ℚ) ^ (-(AF : ℤ) - 1) ≤ 2 ^ (-2 : ℤ) := zpow_le_zpow_right₀ (by norm_num) (by omega)
    unfold uro
    norm_num at this ⊢
    exact this
  have := mac_loop (single_adder hE (by omega) h1 h2) (by linarith) (by linarith) hE (FR := max LF RF) (by omega) hLF hRF (by omega) hF
    (List.finRange n) (left r) (fun i => right i c) (promote AE AF) (fun p => promote_datum (by omega) (by omega) le_rfl hF p)
    (a r) (fun i => b i c) (hx r) (fun i => hy i c)
  rw [List.length_finRange, ← Fin.sum_univ_def, ← Fin.sum_univ_def] at this
  obtain ⟨z, hz, h⟩ := this
  refine ⟨z, ?_, h⟩
  rw [← hz, matMulEntry]
  congr 1
  funext acc i
  rw [roundAddMul, Option.bind_map]; rfl

/-- **C58.** `mat_mul` with the "full" traits, when the factors have the accumulator's exponent width and the accumulator's fraction is
no wider than a product (so that products are rounded, not exact): as for the round traits with the dual-path adder's roundoff. -/
theorem C58_mat_mul_full_error_partial {AE AF LF RF n : ℕ} (hLF : 1 ≤ LF) (hRF : 1 ≤ RF) (hE : 3 < AE) (hF : 1 ≤ AF) (hpath : AF ≤ LF + RF)
    (hok : DualFormat AE AF) (hfmt : AF ≤ 2 ^ (AE + 1)) (left : Fin n → Fin n → Fp AE LF) (right : Fin n → Fin n → Fp AE RF)
    (a b : Fin n → Fin n → ℚ) (hx : ∀ r i, (left r i).datum.fin = some (a r i)) (hy : ∀ i c, (right i c).datum.fin = some (b i c))
    (r c : Fin n) :
    ∃ z : Fp AE AF, matMulEntry fullAddMul left right r c = some z ∧
      (∀ s, z.datum.fin = some s → |s - ∑ i, a r i * b i c| ≤
        ((1 + uro AF) ^ (n - 1) * (1 + uro AF) - 1) * (∑ i, |a r i * b i c|) + 4 * (1 + uro AF) ^ (n - 1) * (minPos AE / uro AF)) ∧
      ((1 + uro AF) ^ (n - 1) * ((1 + uro AF) * (∑ i, |a r i * b i c|) + 4 * (minPos AE / uro AF)) ≤
          maxFin AE AF → ∃ s, z.datum.fin = some s) := by
  have := mac_loop (dual_adder (by omega) hF hok hfmt) (uro_pos AF) (uro_le AF) (by omega) (FR := AF) hF hLF hRF hpath le_rfl
    (List.finRange n) (left r) (fun i => right i c) id (fun p => rfl) (a r) (fun i => b i c) (hx r) (fun i => hy i c)
  rw [List.length_finRange, ← Fin.sum_univ_def, ← Fin.sum_univ_def] at this
  obtain ⟨z, hz, h⟩ := this
  refine ⟨z, ?_, h⟩
  rw [← hz, matMulEntry]
  congr 1
  funext acc i
  rw [fullAddMul, Option.map_id]; rfl

/-- Non-vacuity: half-precision factors with a single-precision accumulator satisfy the hypotheses of `C58_par4_round_error`, and
`1*1 + 1.5*1.5 + 2*1 + 1*1` is 6.25 there; the full traits assert on the same input. -/
example : (1 ≤ 5 ∧ 5 ≤ 8 ∧ max 10 10 ≤ 23 ∧ 23 + 3 < 2 ^ 8 ∧ 23 + 3 ≠ 2 ^ (8 - 1)) ∧
    roundPar4 8 23 (Fp.mk4 5 10 1 0 15 0, Fp.mk4 5 10 1 0 15 0) (Fp.mk4 5 10 1 0 15 512, Fp.mk4 5 10 1 0 15 512)
      (Fp.mk4 5 10 1 0 16 0, Fp.mk4 5 10 1 0 15 0) (Fp.mk4 5 10 1 0 15 0, Fp.mk4 5 10 1 0 15 0) =
      some (Fp.mk4 8 23 1 0 129 (9 * 2 ^ 19)) ∧
    fullPar4 8 23 (Fp.mk4 5 10 1 0 15 0, Fp.mk4 5 10 1 0 15 0) (Fp.mk4 5 10 1 0 15 512, Fp.mk4 5 10 1 0 15 512)
      (Fp.mk4 5 10 1 0 16 0, Fp.mk4 5 10 1 0 15 0) (Fp.mk4 5 10 1 0 15 0, Fp.mk4 5 10 1 0 15 0) = none := by
  refine ⟨by decide, by decide +kernel, by decide +kernel⟩

end Thls
