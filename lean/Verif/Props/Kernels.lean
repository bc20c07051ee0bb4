import Verif.Model.Kernels
import Verif.Props.Heap
import Verif.Props.FwUint
import Verif.Props.Bench

/-! # Properties C69, C70: the adder and array kernels -/

namespace Thls

open Spec

/-! ## C69: multi-operand adders -/

theorem merge_ofUint {n : ℕ} {a b : Heap} {s t : ℕ} (ha : a.WF ∧ a.columns.length = n + 1 ∧ heapSum a.columns = s)
    (hb : b.WF ∧ b.columns.length = n + 1 ∧ heapSum b.columns = t) :
    ∃ m, Heap.merge a b = some m ∧ m.WF ∧ m.columns.length = n + 1 ∧ heapSum m.columns = s + t := by
  obtain ⟨m, h1, h2, h3, h4⟩ := C35_merge ha.1 hb.1
  exact ⟨m, h1, h2, by rw [h3, ha.2.1, hb.2.1, max_self], by rw [h4, ha.2.2, hb.2.2]⟩

theorem ofUint_props {n x : ℕ} (hx : x < 2 ^ (n + 1)) : (Heap.ofUint n x).WF ∧ (Heap.ofUint n x).columns.length = n + 1 ∧
    heapSum (Heap.ofUint n x).columns = x :=
  ⟨Heap.ofUint_wf hx, by rw [Heap.columns_length, Heap.ofUint_width], Heap.ofUint_sum hx⟩

/-- **C69.** The four-operand adders built from a bit heap and from a row heap return the sum of the operands modulo `2^W`, whatever
the width `W = n + 1`. -/
theorem C69_add4 {n x0 x1 x2 x3 : ℕ} (h0 : x0 < 2 ^ (n + 1)) (h1 : x1 < 2 ^ (n + 1)) (h2 : x2 < 2 ^ (n + 1)) (h3 : x3 < 2 ^ (n + 1)) :
    Kernel.add4Compressor n x0 x1 x2 x3 = some ((x0 + x1 + x2 + x3) % 2 ^ (n + 1)) ∧
    Kernel.add4RowHeap n x0 x1 x2 x3 = some ((x0 + x1 + x2 + x3) % 2 ^ (n + 1)) := by
  constructor
  · obtain ⟨a, ha, pa⟩ := merge_ofUint (ofUint_props h0) (ofUint_props h1)
    obtain ⟨b, hb, pb⟩ := merge_ofUint (ofUint_props h2) (ofUint_props h3)
    obtain ⟨c, hc, pc⟩ := merge_ofUint pa pb
    unfold Kernel.add4Compressor
    rw [ha, hb]
    simp only [Option.bind_eq_bind, Option.bind_some, hc]
    rw [C35_collapse pc.1, pc.2.1, pc.2.2, Nat.add_assoc (x0 + x1)]
  · obtain ⟨-, out, e, -, -, hs⟩ := C38_compress (w := n + 1) (by omega) (rows := [x0, x1, x2, x3]) (by simp)
      (by simpa using ⟨h0, h1, h2, h3⟩)
    show (Rows.compress (n + 1) [x0, x1, x2, x3]).bind (fun l => Rows.collapse (n + 1) l) = _
    rw [e]
    refine hs.trans ?_
    simp [Nat.add_assoc]

/-- **C69.** The eight-operand adders: bit heap, row heap and plain additions. -/
theorem C69_add8 {n x0 x1 x2 x3 x4 x5 x6 x7 : ℕ} (h0 : x0 < 2 ^ (n + 1)) (h1 : x1 < 2 ^ (n + 1)) (h2 : x2 < 2 ^ (n + 1))
    (h3 : x3 < 2 ^ (n + 1)) (h4 : x4 < 2 ^ (n + 1)) (h5 : x5 < 2 ^ (n + 1)) (h6 : x6 < 2 ^ (n + 1)) (h7 : x7 < 2 ^ (n + 1)) :
    Kernel.add8Compressor n x0 x1 x2 x3 x4 x5 x6 x7 = some ((x0 + x1 + x2 + x3 + x4 + x5 + x6 + x7) % 2 ^ (n + 1)) ∧
    Kernel.add8RowHeap n x0 x1 x2 x3 x4 x5 x6 x7 = some ((x0 + x1 + x2 + x3 + x4 + x5 + x6 + x7) % 2 ^ (n + 1)) ∧
    (n + 1 ≤ 128 →
      Kernel.add8 n x0 x1 x2 x3 x4 x5 x6 x7 = some ((x0 + x1 + x2 + x3 + x4 + x5 + x6 + x7) % 2 ^ (n + 1))) := by
  refine ⟨?_, ?_, fun hn => ?_⟩
  · obtain ⟨a, ha, pa⟩ := merge_ofUint (ofUint_props h0) (ofUint_props h1)
    obtain ⟨b, hb, pb⟩ := merge_ofUint (ofUint_props h2) (ofUint_props h3)
    obtain ⟨c, hc, pc⟩ := merge_ofUint (ofUint_props h4) (ofUint_props h5)
    obtain ⟨d, hd, pd⟩ := merge_ofUint (ofUint_props h6) (ofUint_props h7)
    obtain ⟨e, he, pe⟩ := merge_ofUint pa pb
    obtain ⟨f, hf, pf⟩ := merge_ofUint pc pd
    obtain ⟨g, hg, pg⟩ := merge_ofUint pe pf
    unfold Kernel.add8Compressor
    rw [ha, hb, hc, hd]
    simp only [Option.bind_eq_bind, Option.bind_some, he, hf, hg]
    rw [C35_collapse pg.1, pg.2.1, pg.2.2]
    congr 2
    omega
  · obtain ⟨-, out, e, -, -, hs⟩ := C38_compress (w := n + 1) (by omega) (rows := [x0, x1, x2, x3, x4, x5, x6, x7]) (by simp)
      (by simpa using ⟨h0, h1, h2, h3, h4, h5, h6, h7⟩)
    show (Rows.compress (n + 1) [x0, x1, x2, x3, x4, x5, x6, x7]).bind (fun l => Rows.collapse (n + 1) l) = _
    rw [e]
    refine hs.trans ?_
    simp [Nat.add_assoc]
  · unfold Kernel.add8
    have k : ∀ s y : ℕ, Masked.add (n + 1) (s % 2 ^ (n + 1)) y = some ((s + y) % 2 ^ (n + 1)) := fun s y => by
      rw [C01_add hn, Nat.mod_add_mod]
    rw [C01_add hn]
    simp only [Option.bind_eq_bind, Option.bind_some, k]

/-- Hence the kernels are interchangeable, at the widths of the code. -/
theorem C69_kernels_agree {x0 x1 x2 x3 x4 x5 x6 x7 : ℕ} :
    (x0 < 2 ^ 32 → x1 < 2 ^ 32 → x2 < 2 ^ 32 → x3 < 2 ^ 32 → x4 < 2 ^ 32 → x5 < 2 ^ 32 → x6 < 2 ^ 32 → x7 < 2 ^ 32 →
      Kernel.add8Compressor 31 x0 x1 x2 x3 x4 x5 x6 x7 = Kernel.add8 31 x0 x1 x2 x3 x4 x5 x6 x7 ∧
      Kernel.add8RowHeap 31 x0 x1 x2 x3 x4 x5 x6 x7 = Kernel.add8 31 x0 x1 x2 x3 x4 x5 x6 x7) ∧
    (x0 < 2 ^ 64 → x1 < 2 ^ 64 → x2 < 2 ^ 64 → x3 < 2 ^ 64 → x4 < 2 ^ 64 → x5 < 2 ^ 64 → x6 < 2 ^ 64 → x7 < 2 ^ 64 →
      Kernel.add8Compressor 63 x0 x1 x2 x3 x4 x5 x6 x7 = Kernel.add8 63 x0 x1 x2 x3 x4 x5 x6 x7) := by
  constructor
  · intro h0 h1 h2 h3 h4 h5 h6 h7
    obtain ⟨a, b, c⟩ := C69_add8 (n := 31) h0 h1 h2 h3 h4 h5 h6 h7
    rw [a, b, c (by norm_num)]
    exact ⟨rfl, rfl⟩
  · intro h0 h1 h2 h3 h4 h5 h6 h7
    obtain ⟨a, -, c⟩ := C69_add8 (n := 63) h0 h1 h2 h3 h4 h5 h6 h7
    rw [a, c (by norm_num)]

/-- The sum wraps: eight times the largest number. -/
example : Kernel.add8 31 (2 ^ 32 - 1) (2 ^ 32 - 1) (2 ^ 32 - 1) (2 ^ 32 - 1) (2 ^ 32 - 1) (2 ^ 32 - 1) (2 ^ 32 - 1) (2 ^ 32 - 1) =
    some (2 ^ 32 - 8) := by
  have h : (2 ^ 32 - 1 : ℕ) < 2 ^ (31 + 1) := by norm_num
  exact ((C69_add8 h h h h h h h h).2.2 (by norm_num)).trans (by norm_num)

/-! ## C70: array kernels -/

theorem foldlM_range_succ {α β : Type} (f : α → ℕ → Option α) (n : ℕ) (init : α) :
    (List.range (n + 1)).foldlM f init = ((List.range n).foldlM f init).bind (fun acc => f acc n) := by
  rw [List.range_succ, List.foldlM_append]
  simp

/-- **C70.** The array sum and dot product add (the products of) the elements in order of the index, whatever the number type. -/
theorem C70_in_order {T : Type} (add mul : T → T → Option T) (init : T) (x a b : ℕ → T) (n : ℕ) :
    Kernel.sumArray add init x n = ((List.range n).map x).foldlM add init ∧
    Kernel.dotProduct add mul init a b n =
      (List.range n).foldlM (fun acc i => (mul (a i) (b i)).bind (add acc)) init := by
  constructor
  · rw [List.foldlM_map]
    induction n with
    | zero => rfl
    | succ n ih => rw [foldlM_range_succ (β := T), ← ih]; rfl
  · induction n with
    | zero => rfl
    | succ n ih => rw [foldlM_range_succ (β := T), ← ih]; rfl

/-- **C70.** Unrolling the dot product by two changes nothing, bit for bit, whatever the number type. -/
theorem C70_dot_unrolled {T : Type} (add mul : T → T → Option T) (init : T) (a b : ℕ → T) (m : ℕ) :
    Kernel.dotProductU2 add mul init a b m = Kernel.dotProduct add mul init a b (2 * m) := by
  induction m with
  | zero => rfl
  | succ m ih =>
    rw [Kernel.dotProductU2, ih, show 2 * (m + 1) = 2 * m + 1 + 1 by ring, Kernel.dotProduct, Kernel.dotProduct]
    cases Kernel.dotProduct add mul init a b (2 * m) with
    | none => rfl
    | some acc =>
      cases hp : mul (a (2 * m)) (b (2 * m)) with
      | none => simp [hp]
      | some p => simp [hp]

/-- Over the FloPoCo wrapper type the kernels are the loops of the examples, so the error bounds of C57 hold for them. -/
theorem C70_flopoco_kernels {E F : ℕ} (x a b : ℕ → Fp E F) (n : ℕ) :
    Kernel.sumArray wrapAdd (Fp.default E F) x n = sumLoop ((List.range n).map x) ∧
    Kernel.dotProduct wrapAdd wrapMul (Fp.default E F) a b n = dotLoop ((List.range n).map fun i => (a i, b i)) := by
  obtain ⟨h1, h2⟩ := C70_in_order (T := Fp E F) wrapAdd wrapMul (Fp.default E F) x a b n
  refine ⟨h1, h2.trans ?_⟩
  unfold dotLoop
  rw [List.foldlM_map]

theorem C70_dot_error_partial {E F : ℕ} (hE : 3 < E) (hF : 1 ≤ F) (hok : DualFormat E F) (hfmt : F ≤ 2 ^ (E + 1))
    (a b : ℕ → Fp E F) (p q : ℕ → ℚ) (n : ℕ) (ha : ∀ i < n, (a i).datum.fin = some (p i)) (hb : ∀ i < n, (b i).datum.fin = some (q i)) :
    ∃ r, Kernel.dotProduct wrapAdd wrapMul (Fp.default E F) a b n = some r ∧
      (∀ s, r.datum.fin = some s → |s - ((List.range n).map fun i => p i * q i).sum| ≤
        ((1 + uro F) ^ n - 1) * (((List.range n).map fun i => |p i * q i|).sum + 2 * (minPos E / uro F))) := by
  rw [(C70_flopoco_kernels a a b n).2]
  obtain ⟨r, h1, h2, -⟩ := C57_dot_error_partial hE hF hok hfmt ((List.range n).map fun i => (a i, b i))
    ((List.range n).map fun i => (p i, q i)) (by
      rw [List.forall₂_map_left_iff, List.forall₂_map_right_iff]
      refine List.forall₂_same.mpr fun i hi => ?_
      have hi := List.mem_range.mp hi
      exact ⟨ha i hi, hb i hi⟩)
  refine ⟨r, h1, fun s hs => ?_⟩
  have := h2 s hs
  simpa [List.map_map, Function.comp_def] using this

/-- The sum of four with a balanced tree: at most two roundings on each path. -/
theorem C70_sum_vec4_error_partial {E F : ℕ} (hE : 3 < E) (hF : 1 ≤ F) (hok : DualFormat E F) (hfmt : F ≤ 2 ^ (E + 1))
    (a b c d : Fp E F) (p q s t : ℚ) (ha : a.datum.fin = some p) (hb : b.datum.fin = some q) (hc : c.datum.fin = some s)
    (hd : d.datum.fin = some t) :
    ∃ r, Kernel.sumVec4 wrapAdd a b c d = some r ∧ ∀ v, r.datum.fin = some v →
      |v - (p + q + (s + t))| ≤ ((1 + uro F) ^ 2 - 1) * (|p| + |q| + (|s| + |t|)) + 4 * minPos E := by
  have hA := wrap_adder hE hF hok hfmt
  have hu := uro_pos F
  have hm : 0 < minPos E := two_zpow_pos _
  have hu1 : uro F ≤ 1 / 2 := by
    unfold uro
    calc (2 : ℚ) ^ (-(F : ℤ) - 1) ≤ 2 ^ (-1 : ℤ) := zpow_le_zpow_right₀ (by norm_num) (by omega)
      _ = 1 / 2 := by norm_num
  obtain ⟨x, hx⟩ := hA.total a b
  obtain ⟨y, hy⟩ := hA.total c d
  obtain ⟨r, hr⟩ := hA.total x y
  refine ⟨r, by unfold Kernel.sumVec4; simp [hx, hy, hr], fun v hv => ?_⟩
  rcases q0 : x.datum.fin with _ | s0
  · rw [hA.sticky _ _ _ hr (Or.inl q0)] at hv; cases hv
  rcases q1 : y.datum.fin with _ | s1
  · rw [hA.sticky _ _ _ hr (Or.inr q1)] at hv; cases hv
  have e0 := hA.err _ _ _ _ _ _ ha hb hx q0
  have e1 := hA.err _ _ _ _ _ _ hc hd hy q1
  have e2 := hA.err _ _ _ _ _ _ q0 q1 hr hv
  have t0 := abs_add_le p q
  have t1 := abs_add_le s t
  have k0 : |s0 - (p + q)| ≤ uro F * (|p| + |q|) + minPos E := by nlinarith
  have k1 : |s1 - (s + t)| ≤ uro F * (|s| + |t|) + minPos E := by nlinarith
  have k2 : |s0 + s1 - (p + q + (s + t))| ≤ uro F * (|p| + |q| + (|s| + |t|)) + 2 * minPos E := by
    have := abs_add_le (s0 - (p + q)) (s1 - (s + t))
    rw [show s0 - (p + q) + (s1 - (s + t)) = s0 + s1 - (p + q + (s + t)) by ring] at this
    linarith
  have k3 : |s0 + s1| ≤ (1 + uro F) * (|p| + |q| + (|s| + |t|)) + 2 * minPos E := by
    have h1 := abs_add_le (s0 + s1 - (p + q + (s + t))) (p + q + (s + t))
    rw [sub_add_cancel] at h1
    have h2 := abs_add_le (p + q) (s + t)
    linarith
  have k4 := abs_add_le (v - (s0 + s1)) (s0 + s1 - (p + q + (s + t)))
  rw [sub_add_sub_cancel] at k4
  have k5 := mul_le_mul_of_nonneg_left k3 hu.le
  have k6 : uro F * minPos E ≤ 1 / 2 * minPos E := mul_le_mul_of_nonneg_right hu1 hm.le
  linarith

/-- `1 + 1 + 1`, `(1 + 1) + (1 + 1)` and `1*1 + 1*1` in format (5,3). -/
example : (Kernel.sumArray wrapAdd (Fp.default 5 3) (fun _ => Fp.mk4 5 3 1 0 15 0) 3 = some (Fp.mk4 5 3 1 0 16 4)) ∧
    Kernel.sumVec4 wrapAdd (Fp.mk4 5 3 1 0 15 0) (Fp.mk4 5 3 1 0 15 0) (Fp.mk4 5 3 1 0 15 0) (Fp.mk4 5 3 1 0 15 0) =
      some (Fp.mk4 5 3 1 0 17 0) ∧
    Kernel.dotProductU2 wrapAdd wrapMul (Fp.default 5 3) (fun _ => Fp.mk4 5 3 1 0 15 0) (fun _ => Fp.mk4 5 3 1 0 15 0) 1 =
      some (Fp.mk4 5 3 1 0 16 0) := by decide +kernel

/-! ### The matrix product -/

/-- Exact arithmetic on rationals, to separate the algorithm from the rounding. -/
def exactAdd (a b : ℚ) : Option ℚ := some (a + b)
def exactMul (a b : ℚ) : Option ℚ := some (a * b)

theorem exact_dot (a b : ℕ → ℚ) (n : ℕ) :
    Kernel.dotProduct exactAdd exactMul 0 a b n = some (∑ i ∈ Finset.range n, a i * b i) := by
  induction n with
  | zero => rfl
  | succ n ih => rw [Kernel.dotProduct, ih, Finset.sum_range_succ]; rfl

/-- `mmm` reads the second matrix at `r*i+c` instead of `i*n+c`. The read is always inside the matrix, so nothing crashes, and what
is computed is this sum. -/
theorem C70_mmm_computes (n : ℕ) (a b : ℕ → ℚ) {r c : ℕ} (hr : r < n) (hc : c < n) :
    Kernel.mmmEntry exactAdd exactMul 0 n a b r c = some (∑ i ∈ Finset.range n, a (r * n + i) * b (r * i + c)) ∧
    ∀ i < n, r * n + i < n * n ∧ r * i + c < n * n := by
  refine ⟨exact_dot _ _ n, fun i hi => ?_⟩
  obtain ⟨m, rfl⟩ : ∃ m, n = m + 1 := ⟨n - 1, by omega⟩
  constructor
  · nlinarith
  · have : r * i ≤ m * m := Nat.mul_le_mul (by omega) (by omega)
    nlinarith

/-- **C70 is false of `mmm`.** For every size of at least two there are matrices of zeros and ones whose product has a one where
`mmm`, even in exact arithmetic, returns zero. -/
theorem C70_mmm_wrong {n : ℕ} (hn : 2 ≤ n) : ∃ a b : ℕ → ℚ, (∀ i, a i = 0 ∨ a i = 1) ∧ (∀ i, b i = 0 ∨ b i = 1) ∧
    ∑ i ∈ Finset.range n, a (1 * n + i) * b (i * n + 0) = 1 ∧ Kernel.mmmEntry exactAdd exactMul 0 n a b 1 0 = some 0 := by
  refine ⟨fun i => if i = n + 1 then 1 else 0, fun i => if i = n then 1 else 0, fun i => ?_, fun i => ?_, ?_, ?_⟩
  · by_cases h : i = n + 1 <;> simp [h]
  · by_cases h : i = n <;> simp [h]
  · rw [Finset.sum_eq_single 1]
    · simp
    · intro i _ hi
      have : (if 1 * n + i = n + 1 then (1 : ℚ) else 0) = 0 := if_neg (by omega)
      simp only [this, zero_mul]
    · intro h
      exact absurd (Finset.mem_range.mpr (by omega)) h
  · rw [(C70_mmm_computes n _ _ (by omega) (by omega)).1]
    congr 1
    refine Finset.sum_eq_zero fun i hi => ?_
    have := Finset.mem_range.mp hi
    have : (if 1 * i + 0 = n then (1 : ℚ) else 0) = 0 := if_neg (by omega)
    simp only [this, mul_zero]

/-- The unrolled `mmm` reads the same elements, and rejects odd sizes. -/
theorem C70_mmm_unrolled_wrong (n : ℕ) (a b : ℕ → ℚ) (r c : ℕ) :
    Kernel.mmmU2Entry exactAdd exactMul 0 n a b r c =
      if n % 2 = 0 then Kernel.mmmEntry exactAdd exactMul 0 n a b r c else none := by
  unfold Kernel.mmmU2Entry
  split
  · rename_i h
    have key : ∀ m, Kernel.mmmU2Loop exactAdd exactMul 0 n a b r c m =
        some (∑ i ∈ Finset.range (2 * m), a (r * n + i) * b (r * i + c)) := by
      intro m
      induction m with
      | zero => rfl
      | succ m ih =>
        rw [Kernel.mmmU2Loop, ih, show 2 * (m + 1) = 2 * m + 1 + 1 by ring, Finset.sum_range_succ, Finset.sum_range_succ]
        refine congrArg some ?_
        show _ + (_ + _) = _
        rw [Nat.add_assoc (r * n)]
        ring
    rw [key, Kernel.mmmEntry, exact_dot, show 2 * (n / 2) = n by omega]
  · rfl

/-- A two by two product, plain and unrolled. -/
example : Kernel.mmmEntry exactAdd exactMul 0 2 (fun i => (i : ℚ)) (fun i => (i : ℚ) + 1) 1 0 = some (2 * 1 + 3 * 2) ∧
    Kernel.mmmU2Entry exactAdd exactMul 0 2 (fun i => (i : ℚ)) (fun i => (i : ℚ) + 1) 1 0 = some (2 * 1 + 3 * 2) := by
  have h := (C70_mmm_computes 2 (fun i => (i : ℚ)) (fun i => (i : ℚ) + 1) (r := 1) (c := 0) (by decide) (by decide)).1
  have h' : Kernel.mmmEntry exactAdd exactMul 0 2 (fun i => (i : ℚ)) (fun i => (i : ℚ) + 1) 1 0 = some (2 * 1 + 3 * 2) := by
    rw [h]; norm_num [Finset.sum_range_succ]
  exact ⟨h', by rw [C70_mmm_unrolled_wrong, if_pos (by decide), h']⟩

end Thls
