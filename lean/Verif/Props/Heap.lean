import Verif.Proofs.Heap

/-! # C35–C38: bit heaps, tiled multiplication and row heaps -/

namespace Thls
open Spec

/-- C35: reading a heap gives the sum of its bits, each with its weight, modulo two to the number of columns. -/
theorem C35_read (x : Heap) : x.toMpz = heapSum x.columns % 2 ^ x.columns.length := by
  rw [Heap.toMpz_eq, Heap.columns_length]; rfl

/-- C35: a number put in a heap is read back. -/
theorem C35_uint_roundtrip {n x : ℕ} (hx : x < 2 ^ (n + 1)) : (Heap.ofUint n x).toMpz = x := by
  rw [Heap.toMpz_eq, Heap.ofUint_sum hx, Heap.ofUint_width, Nat.mod_eq_of_lt hx]

example : (Heap.ofUint 3 11).toMpz = 11 := C35_uint_roundtrip (by decide)

/-- C35: merging compiles for any two heaps and adds the sums of their bits. -/
theorem C35_merge {a b : Heap} (ha : a.WF) (hb : b.WF) : ∃ m, Heap.merge a b = some m ∧ m.WF ∧
    m.columns.length = max a.columns.length b.columns.length ∧
    heapSum m.columns = heapSum a.columns + heapSum b.columns := by
  obtain ⟨m, h1, h2, h3, h4, -⟩ := Heap.merge_some ha hb
  exact ⟨m, h1, h4, by simpa only [Heap.columns_length] using h2, h3⟩

/-- C35: for heaps of the same width, merging adds the values read. -/
theorem C35_merge_read {a b : Heap} (ha : a.WF) (hb : b.WF) (hw : a.columns.length = b.columns.length) :
    ∃ m, Heap.merge a b = some m ∧ m.toMpz = (a.toMpz + b.toMpz) % 2 ^ a.columns.length := by
  obtain ⟨m, h1, -, h3, h4⟩ := C35_merge ha hb
  refine ⟨m, h1, ?_⟩
  rw [C35_read, C35_read, C35_read, h3, h4, ← hw, max_self, ← Nat.add_mod]

/-- C35: with different widths the sum of the bits is kept, not the value read: a narrower heap whose sum has
overflowed its width contributes the overflow again. For every width there is such a pair. -/
theorem C35_merge_read_wrong (n : ℕ) : ∃ a b m : Heap, a.WF ∧ b.WF ∧ a.columns.length = n + 2 ∧ b.columns.length = n + 1 ∧
    Heap.merge a b = some m ∧ m.toMpz ≠ (a.toMpz + b.toMpz) % 2 ^ m.columns.length := by
  have hz : (0 : ℕ) < 2 ^ (n + 1 + 1) := by positivity
  have ho : 2 ^ n < 2 ^ (n + 1) := Nat.pow_lt_pow_right (by norm_num) (Nat.lt_succ_self n)
  obtain ⟨b, b1, b2, b3, b4⟩ := Heap.mergeEq_some (a := Heap.ofUint n (2 ^ n)) (b := Heap.ofUint n (2 ^ n)) rfl (Heap.ofUint_wf ho)
  rw [Heap.ofUint_width] at b2
  rw [Heap.ofUint_sum ho] at b3
  have hb : b.WF := b4.1 (Heap.ofUint_wf ho)
  obtain ⟨m, h1, h2, h3, h4⟩ := C35_merge (Heap.ofUint_wf hz) hb
  refine ⟨Heap.ofUint (n + 1) 0, b, m, Heap.ofUint_wf hz, hb, by rw [Heap.columns_length, Heap.ofUint_width],
    by rw [Heap.columns_length, b2], h1, ?_⟩
  have hs : heapSum b.columns = 2 ^ (n + 1) := by
    have : b.sum = 2 ^ (n + 1) := by rw [b3, pow_succ]; ring
    exact this
  have hs0 : heapSum (Heap.ofUint (n + 1) 0).columns = 0 := Heap.ofUint_sum hz
  rw [C35_read, C35_read, C35_read, h3, h4, hs, hs0]
  simp only [Heap.columns_length, Heap.ofUint_width, b2, Nat.zero_mod, Nat.mod_self, Nat.add_zero, zero_add]
  rw [max_eq_left (by omega), Nat.mod_eq_of_lt (Nat.pow_lt_pow_right (by norm_num) (by omega))]
  positivity

/-- C35: shifting a heap left multiplies the sum by a power of two. -/
theorem C35_shift (n : ℕ) {x : Heap} (hx : x.WF) : (Heap.shiftLeft n x).WF ∧
    (Heap.shiftLeft n x).columns.length = x.columns.length + n ∧
    heapSum (Heap.shiftLeft n x).columns = heapSum x.columns * 2 ^ n := by
  obtain ⟨h1, h2, h3, -⟩ := Heap.shiftLeft_props n x
  exact ⟨h3 hx, by simpa only [Heap.columns_length] using h1, h2⟩

/-- C35: padding a heap to a larger width keeps the sum, and padding to a smaller one does not compile. -/
theorem C35_pad (w : ℕ) {x : Heap} (hx : x.WF) :
    (x.columns.length ≤ w → ∃ y, Heap.padTo w x = some y ∧ y.WF ∧ y.columns.length = w ∧ heapSum y.columns = heapSum x.columns) ∧
    (w < x.columns.length → Heap.padTo w x = none) := by
  rw [Heap.columns_length]
  constructor
  · intro h
    obtain ⟨h1, h2, h3, -⟩ := Heap.pad_props (w - x.width) x
    exact ⟨_, by rw [Heap.padTo, if_pos h], h3 hx, by rw [Heap.columns_length]; omega, h2⟩
  · intro h
    rw [Heap.padTo, if_neg (by omega)]

/-- C35: one compression step keeps the columns and loses only a multiple of two to the width. -/
theorem C35_step {x : Heap} (hx : x.WF) : (Heap.step x).2.WF ∧ (Heap.step x).2.columns.length = x.columns.length ∧
    (Heap.step x).2.toMpz = x.toMpz := by
  obtain ⟨h1, h2, -, -⟩ := Heap.step_spec x hx
  refine ⟨h2, by rw [Heap.columns_length, Heap.columns_length, h1], ?_⟩
  rw [Heap.toMpz_eq, Heap.toMpz_eq, h1]
  exact Heap.step_sum x hx

/-- C35: compression keeps the value and leaves at most two bits in a column. -/
theorem C35_compress {x : Heap} (hx : x.WF) : (Heap.compress x).WF ∧
    (Heap.compress x).columns.length = x.columns.length ∧ (Heap.compress x).toMpz = x.toMpz := by
  obtain ⟨h1, h2, -, h4⟩ := Heap.compress_spec x hx
  refine ⟨h2, by rw [Heap.columns_length, Heap.columns_length, h1], ?_⟩
  rw [Heap.toMpz_eq, Heap.toMpz_eq, h1, h4]

/-- C35: collapsing a compressed heap gives the sum of the bits of the original heap, modulo two to the width. -/
theorem C35_collapse {x : Heap} (hx : x.WF) :
    Heap.collapse (Heap.compress x) = some (heapSum x.columns % 2 ^ x.columns.length) := by
  obtain ⟨h1, h2, h3, h4⟩ := Heap.compress_spec x hx
  rw [Heap.collapse_spec _ h2 h3, h1, h4, Heap.columns_length]; rfl

/-- A heap of three columns of heights 4, 0 and 5. -/
example : (Heap.link 4 13 (.link 0 0 (.root 5 23))).WF := by refine ⟨by decide, by decide, ?_⟩; show 23 < 2 ^ 5; decide

example : Heap.collapse (Heap.compress (Heap.link 4 13 (.link 0 0 (.root 5 23)))) = some ((3 * 4 + 4) % 8) :=
  C35_collapse (by refine ⟨by decide, by decide, ?_⟩; show 23 < 2 ^ 5; decide)

/-- C36: no column of a compressed heap is higher than two, for a heap of any shape. -/
theorem C36_two_rows (x : Heap) : ∀ c ∈ (Heap.compress x).columns, c.1 ≤ 2 := by
  have hm : (Heap.compress x).maxHeight ≤ 2 := by
    induction hn : x.maxHeight using Nat.strong_induction_on generalizing x with
    | _ n ih =>
      rw [Heap.compress]
      by_cases h : x.maxHeight ≤ 2
      · rw [if_pos h]; exact h
      · rw [if_neg h]
        have hd := Heap.step_height_le x (le_refl x.maxHeight)
        exact ih _ (by omega) _ rfl
  generalize Heap.compress x = y at hm
  intro c hc
  induction y with
  | root h b =>
    simp only [Heap.columns, List.mem_singleton] at hc
    subst hc; exact hm
  | link h b l ih =>
    simp only [Heap.maxHeight] at hm
    simp only [Heap.columns, List.mem_cons] at hc
    rcases hc with rfl | hc
    · show h ≤ 2; omega
    · exact ih (by omega) hc

/-- C36: the number of compression steps is at most `n` when no column is higher than the `n`-th term of
2, 3, 4, 6, 9, 13, 19, ... -/
theorem C36_steps (n : ℕ) (x : Heap) (hx : ∀ c ∈ x.columns, c.1 ≤ roundsHeight n) :
    ∃ k ≤ n, Heap.compress x = (fun y => (Heap.step y).2)^[k] x := by
  have hm : x.maxHeight ≤ roundsHeight n := by
    generalize roundsHeight n = m at hx
    induction x with
    | root h b => exact hx (h, b) (by simp [Heap.columns])
    | link h b l ih =>
      exact max_le (hx (h, b) (by simp [Heap.columns])) (ih fun c hc => hx c (by simp [Heap.columns, hc]))
  clear hx
  induction n generalizing x with
  | zero => exact ⟨0, le_refl _, by rw [Heap.compress, if_pos (show x.maxHeight ≤ 2 from hm)]; rfl⟩
  | succ n ih =>
    by_cases h : x.maxHeight ≤ 2
    · exact ⟨0, Nat.zero_le _, by rw [Heap.compress, if_pos h]; rfl⟩
    · have hd := Heap.step_height_le x hm
      obtain ⟨k, hk, e⟩ := ih (Heap.step x).2 (by
        rw [roundsHeight] at hd
        generalize roundsHeight n = g at hd
        rcases Nat.even_or_odd' g with ⟨k, rfl | rfl⟩ <;> omega)
      exact ⟨k + 1, by omega, by rw [Heap.compress, if_neg h, e, Function.iterate_succ_apply]⟩

/-- 23 bits per column need no more than seven steps. -/
example : roundsHeight 7 = 28 := by decide

/-- C36: compression of any row heap of at least two rows stops with two rows. -/
theorem C36_rows {w : ℕ} (hw : 1 ≤ w) {rows : List ℕ} (h2 : 2 ≤ rows.length) (hr : ∀ r ∈ rows, r < 2 ^ w) :
    ∃ out, Rows.compress w rows = some out ∧ out.length = 2 := by
  obtain ⟨a, b, h, -, -, -⟩ := Rows.compress_spec hw rows h2 hr
  exact ⟨_, h, rfl⟩

/-- C37: the heap built by tiled multiplication, with tiles of any size, sums to the product. -/
theorem C37_mul_heap {split wa wb a b : ℕ} (hs : 1 ≤ split) (hwa : 1 ≤ wa) (hwb : 1 ≤ wb) (ha : a < 2 ^ wa) (hb : b < 2 ^ wb) :
    ∃ m, Heap.mul split wa wb a b = some m ∧ m.WF ∧ m.columns.length = wa + wb ∧ heapSum m.columns = a * b := by
  obtain ⟨m, h1, h2, h3, h4⟩ := Heap.mulSplitA_spec hs hwa hwb ha hb
  exact ⟨m, h1, h4, by rw [Heap.columns_length, h3], h2⟩

/-- C37: tiled multiplication, compressed and collapsed, is multiplication. -/
theorem C37_mul {split wa wb a b : ℕ} (hs : 1 ≤ split) (hwa : 1 ≤ wa) (hwb : 1 ≤ wb) (ha : a < 2 ^ wa) (hb : b < 2 ^ wb) :
    ∃ m, Heap.mul split wa wb a b = some m ∧ m.toMpz = a * b ∧ Heap.collapse (Heap.compress m) = some (a * b) := by
  obtain ⟨m, h1, h2, h3, h4⟩ := C37_mul_heap hs hwa hwb ha hb
  have hlt : a * b < 2 ^ (wa + wb) := by rw [pow_add]; exact Nat.mul_lt_mul'' ha hb
  refine ⟨m, h1, by rw [C35_read, h3, h4, Nat.mod_eq_of_lt hlt], ?_⟩
  rw [C35_collapse h2, h3, h4, Nat.mod_eq_of_lt hlt]

example : ∃ m, Heap.mul 2 5 7 29 101 = some m ∧ m.toMpz = 29 * 101 ∧ Heap.collapse (Heap.compress m) = some (29 * 101) :=
  C37_mul (by decide) (by decide) (by decide) (by decide) (by decide)

/-- C38: reading a row heap gives the sum of its rows modulo two to the width. -/
theorem C38_read (w : ℕ) (rows : List ℕ) : Rows.toMpz w rows = rows.sum % 2 ^ w := Rows.toMpz_eq w rows

/-- C38: a number put in a row heap is read back. -/
theorem C38_uint {w x : ℕ} (hx : x < 2 ^ w) : Rows.toMpz w (Rows.ofUint x) = x := by
  rw [Rows.toMpz_eq, Rows.ofUint, List.sum_singleton, Nat.mod_eq_of_lt hx]

/-- C38: adding row heaps, or a number to a row heap, adds the sums. -/
theorem C38_add (a b : List ℕ) (x : ℕ) :
    (Rows.add a b).sum = a.sum + b.sum ∧ (Rows.addUint a x).sum = a.sum + x := by
  simp [Rows.add, Rows.addUint]

/-- C38: adding two row heaps of the same width adds the values read. -/
theorem C38_add_read (w : ℕ) (a b : List ℕ) (x : ℕ) :
    Rows.toMpz w (Rows.add a b) = (Rows.toMpz w a + Rows.toMpz w b) % 2 ^ w ∧
    Rows.toMpz w (Rows.addUint a x) = (Rows.toMpz w a + x) % 2 ^ w := by
  simp only [Rows.toMpz_eq, (C38_add a b x).1, (C38_add a b x).2]
  exact ⟨Nat.add_mod _ _ _, by rw [Nat.mod_add_mod]⟩

/-- C38: one compression step, full compression and the collapse keep the sum of the rows modulo two to the
width. -/
theorem C38_compress {w : ℕ} (hw : 1 ≤ w) {rows : List ℕ} (h2 : 2 ≤ rows.length) (hr : ∀ r ∈ rows, r < 2 ^ w) :
    Rows.toMpz w (Rows.compressStep w rows) = Rows.toMpz w rows ∧
    ∃ out, Rows.compress w rows = some out ∧ (∀ r ∈ out, r < 2 ^ w) ∧ Rows.toMpz w out = rows.sum % 2 ^ w ∧
      Rows.collapse w out = some (rows.sum % 2 ^ w) := by
  constructor
  · rw [Rows.toMpz_eq, Rows.toMpz_eq]; exact Rows.compressStep_sum hw rows
  · obtain ⟨a, b, h, ha, hb, hs⟩ := Rows.compress_spec hw rows h2 hr
    refine ⟨[a, b], h, ?_, ?_, ?_⟩
    · intro r hr
      simp only [List.mem_cons, List.not_mem_nil, or_false] at hr
      rcases hr with rfl | rfl <;> assumption
    · rw [Rows.toMpz_eq, List.sum_cons, List.sum_singleton]; exact hs
    · rw [Rows.collapse, addW]; exact congrArg some hs

example : ∃ out, Rows.compress 4 [3, 9, 15, 4, 7] = some out ∧ (∀ r ∈ out, r < 2 ^ 4) ∧ Rows.toMpz 4 out = 38 % 16 ∧
    Rows.collapse 4 out = some (38 % 16) := (C38_compress (by decide) (by decide) (by decide)).2

end Thls
