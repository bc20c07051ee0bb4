import Verif.Model.HeapTest
import Verif.Proofs.Heap

/-! # Property C92: what the heap tests print -/

namespace Thls
open Spec

namespace HeapTest

theorem loop_zero {n : ℕ} {f : ℕ → Option ℕ} (h : ∀ i, i < n → f i = some 0) : loop n f = some 0 := by
  unfold loop
  have : ∀ l : List ℕ, (∀ i ∈ l, i < n) → l.foldl (fun acc i => acc.bind fun k => (f i).map (k + ·)) (some 0) = some 0 := by
    intro l
    induction l with
    | nil => intro _; rfl
    | cons x l ih =>
      intro hl
      rw [List.foldl_cons, Option.bind_some, h x (hl x (by simp))]
      exact ih fun i hi => hl i (by simp [hi])
  exact this _ fun i hi => List.mem_range.mp hi

theorem calls_zero {ws : List ℕ} {f : ℕ → Option ℕ} (h : ∀ w ∈ ws, f w = some 0) : calls ws f = some 0 := by
  unfold calls
  induction ws with
  | nil => rfl
  | cons x l ih =>
    rw [List.foldl_cons, Option.bind_some, h x (by simp)]
    exact ih fun i hi => h i (by simp [hi])

theorem report_self {a b : ℕ} (h : a = b) : report a b = 0 := by simp [report, h]

theorem heap_of {w a : ℕ} (hw : 1 ≤ w) (ha : a < 2 ^ w) :
    (Heap.ofUint (w - 1) a).WF ∧ (Heap.ofUint (w - 1) a).sum = a ∧ (Heap.ofUint (w - 1) a).width = w := by
  obtain ⟨n, rfl⟩ := Nat.exists_eq_add_of_le' hw
  exact ⟨Heap.ofUint_wf ha, Heap.ofUint_sum ha, Heap.ofUint_width _ _⟩

theorem bit4_zero {wa wb wc wd b c d : ℕ} (ha : 1 ≤ wa) (hb : 1 ≤ wb) (hc : 1 ≤ wc) (hd : 1 ≤ wd) (lb : b < 2 ^ wb) (lc : c < 2 ^ wc)
    (ld : d < 2 ^ wd) : bit4 wa wb wc wd b c d = some 0 := by
  refine loop_zero fun a la => ?_
  obtain ⟨a1, a2, a3⟩ := heap_of ha la
  obtain ⟨b1, b2, b3⟩ := heap_of hb lb
  obtain ⟨c1, c2, c3⟩ := heap_of hc lc
  obtain ⟨d1, d2, d3⟩ := heap_of hd ld
  obtain ⟨ab, m1, m2, m3, m4, -⟩ := Heap.merge_some a1 b1
  obtain ⟨cd, n1, n2, n3, n4, -⟩ := Heap.merge_some c1 d1
  obtain ⟨x, x1, x2, x3, x4, -⟩ := Heap.merge_some m4 n4
  obtain ⟨k1, k2, k3, k4⟩ := Heap.compress_spec x x4
  have hw : x.width = max (max wc wd) (max wa wb) := by rw [x2, m2, n2, a3, b3, c3, d3]; omega
  have hs : x.sum = a + b + c + d := by rw [x3, m3, n3, a2, b2, c2, d2]; ring
  have hr : addW (max (max wc wd) (max wa wb)) (addW (max (max wc wd) (max wa wb)) (addW (max (max wc wd) (max wa wb)) a b) c) d =
      (a + b + c + d) % 2 ^ (max (max wc wd) (max wa wb)) := by
    simp [addW, Nat.add_mod]
  simp only [Option.bind_eq_bind, m1, n1, x1, Option.bind_some]
  rw [if_pos k3, Heap.collapse_spec _ k2 k3, Option.bind_some, if_pos (by rw [k1, hw]), Heap.toMpz_eq, Heap.toMpz_eq, k1, k4, hw, hs, hr]
  simp [report]

theorem bit3_zero {ws4 : List ℕ} (h4 : ∀ w ∈ ws4, 1 ≤ w) {wa wb wc b c : ℕ} (ha : 1 ≤ wa) (hb : 1 ≤ wb) (hc : 1 ≤ wc)
    (lb : b < 2 ^ wb) (lc : c < 2 ^ wc) : bit3 ws4 wa wb wc b c = some 0 := by
  refine loop_zero fun a la => ?_
  obtain ⟨a1, a2, a3⟩ := heap_of ha la
  obtain ⟨b1, b2, b3⟩ := heap_of hb lb
  obtain ⟨c1, c2, c3⟩ := heap_of hc lc
  obtain ⟨ab, m1, m2, m3, m4, -⟩ := Heap.merge_some a1 b1
  obtain ⟨x, x1, x2, x3, x4, -⟩ := Heap.merge_some m4 c1
  have hw : x.width = max wc (max wa wb) := by rw [x2, m2, a3, b3, c3]; omega
  have hs : x.sum = a + b + c := by rw [x3, m3, a2, b2, c2]
  have hr : addW (max wc (max wa wb)) (addW (max wc (max wa wb)) a b) c = (a + b + c) % 2 ^ (max wc (max wa wb)) := by
    simp [addW, Nat.add_mod]
  simp only [Option.bind_eq_bind, m1, x1, Option.bind_some]
  rw [calls_zero fun w hw4 => bit4_zero (h4 w hw4) ha hb hc la lb lc, Option.bind_some, Heap.toMpz_eq, hw, hs, hr]
  simp [report]

theorem bit2_zero {ws3 ws4 : List ℕ} (h3 : ∀ w ∈ ws3, 1 ≤ w) (h4 : ∀ w ∈ ws4, 1 ≤ w) {wa wb b : ℕ} (ha : 1 ≤ wa) (hb : 1 ≤ wb)
    (lb : b < 2 ^ wb) : bit2 ws3 ws4 wa wb b = some 0 := by
  refine loop_zero fun a la => ?_
  obtain ⟨a1, a2, a3⟩ := heap_of ha la
  obtain ⟨b1, b2, b3⟩ := heap_of hb lb
  obtain ⟨x, x1, x2, x3, x4, -⟩ := Heap.merge_some a1 b1
  simp only [Option.bind_eq_bind, x1, Option.bind_some]
  rw [calls_zero fun w hw => bit3_zero h4 (h3 w hw) ha hb la lb, Option.bind_some, Heap.toMpz_eq, x2, x3, a2, b2, a3, b3]
  simp [report, addW]

theorem rows_zero {w : ℕ} (hw : 1 ≤ w) {rows : List ℕ} (h2 : 2 ≤ rows.length) (hr : ∀ r ∈ rows, r < 2 ^ w) {ref : ℕ}
    (hs : ref = rows.sum % 2 ^ w) : ∃ comp r, Rows.compress w rows = some comp ∧ comp.length ≤ 2 ∧ Rows.collapse w comp = some r ∧
      report ref (Rows.toMpz w rows) + report ref (Rows.toMpz w comp) + report ref r = 0 := by
  obtain ⟨a, b, h1, -, -, h3⟩ := Rows.compress_spec hw rows h2 hr
  refine ⟨[a, b], addW w a b, h1, le_refl _, rfl, ?_⟩
  unfold Nat.ModEq at h3
  rw [Rows.toMpz_eq, Rows.toMpz_eq, hs, ← h3]
  simp [report, addW]

theorem row4_zero {wa wb wc wd b c d : ℕ} (ha : 1 ≤ wa) (lb : b < 2 ^ wb) (lc : c < 2 ^ wc) (ld : d < 2 ^ wd) :
    row4 wa wb wc wd b c d = some 0 := by
  refine loop_zero fun a la => ?_
  have up : ∀ {v w x : ℕ}, w ≤ v → x < 2 ^ w → x < 2 ^ v := fun h hx => lt_of_lt_of_le hx (Nat.pow_le_pow_right (by norm_num) h)
  obtain ⟨comp, r, h1, h2, h3, h4⟩ := rows_zero (w := max (max wc wd) (max wa wb)) (by omega)
    (rows := Rows.add (Rows.add (Rows.add (Rows.ofUint a) (Rows.ofUint b)) (Rows.ofUint c)) (Rows.ofUint d))
    (by simp [Rows.add, Rows.ofUint])
    (by
      simp only [Rows.add, Rows.ofUint, List.mem_append, List.mem_singleton]
      rintro r (((rfl | rfl) | rfl) | rfl)
      · exact up (by omega) la
      · exact up (by omega) lb
      · exact up (by omega) lc
      · exact up (by omega) ld)
    (ref := addW (max (max wc wd) (max wa wb)) (addW (max (max wc wd) (max wa wb)) (addW (max (max wc wd) (max wa wb)) a b) c) d)
    (by simp only [addW, Nat.mod_add_mod]; simp [Rows.add, Rows.ofUint, add_assoc])
  simp only [Option.bind_eq_bind, h1, Option.bind_some]
  rw [if_pos h2, h3, Option.bind_some, h4]

theorem row3_zero {ws4 : List ℕ} (h4 : ∀ w ∈ ws4, 1 ≤ w) {wa wb wc b c : ℕ} (ha : 1 ≤ wa) (lb : b < 2 ^ wb) (lc : c < 2 ^ wc) :
    row3 ws4 wa wb wc b c = some 0 := by
  refine loop_zero fun a la => ?_
  have up : ∀ {v w x : ℕ}, w ≤ v → x < 2 ^ w → x < 2 ^ v := fun h hx => lt_of_lt_of_le hx (Nat.pow_le_pow_right (by norm_num) h)
  obtain ⟨comp, r, h1, h2, h3, h5⟩ := rows_zero (w := max wc (max wa wb)) (by omega)
    (rows := Rows.add (Rows.add (Rows.ofUint a) (Rows.ofUint b)) (Rows.ofUint c))
    (by simp [Rows.add, Rows.ofUint])
    (by
      simp only [Rows.add, Rows.ofUint, List.mem_append, List.mem_singleton]
      rintro r ((rfl | rfl) | rfl)
      · exact up (by omega) la
      · exact up (by omega) lb
      · exact up (by omega) lc)
    (ref := addW (max wc (max wa wb)) (addW (max wc (max wa wb)) a b) c)
    (by simp only [addW, Nat.mod_add_mod]; simp [Rows.add, Rows.ofUint, add_assoc])
  simp only [Option.bind_eq_bind, h1, Option.bind_some]
  rw [if_pos h2, h3, Option.bind_some, calls_zero fun w hw => row4_zero (h4 w hw) la lb lc, Option.bind_some, h5]

theorem row2_zero {ws3 ws4 : List ℕ} (h3 : ∀ w ∈ ws3, 1 ≤ w) (h4 : ∀ w ∈ ws4, 1 ≤ w) {wa wb b : ℕ}
    (lb : b < 2 ^ wb) : row2 ws3 ws4 wa wb b = some 0 := by
  refine loop_zero fun a la => ?_
  simp only [Option.bind_eq_bind]
  rw [calls_zero fun w hw => row3_zero h4 (h3 w hw) la lb, Option.bind_some, Rows.toMpz_eq]
  simp [report, addW, Rows.add, Rows.ofUint]

end HeapTest

open HeapTest

/-- **C92.** The program test_bit_heap prints no complaint, whatever widths its levels are instantiated with. -/
theorem C92_test_bit_heap {ws1 ws2 ws3 ws4 : List ℕ} (h1 : ∀ w ∈ ws1, 1 ≤ w) (h2 : ∀ w ∈ ws2, 1 ≤ w) (h3 : ∀ w ∈ ws3, 1 ≤ w)
    (h4 : ∀ w ∈ ws4, 1 ≤ w) : bitTest ws1 ws2 ws3 ws4 = some 0 :=
  calls_zero fun w hw => loop_zero fun _ la => calls_zero fun v hv => bit2_zero h3 h4 (h2 v hv) (h1 w hw) la

/-- **C92.** The program test_row_heap prints no complaint, whatever widths its levels are instantiated with. -/
theorem C92_test_row_heap {ws1 ws2 ws3 ws4 : List ℕ} (h3 : ∀ w ∈ ws3, 1 ≤ w) (h4 : ∀ w ∈ ws4, 1 ≤ w) :
    rowTest ws1 ws2 ws3 ws4 = some 0 := by
  refine calls_zero fun w _ => loop_zero fun a la => ?_
  simp only [Option.bind_eq_bind]
  rw [calls_zero fun v hv => row2_zero h3 h4 la, Option.bind_some, Rows.toMpz_eq]
  simp [report, Rows.ofUint, Nat.mod_eq_of_lt la]

/-- The programs as they are (`QUICK` is defined), and without `QUICK`. -/
example : bitTest [5] [4] [5] [4] = some 0 ∧ rowTest [3] [4] [5] [4] = some 0 :=
  ⟨C92_test_bit_heap (by decide) (by decide) (by decide) (by decide), C92_test_row_heap (by decide) (by decide)⟩

example : bitTest [1, 2, 5] [2, 4, 5] [1, 3, 5] [2, 4, 5] = some 0 ∧
    rowTest [1, 2, 3, 4, 5] [1, 2, 3, 4, 5] [1, 2, 3, 4, 5] [1, 2, 3, 4, 5] = some 0 :=
  ⟨C92_test_bit_heap (by decide) (by decide) (by decide) (by decide), C92_test_row_heap (by decide) (by decide)⟩

/-- **C92.** The comparison at the heart of the programs is a test: it counts a complaint whenever the values differ. -/
theorem C92_complaint_iff (ref got : ℕ) : (report ref got = 0 ↔ ref = got) ∧ (report ref got = 1 ↔ ref ≠ got) := by
  unfold report; split_ifs with h <;> simp_all

/-- A complaint is counted: comparing the sum of two operands with a wrong heap is reported. -/
example : report (addW 4 9 8) (Heap.toMpz (Heap.ofUint 3 2)) = 1 := by decide

end Thls
