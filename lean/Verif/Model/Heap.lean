import Verif.Model.Bits

/-! # Bit heaps (bit_heap.hpp), tiled multiplication (bit_heap_mul.hpp) and row heaps (row_heap.hpp)

The heights and widths, which are template parameters in the code, are part of the value here. A function that
would not compile for given heights is modelled by `none`. -/

namespace Thls

/-- `bit_heap_root<H>` and `bit_heap_link<H,LSBs>`: a column of `h` bits, and the less significant columns.
bit_heap.hpp:13-43. -/
inductive Heap where
  | root (h bits : ℕ)
  | link (h bits : ℕ) (lsbs : Heap)
deriving DecidableEq, Repr

namespace Heap

/-- The columns, most significant first (reading only; not a function of the code). -/
def columns : Heap → List (ℕ × ℕ)
  | root h b => [(h, b)]
  | link h b l => (h, b) :: l.columns

/-- The invariant of `fw_uint<H>`: every column holds `h` bits. bit_heap.hpp:13-43. -/
def WF : Heap → Prop
  | root h b => b < 2 ^ h
  | link h b l => b < 2 ^ h ∧ l.WF

/-- `width`. bit_heap.hpp:18,36. -/
def width : Heap → ℕ
  | root _ _ => 1
  | link _ _ l => l.width + 1

/-- `max_height`. bit_heap.hpp:17,35. -/
def maxHeight : Heap → ℕ
  | root h _ => h
  | link h _ l => max h l.maxHeight

/-- `uint_to_bit_heap<W>::build`, `W = n+1`. bit_heap.hpp:47-78. -/
def ofUint : ℕ → ℕ → Heap
  | 0, x => root 1 x
  | n + 1, x => link 1 (x / 2 ^ (n + 1)) (ofUint n (x % 2 ^ (n + 1)))

/-- The loop over the bits of one column. bit_heap.hpp:92-101,116-123. -/
def addColumn : ℕ → ℕ → ℕ → ℕ
  | 0, _, dst => dst
  | n + 1, tmp, dst => addColumn n (tmp / 2) (if tmp % 2 = 1 then dst + 1 else dst)

/-- `detail::bit_heap_to_mpz<T>::build`. bit_heap.hpp:86-125. -/
def toMpzGo : ℕ → Heap → ℕ
  | dst, root h b => addColumn h b dst
  | dst, link h b l => toMpzGo (addColumn h b dst * 2) l

/-- `bit_heap_to_mpz(r,heap)`. bit_heap.hpp:128-137. -/
def toMpz (x : Heap) : ℕ := toMpzGo 0 x % 2 ^ x.width

/-- `merge_equal_width_bit_heaps`; `none` when the widths differ (static assertion). bit_heap.hpp:187-215. -/
def mergeEq : Heap → Heap → Option Heap
  | root h b, root h' b' => some (root (h + h') (concat h' b b'))
  | link h b l, link h' b' l' => (mergeEq l l').map fun m => link (h + h') (concat h' b b') m
  | _, _ => none

/-- `pad_bit_heap_impl<Todo,TA>::build`. bit_heap.hpp:218-236. -/
def pad : ℕ → Heap → Heap
  | 0, x => x
  | n + 1, x => link 0 0 (pad n x)

/-- `pad_bit_heap<W>(x)`; `none` for a smaller width (static assertion). bit_heap.hpp:328-332. -/
def padTo (w : ℕ) (x : Heap) : Option Heap := if x.width ≤ w then some (pad (w - x.width) x) else none

/-- `bit_heap_zeros<places>::build`, `places = n+1`. bit_heap.hpp:239-259. -/
def zeros : ℕ → Heap
  | 0 => root 0 0
  | n + 1 => link 0 0 (zeros n)

/-- `bit_heap_shift_left_impl<places,T>::build`. bit_heap.hpp:262-305. -/
def shiftLeft : ℕ → Heap → Heap
  | 0, x => x
  | n + 1, root h b => link h b (zeros n)
  | n + 1, link h b l => link h b (shiftLeft (n + 1) l)

/-- `merge_bit_heaps(a,b)`. bit_heap.hpp:308-325,334-338. -/
def merge (a b : Heap) : Option Heap :=
  mergeEq (pad (max a.width b.width - a.width) a) (pad (max a.width b.width - b.width) b)

/-- `compress_3_2(x)`: carry and sum of three bits. bit_heap.hpp:387-394. -/
def compress32 (x : ℕ) : ℕ × ℕ :=
  let tmp := addW 2 (addW 2 (getBits 0 0 x) (getBits 1 1 x)) (getBits 2 2 x)
  (getBits 1 1 tmp, getBits 0 0 tmp)

/-- `carry_t::width` of `compress_column_impl<W>`. bit_heap.hpp:438,455,465,475. -/
def carryW : ℕ → ℕ
  | 0 => 0
  | 1 => 0
  | 2 => 1
  | n + 3 => carryW n + 1

/-- `sum_t::width` of `compress_column_impl<W>`. bit_heap.hpp:439,456,466,476. -/
def sumW : ℕ → ℕ
  | 0 => 0
  | 1 => 1
  | 2 => 1
  | n + 3 => sumW n + 1

/-- `compress_column_impl<W>::build`: carries and sums of one column. bit_heap.hpp:430-481. -/
def column : ℕ → ℕ → ℕ × ℕ
  | 0, _ => (0, 0)
  | 1, x => (0, x)
  | 2, x => (getBits 1 1 x &&& getBits 0 0 x, getBits 1 1 x ^^^ getBits 0 0 x)
  | n + 3, x =>
    let loc := compress32 (getBits 2 0 x)
    let next := column n (x / 2 ^ 3)
    (concat (carryW n) loc.1 next.1, concat (sumW n) loc.2 next.2)

/-- `compress_step<T>::build`: the carries out of the most significant column (width `(H+1)/3`) and the new
heap. bit_heap.hpp:483-536. -/
def step : Heap → ℕ × Heap
  | root h b => ((column h b).1, root ((h + 2) / 3) (column h b).2)
  | link h b l =>
    let next := step l
    ((column h b).1, link ((h + 2) / 3 + (topHeight l + 1) / 3) (concat ((topHeight l + 1) / 3) (column h b).2 next.1) next.2)
where
  /-- `height`. bit_heap.hpp:16,34. -/
  topHeight : Heap → ℕ
    | root h _ => h
    | link h _ _ => h

theorem step_height_le (x : Heap) {m : ℕ} (hm : x.maxHeight ≤ m) : (step x).2.maxHeight ≤ (m + 2) / 3 + (m + 1) / 3 := by
  induction x with
  | root h b => simp only [step, maxHeight] at hm ⊢; omega
  | link h b l ih =>
    simp only [step, maxHeight] at hm ⊢
    have h1 : l.maxHeight ≤ m := le_trans (le_max_right _ _) hm
    have h2 : h ≤ m := le_trans (le_max_left _ _) hm
    have h3 : step.topHeight l ≤ m := by
      refine le_trans ?_ h1
      cases l with
      | root => exact le_refl _
      | link => exact le_max_left _ _
    have := ih h1
    omega

/-- `compress(x)`: steps until no column is higher than two. bit_heap.hpp:540-572. -/
def compress (x : Heap) : Heap :=
  if x.maxHeight ≤ 2 then x else compress (step x).2
termination_by x.maxHeight
decreasing_by
  have := step_height_le x (le_refl x.maxHeight)
  omega

/-- `collapse<T>::get_a`; `none` for heights above two. bit_heap.hpp:576-650. -/
def getA : Heap → Option ℕ
  | root h b => match h with
    | 0 => some 0
    | 1 => some 0
    | 2 => some (getBits 0 0 b)
    | _ => none
  | link h b l => match h with
    | 0 => (getA l).map fun r => concat l.width 0 r
    | 1 => (getA l).map fun r => concat l.width (getBits 0 0 b) r
    | 2 => (getA l).map fun r => concat l.width (getBits 0 0 b) r
    | _ => none

/-- `collapse<T>::get_b`; `none` for heights above two. bit_heap.hpp:576-650. -/
def getB : Heap → Option ℕ
  | root h b => match h with
    | 0 => some 0
    | 1 => some b
    | 2 => some (getBits 1 1 b)
    | _ => none
  | link h b l => match h with
    | 0 => (getB l).map fun r => concat l.width 0 r
    | 1 => (getB l).map fun r => concat l.width 0 r
    | 2 => (getB l).map fun r => concat l.width (getBits 1 1 b) r
    | _ => none

/-- `bit_heap_collapse(x)`. bit_heap.hpp:652-659. -/
def collapse (x : Heap) : Option ℕ := (getA x).bind fun a => (getB x).map fun b => addW x.width a b

/-- One tile: `bit_heap_mul_build<TILE,WA,WB,false,false>`. bit_heap_mul.hpp:15-28. -/
def mulTile (wa wb a b : ℕ) : Heap := ofUint (wa + wb - 1) (a * b)

/-- `bit_heap_mul_build<TILE,WA,WB,false,splitB>`: split along `B`, peeling `TILE` bits at a time. `none` if a
merge does not compile, or for the endless template recursion when `TILE = 0`. bit_heap_mul.hpp:15-65. -/
def mulSplitB (tile wa wb a b : ℕ) : Option Heap :=
  if wb > tile then
    if tile = 0 then none
    else (mulSplitB tile wa (wb - tile) a (b % 2 ^ (wb - tile))).bind fun lo =>
      merge (shiftLeft (wb - tile) (mulTile wa tile a (b / 2 ^ (wb - tile)))) lo
  else some (mulTile wa wb a b)
termination_by wb

/-- `bit_heap_mul_build<TILE,WA,WB,splitA,splitB>`. bit_heap_mul.hpp:67-113. -/
def mulSplitA (tile wa wb a b : ℕ) : Option Heap :=
  if wa > tile then
    if wb > tile then
      if tile = 0 then none
      else (mulSplitB tile tile wb (a / 2 ^ (wa - tile)) b).bind fun hi =>
        (mulSplitA tile (wa - tile) wb (a % 2 ^ (wa - tile)) b).bind fun lo =>
          merge (shiftLeft (wa - tile) hi) lo
    else mulSplitB tile wb wa b a
  else mulSplitB tile wa wb a b
termination_by wa

/-- `bit_heap_mul<SPLIT>(a,b)`. bit_heap_mul.hpp:116-120. -/
def mul (split wa wb a b : ℕ) : Option Heap := mulSplitA split wa wb a b

end Heap

/-! ## Row heaps: `row_heap_holder<W,D>` is the list of its `D` rows. row_heap.hpp:13-20. -/

namespace Rows

/-- `row_heap_compressor<W,D,...>::compress`. row_heap.hpp:45-88. -/
def compressStep (w : ℕ) : List ℕ → List ℕ
  | a :: b :: c :: rest =>
    (a ^^^ b ^^^ c) ::
      (if w > 1 then ((a &&& b) ||| (b &&& c) ||| (a &&& c)) * 2 % 2 ^ w else 0) :: compressStep w rest
  | rest => rest

theorem compressStep_length (w : ℕ) : ∀ rows : List ℕ, (compressStep w rows).length = rows.length / 3 * 2 + rows.length % 3
  | [] => by simp [compressStep]
  | [_] => by simp [compressStep]
  | [_, _] => by simp [compressStep]
  | a :: b :: c :: rest => by
    have := compressStep_length w rest
    simp only [compressStep, List.length_cons, this]
    omega

/-- `compress(bh)`, `row_heap_compress_iterate`; `none` for fewer than two rows (static assertion).
row_heap.hpp:91-128. -/
def compress (w : ℕ) (rows : List ℕ) : Option (List ℕ) :=
  if rows.length = 2 then some rows
  else if rows.length < 2 then none
  else compress w (compressStep w rows)
termination_by rows.length
decreasing_by
  rw [compressStep_length]
  omega

/-- `collapse(bh)`; `none` unless there are two rows (static assertion). row_heap.hpp:130-135. -/
def collapse (w : ℕ) : List ℕ → Option ℕ
  | [a, b] => some (addW w a b)
  | _ => none

/-- `row_heap_to_mpz(r,heap)`. row_heap.hpp:138-156. -/
def toMpz (w : ℕ) (rows : List ℕ) : ℕ := (rows.foldl (· + ·) 0) % 2 ^ w

/-- `fw_uint_to_row_heap(x)`. row_heap.hpp:159-165. -/
def ofUint (x : ℕ) : List ℕ := [x]

/-- `operator+` on row heaps (the rows are zero-extended). row_heap.hpp:167-181. -/
def add (a b : List ℕ) : List ℕ := a ++ b

/-- `operator+` of a row heap and a number. row_heap.hpp:183-194. -/
def addUint (a : List ℕ) (b : ℕ) : List ℕ := a ++ [b]

end Rows

end Thls
