import Verif.Model.Heap

/-! # The programs test_bit_heap.cpp and test_row_heap.cpp

The functions return the number of complaints printed (`none`: a part does not compile). The widths for which each level is
instantiated are parameters: the macro `QUICK` chooses between two sets of them. `test_level_5` of test_row_heap.cpp is never
instantiated. A width is at least one. -/

namespace Thls.HeapTest

/-- `if(mpz_cmp(ref, got)) { std::cerr<<... }`. test_bit_heap.cpp:45-48. -/
def report (ref got : ℕ) : ℕ := if ref ≠ got then 1 else 0

/-- `for(int i=0; i<(1<<W); i++)`, adding up complaints. test_bit_heap.cpp:26. -/
def loop (n : ℕ) (body : ℕ → Option ℕ) : Option ℕ :=
  (List.range n).foldl (fun acc i => acc.bind fun k => (body i).map (k + ·)) (some 0)

/-- The calls of the next level, one for each width. test_bit_heap.cpp:104-110,143-147,159-165. -/
def calls (ws : List ℕ) (f : ℕ → Option ℕ) : Option ℕ :=
  ws.foldl (fun acc w => acc.bind fun k => (f w).map (k + ·)) (some 0)

/-- `test_level_4<WA>(b,c,d)`. test_bit_heap.cpp:19-73. -/
def bit4 (wa wb wc wd b c d : ℕ) : Option ℕ :=
  loop (2 ^ wa) fun a => do
    let wt := max (max wc wd) (max wa wb)
    let ab ← Heap.merge (Heap.ofUint (wa - 1) a) (Heap.ofUint (wb - 1) b)
    let cd ← Heap.merge (Heap.ofUint (wc - 1) c) (Heap.ofUint (wd - 1) d)
    let abcd ← Heap.merge ab cd
    let ref := addW wt (addW wt (addW wt a b) c) d
    let comp := Heap.compress abcd
    if comp.maxHeight ≤ 2 then
      let r ← Heap.collapse comp
      if comp.width = wt then some (report ref abcd.toMpz + report ref comp.toMpz + report ref r) else none
    else none

/-- `test_level_3<WA>(b,c)`. test_bit_heap.cpp:75-114. -/
def bit3 (ws4 : List ℕ) (wa wb wc b c : ℕ) : Option ℕ :=
  loop (2 ^ wa) fun a => do
    let wt := max wc (max wa wb)
    let ab ← Heap.merge (Heap.ofUint (wa - 1) a) (Heap.ofUint (wb - 1) b)
    let abc ← Heap.merge ab (Heap.ofUint (wc - 1) c)
    let ref := addW wt (addW wt a b) c
    let k ← calls ws4 fun w => bit4 w wa wb wc a b c
    some (report ref abc.toMpz + k)

/-- `test_level_2<WA>(b)`. test_bit_heap.cpp:117-151. -/
def bit2 (ws3 ws4 : List ℕ) (wa wb b : ℕ) : Option ℕ :=
  loop (2 ^ wa) fun a => do
    let wt := max wa wb
    let ab ← Heap.merge (Heap.ofUint (wa - 1) a) (Heap.ofUint (wb - 1) b)
    let ref := addW wt a b
    let k ← calls ws3 fun w => bit3 ws4 w wa wb a b
    some (report ref ab.toMpz + k)

/-- `test_level_1<W>()` and `test()`: the number of complaints of the program. test_bit_heap.cpp:153-178. -/
def bitTest (ws1 ws2 ws3 ws4 : List ℕ) : Option ℕ :=
  calls ws1 fun w1 => loop (2 ^ w1) fun a => calls ws2 fun w2 => bit2 ws3 ws4 w2 w1 a

/-- `test_level_4<WA>(b,c,d)`. test_row_heap.cpp:78-127. -/
def row4 (wa wb wc wd b c d : ℕ) : Option ℕ :=
  loop (2 ^ wa) fun a => do
    let wt := max (max wc wd) (max wa wb)
    let abcd := Rows.add (Rows.add (Rows.add (Rows.ofUint a) (Rows.ofUint b)) (Rows.ofUint c)) (Rows.ofUint d)
    let ref := addW wt (addW wt (addW wt a b) c) d
    let comp ← Rows.compress wt abcd
    if comp.length ≤ 2 then
      let r ← Rows.collapse wt comp
      some (report ref (Rows.toMpz wt abcd) + report ref (Rows.toMpz wt comp) + report ref r)
    else none

/-- `test_level_3<WA>(b,c)`. test_row_heap.cpp:129-186. -/
def row3 (ws4 : List ℕ) (wa wb wc b c : ℕ) : Option ℕ :=
  loop (2 ^ wa) fun a => do
    let wt := max wc (max wa wb)
    let abc := Rows.add (Rows.add (Rows.ofUint a) (Rows.ofUint b)) (Rows.ofUint c)
    let ref := addW wt (addW wt a b) c
    let comp ← Rows.compress wt abc
    if comp.length ≤ 2 then
      let r ← Rows.collapse wt comp
      let k ← calls ws4 fun w => row4 w wa wb wc a b c
      some (report ref (Rows.toMpz wt abc) + report ref (Rows.toMpz wt comp) + report ref r + k)
    else none

/-- `test_level_2<WA>(b)`. test_row_heap.cpp:188-226. -/
def row2 (ws3 ws4 : List ℕ) (wa wb b : ℕ) : Option ℕ :=
  loop (2 ^ wa) fun a => do
    let wt := max wa wb
    let ab := Rows.add (Rows.ofUint a) (Rows.ofUint b)
    let ref := addW wt a b
    let k ← calls ws3 fun w => row3 ws4 w wa wb a b
    some (report ref (Rows.toMpz wt ab) + k)

/-- `test_level_1<W>()` and `test()`: the number of complaints of the program. test_row_heap.cpp:228-279. -/
def rowTest (ws1 ws2 ws3 ws4 : List ℕ) : Option ℕ :=
  calls ws1 fun w1 => loop (2 ^ w1) fun a => do
    let k ← calls ws2 fun w2 => row2 ws3 ws4 w2 w1 a
    some (report a (Rows.toMpz w1 (Rows.ofUint a)) + k)

end Thls.HeapTest
