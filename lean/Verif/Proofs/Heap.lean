import Verif.Model.Heap
import Verif.SpecHeap
import Verif.Proofs.Pack
import Mathlib.Data.Nat.Bitwise
import Mathlib.Data.Int.ModEq

/-! # Lemmas about heaps -/

namespace Thls
open Spec

theorem bitCount_zero (x : ℕ) : bitCount 0 x = 0 := rfl

theorem bitCount_succ (h x : ℕ) : bitCount (h + 1) x = x % 2 + bitCount h (x / 2) := by
  unfold bitCount
  rw [List.range_succ_eq_map, List.map_cons, List.sum_cons, List.map_map, pow_zero, Nat.div_one]
  congr 2
  apply List.map_congr_left
  intro i _
  simp only [Function.comp_apply]
  rw [Nat.div_div_eq_div_mul, pow_succ']

theorem bitCount_add (h k x : ℕ) : bitCount (h + k) x = bitCount h x + bitCount k (x / 2 ^ h) := by
  induction h generalizing x with
  | zero => simp [bitCount_zero]
  | succ n ih =>
    rw [show n + 1 + k = (n + k) + 1 by ring, bitCount_succ, bitCount_succ, ih, Nat.div_div_eq_div_mul, ← pow_succ', add_assoc]

theorem bitCount_mod (h x : ℕ) : bitCount h (x % 2 ^ h) = bitCount h x := by
  induction h generalizing x with
  | zero => rfl
  | succ n ih =>
    rw [bitCount_succ, bitCount_succ, ← ih (x / 2)]
    congr 1
    · rw [pow_succ', Nat.mod_mul_right_mod]
    · rw [pow_succ', Nat.mod_mul_right_div_self]

theorem bitCount_concat {h k a b : ℕ} (hb : b < 2 ^ k) : bitCount (h + k) (concat k a b) = bitCount h a + bitCount k b := by
  rw [add_comm h k, bitCount_add, concat_div hb, ← bitCount_mod k (concat k a b), concat_mod hb, add_comm]

theorem bitCount_one {x : ℕ} (hx : x < 2) : bitCount 1 x = x := by
  rw [bitCount_succ, bitCount_zero, Nat.mod_eq_of_lt hx]; rfl

theorem bitCount_le (h x : ℕ) : bitCount h x ≤ h := by
  induction h generalizing x with
  | zero => exact le_refl _
  | succ n ih => rw [bitCount_succ]; have := ih (x / 2); omega

namespace Heap

theorem columns_length (x : Heap) : x.columns.length = x.width := by
  induction x with
  | root => rfl
  | link h b l ih => simp [columns, width, ih]

/-- The sum denoted by a heap. -/
def sum (x : Heap) : ℕ := heapSum x.columns

theorem sum_root (h b : ℕ) : (root h b).sum = bitCount h b := by simp [sum, columns, heapSum]

theorem sum_link (h b : ℕ) (l : Heap) : (link h b l).sum = bitCount h b * 2 ^ l.width + l.sum := by
  simp [sum, columns, heapSum, columns_length]

theorem width_pos (x : Heap) : 1 ≤ x.width := by cases x <;> simp [width]

theorem ofUint_width (n x : ℕ) : (ofUint n x).width = n + 1 := by
  induction n generalizing x with
  | zero => rfl
  | succ n ih => simp [ofUint, width, ih]

theorem ofUint_wf {n x : ℕ} (hx : x < 2 ^ (n + 1)) : (ofUint n x).WF := by
  induction n generalizing x with
  | zero => exact hx
  | succ n ih =>
    refine ⟨?_, ih (Nat.mod_lt _ (by positivity))⟩
    rw [Nat.div_lt_iff_lt_mul (by positivity), ← pow_add]; convert hx using 2; ring

theorem ofUint_sum {n x : ℕ} (hx : x < 2 ^ (n + 1)) : (ofUint n x).sum = x := by
  induction n generalizing x with
  | zero => rw [ofUint, sum_root, bitCount_one hx]
  | succ n ih =>
    have h2 : x / 2 ^ (n + 1) < 2 := by
      rw [Nat.div_lt_iff_lt_mul (by positivity)]; rw [pow_succ] at hx; linarith
    rw [ofUint, sum_link, ofUint_width, ih (Nat.mod_lt _ (by positivity)), bitCount_one h2, mul_comm, Nat.div_add_mod]

theorem ofUint_maxHeight (n x : ℕ) : (ofUint n x).maxHeight = 1 := by
  induction n generalizing x with
  | zero => rfl
  | succ n ih => simp [ofUint, maxHeight, ih]

theorem addColumn_eq (h b d : ℕ) : addColumn h b d = d + bitCount h b := by
  induction h generalizing b d with
  | zero => rfl
  | succ n ih =>
    rw [addColumn, ih, bitCount_succ]
    by_cases c : b % 2 = 1
    · rw [if_pos c]; omega
    · rw [if_neg c]; omega

theorem toMpzGo_eq (x : Heap) (d : ℕ) : toMpzGo d x = d * 2 ^ (x.width - 1) + x.sum := by
  induction x generalizing d with
  | root h b => simp [toMpzGo, addColumn_eq, sum_root, width]
  | link h b l ih =>
    rw [toMpzGo, ih, addColumn_eq, sum_link]
    have : 2 ^ l.width = 2 * 2 ^ (l.width - 1) := by
      rw [← pow_succ']; congr 1; have := width_pos l; omega
    simp only [width, Nat.add_sub_cancel]
    rw [this]; ring

theorem toMpz_eq (x : Heap) : x.toMpz = x.sum % 2 ^ x.width := by
  rw [toMpz, toMpzGo_eq]; simp

theorem mergeEq_some {a b : Heap} (h : a.width = b.width) (hb : b.WF) :
    ∃ m, mergeEq a b = some m ∧ m.width = a.width ∧ m.sum = a.sum + b.sum ∧ (a.WF → m.WF) ∧
      m.maxHeight ≤ a.maxHeight + b.maxHeight := by
  induction a generalizing b with
  | root ha ba =>
    cases b with
    | root h' b' =>
      refine ⟨_, rfl, rfl, ?_, fun hw => concat_lt hw hb, le_refl _⟩
      rw [sum_root, sum_root, sum_root, bitCount_concat hb]
    | link h' b' l' => simp [width] at h; have := width_pos l'; omega
  | link ha ba l ih =>
    cases b with
    | root h' b' => simp [width] at h; have := width_pos l; omega
    | link h' b' l' =>
      obtain ⟨m, hm, h1, h2, h3, h4⟩ := ih (b := l') (by simpa [width] using h) hb.2
      refine ⟨link (ha + h') (concat h' ba b') m, by simp [mergeEq, hm], by simp [width, h1], ?_, ?_, ?_⟩
      · have : l.width = l'.width := by simpa [width] using h
        rw [sum_link, sum_link, sum_link, bitCount_concat hb.1, h1, h2, this]; ring
      · exact fun hw => ⟨concat_lt hw.1 hb.1, h3 hw.2⟩
      · simp only [maxHeight]; omega

theorem pad_props (n : ℕ) (x : Heap) : (pad n x).width = n + x.width ∧ (pad n x).sum = x.sum ∧ (x.WF → (pad n x).WF) ∧
    (pad n x).maxHeight = x.maxHeight := by
  induction n with
  | zero => exact ⟨by simp [pad], rfl, id, rfl⟩
  | succ n ih =>
    obtain ⟨h1, h2, h3, h4⟩ := ih
    refine ⟨by simp [pad, width, h1]; ring, ?_, fun hw => ⟨by simp, h3 hw⟩, by simp [pad, maxHeight, h4]⟩
    rw [pad, sum_link, bitCount_zero, h2]; simp

theorem zeros_props (n : ℕ) : (zeros n).width = n + 1 ∧ (zeros n).sum = 0 ∧ (zeros n).WF ∧ (zeros n).maxHeight = 0 := by
  induction n with
  | zero => exact ⟨rfl, rfl, by simp [zeros, WF], rfl⟩
  | succ n ih =>
    obtain ⟨h1, h2, h3, h4⟩ := ih
    refine ⟨by simp [zeros, width, h1], ?_, ⟨by simp, h3⟩, by simp [zeros, maxHeight, h4]⟩
    rw [zeros, sum_link, bitCount_zero, h2]; simp

theorem shiftLeft_props (n : ℕ) (x : Heap) : (shiftLeft n x).width = x.width + n ∧ (shiftLeft n x).sum = x.sum * 2 ^ n ∧
    (x.WF → (shiftLeft n x).WF) ∧ (shiftLeft n x).maxHeight = x.maxHeight := by
  cases n with
  | zero => exact ⟨by simp [shiftLeft], by simp [shiftLeft], by simp [shiftLeft], by simp [shiftLeft]⟩
  | succ n =>
    induction x with
    | root h b =>
      obtain ⟨h1, h2, h3, h4⟩ := zeros_props n
      refine ⟨by simp [shiftLeft, width, h1]; ring, ?_, fun hw => ⟨hw, h3⟩, by simp [shiftLeft, maxHeight, h4]⟩
      rw [shiftLeft, sum_link, sum_root, h1, h2, add_zero]
    | link h b l ih =>
      obtain ⟨h1, h2, h3, h4⟩ := ih
      refine ⟨by simp [shiftLeft, width, h1]; ring, ?_, fun hw => ⟨hw.1, h3 hw.2⟩, by simp [shiftLeft, maxHeight, h4]⟩
      rw [shiftLeft, sum_link, sum_link, h1, h2, pow_add]; ring

theorem merge_some {a b : Heap} (ha : a.WF) (hb : b.WF) : ∃ m, merge a b = some m ∧ m.width = max a.width b.width ∧
    m.sum = a.sum + b.sum ∧ m.WF ∧ m.maxHeight ≤ a.maxHeight + b.maxHeight := by
  obtain ⟨a1, a2, a3, a4⟩ := pad_props (max a.width b.width - a.width) a
  obtain ⟨b1, b2, b3, b4⟩ := pad_props (max a.width b.width - b.width) b
  obtain ⟨m, hm, h1, h2, h3, h4⟩ := mergeEq_some (a := pad (max a.width b.width - a.width) a)
    (b := pad (max a.width b.width - b.width) b) (by omega) (b3 hb)
  exact ⟨m, hm, by omega, by omega, h3 (a3 ha), by omega⟩

theorem compress32_spec {x : ℕ} (hx : x < 8) : bitCount 3 x = 2 * (compress32 x).1 + (compress32 x).2 ∧
    (compress32 x).1 < 2 ∧ (compress32 x).2 < 2 := by
  interval_cases x <;> decide

theorem carryW_eq : ∀ n, carryW n = (n + 1) / 3
  | 0 => rfl
  | 1 => rfl
  | 2 => rfl
  | n + 3 => by rw [carryW, carryW_eq n]; omega

theorem sumW_eq : ∀ n, sumW n = (n + 2) / 3
  | 0 => rfl
  | 1 => rfl
  | 2 => rfl
  | n + 3 => by rw [sumW, sumW_eq n]; omega

theorem column_spec : ∀ (h x : ℕ), x < 2 ^ h → bitCount h x = 2 * bitCount ((h + 1) / 3) (column h x).1 +
    bitCount ((h + 2) / 3) (column h x).2 ∧ (column h x).1 < 2 ^ ((h + 1) / 3) ∧ (column h x).2 < 2 ^ ((h + 2) / 3)
  | 0, x, _ => by simp [column, bitCount_zero]
  | 1, x, hx => by simp [column, bitCount_zero]; simpa using hx
  | 2, x, hx => by
    have : x < 4 := by simpa using hx
    interval_cases x <;> decide
  | n + 3, x, hx => by
    have h8 : getBits 2 0 x < 8 := getBits_lt 2 0 x
    have hn : x / 2 ^ 3 < 2 ^ n := by
      rw [Nat.div_lt_iff_lt_mul (by positivity), ← pow_add]; exact hx
    obtain ⟨c1, c2, c3⟩ := compress32_spec h8
    obtain ⟨r1, r2, r3⟩ := column_spec n (x / 2 ^ 3) hn
    rw [show (n + 3 + 1) / 3 = (n + 1) / 3 + 1 by omega, show (n + 3 + 2) / 3 = (n + 2) / 3 + 1 by omega]
    simp only [column]
    rw [carryW_eq, sumW_eq, add_comm ((n + 1) / 3) 1, add_comm ((n + 2) / 3) 1, bitCount_concat r2, bitCount_concat r3,
      bitCount_one c2, bitCount_one c3]
    refine ⟨?_, concat_lt (by simpa using c2) r2, concat_lt (by simpa using c3) r3⟩
    have e : bitCount 3 (getBits 2 0 x) = bitCount 3 x := by
      rw [getBits_zero_eq_mod]; exact bitCount_mod 3 x
    rw [add_comm n 3, bitCount_add, ← e, c1, r1]; ring

theorem step_spec (x : Heap) (hx : x.WF) : (step x).2.width = x.width ∧ (step x).2.WF ∧
    (step x).1 < 2 ^ ((step.topHeight x + 1) / 3) ∧
    x.sum = bitCount ((step.topHeight x + 1) / 3) (step x).1 * 2 ^ x.width + (step x).2.sum := by
  induction x with
  | root h b =>
    obtain ⟨r1, r2, r3⟩ := column_spec h b hx
    refine ⟨rfl, r3, r2, ?_⟩
    simp only [step, sum_root, step.topHeight, width]
    rw [r1]; ring
  | link h b l ih =>
    obtain ⟨r1, r2, r3⟩ := column_spec h b hx.1
    obtain ⟨i1, i2, i3, i4⟩ := ih hx.2
    refine ⟨by simp [step, width, i1], ⟨concat_lt r3 i3, i2⟩, r2, ?_⟩
    rw [step, sum_link, sum_link]
    change bitCount h b * 2 ^ l.width + l.sum = bitCount ((h + 1) / 3) (column h b).1 * 2 ^ (l.width + 1) + _
    rw [bitCount_concat i3, r1, i1, i4, pow_succ]; ring

theorem step_sum (x : Heap) (hx : x.WF) : (step x).2.sum % 2 ^ x.width = x.sum % 2 ^ x.width := by
  rw [(step_spec x hx).2.2.2, Nat.add_comm, Nat.add_mul_mod_self_right]

theorem compress_spec (x : Heap) (hx : x.WF) : (compress x).width = x.width ∧ (compress x).WF ∧ (compress x).maxHeight ≤ 2 ∧
    (compress x).sum % 2 ^ x.width = x.sum % 2 ^ x.width := by
  by_cases h : x.maxHeight ≤ 2
  · rw [compress, if_pos h]; exact ⟨rfl, hx, h, rfl⟩
  · rw [compress, if_neg h]
    obtain ⟨s1, s2, -, -⟩ := step_spec x hx
    have hd := step_height_le x (le_refl x.maxHeight)
    have : (step x).2.maxHeight < x.maxHeight := by omega
    obtain ⟨i1, i2, i3, i4⟩ := compress_spec (step x).2 s2
    refine ⟨by rw [i1, s1], i2, i3, ?_⟩
    rw [s1] at i4
    rw [i4, step_sum x hx]
termination_by x.maxHeight

theorem getAB_spec (x : Heap) (hx : x.WF) (h2 : x.maxHeight ≤ 2) :
    ∃ a b, getA x = some a ∧ getB x = some b ∧ a < 2 ^ x.width ∧ b < 2 ^ x.width ∧ a + b = x.sum := by
  induction x with
  | root h b =>
    simp only [maxHeight] at h2
    have hb : b < 2 ^ h := hx
    simp only [sum_root, width]
    interval_cases h
    · exact ⟨0, 0, rfl, rfl, by decide, by decide, by simp [bitCount_zero]⟩
    · exact ⟨0, b, rfl, rfl, by decide, hb, by rw [bitCount_one (by simpa using hb)]; omega⟩
    · refine ⟨_, _, rfl, rfl, getBits_lt 0 0 b, getBits_lt 1 1 b, ?_⟩
      have : b < 4 := by simpa using hb
      interval_cases b <;> decide
  | link h b l ih =>
    simp only [maxHeight] at h2
    obtain ⟨p, q, hp, hq, lp, lq, hs⟩ := ih hx.2 (by omega)
    have hh : h ≤ 2 := by omega
    have hb : b < 2 ^ h := hx.1
    have cl : ∀ {c r : ℕ}, c < 2 → r < 2 ^ l.width → concat l.width c r < 2 ^ (l.width + 1) := by
      intro c r hc hr; rw [add_comm]; exact concat_lt (by simpa using hc) hr
    simp only [sum_link, width, ← hs]
    have g0 : ∀ y, getBits 0 0 y < 2 := fun y => getBits_lt 0 0 y
    have g1 : ∀ y, getBits 1 1 y < 2 := fun y => getBits_lt 1 1 y
    interval_cases h
    · refine ⟨concat l.width 0 p, concat l.width 0 q, by simp [getA, hp], by simp [getB, hq], cl (by decide) lp, cl (by decide) lq, ?_⟩
      simp [concat, bitCount_zero]
    · refine ⟨concat l.width (getBits 0 0 b) p, concat l.width 0 q, by simp [getA, hp], by simp [getB, hq], cl (g0 b) lp, cl (by decide) lq, ?_⟩
      have hb1 : b < 2 := by simpa using hb
      have : getBits 0 0 b = b := getBits_all (by simpa using hb)
      simp only [concat, this, bitCount_one hb1]; ring
    · refine ⟨concat l.width (getBits 0 0 b) p, concat l.width (getBits 1 1 b) q, by simp [getA, hp], by simp [getB, hq], cl (g0 b) lp, cl (g1 b) lq, ?_⟩
      have e : bitCount 2 b = getBits 0 0 b + getBits 1 1 b := by
        have : b < 4 := by simpa using hb
        interval_cases b <;> decide
      simp only [concat, e]; ring

theorem collapse_spec (x : Heap) (hx : x.WF) (h2 : x.maxHeight ≤ 2) : collapse x = some (x.sum % 2 ^ x.width) := by
  obtain ⟨a, b, ha, hb, -, -, hs⟩ := getAB_spec x hx h2
  simp [collapse, ha, hb, addW, hs]

/-! ## Tiled multiplication -/

theorem mulTile_spec {wa wb a b : ℕ} (h : 1 ≤ wa + wb) (ha : a < 2 ^ wa) (hb : b < 2 ^ wb) :
    (mulTile wa wb a b).sum = a * b ∧ (mulTile wa wb a b).width = wa + wb ∧ (mulTile wa wb a b).WF := by
  have hlt : a * b < 2 ^ (wa + wb - 1 + 1) := by
    rw [Nat.sub_add_cancel h, pow_add]
    exact Nat.mul_lt_mul'' ha hb
  exact ⟨ofUint_sum hlt, by rw [mulTile, ofUint_width]; omega, ofUint_wf hlt⟩

theorem mulSplitB_spec {tile wa wb a b : ℕ} (ht : 1 ≤ tile) (hwa : 1 ≤ wa) (ha : a < 2 ^ wa) (hb : b < 2 ^ wb) :
    ∃ m, mulSplitB tile wa wb a b = some m ∧ m.sum = a * b ∧ m.width = wa + wb ∧ m.WF := by
  by_cases h : wb > tile
  · rw [mulSplitB, if_pos h, if_neg (by omega)]
    obtain ⟨lo, h1, h2, h3, h4⟩ := mulSplitB_spec (tile := tile) (wb := wb - tile) ht hwa ha
      (b := b % 2 ^ (wb - tile)) (Nat.mod_lt _ (by positivity))
    have hbhi : b / 2 ^ (wb - tile) < 2 ^ tile := by
      rw [Nat.div_lt_iff_lt_mul (by positivity), ← pow_add]; convert hb using 2; omega
    obtain ⟨t1, t2, t3⟩ := mulTile_spec (wb := tile) (by omega) ha hbhi
    obtain ⟨s1, s2, s3, -⟩ := shiftLeft_props (wb - tile) (mulTile wa tile a (b / 2 ^ (wb - tile)))
    obtain ⟨m, m1, m2, m3, m4, -⟩ := merge_some (s3 t3) h4
    refine ⟨m, by rw [h1, Option.bind_some, m1], ?_, ?_, m4⟩
    · rw [m3, s2, t1, h2]
      conv_rhs => rw [← Nat.div_add_mod b (2 ^ (wb - tile))]
      ring
    · rw [m2, s1, t2, h3]; omega
  · rw [mulSplitB, if_neg h]
    exact ⟨_, rfl, mulTile_spec (by omega) ha hb⟩
termination_by wb

theorem mulSplitA_spec {tile wa wb a b : ℕ} (ht : 1 ≤ tile) (hwa : 1 ≤ wa) (hwb : 1 ≤ wb) (ha : a < 2 ^ wa) (hb : b < 2 ^ wb) :
    ∃ m, mulSplitA tile wa wb a b = some m ∧ m.sum = a * b ∧ m.width = wa + wb ∧ m.WF := by
  rw [mulSplitA]
  by_cases h : wa > tile
  · rw [if_pos h]
    by_cases h' : wb > tile
    · rw [if_pos h', if_neg (by omega)]
      have hahi : a / 2 ^ (wa - tile) < 2 ^ tile := by
        rw [Nat.div_lt_iff_lt_mul (by positivity), ← pow_add]; convert ha using 2; omega
      obtain ⟨hi, i1, i2, i3, i4⟩ := mulSplitB_spec (tile := tile) ht ht hahi hb
      obtain ⟨lo, l1, l2, l3, l4⟩ := mulSplitA_spec (tile := tile) (wa := wa - tile) (a := a % 2 ^ (wa - tile)) ht (by omega) hwb
        (Nat.mod_lt _ (by positivity)) hb
      obtain ⟨s1, s2, s3, -⟩ := shiftLeft_props (wa - tile) hi
      obtain ⟨m, m1, m2, m3, m4, -⟩ := merge_some (s3 i4) l4
      refine ⟨m, by rw [i1, Option.bind_some, l1, Option.bind_some, m1], ?_, ?_, m4⟩
      · rw [m3, s2, i2, l2]
        conv_rhs => rw [← Nat.div_add_mod a (2 ^ (wa - tile))]
        ring
      · rw [m2, s1, i3, l3]; omega
    · rw [if_neg h']
      obtain ⟨m, m1, m2, m3, m4⟩ := mulSplitB_spec (tile := tile) ht hwb hb ha
      exact ⟨m, m1, by rw [m2, mul_comm], by rw [m3, add_comm], m4⟩
  · rw [if_neg h]
    exact mulSplitB_spec ht hwa ha hb
termination_by wa

end Heap

/-! ## Row heaps -/

namespace Rows

/-- A row of full adders: the bitwise sum and majority of three numbers preserve their sum. -/
theorem carry_save (a b c : ℕ) : a + b + c = (a ^^^ b ^^^ c) + 2 * ((a &&& b) ||| (b &&& c) ||| (a &&& c)) := by
  generalize hn : a + b + c = n
  induction n using Nat.strong_induction_on generalizing a b c with
  | _ n ih =>
    by_cases h0 : n = 0
    · have ha : a = 0 := by omega
      have hb : b = 0 := by omega
      have hc : c = 0 := by omega
      subst ha hb hc h0; rfl
    · have hrec := ih (a / 2 + b / 2 + c / 2) (by omega) (a / 2) (b / 2) (c / 2) rfl
      have e1 : (a ^^^ b ^^^ c) / 2 = a / 2 ^^^ b / 2 ^^^ c / 2 := by rw [Nat.xor_div_two, Nat.xor_div_two]
      have e2 : ((a &&& b) ||| (b &&& c) ||| (a &&& c)) / 2 = (a / 2 &&& b / 2) ||| (b / 2 &&& c / 2) ||| (a / 2 &&& c / 2) := by
        rw [Nat.or_div_two, Nat.or_div_two, Nat.and_div_two, Nat.and_div_two, Nat.and_div_two]
      have m1 : (a ^^^ b ^^^ c) % 2 = (a % 2 ^^^ b % 2 ^^^ c % 2) := by
        have h1 := Nat.xor_mod_two_pow (a := a ^^^ b) (b := c) (n := 1)
        have h2 := Nat.xor_mod_two_pow (a := a) (b := b) (n := 1)
        rw [pow_one] at h1 h2
        rw [h1, h2]
      have m2 : ((a &&& b) ||| (b &&& c) ||| (a &&& c)) % 2 = (a % 2 &&& b % 2) ||| (b % 2 &&& c % 2) ||| (a % 2 &&& c % 2) := by
        have h1 := Nat.or_mod_two_pow (a := (a &&& b) ||| (b &&& c)) (b := a &&& c) (n := 1)
        have h2 := Nat.or_mod_two_pow (a := a &&& b) (b := b &&& c) (n := 1)
        have h3 := Nat.and_mod_two_pow (a := a) (b := b) (n := 1)
        have h4 := Nat.and_mod_two_pow (a := b) (b := c) (n := 1)
        have h5 := Nat.and_mod_two_pow (a := a) (b := c) (n := 1)
        rw [pow_one] at h1 h2 h3 h4 h5
        rw [h1, h2, h3, h4, h5]
      have key : ∀ x y z : ℕ, x < 2 → y < 2 → z < 2 → x + y + z = (x ^^^ y ^^^ z) + 2 * ((x &&& y) ||| (y &&& z) ||| (x &&& z)) := by
        intro x y z hx hy hz
        interval_cases x <;> interval_cases y <;> interval_cases z <;> rfl
      have := key (a % 2) (b % 2) (c % 2) (by omega) (by omega) (by omega)
      omega

theorem compressStep_sum {w : ℕ} (hw : 1 ≤ w) : ∀ rows : List ℕ, (compressStep w rows).sum ≡ rows.sum [MOD 2 ^ w]
  | [] => rfl
  | [_] => rfl
  | [_, _] => rfl
  | a :: b :: c :: rest => by
    have ih := compressStep_sum hw rest
    simp only [compressStep, List.sum_cons]
    rw [← add_assoc, ← add_assoc, ← add_assoc, carry_save a b c]
    refine Nat.ModEq.add (Nat.ModEq.add_left _ ?_) ih
    by_cases h : w > 1
    · rw [if_pos h, mul_comm]; exact Nat.mod_modEq _ _
    · have : w = 1 := by omega
      subst this
      rw [if_neg (by omega), pow_one]
      exact ((Nat.modEq_zero_iff_dvd).mpr (Dvd.intro _ rfl)).symm

theorem compressStep_lt {w : ℕ} : ∀ rows : List ℕ, (∀ r ∈ rows, r < 2 ^ w) → ∀ r ∈ compressStep w rows, r < 2 ^ w
  | [], h => h
  | [_], h => h
  | [_, _], h => h
  | a :: b :: c :: rest, h => by
    have ih := compressStep_lt rest (fun r hr => h r (by simp [hr]))
    intro r hr
    simp only [compressStep, List.mem_cons] at hr
    rcases hr with rfl | rfl | hr
    · exact Nat.xor_lt_two_pow (Nat.xor_lt_two_pow (h a (by simp)) (h b (by simp))) (h c (by simp))
    · by_cases hw : w > 1
      · rw [if_pos hw]; exact Nat.mod_lt _ (by positivity)
      · rw [if_neg hw]; positivity
    · exact ih r hr

theorem compress_spec {w : ℕ} (hw : 1 ≤ w) (rows : List ℕ) (h2 : 2 ≤ rows.length) (hr : ∀ r ∈ rows, r < 2 ^ w) :
    ∃ a b, compress w rows = some [a, b] ∧ a < 2 ^ w ∧ b < 2 ^ w ∧ a + b ≡ rows.sum [MOD 2 ^ w] := by
  rw [compress]
  by_cases h : rows.length = 2
  · rw [if_pos h]
    obtain ⟨a, b, rfl⟩ := List.length_eq_two.mp h
    exact ⟨a, b, rfl, hr a (by simp), hr b (by simp), by simp [Nat.ModEq]⟩
  · rw [if_neg h, if_neg (by omega)]
    have hl := compressStep_length w rows
    have : (compressStep w rows).length < rows.length := by omega
    obtain ⟨a, b, e, ha, hb, hs⟩ := compress_spec hw (compressStep w rows) (by omega) (compressStep_lt rows hr)
    exact ⟨a, b, e, ha, hb, hs.trans (compressStep_sum hw rows)⟩
termination_by rows.length

theorem toMpz_eq (w : ℕ) (rows : List ℕ) : toMpz w rows = rows.sum % 2 ^ w := by
  rw [toMpz, List.sum_eq_foldl]

end Rows

end Thls
