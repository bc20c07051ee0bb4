import Verif.Model.CtVec
import Verif.SpecCt
import Mathlib.Data.List.Count
import Mathlib.Tactic.Ring
import Mathlib.Tactic.Linarith

/-! # Lemmas about the compile-time vectors -/

namespace Thls.Ct
open Spec

namespace Vec
variable {α β : Type}

theorem toList_length (v : Vec α) : v.toList.length = v.size := by
  induction v with
  | empty => rfl
  | leaf => rfl
  | branch l r hl hr => simp [toList, size, hl, hr]

theorem Full.size_pos {v : Vec α} (h : v.Full) : 1 ≤ v.size := by
  induction v with
  | empty => exact h.elim
  | leaf => exact le_refl _
  | branch l r hl hr => have := hl h.1; simp only [size]; omega

theorem read_some {v : Vec α} (h : v.Full) (i : ℤ) : ∃ a, read i v = some a := by
  induction v generalizing i with
  | empty => exact h.elim
  | leaf x => exact ⟨x, rfl⟩
  | branch l r hl hr =>
    obtain ⟨a, ha⟩ := hl h.1 i
    obtain ⟨b, hb⟩ := hr h.2 (i - l.size)
    exact ⟨_, by rw [read, ha, hb]; rfl⟩

theorem read_spec {v : Vec α} (h : v.Full) {i : ℕ} (hi : i < v.size) : read i v = v.toList[i]? := by
  induction v generalizing i with
  | empty => exact h.elim
  | leaf x =>
    have : i = 0 := by simp only [size] at hi; omega
    subst this; rfl
  | branch l r hl hr =>
    obtain ⟨a, ha⟩ := read_some h.1 i
    obtain ⟨b, hb⟩ := read_some h.2 (i - l.size)
    simp only [size] at hi
    rw [read, ha, hb, Option.bind_some, Option.map_some, toList]
    by_cases hc : i < l.size
    · rw [if_pos (by omega), List.getElem?_append_left (by rw [toList_length]; exact hc), ← hl h.1 hc, ha]
    · rw [if_neg (by omega), List.getElem?_append_right (by rw [toList_length]; omega), toList_length, ← hr h.2 (by omega), ← hb]
      congr 1; omega

theorem write_some {v : Vec α} (h : v.Full) (i : ℤ) (w : α) : ∃ v', write i w v = some v' ∧ v'.Full ∧ v'.size = v.size := by
  induction v generalizing i with
  | empty => exact h.elim
  | leaf x => exact ⟨leaf w, rfl, trivial, rfl⟩
  | branch l r hl hr =>
    obtain ⟨a, ha, fa, sa⟩ := hl h.1 i
    obtain ⟨b, hb, fb, sb⟩ := hr h.2 (i - l.size)
    refine ⟨_, by rw [write, ha, hb]; rfl, ?_⟩
    by_cases hc : i < l.size
    · simp only [if_pos hc]; exact ⟨⟨fa, h.2⟩, by simp [size, sa]⟩
    · simp only [if_neg hc]; exact ⟨⟨h.1, fb⟩, by simp [size, sb]⟩

/-- Writing at an index past the end writes the last element. -/
theorem write_spec {v v' : Vec α} (h : v.Full) {i : ℕ} {w : α} (hw : write i w v = some v') :
    v'.toList = v.toList.set (min i (v.size - 1)) w := by
  induction v generalizing i v' with
  | empty => exact h.elim
  | leaf x => cases hw; simp [toList, size]
  | branch l r hl hr =>
    obtain ⟨a, ha, fa, sa⟩ := write_some h.1 i w
    obtain ⟨b, hb, fb, sb⟩ := write_some h.2 (i - l.size) w
    rw [write, ha, hb] at hw
    cases hw
    have pl := h.1.size_pos
    have pr := h.2.size_pos
    by_cases hc : i < l.size
    · have hc' : (i : ℤ) < l.size := by omega
      simp only [if_pos hc', toList]
      rw [hl h.1 ha, List.set_append_left _ _ (by rw [toList_length]; simp only [size]; omega)]
      congr 2
      simp only [size]; omega
    · have hc' : ¬ (i : ℤ) < l.size := by omega
      simp only [if_neg hc', toList]
      have hb' : write ((i - l.size : ℕ) : ℤ) w r = some b := by rw [← hb]; congr 1; omega
      rw [hr h.2 hb', List.set_append_right _ _ (by rw [toList_length]; simp only [size]; omega)]
      congr 2
      simp only [size, toList_length]; omega

theorem swap_spec {v : Vec α} (h : v.Full) {i j : ℕ} (hi : i < v.size) (hj : j < v.size) :
    ∃ v', swap i j v = some v' ∧ v'.Full ∧ v'.size = v.size ∧ v'.toList = swapAt v.toList i j := by
  obtain ⟨a, ha⟩ := read_some h i
  obtain ⟨b, hb⟩ := read_some h j
  obtain ⟨v1, h1, f1, s1⟩ := write_some h j a
  obtain ⟨v2, h2, f2, s2⟩ := write_some f1 i b
  refine ⟨v2, by rw [swap, ha, hb, Option.bind_some, Option.bind_some, h1, Option.bind_some, h2], f2, by rw [s2, s1], ?_⟩
  have e1 : v.toList[i]? = some a := by rw [← read_spec h hi, ha]
  have e2 : v.toList[j]? = some b := by rw [← read_spec h hj, hb]
  rw [write_spec f1 h2, write_spec h h1, swapAt, e1, e2]
  have m1 : min j (v.size - 1) = j := by omega
  have m2 : min i (v1.size - 1) = i := by omega
  rw [m1, m2]
  by_cases hij : i = j
  · subst hij
    rw [e1] at e2; cases e2
    rfl
  · rw [List.set_comm _ _ (Ne.symm hij)]

theorem swapAt_perm {l : List α} (i j : ℕ) : (swapAt l i j).Perm l := by
  unfold swapAt
  split
  · rename_i a b h1 h2
    obtain ⟨hi, rfl⟩ := List.getElem?_eq_some_iff.mp h1
    obtain ⟨hj, rfl⟩ := List.getElem?_eq_some_iff.mp h2
    exact List.set_set_perm hi hj
  · exact List.Perm.refl _

theorem shuffle_perm {ρ : Type} (value : ρ → ℕ) (next : ρ → ρ) (n : ℕ) (s : ρ) (l : List α) :
    (shuffle value next n s l).Perm l := by
  induction n generalizing s l with
  | zero => exact List.Perm.refl _
  | succ n ih =>
    cases n with
    | zero => exact List.Perm.refl _
    | succ n => exact (ih _ _).trans (swapAt_perm _ _)

theorem permuteImpl_spec {ρ : Type} (value : ρ → ℕ) (next : ρ → ρ) (j : ℕ) (s : ρ) {v : Vec α} (h : v.Full)
    (hj : j + 1 ≤ v.size) : ∃ v', permuteImpl value next (j + 1) s v = some (v', next^[j] s) ∧ v'.Full ∧ v'.size = v.size ∧
      v'.toList = shuffle value next (j + 1) s v.toList := by
  induction j generalizing s v with
  | zero => exact ⟨v, rfl, h, rfl, rfl⟩
  | succ j ih =>
    have hr : value s / 2 ^ 16 % (j + 2) < v.size := lt_of_lt_of_le (Nat.mod_lt _ (by omega)) hj
    have hi : j + 2 - 1 < v.size := by omega
    obtain ⟨v1, h1, f1, s1, l1⟩ := swap_spec h hi hr
    obtain ⟨v2, h2, f2, s2, l2⟩ := ih (next s) f1 (by omega)
    refine ⟨v2, ?_, f2, by rw [s2, s1], ?_⟩
    · rw [permuteImpl]
      rw [if_pos ⟨hi, hr⟩, h1, Option.bind_some, h2, Function.iterate_succ_apply]
    · rw [l2, l1]; rfl

theorem create_spec (n : ℕ) (v : α) : (create n v).toList = List.replicate n v ∧ (1 ≤ n → (create n v).Full) ∧
    (create n v).size = n := by
  induction n using Nat.strong_induction_on with
  | _ n ih =>
    rw [create]
    by_cases h0 : n = 0
    · subst h0; exact ⟨rfl, fun h => by omega, rfl⟩
    · by_cases h1 : n = 1
      · subst h1; exact ⟨rfl, fun _ => trivial, rfl⟩
      · rw [if_neg h0, if_neg h1]
        obtain ⟨a1, a2, a3⟩ := ih (n / 2) (by omega)
        obtain ⟨b1, b2, b3⟩ := ih (n - n / 2) (by omega)
        refine ⟨?_, fun _ => ⟨a2 (by omega), b2 (by omega)⟩, by simp only [size]; omega⟩
        rw [toList, a1, b1, ← List.replicate_add]; congr 1; omega

theorem rotationImpl_spec (loc o mod : ℕ) (hl : 1 ≤ loc) : ∃ v, rotationImpl o loc mod = some v ∧ v.Full ∧ v.size = loc ∧
    v.toList = (List.range loc).map fun i => (o + i) % mod := by
  induction loc using Nat.strong_induction_on generalizing o with
  | _ loc ih =>
    rw [rotationImpl]
    by_cases h1 : loc = 1
    · subst h1; exact ⟨_, rfl, trivial, rfl, by simp [toList]⟩
    · rw [if_neg (by omega), if_neg h1]
      obtain ⟨a, a1, a2, a3, a4⟩ := ih (loc / 2) (by omega) o (by omega)
      obtain ⟨b, b1, b2, b3, b4⟩ := ih (loc - loc / 2) (by omega) (o + loc / 2) (by omega)
      refine ⟨branch a b, by rw [a1, Option.bind_some, b1]; rfl, ⟨a2, b2⟩, by simp only [size]; omega, ?_⟩
      rw [toList, a4, b4]
      conv_rhs => rw [show loc = loc / 2 + (loc - loc / 2) by omega, List.range_add, List.map_append, List.map_map]
      congr 1
      apply List.map_congr_left
      intro i _
      simp [add_assoc]

theorem forEach_spec {v : Vec α} (h : v.Full) (off : ℕ) : forEach off v = some (v.toList.mapIdx fun i a => (off + i, a)) := by
  induction v generalizing off with
  | empty => exact h.elim
  | leaf x => rfl
  | branch l r hl hr =>
    rw [forEach, hl h.1, hr h.2, Option.bind_some, Option.map_some, toList, List.mapIdx_append, toList_length]
    congr 2
    simp only [add_assoc, add_comm, add_left_comm]

theorem mapReduce_spec {v : Vec α} (h : v.Full) (f : ℕ → α → Option β) (map : ℕ → α → β)
    (reduce : β → β → β) (e : β) (hassoc : ∀ a b c, reduce (reduce a b) c = reduce a (reduce b c)) (hl : ∀ a, reduce e a = a)
    (hr : ∀ a, reduce a e = a) (off : ℕ) (hf : ∀ i, ∀ a ∈ v.toList, f i a = some (map i a)) :
    mapReduce f reduce off v = some ((v.toList.mapIdx fun i a => map (off + i) a).foldr reduce e) := by
  induction v generalizing off with
  | empty => exact h.elim
  | leaf x => simp [mapReduce, toList, hr]; exact hf off x (by simp [toList])
  | branch l r ihl ihr =>
    rw [mapReduce, ihl h.1 _ (fun i a ha => hf i a (List.mem_append_left _ ha)),
      ihr h.2 _ (fun i a ha => hf i a (List.mem_append_right _ ha)), Option.bind_some, Option.map_some, toList,
      List.mapIdx_append, toList_length, List.foldr_append]
    congr 1
    have key : ∀ (xs : List β) (b : β), reduce (xs.foldr reduce e) b = xs.foldr reduce b := by
      intro xs b
      induction xs with
      | nil => exact hl b
      | cons x xs ih => rw [List.foldr_cons, List.foldr_cons, hassoc, ih]
    rw [key]
    simp only [add_assoc, add_comm, add_left_comm]

end Vec

/-! ## Unique elements -/

/-- `x` lies above the bound `v`. -/
def Above : Bound → ℤ → Prop
  | .lower, _ => True
  | .val p, x => p < x
  | .upper, _ => False

instance (v : Bound) : DecidablePred (Above v) := fun x => by cases v <;> unfold Above <;> infer_instance

theorem nextAbove_spec {vec : Vec Bound} (h : vec.Full) {xs : List ℤ} (hx : vec.toList = xs.map .val) {v : Bound} (hv : v ≠ .upper) :
    ∃ c, nextAbove v vec = some c ∧ ((c = .upper ∧ ∀ x ∈ xs, ¬ Above v x) ∨
      ∃ y, c = .val y ∧ y ∈ xs ∧ Above v y ∧ ∀ x ∈ xs, Above v x → y ≤ x) := by
  induction vec generalizing xs with
  | empty => exact h.elim
  | leaf b =>
    simp only [Vec.toList] at hx
    obtain ⟨x, rfl⟩ : ∃ x, xs = [x] := by
      apply List.length_eq_one_iff.mp
      have := congrArg List.length hx
      simpa using this.symm
    simp only [List.map_cons, List.map_nil, List.cons.injEq, and_true] at hx
    subst hx
    cases v with
    | upper => exact (hv rfl).elim
    | lower => exact ⟨.val x, rfl, Or.inr ⟨x, rfl, by simp, trivial, by simp⟩⟩
    | val p =>
      by_cases hp : p < x
      · refine ⟨.val x, by simp [nextAbove, compare, hp], Or.inr ⟨x, rfl, by simp, hp, by simp⟩⟩
      · refine ⟨.upper, ?_, Or.inl ⟨rfl, by simpa [Above] using hp⟩⟩
        simp only [nextAbove, compare, if_neg hp, Option.map_some]
        rw [if_neg (by split_ifs <;> omega)]
  | branch l r hl hr =>
    simp only [Vec.toList] at hx
    obtain ⟨xl, xr, rfl, h1, h2⟩ := List.append_eq_map_iff.mp hx
    obtain ⟨cl, el, sl⟩ := hl h.1 h1.symm
    obtain ⟨cr, er, sr⟩ := hr h.2 h2.symm
    rw [nextAbove, el, er, Option.bind_some, Option.bind_some]
    rcases sl with ⟨rfl, nl⟩ | ⟨yl, rfl, ml, al, bl⟩ <;> rcases sr with ⟨rfl, nr⟩ | ⟨yr, rfl, mr, ar, br⟩
    · refine ⟨.upper, rfl, Or.inl ⟨rfl, ?_⟩⟩
      intro x hx; rcases List.mem_append.mp hx with hx | hx
      · exact nl x hx
      · exact nr x hx
    · refine ⟨.val yr, rfl, Or.inr ⟨yr, rfl, List.mem_append_right _ mr, ar, ?_⟩⟩
      intro x hx ha; rcases List.mem_append.mp hx with hx | hx
      · exact (nl x hx ha).elim
      · exact br x hx ha
    · refine ⟨.val yl, rfl, Or.inr ⟨yl, rfl, List.mem_append_left _ ml, al, ?_⟩⟩
      intro x hx ha; rcases List.mem_append.mp hx with hx | hx
      · exact bl x hx ha
      · exact (nr x hx ha).elim
    · by_cases hc : yl < yr
      · refine ⟨.val yl, by simp [compare, hc], Or.inr ⟨yl, rfl, List.mem_append_left _ ml, al, ?_⟩⟩
        intro x hx ha; rcases List.mem_append.mp hx with hx | hx
        · exact bl x hx ha
        · exact le_trans (le_of_lt hc) (br x hx ha)
      · refine ⟨.val yr, ?_, Or.inr ⟨yr, rfl, List.mem_append_right _ mr, ar, ?_⟩⟩
        · simp only [compare, if_neg hc, Option.map_some]
          rw [if_neg (by split_ifs <;> omega)]
        · intro x hx ha; rcases List.mem_append.mp hx with hx | hx
          · exact le_trans (not_lt.mp hc) (bl x hx ha)
          · exact br x hx ha

theorem countP_above_lt {xs : List ℤ} {v : Bound} {y : ℤ} (hm : y ∈ xs) (ha : Above v y) :
    xs.countP (fun x => decide (Above (.val y) x)) < xs.countP (fun x => decide (Above v x)) := by
  induction xs with
  | nil => simp at hm
  | cons x xs ih =>
    have himp : ∀ z, Above (.val y) z → Above v z := by
      intro z hz
      cases v with
      | lower => trivial
      | val p => exact lt_trans ha hz
      | upper => exact ha.elim
    have hmono : xs.countP (fun x => decide (Above (.val y) x)) ≤ xs.countP (fun x => decide (Above v x)) := by
      apply List.countP_mono_left
      intro z _ hz
      simpa using himp z (by simpa using hz)
    rw [List.countP_cons, List.countP_cons]
    by_cases hxy : x = y
    · subst hxy
      have h1 : ¬ Above (.val x) x := lt_irrefl _
      simp only [h1, ha, decide_false, decide_true, if_true]
      simp; omega
    · have := ih ((List.mem_cons.mp hm).resolve_left (Ne.symm hxy))
      by_cases h1 : Above (.val y) x
      · simp only [h1, himp x h1, decide_true, if_true]; omega
      · simp only [h1, decide_false]
        simp only [Bool.false_eq_true, if_false]
        omega

theorem uniqueChain_spec {vec : Vec Bound} (h : vec.Full) {xs : List ℤ} (hx : vec.toList = xs.map .val) (fuel : ℕ) {v : Bound}
    (hv : v ≠ .upper) (hf : xs.countP (fun x => decide (Above v x)) < fuel) :
    ∃ ys : List ℤ, uniqueChain vec fuel v = some (ys.map .val ++ [.upper]) ∧ ys.Pairwise (· < ·) ∧
      (∀ y ∈ ys, Above v y) ∧ (∀ x, x ∈ ys ↔ x ∈ xs ∧ Above v x) := by
  induction fuel generalizing v with
  | zero => omega
  | succ fuel ih =>
    obtain ⟨c, hc, hs⟩ := nextAbove_spec h hx hv
    have hun : uniqueChain vec (fuel + 1) v = (uniqueChain vec fuel c).map fun next => c :: next := by
      cases v with
      | upper => exact (hv rfl).elim
      | lower => rw [uniqueChain, hc, Option.bind_some]; simp
      | val p => rw [uniqueChain, hc, Option.bind_some]; simp
    rcases hs with ⟨rfl, hn⟩ | ⟨y, rfl, hm, ha, hb⟩
    · refine ⟨[], ?_, List.Pairwise.nil, by simp, ?_⟩
      · rw [hun]; cases fuel <;> rfl
      · intro x; simp only [List.not_mem_nil, false_iff, not_and]; exact fun hx => hn x hx
    · obtain ⟨ys, h1, h2, h3, h4⟩ := ih (v := .val y) (by simp) (by have := countP_above_lt hm ha; omega)
      refine ⟨y :: ys, by rw [hun, h1]; rfl, List.Pairwise.cons (fun z hz => h3 z hz) h2, ?_, ?_⟩
      · intro z hz
        rcases List.mem_cons.mp hz with rfl | hz
        · exact ha
        · have := h3 z hz
          cases v with
          | lower => trivial
          | val p => exact lt_trans ha this
          | upper => exact ha.elim
      · intro x
        rw [List.mem_cons, h4]
        constructor
        · rintro (rfl | ⟨h5, h6⟩)
          · exact ⟨hm, ha⟩
          · refine ⟨h5, ?_⟩
            cases v with
            | lower => trivial
            | val p => exact lt_trans ha h6
            | upper => exact ha.elim
        · rintro ⟨h5, h6⟩
          rcases eq_or_lt_of_le (hb x h5 h6) with h7 | h7
          · exact Or.inl h7.symm
          · exact Or.inr ⟨h5, h7⟩

theorem uniqueN_spec (ys : List ℤ) : uniqueN (ys.map .val ++ [.upper]) = ys.length := by
  induction ys with
  | nil => rfl
  | cons y ys ih => simp only [List.map_cons, List.cons_append, uniqueN, List.length_cons, ih]; simp; omega

theorem uniqueBuild_spec (ys : List ℤ) (hy : ys ≠ []) (i : ℕ) {acc : Vec Bound} (h : acc.Full) (hi : i + ys.length = acc.size) :
    ∃ acc', uniqueBuild (ys.map .val ++ [.upper]) i acc = some acc' ∧ acc'.Full ∧ acc'.size = acc.size ∧
      acc'.toList = acc.toList.take i ++ ys.map .val := by
  induction ys generalizing i with
  | nil => exact (hy rfl).elim
  | cons y ys ih =>
    by_cases hn : ys = []
    · subst hn
      simp only [List.length_cons, List.length_nil] at hi
      obtain ⟨a, ha, fa, sa⟩ := Vec.write_some h ((i + 1 : ℕ) : ℤ) .upper
      obtain ⟨b, hb, fb, sb⟩ := Vec.write_some fa (i : ℤ) (.val y)
      refine ⟨b, by simp only [List.map_cons, List.map_nil, List.cons_append, List.nil_append, uniqueBuild, Option.bind_some, ha, hb], fb,
        by rw [sb, sa], ?_⟩
      rw [Vec.write_spec fa hb, Vec.write_spec h ha, sa]
      have e1 : min (i + 1) (acc.size - 1) = i := by omega
      have e2 : min i (acc.size - 1) = i := by omega
      rw [e1, e2, List.set_set]
      have hl : i + 1 = acc.toList.length := by rw [Vec.toList_length]; omega
      rw [List.set_eq_take_append_cons_drop, if_pos (by omega), List.drop_eq_nil_of_le (by omega)]
      rfl
    · obtain ⟨a, ha, fa, sa, la⟩ := ih hn (i + 1) (by simp only [List.length_cons] at hi; omega)
      obtain ⟨b, hb, fb, sb⟩ := Vec.write_some fa (i : ℤ) (.val y)
      refine ⟨b, by rw [List.map_cons, List.cons_append, uniqueBuild, ha, Option.bind_some, hb], fb, by rw [sb, sa], ?_⟩
      simp only [List.length_cons] at hi
      have hlen : acc.toList.length = acc.size := Vec.toList_length acc
      rw [Vec.write_spec fa hb, sa, la, show min i (acc.size - 1) = i by omega]
      have ht : (acc.toList.take (i + 1)).length = i + 1 := by rw [List.length_take]; omega
      rw [List.set_append_left _ _ (by omega), List.set_eq_take_append_cons_drop, if_pos (by omega), List.take_take,
        List.drop_eq_nil_of_le (by omega)]
      simp

theorem unique_spec {vec : Vec Bound} (h : vec.Full) {xs : List ℤ} (hx : vec.toList = xs.map .val) :
    ∃ (v : Vec Bound) (ys : List ℤ), unique vec = some v ∧ v.Full ∧ v.toList = ys.map .val ∧ ys.Pairwise (· < ·) ∧
      (∀ x, x ∈ ys ↔ x ∈ xs) := by
  have hsz : vec.size = xs.length := by rw [← Vec.toList_length, hx, List.length_map]
  obtain ⟨ys, h1, h2, -, h4⟩ := uniqueChain_spec h hx (vec.size + 1) (v := .lower) (by simp)
    (by have := List.countP_le_length (p := fun x => decide (Above .lower x)) (l := xs); omega)
  have hmem : ∀ x, x ∈ ys ↔ x ∈ xs := fun x => by rw [h4]; exact ⟨fun h => h.1, fun h => ⟨h, trivial⟩⟩
  have hne : ys ≠ [] := by
    rintro rfl
    have := h.size_pos
    cases xs with
    | nil => simp at hsz; omega
    | cons x xs => have := (hmem x).mpr (by simp); simp at this
  obtain ⟨c1, c2, c3⟩ := Vec.create_spec ys.length (Bound.val 0)
  have hpos : 1 ≤ ys.length := List.length_pos_iff.mpr hne
  obtain ⟨v, hv, fv, -, lv⟩ := uniqueBuild_spec ys hne 0 (c2 hpos) (by omega)
  refine ⟨v, ys, ?_, fv, by simpa using lv, h2, hmem⟩
  rw [unique, h1, Option.bind_some, uniqueN_spec, hv]

end Thls.Ct
