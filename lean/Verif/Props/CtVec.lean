import Verif.Proofs.CtVec
import Verif.Proofs.CtRng
import Mathlib.Data.Nat.Log
import Mathlib.Data.List.Nodup

/-! # C40 and C41: compile-time vectors -/

namespace Thls.Ct
open Spec

variable {α β : Type}

/-- C40: reading an element in range. -/
theorem C40_read {v : Vec α} (h : v.Full) {i : ℕ} (hi : i < v.toList.length) : Vec.read i v = some v.toList[i] := by
  rw [Vec.toList_length] at hi
  rw [Vec.read_spec h hi]; exact List.getElem?_eq_getElem _

/-- C40: writing an element in range changes that element only. -/
theorem C40_write {v : Vec α} (h : v.Full) {i : ℕ} (hi : i < v.toList.length) (w : α) :
    ∃ v', Vec.write i w v = some v' ∧ v'.Full ∧ v'.toList = v.toList.set i w := by
  rw [Vec.toList_length] at hi
  obtain ⟨v', h1, h2, -⟩ := Vec.write_some h i w
  refine ⟨v', h1, h2, ?_⟩
  rw [Vec.write_spec h h1, min_eq_left (by omega)]

/-- C40: reading back what was written, and the other elements are as before. -/
theorem C40_read_write {v : Vec α} (h : v.Full) {i j : ℕ} (hi : i < v.toList.length) (hj : j < v.toList.length) (w : α) :
    ∃ v', Vec.write i w v = some v' ∧ Vec.read j v' = if i = j then some w else Vec.read j v := by
  obtain ⟨v', h1, h2, h3⟩ := C40_write h hi w
  refine ⟨v', h1, ?_⟩
  have hj' : j < v'.toList.length := by rw [h3, List.length_set]; exact hj
  rw [C40_read h2 hj', C40_read h hj]
  simp only [h3, List.getElem_set]
  split_ifs <;> rfl

/-- C40: swapping two elements in range exchanges them, and changes no others. -/
theorem C40_swap {v : Vec α} (h : v.Full) {i j : ℕ} (hi : i < v.toList.length) (hj : j < v.toList.length) :
    ∃ v', Vec.swap i j v = some v' ∧ v'.Full ∧ v'.toList.length = v.toList.length ∧ v'.toList.Perm v.toList ∧
      Vec.read i v' = Vec.read j v ∧ Vec.read j v' = Vec.read i v ∧
      ∀ k : ℕ, k < v.toList.length → k ≠ i → k ≠ j → Vec.read k v' = Vec.read k v := by
  rw [Vec.toList_length] at hi hj
  obtain ⟨v', h1, h2, h3, h4⟩ := Vec.swap_spec h hi hj
  have hlen : v'.toList.length = v.toList.length := by rw [Vec.toList_length, Vec.toList_length, h3]
  have e1 : v.toList[i]? = some (v.toList[i]'(by rw [Vec.toList_length]; exact hi)) := List.getElem?_eq_getElem _
  have e2 : v.toList[j]? = some (v.toList[j]'(by rw [Vec.toList_length]; exact hj)) := List.getElem?_eq_getElem _
  have hli : i < v.toList.length := by rw [Vec.toList_length]; exact hi
  have hlj : j < v.toList.length := by rw [Vec.toList_length]; exact hj
  have hl' : v'.toList = (v.toList.set i v.toList[j]).set j v.toList[i] := by rw [h4, swapAt, e1, e2]
  refine ⟨v', h1, h2, hlen, by rw [h4]; exact Vec.swapAt_perm i j, ?_, ?_, ?_⟩
  · rw [Vec.read_spec h2 (by omega), Vec.read_spec h hj, hl', List.getElem?_set, List.getElem?_set, e2]
    by_cases hij : j = i
    · subst hij; simp [hlj]
    · simp [hij, hli]
  · rw [Vec.read_spec h2 (by omega), Vec.read_spec h hi, hl', List.getElem?_set, e1]
    simp [hlj]
  · intro k hk ki kj
    rw [Vec.toList_length] at hk
    rw [Vec.read_spec h2 (by omega), Vec.read_spec h hk, hl', List.getElem?_set, List.getElem?_set, if_neg (Ne.symm kj), if_neg (Ne.symm ki)]

/-- C40: permuting a nonempty vector compiles for every generator, is the shuffle of its elements, rearranges
them, and advances the generator by one less than the number of elements. -/
theorem C40_permute {ρ : Type} (value : ρ → ℕ) (next : ρ → ρ) (rng : ρ) {v : Vec α} (h : v.Full) :
    ∃ v', Vec.permute value next rng v = some (v', next^[v.toList.length - 1] rng) ∧ v'.Full ∧
      v'.toList = shuffle value next v.toList.length rng v.toList ∧ v'.toList.Perm v.toList := by
  have hp := h.size_pos
  obtain ⟨v', h1, h2, -, h4⟩ := Vec.permuteImpl_spec value next (v.size - 1) rng h (by omega)
  rw [Nat.sub_add_cancel hp] at h1 h4
  rw [Vec.toList_length]
  refine ⟨v', h1, h2, h4, ?_⟩
  rw [h4]; exact Vec.shuffle_perm _ _ _ _ _

/-- C40: a vector of `n` copies. -/
theorem C40_create (n : ℕ) (v : α) : (Vec.create n v).toList = List.replicate n v ∧ (1 ≤ n → (Vec.create n v).Full) :=
  ⟨(Vec.create_spec n v).1, (Vec.create_spec n v).2.1⟩

/-- C40: the rotation of `0, ..., n-1` by `o` places. -/
theorem C40_rotation (o : ℕ) {n : ℕ} (hn : 1 ≤ n) :
    ∃ v, Vec.rotation o n = some v ∧ v.Full ∧ v.toList = (List.range n).map fun i => (o + i) % n := by
  obtain ⟨v, h1, h2, -, h4⟩ := Vec.rotationImpl_spec n o n hn
  exact ⟨v, h1, h2, h4⟩

/-- The rotation visits every index once. -/
theorem rotation_perm (o n : ℕ) : ((List.range n).map fun i => (o + i) % n).Perm (List.range n) := by
  rcases Nat.eq_zero_or_pos n with rfl | hn
  · simp
  have hnd : ((List.range n).map fun i => (o + i) % n).Nodup := by
    refine List.Nodup.map_on ?_ List.nodup_range
    intro a ha b hb hab
    rw [List.mem_range] at ha hb
    have : a ≡ b [MOD n] := Nat.ModEq.add_left_cancel' o hab
    exact Nat.ModEq.eq_of_lt_of_lt this ha hb
  refine (List.subperm_of_subset hnd ?_).perm_of_length_le (by simp)
  intro x hx
  obtain ⟨i, -, rfl⟩ := List.mem_map.mp hx
  exact List.mem_range.mpr (Nat.mod_lt _ hn)

/-- C40: every element is visited once, in order, with its index. -/
theorem C40_forEach {v : Vec α} (h : v.Full) : Vec.forEach 0 v = some (v.toList.mapIdx fun i a => (i, a)) := by
  have := Vec.forEach_spec h 0
  simpa using this

/-- C40: map-reduce with an associative reduction is the fold of the mapped elements in order, whatever the shape
of the tree. -/
theorem C40_mapReduce {v : Vec α} (h : v.Full) (map : ℕ → α → β) (reduce : β → β → β) (e : β)
    (hassoc : ∀ a b c, reduce (reduce a b) c = reduce a (reduce b c)) (hl : ∀ a, reduce e a = a) (hr : ∀ a, reduce a e = a) :
    Vec.mapReduce (fun i a => some (map i a)) reduce 0 v = some ((v.toList.mapIdx map).foldr reduce e) := by
  have := Vec.mapReduce_spec h (fun i a => some (map i a)) map reduce e hassoc hl hr 0 (fun _ _ _ => rfl)
  simpa using this

/-- The number of branches above the deepest element. -/
def depth : Vec α → ℕ
  | .empty => 0
  | .leaf _ => 0
  | .branch l r => max (depth l) (depth r) + 1

/-- C40: created vectors are balanced, and writes keep the shape: access takes a logarithmic number of template
expansions. -/
theorem C40_depth (n : ℕ) (v : α) : depth (Vec.create n v) = Nat.clog 2 n := by
  induction n using Nat.strong_induction_on with
  | _ n ih =>
    rw [Vec.create]
    by_cases h0 : n = 0
    · subst h0; rfl
    · by_cases h1 : n = 1
      · subst h1; rfl
      · rw [if_neg h0, if_neg h1, depth, ih _ (by omega), ih _ (by omega),
          max_eq_right (Nat.clog_mono_right 2 (by omega)), Nat.clog_of_two_le (by norm_num) (by omega : 2 ≤ n)]
        congr 2; omega

theorem C40_write_depth {v v' : Vec α} {i : ℤ} {w : α} (h : Vec.write i w v = some v') : depth v' = depth v := by
  induction v generalizing v' i with
  | empty => cases h
  | leaf x => cases h; rfl
  | branch l r hl hr =>
    rw [Vec.write] at h
    obtain ⟨a, ha, h⟩ := Option.bind_eq_some_iff.mp h
    obtain ⟨b, hb, rfl⟩ := Option.map_eq_some_iff.mp h
    by_cases hc : i < l.size
    · simp only [if_pos hc, depth, hl ha]
    · simp only [if_neg hc, depth, hr hb]

/-- C41: `ct_vec_unique` of a nonempty vector of integers compiles and lists exactly its elements, once each, in
increasing order. -/
theorem C41_unique {v : Vec Bound} (h : v.Full) {xs : List ℤ} (hx : v.toList = xs.map .val) :
    ∃ (v' : Vec Bound) (ys : List ℤ), unique v = some v' ∧ v'.Full ∧ v'.toList = ys.map .val ∧ ys.Pairwise (· < ·) ∧
      (∀ x, x ∈ ys ↔ x ∈ xs) := unique_spec h hx

/-- C41: such a list is determined by the elements, so the result depends neither on their order nor on their
repetitions. -/
theorem C41_unique_canonical {v w : Vec Bound} (hv : v.Full) (hw : w.Full) {xs ys : List ℤ} (hx : v.toList = xs.map .val)
    (hy : w.toList = ys.map .val) (he : ∀ x, x ∈ xs ↔ x ∈ ys) :
    (unique v).map Vec.toList = (unique w).map Vec.toList ∧ (unique v).isSome := by
  obtain ⟨v', a, h1, -, h3, h4, h5⟩ := unique_spec hv hx
  obtain ⟨w', b, g1, -, g3, g4, g5⟩ := unique_spec hw hy
  have : a = b := by
    refine List.Perm.eq_of_pairwise (le := (· < ·)) (fun x y _ _ h1 h2 => absurd h1 (asymm h2)) h4 g4 ?_
    refine (List.perm_ext_iff_of_nodup (h4.imp ne_of_lt) (g4.imp ne_of_lt)).mpr ?_
    intro x; rw [h5, g5, he]
  subst this
  rw [h1, g1, Option.map_some, Option.map_some, h3, g3]; exact ⟨rfl, rfl⟩

/-- C41: the order behind it. Two numbers compare as the sign of their difference; every number is above the lower sentinel
and below the upper one; the comparison is antisymmetric where it compiles both ways round; and it does not compile exactly
when the lower sentinel meets a sentinel, where two specialisations match. -/
theorem C41_compare (a b : ℤ) (x y : Bound) :
    compare (.val a) (.val b) = some (a - b).sign ∧ compare .lower (.val a) = some (-1) ∧ compare (.val a) .upper = some (-1) ∧
      (compare x y).map (- ·) = compare y x ∧
      (compare x y = none ↔ (x = .lower ∧ ∀ c, y ≠ .val c) ∨ (y = .lower ∧ ∀ c, x ≠ .val c)) := by
  refine ⟨?_, rfl, rfl, ?_, ?_⟩
  · simp only [compare]
    rcases lt_trichotomy a b with h | h | h
    · rw [if_pos h, Int.sign_eq_neg_one_of_neg (by omega)]
    · subst h; simp
    · rw [if_neg (by omega), if_pos h, Int.sign_eq_one_of_pos (by omega)]
  · cases x <;> cases y <;> simp only [compare, Option.map_some, Option.map_none, neg_neg, neg_zero]
    congr 1
    split_ifs <;> omega
  · cases x <;> cases y <;> simp [compare]

/-- A vector of four elements with a repetition. -/
def sample : Vec Bound := .branch (.leaf (.val 5)) (.branch (.leaf (.val (-2))) (.branch (.leaf (.val 5)) (.leaf (.val 0))))

example : sample.Full ∧ sample.toList = [5, -2, 5, 0].map .val := by simp [sample, Vec.Full, Vec.toList]

example : (unique sample).map Vec.toList = some ([-2, 0, 5].map .val) := by decide +kernel

example : (Vec.permute id (fun s => lcgSkip s lcgA lcgC 1) 1 sample).map (fun r => r.1.toList.length) = some 4 := by
  decide +kernel

end Thls.Ct
