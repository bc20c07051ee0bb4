import Verif.Model.LutOpt
import Verif.SpecLut
import Verif.Props.CtVec
import Verif.Props.CtRng
import Mathlib.Data.Nat.Bitwise

/-! # Lemmas about the LUT-optimised generator -/

namespace Thls.Ct.LutOpt
open Spec

theorem lutLcg_lt (s : ℕ) : lutLcg s < 2 ^ 32 := by
  rw [lutLcg, lcgStep]; exact Nat.mod_lt _ (by positivity)

theorem lutLcg_iter_lt {s : ℕ} (hs : s < 2 ^ 32) (n : ℕ) : lutLcg^[n] s < 2 ^ 32 := by
  cases n with
  | zero => exact hs
  | succ n => rw [Function.iterate_succ_apply']; exact lutLcg_lt _

theorem skip_one {s : ℕ} (hs : s < 2 ^ 32) : lcgSkip s lcgA lcgC 1 = lutLcg s := by
  have := C39_lcg_forward lcgA lcgC hs 1
  rw [Nat.cast_one] at this
  rw [this, Function.iterate_one, lutLcg, lcgA, lcgC]

/-- A shuffle only sees the states reached from the seed. -/
theorem shuffle_congr {α : Type} (f g : ℕ → ℕ) (n s : ℕ) (l : List α) (h : ∀ k, f (f^[k] s) = g (f^[k] s)) :
    shuffle id f n s l = shuffle id g n s l ∧ ∀ k, f^[k] s = g^[k] s := by
  have hit : ∀ k, f^[k] s = g^[k] s := by
    intro k
    induction k with
    | zero => rfl
    | succ k ih => rw [Function.iterate_succ_apply', Function.iterate_succ_apply', h k, ih]
  refine ⟨?_, hit⟩
  induction n generalizing s l with
  | zero => rfl
  | succ n ih =>
    cases n with
    | zero => rfl
    | succ n =>
      have h0 : f s = g s := h 0
      rw [shuffle, shuffle, ← h0]
      apply ih
      · intro k
        have := h (k + 1)
        rwa [Function.iterate_succ_apply] at this
      · intro k
        have := hit (k + 1)
        rwa [Function.iterate_succ_apply, Function.iterate_succ_apply, ← h0] at this

theorem permute_spec {s : ℕ} (hs : s < 2 ^ 32) {v : Vec ℕ} (h : v.Full) : ∃ v', permute s v = some (v', lutLcg^[v.size - 1] s) ∧
    v'.Full ∧ v'.size = v.size ∧ v'.toList = shuffle id lutLcg v.size s v.toList := by
  obtain ⟨v', h1, h2, h3, h4⟩ := C40_permute id (fun s => lcgSkip s lcgA lcgC 1) s h
  have hc := shuffle_congr lutLcg (fun s => lcgSkip s lcgA lcgC 1) v.size s v.toList
    (fun k => (skip_one (lutLcg_iter_lt hs k)).symm)
  refine ⟨v', ?_, h2, ?_, ?_⟩
  · rw [permute, h1, hc.2, Vec.toList_length]
  · rw [← Vec.toList_length, ← Vec.toList_length, h4.length_eq]
  · rw [h3, Vec.toList_length, ← hc.1]

theorem makePerms_spec (n t : ℕ) {s : ℕ} (hs : s < 2 ^ 32) {v : Vec ℕ} (h : v.Full) (hn : v.size = n) :
    ∃ ps, makePerms t s v = some (ps, lutLcg^[t * (n - 1)] s) ∧ (∀ p ∈ ps, p.Full ∧ p.size = n) ∧
      ps.map Vec.toList = lutSources n t s v.toList := by
  induction t generalizing s v with
  | zero => exact ⟨[], by simp [makePerms], by simp, rfl⟩
  | succ t ih =>
    obtain ⟨v', h1, h2, h3, h4⟩ := permute_spec hs h
    obtain ⟨ps, p1, p2, p3⟩ := ih (lutLcg_iter_lt hs (v.size - 1)) h2 (by omega)
    refine ⟨v' :: ps, ?_, ?_, ?_⟩
    · rw [makePerms, h1, Option.bind_some, p1, Option.map_some, ← Function.iterate_add_apply, hn, Nat.succ_mul]
    · intro p hp
      rcases List.mem_cons.mp hp with rfl | hp
      · exact ⟨h2, by omega⟩
      · exact p2 p hp
    · rw [List.map_cons, p3, lutSources, h4, hn]

theorem lutSources_perm {n t s : ℕ} {l m : List ℕ} (h : m ∈ lutSources n t s l) : m.Perm l := by
  induction t generalizing s l with
  | zero => simp [lutSources] at h
  | succ t ih =>
    rw [lutSources, List.mem_cons] at h
    rcases h with rfl | h
    · exact Vec.shuffle_perm _ _ _ _ _
    · exact (ih h).trans (Vec.shuffle_perm _ _ _ _ _)

theorem lutSources_length (n t s : ℕ) (l : List ℕ) : (lutSources n t s l).length = t := by
  induction t generalizing s l with
  | zero => rfl
  | succ t ih => rw [lutSources, List.length_cons, ih]

theorem getSource_spec {ps : List (Vec ℕ)} {n : ℕ} (hf : ∀ p ∈ ps, p.Full ∧ p.size = n) {d i : ℕ} (hd : d < ps.length)
    (hi : i < n) : getSource ps d i = some (((ps.map Vec.toList).getD d []).getD i 0) := by
  have hm : ps[d] ∈ ps := List.getElem_mem hd
  obtain ⟨h1, h2⟩ := hf _ hm
  rw [getSource, List.getElem?_eq_getElem hd, Option.bind_some, Vec.read_spec h1 (by omega)]
  have hl : i < ps[d].toList.length := by rw [Vec.toList_length]; omega
  rw [List.getElem?_eq_getElem hl]
  congr 1
  simp [List.getD, hd, hl]

theorem getSrcVec_spec {ps : List (Vec ℕ)} {n : ℕ} (hf : ∀ p ∈ ps, p.Full ∧ p.size = n) {i : ℕ} (hi : i < n) (o : ℕ)
    (ho : o ≤ ps.length) {acc : Vec Bound} (h : acc.Full) (hs : o ≤ acc.size) :
    ∃ v, getSrcVec i ps o acc = some v ∧ v.Full ∧ v.size = acc.size ∧
      v.toList = (List.range o).map (fun d => Bound.val ((((ps.map Vec.toList).getD d []).getD i 0 : ℕ) : ℤ)) ++ acc.toList.drop o := by
  induction o generalizing acc with
  | zero => exact ⟨acc, rfl, h, rfl, by simp⟩
  | succ o ih =>
    obtain ⟨a, a1, a2, a3⟩ := Vec.write_some h (o : ℤ) (Bound.val ((((ps.map Vec.toList).getD o []).getD i 0 : ℕ) : ℤ))
    obtain ⟨v, v1, v2, v3, v4⟩ := ih (by omega) a2 (by omega)
    refine ⟨v, by rw [getSrcVec, getSource_spec hf (by omega) hi, Option.bind_some, a1, Option.bind_some, v1], v2, by omega, ?_⟩
    have hl : o < acc.toList.length := by rw [Vec.toList_length]; omega
    rw [v4, Vec.write_spec h a1, show min o (acc.size - 1) = o by omega, List.range_succ, List.map_append, List.append_assoc]
    congr 1
    rw [List.set_eq_take_append_cons_drop, if_pos hl, List.drop_append, List.length_take]
    simp [Nat.le_of_lt hl]

theorem xor_bits (l : List ℕ) (h : ∀ x ∈ l, x < 2) : l.foldr (fun a b => a ^^^ b) 0 = l.sum % 2 := by
  induction l with
  | nil => rfl
  | cons x l ih =>
    rw [List.foldr_cons, ih fun y hy => h y (by simp [hy]), List.sum_cons]
    have hx := h x (by simp)
    have : l.sum % 2 < 2 := Nat.mod_lt _ (by norm_num)
    have key : ∀ a < 2, ∀ b < 2, a ^^^ b = (a + b) % 2 := by decide
    rw [key x hx _ this]; omega

theorem mapIdx_const {α β : Type} (f : α → β) (l : List α) : (l.mapIdx fun _ a => f a) = l.map f := by
  apply List.ext_getElem?; intro i; simp

theorem catBit_spec {ps : List (Vec ℕ)} {n t : ℕ} (hf : ∀ p ∈ ps, p.Full ∧ p.size = n) (hr : ∀ p ∈ ps, ∀ x ∈ p.toList, x < n)
    (ht : 1 ≤ t) (hlen : ps.length = t) (state : ℕ) {k : ℕ} (hk : k < n) :
    catBit n t state ps k =
      some ((∑ j ∈ ((ps.map Vec.toList).map fun l => l.getD k 0).toFinset, state / 2 ^ j % 2) % 2) := by
  obtain ⟨c1, c2, c3⟩ := Vec.create_spec t (Bound.val 0)
  obtain ⟨raw, r1, r2, r3, r4⟩ := getSrcVec_spec hf hk t (by omega) (c2 ht) (by omega)
  set xs : List ℤ := ((ps.map Vec.toList).map fun l => l.getD k 0).map (fun j : ℕ => (j : ℤ)) with hxs
  have hraw : raw.toList = xs.map .val := by
    rw [r4, c1, List.drop_eq_nil_of_le (by simp), List.append_nil]
    apply List.ext_getElem?
    intro d
    simp only [hxs, List.getElem?_map, List.map_map]
    by_cases hd : d < t
    · rw [List.getElem?_range hd, List.getElem?_eq_getElem (by omega)]
      simp [List.getD, hlen, hd]
    · rw [List.getElem?_eq_none (by simpa using hd), List.getElem?_eq_none (by omega)]; rfl
  obtain ⟨srcs, ys, u1, u2, u3, u4, u5⟩ := unique_spec r2 hraw
  have hys : ∀ y ∈ ys, 0 ≤ y ∧ y < n := by
    intro y hy
    rw [u5, hxs, List.mem_map] at hy
    obtain ⟨j, hj, rfl⟩ := hy
    rw [List.map_map, List.mem_map] at hj
    obtain ⟨p, hp, rfl⟩ := hj
    have hl : k < p.toList.length := by rw [Vec.toList_length, (hf p hp).2]; exact hk
    have hm := hr p hp _ (List.getElem_mem hl)
    have e : ((fun l => l.getD k 0) ∘ Vec.toList) p = p.toList[k] := by simp [List.getD, hl]
    rw [e]; omega
  have hmr := Vec.mapReduce_spec u2 (fun _ v => makeBit n state v)
    (fun _ v => match v with | .val x => state / 2 ^ x.toNat % 2 | _ => 0) (fun a b => a ^^^ b) 0
    (fun a b c => Nat.xor_assoc a b c) (fun a => Nat.zero_xor a) (fun a => Nat.xor_zero a) 0 (by
      intro _ a ha
      rw [u3, List.mem_map] at ha
      obtain ⟨y, hy, rfl⟩ := ha
      simp only [makeBit]
      rw [if_pos (hys y hy), getBits, Nat.add_sub_cancel_left, pow_one])
  rw [catBit, r1, Option.bind_some, u1, Option.bind_some, hmr, mapIdx_const, u3, List.map_map]
  congr 1
  rw [xor_bits _ (by
    intro x hx
    obtain ⟨y, -, rfl⟩ := List.mem_map.mp hx
    exact Nat.mod_lt _ (by norm_num))]
  congr 1
  have hnd : (ys.map Int.toNat).Nodup := by
    refine List.Nodup.map_on ?_ (u4.imp ne_of_lt)
    intro x hx y hy hxy
    have := hys x hx; have := hys y hy
    omega
  have hset : ((ps.map Vec.toList).map fun l => l.getD k 0).toFinset = (ys.map Int.toNat).toFinset := by
    ext j
    rw [List.mem_toFinset, List.mem_toFinset, List.mem_map (f := Int.toNat)]
    constructor
    · intro hj
      exact ⟨(j : ℤ), by rw [u5, hxs]; exact List.mem_map_of_mem hj, by simp⟩
    · rintro ⟨y, hy, rfl⟩
      rw [u5, hxs] at hy
      obtain ⟨i, hi, rfl⟩ := List.mem_map.mp hy
      simpa using hi
  rw [hset, List.sum_toFinset _ hnd, List.map_map]
  rfl

theorem cat_foldr (bs : List ℕ) (hb : ∀ b ∈ bs, b < 2) :
    ∃ v, (bs.map fun b => (1, b)).foldr catReduce (0, 0) = (bs.length, v) ∧ v < 2 ^ bs.length ∧
      ∀ i < bs.length, v / 2 ^ i % 2 = bs.getD (bs.length - 1 - i) 0 := by
  induction bs with
  | nil => exact ⟨0, rfl, by simp, by simp⟩
  | cons b bs ih =>
    obtain ⟨v, h1, h2, h3⟩ := ih fun x hx => hb x (by simp [hx])
    have hb2 := hb b (by simp)
    refine ⟨b * 2 ^ bs.length + v, ?_, ?_, ?_⟩
    · rw [List.map_cons, List.foldr_cons, h1, catReduce, concat, List.length_cons, add_comm]
    · rw [List.length_cons, pow_succ]; nlinarith
    · intro i hi
      rw [List.length_cons] at hi ⊢
      by_cases hc : i = bs.length
      · subst hc
        rw [Nat.mul_comm, Nat.mul_add_div (by positivity), Nat.div_eq_of_lt h2]
        simp; omega
      · have hlt : i < bs.length := by omega
        rw [show bs.length + 1 - 1 - i = (bs.length - 1 - i) + 1 by omega, List.getD_cons_succ, ← h3 i hlt,
          show bs.length = i + 1 + (bs.length - i - 1) by omega, pow_add, pow_succ,
          show b * (2 ^ i * 2 * 2 ^ (bs.length - i - 1)) + v = 2 ^ i * (2 * (b * 2 ^ (bs.length - i - 1))) + v by ring,
          Nat.mul_add_div (by positivity), Nat.mul_add_mod]

end Thls.Ct.LutOpt
