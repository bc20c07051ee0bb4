import Verif.Proofs.LutOpt

/-! # C42: the LUT-optimised generator -/

namespace Thls.Ct.LutOpt
open Spec

theorem lutCycle_perm (n : ℕ) : (lutCycle n).Perm (List.range n) := rotation_perm 1 n

theorem lutOutput_perm (n t s : ℕ) : (lutOutput n t s).Perm (List.range n) :=
  (Vec.shuffle_perm _ _ _ _ _).trans (lutCycle_perm n)

theorem lutOutput_getD_lt {n t s i : ℕ} (hn : 1 ≤ n) : (lutOutput n t s).getD i 0 < n := by
  by_cases hi : i < (lutOutput n t s).length
  · have hm : (lutOutput n t s)[i] ∈ lutOutput n t s := List.getElem_mem hi
    rw [(lutOutput_perm n t s).mem_iff, List.mem_range] at hm
    simpa [List.getD, hi] using hm
  · simp [List.getD, hi]; omega

/-- C42: one step. Bit `i` of the next state is the parity of the bits of the state in a set of taps that the
parameters of the generator determine. -/
theorem C42_step {n t s : ℕ} (hn : 1 ≤ n) (ht : 1 ≤ t) (hs : s < 2 ^ 32) (state : ℕ) :
    ∃ r, step n t s state = some r ∧ r < 2 ^ n ∧
      ∀ i < n, r / 2 ^ i % 2 = (∑ j ∈ lutTaps n t s i, state / 2 ^ j % 2) % 2 := by
  obtain ⟨cyc, c1, c2, c3⟩ := C40_rotation 1 hn
  have csz : cyc.size = n := by rw [← Vec.toList_length, c3]; simp
  obtain ⟨ps, p1, p2, p3⟩ := makePerms_spec n t hs c2 csz
  obtain ⟨out, o1, o2, o3, o4⟩ := permute_spec (lutLcg_iter_lt hs (t * (n - 1))) c2
  have hq : quickAndDirty s = s := Nat.mod_eq_of_lt hs
  have hcyc : cyc.toList = lutCycle n := c3
  have hout : out.toList = lutOutput n t s := by rw [o4, csz, hcyc]; rfl
  have hps : ps.map Vec.toList = lutSources n t s (lutCycle n) := by rw [p3, hcyc]
  have hlen : ps.length = t := by rw [← List.length_map (f := Vec.toList), hps, lutSources_length]
  have hrange : ∀ p ∈ ps, ∀ x ∈ p.toList, x < n := by
    intro p hp x hx
    have hm : p.toList ∈ lutSources n t s (lutCycle n) := by rw [← hps]; exact List.mem_map_of_mem hp
    rw [((lutSources_perm hm).trans (lutCycle_perm n)).mem_iff, List.mem_range] at hx
    exact hx
  have hperms : perms n t s = some (ps, out) := by
    rw [perms, c1, Option.bind_some, hq, p1, Option.bind_some, o1, Option.map_some]
  set bit : ℕ → ℕ := fun k => (∑ j ∈ ((ps.map Vec.toList).map fun l => l.getD k 0).toFinset, state / 2 ^ j % 2) % 2 with hbit
  have hmr := Vec.mapReduce_spec o2 (fun _ v => (catBit n t state ps v).map fun b => (1, b)) (fun _ v => (1, bit v)) catReduce (0, 0)
    (by intro a b c; simp only [catReduce, concat, Prod.mk.injEq]; exact ⟨by ring, by rw [pow_add]; ring⟩)
    (by intro a; simp [catReduce, concat]) (by intro a; simp [catReduce, concat]) 0 (by
      intro _ k hk
      rw [hout, (lutOutput_perm n t s).mem_iff, List.mem_range] at hk
      rw [catBit_spec p2 hrange ht hlen state hk]; rfl)
  obtain ⟨v, v1, v2, v3⟩ := cat_foldr (out.toList.map bit) (by
    intro b hb
    obtain ⟨k, -, rfl⟩ := List.mem_map.mp hb
    exact Nat.mod_lt _ (by norm_num))
  have hl : (out.toList.map bit).length = n := by rw [List.length_map, Vec.toList_length, o3, csz]
  rw [hl] at v2 v3
  refine ⟨v, ?_, v2, ?_⟩
  · have e : (out.toList.mapIdx fun _ a => ((1 : ℕ), bit a)) = (out.toList.map bit).map fun b => (1, b) := by
      rw [mapIdx_const, List.map_map]; rfl
    rw [step, hperms, Option.bind_some, hmr, e, v1]; rfl
  · intro i hi
    rw [v3 i hi]
    have hidx : n - 1 - i < out.toList.length := by rw [Vec.toList_length, o3, csz]; omega
    have e1 : (out.toList.map bit).getD (n - 1 - i) 0 = bit (out.toList.getD (n - 1 - i) 0) := by
      simp [List.getD, hidx]
    rw [e1, hbit, hout, hps]; rfl

/-- C42: the taps of a bit are between one and `t` distinct bits of the state. -/
theorem C42_taps {n t s : ℕ} (hn : 1 ≤ n) (ht : 1 ≤ t) (i : ℕ) :
    1 ≤ (lutTaps n t s i).card ∧ (lutTaps n t s i).card ≤ t ∧ ∀ j ∈ lutTaps n t s i, j < n := by
  refine ⟨?_, ?_, ?_⟩
  · rw [Finset.one_le_card, lutTaps]
    have : (lutSources n t s (lutCycle n)) ≠ [] := by
      intro h
      have := lutSources_length n t s (lutCycle n)
      rw [h] at this; simp at this; omega
    simpa [List.toFinset_nonempty_iff] using this
  · rw [lutTaps]
    refine le_trans (List.toFinset_card_le _) ?_
    rw [List.length_map, lutSources_length]
  · intro j hj
    rw [lutTaps, List.mem_toFinset, List.mem_map] at hj
    obtain ⟨l, hl, rfl⟩ := hj
    have hk := lutOutput_getD_lt (t := t) (s := s) (i := n - 1 - i) hn
    have hp := (lutSources_perm hl).trans (lutCycle_perm n)
    have hlen : (lutOutput n t s).getD (n - 1 - i) 0 < l.length := by rw [hp.length_eq, List.length_range]; exact hk
    have hm : l[(lutOutput n t s).getD (n - 1 - i) 0] ∈ l := List.getElem_mem hlen
    rw [hp.mem_iff, List.mem_range] at hm
    rwa [List.getD_eq_getElem _ _ hlen]

/-- C42: every bit of the state feeds some bit of the next state. -/
theorem C42_all_used {n t s : ℕ} (ht : 1 ≤ t) {j : ℕ} (hj : j < n) : ∃ i < n, j ∈ lutTaps n t s i := by
  obtain ⟨t, rfl⟩ : ∃ k, t = k + 1 := ⟨t - 1, by omega⟩
  set l := shuffle id lutLcg n s (lutCycle n) with hl
  have hp : l.Perm (List.range n) := (Vec.shuffle_perm _ _ _ _ _).trans (lutCycle_perm n)
  obtain ⟨k, hk, hkj⟩ := List.getElem_of_mem ((hp.mem_iff).mpr (List.mem_range.mpr hj))
  have hkn : k < n := by rw [hp.length_eq, List.length_range] at hk; exact hk
  have ho := lutOutput_perm n (t + 1) s
  obtain ⟨m, hm, hmk⟩ := List.getElem_of_mem ((ho.mem_iff).mpr (List.mem_range.mpr hkn))
  have hmn : m < n := by rw [ho.length_eq, List.length_range] at hm; exact hm
  refine ⟨n - 1 - m, by omega, ?_⟩
  rw [lutTaps, List.mem_toFinset, List.mem_map]
  refine ⟨l, by rw [lutSources]; exact List.mem_cons_self, ?_⟩
  rw [show n - 1 - (n - 1 - m) = m by omega, List.getD_eq_getElem _ _ hm, hmk, List.getD_eq_getElem _ _ hk, hkj]

/-- C42: a step is linear over the two-element field. -/
theorem C42_linear {n t s : ℕ} (hn : 1 ≤ n) (ht : 1 ≤ t) (hs : s < 2 ^ 32) (x y : ℕ) :
    ∃ rx ry, step n t s x = some rx ∧ step n t s y = some ry ∧ step n t s (x ^^^ y) = some (rx ^^^ ry) := by
  obtain ⟨rx, x1, x2, x3⟩ := C42_step hn ht hs x
  obtain ⟨ry, y1, y2, y3⟩ := C42_step hn ht hs y
  obtain ⟨rz, z1, z2, z3⟩ := C42_step hn ht hs (x ^^^ y)
  refine ⟨rx, ry, x1, y1, ?_⟩
  rw [z1]; congr 1
  have hxor : ∀ a b i : ℕ, (a ^^^ b) / 2 ^ i % 2 = (a / 2 ^ i % 2 + b / 2 ^ i % 2) % 2 := by
    intro a b i
    have h1 := Nat.testBit_xor a b i
    simp only [Nat.testBit_eq_decide_div_mod_eq] at h1
    have ha := Nat.mod_two_eq_zero_or_one (a / 2 ^ i)
    have hb := Nat.mod_two_eq_zero_or_one (b / 2 ^ i)
    have hc := Nat.mod_two_eq_zero_or_one ((a ^^^ b) / 2 ^ i)
    rcases ha with ha | ha <;> rcases hb with hb | hb <;> rcases hc with hc | hc <;> simp_all
  apply Nat.eq_of_testBit_eq
  intro i
  simp only [Nat.testBit_eq_decide_div_mod_eq]
  have e : rz / 2 ^ i % 2 = (rx ^^^ ry) / 2 ^ i % 2 := by
    by_cases hi : i < n
    · rw [z3 i hi, hxor, x3 i hi, y3 i hi, Finset.sum_congr rfl (fun j _ => hxor x y j), ← Nat.add_mod, ← Finset.sum_add_distrib]
      exact (Finset.sum_nat_mod _ _ _).symm
    · have hz : ∀ v, v < 2 ^ n → v / 2 ^ i = 0 := fun v hv =>
        Nat.div_eq_of_lt (lt_of_lt_of_le hv (Nat.pow_le_pow_right (by norm_num) (by omega)))
      rw [hz rz z2, hz _ (Nat.xor_lt_two_pow x2 y2)]
  rw [e]

/-- C42: the zero state is a fixed point. -/
theorem C42_zero {n t s : ℕ} (hn : 1 ≤ n) (ht : 1 ≤ t) (hs : s < 2 ^ 32) : step n t s 0 = some 0 := by
  obtain ⟨rx, ry, h1, h2, h3⟩ := C42_linear hn ht hs 0 0
  rw [h1] at h2; cases h2
  rw [Nat.xor_self, Nat.xor_self] at h3; exact h3

/-- The parameters of the library's test, with a smaller state. -/
example : step 6 3 1 0b101101 = some 0b111001 ∧ lutTaps 6 3 1 0 = {2, 3, 5} ∧ lutTaps 6 3 1 4 = {1, 5} := by decide +kernel

end Thls.Ct.LutOpt
