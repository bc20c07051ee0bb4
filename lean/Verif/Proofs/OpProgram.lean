import Verif.Proofs.OpCheck
import Verif.Props.Exact
import Verif.Props.RefAgree
import Verif.Props.RefAgreeFma
import Verif.Props.RefAgreeInv

/-! Lemmas for C78: the checks of the operator tests on the operators of the library. -/

namespace Thls
open Spec

namespace OpTest

theorem checkEquals_of {E F : ℕ} {r g : Fp E F} {ref got : Option (Fp E F)} (hr : ref = some r) (hg : got = some g)
    (h : g.equals r = true) (hE : 1 ≤ E) (hF : 1 ≤ F) : checkEquals ref got = some true := by
  rw [C07_equals_iff_same_datum hE hF] at h
  simp only [checkEquals, hr, hg, Option.bind_eq_bind, Option.bind_some, Option.some.injEq]
  exact (C07_equals_iff_same_datum hE hF r g).mpr h.symm

theorem faithful_of_equals {E F : ℕ} {r g : Fp E F} {ref got : Option (Fp E F)} (hr : ref = some r) (hg : got = some g)
    (h : g.equals r = true) (hE : 1 ≤ E) (hF : 1 ≤ F) : checkFaithful ref got = some true := by
  rw [C07_equals_iff_same_datum hE hF] at h
  have := (C07_equals_iff_same_datum hE hF r g).mpr h.symm
  simp [checkFaithful, hr, hg, this]

theorem lt_asymm_datum : ∀ d e : Datum, d.Lt e → ¬ e.Lt d
  | .nan, e => by simp [Datum.Lt]
  | d, .nan => by cases d <;> simp [Datum.Lt]
  | .inf s, .inf t => by cases s <;> cases t <;> simp [Datum.Lt]
  | .inf s, .zero t => by cases s <;> simp [Datum.Lt]
  | .inf s, .num q => by cases s <;> simp [Datum.Lt]
  | .zero s, .inf t => by cases t <;> simp [Datum.Lt]
  | .num q, .inf t => by cases t <;> simp [Datum.Lt]
  | .zero s, .zero t => by simp [Datum.Lt]
  | .zero s, .num q => by simp only [Datum.Lt]; exact fun h => not_lt.2 h.le
  | .num q, .zero s => by simp only [Datum.Lt]; exact fun h => not_lt.2 h.le
  | .num p, .num q => by simp only [Datum.Lt]; exact fun h => not_lt.2 h.le

theorem ulp_of_datum {E F : ℕ} {r g : Fp E F} {ref got : Option (Fp E F)} (hr : ref = some r) (hg : got = some g)
    (h : g.datum = r.datum) (hE : 1 ≤ E) (hF : 1 ≤ F) : checkUlp ref got = some true := by
  simp only [checkUlp, hr, hg, Option.bind_eq_bind, Option.bind_some, Option.some.injEq]
  by_cases hn : r.datum = .nan
  · exact (C49_within_1ulp_nan r g (.inl hn)).mpr ⟨hn, h.trans hn⟩
  · rw [C49_within_1ulp hE hF r g hn (by rwa [h]), h]
    rintro ⟨y, ⟨h1, h2⟩ | ⟨h1, h2⟩⟩
    · exact lt_asymm_datum _ _ h1 h2
    · exact lt_asymm_datum _ _ h1 h2

theorem forAll_false {α : Type} {check : α → Option Bool} : ∀ {l : List α}, (∀ a ∈ l, ∃ b, check a = some b) →
    (∃ a ∈ l, check a = some false) → forAll check l = some false
  | [], _, h => by simp at h
  | a :: l, h1, h2 => by
    rw [forAll]
    obtain ⟨b, hb⟩ := h1 a (by simp)
    rw [hb, Option.bind_eq_bind, Option.bind_some]
    cases b with
    | false => rfl
    | true =>
      simp only [if_true]
      refine forAll_false (fun c hc => h1 c (by simp [hc])) ?_
      obtain ⟨c, hc, he⟩ := h2
      rcases List.mem_cons.mp hc with rfl | hc
      · rw [hb] at he; cases he
      · exact ⟨c, hc, he⟩

theorem forAll_def {α : Type} {check : α → Option Bool} : ∀ {l : List α}, (∀ a ∈ l, ∃ b, check a = some b) → ∃ b, forAll check l = some b
  | [], _ => ⟨true, rfl⟩
  | a :: l, h => by
    rw [forAll]
    obtain ⟨b, hb⟩ := h a (by simp)
    rw [hb, Option.bind_eq_bind, Option.bind_some]
    cases b with
    | false => exact ⟨false, rfl⟩
    | true =>
      simp only [if_true]
      exact forAll_def fun c hc => h c (by simp [hc])

theorem forAll2_false {α β : Type} {check : α → β → Option Bool} {as : List α} {bs : List β}
    (h : ∀ a ∈ as, ∀ b ∈ bs, ∃ c, check a b = some c) (hf : ∃ a ∈ as, ∃ b ∈ bs, check a b = some false) :
    forAll2 check as bs = some false := by
  refine forAll_false (fun a ha => forAll_def (h a ha)) ?_
  obtain ⟨a, ha, hb⟩ := hf
  exact ⟨a, ha, forAll_false (h a ha) hb⟩

/-- A loop over the first `n` indices that meets an undefined check after defined ones that pass. -/
theorem forAll_range_none {check : ℕ → Option Bool} {n k : ℕ} (hk : k < n) (h : ∀ j < k, check j = some true) (hn : check k = none) :
    forAll check (List.range n) = none := by
  have key : ∀ (l l' : List ℕ), (∀ j ∈ l, check j = some true) → forAll check (l ++ k :: l') = none := by
    intro l
    induction l with
    | nil => intro l' _; simp [forAll, hn]
    | cons a l ih =>
      intro l' ha
      rw [List.cons_append, forAll, ha a (by simp)]
      simp only [Option.bind_eq_bind, Option.bind_some, if_true]
      exact ih l' fun j hj => ha j (by simp [hj])
  have : List.range n = List.range k ++ k :: (List.range (n - k - 1)).map (k + 1 + ·) := by
    conv_lhs => rw [show n = (k + 1) + (n - k - 1) by omega, List.range_add, List.range_succ]
    rw [List.append_assoc]; rfl
  rw [this]
  exact key _ _ fun j hj => h j (List.mem_range.mp hj)

theorem forAllFma_pass {α β γ : Type} {check : α → β → γ → Option Bool} {as : List α} {bs : List β} {cs : List γ}
    (h : ∀ a ∈ as, ∀ b ∈ bs, ∀ c ∈ cs, check a b c = some true) :
    forAllFma check as bs cs = if as.length ≤ bs.length then some true else none := by
  have inner : ∀ a ∈ as, ∀ j, (hj : j < bs.length) → (bs[j]?.bind fun b => forAll (check a b) cs) = some true := by
    intro a ha j hj
    rw [List.getElem?_eq_getElem hj]
    exact forAll_iff.mpr (h a ha _ (List.getElem_mem hj))
  unfold forAllFma
  split
  · rename_i hl
    rw [forAll_iff]
    intro a ha
    rw [forAll_iff]
    intro j hj
    exact inner a ha j (by have := List.mem_range.mp hj; omega)
  · rename_i hl
    cases as with
    | nil => simp at hl
    | cons a as =>
      rw [forAll, forAll_range_none (k := bs.length) (by omega) (inner a (by simp)) (by simp)]
      rfl

/-! ## The clamp case of the single-path adder -/

theorem clamp_neighbours {E F : ℕ} (hE : 1 ≤ E) (hF : 1 ≤ F) {x y : Fp E F} {vx vy : ℚ} (hx : x.datum = .num vx) (hy : y.datum = .num vy)
    (hc : ClampCase F vx vy) {d : Datum} (hd : AddsTo E F vx vy d) : SameOrNeighbours F (.num vx) d := by
  obtain ⟨hneg, k, hk, h1, h2⟩ := hc
  obtain ⟨a, -, ha, a1, a2⟩ := toMpfr_index hE hF hx
  obtain ⟨b, -, hb, b1, b2⟩ := toMpfr_index hE hF hy
  -- the sum
  have pk := two_zpow_pos (k - F - 1)
  have ek : (2 : ℚ) ^ k = 2 ^ (F + 1) * 2 ^ (k - F - 1) := by
    rw [← zpow_natCast, ← zpow_add₀ (by norm_num)]; congr 1; push_cast; ring
  have pF : (1 : ℚ) ≤ 2 ^ F := one_le_pow₀ (by norm_num)
  have hvy : 0 < |vy| := lt_trans (two_zpow_pos _) h1
  have hsum : |vx + vy| = 2 ^ k - |vy| ∧ (decide (vx + vy < 0) = decide (vx < 0)) ∧ vx + vy ≠ 0 := by
    have hlt : |vy| < 2 ^ k := by
      rw [ek, pow_succ]; nlinarith
    rw [← hk] at hlt ⊢
    rcases mul_neg_iff.mp hneg with ⟨p, q⟩ | ⟨p, q⟩
    · rw [abs_of_pos p, abs_of_neg q] at *
      rw [abs_of_pos (by linarith)]
      exact ⟨by ring, by rw [decide_eq_decide]; constructor <;> intro <;> linarith, by intro; linarith⟩
    · rw [abs_of_neg p, abs_of_pos q] at *
      rw [abs_of_neg (by linarith)]
      exact ⟨by ring, by rw [decide_eq_decide]; constructor <;> intro <;> linarith, by intro; linarith⟩
  obtain ⟨s1, s2, s3⟩ := hsum
  rw [AddsTo, if_neg s3] at hd
  obtain ⟨m, e, hn, rfl⟩ := hd
  rw [s2]
  rw [s1] at hn
  -- the power of two and the number before it
  have hp : 1 ≤ 2 ^ F := Nat.one_le_two_pow
  have hsig : IsSig (F + 1) (2 ^ (F + 1) - 1) := by
    refine ⟨?_, by rw [pow_succ]; omega⟩
    rw [Nat.add_sub_cancel, pow_succ]; omega
  have hsig2 : IsSig (F + 1) (2 ^ F) := ⟨by simp, by rw [pow_succ]; omega⟩
  have ekF : (2 : ℚ) ^ k = ((2 ^ F : ℕ) : ℚ) * 2 ^ (k - F) := by
    push_cast; rw [← zpow_natCast, ← zpow_add₀ (by norm_num)]; congr 1; ring
  have epred : ((2 ^ (F + 1) - 1 : ℕ) : ℚ) * 2 ^ (k - F - 1) = 2 ^ k - 2 ^ (k - F - 1) := by
    rw [ek]; push_cast [Nat.one_le_two_pow]; ring
  have n1 := hn.2.1 _ (k - F - 1) hsig
  have n2 := hn.2.1 _ (k - F) hsig2
  rw [epred] at n1
  rw [← ekF] at n2
  have lo : 2 ^ k - 2 ^ (k - F - 1) ≤ (m : ℚ) * 2 ^ e := by
    by_contra hc
    push Not at hc
    rw [abs_of_pos (show (0 : ℚ) < 2 ^ k - |vy| - m * 2 ^ e by linarith),
      abs_of_pos (show (0 : ℚ) < 2 ^ k - |vy| - (2 ^ k - 2 ^ (k - F - 1)) by linarith)] at n1
    linarith
  have hi : (m : ℚ) * 2 ^ e ≤ 2 ^ k := by
    by_contra hc
    push Not at hc
    rw [abs_of_neg (show 2 ^ k - |vy| - (m : ℚ) * 2 ^ e < 0 by linarith),
      abs_of_neg (show 2 ^ k - |vy| - (2 : ℚ) ^ k < 0 by linarith)] at n2
    linarith
  -- the indices
  have idx : ∀ c (i : ℕ), i < 2 ^ F → (c * 2 ^ F + (i : ℤ)) / 2 ^ F = c := by
    intro c i hi
    rw [mul_comm, Int.mul_add_ediv_left _ _ (by positivity), Int.ediv_eq_zero_of_lt (by positivity) (by exact_mod_cast hi), add_zero]
  have hm1 : 2 ^ F ≤ m := by have := hn.1.1; rwa [Nat.add_sub_cancel] at this
  have hm2 : m - 2 ^ F < 2 ^ F := by have := hn.1.2; rw [pow_succ] at this; omega
  have hcV : (m : ℚ) * 2 ^ e = V F (e * 2 ^ F + ((m - 2 ^ F : ℕ) : ℤ)) := by
    rw [V, ← Mpfr.eq_at false e hn.1, Mpfr.value]; simp
  have ce := idx e _ hm2
  generalize hcc : e * 2 ^ F + ((m - 2 ^ F : ℕ) : ℤ) = c at *
  have kV : (2 : ℚ) ^ k = V F ((k - F) * 2 ^ F) := by
    rw [ekF, V, ← add_zero ((k - F) * 2 ^ F : ℤ)]
    have := Mpfr.at_eq false (F := F) (i := 0) (k - F) (by positivity)
    rw [Nat.cast_zero] at this
    rw [this, Mpfr.value]; simp
  have pV : (2 : ℚ) ^ k - 2 ^ (k - F - 1) = V F ((k - F - 1) * 2 ^ F + ((2 ^ F - 1 : ℕ) : ℤ)) := by
    have := Mpfr.at_eq false (F := F) (i := 2 ^ F - 1) (k - F - 1) (by omega)
    rw [V, this, Mpfr.value, ← epred]
    have : 2 ^ (F + 1) - 1 = 2 ^ F + (2 ^ F - 1) := by rw [pow_succ]; omega
    rw [this]; simp
  rw [hcV, pV, (V_strictMono F).le_iff_le] at lo
  rw [hcV, kV, (V_strictMono F).le_iff_le] at hi
  have ac : a = (k - F) * 2 ^ F := by
    refine (V_strictMono F).injective ?_
    rw [← ha, hk, kV]
  have ap : (k - F - 1) * 2 ^ F + ((2 ^ F - 1 : ℕ) : ℤ) = a - 1 := by rw [ac]; push_cast [hp]; ring
  rw [ap] at lo
  rw [← ac] at hi
  -- the range
  have e1 : (a - 1) / 2 ^ F = k - F - 1 := by rw [← ap]; exact idx _ _ (by omega)
  have e2 : a / 2 ^ F = k - F := by
    have := idx (k - F) 0 (by omega)
    rwa [Nat.cast_zero, add_zero, ← ac] at this
  have he : k - F - 1 ≤ e ∧ e ≤ k - F := by
    rw [← e1, ← e2, ← ce]
    exact ⟨Int.ediv_le_ediv (by positivity) lo, Int.ediv_le_ediv (by positivity) hi⟩
  have hbk : b / 2 ^ F + F < k - F - 1 := by
    have hv : (2 : ℚ) ^ (b / 2 ^ F + F) ≤ V F b := by
      simp only [V, Mpfr.at_, Mpfr.value]
      rw [zpow_add₀ (by norm_num), zpow_natCast]
      have := two_zpow_pos (b / 2 ^ F)
      push_cast
      have : (0 : ℚ) ≤ ((b % 2 ^ F).toNat : ℚ) := by positivity
      nlinarith
    have := lt_of_le_of_lt (hb ▸ hv) h2
    exact (zpow_lt_zpow_iff_right₀ (by norm_num)).mp this
  rw [rangeCheck, if_neg (show ¬ e + F + bias E < 0 by omega), if_neg (show ¬ 2 ^ E ≤ e + F + bias E by omega)]
  have hVp := V_pos F c
  rw [hcV]
  have habs : |(if decide (vx < 0) = true then -1 else 1) * V F c| = V F c := by
    split
    · rw [neg_one_mul, abs_neg, abs_of_pos hVp]
    · rw [one_mul, abs_of_pos hVp]
  refine (neighbours_iff ha habs).mpr ⟨?_, by omega, by omega⟩
  have h0 : vx ≠ 0 := by rintro rfl; simp at hneg
  rcases lt_or_gt_of_ne h0 with h | h
  · simp only [h, decide_true, if_true]; nlinarith
  · simp only [not_lt.2 h.le, decide_false, Bool.false_eq_true, if_false]; nlinarith

/-! ## Where the inputs come from -/

theorem pushPair_mem {E F : ℕ} {allow : Bool} {t : Mpfr} {l : List (Fp E F)} (h : pushPair E F allow t = some l) {x : Fp E F} (hx : x ∈ l) :
    ∃ u, ofMpfr E F allow u = some x := by
  unfold pushPair at h
  cases h1 : ofMpfr E F allow t with
  | none => rw [h1] at h; cases h
  | some a =>
    cases h2 : ofMpfr E F allow t.flip with
    | none => rw [h1, h2] at h; cases h
    | some b =>
      rw [h1, h2] at h
      injection h with h
      subst h
      rcases List.mem_cons.mp hx with rfl | hx
      · exact ⟨_, h1⟩
      · rw [List.mem_singleton] at hx; subst hx; exact ⟨_, h2⟩

theorem pushPairs_mem {E F : ℕ} {allow : Bool} : ∀ {ts : List Mpfr} {l : List (Fp E F)}, pushPairs E F allow ts = some l →
    ∀ {x : Fp E F}, x ∈ l → ∃ u, ofMpfr E F allow u = some x
  | [], l, h, x, hx => by
    rw [pushPairs] at h; injection h with h; subst h; cases hx
  | t :: ts, l, h, x, hx => by
    rw [pushPairs] at h
    cases h1 : pushPair E F allow t with
    | none => rw [h1] at h; cases h
    | some a =>
      cases h2 : pushPairs E F allow ts with
      | none => rw [h1, h2] at h; cases h
      | some b =>
        rw [h1, h2] at h
        injection h with h
        subst h
        rcases List.mem_append.mp hx with hx | hx
        · exact pushPair_mem h1 hx
        · exact pushPairs_mem h2 hx

theorem randomLoop_mem {E F n : ℕ} {draws : ℕ → ℕ × ℕ} : ∀ {fuel i : ℕ} {args l : List (Fp E F)}, randomLoop E F n draws fuel i args = some l →
    ∀ {x}, x ∈ l → x ∈ args ∨ ∃ u, ofMpfr E F true u = some x
  | 0, i, args, l, h, x, hx => by
    rw [randomLoop] at h; injection h with h; subst h; exact .inl hx
  | fuel + 1, i, args, l, h, x, hx => by
    rw [randomLoop] at h
    split at h
    · cases h1 : pushPair E F true (ratio (F + 1) (draws i)) with
      | none => rw [h1] at h; cases h
      | some ps =>
        rw [h1, Option.bind_eq_bind, Option.bind_some] at h
        rcases randomLoop_mem h hx with hx | hx
        · rcases List.mem_append.mp hx with hx | hx
          · exact .inl hx
          · exact .inr (pushPair_mem h1 hx)
        · exact .inr hx
    · injection h with h; subst h; exact .inl hx

theorem makeInput_mem {E F n : ℕ} {draws : ℕ → ℕ × ℕ} {l : List (Fp E F)} (h : makeInput E F n draws = some l) {x : Fp E F} (hx : x ∈ l) :
    x ∈ edges E F ∨ ∃ allow u, ofMpfr E F allow u = some x := by
  unfold makeInput fixedInput at h
  simp only [Option.bind_eq_bind, Option.bind_eq_some_iff] at h
  obtain ⟨args, ⟨a, ha, b, hb, c, hc, d, hd, e, he, p, hp, hf⟩, hr⟩ := h
  injection hf with hf
  subst hf
  rcases randomLoop_mem hr hx with hx | ⟨u, hu⟩
  · simp only [List.mem_append] at hx
    rcases hx with (((((hx | hx) | hx) | hx) | hx) | hx) | hx
    · exact .inr ⟨_, pushPairs_mem ha hx⟩
    · exact .inl hx
    · exact .inr ⟨_, pushPairs_mem hb hx⟩
    · exact .inr ⟨_, pushPairs_mem hc hx⟩
    · exact .inr ⟨_, pushPairs_mem hd hx⟩
    · exact .inr ⟨_, pushPairs_mem he hx⟩
    · exact .inr ⟨_, pushPairs_mem hp hx⟩
  · exact .inr ⟨_, u, hu⟩

end OpTest
end Thls
namespace Thls
open Spec
namespace OpTest

theorem expFrac_exp {E F : ℕ} (hE : 1 ≤ E) (hF : 1 ≤ F) {x : Fp E F} {f : ℕ} (hf : f < 2 ^ F) (h : x.expFrac = f) : x.exp = 0 := by
  rw [← Fp.expFrac_div hE hF, h, Nat.div_eq_of_lt hf]

theorem special_exp {E F n : ℕ} (hE : 1 ≤ E) (hF : 1 ≤ F) {draws : ℕ → ℕ × ℕ} {l : List (Fp E F)} (h : makeInput E F n draws = some l)
    {x : Fp E F} (hx : x ∈ l) : (∃ v, x.datum = .num v) ∨ x.exp = 0 := by
  have h0 : (0 : ℕ) < 2 ^ F := by positivity
  have hE0 : (0 : ℕ) < 2 ^ E := by positivity
  have special : ∀ {fs : ℕ}, fs < 8 → (Fp.mk3 E F fs 0 0).exp = 0 := fun {fs} hfs =>
    expFrac_exp hE hF h0 (by rw [(Fp.mk3_fields hE hfs hE0 h0).2.2]; simp)
  have normal : ∀ {fs e f : ℕ}, fs / 2 = 1 → e < 2 ^ E → f < 2 ^ F → ∃ v, (Fp.mk3 E F fs e f).datum = .num v := fun {fs e f} hfs he hf =>
    ⟨_, datum_normal _ (by rw [(Fp.mk3_fields hE (by omega) he hf).1, hfs])⟩
  have special4 : ∀ {fl s f : ℕ}, fl < 4 → s < 2 → f < 2 ^ F → (Fp.mk4 E F fl s 0 f).exp = 0 := fun h1 h2 h3 =>
    Fp.mk4_exp h1 h2 hE0 h3 hE
  rcases makeInput_mem h hx with hx | ⟨allow, u, hu⟩
  · simp only [edges, List.mem_cons, List.not_mem_nil, or_false] at hx
    rcases hx with rfl | rfl | rfl | rfl | rfl | rfl | rfl | rfl
    · exact .inr (special (by decide))
    · exact .inl (normal (by decide) (by unfold ones; omega) (by unfold ones; omega))
    · exact .inl (normal (by decide) hE0 h0)
    · exact .inr (special (by decide))
    · exact .inr (special (by decide))
    · exact .inl (normal (by decide) hE0 h0)
    · exact .inl (normal (by decide) (by unfold ones; omega) (by unfold ones; omega))
    · exact .inr (special (by decide))
  · cases u with
    | nan =>
      simp only [ofMpfr, Option.some.injEq] at hu
      rw [← hu]; exact .inr (special (by decide))
    | inf s =>
      simp only [ofMpfr, Option.some.injEq] at hu
      rw [← hu]
      cases s
      · exact .inr (special (by decide))
      · exact .inr (special (by decide))
    | zero s =>
      simp only [ofMpfr, Option.some.injEq] at hu
      rw [← hu, show concat (1 + E + F) 0 (concat (E + F) s.toNat 0) = concat (E + F) (concat 1 0 s.toNat) 0 by simp [concat],
        ofBits_concat, Nat.zero_div, Nat.zero_mod]
      exact .inr (special4 (by decide) (by cases s <;> decide) h0)
    | num s m e =>
      have hs : s.toNat < 2 := by cases s <;> decide
      simp only [ofMpfr] at hu
      split_ifs at hu with c1 c2 c3 c4 c5 c6
      · injection hu with hu
        rw [← hu]; exact .inr (special4 (by decide) hs (by omega))
      · injection hu with hu
        rw [← hu]; exact .inr (special4 (by decide) hs (by omega))
      · injection hu with hu
        rw [← hu]
        refine .inl ⟨_, datum_normal _ (Fp.mk4_flags (by decide) hs ?_ (by omega))⟩
        have hb := bias_double hE
        have : (biasN E : ℤ) = bias E := pow_bias
        zify
        rw [Int.toNat_of_nonneg (by omega)]
        omega

theorem randomLoop_sub {E F n : ℕ} {draws : ℕ → ℕ × ℕ} : ∀ {fuel i : ℕ} {args l : List (Fp E F)}, randomLoop E F n draws fuel i args = some l →
    ∀ x ∈ args, x ∈ l
  | 0, i, args, l, h, x, hx => by
    rw [randomLoop] at h; injection h with h; subst h; exact hx
  | fuel + 1, i, args, l, h, x, hx => by
    rw [randomLoop] at h
    split at h
    · cases h1 : pushPair E F true (ratio (F + 1) (draws i)) with
      | none => rw [h1] at h; cases h
      | some ps =>
        rw [h1, Option.bind_eq_bind, Option.bind_some] at h
        exact randomLoop_sub h x (List.mem_append_left _ hx)
    · injection h with h; subst h; exact hx

theorem edges_mem {E F n : ℕ} {draws : ℕ → ℕ × ℕ} {l : List (Fp E F)} (h : makeInput E F n draws = some l) {x : Fp E F}
    (hx : x ∈ edges E F) : x ∈ l := by
  unfold makeInput fixedInput at h
  simp only [Option.bind_eq_bind, Option.bind_eq_some_iff] at h
  obtain ⟨args, ⟨a, ha, b, hb, c, hc, d, hd, e, he, p, hp, hf⟩, hr⟩ := h
  injection hf with hf
  subst hf
  exact randomLoop_sub hr x (by simp [hx])

/-- The result of the single-path adder and the reference pass the check, whatever the operands are. -/
theorem addSingle_accepted {EA FA EB FB : ℕ} (hEA : 1 ≤ EA) (hFA : 1 ≤ FA) (hEB : 1 ≤ EB) (hFB : 1 ≤ FB) (hE2 : max EA EB ≤ 62)
    (hfmt : max FA FB + 3 < 2 ^ max EA EB) (hfmt2 : max FA FB + 3 ≠ 2 ^ (max EA EB - 1)) (x : Fp EA FA) (y : Fp EB FB) :
    checkFaithful (refAdd (max EA EB) (max FA FB) x y) (AddSingle.add x y) = some true := by
  have hE : 2 ≤ max EA EB := by
    by_contra hc
    have : max EA EB = 1 := by omega
    rw [this] at hfmt; omega
  have hF : 1 ≤ max FA FB := by omega
  obtain ⟨r', hr', hd'⟩ := C53_ref_add (ER := max EA EB) (FR := max FA FB) (by omega) hF x y
  by_cases hnum : ∃ p q, x.datum = .num p ∧ y.datum = .num q
  · obtain ⟨p, q, hx, hy⟩ := hnum
    have hadd : AddsTo (max EA EB) (max FA FB) p q r'.datum := by rw [exactAdd, hx, hy] at hd'; exact hd'
    have px : (promote (max EA EB) (max FA FB) x).datum = .num p := by
      rw [promote_datum hEA hFA (by omega) (by omega), hx]
    have py : (promote (max EA EB) (max FA FB) y).datum = .num q := by
      rw [promote_datum hEB hFB (by omega) (by omega), hy]
    by_cases hc : max FA FB + 3 < 2 ^ (max EA EB - 1) ∧ (ClampCase (max FA FB) p q ∨ ClampCase (max FA FB) q p)
    · obtain ⟨hs, hc⟩ := hc
      obtain ⟨r, hr, -, -, h3, h4⟩ := AddSingle.orders_num (AddSingle.lzoc_normalises _) hE hF hfmt hfmt2
        (AddSingle.addSame_orders (by omega) hF (promote (max EA EB) (max FA FB) x)
          (promote (max EA EB) (max FA FB) y)) px py
      rw [AddSingle.clamped_iff (by omega) hF px py] at h3
      rw [AddSingle.clamped_iff (by omega) hF py px] at h4
      have hr2 : AddSingle.add x y = some r := hr
      rw [hr', hr2]
      obtain ⟨ok, h1, h2⟩ := faithful_iff (by omega) hE2 hF r' r
      rw [h1]
      congr 1
      refine h2.mpr (.inr (.inr (.inr (.inr ?_))))
      rcases hc with hc | hc
      · rw [h3 ⟨hs, hc⟩, px]
        exact clamp_neighbours (by omega) hF px py hc hadd
      · rw [h4 ⟨hs, hc⟩, py]
        refine clamp_neighbours (by omega) hF py px hc ?_
        unfold AddsTo at hadd ⊢
        rwa [add_comm q p]
    · obtain ⟨r, hr, ha⟩ := (C15_add_single_correct_iff hEA hFA hEB hFB hfmt hfmt2 x y p q hx hy).mpr hc
      exact faithful_of_equals hr' hr ((C07_equals_iff_same_datum (by omega) hF _ _).mpr (addsTo_unique ha hadd)) (by omega) hF
  · obtain ⟨r, r2, hr, hr2, he⟩ := C54_add_single_agrees_partial hEA hFA hEB hFB hfmt hfmt2 x y
      (fun p q hp hq => absurd ⟨p, q, hp, hq⟩ hnum)
    exact faithful_of_equals hr2 hr he (by omega) hF

end OpTest
end Thls
