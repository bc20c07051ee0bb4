import Verif.Proofs.SoftMono

/-! # NaN results of the SoftFloat routines -/

namespace Thls
open Spec

namespace SoftFmt
variable {f : SoftFmt}

/-- A quiet NaN: exponent all ones and the top fraction bit set. -/
def Quiet (f : SoftFmt) (w : ℕ) : Prop := f.exp w = f.top ∧ 2 ^ (f.F - 1) ≤ f.frac w

theorem default_quiet (ok : f.Ok) : f.Quiet f.defaultNaN := by
  have hF : 1 ≤ f.F := by have := ok.hF; have := ok.hE; omega
  obtain ⟨k, hk⟩ : ∃ k, f.F = k + 1 := ⟨f.F - 1, by omega⟩
  unfold Quiet exp frac defaultNaN top
  rw [hk, Nat.add_sub_cancel]
  have h2 := Nat.two_pow_pos k
  have hE := Nat.two_pow_pos f.E
  have e1 : (2 ^ (f.E + 2) - 1) * 2 ^ k = (2 * 2 ^ f.E - 1) * 2 ^ (k + 1) + 2 ^ k := by
    obtain ⟨t, ht⟩ : ∃ t, 2 ^ f.E = t + 1 := ⟨2 ^ f.E - 1, by omega⟩
    rw [pow_add, ht, show (t + 1) * 2 ^ 2 - 1 = 4 * t + 3 by omega, show 2 * (t + 1) - 1 = 2 * t + 1 by omega, pow_succ]
    ring
  rw [e1]
  constructor
  · rw [Nat.add_comm, Nat.add_mul_div_right _ _ (Nat.two_pow_pos _), Nat.div_eq_of_lt (by rw [pow_succ]; omega), Nat.zero_add,
      show 2 * 2 ^ f.E - 1 = (2 ^ f.E - 1) + 2 ^ f.E by omega, Nat.add_mod_right, Nat.mod_eq_of_lt (by omega)]
  · rw [Nat.add_comm, Nat.add_mul_mod_self_right, Nat.mod_eq_of_lt (by rw [pow_succ]; omega)]

theorem addSpecial_eq_nan {x y : Datum} (hx : x ≠ .nan) (hy : y ≠ .nan) (h : addSpecial x y = some .nan) :
    ∃ s t, x = .inf s ∧ y = .inf t ∧ s ≠ t := by
  cases x with
  | nan => exact absurd rfl hx
  | inf s =>
    cases y with
    | nan => exact absurd rfl hy
    | inf t => refine ⟨s, t, rfl, rfl, ?_⟩; rintro rfl; simp [addSpecial] at h
    | zero t => simp [addSpecial] at h
    | num q => simp [addSpecial] at h
  | zero s =>
    cases y with
    | nan => exact absurd rfl hy
    | inf t => simp [addSpecial] at h
    | zero t => simp [addSpecial] at h
    | num q => simp [addSpecial] at h
  | num p =>
    cases y with
    | nan => exact absurd rfl hy
    | inf t => simp [addSpecial] at h
    | zero t => simp [addSpecial] at h
    | num q => simp [addSpecial] at h

theorem rounded_not_nan {E F : ℕ} {q : ℚ} (h : RoundedGradual E F q .nan) : False := by
  obtain ⟨m, e, -, h⟩ := h
  split_ifs at h

theorem inf_fields (ok : f.Ok) {w : ℕ} (hw : w < 2 ^ f.W) {s : Bool} (h : wordDatum f.E f.F w = .inf s) :
    f.exp w = f.top ∧ f.frac w = 0 ∧ f.sign w = s := by
  rcases kind ok hw with ⟨h1, d⟩ | ⟨h1, hf, d⟩ | ⟨h1, hf, d⟩ | ⟨h1, h0, d⟩ <;> rw [d] at h <;> try cases h
  exact ⟨h1, hf, rfl⟩

theorem zero_fields (ok : f.Ok) {w : ℕ} (hw : w < 2 ^ f.W) {s : Bool} (h : wordDatum f.E f.F w = .zero s) :
    f.exp w = 0 ∧ f.frac w = 0 := by
  rcases kind ok hw with ⟨h1, d⟩ | ⟨h1, hf, d⟩ | ⟨h1, hf, d⟩ | ⟨h1, h0, d⟩ <;> rw [d] at h <;> try cases h
  exact ⟨h1, hf⟩

theorem datum_ne_nan (ok : f.Ok) {w : ℕ} (hw : w < 2 ^ f.W) (h : ¬ f.isNaN w = true) : wordDatum f.E f.F w ≠ .nan := by
  rcases kind ok hw with ⟨h1, d⟩ | ⟨h1, hf, d⟩ | ⟨h1, hf, d⟩ | ⟨h1, h0, d⟩
  · exact absurd h1 h
  all_goals rw [d]; simp

theorem add_quiet (ok : f.Ok) {a b z : ℕ} (ha : a < 2 ^ f.W) (hb : b < 2 ^ f.W) (hz : f.add a b = some z)
    (hn : wordDatum f.E f.F z = .nan) : f.Quiet z := by
  by_cases h : f.isNaN a = true ∨ f.isNaN b = true
  · have h1 := add_nan ok a b h
    rw [hz] at h1
    rw [Option.some.inj h1]
    exact ⟨(propagateNaN_spec ok ha hb h).1, (propagateNaN_spec ok ha hb h).2.1⟩
  · rw [not_or] at h
    obtain ⟨z', g1, -, g3⟩ := add_ieee ok ha hb
    rw [hz] at g1
    rw [← Option.some.inj g1, hn] at g3
    have hs : addSpecial (wordDatum f.E f.F a) (wordDatum f.E f.F b) = some .nan := by
      cases dx : wordDatum f.E f.F a <;> cases dy : wordDatum f.E f.F b <;> rw [dx, dy] at g3 <;> try exact g3
      simp only [IeeeSum] at g3
      split_ifs at g3
      exact (rounded_not_nan g3).elim
    obtain ⟨s, t, h1, h2, h3⟩ := addSpecial_eq_nan (datum_ne_nan ok ha h.1) (datum_ne_nan ok hb h.2) hs
    obtain ⟨a1, a2, a3⟩ := inf_fields ok ha h1
    obtain ⟨b1, b2, b3⟩ := inf_fields ok hb h2
    unfold add subMags at hz
    rw [if_pos (by rw [a3, b3]; simpa using h3)] at hz
    simp only at hz
    rw [if_pos (a1.trans b1.symm), if_pos a1, if_neg (by omega)] at hz
    rw [← Option.some.inj hz]
    exact default_quiet ok

theorem mulSpecial_eq_nan {x y : Datum} (hx : x ≠ .nan) (hy : y ≠ .nan) (h : mulSpecial x y = some .nan) :
    (∃ s t, x = .inf s ∧ y = .zero t) ∨ ∃ s t, x = .zero s ∧ y = .inf t := by
  cases x <;> cases y <;> simp [mulSpecial] at hx hy h ⊢

theorem divSpecial_eq_nan {x y : Datum} (hx : x ≠ .nan) (hy : y ≠ .nan) (h : divSpecial x y = some .nan) :
    (∃ s t, x = .inf s ∧ y = .inf t) ∨ ∃ s t, x = .zero s ∧ y = .zero t := by
  cases x <;> cases y <;> simp [divSpecial] at hx hy h ⊢

theorem mul_quiet (ok : f.Ok) {prod : ℕ → ℕ → Option ℕ} (hp : ProdOk f prod) {a b z : ℕ} (ha : a < 2 ^ f.W) (hb : b < 2 ^ f.W)
    (hz : f.mulWith prod a b = some z) (hn : wordDatum f.E f.F z = .nan) : f.Quiet z := by
  by_cases h : f.isNaN a = true ∨ f.isNaN b = true
  · have h1 := mul_nan (f := f) prod a b h
    rw [hz] at h1
    rw [Option.some.inj h1]
    exact ⟨(propagateNaN_spec ok ha hb h).1, (propagateNaN_spec ok ha hb h).2.1⟩
  · rw [not_or] at h
    obtain ⟨z', g1, -, g3⟩ := mul_ieee ok hp ha hb
    rw [hz] at g1
    rw [← Option.some.inj g1, hn] at g3
    have hs : mulSpecial (wordDatum f.E f.F a) (wordDatum f.E f.F b) = some .nan := by
      cases dx : wordDatum f.E f.F a <;> cases dy : wordDatum f.E f.F b <;> rw [dx, dy] at g3 <;> try exact g3
      exact (rounded_not_nan g3).elim
    have ht := top_ne_zero ok
    rcases mulSpecial_eq_nan (datum_ne_nan ok ha h.1) (datum_ne_nan ok hb h.2) hs with ⟨s, t, h1, h2⟩ | ⟨s, t, h1, h2⟩
    · obtain ⟨a1, a2, a3⟩ := inf_fields ok ha h1
      obtain ⟨b1, b2⟩ := zero_fields ok hb h2
      unfold mulWith at hz
      simp only at hz
      rw [if_pos a1, if_neg (by omega), if_pos (by simp [b1, b2])] at hz
      rw [← Option.some.inj hz]
      exact default_quiet ok
    · obtain ⟨a1, a2⟩ := zero_fields ok ha h1
      obtain ⟨b1, b2, b3⟩ := inf_fields ok hb h2
      unfold mulWith at hz
      simp only at hz
      rw [if_neg (by omega), if_pos b1, if_neg (by omega), if_pos (by simp [a1, a2])] at hz
      rw [← Option.some.inj hz]
      exact default_quiet ok

theorem div_quiet (ok : f.Ok) {quot : ℕ → ℕ → Bool × ℕ} (hp : QuotOk f quot) {a b z : ℕ} (ha : a < 2 ^ f.W) (hb : b < 2 ^ f.W)
    (hz : f.divWith quot a b = some z) (hn : wordDatum f.E f.F z = .nan) : f.Quiet z := by
  by_cases h : f.isNaN a = true ∨ f.isNaN b = true
  · have h1 := div_nan ok quot a b h
    rw [hz] at h1
    rw [Option.some.inj h1]
    exact ⟨(propagateNaN_spec ok ha hb h).1, (propagateNaN_spec ok ha hb h).2.1⟩
  · rw [not_or] at h
    obtain ⟨z', g1, -, g3⟩ := div_ieee ok hp ha hb
    rw [hz] at g1
    rw [← Option.some.inj g1, hn] at g3
    have hs : divSpecial (wordDatum f.E f.F a) (wordDatum f.E f.F b) = some .nan := by
      cases dx : wordDatum f.E f.F a <;> cases dy : wordDatum f.E f.F b <;> rw [dx, dy] at g3 <;> try exact g3
      exact (rounded_not_nan g3).elim
    have ht := top_ne_zero ok
    rcases divSpecial_eq_nan (datum_ne_nan ok ha h.1) (datum_ne_nan ok hb h.2) hs with ⟨s, t, h1, h2⟩ | ⟨s, t, h1, h2⟩
    · obtain ⟨a1, a2, a3⟩ := inf_fields ok ha h1
      obtain ⟨b1, b2, b3⟩ := inf_fields ok hb h2
      unfold divWith at hz
      simp only at hz
      rw [if_pos a1, if_neg (by omega), if_pos b1, if_neg (by omega)] at hz
      rw [← Option.some.inj hz]
      exact default_quiet ok
    · obtain ⟨a1, a2⟩ := zero_fields ok ha h1
      obtain ⟨b1, b2⟩ := zero_fields ok hb h2
      unfold divWith at hz
      simp only at hz
      rw [if_neg (by omega), if_neg (by omega), if_pos ⟨b1, b2⟩, if_pos ⟨a1, a2⟩] at hz
      rw [← Option.some.inj hz]
      exact default_quiet ok

/-- With one NaN operand the fraction of the result is that of the operand, made quiet. -/
theorem propagateNaN_one (ok : f.Ok) {a b : ℕ} (h : f.isNaN a = true) (hb : f.isNaN b = false) :
    f.frac (f.propagateNaN a b) = f.frac (a ||| 2 ^ (f.F - 1)) := by
  obtain ⟨a1, a2, a3⟩ := quiet_fields ok a
  obtain ⟨b1, b2, b3⟩ := quiet_fields ok b
  have ea := ((isNaN_iff a).1 h).1
  have hsb : f.isSigNaN b = false := by
    by_contra hc
    have hc' : f.isSigNaN b = true := by simpa using hc
    have hb' : ¬ (f.exp b = f.top ∧ f.frac b ≠ 0) := by rw [← isNaN_iff, hb]; simp
    have he := isSigNaN_exp hc'
    have hf : f.frac b = 0 := by by_contra h'; exact hb' ⟨he, h'⟩
    unfold isSigNaN at hc'
    simp only [Bool.and_eq_true, bne_iff_ne] at hc'
    apply hc'.2
    have hF : 2 ^ (f.F - 1) ∣ 2 ^ f.F := pow_dvd_pow 2 (by omega)
    have : f.frac b % 2 ^ (f.F - 1) = b % 2 ^ (f.F - 1) := Nat.mod_mod_of_dvd _ hF
    rw [← this, hf, Nat.zero_mod]
  unfold propagateNaN
  simp only [hsb, hb, Bool.not_false, Bool.and_true, Bool.and_false, Bool.false_eq_true, if_false]
  split_ifs with h1 h2 h3 h4
  · rfl
  · exfalso
    -- the quieted `b` is not greater in magnitude
    have hle : (b ||| 2 ^ (f.F - 1)) % 2 ^ (f.W - 1) ≤ (a ||| 2 ^ (f.F - 1)) % 2 ^ (f.W - 1) := quiet_le ok h hb
    omega
  · rfl
  · rfl
  · have hm : (a ||| 2 ^ (f.F - 1)) % 2 ^ (f.W - 1) = (b ||| 2 ^ (f.F - 1)) % 2 ^ (f.W - 1) := by omega
    have hd : 2 ^ f.F ∣ 2 ^ (f.W - 1) := pow_dvd_pow 2 (by unfold W; omega)
    unfold frac
    rw [← Nat.mod_mod_of_dvd (b ||| _) hd, ← hm, Nat.mod_mod_of_dvd _ hd]
where
  quiet_le (ok : f.Ok) {a b : ℕ} (h : f.isNaN a = true) (hb : f.isNaN b = false) :
      (b ||| 2 ^ (f.F - 1)) % 2 ^ (f.W - 1) ≤ (a ||| 2 ^ (f.F - 1)) % 2 ^ (f.W - 1) := by
    obtain ⟨a1, a2, a3⟩ := quiet_fields ok a
    obtain ⟨b1, b2, b3⟩ := quiet_fields ok b
    have ea := ((isNaN_iff a).1 h).1
    have hb' : ¬ (f.exp b = f.top ∧ f.frac b ≠ 0) := by rw [← isNaN_iff, hb]; simp
    rw [mag_mod, mag_mod, a1, b1, ea]
    have hlt := (fields_lt f (b ||| 2 ^ (f.F - 1))).2
    have eb := exp_le_top f b
    by_cases he : f.exp b = f.top
    · have hf : f.frac b = 0 := by by_contra h'; exact hb' ⟨he, h'⟩
      have : f.frac (b ||| 2 ^ (f.F - 1)) = 2 ^ (f.F - 1) := by
        have hF : f.F - 1 < f.F := by have := ok.hF; have := ok.hE; omega
        unfold frac at hf ⊢
        rw [Nat.or_mod_two_pow, hf, Nat.zero_or, Nat.mod_eq_of_lt (Nat.pow_lt_pow_right (by norm_num) hF)]
      rw [he, this]
      omega
    · have : (f.exp b + 1) * 2 ^ f.F ≤ f.top * 2 ^ f.F := Nat.mul_le_mul_right _ (by omega)
      rw [Nat.add_mul, Nat.one_mul] at this
      omega

end SoftFmt
end Thls
