import Verif.Proofs.LoopAdders
import Verif.Props.Ieee

/-! # C57: accumulation loops -/

namespace Thls

open Spec

theorem default_datum {E F : ℕ} : (Fp.default E F).datum = .zero false := by
  simp [Fp.default, Fp.datum, Fp.ofBits, Fp.flags, Fp.sign, Fp.exp, Fp.frac, getBits, denote]

theorem default_fin {E F : ℕ} : (Fp.default E F).datum.fin = some 0 := by rw [default_datum]; rfl

theorem wrap_adder {E F : ℕ} (hE : 3 < E) (hF : 1 ≤ F) (hok : DualFormat E F) (hfmt : F ≤ 2 ^ (E + 1)) :
    Adder E F (uro F) (wrapAdd (E := E) (F := F)) := dual_adder (by omega) hF hok hfmt

theorem approx_of_fin {E F : ℕ} {xs : List (Fp E F)} {vs : List ℚ} (hx : List.Forall₂ (fun x v => x.datum.fin = some v) xs vs) :
    List.Forall₂ (Adder.Approx 0 0) xs vs := by
  refine hx.imp ?_
  intro x v h
  exact ⟨v, h, by simp⟩

/-- **C57.** Summing any number of finite values with `acc += x`, from a default-constructed accumulator, never violates a
precondition. If the result is finite its error is at most `((1+u)^(n-1) - 1) * (Σ|v| + minPos/u)` with
`u = 2^-(F+1)`, whatever the order and the signs; and it is finite whenever `(1+u)^(n-1) * (Σ|v| + minPos/u)` is within the format's
range. (`minPos/u` accounts for underflow.) Partial: the formats on which the adder is correct (C14, C19). -/
theorem C57_sum_error_partial {E F : ℕ} (hE : 3 < E) (hF : 1 ≤ F) (hok : DualFormat E F) (hfmt : F ≤ 2 ^ (E + 1))
    (xs : List (Fp E F)) (vs : List ℚ) (hx : List.Forall₂ (fun x v => x.datum.fin = some v) xs vs) :
    ∃ r, sumLoop xs = some r ∧
      (∀ s, r.datum.fin = some s →
        |s - vs.sum| ≤ ((1 + uro F) ^ (xs.length - 1) - 1) * ((vs.map abs).sum + minPos E / uro F)) ∧
      ((1 + uro F) ^ (xs.length - 1) * ((vs.map abs).sum + minPos E / uro F) ≤ maxFin E F →
        ∃ s, r.datum.fin = some s) := by
  have hA := wrap_adder hE hF hok hfmt
  have hu := uro_pos F
  have hmp : 0 < minPos E := two_zpow_pos _
  obtain ⟨r, hr⟩ := hA.fold_total xs (Fp.default E F)
  obtain ⟨h1, h2⟩ := hA.loop (w := 0) (δ := 0) (γ := minPos E / uro F) hu.le le_rfl le_rfl (by positivity)
    (by field_simp; ring) (approx_of_fin hx) default_fin hr
  refine ⟨r, hr, fun s hs => ?_, fun hb => h2 ?_⟩
  · have := h1 s hs
    linarith
  · linarith

/-- **C57.** The sum loop propagates exceptional elements: an infinity or NaN anywhere makes the result non-finite, a NaN anywhere
makes it NaN. -/
theorem C57_sum_exceptions {E F : ℕ} (hE : 3 < E) (hF : 1 ≤ F) (hok : DualFormat E F) (hfmt : F ≤ 2 ^ (E + 1))
    (xs : List (Fp E F)) :
    ∃ r, sumLoop xs = some r ∧ ((∃ x ∈ xs, x.datum.fin = none) → r.datum.fin = none) ∧
      ((∃ x ∈ xs, x.datum = .nan) → r.datum = .nan) := by
  have hA := wrap_adder hE hF hok hfmt
  obtain ⟨r, hr⟩ := hA.fold_total xs (Fp.default E F)
  exact ⟨r, hr, fun h => hA.fold_sticky hr (Or.inr h), fun h => hA.fold_nan hr (Or.inr h)⟩

/-- An integer of at most `2^(F+1)` has an `F+1`-bit significand. -/
theorem int_sig {F n : ℕ} (h0 : 0 < n) (h : n ≤ 2 ^ (F + 1)) :
    ∃ (m : ℕ) (e : ℤ), IsSig (F + 1) m ∧ (n : ℚ) = m * 2 ^ e ∧ 0 ≤ e + F ∧ e ≤ 1 := by
  have l1 := Nat.pow_log_le_self 2 (show n ≠ 0 by omega)
  have l2 := Nat.lt_pow_succ_log_self (b := 2) (by norm_num) n
  generalize Nat.log 2 n = l at *
  by_cases hl : l ≤ F
  · refine ⟨n * 2 ^ (F - l), (l : ℤ) - F, ⟨?_, ?_⟩, ?_, by omega, by omega⟩
    · calc 2 ^ (F + 1 - 1) = 2 ^ l * 2 ^ (F - l) := by rw [← pow_add]; congr 1; omega
        _ ≤ _ := Nat.mul_le_mul_right _ l1
    · calc n * 2 ^ (F - l) < 2 ^ (l + 1) * 2 ^ (F - l) := Nat.mul_lt_mul_of_pos_right l2 (by positivity)
        _ = _ := by rw [← pow_add]; congr 1; omega
    · push_cast
      rw [mul_assoc, ← zpow_natCast (2 : ℚ) (F - l), ← zpow_add₀ (by norm_num),
        show ((F - l : ℕ) : ℤ) + ((l : ℤ) - F) = 0 by omega, zpow_zero, mul_one]
  · have hp : 2 ^ (F + 1) ≤ 2 ^ l := Nat.pow_le_pow_right (by norm_num) (by omega)
    have hn : n = 2 ^ (F + 1) := by omega
    refine ⟨2 ^ F, 1, ⟨?_, ?_⟩, ?_, by omega, by omega⟩
    · simp
    · rw [pow_succ]; have : 0 < 2 ^ F := by positivity
      omega
    · rw [hn, pow_succ]; push_cast; norm_num

/-- A small multiple of `2^k` is rounded to itself. -/
theorem rounded0_multiple {E F : ℕ} (hE : 1 ≤ E) {n k : ℤ} {d : Datum} (h : Rounded0 E F (n * 2 ^ k) d)
    (hn : |n| ≤ 2 ^ (F + 1)) (hk : -bias E ≤ k) (hk2 : k + F ≤ bias E) : d.fin = some ((n : ℚ) * 2 ^ k) := by
  unfold Rounded0 at h
  have hp := two_zpow_pos k
  by_cases h0 : n = 0
  · subst h0
    rw [if_pos (by simp)] at h
    obtain ⟨s, rfl⟩ := h
    simp [Datum.fin]
  · have hq : (n : ℚ) * 2 ^ k ≠ 0 := mul_ne_zero (by exact_mod_cast h0) hp.ne'
    rw [if_neg hq] at h
    obtain ⟨m, e, hs, hv, he1, he2⟩ := int_sig (F := F) (n := n.natAbs) (by omega) (by
      have : ((n.natAbs : ℕ) : ℤ) ≤ ((2 ^ (F + 1) : ℕ) : ℤ) := by rw [Int.natCast_natAbs]; push_cast; exact hn
      exact_mod_cast this)
    have hb := two_bias hE
    have habs : |(n : ℚ) * 2 ^ k| = m * 2 ^ (e + k) := by
      rw [abs_mul, abs_of_pos hp, zpow_add₀ (by norm_num), ← mul_assoc, ← hv]
      congr 1
      rw [Nat.cast_natAbs]; push_cast; rfl
    rw [rounded_exact hE hq h hs habs (by omega) (by omega)]
    rfl

/-- **C57.** Sums of small multiples of a common power of two are exact, in any order: if the elements are `n_i * 2^k`
with `Σ|n_i| ≤ 2^(F+1)` and `2^k` and `2^(k+F+1)` in the range of the format, the loop returns exactly `(Σ n_i) * 2^k`. -/
theorem C57_sum_exact {E F : ℕ} (hE : 3 < E) (hF : 1 ≤ F) (hok : DualFormat E F) (hfmt : F ≤ 2 ^ (E + 1)) (k : ℤ)
    (hk : -bias E ≤ k) (hk2 : k + F ≤ bias E) (xs : List (Fp E F)) (ns : List ℤ)
    (hx : List.Forall₂ (fun x (n : ℤ) => x.datum.fin = some ((n : ℚ) * 2 ^ k)) xs ns) (hsum : (ns.map abs).sum ≤ 2 ^ (F + 1)) :
    ∃ r, sumLoop xs = some r ∧ r.datum.fin = some ((ns.sum : ℤ) * (2 : ℚ) ^ k) := by
  suffices h : ∀ (xs : List (Fp E F)) (ns : List ℤ) (acc : Fp E F) (T : ℤ),
      List.Forall₂ (fun x (n : ℤ) => x.datum.fin = some ((n : ℚ) * 2 ^ k)) xs ns → acc.datum.fin = some ((T : ℚ) * 2 ^ k) →
      |T| + (ns.map abs).sum ≤ 2 ^ (F + 1) →
      ∃ r, xs.foldlM wrapAdd acc = some r ∧ r.datum.fin = some (((T + ns.sum : ℤ) : ℚ) * (2 : ℚ) ^ k) by
    have := h xs ns (Fp.default E F) 0 hx (by rw [default_fin]; simp) (by simpa using hsum)
    simpa [sumLoop] using this
  intro xs ns acc T hx
  induction hx generalizing acc T with
  | nil => intro ha _; exact ⟨acc, rfl, by simpa using ha⟩
  | cons hxt hrest ih =>
    rename_i x n xs ns
    intro ha hb
    simp only [List.map_cons, List.sum_cons] at hb
    have hnn : 0 ≤ (ns.map abs).sum := List.sum_nonneg (by simp)
    have htri := abs_add_le T n
    obtain ⟨a, hr⟩ := (wrap_adder hE hF hok hfmt).total acc x
    have hR := add_fin (by omega) hF hok hfmt acc x ha hxt hr
    rw [show (T : ℚ) * 2 ^ k + n * 2 ^ k = ((T + n : ℤ) : ℚ) * 2 ^ k by push_cast; ring] at hR
    have hfin := rounded0_multiple (by omega) hR (by omega) hk hk2
    obtain ⟨r, h1, h2⟩ := ih a (T + n) hfin (by omega)
    refine ⟨r, by rw [List.foldlM_cons, hr]; exact h1, ?_⟩
    rw [h2, List.sum_cons, add_assoc]

/-- **C57.** A sum of non-negative values is never NaN and never below zero. -/
theorem C57_sum_nonneg {E F : ℕ} (hE : 3 < E) (hF : 1 ≤ F) (hok : DualFormat E F) (hfmt : F ≤ 2 ^ (E + 1))
    (xs : List (Fp E F)) (hx : ∀ x ∈ xs, (Datum.zero false).Le x.datum) :
    ∃ r, sumLoop xs = some r ∧ (Datum.zero false).Le r.datum := by
  suffices h : ∀ (xs : List (Fp E F)) (acc : Fp E F), (∀ x ∈ xs, (Datum.zero false).Le x.datum) → (Datum.zero false).Le acc.datum →
      ∃ r, xs.foldlM wrapAdd acc = some r ∧ (Datum.zero false).Le r.datum from
    h xs _ hx (by rw [default_datum]; right; trivial)
  intro xs
  induction xs with
  | nil => intro acc _ ha; exact ⟨acc, rfl, ha⟩
  | cons x xs ih =>
    intro acc hx ha
    obtain ⟨a, hr⟩ := (wrap_adder hE hF hok hfmt).total acc x
    have hxx := hx x (by simp)
    have hle : (Datum.zero false).Le a.datum := by
      obtain ⟨-, n1⟩ := le_not_nan ha
      obtain ⟨-, n2⟩ := le_not_nan hxx
      have spec : ∀ {d : Datum}, addSpecial acc.datum x.datum = some d → a.datum = d := by
        intro d h2
        obtain ⟨r', h3, h4⟩ := AddDual.addSame_special (by omega) hF hok h2
        rw [show AddDual.addSame acc x = some a from hr] at h3; injection h3 with h3; rw [h3]; exact h4
      have infpos : ∀ {s : Bool}, (Datum.zero false).Le (.inf s) → s = false := by
        intro s h; cases s
        · rfl
        · simp [Datum.Le, Datum.Lt, Datum.RealEq] at h
      rcases fin_or n1 with ⟨u, hu⟩ | ⟨s, hs⟩
      · rcases fin_or n2 with ⟨v, hv⟩ | ⟨t, ht⟩
        · have h1 := le_fin (a := .zero false) rfl hu ha
          have h2 := le_fin (a := .zero false) rfl hv hxx
          have hR := add_fin (by omega) hF hok hfmt acc x hu hv hr
          refine rounded0_mono (E := E) (F := F) (q := 0) (r := u + v) (by linarith) ?_ hR
          unfold Rounded0; rw [if_pos rfl]; exact ⟨_, rfl⟩
        · rw [ht] at hxx
          have := infpos hxx; subst this
          have : a.datum = .inf false := by
            apply spec
            rw [ht]
            generalize acc.datum = d at *
            rcases d with _ | s | s | q
            · exact absurd rfl n1
            · cases hu
            · rfl
            · rfl
          rw [this]; left; trivial
      · rw [hs] at ha
        have := infpos ha; subst this
        have : a.datum = .inf false := by
          refine spec (addSpecial_inf_left hs n2 ?_)
          intro h
          rw [h] at hxx
          have := infpos hxx
          cases this
        rw [this]; left; trivial
    obtain ⟨r, h1, h2⟩ := ih a (fun y hy => hx y (by simp [hy])) hle
    exact ⟨r, by rw [List.foldlM_cons, hr]; exact h1, h2⟩

/-! ## Dot product -/

theorem forall₂_map_fin {α β : Type} {P : α → β → Prop} {xs : List α} {zs : List β} (h : List.Forall₂ P xs zs) {Q : β → Prop}
    (hq : ¬ ∀ z ∈ zs, Q z) : ∃ x ∈ xs, ∃ z ∈ zs, P x z ∧ ¬ Q z := by
  induction h with
  | nil => simp at hq
  | cons hxz hrest ih =>
    rename_i x z xs zs
    by_cases h : Q z
    · have : ¬ ∀ z ∈ zs, Q z := by
        intro hc; apply hq; intro y hy
        rcases List.mem_cons.mp hy with rfl | hy
        · exact h
        · exact hc y hy
      obtain ⟨x', h1, z', h2, h3, h4⟩ := ih this
      exact ⟨x', by simp [h1], z', by simp [h2], h3, h4⟩
    · exact ⟨x, by simp, z, by simp, hxz, h⟩

/-- The rounded products of finite factors approximate the exact products, if they are finite. -/
theorem products_approx {α : Type} {AE AF FR FX FY : ℕ} (hE : 2 ≤ AE) (hR : 1 ≤ FR) (hX : 1 ≤ FX) (hY : 1 ≤ FY)
    (hpath : FR ≤ FX + FY) (x : α → Fp AE FX) (y : α → Fp AE FY) (g : Fp AE FR → Fp AE AF) (hg : ∀ p, (g p).datum = p.datum)
    {l : List α} {vs : List (ℚ × ℚ)} (hv : List.Forall₂ (fun i v => (x i).datum.fin = some v.1 ∧ (y i).datum.fin = some v.2) l vs) :
    ∀ {ps : List (Fp AE AF)}, List.Forall₂ (fun i z => (mulV1 AE FR (x i) (y i)).map g = some z) l ps →
      ((∀ z ∈ ps, z.datum.fin ≠ none) → List.Forall₂ (Adder.Approx (uro FR) (minPos AE)) ps (vs.map fun v => v.1 * v.2)) ∧
      ((∀ v ∈ vs, |v.1 * v.2| ≤ maxFin AE FR) → ∀ z ∈ ps, z.datum.fin ≠ none) := by
  induction hv with
  | nil => intro ps hp; cases hp; simp
  | cons hh hrest ih =>
    rename_i i v l vs
    intro ps hp
    cases hp with
    | cons hz hps =>
      rename_i z ps
      obtain ⟨m, hm, rfl⟩ := Option.map_eq_some_iff.mp hz
      have hr := mul_fin hE hR hX hY hpath (x i) (y i) hh.1 hh.2 hm
      obtain ⟨i1, i2⟩ := ih hps
      constructor
      · intro hf
        rw [List.map_cons]
        refine List.Forall₂.cons ?_ (i1 fun z hz => hf z (by simp [hz]))
        rcases hfin : (g m).datum.fin with _ | p
        · exact absurd hfin (hf _ (by simp))
        · exact ⟨p, hfin, rounded0_err hr (by rw [← hg]; exact hfin)⟩
      · intro hb z hz
        rcases List.mem_cons.mp hz with rfl | hz
        · obtain ⟨s, hs⟩ := rounded0_finite (by omega) hr (hb v (by simp))
          rw [hg, hs]; simp
        · exact i2 (fun v hv => hb v (by simp [hv])) z hz

theorem abs_le_sum {l : List ℚ} {x : ℚ} (h : x ∈ l) : |x| ≤ (l.map abs).sum := by
  induction l with
  | nil => cases h
  | cons y l ih =>
    have hn : 0 ≤ (l.map abs).sum := List.sum_nonneg (by simp)
    rw [List.map_cons, List.sum_cons]
    rcases List.mem_cons.mp h with rfl | h
    · linarith
    · linarith [ih h, abs_nonneg y]

/-- The algebra of the bound for a loop whose products are rounded like its sums. -/
theorem dot_bound {u c S : ℚ} {n : ℕ} (hu : 0 ≤ u) (hc : 0 ≤ c) (hn : 1 ≤ n) :
    ((1 + u) ^ (n - 1) * (1 + u) - 1) * S + ((1 + u) ^ (n - 1) * (u * c + (2 + u) * c) - (2 + u) * c) ≤
      ((1 + u) ^ n - 1) * (S + 2 * c) := by
  obtain ⟨m, rfl⟩ : ∃ m, n = m + 1 := ⟨n - 1, by omega⟩
  rw [Nat.add_sub_cancel, pow_succ]
  have := mul_nonneg hu hc
  linear_combination this

/-- **C57.** The dot-product loop `acc += a*b`, for any number of pairs of finite values: it never violates a precondition; if the result is finite
its error is at most `((1+u)^n - 1) * (Σ|a_i b_i| + 2 minPos/u)`; and it is finite whenever `(1+u)^n * (Σ|a_i b_i| + 2 minPos/u)` is
within the format's range. Partial: the formats on which the adder is correct (C14, C19). -/
theorem C57_dot_error_partial {E F : ℕ} (hE : 3 < E) (hF : 1 ≤ F) (hok : DualFormat E F) (hfmt : F ≤ 2 ^ (E + 1))
    (xs : List (Fp E F × Fp E F)) (vs : List (ℚ × ℚ))
    (hx : List.Forall₂ (fun x v => x.1.datum.fin = some v.1 ∧ x.2.datum.fin = some v.2) xs vs) :
    ∃ r, dotLoop xs = some r ∧
      (∀ s, r.datum.fin = some s → |s - (vs.map fun v => v.1 * v.2).sum| ≤
        ((1 + uro F) ^ xs.length - 1) * ((vs.map fun v => |v.1 * v.2|).sum + 2 * (minPos E / uro F))) ∧
      ((1 + uro F) ^ xs.length * ((vs.map fun v => |v.1 * v.2|).sum + 2 * (minPos E / uro F)) ≤ maxFin E F →
        ∃ s, r.datum.fin = some s) := by
  have hA := wrap_adder hE hF hok hfmt
  have hu := uro_pos F
  have hmp : 0 < minPos E := two_zpow_pos _
  have hc : 0 < minPos E / uro F := by positivity
  have hmc : minPos E = uro F * (minPos E / uro F) := by field_simp
  obtain ⟨ps, hps, hfold⟩ := foldlM_terms (f := fun p : Fp E F × Fp E F => wrapMul p.1 p.2) (add := wrapAdd)
    (fun p => mulV1_total p.1 p.2) xs
  obtain ⟨r, hr⟩ := hA.fold_total ps (Fp.default E F)
  have hlen := hps.length_eq
  obtain ⟨g1, g2⟩ := products_approx (AF := F) (by omega) hF hF hF (by omega) (fun p : Fp E F × Fp E F => p.1) (fun p => p.2) id
    (fun _ => rfl) hx (ps := ps) (hps.imp fun _ _ h => by simpa [wrapMul] using h)
  have habs : ((vs.map fun v => v.1 * v.2).map abs).sum = (vs.map fun v => |v.1 * v.2|).sum := by
    rw [List.map_map]; rfl
  refine ⟨r, by rw [dotLoop, hfold, hr], ?_⟩
  rcases Nat.eq_zero_or_pos xs.length with h0 | hn
  · have : xs = [] := List.length_eq_zero_iff.mp h0
    subst this
    cases hps; cases hx; cases hr
    rw [default_fin]
    refine ⟨fun s hs => ?_, fun _ => ⟨0, rfl⟩⟩
    cases hs; simp
  have key : (∀ z ∈ ps, z.datum.fin ≠ none) → _ := fun hf =>
    hA.loop (w := uro F) (δ := minPos E) (γ := (2 + uro F) * (minPos E / uro F)) hu.le hu.le hmp.le
      (by have := mul_pos (uro_pos F) hc; linarith) (by field_simp; ring) (g1 hf) default_fin hr
  rw [habs, ← hlen] at key
  constructor
  · intro s hs
    have hf : ∀ z ∈ ps, z.datum.fin ≠ none := by
      intro z hz hc
      have := hA.fold_sticky hr (Or.inr ⟨z, hz, hc⟩)
      rw [this] at hs; cases hs
    refine le_trans ((key hf).1 s hs) ?_
    have := dot_bound (u := uro F) (c := minPos E / uro F) (S := (vs.map fun v => |v.1 * v.2|).sum) hu.le hc.le hn
    rwa [← hmc] at this
  · intro hb
    have hone : (1 : ℚ) ≤ (1 + uro F) ^ xs.length := one_le_pow₀ (by linarith)
    have hS : 0 ≤ (vs.map fun v => |v.1 * v.2|).sum := by
      refine List.sum_nonneg fun z hz => ?_
      obtain ⟨w, -, rfl⟩ := List.mem_map.mp hz
      exact abs_nonneg _
    have hle : (vs.map fun v => |v.1 * v.2|).sum ≤ maxFin E F := by
      have : 1 * ((vs.map fun v => |v.1 * v.2|).sum + 2 * (minPos E / uro F)) ≤
        (1 + uro F) ^ xs.length * ((vs.map fun v => |v.1 * v.2|).sum + 2 * (minPos E / uro F)) :=
        mul_le_mul_of_nonneg_right hone (by linarith)
      linarith
    have hf := g2 fun v hv => by
      have := abs_le_sum (l := vs.map fun v => v.1 * v.2) (List.mem_map.mpr ⟨v, hv, rfl⟩)
      rw [habs] at this
      linarith
    refine (key hf).2 (le_trans (le_of_eq ?_) hb)
    obtain ⟨m, hm⟩ : ∃ m, xs.length = m + 1 := ⟨xs.length - 1, by omega⟩
    rw [hm, Nat.add_sub_cancel, pow_succ]
    linear_combination ((1 + uro F) ^ m) * hmc

/-- **C57.** An infinity or NaN in any pair makes the dot product non-finite, a NaN makes it NaN. -/
theorem C57_dot_exceptions {E F : ℕ} (hE : 3 < E) (hF : 1 ≤ F) (hok : DualFormat E F) (hfmt : F ≤ 2 ^ (E + 1))
    (xs : List (Fp E F × Fp E F)) :
    ∃ r, dotLoop xs = some r ∧
      ((∃ p ∈ xs, p.1.datum.fin = none ∨ p.2.datum.fin = none) → r.datum.fin = none) ∧
      ((∃ p ∈ xs, p.1.datum = .nan ∨ p.2.datum = .nan) → r.datum = .nan) := by
  have hA := wrap_adder hE hF hok hfmt
  obtain ⟨ps, hps, hfold⟩ := foldlM_terms (f := fun p : Fp E F × Fp E F => wrapMul p.1 p.2) (add := wrapAdd)
    (fun p => mulV1_total p.1 p.2) xs
  obtain ⟨r, hr⟩ := hA.fold_total ps (Fp.default E F)
  have hex : ∀ {p : Fp E F × Fp E F}, p ∈ xs → ∃ z ∈ ps, wrapMul p.1 p.2 = some z := by
    intro p hp
    clear hfold hr
    induction hps with
    | nil => cases hp
    | cons h hrest ih =>
      rename_i q z l zs
      rcases List.mem_cons.mp hp with rfl | hp
      · exact ⟨z, by simp, h⟩
      · obtain ⟨z', h1, h2⟩ := ih hp; exact ⟨z', by simp [h1], h2⟩
  refine ⟨r, by rw [dotLoop, hfold, hr], ?_, ?_⟩
  · rintro ⟨p, hp, h⟩
    obtain ⟨z, hz, hm⟩ := hex hp
    obtain ⟨d, h1, h2⟩ := mulSpecial_sticky h
    refine hA.fold_sticky hr (Or.inr ⟨z, hz, ?_⟩)
    rw [C12_mul_exceptions (by omega) hF (by omega) _ _ _ hm _ h1]; exact h2
  · rintro ⟨p, hp, h⟩
    obtain ⟨z, hz, hm⟩ := hex hp
    exact hA.fold_nan hr (Or.inr ⟨z, hz, C12_mul_exceptions (by omega) hF (by omega) _ _ _ hm _ (mulSpecial_nan_of h)⟩)

/-- Non-vacuity in format (5,3): 1 + 1.125 + 0.125 is 2 in this order (an error of 1/4) and exact in the reverse order; multiples of
1/8 that stay small are summed exactly; an infinity is kept; (1.125)*(1.125) + 1*1 is rounded twice. -/
example : sumLoop [Fp.mk4 5 3 1 0 15 0, Fp.mk4 5 3 1 0 15 1, Fp.mk4 5 3 1 0 12 0] = some (Fp.mk4 5 3 1 0 16 0) ∧
    sumLoop [Fp.mk4 5 3 1 0 12 0, Fp.mk4 5 3 1 0 15 1, Fp.mk4 5 3 1 0 15 0] = some (Fp.mk4 5 3 1 0 16 1) ∧
    (sumLoop [Fp.mk4 5 3 1 0 12 0, Fp.mk4 5 3 2 1 0 0, Fp.mk4 5 3 1 0 15 0]).map Fp.flags = some 2 ∧
    dotLoop [(Fp.mk4 5 3 1 0 15 1, Fp.mk4 5 3 1 0 15 1), (Fp.mk4 5 3 1 0 15 0, Fp.mk4 5 3 1 0 15 0)] =
      some (Fp.mk4 5 3 1 0 16 1) := by
  decide +kernel

/-- The data of that example, and the format: they meet the hypotheses of C57. -/
example : DualFormat 5 3 ∧ 3 < 2 ^ (5 + 1) ∧
    List.Forall₂ (fun (x : Fp 5 3) v => x.datum.fin = some v)
      [Fp.mk4 5 3 1 0 15 0, Fp.mk4 5 3 1 0 15 1, Fp.mk4 5 3 1 0 12 0] [1, 9 / 8, 1 / 8] := by
  refine ⟨?_, by decide, ?_⟩
  · intro k hk
    exfalso
    have : k < 3 := by
      by_contra hc
      have : 2 ^ 3 ≤ 2 ^ k := Nat.pow_le_pow_right (by norm_num) (by omega)
      omega
    interval_cases k <;> omega
  · simp only [List.forall₂_cons, List.forall₂_nil_right_iff, and_true]
    refine ⟨?_, ?_, ?_⟩ <;>
      (rw [Fp.mk4_datum (by decide) (by decide) (by decide) (by decide) (by decide) (by decide)]; norm_num [denote, bias, Datum.fin])

/-! ## On `float` -/

theorem dual_8_23 : DualFormat 8 23 := by
  intro k hk
  exfalso
  have : k < 7 := by
    by_contra hc
    have : 2 ^ 7 ≤ 2 ^ k := Nat.pow_le_pow_right (by norm_num) (by omega)
    omega
  interval_cases k <;> omega

theorem ieeeRange_err {E : ℕ} {d : Datum} {s : ℚ} (h : (ieeeRange E d).fin = some s) :
    ∃ q, d.fin = some q ∧ |s - q| ≤ ieeeMin E := by
  have hp : 0 < ieeeMin E := two_zpow_pos _
  rcases d with _ | t | t | q
  · cases h
  · cases h
  · exact ⟨s, h, by rw [sub_self, abs_zero]; exact hp.le⟩
  · refine ⟨q, rfl, ?_⟩
    unfold ieeeRange at h
    by_cases h1 : |q| < ieeeMin E
    · simp only [h1, if_true, Datum.fin, Option.some.injEq] at h
      rw [← h, zero_sub, abs_neg]; exact h1.le
    · by_cases h2 : ieeeLimit E ≤ |q|
      · simp [h1, h2, Datum.fin] at h
      · simp only [h1, h2, if_false, Datum.fin, Option.some.injEq] at h
        rw [← h, sub_self, abs_zero]; exact hp.le

/-- **C57, the example program `sum`.** For every array of finite `float`s (a denormal counts as zero), of any length: the
program never violates a precondition, and a finite `float` result differs from the exact sum by at most
`((1 + 2^-24)^(n-1) - 1) * (Σ|v| + 2^-103) + 2^-126`. -/
theorem C57_sum_float_error (data : List (Ieee 8 23)) (vs : List ℚ)
    (hx : List.Forall₂ (fun x v => (ieeeRange 8 x.datum).fin = some v) data vs) :
    ∃ r, sumFloat data = some r ∧ ∀ s, r.datum.fin = some s →
      |s - vs.sum| ≤ ((1 + (2 : ℚ) ^ (-24 : ℤ)) ^ (data.length - 1) - 1) * ((vs.map abs).sum + 2 ^ (-103 : ℤ)) + 2 ^ (-126 : ℤ) := by
  obtain ⟨r, hr, h1, -⟩ := C57_sum_error_partial (E := 8) (F := 23) (by norm_num) (by norm_num) dual_8_23 (by norm_num)
    (data.map ieeeToFlopoco) vs (by
      rw [List.forall₂_map_left_iff]
      exact hx.imp fun x v h => by rw [C28_ieee_to_flopoco (by norm_num) (by norm_num)]; exact h)
  refine ⟨flopocoToIeee r, by rw [sumFloat, hr]; rfl, fun s hs => ?_⟩
  rw [C28_flopoco_to_ieee (by norm_num) (by norm_num)] at hs
  obtain ⟨q, hq, he⟩ := ieeeRange_err hs
  have h2 := h1 q hq
  rw [List.length_map] at h2
  have e1 : uro 23 = (2 : ℚ) ^ (-24 : ℤ) := by unfold uro; norm_num
  have e2 : minPos 8 / uro 23 = (2 : ℚ) ^ (-103 : ℤ) := by unfold minPos uro bias; norm_num
  have e3 : ieeeMin 8 = (2 : ℚ) ^ (-126 : ℤ) := by unfold ieeeMin bias; norm_num
  rw [e2, e1] at h2
  rw [e3] at he
  calc |s - vs.sum| = |(q - vs.sum) + (s - q)| := by congr 1; ring
    _ ≤ |q - vs.sum| + |s - q| := abs_add_le _ _
    _ ≤ _ := add_le_add h2 he

/-- **C57, the example program `dot_product`.** -/
theorem C57_dot_float_error (data : List (Ieee 8 23 × Ieee 8 23)) (vs : List (ℚ × ℚ))
    (hx : List.Forall₂ (fun x v => (ieeeRange 8 x.1.datum).fin = some v.1 ∧ (ieeeRange 8 x.2.datum).fin = some v.2) data vs) :
    ∃ r, dotFloat data = some r ∧ ∀ s, r.datum.fin = some s →
      |s - (vs.map fun v => v.1 * v.2).sum| ≤
        ((1 + (2 : ℚ) ^ (-24 : ℤ)) ^ data.length - 1) * ((vs.map fun v => |v.1 * v.2|).sum + 2 ^ (-102 : ℤ)) + 2 ^ (-126 : ℤ) := by
  obtain ⟨r, hr, h1, -⟩ := C57_dot_error_partial (E := 8) (F := 23) (by norm_num) (by norm_num) dual_8_23 (by norm_num)
    (data.map fun p => (ieeeToFlopoco p.1, ieeeToFlopoco p.2)) vs (by
      rw [List.forall₂_map_left_iff]
      refine hx.imp fun x v h => ?_
      rw [C28_ieee_to_flopoco (by norm_num) (by norm_num), C28_ieee_to_flopoco (by norm_num) (by norm_num)]
      exact h)
  refine ⟨flopocoToIeee r, by rw [dotFloat, hr]; rfl, fun s hs => ?_⟩
  rw [C28_flopoco_to_ieee (by norm_num) (by norm_num)] at hs
  obtain ⟨q, hq, he⟩ := ieeeRange_err hs
  have h2 := h1 q hq
  rw [List.length_map] at h2
  have e1 : uro 23 = (2 : ℚ) ^ (-24 : ℤ) := by unfold uro; norm_num
  have e2 : 2 * (minPos 8 / uro 23) = (2 : ℚ) ^ (-102 : ℤ) := by unfold minPos uro bias; norm_num
  have e3 : ieeeMin 8 = (2 : ℚ) ^ (-126 : ℤ) := by unfold ieeeMin bias; norm_num
  rw [e2, e1] at h2
  rw [e3] at he
  calc |s - (vs.map fun v => v.1 * v.2).sum| = |(q - (vs.map fun v => v.1 * v.2).sum) + (s - q)| := by congr 1; ring
    _ ≤ |q - (vs.map fun v => v.1 * v.2).sum| + |s - q| := abs_add_le _ _
    _ ≤ _ := add_le_add h2 he

/-- The hypotheses of the last two theorems are met, a denormal entry counting as zero. -/
example : List.Forall₂ (fun (x : Ieee 8 23) v => (ieeeRange 8 x.datum).fin = some v)
      [Ieee.mk3 8 23 0 127 0, Ieee.mk3 8 23 0 128 (2 ^ 22), Ieee.mk3 8 23 0 0 1] [1, 3, 0] ∧
    (sumFloat [Ieee.mk3 8 23 0 127 0, Ieee.mk3 8 23 0 128 (2 ^ 22), Ieee.mk3 8 23 0 0 1]).map Ieee.bits = some 0x40800000 := by
  refine ⟨?_, by decide +kernel⟩
  refine .cons ?_ (.cons ?_ (.cons ?_ .nil)) <;> decide +kernel

end Thls
