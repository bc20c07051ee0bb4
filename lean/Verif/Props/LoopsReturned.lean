import Verif.Props.IntegerOps
import Verif.Props.AddSharp

/-! # Properties C57 and C99 in every format with `F ≤ 2^(E+1)`: whatever a loop returns is right

In some formats the dual-path adder fails an assertion on some operands (C19). A loop that meets no such operands obeys the same bounds. The adder is extended
to a total one by giving it a correctly rounded result where it fails; the loop cannot tell the difference. -/

namespace Thls
open Spec

variable {E F : ℕ}

theorem special_word (hE : 1 ≤ E) (hF : 1 ≤ F) (x y : Fp E F) (d : Datum) (hd : addSpecial x.datum y.datum = some d) : ∃ c : Fp E F, c.datum = d := by
  have pE : 0 < 2 ^ E := by positivity
  have pF : 0 < 2 ^ F := by positivity
  have hmk : ∀ f s : ℕ, f < 4 → s < 2 → (Fp.mk4 E F f s 0 0).datum = denote E F f s 0 0 := fun f s hf hs =>
    Fp.mk4_datum (by omega) (by omega) pE pF hE hF
  cases dd : d with
  | nan => exact ⟨Fp.mk4 E F 3 0 0 0, by rw [hmk 3 0 (by decide) (by decide)]; rfl⟩
  | inf s =>
    refine ⟨Fp.mk4 E F 2 (if s then 1 else 0) 0 0, ?_⟩
    rw [hmk _ _ (by decide) (by split <;> decide)]; cases s <;> rfl
  | zero s =>
    refine ⟨Fp.mk4 E F 0 (if s then 1 else 0) 0 0, ?_⟩
    rw [hmk _ _ (by decide) (by split <;> decide)]; cases s <;> rfl
  | num v =>
    rw [dd] at hd
    have : x.datum = .num v ∨ y.datum = .num v := by
      revert hd
      rcases x.datum with _ | s | s | p <;> rcases y.datum with _ | t | t | q <;> simp [addSpecial] <;> (try split) <;> simp
    rcases this with h | h
    · exact ⟨x, h⟩
    · exact ⟨y, h⟩

/-- A correct sum exists for all operands. -/
theorem ideal_exists (hE : 1 ≤ E) (hF : 1 ≤ F) (x y : Fp E F) : ∃ r : Fp E F, (∀ d, addSpecial x.datum y.datum = some d → r.datum = d) ∧
    ∀ a b, x.datum.fin = some a → y.datum.fin = some b → Rounded0 E F (a + b) r.datum := by
  have fromSpecial : ∀ d, addSpecial x.datum y.datum = some d → ∀ a b, x.datum.fin = some a → y.datum.fin = some b → Rounded0 E F (a + b) d := by
    intro d hd a b ha hb
    have nx := fun v => num_ne_zero (z := x) (v := v)
    have ny := fun v => num_ne_zero (z := y) (v := v)
    have sx := fun v => rounded_self hF hE x v
    have sy := fun v => rounded_self hF hE y v
    revert hd ha hb nx ny sx sy
    unfold Rounded0
    rcases x.datum with _ | s | s | p <;> rcases y.datum with _ | t | t | q <;> simp [addSpecial, Datum.fin] <;>
      (intros; subst_vars; simp_all)
    cases s <;> cases t <;> simp
  cases hsp : addSpecial x.datum y.datum with
  | some d =>
    obtain ⟨c, hc⟩ := special_word hE hF x y d hsp
    refine ⟨c, fun d' h => by rw [hc]; injection h, fun a b ha hb => ?_⟩
    rw [hc]; exact fromSpecial d hsp a b ha hb
  | none =>
    obtain ⟨p, q, hp, hq⟩ := (C17_addSpecial_domain _ _).mp hsp
    refine (?_ : ∃ r : Fp E F, Rounded0 E F (p + q) r.datum).imp fun r h => ⟨fun d h => (nomatch h), fun a b ha hb => ?_⟩
    · by_cases h0 : p + q = 0
      · exact ⟨Fp.default E F, by unfold Rounded0; rw [if_pos h0]; exact ⟨false, default_datum⟩⟩
      · obtain ⟨d, hd⟩ := rounded_exists (E := E) hF h0
        obtain ⟨c, hc⟩ := rounded_word hE hF hd
        exact ⟨c, by unfold Rounded0; rw [if_neg h0, hc]; exact hd⟩
    · rw [hp] at ha; rw [hq] at hb
      injection ha with ha; injection hb with hb
      rw [← ha, ← hb]; exact h

/-- The dual-path adder where it returns, a correct sum where it fails an assertion. -/
noncomputable def totalAdd (hE : 1 ≤ E) (hF : 1 ≤ F) (x y : Fp E F) : Option (Fp E F) :=
  some ((AddDual.addSame x y).getD (ideal_exists hE hF x y).choose)

theorem totalAdd_of (hE : 1 ≤ E) (hF : 1 ≤ F) {x y r : Fp E F} (h : AddDual.addSame x y = some r) : totalAdd hE hF x y = some r := by
  unfold totalAdd; rw [h]; rfl

theorem totalAdd_adder (hE : 3 < E) (hF : 1 ≤ F) (hfmt : F ≤ 2 ^ (E + 1)) : Adder E F (uro F) (totalAdd (E := E) (F := F) (by omega) hF) := by
  refine Adder.of (uro_pos F).le (fun x y d h => ⟨_, rfl, ?_⟩) fun x y a b hx hy => ⟨_, rfl, ?_⟩
  · cases hr : AddDual.addSame x y with
    | some r => exact AddDual.addSame_special_some (by omega) hF h hr
    | none => exact (ideal_exists (by omega) hF x y).choose_spec.1 d h
  · have hR : Rounded0 E F (a + b) ((AddDual.addSame x y).getD (ideal_exists (by omega) hF x y).choose).datum := by
      cases hr : AddDual.addSame x y with
      | some r => exact add_fin_returned (by omega) hF hfmt x y (by rw [hx]; rfl) (by rw [hy]; rfl) hr
      | none => exact (ideal_exists (by omega) hF x y).choose_spec.2 a b (by rw [hx]; rfl) (by rw [hy]; rfl)
    exact ⟨fun s hs => rounded0_err hR hs, fun hb => rounded0_finite (by omega) hR hb⟩

/-- A loop that returns returns the same with an extension of its step. -/
theorem foldlM_extend {α β : Type} {f g : β → α → Option β} (h : ∀ b a r, f b a = some r → g b a = some r) :
    ∀ (l : List α) (b r : β), l.foldlM f b = some r → l.foldlM g b = some r := by
  intro l
  induction l with
  | nil => intro b r hr; exact hr
  | cons a l ih =>
    intro b r hr
    rw [List.foldlM_cons] at hr ⊢
    obtain ⟨c, h1, h2⟩ := Option.bind_eq_some_iff.1 hr
    rw [h b a c h1]
    exact ih c r h2

/-! ## The bounds for any adder -/

theorem sum_error_of {add : Fp E F → Fp E F → Option (Fp E F)} (hA : Adder E F (uro F) add)
    (xs : List (Fp E F)) (vs : List ℚ) (hx : List.Forall₂ (fun x v => x.datum.fin = some v) xs vs) :
    ∃ r, xs.foldlM add (Fp.default E F) = some r ∧
      (∀ s, r.datum.fin = some s →
        |s - vs.sum| ≤ ((1 + uro F) ^ (xs.length - 1) - 1) * ((vs.map abs).sum + minPos E / uro F)) ∧
      ((1 + uro F) ^ (xs.length - 1) * ((vs.map abs).sum + minPos E / uro F) ≤ maxFin E F →
        ∃ s, r.datum.fin = some s) := by
  have hu := uro_pos F
  have hmp : 0 < minPos E := two_zpow_pos _
  obtain ⟨r, hr⟩ := hA.fold_total xs (Fp.default E F)
  obtain ⟨h1, h2⟩ := hA.loop (w := 0) (δ := 0) (γ := minPos E / uro F) hu.le le_rfl le_rfl (by positivity)
    (by field_simp; ring) (approx_of_fin hx) default_fin hr
  refine ⟨r, hr, fun s hs => ?_, fun hb => h2 ?_⟩
  · have := h1 s hs
    linarith
  · linarith

theorem dot_error_of (hE : 3 < E) (hF : 1 ≤ F) {add : Fp E F → Fp E F → Option (Fp E F)} (hA : Adder E F (uro F) add)
    (xs : List (Fp E F × Fp E F)) (vs : List (ℚ × ℚ))
    (hx : List.Forall₂ (fun x v => x.1.datum.fin = some v.1 ∧ x.2.datum.fin = some v.2) xs vs) :
    ∃ r, xs.foldlM (fun acc p => (wrapMul p.1 p.2).bind (add acc)) (Fp.default E F) = some r ∧
      (∀ s, r.datum.fin = some s → |s - (vs.map fun v => v.1 * v.2).sum| ≤
        ((1 + uro F) ^ xs.length - 1) * ((vs.map fun v => |v.1 * v.2|).sum + 2 * (minPos E / uro F))) ∧
      ((1 + uro F) ^ xs.length * ((vs.map fun v => |v.1 * v.2|).sum + 2 * (minPos E / uro F)) ≤ maxFin E F →
        ∃ s, r.datum.fin = some s) := by
  have hu := uro_pos F
  have hmp : 0 < minPos E := two_zpow_pos _
  have hc : 0 < minPos E / uro F := by positivity
  have hmc : minPos E = uro F * (minPos E / uro F) := by field_simp
  obtain ⟨ps, hps, hfold⟩ := foldlM_terms (f := fun p : Fp E F × Fp E F => wrapMul p.1 p.2) (add := add)
    (fun p => mulV1_total p.1 p.2) xs
  obtain ⟨r, hr⟩ := hA.fold_total ps (Fp.default E F)
  have hlen := hps.length_eq
  obtain ⟨g1, g2⟩ := products_approx (AF := F) (by omega) hF hF hF (by omega) (fun p : Fp E F × Fp E F => p.1) (fun p => p.2) id
    (fun _ => rfl) hx (ps := ps) (hps.imp fun _ _ h => by simpa [wrapMul] using h)
  have habs : ((vs.map fun v => v.1 * v.2).map abs).sum = (vs.map fun v => |v.1 * v.2|).sum := by
    rw [List.map_map]; rfl
  refine ⟨r, by rw [hfold, hr], ?_⟩
  rcases Nat.eq_zero_or_pos xs.length with h0 | hn
  · have : xs = [] := List.length_eq_zero_iff.mp h0
    subst this
    cases hps; cases hx; cases hr
    rw [default_fin]
    refine ⟨fun s hs => ?_, fun _ => ⟨0, rfl⟩⟩
    cases hs; simp
  have key : (∀ z ∈ ps, z.datum.fin ≠ none) → _ := fun hf =>
    hA.loop (w := uro F) (δ := minPos E) (γ := (2 + uro F) * (minPos E / uro F)) hu.le hu.le hmp.le
      (by have := mul_pos (uro_pos F) hc; linarith) (by field_simp; ring) (g1 hf) default_fin hr
  rw [habs, ← hlen] at key
  constructor
  · intro s hs
    have hf : ∀ z ∈ ps, z.datum.fin ≠ none := by
      intro z hz hc
      have := hA.fold_sticky hr (Or.inr ⟨z, hz, hc⟩)
      rw [this] at hs; cases hs
    refine le_trans ((key hf).1 s hs) ?_
    have := dot_bound (u := uro F) (c := minPos E / uro F) (S := (vs.map fun v => |v.1 * v.2|).sum) hu.le hc.le hn
    rwa [← hmc] at this
  · intro hb
    have hone : (1 : ℚ) ≤ (1 + uro F) ^ xs.length := one_le_pow₀ (by linarith)
    have hS : 0 ≤ (vs.map fun v => |v.1 * v.2|).sum := by
      refine List.sum_nonneg fun z hz => ?_
      obtain ⟨w, -, rfl⟩ := List.mem_map.mp hz
      exact abs_nonneg _
    have hle : (vs.map fun v => |v.1 * v.2|).sum ≤ maxFin E F := by
      have : 1 * ((vs.map fun v => |v.1 * v.2|).sum + 2 * (minPos E / uro F)) ≤
        (1 + uro F) ^ xs.length * ((vs.map fun v => |v.1 * v.2|).sum + 2 * (minPos E / uro F)) :=
        mul_le_mul_of_nonneg_right hone (by linarith)
      linarith
    have hf := g2 fun v hv => by
      have := abs_le_sum (l := vs.map fun v => v.1 * v.2) (List.mem_map.mpr ⟨v, hv, rfl⟩)
      rw [habs] at this
      linarith
    refine (key hf).2 (le_trans (le_of_eq ?_) hb)
    obtain ⟨m, hm⟩ : ∃ m, xs.length = m + 1 := ⟨xs.length - 1, by omega⟩
    rw [hm, Nat.add_sub_cancel, pow_succ]
    linear_combination ((1 + uro F) ^ m) * hmc

theorem dot_exceptions_of (hE : 3 < E) (hF : 1 ≤ F) {add : Fp E F → Fp E F → Option (Fp E F)} (hA : Adder E F (uro F) add)
    (xs : List (Fp E F × Fp E F)) :
    ∃ r, xs.foldlM (fun acc p => (wrapMul p.1 p.2).bind (add acc)) (Fp.default E F) = some r ∧
      ((∃ p ∈ xs, p.1.datum.fin = none ∨ p.2.datum.fin = none) → r.datum.fin = none) ∧
      ((∃ p ∈ xs, p.1.datum = .nan ∨ p.2.datum = .nan) → r.datum = .nan) := by
  obtain ⟨ps, hps, hfold⟩ := foldlM_terms (f := fun p : Fp E F × Fp E F => wrapMul p.1 p.2) (add := add)
    (fun p => mulV1_total p.1 p.2) xs
  obtain ⟨r, hr⟩ := hA.fold_total ps (Fp.default E F)
  have hex : ∀ {p : Fp E F × Fp E F}, p ∈ xs → ∃ z ∈ ps, wrapMul p.1 p.2 = some z := by
    intro p hp
    clear hfold hr
    induction hps with
    | nil => cases hp
    | cons h hrest ih =>
      rename_i q z l zs
      rcases List.mem_cons.mp hp with rfl | hp
      · exact ⟨z, by simp, h⟩
      · obtain ⟨z', h1, h2⟩ := ih hp; exact ⟨z', by simp [h1], h2⟩
  refine ⟨r, by rw [hfold, hr], ?_, ?_⟩
  · rintro ⟨p, hp, h⟩
    obtain ⟨z, hz, hm⟩ := hex hp
    obtain ⟨d, h1, h2⟩ := mulSpecial_sticky h
    refine hA.fold_sticky hr (Or.inr ⟨z, hz, ?_⟩)
    rw [C12_mul_exceptions (by omega) hF (by omega) _ _ _ hm _ h1]; exact h2
  · rintro ⟨p, hp, h⟩
    obtain ⟨z, hz, hm⟩ := hex hp
    exact hA.fold_nan hr (Or.inr ⟨z, hz, C12_mul_exceptions (by omega) hF (by omega) _ _ _ hm _ (mulSpecial_nan_of h)⟩)

/-! ## The loops -/

/-- **C57, in every format with `F ≤ 2^(E+1)`.** Whatever the sum loop returns is within the error bound of C57, is finite where C57 says so, and is not
finite (not a number) if an element is not. -/
theorem C57_sum_returned (hE : 3 < E) (hF : 1 ≤ F) (hfmt : F ≤ 2 ^ (E + 1)) (xs : List (Fp E F)) (r : Fp E F) (hr : sumLoop xs = some r) :
    (∀ vs : List ℚ, List.Forall₂ (fun x v => x.datum.fin = some v) xs vs →
      (∀ s, r.datum.fin = some s →
        |s - vs.sum| ≤ ((1 + uro F) ^ (xs.length - 1) - 1) * ((vs.map abs).sum + minPos E / uro F)) ∧
      ((1 + uro F) ^ (xs.length - 1) * ((vs.map abs).sum + minPos E / uro F) ≤ maxFin E F → ∃ s, r.datum.fin = some s)) ∧
    ((∃ x ∈ xs, x.datum.fin = none) → r.datum.fin = none) ∧ ((∃ x ∈ xs, x.datum = .nan) → r.datum = .nan) := by
  have hA := totalAdd_adder hE hF hfmt
  have hr' := foldlM_extend (g := totalAdd (E := E) (F := F) (by omega) hF) (fun b a r h => totalAdd_of _ _ h) xs _ r hr
  refine ⟨fun vs hx => ?_, fun h => hA.fold_sticky hr' (Or.inr h), fun h => hA.fold_nan hr' (Or.inr h)⟩
  obtain ⟨r2, h1, h2⟩ := sum_error_of hA xs vs hx
  rw [hr'] at h1; injection h1 with h1; subst h1
  exact h2

/-- **C57, in every format with `F ≤ 2^(E+1)`.** The same for the dot-product loop. -/
theorem C57_dot_returned (hE : 3 < E) (hF : 1 ≤ F) (hfmt : F ≤ 2 ^ (E + 1)) (xs : List (Fp E F × Fp E F)) (r : Fp E F) (hr : dotLoop xs = some r) :
    (∀ vs : List (ℚ × ℚ), List.Forall₂ (fun x v => x.1.datum.fin = some v.1 ∧ x.2.datum.fin = some v.2) xs vs →
      (∀ s, r.datum.fin = some s → |s - (vs.map fun v => v.1 * v.2).sum| ≤
        ((1 + uro F) ^ xs.length - 1) * ((vs.map fun v => |v.1 * v.2|).sum + 2 * (minPos E / uro F))) ∧
      ((1 + uro F) ^ xs.length * ((vs.map fun v => |v.1 * v.2|).sum + 2 * (minPos E / uro F)) ≤ maxFin E F → ∃ s, r.datum.fin = some s)) ∧
    ((∃ p ∈ xs, p.1.datum.fin = none ∨ p.2.datum.fin = none) → r.datum.fin = none) ∧
    ((∃ p ∈ xs, p.1.datum = .nan ∨ p.2.datum = .nan) → r.datum = .nan) := by
  have hA := totalAdd_adder hE hF hfmt
  have hr' := foldlM_extend (g := fun acc (p : Fp E F × Fp E F) => (wrapMul p.1 p.2).bind (totalAdd (E := E) (F := F) (by omega) hF acc))
    (fun b a r h => by
      obtain ⟨z, h1, h2⟩ := Option.bind_eq_some_iff.1 h
      rw [h1]; exact totalAdd_of (by omega) hF h2) xs _ r hr
  refine ⟨fun vs hx => ?_, ?_⟩
  · obtain ⟨r2, h1, h2⟩ := dot_error_of hE hF hA xs vs hx
    rw [hr'] at h1; injection h1 with h1; subst h1
    exact h2
  · obtain ⟨r2, h1, h2⟩ := dot_exceptions_of hE hF hA xs
    rw [hr'] at h1; injection h1 with h1; subst h1
    exact h2

/-- **C58, in every format with `AF ≤ 2^(AE+1)`.** Whatever an entry of `mat_mul` with the "full" traits returns is within the error bound of C58. -/
theorem C58_mat_mul_full_returned {LF RF n : ℕ} (hLF : 1 ≤ LF) (hRF : 1 ≤ RF) (hE : 3 < E) (hF : 1 ≤ F) (hpath : F ≤ LF + RF)
    (hfmt : F ≤ 2 ^ (E + 1)) (left : Fin n → Fin n → Fp E LF) (right : Fin n → Fin n → Fp E RF)
    (a b : Fin n → Fin n → ℚ) (hx : ∀ r i, (left r i).datum.fin = some (a r i)) (hy : ∀ i c, (right i c).datum.fin = some (b i c))
    (r c : Fin n) (z : Fp E F) (hz : matMulEntry fullAddMul left right r c = some z) :
    (∀ s, z.datum.fin = some s → |s - ∑ i, a r i * b i c| ≤
        ((1 + uro F) ^ (n - 1) * (1 + uro F) - 1) * (∑ i, |a r i * b i c|) + 4 * (1 + uro F) ^ (n - 1) * (minPos E / uro F)) ∧
      ((1 + uro F) ^ (n - 1) * ((1 + uro F) * (∑ i, |a r i * b i c|) + 4 * (minPos E / uro F)) ≤
          maxFin E F → ∃ s, z.datum.fin = some s) := by
  have := mac_loop (totalAdd_adder hE hF hfmt) (uro_pos F) (uro_le F) (by omega) (FR := F) hF hLF hRF hpath le_rfl
    (List.finRange n) (left r) (fun i => right i c) id (fun p => rfl) (a r) (fun i => b i c) (hx r) (fun i => hy i c)
  rw [List.length_finRange, ← Fin.sum_univ_def, ← Fin.sum_univ_def] at this
  obtain ⟨z', hz', h⟩ := this
  have hz2 := foldlM_extend (g := fun acc (i : Fin n) => ((mulV1 E F (left r i) (right i c)).map id).bind (totalAdd (E := E) (F := F) (by omega) hF acc))
    (fun b a r h => by
      unfold fullAddMul at h
      obtain ⟨z, h1, h2⟩ := Option.bind_eq_some_iff.1 h
      rw [h1]; exact totalAdd_of (by omega) hF h2) (List.finRange n) _ z hz
  rw [hz2] at hz'; injection hz' with hz'; subst hz'
  exact h

/-- **C99, in every format with `F ≤ 2^(E+1)`.** Whatever the dual-path adder, the sum loop or the dot-product loop returns for small multiples of a power
of two is exact. -/
theorem C99_returned_exact (hE : 3 < E) (hF : 1 ≤ F) (hfmt : F ≤ 2 ^ (E + 1)) {k : ℤ} (hk : ScaleOk E F k) :
    (∀ (x y r : Fp E F) (m n : ℤ), IsMultiple x m k → IsMultiple y n k → |m + n| ≤ 2 ^ (F + 1) → AddDual.addSame x y = some r →
      IsMultiple r (m + n) k) ∧
    (∀ (xs : List (Fp E F)) (ns : List ℤ) (r : Fp E F), List.Forall₂ (fun x n => IsMultiple x n k) xs ns → (ns.map abs).sum ≤ 2 ^ (F + 1) →
      sumLoop xs = some r → IsMultiple r ns.sum k) := by
  have hadd : ∀ (x y r : Fp E F) (m n : ℤ), IsMultiple x m k → IsMultiple y n k → |m + n| ≤ 2 ^ (F + 1) → AddDual.addSame x y = some r →
      IsMultiple r (m + n) k := by
    intro x y r m n hx hy hb hr
    have h := add_fin_returned (by omega) hF hfmt x y hx hy hr
    rw [show (m : ℚ) * 2 ^ k + n * 2 ^ k = ((m + n : ℤ) : ℚ) * 2 ^ k by push_cast; ring] at h
    exact rounded0_multiple (by omega) h hb hk.1 hk.2
  refine ⟨hadd, ?_⟩
  suffices h : ∀ (xs : List (Fp E F)) (ns : List ℤ), List.Forall₂ (fun x n => IsMultiple x n k) xs ns → ∀ (acc : Fp E F) (T : ℤ) (r : Fp E F),
      IsMultiple acc T k → |T| + (ns.map abs).sum ≤ 2 ^ (F + 1) → xs.foldlM wrapAdd acc = some r → IsMultiple r (T + ns.sum) k by
    intro xs ns r hx hb hr
    have := h xs ns hx (Fp.default E F) 0 r (by unfold IsMultiple; rw [default_fin]; simp) (by simpa using hb) hr
    simpa using this
  intro xs ns hx
  induction hx with
  | nil => intro acc T r ha _ hr; cases hr; simpa using ha
  | cons hx hrest ih =>
    rename_i x n xs ns
    intro acc T r ha hb hr
    simp only [List.map_cons, List.sum_cons] at hb
    have hnn : 0 ≤ (ns.map abs).sum := List.sum_nonneg (by simp)
    have htri := abs_add_le T n
    rw [List.foldlM_cons] at hr
    obtain ⟨s, h1, h2⟩ := Option.bind_eq_some_iff.1 hr
    have := ih s (T + n) r (hadd acc x s T n ha hx (by omega) h1) (by omega) h2
    rwa [List.sum_cons, ← add_assoc]

/-- Format (7,61) is one in which the adder fails for some operands; `1 + 1` and `1 + 2` are returned there, and exact. -/
example : ¬ DualFormat 7 61 ∧ 61 ≤ 2 ^ (7 + 1) ∧
    AddDual.addSame (Fp.mk4 7 61 1 0 63 0) (Fp.mk4 7 61 1 0 63 0) = some (Fp.mk4 7 61 1 0 64 0) ∧
    sumLoop [Fp.mk4 7 61 1 0 63 0, Fp.mk4 7 61 1 0 64 0] = some (Fp.mk4 7 61 1 0 64 (2 ^ 60)) := by
  refine ⟨?_, by norm_num, by decide +kernel, by decide +kernel⟩
  intro h
  have := h 6 (by norm_num)
  revert this
  norm_num

end Thls
