import Verif.Proofs.Tree
import Verif.Proofs.SoftDot
import Verif.Props.IntegerOps

/-! # Property C113: sums in any order and bracketing -/

namespace Thls
open Spec

variable {E F : ℕ}

theorem tree_error {u : ℚ} {add : Fp E F → Fp E F → Option (Fp E F)} (h : Adder E F u add) (hu : 0 < u) (t : AddTree (Fp E F))
    (v : Fp E F → ℚ) (hx : ∀ x ∈ t.leaves, x.datum.fin = some (v x)) :
    ∃ r, t.compute add = some r ∧
      (∀ s, r.datum.fin = some s → |s - (t.leaves.map v).sum| ≤
        ((1 + u) ^ t.height - 1) * ((t.leaves.map fun x => |v x|).sum + (t.leaves.length - 1) * (minPos E / u))) ∧
      ((1 + u) ^ t.height * ((t.leaves.map fun x => |v x|).sum + (t.leaves.length - 1) * (minPos E / u)) ≤ maxFin E F →
        ∃ s, r.datum.fin = some s) := by
  have hmp : 0 < minPos E := two_zpow_pos _
  have hA : GAdder (fun _ => True) (fun x : Fp E F => x.datum.fin) u (u * (minPos E / u)) (maxFin E F) add := by
    rw [show u * (minPos E / u) = minPos E by field_simp]; exact h.general
  obtain ⟨r, hr, -⟩ := GTree.total hA t (fun _ _ => trivial)
  exact ⟨r, hr, GTree.error hA hu (div_pos hmp hu).le v t (fun _ _ => trivial) hx hr⟩

/-- **C113, errors.** The sum of any number of numbers or zeros, added up in any order and with any bracketing: it always returns; if the
result is a number or a zero, it is within `(1+u)^h - 1` times the sum of the magnitudes of the exact sum, where `h` is the number of
additions on the longest path, however many elements there are, and where flushing to zero counts as one further element `minPos / u` per
addition; and it is a number or a zero if those sums are not near the largest finite number. -/
theorem C113_schedule_error (hA : AdderFormat E F) (t : AddTree (Fp E F)) (v : Fp E F → ℚ)
    (hx : ∀ x ∈ t.leaves, x.datum.fin = some (v x)) :
    ∃ r, t.compute AddDual.addSame = some r ∧
      (∀ s, r.datum.fin = some s → |s - (t.leaves.map v).sum| ≤
        ((1 + uro F) ^ t.height - 1) * ((t.leaves.map fun x => |v x|).sum + (t.leaves.length - 1) * (minPos E / uro F))) ∧
      ((1 + uro F) ^ t.height * ((t.leaves.map fun x => |v x|).sum + (t.leaves.length - 1) * (minPos E / uro F)) ≤ maxFin E F →
        ∃ s, r.datum.fin = some s) := by
  obtain ⟨hE, hF, hok, hfmt⟩ := id hA
  exact tree_error (dual_adder (by omega) hF hok hfmt) (uro_pos F) t v hx

/-- **C113, errors of the single-path adder**: the same with a unit in the last place instead of half of it. -/
theorem C113_schedule_error_single (hE : 2 ≤ E) (hF : 1 ≤ F) (h1 : F + 3 < 2 ^ E) (h2 : F + 3 ≠ 2 ^ (E - 1)) (t : AddTree (Fp E F))
    (v : Fp E F → ℚ) (hx : ∀ x ∈ t.leaves, x.datum.fin = some (v x)) :
    ∃ r, t.compute AddSingle.addSame = some r ∧
      (∀ s, r.datum.fin = some s → |s - (t.leaves.map v).sum| ≤
        ((1 + 2 * uro F) ^ t.height - 1) * ((t.leaves.map fun x => |v x|).sum + (t.leaves.length - 1) * (minPos E / (2 * uro F)))) ∧
      ((1 + 2 * uro F) ^ t.height * ((t.leaves.map fun x => |v x|).sum + (t.leaves.length - 1) * (minPos E / (2 * uro F))) ≤ maxFin E F →
        ∃ s, r.datum.fin = some s) :=
  tree_error (single_adder hE hF h1 h2) (by have := uro_pos F; linarith) t v hx

theorem tree_nan {u : ℚ} {add : Fp E F → Fp E F → Option (Fp E F)} (h : Adder E F u add) (t : AddTree (Fp E F)) {z : Fp E F}
    (hr : t.compute add = some z) (hn : ∃ x ∈ t.leaves, x.datum = .nan) : z.datum = .nan := by
  induction t generalizing z with
  | leaf x =>
    obtain rfl := Option.some.inj hr
    obtain ⟨y, hy, h⟩ := hn
    rw [List.mem_singleton.mp hy] at h; exact h
  | node l r h1 h2 =>
    obtain ⟨a, ha, -⟩ := GTree.total h.general l (fun _ _ => trivial)
    obtain ⟨b, hb, -⟩ := GTree.total h.general r (fun _ _ => trivial)
    simp only [AddTree.compute, ha, hb, Option.bind_eq_bind, Option.bind_some] at hr
    obtain ⟨y, hy, h'⟩ := hn
    refine h.nan _ _ _ hr ?_
    rcases List.mem_append.mp hy with hy | hy
    · exact Or.inl (h1 ha ⟨y, hy, h'⟩)
    · exact Or.inr (h2 hb ⟨y, hy, h'⟩)

/-- **C113, exceptions.** No schedule loses an exception: an element that is not finite leaves a result that is not finite, a NaN a NaN. -/
theorem C113_schedule_exceptions (hA : AdderFormat E F) (t : AddTree (Fp E F)) :
    ∃ r, t.compute AddDual.addSame = some r ∧ ((∃ x ∈ t.leaves, x.datum.fin = none) → r.datum.fin = none) ∧
      ((∃ x ∈ t.leaves, x.datum = .nan) → r.datum = .nan) := by
  obtain ⟨hE, hF, hok, hfmt⟩ := id hA
  have h := dual_adder (by omega) hF hok hfmt
  obtain ⟨r, hr, -⟩ := GTree.total h.general t (fun _ _ => trivial)
  exact ⟨r, hr, fun hn => GTree.sticky h.general t (fun _ _ => trivial) hr hn, fun hn => tree_nan h t hr hn⟩

/-- **C113, exact schedules.** With any adder that is exact on multiples of `2^k` (both adders are, C99), every schedule of multiples of
`2^k` whose magnitudes add up to at most `2^(F+1) 2^k` is exact. -/
theorem C113_schedule_exact {add : Fp E F → Fp E F → Option (Fp E F)} (hX : ExactAdder E F add) {k : ℤ} (hk : ScaleOk E F k)
    (t : AddTree (Fp E F)) (m : Fp E F → ℤ) (hx : ∀ x ∈ t.leaves, x.datum.fin = some ((m x : ℚ) * 2 ^ k))
    (hb : (t.leaves.map fun x => |m x|).sum ≤ 2 ^ (F + 1)) :
    ∃ r, t.compute add = some r ∧ r.datum.fin = some ((((t.leaves.map m).sum : ℤ) : ℚ) * 2 ^ k) := by
  obtain ⟨r, hr, -, h⟩ := GTree.exact (V := fun _ => True) (val := fun x : Fp E F => x.datum.fin) (add := add) (B := 2 ^ (F + 1)) (k := k)
    (fun x y m n _ _ hx hy hb => by
      obtain ⟨r, hr, h⟩ := hX k hk x y m n hx hy hb
      exact ⟨r, hr, trivial, h⟩) m t (fun _ _ => trivial) hx hb
  exact ⟨r, hr, h⟩

/-- **C113, reproducible.** Such sums do not depend on the schedule, nor on the adder: any two schedules of the same elements, one with
the dual-path adder and one with either, return the same value. -/
theorem C113_schedules_agree (hA : AdderFormat E F) {add : Fp E F → Fp E F → Option (Fp E F)} (hX : ExactAdder E F add) {k : ℤ}
    (hk : ScaleOk E F k) (t t' : AddTree (Fp E F)) (hp : t.leaves.Perm t'.leaves) (m : Fp E F → ℤ)
    (hx : ∀ x ∈ t.leaves, x.datum.fin = some ((m x : ℚ) * 2 ^ k)) (hb : (t.leaves.map fun x => |m x|).sum ≤ 2 ^ (F + 1)) :
    ∃ r r' s, t.compute AddDual.addSame = some r ∧ t'.compute add = some r' ∧ r.datum.fin = some s ∧ r'.datum.fin = some s := by
  obtain ⟨r, h1, h2⟩ := C113_schedule_exact (C99_add_exact hA) hk t m hx hb
  obtain ⟨r', h3, h4⟩ := C113_schedule_exact hX hk t' m (fun x hx' => hx x (hp.mem_iff.mpr hx')) (by rw [← (hp.map _).sum_eq]; exact hb)
  exact ⟨r, r', _, h1, h3, h2, by rw [h4, (hp.map m).sum_eq]⟩

/-- **C113, the schedule matters otherwise.** `(2^25 + -2^25) + 1` is one and `2^25 + (-2^25 + 1)` is zero in single precision. -/
theorem C113_schedule_matters : ∃ (t t' : AddTree (Fp 8 23)) (r r' : Fp 8 23), t.leaves = t'.leaves ∧
    t.compute AddDual.addSame = some r ∧ t'.compute AddDual.addSame = some r' ∧ r.datum.fin = some 1 ∧ r'.datum.fin = some 0 := by
  let a := Fp.mk4 8 23 1 0 152 0
  let b := Fp.mk4 8 23 1 1 152 0
  let c := Fp.mk4 8 23 1 0 127 0
  refine ⟨.node (.node (.leaf a) (.leaf b)) (.leaf c), .node (.leaf a) (.node (.leaf b) (.leaf c)),
    ((AddTree.node (.node (.leaf a) (.leaf b)) (.leaf c)).compute AddDual.addSame).getD a,
    ((AddTree.node (.leaf a) (.node (.leaf b) (.leaf c))).compute AddDual.addSame).getD a, rfl, ?_, ?_, ?_, ?_⟩ <;> decide +kernel

/-- **C113, software floating-point.** Sums of any finite words, denormals included, in any order and with any bracketing. Nothing has to
be added for underflow, because sums do not underflow. -/
theorem soft_schedule {f : SoftFmt} (ok : f.Ok) (t : AddTree ℕ) (v : ℕ → ℚ) (hw : ∀ x ∈ t.leaves, x < 2 ^ f.W) :
    ∃ r, t.compute f.add = some r ∧ r < 2 ^ f.W ∧
      ((∀ x ∈ t.leaves, wordFin f.E f.F x = some (v x)) →
        (∀ s, wordFin f.E f.F r = some s →
          |s - (t.leaves.map v).sum| ≤ ((1 + uro f.F) ^ t.height - 1) * (t.leaves.map fun x => |v x|).sum) ∧
        ((1 + uro f.F) ^ t.height * (t.leaves.map fun x => |v x|).sum ≤ ieeeMax f.E f.F → ∃ s, wordFin f.E f.F r = some s)) ∧
      ((∃ x ∈ t.leaves, wordFin f.E f.F x = none) → wordFin f.E f.F r = none) := by
  have hA : GAdder (fun w => w < 2 ^ f.W) (wordFin f.E f.F) (uro f.F) (uro f.F * 0) (ieeeMax f.E f.F) f.add := by
    rw [mul_zero]; exact SoftFmt.soft_adder ok
  obtain ⟨r, hr, wr⟩ := GTree.total hA t hw
  refine ⟨r, hr, wr, fun hx => ?_, fun hn => GTree.sticky hA t hw hr hn⟩
  have := GTree.error hA (uro_pos f.F) le_rfl v t hw hx hr
  simpa only [mul_zero, add_zero] using this

theorem soft_schedule_exact {f : SoftFmt} (ok : f.Ok) {k : ℤ} (hk : leastExp f.E f.F ≤ k) (hk2 : k + f.F + 1 ≤ bias f.E) (t : AddTree ℕ)
    (m : ℕ → ℤ) (hw : ∀ x ∈ t.leaves, x < 2 ^ f.W) (hx : ∀ x ∈ t.leaves, wordFin f.E f.F x = some ((m x : ℚ) * 2 ^ k))
    (hb : (t.leaves.map fun x => |m x|).sum ≤ 2 ^ (f.F + 1)) :
    ∃ r, t.compute f.add = some r ∧ r < 2 ^ f.W ∧ wordFin f.E f.F r = some ((((t.leaves.map m).sum : ℤ) : ℚ) * 2 ^ k) :=
  GTree.exact (fun x y m n wx wy hx hy hb => by
    obtain ⟨z, hz, wz⟩ := (SoftFmt.soft_adder ok).total x y wx wy
    exact ⟨z, hz, wz, soft_add_multiple ok wx wy hx hy hb hk hk2 hz⟩) m t hw hx hb

/-- **C113, `float32_t`.** Sums of any finite words, denormals included, in any order and with any bracketing: no undefined behaviour, a
finite result is within `(1+u)^h - 1` times the sum of the magnitudes of the exact sum (sums do not underflow), the result is finite if
the magnitudes are not too large, and it is not finite if one of the elements is not. -/
theorem C113_soft_schedule32 {fast : ℕ} (hfast : 32 ≤ fast) (t : AddTree ℕ) (v : ℕ → ℚ) (hw : ∀ x ∈ t.leaves, x < 2 ^ 32) :
    ∃ r, t.compute (f32Add fast) = some r ∧ r < 2 ^ 32 ∧
      ((∀ x ∈ t.leaves, wordFin 8 23 x = some (v x)) →
        (∀ s, wordFin 8 23 r = some s →
          |s - (t.leaves.map v).sum| ≤ ((1 + uro 23) ^ t.height - 1) * (t.leaves.map fun x => |v x|).sum) ∧
        ((1 + uro 23) ^ t.height * (t.leaves.map fun x => |v x|).sum ≤ ieeeMax 8 23 → ∃ s, wordFin 8 23 r = some s)) ∧
      ((∃ x ∈ t.leaves, wordFin 8 23 x = none) → wordFin 8 23 r = none) :=
  soft_schedule (soft32_ok hfast) t v hw

/-- **C113, `float64_t`.** -/
theorem C113_soft_schedule64 {fast : ℕ} (hfast : 64 ≤ fast) (t : AddTree ℕ) (v : ℕ → ℚ) (hw : ∀ x ∈ t.leaves, x < 2 ^ 64) :
    ∃ r, t.compute (f64Add fast) = some r ∧ r < 2 ^ 64 ∧
      ((∀ x ∈ t.leaves, wordFin 11 52 x = some (v x)) →
        (∀ s, wordFin 11 52 r = some s →
          |s - (t.leaves.map v).sum| ≤ ((1 + uro 52) ^ t.height - 1) * (t.leaves.map fun x => |v x|).sum) ∧
        ((1 + uro 52) ^ t.height * (t.leaves.map fun x => |v x|).sum ≤ ieeeMax 11 52 → ∃ s, wordFin 11 52 r = some s)) ∧
      ((∃ x ∈ t.leaves, wordFin 11 52 x = none) → wordFin 11 52 r = none) :=
  soft_schedule (soft64_ok hfast) t v hw

/-- **C113, exact schedules with `float32_t`.** -/
theorem C113_soft_schedule_exact32 {fast : ℕ} (hfast : 32 ≤ fast) {k : ℤ} (hk : -149 ≤ k) (hk2 : k ≤ 103) (t : AddTree ℕ) (m : ℕ → ℤ)
    (hw : ∀ x ∈ t.leaves, x < 2 ^ 32) (hx : ∀ x ∈ t.leaves, wordFin 8 23 x = some ((m x : ℚ) * 2 ^ k))
    (hb : (t.leaves.map fun x => |m x|).sum ≤ 2 ^ 24) :
    ∃ r, t.compute (f32Add fast) = some r ∧ r < 2 ^ 32 ∧ wordFin 8 23 r = some ((((t.leaves.map m).sum : ℤ) : ℚ) * 2 ^ k) :=
  soft_schedule_exact (soft32_ok hfast) (by change leastExp 8 23 ≤ k; unfold leastExp bias; norm_num; omega)
    (by change k + (23 : ℕ) + 1 ≤ bias 8; unfold bias; norm_num; omega) t m hw hx hb

/-- **C113, exact schedules with `float64_t`.** -/
theorem C113_soft_schedule_exact64 {fast : ℕ} (hfast : 64 ≤ fast) {k : ℤ} (hk : -1074 ≤ k) (hk2 : k ≤ 970) (t : AddTree ℕ) (m : ℕ → ℤ)
    (hw : ∀ x ∈ t.leaves, x < 2 ^ 64) (hx : ∀ x ∈ t.leaves, wordFin 11 52 x = some ((m x : ℚ) * 2 ^ k))
    (hb : (t.leaves.map fun x => |m x|).sum ≤ 2 ^ 53) :
    ∃ r, t.compute (f64Add fast) = some r ∧ r < 2 ^ 64 ∧ wordFin 11 52 r = some ((((t.leaves.map m).sum : ℤ) : ℚ) * 2 ^ k) :=
  soft_schedule_exact (soft64_ok hfast) (by change leastExp 11 52 ≤ k; unfold leastExp bias; norm_num; omega)
    (by change k + (52 : ℕ) + 1 ≤ bias 11; unfold bias; norm_num; omega) t m hw hx hb

/-- A balanced tree over `3/2, 2, -3, 1` in single precision, and the exact theorem for it with `k = -1`. -/
example : ∃ r, (AddTree.node (.node (.leaf (Fp.mk4 8 23 1 0 127 (2 ^ 22))) (.leaf (Fp.mk4 8 23 1 0 128 0)))
    (.node (.leaf (Fp.mk4 8 23 1 1 128 (2 ^ 22))) (.leaf (Fp.mk4 8 23 1 0 127 0)))).compute AddDual.addSame = some r ∧
    r.datum.fin = some (3 / 2) := by
  let m : Fp 8 23 → ℤ := fun x => if x = Fp.mk4 8 23 1 0 127 (2 ^ 22) then 3 else if x = Fp.mk4 8 23 1 0 128 0 then 4 else
    if x = Fp.mk4 8 23 1 1 128 (2 ^ 22) then -6 else 2
  obtain ⟨r, hr, h⟩ := C113_schedule_exact (k := -1) (C99_add_exact ⟨by norm_num, by norm_num, dual_8_23, by norm_num⟩)
    ⟨by decide +kernel, by decide +kernel⟩
    (.node (.node (.leaf (Fp.mk4 8 23 1 0 127 (2 ^ 22))) (.leaf (Fp.mk4 8 23 1 0 128 0)))
      (.node (.leaf (Fp.mk4 8 23 1 1 128 (2 ^ 22))) (.leaf (Fp.mk4 8 23 1 0 127 0)))) m (by decide +kernel) (by decide +kernel)
  refine ⟨r, hr, ?_⟩
  rw [h]
  decide +kernel

/-- The hypotheses of the error theorems: `(1/3 + 3) + 1`, rounded to single precision, with two additions on the longest path. -/
example : ∃ r s, (AddTree.node (.node (.leaf (Fp.mk4 8 23 1 0 125 2796203)) (.leaf (Fp.mk4 8 23 1 0 128 (2 ^ 22))))
    (.leaf (Fp.mk4 8 23 1 0 127 0))).compute AddDual.addSame = some r ∧ r.datum.fin = some s ∧ |s - 13 / 3| ≤ 1 / 2 ^ 19 := by
  let v : Fp 8 23 → ℚ := fun x => (x.datum.fin).getD 0
  obtain ⟨r, hr, h1, h2⟩ := C113_schedule_error (E := 8) (F := 23) ⟨by norm_num, by norm_num, dual_8_23, by norm_num⟩
    (.node (.node (.leaf (Fp.mk4 8 23 1 0 125 2796203)) (.leaf (Fp.mk4 8 23 1 0 128 (2 ^ 22)))) (.leaf (Fp.mk4 8 23 1 0 127 0))) v
    (by decide +kernel)
  obtain ⟨s, hs⟩ := h2 (by decide +kernel)
  refine ⟨r, s, hr, hs, ?_⟩
  have h3 := h1 s hs
  have h4 : ((AddTree.node (.node (.leaf (Fp.mk4 8 23 1 0 125 2796203)) (.leaf (Fp.mk4 8 23 1 0 128 (2 ^ 22))))
    (.leaf (Fp.mk4 8 23 1 0 127 0))).leaves.map v).sum - 13 / 3 ≤ 1 / 2 ^ 24 := by decide +kernel
  have h5 : -(1 / 2 ^ 24) ≤ ((AddTree.node (.node (.leaf (Fp.mk4 8 23 1 0 125 2796203)) (.leaf (Fp.mk4 8 23 1 0 128 (2 ^ 22))))
    (.leaf (Fp.mk4 8 23 1 0 127 0))).leaves.map v).sum - 13 / 3 := by decide +kernel
  have h6 := le_trans h3 (show _ ≤ (1 / 2 ^ 20 : ℚ) by decide +kernel)
  rw [abs_le] at h6 ⊢
  constructor <;> linarith [h6.1, h6.2]

/-- Three `float32_t` words, one of them denormal, and a schedule with an infinity. -/
example : (∃ r, (AddTree.node (.leaf 1) (.node (.leaf 0x3f800000) (.leaf 0x40400000))).compute (f32Add 64) = some r ∧
    ∃ s, wordFin 8 23 r = some s) ∧
    (∃ r, (AddTree.node (.leaf 1) (.node (.leaf 0x7f800000) (.leaf 0x40400000))).compute (f32Add 64) = some r ∧ wordFin 8 23 r = none) := by
  constructor
  · obtain ⟨r, hr, -, h, -⟩ := C113_soft_schedule32 (fast := 64) (by norm_num) (.node (.leaf 1) (.node (.leaf 0x3f800000) (.leaf 0x40400000)))
      (fun x => (wordFin 8 23 x).getD 0) (by decide +kernel)
    exact ⟨r, hr, (h (by decide +kernel)).2 (by decide +kernel)⟩
  · obtain ⟨r, hr, -, -, h⟩ := C113_soft_schedule32 (fast := 64) (by norm_num) (.node (.leaf 1) (.node (.leaf 0x7f800000) (.leaf 0x40400000)))
      (fun x => (wordFin 8 23 x).getD 0) (by decide +kernel)
    exact ⟨r, hr, h ⟨0x7f800000, by decide +kernel, by decide +kernel⟩⟩

end Thls
