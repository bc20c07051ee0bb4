import Verif.Proofs.Ref
import Verif.SpecRef

/-! # The MPFR reference functions: each operation delivers its exact result -/

namespace Thls
open Spec

theorem delivers_unique {E F : ℕ} {x d d' : Datum} (h : Delivers E F x d) (h' : Delivers E F x d') : d = d' := by
  cases x with
  | num w =>
    simp only [Delivers] at h h'
    split at h
    · rename_i hz; rw [if_pos hz] at h'; rw [h, h']
    · rename_i hz; rw [if_neg hz] at h'; exact rounded_unique h h'
  | _ => simp only [Delivers] at h h'; rw [h, h']

/-- An MPFR result that is the exact special datum, or the exact number rounded, converts back to what the format
delivers. -/
theorem ofMpfr_delivers {E F : ℕ} (hE : 1 ≤ E) (hF : 1 ≤ F) {m : Mpfr} {x : Datum}
    (hs : (∀ w, x ≠ .num w) → m.datum = x) (hn : ∀ w, x = .num w → m = Mpfr.rndn (F + 1) w) :
    ∃ r : Fp E F, ofMpfr E F true m = some r ∧ Delivers E F x r.datum := by
  cases x with
  | num w =>
    rw [hn w rfl]
    by_cases hw : w = 0
    · obtain ⟨r, hr, hd⟩ := ofMpfr_zero (E := E) (F := F) (by omega) hF false
      refine ⟨r, by rw [Mpfr.rndn, if_pos hw, hr], ?_⟩
      simp only [Delivers]; rw [if_pos hw, hd]
    · obtain ⟨r, hr, hd⟩ := ofMpfr_rndn (E := E) (F := F) hE hF hw
      refine ⟨r, hr, ?_⟩
      simp only [Delivers]; rw [if_neg hw]; exact hd
  | nan =>
    obtain ⟨r, hr, hd⟩ := ofMpfr_special (E := E) (F := F) (by omega) hF (hs (by simp)) (by simp)
    exact ⟨r, hr, hd⟩
  | inf s =>
    obtain ⟨r, hr, hd⟩ := ofMpfr_special (E := E) (F := F) (by omega) hF (hs (by simp)) (by simp)
    exact ⟨r, hr, hd⟩
  | zero s =>
    obtain ⟨r, hr, hd⟩ := ofMpfr_special (E := E) (F := F) (by omega) hF (hs (by simp)) (by simp)
    exact ⟨r, hr, hd⟩

namespace Mpfr

/-- A result is exact: the special datum itself, or the rounded number. -/
def Exact (p : ℕ) (m : Mpfr) (x : Datum) : Prop :=
  ((∀ w, x ≠ .num w) → m.datum = x) ∧ ∀ w, x = .num w → m = rndn p w

theorem mul_exact (p : ℕ) {x y : Mpfr} (hx : x.Ok) (hy : y.Ok) : Exact p (mul p x y) (exactMul x.datum y.datum) := by
  have nx := neg_eq hx
  have ny := neg_eq hy
  cases x with
  | nan => simp [Exact, mul, exactMul, mulSpecial, datum]
  | inf s => cases y with
    | num t m e =>
      rw [show exactMul (Mpfr.inf s).datum (Mpfr.num t m e).datum = .inf (s != (Mpfr.num t m e).datum.isNeg) from rfl, ← ny]
      simp [Exact, mul, datum]
    | _ => simp [Exact, mul, exactMul, mulSpecial, datum, neg, Datum.isNeg]
  | zero s => cases y with
    | num t m e =>
      rw [show exactMul (Mpfr.zero s).datum (Mpfr.num t m e).datum = .zero (s != (Mpfr.num t m e).datum.isNeg) from rfl, ← ny]
      simp [Exact, mul, datum]
    | _ => simp [Exact, mul, exactMul, mulSpecial, datum, neg, Datum.isNeg]
  | num s m e => cases y with
    | nan => simp [Exact, mul, exactMul, mulSpecial, datum]
    | inf t =>
      rw [show exactMul (Mpfr.num s m e).datum (Mpfr.inf t).datum = .inf ((Mpfr.num s m e).datum.isNeg != t) from rfl, ← nx]
      simp [Exact, mul, datum]
    | zero t =>
      rw [show exactMul (Mpfr.num s m e).datum (Mpfr.zero t).datum = .zero ((Mpfr.num s m e).datum.isNeg != t) from rfl, ← nx]
      simp [Exact, mul, datum]
    | num t n f => simp [Exact, mul, exactMul, mulSpecial, datum, Datum.val, value]

theorem add_exact (p : ℕ) {x y : Mpfr} (hx : x.Ok) (hy : y.Ok) : Exact p (add p x y) (exactAdd x.datum y.datum) := by
  cases x with
  | inf s => cases y with
    | inf t => cases s <;> cases t <;> simp [Exact, add, exactAdd, addSpecial, datum]
    | _ => simp [Exact, add, exactAdd, addSpecial, datum]
  | _ => cases y <;> simp [Exact, add, exactAdd, addSpecial, datum, Datum.val, value]

theorem div_exact (p : ℕ) {x y : Mpfr} (hx : x.Ok) (hy : y.Ok) :
    Exact p (divWith (rndn p) x y) (exactDiv x.datum y.datum) := by
  have nx := neg_eq hx
  have ny := neg_eq hy
  cases x with
  | nan => simp [Exact, divWith, exactDiv, divSpecial, datum]
  | inf s => cases y with
    | num t m e =>
      rw [show exactDiv (Mpfr.inf s).datum (Mpfr.num t m e).datum = .inf (s != (Mpfr.num t m e).datum.isNeg) from rfl, ← ny]
      simp [Exact, divWith, datum]
    | _ => simp [Exact, divWith, exactDiv, divSpecial, datum, neg, Datum.isNeg]
  | zero s => cases y with
    | num t m e =>
      rw [show exactDiv (Mpfr.zero s).datum (Mpfr.num t m e).datum = .zero (s != (Mpfr.num t m e).datum.isNeg) from rfl, ← ny]
      simp [Exact, divWith, datum]
    | _ => simp [Exact, divWith, exactDiv, divSpecial, datum, neg, Datum.isNeg]
  | num s m e => cases y with
    | nan => simp [Exact, divWith, exactDiv, divSpecial, datum]
    | inf t =>
      rw [show exactDiv (Mpfr.num s m e).datum (Mpfr.inf t).datum = .zero ((Mpfr.num s m e).datum.isNeg != t) from rfl, ← nx]
      simp [Exact, divWith, datum]
    | zero t =>
      rw [show exactDiv (Mpfr.num s m e).datum (Mpfr.zero t).datum = .inf ((Mpfr.num s m e).datum.isNeg != t) from rfl, ← nx]
      simp [Exact, divWith, datum]
    | num t n f => simp [Exact, divWith, exactDiv, divSpecial, datum, Datum.val, value]

theorem fma_exact (p : ℕ) {x y z : Mpfr} (hx : x.Ok) (hy : y.Ok) (hz : z.Ok) :
    Exact p (fma p x y z) (exactFma x.datum y.datum z.datum) := by
  have hm := mul_exact p hx hy
  rw [exactFma]
  cases hd : exactMul x.datum y.datum with
  | num w =>
    rw [hd] at hm
    have hm2 := hm.2 w rfl
    have hw : w ≠ 0 ∧ w = x.value * y.value := by
      cases x with
      | num s m e => cases y with
        | num t n f =>
          have h1 := num_ne_zero (x := .num s m e) hx rfl
          have h2 := num_ne_zero (x := .num t n f) hy rfl
          have hw : w = (Mpfr.num s m e).value * (Mpfr.num t n f).value := (Datum.num.inj hd).symm
          exact ⟨by rw [hw]; exact mul_ne_zero h1 h2, hw⟩
        | _ => simp [exactMul, mulSpecial, datum] at hd
      | _ => cases y <;> simp [exactMul, mulSpecial, datum] at hd
    rw [fma.eq_def, hm2, rndn, if_neg hw.1]
    cases z <;> simp [Exact, exactAdd, addSpecial, datum, Datum.val, value, hw.2]
  | nan =>
    have h := hm.1 (by rw [hd]; simp)
    rw [hd] at h
    have : mul p x y = .nan := by cases h' : mul p x y <;> simp_all [datum]
    rw [fma.eq_def, this]
    cases z <;> simp [Exact, exactAdd, addSpecial, datum]
  | inf s =>
    have h := hm.1 (by rw [hd]; simp)
    rw [hd] at h
    have : mul p x y = .inf s := by cases h' : mul p x y <;> simp_all [datum]
    rw [fma.eq_def, this]
    exact add_exact p (x := .inf s) trivial hz
  | zero s =>
    have h := hm.1 (by rw [hd]; simp)
    rw [hd] at h
    have : mul p x y = .zero s := by cases h' : mul p x y <;> simp_all [datum]
    rw [fma.eq_def, this]
    exact add_exact p (x := .zero s) trivial hz

theorem set_exact (p : ℕ) (x : Mpfr) : Exact p (set p x) x.datum := by
  cases x <;> simp [Exact, set, datum, value]

theorem negate_exact (p : ℕ) (x : Mpfr) : Exact p (negate p x) x.datum.neg := by
  cases x <;> simp [Exact, negate, datum, value, Datum.neg]

theorem mul2si_exact (p : ℕ) (k : ℤ) (x : Mpfr) : Exact p (mul2si p k x) (exactScale k x.datum) := by
  cases x <;> simp [Exact, mul2si, datum, value, exactScale]

end Mpfr

end Thls
