import Verif.SpecModules
import Verif.Model.Modules
import Verif.Props.RefAgree
import Verif.Props.AddSharp
import Verif.Props.Exact
import Verif.Proofs.PolicyFlo
import Verif.Proofs.SoftAgree

namespace Thls
open Spec

theorem fp_flopocoWord {E F : ℕ} (hE : 1 ≤ E) (hF : 1 ≤ F) (x : Fp E F) : flopocoWord E F x.bits = x.datum := by
  have hx := x.isLt
  unfold flopocoWord Fp.datum Fp.flags Fp.sign Fp.exp Fp.frac
  rw [getBits_top (by rw [show E + F + 2 + 1 = 3 + E + F by omega]; exact hx) (by omega), getBits_zero_eq_mod]
  unfold getBits
  rw [show E + F + 1 = 1 + E + F by omega, show F - 1 + 1 = F by omega, show 1 + E + F - (E + F) = 1 by omega,
    show E + F - 1 + 1 - F = E by omega, pow_one]

theorem ofBits_word {E F a : ℕ} (hE : 1 ≤ E) (hF : 1 ≤ F) (ha : a < 2 ^ (3 + E + F)) : (Fp.ofBits E F a).datum = flopocoWord E F a := by
  rw [← fp_flopocoWord hE hF]
  congr 1
  exact Nat.mod_eq_of_lt ha

theorem ofBits_bits {E F : ℕ} (x : Fp E F) : Fp.ofBits E F x.bits = x := by
  cases x with
  | mk b h => simp only [Fp.ofBits, Nat.mod_eq_of_lt h]

/-- From the operator on values to the module on words. -/
theorem module_right {E F EA FA EB FB : ℕ} (hE : 1 ≤ E) (hF : 1 ≤ F) (hEA : 1 ≤ EA) (hFA : 1 ≤ FA) (hEB : 1 ≤ EB) (hFB : 1 ≤ FB)
    (op : Datum → Datum → Datum) (g : Fp EA FA → Fp EB FB → Option (Fp E F)) :
    ModuleRight E F EA FA EB FB op (fun a b => (g (Fp.ofBits EA FA a) (Fp.ofBits EB FB b)).map Fp.bits) ↔
      ∀ x y, ∃ r, g x y = some r ∧ Delivers E F (op x.datum y.datum) r.datum := by
  constructor
  · intro h x y
    obtain ⟨w, hw, -, hd⟩ := h x.bits y.bits x.isLt y.isLt
    dsimp only at hw
    rw [ofBits_bits, ofBits_bits] at hw
    rw [fp_flopocoWord hEA hFA, fp_flopocoWord hEB hFB] at hd
    obtain ⟨r, hr, rfl⟩ := Option.map_eq_some_iff.mp hw
    exact ⟨r, hr, by rwa [fp_flopocoWord hE hF] at hd⟩
  · intro h a b ha hb
    obtain ⟨r, hr, hd⟩ := h (Fp.ofBits EA FA a) (Fp.ofBits EB FB b)
    refine ⟨r.bits, by dsimp only; rw [hr]; rfl, r.isLt, ?_⟩
    rwa [fp_flopocoWord hE hF, ← ofBits_word hEA hFA ha, ← ofBits_word hEB hFB hb]

theorem ieee_ofBits_word {E F a : ℕ} (hE : 1 ≤ E) (hF : 1 ≤ F) (ha : a < 2 ^ (1 + E + F)) :
    (Ieee.ofBits E F a).datum = wordDatum E F a := by
  rw [ieee_wordDatum hE hF]
  congr 1
  exact Nat.mod_eq_of_lt ha

theorem ieee_module_right {E F : ℕ} (hE : 1 ≤ E) (hF : 1 ≤ F) (op : Datum → Datum → Datum)
    (g : Ieee E F → Ieee E F → Option (Ieee E F))
    (h : ∀ x y, ∃ r, g x y = some r ∧ IeeeDelivers E F (op (ieeeRange E x.datum) (ieeeRange E y.datum)) r.datum) :
    IeeeModuleRight E F op (fun a b => (g (Ieee.ofBits E F a) (Ieee.ofBits E F b)).map Ieee.bits) := by
  intro a b ha hb
  obtain ⟨r, hr, hd⟩ := h (Ieee.ofBits E F a) (Ieee.ofBits E F b)
  refine ⟨r.bits, by dsimp only; rw [hr]; rfl, r.isLt, ?_⟩
  rwa [← ieee_wordDatum hE hF, ← ieee_ofBits_word hE hF ha, ← ieee_ofBits_word hE hF hb]

/-- The sum of the single-path adder, exceptions included, and where it is right. -/
theorem single_delivers {E F : ℕ} (hE : 2 ≤ E) (hF : 1 ≤ F) {norm : ℕ → Option (ℕ × ℕ)} (hn : AddSingle.Normalises F norm)
    (hfmt : F + 3 < 2 ^ E) (hfmt2 : F + 3 ≠ 2 ^ (E - 1)) {x y : Fp E F} {res : Option (Fp E F)} (ho : AddSingle.Orders norm x y res)
    (hcl : F + 3 < 2 ^ (E - 1) → ∀ p q, x.datum = .num p → y.datum = .num q → ¬ ClampCase F p q ∧ ¬ ClampCase F q p) :
    ∃ r, res = some r ∧ Delivers E F (exactAdd x.datum y.datum) r.datum := by
  have hs : ∀ d, addSpecial x.datum y.datum = some d → ∃ r, res = some r ∧ r.datum = d :=
    fun d hd => AddSingle.orders_special hn hE hF hfmt hfmt2 ho hd
  have key : ∃ r, res = some r := by
    cases h : addSpecial x.datum y.datum with
    | some d => obtain ⟨r, hr, -⟩ := hs d h; exact ⟨r, hr⟩
    | none =>
      obtain ⟨p, q, hp, hq⟩ := (C17_addSpecial_domain _ _).mp h
      obtain ⟨r, hr, -⟩ := single_addsTo hn hE hF hfmt hfmt2 ho hp hq
      exact ⟨r, hr⟩
  obtain ⟨r, hr⟩ := key
  refine ⟨r, hr, exactAdd_delivers (by omega) hF ?_ ?_⟩
  · intro d hd
    obtain ⟨s, hs', h⟩ := hs d hd
    rw [hr] at hs'; rw [Option.some.inj hs']; exact h
  · intro p q hp hq
    obtain ⟨s, hs', h, -⟩ := single_addsTo hn hE hF hfmt hfmt2 ho hp hq
    rw [hr] at hs'; rw [Option.some.inj hs']
    exact h fun hc => hcl hc p q hp hq

end Thls
