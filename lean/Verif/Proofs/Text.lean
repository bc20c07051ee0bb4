import Verif.Model.Text
import Verif.SpecText
import Verif.Props.FwUint
import Verif.Props.Ieee
import Verif.Proofs.PolicyFlo

/-! # Lemmas: printed forms and the references of the IEEE type -/

namespace Thls
open Spec

theorem toStringLoop_digits (x : ℕ) : ∀ n, (Masked.toStringLoop x n).filter (· ≠ '_') =
    (List.range n).map fun i : ℕ => if x.testBit (n - 1 - i) then '1' else '0'
  | 0 => rfl
  | n + 1 => by
    have ih := toStringLoop_digits x n
    unfold Masked.toStringLoop
    dsimp only
    have hd : (if (x >>> n) &&& 1 = 1 then '1' else '0') = if x.testBit n then '1' else '0' := by
      simp only [Masked.bit_and_one, Nat.testBit_eq_decide_div_mod_eq, decide_eq_true_eq]
    rw [hd, List.range_succ_eq_map, List.map_cons, List.map_map]
    have hne : ((if x.testBit n = true then '1' else '0') ≠ '_') := by split <;> decide
    have hin : (if n % 8 = 0 ∧ n ≠ 0 then '_' :: Masked.toStringLoop x n else Masked.toStringLoop x n).filter (· ≠ '_') =
        (Masked.toStringLoop x n).filter (· ≠ '_') := by
      split
      · rw [List.filter_cons_of_neg (by simp)]
      · rfl
    rw [List.filter_cons_of_pos (by simpa using hne), hin, ih]
    congr 1
    refine List.map_congr_left fun i hi => ?_
    rw [List.mem_range] at hi
    simp only [Function.comp]
    rw [show n + 1 - 1 - (i + 1) = n - 1 - i by omega]

theorem bitText_toString (W x : ℕ) : BitText W x (Masked.toString W x) := ⟨_, rfl, toStringLoop_digits x W⟩

theorem toStringLoop_length (x y : ℕ) : ∀ n, (Masked.toStringLoop x n).length = (Masked.toStringLoop y n).length
  | 0 => rfl
  | n + 1 => by
    have ih := toStringLoop_length x y n
    unfold Masked.toStringLoop
    dsimp only
    by_cases h : n % 8 = 0 ∧ n ≠ 0
    · simp only [if_pos h, List.length_cons, ih]
    · simp only [if_neg h, List.length_cons, ih]

theorem bitText_inj {W x y : ℕ} (hx : x < 2 ^ W) (hy : y < 2 ^ W) {t : List Char} (h : BitText W x t) (h' : BitText W y t) : x = y := by
  obtain ⟨d, rfl, hd⟩ := h
  obtain ⟨d', ht, hd'⟩ := h'
  simp only [List.cons.injEq, true_and] at ht
  subst ht
  rw [hd] at hd'
  refine Nat.eq_of_testBit_eq fun i => ?_
  by_cases hi : i < W
  · have := congrArg (fun l => l[W - 1 - i]?) hd'
    simp only [List.getElem?_map, List.getElem?_range (show W - 1 - i < W by omega), Option.map_some, Option.some.injEq] at this
    rw [show W - 1 - (W - 1 - i) = i by omega] at this
    revert this
    cases x.testBit i <;> cases y.testBit i <;> simp
  · rw [Nat.testBit_lt_two_pow (hx.trans_le (Nat.pow_le_pow_right (by norm_num) (by omega))),
      Nat.testBit_lt_two_pow (hy.trans_le (Nat.pow_le_pow_right (by norm_num) (by omega)))]

theorem toString_append_inj {W x y : ℕ} (hx : x < 2 ^ W) (hy : y < 2 ^ W) {u v : List Char}
    (h : Masked.toString W x ++ u = Masked.toString W y ++ v) : x = y := by
  have hl : (Masked.toString W x).length = (Masked.toString W y).length := by
    simp [Masked.toString, toStringLoop_length x y W]
  have := (List.append_inj h hl).1
  exact bitText_inj hx hy (bitText_toString W x) (this ▸ bitText_toString W y)

theorem ieee_ofMpfr_delivers {E F : ℕ} (hE : 2 ≤ E) (hF : 1 ≤ F) {m : Mpfr} {x : Datum} (hm : Mpfr.Exact (F + 1) m x) :
    ∃ r : Ieee E F, Ieee.ofMpfr E F true m = some r ∧ IeeeDelivers E F x r.datum := by
  obtain ⟨gnan, ginf, gzero, -⟩ := C51_mpfr_round_trip hE hF true (Ieee.ofBits E F 0)
  obtain ⟨hs, hn⟩ := hm
  have special : (∀ w, x ≠ .num w) → ∃ r : Ieee E F, Ieee.ofMpfr E F true m = some r ∧ r.datum = x := by
    intro h
    have h2 := hs h
    subst h2
    cases m with
    | num s m e => exact absurd rfl (h _)
    | nan => exact gnan
    | inf s => exact ginf s
    | zero s => exact gzero s
  cases x with
  | num w =>
    rw [hn w rfl]
    by_cases hw : w = 0
    · obtain ⟨r, hr, hd⟩ := gzero false
      refine ⟨r, by rw [Mpfr.rndn, if_pos hw, hr], ?_⟩
      simp only [IeeeDelivers]; rw [if_pos hw, hd]
    · have hp := Mpfr.rndnPos_spec (p := F + 1) (by omega) (abs_pos.mpr hw)
      have h := C51_of_mpfr hE hF true (decide (w < 0)) (Mpfr.rndnPos (F + 1) |w|).2 hp.1
      rw [if_pos (Or.inr rfl)] at h
      obtain ⟨r, hr, hd⟩ := h
      refine ⟨r, by rw [Mpfr.rndn, if_neg hw, hr], ?_⟩
      simp only [IeeeDelivers]; rw [if_neg hw]
      refine ⟨_, _, hp, ?_⟩
      rw [hd]
      congr 2
      by_cases h : w < 0 <;> simp [h, Mpfr.datum]
  | nan => exact special (by simp)
  | inf s => exact special (by simp)
  | zero s => exact special (by simp)

end Thls
