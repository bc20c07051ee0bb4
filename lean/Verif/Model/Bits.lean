import Mathlib.Tactic.Ring
import Mathlib.Tactic.Linarith
import Mathlib.Tactic.Positivity

/-!
# Value-level model of `fw_uint<W>`

A `fw_uint<W>` is represented by the natural number it holds (always below `2^W`); the width is an explicit
argument wherever the C++ result depends on it. `Verif/Model/Masked.lean` models the storage level of the
default backend and `Verif/Props/FwUint.lean` proves that it computes these functions.
-/

namespace Thls

/-- `get_bits<HI,LO>(x)`: bits `HI..LO`. fw_uint_on_masked_uint.hpp:696-708. -/
def getBits (hi lo x : ℕ) : ℕ := x / 2 ^ lo % 2 ^ (hi + 1 - lo)

/-- `get_bit<I>(x)` read as a truth value. fw_uint.hpp:282-286. -/
def getBit (i x : ℕ) : Bool := decide (x / 2 ^ i % 2 = 1)

/-- `concat(a,b)` with `b : fw_uint<wb>`. fw_uint_on_masked_uint.hpp:710-715. -/
def concat (wb a b : ℕ) : ℕ := a * 2 ^ wb + b

/-- `operator+` on `fw_uint<W>`. fw_uint_on_masked_uint.hpp:492-500. -/
def addW (w a b : ℕ) : ℕ := (a + b) % 2 ^ w

/-- `operator-` on `fw_uint<W>`. fw_uint_on_masked_uint.hpp:502-510. -/
def subW (w a b : ℕ) : ℕ := (a + (2 ^ w - b)) % 2 ^ w

/-- `operator~` on `fw_uint<W>`. fw_uint_on_masked_uint.hpp:577-579. -/
def notW (w a : ℕ) : ℕ := 2 ^ w - 1 - a

/-- `og<W>()`: all ones. fw_uint.hpp:256-260. -/
def ones (w : ℕ) : ℕ := 2 ^ w - 1

/-- `operator>>(int)` on `fw_uint<W>`; the assertion `0<=dist && dist<W` is the `none` outcome.
fw_uint_on_masked_uint.hpp:614-618. -/
def shr? (w x dist : ℕ) : Option ℕ := if dist < w then some (x / 2 ^ dist) else none

/-- `opad_hi<1>(x)`: a one above a `w`-bit value. fw_uint.hpp:377-381. -/
def opadHi1 (w x : ℕ) : ℕ := 2 ^ w + x

/-! ## Helper lemmas -/

theorem getBits_lt (hi lo x : ℕ) : getBits hi lo x < 2 ^ (hi + 1 - lo) :=
  Nat.mod_lt _ (by positivity)

theorem concat_div {w a b : ℕ} (hb : b < 2 ^ w) : concat w a b / 2 ^ w = a := by
  unfold concat
  rw [Nat.add_comm, Nat.add_mul_div_right _ _ (by positivity), Nat.div_eq_of_lt hb, Nat.zero_add]

theorem concat_mod {w a b : ℕ} (hb : b < 2 ^ w) : concat w a b % 2 ^ w = b := by
  unfold concat
  rw [Nat.add_comm, Nat.add_mul_mod_self_right, Nat.mod_eq_of_lt hb]

theorem concat_lt {wa w a b : ℕ} (ha : a < 2 ^ wa) (hb : b < 2 ^ w) : concat w a b < 2 ^ (wa + w) := by
  unfold concat
  rw [pow_add]
  have : (a + 1) * 2 ^ w ≤ 2 ^ wa * 2 ^ w := Nat.mul_le_mul_right _ ha
  nlinarith

theorem getBits_concat_high {w a b hi lo : ℕ} (hb : b < 2 ^ w) (hlo : w ≤ lo) (hhi : w ≤ hi) :
    getBits hi lo (concat w a b) = getBits (hi - w) (lo - w) a := by
  obtain ⟨k, rfl⟩ := Nat.exists_eq_add_of_le hlo
  unfold getBits
  rw [pow_add, ← Nat.div_div_eq_div_mul, concat_div hb]
  congr 2
  · rw [Nat.add_sub_cancel_left]
  · omega

theorem mod_pow_div_pow {b lo w : ℕ} (h : lo ≤ w) : b % 2 ^ w / 2 ^ lo = b / 2 ^ lo % 2 ^ (w - lo) := by
  obtain ⟨k, rfl⟩ := Nat.exists_eq_add_of_le h
  rw [Nat.add_sub_cancel_left, pow_add, Nat.mod_mul_right_div_self]

theorem getBits_mod {w x hi lo : ℕ} (hhi : hi < w) (hlo : lo ≤ hi + 1) :
    getBits hi lo (x % 2 ^ w) = getBits hi lo x := by
  unfold getBits
  rw [mod_pow_div_pow (by omega), Nat.mod_mod_of_dvd]
  exact pow_dvd_pow 2 (by omega)

theorem getBits_concat_low {w a b hi lo : ℕ} (hb : b < 2 ^ w) (hhi : hi < w) (hlo : lo ≤ hi + 1) :
    getBits hi lo (concat w a b) = getBits hi lo b := by
  rw [← getBits_mod hhi hlo (x := concat w a b), concat_mod hb]

theorem getBits_all {x hi : ℕ} (h : x < 2 ^ (hi + 1)) : getBits hi 0 x = x := by
  unfold getBits
  rw [pow_zero, Nat.div_one, Nat.sub_zero, Nat.mod_eq_of_lt h]

end Thls
