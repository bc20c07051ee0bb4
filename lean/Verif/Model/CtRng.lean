import Mathlib.Data.Int.Notation
import Mathlib.Data.Nat.Notation

/-! # Compile-time random number generators (ct/ct_rng*.hpp)

A generator state is a type in the code; here it is its `value`, with the parameters `A, C` or `A, M` passed
beside it. `uint32_t` and `uint64_t` arithmetic is reduced explicitly. -/

namespace Thls.Ct

/-- `uint32_t` arithmetic. Used throughout ct_rng_lcg_mod_2y32.hpp:37-100. -/
def u32 (x : ℕ) : ℕ := x % 2 ^ 32

/-- `uint64_t` arithmetic. Used throughout ct_rng_lcg_mod_p.hpp:49-107. -/
def u64 (x : ℕ) : ℕ := x % 2 ^ 64

/-- `lcg_mod_2y32_multiplier<steps,A,C>::vA, vC` for `steps ≥ 0`. ct_rng_lcg_mod_2y32.hpp:37-70. -/
def lcgMultiplierNat (steps a c : ℕ) : ℕ × ℕ :=
  if steps = 0 then (1, 0)
  else if steps = 1 then (a, c)
  else
    let prev := lcgMultiplierNat (steps / 2) a c
    let a1 := u32 (prev.1 * prev.1)
    let c1 := u32 (prev.1 * prev.2 + prev.2)
    let curr := if steps % 2 = 0 then (1, 0) else (a, c)
    (u32 (a1 * curr.1), u32 (a1 * curr.2 + c1))
termination_by steps

/-- `lcg_mod_2y32_multiplier<steps,A,C>::vA, vC`: negative distances become `2^32 + steps` forward steps.
ct_rng_lcg_mod_2y32.hpp:37-55. -/
def lcgMultiplier (steps : ℤ) (a c : ℕ) : ℕ × ℕ :=
  lcgMultiplierNat (if steps < 0 then 2 ^ 32 + steps else steps).toNat a c

/-- `skip_by<lcg_mod_2y32_state<S,A,C>,distance>::type::value`. ct_rng_lcg_mod_2y32.hpp:89-100. -/
def lcgSkip (s a c : ℕ) (distance : ℤ) : ℕ :=
  u32 (s * (lcgMultiplier distance a c).1 + (lcgMultiplier distance a c).2)

/-- `lcg_mod_2y32_A`. ct_rng_lcg_mod_2y32.hpp:10. -/
def lcgA : ℕ := 1664525

/-- `lcg_mod_2y32_C`. ct_rng_lcg_mod_2y32.hpp:11. -/
def lcgC : ℕ := 1013904223

/-- `make_quick_and_dirty<S>::type`. ct_rng_lcg_mod_2y32.hpp:82-86. -/
def quickAndDirty (s : ℕ) : ℕ := u32 s

/-- `lcg_mod_p_A1`, `lcg_mod_p_A1inv`, `lcg_mod_p_M1`. ct_rng_lcg_mod_p.hpp:14-16. -/
def pA1 : ℕ := 1588635695
@[inherit_doc pA1] def pA1inv : ℕ := 3870709308
@[inherit_doc pA1] def pM1 : ℕ := 4294967291

/-- `lcg_mod_p_A2`, `lcg_mod_p_A2inv`, `lcg_mod_p_M2`. ct_rng_lcg_mod_p.hpp:26-28. -/
def pA2 : ℕ := 16807
@[inherit_doc pA2] def pA2inv : ℕ := 1407677000
@[inherit_doc pA2] def pM2 : ℕ := 2147483647

/-- `inv_mod<X,M>::value`; `none` where there is no specialisation. ct_rng_lcg_mod_p.hpp:11-36. -/
def invMod (x m : ℕ) : Option ℕ :=
  if x = pA1 ∧ m = pM1 then some pA1inv
  else if x = pA1inv ∧ m = pM1 then some pA1
  else if x = pA2 ∧ m = pM2 then some pA2inv
  else if x = pA2inv ∧ m = pM2 then some pA2
  else none

/-- `lcg_mod_p_multiplier<steps,A,M>::value` for `steps ≥ 0`. `inv_mod<A,M>` is instantiated, although not used,
so it must exist. ct_rng_lcg_mod_p.hpp:49-67. -/
def pMultiplierNat (steps a m : ℕ) : Option ℕ :=
  if steps = 0 then some 1
  else (invMod a m).bind fun _ =>
    (pMultiplierNat (steps / 2) a m).map fun prev =>
      let prevSqr := u64 (prev * prev) % m
      u32 (u64 (prevSqr * (if steps % 2 = 1 then a else 1)) % m)
termination_by steps

/-- `lcg_mod_p_multiplier<steps,A,M>::value`: a negative number of steps uses the inverse multiplier for the
recursion and for the last factor. `none` where `-steps` overflows `int`. ct_rng_lcg_mod_p.hpp:49-67. -/
def pMultiplier (steps : ℤ) (a m : ℕ) : Option ℕ :=
  if steps < 0 then
    if steps ≤ -2 ^ 31 then none
    else (invMod a m).bind fun ai =>
      (pMultiplierNat ((-steps).toNat / 2) ai m).map fun prev =>
        let prevSqr := u64 (prev * prev) % m
        u32 (u64 (prevSqr * (if (-steps).toNat % 2 = 1 then ai else 1)) % m)
  else pMultiplierNat steps.toNat a m

/-- `skip_by<lcg_mod_p_state<S,A,M>,distance>::type::value`. ct_rng_lcg_mod_p.hpp:97-107. -/
def pSkip (s a m : ℕ) (distance : ℤ) : Option ℕ :=
  (pMultiplier distance a m).map fun ai => u32 (u64 (s * ai) % m)

/-- `make_minstdrand0<S>::type`; `none` when the static assertion fails. ct_rng_lcg_mod_p.hpp:79-85. -/
def minstdrand0 (s : ℕ) : Option ℕ := if s % pM2 ≠ 0 then some (s % pM2) else none

/-- `make_lcg_mod_2y32m5<S>::type`; `none` when the static assertion fails. ct_rng_lcg_mod_p.hpp:87-93. -/
def lcgMod2y32m5 (s : ℕ) : Option ℕ := if s % pM1 ≠ 0 then some (s % pM1) else none

end Thls.Ct
