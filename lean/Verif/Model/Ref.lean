import Verif.Model.Limits
import Mathlib.Data.Int.Log
import Mathlib.Data.Rat.Floor

/-! # The MPFR reference functions (`ref_*` in fp_flopoco.hpp)

The MPFR library is replaced by its documented behaviour: an operation delivers the exact result rounded to the
precision of the destination, with an exponent range that is wide enough never to matter. The reference functions
themselves are modelled as they are written: read the operands, call MPFR, convert back. -/

namespace Thls

namespace Mpfr

/-- The sign of an MPFR number, which decides the sign of products and quotients; MPFR's NaN is read as positive. Library behaviour,
used by the calls of `mpfr_mul` and `mpfr_div` at fp_flopoco.hpp:627, 750, 818. -/
def neg : Mpfr → Bool
  | .nan => false
  | .inf s => s
  | .zero s => s
  | .num s _ _ => s

/-- The value of a number; zero for the other cases. Specification of the library type; not a function of the code. -/
def value : Mpfr → ℚ
  | .num s m e => (if s then -1 else 1) * ((m : ℚ) * 2 ^ e)
  | _ => 0

/-- The exponent of the last place of a positive `a` held in `p` bits. Part of the rounding of the library. -/
def ulpExp (p : ℕ) (a : ℚ) : ℤ := Int.log 2 a + 1 - p

/-- A positive rational scaled to `p` integer bits. Part of the rounding of the library. -/
def scaled (p : ℕ) (a : ℚ) : ℚ := a / 2 ^ ulpExp p a

/-- The next `p`-bit significand and its exponent. Part of the rounding of the library. -/
def succSig (p k : ℕ) (e : ℤ) : ℕ × ℤ := if k + 1 = 2 ^ p then (2 ^ (p - 1), e + 1) else (k + 1, e)

/-- `MPFR_RNDN` of a positive rational: nearest, ties to even. Library behaviour, used by every reference of fp_flopoco.hpp:616-977. -/
def rndnPos (p : ℕ) (a : ℚ) : ℕ × ℤ :=
  let k := ⌊scaled p a⌋.toNat
  let r := scaled p a - k
  if r > 1 / 2 ∨ (r = 1 / 2 ∧ k % 2 = 1) then succSig p k (ulpExp p a) else (k, ulpExp p a)

/-- `MPFR_RNDN` of a rational; an exact zero is positive. Library behaviour, used by every reference of fp_flopoco.hpp:616-977. -/
def rndn (p : ℕ) (v : ℚ) : Mpfr :=
  if v = 0 then .zero false else .num (decide (v < 0)) (rndnPos p |v|).1 (rndnPos p |v|).2

/-- Rounding a positive rational towards zero (`away = false`) or away from zero. Library behaviour, used at fp_flopoco.hpp:771,774. -/
def directedPos (p : ℕ) (away : Bool) (a : ℚ) : ℕ × ℤ :=
  let k := ⌊scaled p a⌋.toNat
  if away ∧ scaled p a ≠ k then succSig p k (ulpExp p a) else (k, ulpExp p a)

/-- `MPFR_RNDD` and `MPFR_RNDU` (`up`) of a nonzero rational. Library behaviour, used at fp_flopoco.hpp:771,774. -/
def directed (p : ℕ) (up : Bool) (v : ℚ) : Mpfr :=
  .num (decide (v < 0)) (directedPos p (up != decide (v < 0)) |v|).1 (directedPos p (up != decide (v < 0)) |v|).2

/-- `mpfr_mul`. Library behaviour, used at fp_flopoco.hpp:627, fp_ieee.hpp:418. -/
def mul (p : ℕ) : Mpfr → Mpfr → Mpfr
  | .nan, _ => .nan
  | _, .nan => .nan
  | .inf _, .zero _ => .nan
  | .zero _, .inf _ => .nan
  | .inf s, y => .inf (s != y.neg)
  | x, .inf s => .inf (x.neg != s)
  | .zero s, y => .zero (s != y.neg)
  | x, .zero s => .zero (x.neg != s)
  | x, y => rndn p (x.value * y.value)

/-- `mpfr_add` with `MPFR_RNDN`: the sum of zeros of opposite signs is positive.
Library behaviour, used at fp_flopoco.hpp:659, fp_ieee.hpp:450. -/
def add (p : ℕ) : Mpfr → Mpfr → Mpfr
  | .nan, _ => .nan
  | _, .nan => .nan
  | .inf s, .inf t => if s = t then .inf s else .nan
  | .inf s, _ => .inf s
  | _, .inf t => .inf t
  | .zero s, .zero t => .zero (s && t)
  | x, y => rndn p (x.value + y.value)

/-- `mpfr_div`. Library behaviour, used at fp_flopoco.hpp:750,771,774,818. -/
def divWith (rnd : ℚ → Mpfr) : Mpfr → Mpfr → Mpfr
  | .nan, _ => .nan
  | _, .nan => .nan
  | .inf _, .inf _ => .nan
  | .zero _, .zero _ => .nan
  | .inf s, y => .inf (s != y.neg)
  | x, .inf s => .zero (x.neg != s)
  | .zero s, y => .zero (s != y.neg)
  | x, .zero s => .inf (x.neg != s)
  | x, y => rnd (x.value / y.value)

/-- `mpfr_fma`: one rounding. Library behaviour, used at fp_flopoco.hpp:965. -/
def fma (p : ℕ) (x y z : Mpfr) : Mpfr :=
  match mul p x y with
  | .nan => .nan
  | .inf s => add p (.inf s) z
  | .zero s => add p (.zero s) z
  | .num _ _ _ => match z with
    | .nan => .nan
    | .inf t => .inf t
    | .zero _ => rndn p (x.value * y.value)
    | .num s m e => rndn p (x.value * y.value + (Mpfr.num s m e).value)

/-- `mpfr_set`: the sign of a zero is kept. Library behaviour, used at fp_flopoco.hpp:797, fp_convert.hpp:203. -/
def set (p : ℕ) : Mpfr → Mpfr
  | .num s m e => rndn p (Mpfr.num s m e).value
  | x => x

/-- `mpfr_neg`. Library behaviour, used at fp_flopoco.hpp:729. -/
def negate (p : ℕ) : Mpfr → Mpfr
  | .nan => .nan
  | .inf s => .inf (!s)
  | .zero s => .zero (!s)
  | .num s m e => rndn p (-(Mpfr.num s m e).value)

/-- `mpfr_mul_2si`. Library behaviour, used at fp_flopoco.hpp:847. -/
def mul2si (p : ℕ) (k : ℤ) : Mpfr → Mpfr
  | .num s m e => rndn p ((Mpfr.num s m e).value * 2 ^ k)
  | x => x

/-- `mpfr_sqr`. Library behaviour, used at fp_flopoco.hpp:874. -/
def sqr (p : ℕ) (x : Mpfr) : Mpfr := mul p x x

/-- `mpfr_set_d(mb, 1, MPFR_RNDN)` into two bits. fp_flopoco.hpp:739-780. -/
def one : Mpfr := .num false 2 (-1)

end Mpfr

/-- `ref_mul<ER,FR>(a,b)`. fp_flopoco.hpp:616-641. -/
def refMul (ER FR : ℕ) {EA FA EB FB : ℕ} (a : Fp EA FA) (b : Fp EB FB) : Option (Fp ER FR) :=
  ofMpfr ER FR true (Mpfr.mul (FR + 1) (toMpfr a) (toMpfr b))

/-- The check at the end of `ref_add`: a normal result must read back as the MPFR sum, or the program exits.
fp_flopoco.hpp:666-675. -/
def refAddCheck {ER FR : ℕ} (mr : Mpfr) (res : Fp ER FR) : Option (Fp ER FR) :=
  if res.isInf || res.isNan || res.isZero then some res
  else if mr.value = (toMpfr res).value then some res
  else none

/-- `ref_add<ER,FR>(a,b)`. fp_flopoco.hpp:648-683. -/
def refAdd (ER FR : ℕ) {EA FA EB FB : ℕ} (a : Fp EA FA) (b : Fp EB FB) : Option (Fp ER FR) :=
  (ofMpfr ER FR true (Mpfr.add (FR + 1) (toMpfr a) (toMpfr b))).bind
    (refAddCheck (Mpfr.add (FR + 1) (toMpfr a) (toMpfr b)))

/-- `ref_neg<ER,FR>(a)`. fp_flopoco.hpp:720-736. -/
def refNeg (ER FR : ℕ) {EA FA : ℕ} (a : Fp EA FA) : Option (Fp ER FR) :=
  ofMpfr ER FR true (Mpfr.negate (FR + 1) (toMpfr a))

/-- `ref_inv<ER,FR>(a)`. fp_flopoco.hpp:739-757. -/
def refInv (ER FR : ℕ) {EA FA : ℕ} (a : Fp EA FA) : Option (Fp ER FR) :=
  ofMpfr ER FR true (Mpfr.divWith (Mpfr.rndn (FR + 1)) Mpfr.one (toMpfr a))

/-- `ref_inv_faithful(r1,r2,a)`: the quotient rounded down and rounded up. fp_flopoco.hpp:760-780. -/
def refInvFaithful (ER FR : ℕ) {EA FA : ℕ} (a : Fp EA FA) : Option (Fp ER FR) × Option (Fp ER FR) :=
  (ofMpfr ER FR true (Mpfr.divWith (Mpfr.directed (FR + 1) false) Mpfr.one (toMpfr a)),
    ofMpfr ER FR true (Mpfr.divWith (Mpfr.directed (FR + 1) true) Mpfr.one (toMpfr a)))

/-- `ref_convert<ER,FR>(a)`. fp_flopoco.hpp:788-805. -/
def refConvert (ER FR : ℕ) {EA FA : ℕ} (a : Fp EA FA) : Option (Fp ER FR) :=
  ofMpfr ER FR true (Mpfr.set (FR + 1) (toMpfr a))

/-- `ref_div<ER,FR>(a,b)`. fp_flopoco.hpp:807-829. -/
def refDiv (ER FR : ℕ) {EA FA EB FB : ℕ} (a : Fp EA FA) (b : Fp EB FB) : Option (Fp ER FR) :=
  ofMpfr ER FR true (Mpfr.divWith (Mpfr.rndn (FR + 1)) (toMpfr a) (toMpfr b))

/-- `ref_ldexp_const<ER,FR,PLACES>(a)`. fp_flopoco.hpp:838-857. -/
def refLdexp (ER FR : ℕ) (places : ℤ) {EA FA : ℕ} (a : Fp EA FA) : Option (Fp ER FR) :=
  ofMpfr ER FR true (Mpfr.mul2si (FR + 1) places (toMpfr a))

/-- `ref_square<ER,FR>(a)`. fp_flopoco.hpp:865-884. -/
def refSquare (ER FR : ℕ) {EA FA : ℕ} (a : Fp EA FA) : Option (Fp ER FR) :=
  ofMpfr ER FR true (Mpfr.sqr (FR + 1) (toMpfr a))

/-- `ref_fma<ER,FR>(a,b,c)`. fp_flopoco.hpp:952-977. -/
def refFma (ER FR : ℕ) {EA FA EB FB EC FC : ℕ} (a : Fp EA FA) (b : Fp EB FB) (c : Fp EC FC) : Option (Fp ER FR) :=
  ofMpfr ER FR true (Mpfr.fma (FR + 1) (toMpfr a) (toMpfr b) (toMpfr c))

end Thls
