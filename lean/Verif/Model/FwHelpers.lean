import Verif.Model.Masked
import Verif.Model.Double

/-! # Remaining helpers of `fw_uint.hpp`, and the random test source of `fp_flopoco.hpp` -/

namespace Thls
namespace Masked

/-- `thls_ctLog2Ceil_rec<T>`. `lim` is the number of value bits of `T`; `none`: the shift `T(1)<<p` overflows, which a constant
expression may not do. The C++ recursion increments `p`; `lim - p` bounds the number of calls. fw_uint.hpp:131-135. -/
def log2CeilRec (lim x p : ℕ) : Option ℕ :=
  if p < lim then (if x < 1 <<< p then some p else log2CeilRec lim x (p + 1)) else none
termination_by lim - p

/-- `thls_ctLog2Ceil<T>`. fw_uint.hpp:137-141. -/
def log2Ceil (lim x : ℕ) : Option ℕ := log2CeilRec lim x 0

/-- `take<B,W>`: the function is declared to return `fw_uint<W-B>` but returns the `B+1` bits of `get_bits<B,0>`. There is no
conversion between widths, so `none` when the widths differ (the call does not compile). fw_uint.hpp:274-280. -/
def take (B W x : ℕ) : Option ℕ := if B ≤ W then do checkedCast (W - B) (B + 1) (← getBits B 0 W x) else none

/-- `extu<B>`: zero extension; `none`: the static assertion. fw_uint.hpp:396-401. -/
def extu (B W x : ℕ) : Option ℕ := if W ≤ B then zpadHi (B - W) W x else none

/-- `add_cin`. fw_uint.hpp:424-428. -/
def addCin (W x cin : ℕ) : Option ℕ := do add W x (← zpadHi (W - 1) 1 cin)

/-- `operator||` of two single bits. fw_uint.hpp:238-239. -/
def lor (a b : ℕ) : Option ℕ := or 1 a b
/-- `operator&&` of two single bits. fw_uint.hpp:241-242. -/
def land (a b : ℕ) : Option ℕ := and 1 a b

/-- `select(c0,v0,c1,v1,...,def)`, the overloads with one to six conditions; each calls the next shorter one.
fw_uint.hpp:430-550. -/
def selectChain {α : Type} (dflt : α) : List (Bool × α) → α
  | [] => dflt
  | (c, v) :: rest => if c then v else selectChain dflt rest

/-- The constructor of `lut<WD,WA>`: entry `i` is `fw_uint<WD>(init(i))`. fw_uint.hpp:685-698. -/
def lutBuild (WD WA : ℕ) (init : ℕ → ℤ) : Option (List ℕ) := (List.range (2 ^ WA)).mapM fun i => ofInt WD (init i)

/-- `lut<WD,WA>::operator()`: `none` is an access outside the array. fw_uint.hpp:700-703. -/
def lutRead (entries : List ℕ) (addr : ℕ) : Option ℕ := entries[addr]?

/-- `random_fw_uint<W>(rng)`, the words returned by the successive calls of the 32-bit generator being given as a list; the rest of
the list is returned too. `none`: an assertion fails or the list is too short. fw_uint.hpp:705-735. -/
def randomFw (W : ℕ) (ws : List ℕ) : Option (ℕ × List ℕ) :=
  if W = 0 then some (0, ws)
  else
    match ws with
    | [] => none
    | w :: rest => do
      let lw := if 32 ≤ W then 32 else W
      let bits := if lw < 32 then w / 2 ^ (32 - lw) else w
      let hi ← ofBits lw bits
      let lo ← randomFw (W - lw) rest
      let r ← concat lw (W - lw) hi lo.1
      some (r, lo.2)
termination_by W
decreasing_by split <;> omega

/-- A non-negative integer rounded to the nearest `double`; the integers concerned are far below the overflow threshold.
Library behaviour, used at fw_uint.hpp:760-767. -/
def natToDouble (n : ℕ) : ℕ := if n < 2 ^ 53 then n else roundShift n (Nat.log2 n - 52) * 2 ^ (Nat.log2 n - 52)

/-- The loop of `to_double_approx`: `res = res + ldexp(get_bits<31,0>(x), e)`, an addition of `double`s. fw_uint.hpp:760-767. -/
def toDoubleLoop (x res e : ℕ) : ℕ :=
  if x = 0 then res else toDoubleLoop (x / 2 ^ 32) (natToDouble (res + x % 2 ^ 32 * 2 ^ e)) (e + 32)
termination_by x
decreasing_by exact Nat.div_lt_self (by omega) (by norm_num)

/-- `to_double_approx(fw_uint<W>)`; the value of the `double` is a non-negative integer. fw_uint.hpp:753-769. -/
def toDoubleApprox (W x : ℕ) : ℕ := if W ≤ 52 then x else toDoubleLoop x 0 0

end Masked

/-! ## `fp_flopoco_random_test_source` -/

/-- The class probabilities set by the constructor, in the order `PosZero, NegZero, PosNormal, NegNormal, PosInf, NegInf, NaN`.
They are small integers, so that the `double`s and their sums are exact. fp_flopoco.hpp:1086-1125. -/
def defaultPdf : List ℕ := [1, 1, 64, 64, 1, 1, 1]

/-- `update_cdf`: running sums. fp_flopoco.hpp:1103-1110. -/
def cdfOf (acc : ℕ) : List ℕ → List ℕ
  | [] => []
  | p :: ps => (acc + p) :: cdfOf (acc + p) ps

/-- `disable_class(c)`. fp_flopoco.hpp:1127-1131. -/
def disableClass (pdf : List ℕ) (c : ℕ) : List ℕ := pdf.set c 0

/-- The first index with `u <= class_cdf[sel]`, or the number of classes. fp_flopoco.hpp:1142-1149. -/
def pickClass (u : ℚ) : List ℕ → ℕ
  | [] => 0
  | c :: cs => if u ≤ c then 0 else pickClass u cs + 1

/-- `operator()(rng)`. `u` is `m_udist(rng) * class_cdf.back()`; `ws` are the words drawn for the exponent and the fraction, `sw` the
word drawn for the sign of a NaN. fp_flopoco.hpp:1133-1173. -/
def randomFp (E F : ℕ) (pdf : List ℕ) (ws : List ℕ) (u : ℚ) (sw : ℕ) : Option (Fp E F) := do
  let (exp, ws) ← Masked.randomFw E ws
  let (frac, _) ← Masked.randomFw F ws
  match pickClass u (cdfOf 0 pdf) with
  | 0 => some (Fp.mk4 E F 0b00 0 exp frac)
  | 1 => some (Fp.mk4 E F 0b00 1 exp frac)
  | 2 => some (Fp.mk4 E F 0b01 0 exp frac)
  | 3 => some (Fp.mk4 E F 0b01 1 exp frac)
  | 4 => some (Fp.mk4 E F 0b10 0 exp frac)
  | 5 => some (Fp.mk4 E F 0b10 1 exp frac)
  | 6 => do
    let (sign, _) ← Masked.randomFw 1 [sw]
    some (Fp.mk4 E F 0b11 sign exp frac)
  | _ => some (Fp.mk4 E F 0b00 0 exp frac)

end Thls
