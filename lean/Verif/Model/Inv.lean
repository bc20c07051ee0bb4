import Verif.Model.Div

/-! # Reciprocals (fp_flopoco_inv_v1.hpp, fp_flopoco_inv_nr.hpp)

`none` is a failed assertion or an instantiation that does not compile. A `fw_fix<0,-L>` is the natural number held
in its `L+1` bits. -/

namespace Thls.Inv

/-- `cg<W>(v)`, with the assertion that the constant fits. fw_uint.hpp:267-271,
fw_uint_on_masked_uint.hpp:389-396. -/
def cg (w v : ℕ) : Option ℕ := if v ≤ 2 ^ w - 1 then some v else none

/-- `inv_v1`, alias `inv`: the divider applied to a constant that is meant to be one. Its upper four bits are written
as the octal literal `0100`, which is 64. The rest of the function is a copy of `div_v1`.
fp_flopoco_inv_v1.hpp:27-388. -/
def invV1 (E F : ℕ) (y : Fp E F) : Option (Fp E F) :=
  (cg 4 0o100).map fun c => divSame srtFull1 (Fp.ofBits E F (concat (E - 1 + F) c (concat F (ones (E - 1)) 0))) y

/-- `round_frac<wR>(x, overflow)` for `x` of `wX` bits: the result and the overflow.
fp_flopoco_inv_nr.hpp:13-69. -/
def roundFrac (wR wX x : ℕ) : ℕ × Bool :=
  if wR ≥ wX then (x * 2 ^ (wR - wX), false)
  else if wR + 1 = wX then
    let ext := addW (wR + 1) (x / 2) (if getBit 1 x && getBit 0 x then 1 else 0)
    (ext % 2 ^ wR, getBit wR ext)
  else
    let D := wX - wR
    let happy := x / 2 ^ D
    let lsb := getBit D x
    let guard := getBit (D - 1) x
    let sticky := decide (x % 2 ^ (D - 2) ≠ 0)
    let ext := addW (wR + 1) happy (if (if lsb then guard else guard && sticky) then 1 else 0)
    (ext % 2 ^ wR, getBit wR ext)

/-- `sub_match(dz, z2y)` within the Newton step: both operands padded to three integer bits and `2*Lz+Ly` fraction
bits. fp_flopoco_inv_nr.hpp:105-111. -/
def newtonDiff (Lz Ly z y : ℕ) : ℕ :=
  subW (3 + (2 * Lz + Ly)) (z * 2 ^ (2 * Lz + Ly - (Lz - 1))) (z * z * y)

/-- `inv_frac_newton_step<0,-LR>(z,y)` for `z : fw_fix<0,-Lz>` and `y : fw_fix<0,-Ly>`.
fp_flopoco_inv_nr.hpp:97-99, 114-125, 140-180. -/
def newtonStep (LR Lz Ly z y : ℕ) : Option ℕ :=
  let rounded := roundFrac (3 + LR) (3 + (2 * Lz + Ly)) (newtonDiff Lz Ly z y)
  if rounded.2 then none
  else if rounded.1 / 2 ^ (LR + 1) ≠ 0 then none
  else some (rounded.1 % 2 ^ (LR + 1))

/-- Division of doubles, for quotients between one half and one: the multiple of `2^-53` nearest to `n/d`, ties to
even, in units of `2^-53`. Library behaviour, used at fp_flopoco_inv_nr.hpp:196-198,287-303. -/
def divDouble (n d : ℕ) : ℕ :=
  let q := n * 2 ^ 53 / d
  let r := n * 2 ^ 53 % d
  if 2 * r > d ∨ (2 * r = d ∧ q % 2 = 1) then q + 1 else q

/-- `round(ldexp(v,L))` of a double `v` in units of `2^-53`: halves go away from zero. fp_flopoco_inv_nr.hpp:201,287-303. -/
def roundDouble (L v : ℕ) : ℕ := (v + 2 ^ (52 - L)) / 2 ^ (53 - L)

/-- The quotient `(a+b)/(2*a*b)` of the starter table, for `a=1+i*2^-L` and `b=1+(i+1)*2^-L`; the operands of the
division are exact. fp_flopoco_inv_nr.hpp:196-198. -/
def starterQuotient (L i : ℕ) : ℕ :=
  divDouble ((2 ^ L + i + (2 ^ L + i + 1)) * 2 ^ L) (2 * (2 ^ L + i) * (2 ^ L + i + 1))

/-- The value rounded, and reduced by one in the first entry if it is one. fp_flopoco_inv_nr.hpp:201-204. -/
def starterValue (L i : ℕ) : ℕ :=
  let vr := roundDouble L (starterQuotient L i)
  if i = 0 ∧ vr = 2 ^ L then vr - 1 else vr

/-- An entry of the starter table with its assertions. fp_flopoco_inv_nr.hpp:192-209. -/
def starterEntry (L i : ℕ) : Option ℕ :=
  if 2 ^ 52 ≤ starterQuotient L i ∧ starterQuotient L i ≤ 2 ^ 53 ∧ 2 ^ (L - 1) ≤ starterValue L i ∧
      starterValue L i < 2 ^ L then
    some (starterValue L i)
  else none

/-- `inv_frac_starter_table<0,-L>(x)` for `x : fw_fix<0,-L>`: the table is built, checking every entry, and looked
up with the fraction of `x`. fp_flopoco_inv_nr.hpp:182-217. -/
def starterTable (L x : ℕ) : Option ℕ :=
  if (∀ i < 2 ^ L, (starterEntry L i).isSome) ∧ getBit L x then starterEntry L (x % 2 ^ L) else none

/-- `trunc_to_lsb<-L>(x)` for `x : fw_fix<0,-Ly>`. fp_flopoco_inv_nr.hpp:127-132, fw_uint.hpp:338-348. -/
def truncToLsb (L Ly x : ℕ) : Option ℕ := if L ≤ Ly then some (x / 2 ^ (Ly - L)) else none

/-- The starter table applied to the leading bits. fp_flopoco_inv_nr.hpp:228,246,266. -/
def starter (L Ly x : ℕ) : Option ℕ := (truncToLsb L Ly x).bind (starterTable L)

/-- `inv_frac_table_newton_iter1`. fp_flopoco_inv_nr.hpp:219-232. -/
def iter1 (LR Ly x : ℕ) : Option ℕ :=
  let L1 := (LR + 1) / 2 + 1
  (starter L1 Ly x).bind fun g => newtonStep LR L1 Ly g x

/-- `inv_frac_table_newton_iter2`. fp_flopoco_inv_nr.hpp:234-251. -/
def iter2 (LR Ly x : ℕ) : Option ℕ :=
  let B1 := (LR + 2) / 2
  let B0 := (B1 + 2) / 2
  (starter (B0 + 1) Ly x).bind fun g => (newtonStep (B1 + 1) (B0 + 1) Ly g x).bind fun g2 =>
    newtonStep LR (B1 + 1) Ly g2 x

/-- `inv_frac_table_newton_iter3`. fp_flopoco_inv_nr.hpp:253-272. -/
def iter3 (LR Ly x : ℕ) : Option ℕ :=
  let B2 := (LR + 1) / 2
  let B1 := (B2 + 1) / 2
  let B0 := (B1 + 1) / 2
  (starter (B0 + 2) Ly x).bind fun g => (newtonStep (B1 + 2) (B0 + 2) Ly g x).bind fun g2 =>
    (newtonStep (B2 + 2) (B1 + 2) Ly g2 x).bind fun g3 => newtonStep LR (B2 + 2) Ly g3 x

/-- `inv_frac_table_newton<-LR>(x)` for `x : fw_fix<0,-Ly>`. Zero iterations do not compile: the dispatcher passes
the exponent of the result as the first template argument of the direct table, whose second cannot be deduced.
fp_flopoco_inv_nr.hpp:313-359. -/
def tableNewton (LR Ly x : ℕ) : Option ℕ :=
  if Ly ≤ 7 then none
  else if LR ≤ 7 then none
  else if LR ≤ 15 then iter1 LR Ly x
  else if LR ≤ 31 then iter2 LR Ly x
  else if LR ≤ 63 then iter3 LR Ly x
  else none

/-- The exponent of the result before it is adjusted, modulo `2^E`. fp_flopoco_inv_nr.hpp:372, 412. -/
def baseExp (E e : ℕ) : ℕ := subW E (subW E (ones E) 2) e

/-- The flags of the result. fp_flopoco_inv_nr.hpp:378-395, 417-434. -/
def resultFlags (E flags e : ℕ) : ℕ :=
  match flags with
  | 0 => 2
  | 1 => if e = ones E then 0 else 1
  | 2 => 0
  | _ => 3

/-- `inv_table_newton`, alias `inv_faithful`; the exponent widths of operand and result are the same.
fp_flopoco_inv_nr.hpp:362-400. -/
def tableNewtonFp {E FY : ℕ} (FR : ℕ) (y : Fp E FY) : Option (Fp E FR) :=
  (tableNewton (FR + 1) FY (opadHi1 FY y.frac)).map fun r =>
    let exp := if getBit (FR + 1) r then addW E (baseExp E y.exp) 1 else baseExp E y.exp
    Fp.mk4 E FR (resultFlags E y.flags y.exp) y.sign exp (r % 2 ^ FR)

/-- An entry of the direct table, for `a=1+i*2^-Ly`. fp_flopoco_inv_nr.hpp:287-303. -/
def directEntry (LR Ly i : ℕ) : ℕ := roundDouble LR (divDouble (2 ^ Ly) (2 ^ Ly + i))

/-- `inv_direct`. The table must fit in an array indexed by `int`, and its entries in doubles. The assertion on the
entries, that the quotient lies between one half and one, and the one on the leading bit of the index always hold.
fp_flopoco_inv_nr.hpp:278-311, 402-439. -/
def directFp {E FY : ℕ} (FR : ℕ) (y : Fp E FY) : Option (Fp E FR) :=
  if FY ≤ 30 ∧ FR + 2 ≤ 52 then
    let r := directEntry (FR + 1) FY y.frac
    let exp := if y.frac = 0 then addW E (baseExp E y.exp) 1 else baseExp E y.exp
    some (Fp.mk4 E FR (resultFlags E y.flags y.exp) y.sign exp (r % 2 ^ FR))
  else none

end Thls.Inv
