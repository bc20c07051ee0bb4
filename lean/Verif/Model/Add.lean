import Verif.Model.Lzoc
import Verif.Model.Convert

/-! # Addition: the single-path adders (fp_flopoco_add_single_v1 .. v5.hpp) and the dual-path adder
(fp_flopoco_add_dual_v1.hpp)

The VHDL-style selects are written as `if`, the look-up tables as functions of the table index. A `none`
result is a failed run-time assertion. -/

namespace Thls

/-! ## Parts shared by both adders -/

/-- Alignment: the significand of the smaller operand above `wF+3+pad` zeros, shifted right (`>>` asserts that
the distance is less than the width), the `pad` lowest bits dropped; the aligned significand with two guard
bits, and the sticky bit. fp_flopoco_add_single_v1.hpp:373-385 (`pad` = 0),
fp_flopoco_add_dual_v1.hpp:350-377. -/
def addAlign? (wF pad fracY dist : ℕ) : Option (ℕ × Bool) :=
  match shr? (2 * wF + 4 + pad) (concat (wF + 3 + pad) fracY 0) dist with
  | none => none
  | some s =>
    let shiftedFracY := s / 2 ^ pad
    some (getBits (2 * wF + 3) (wF + 1) shiftedFracY, decide (getBits wF 0 shiftedFracY ≠ 0))

/-- `add_with_cin(fracXfar, fracYfar ^ EffSubVector, EffSub & ~sticky)`: `fracXfar` is `01 & frac & 00`; the xor
with all ones is a complement. fp_flopoco_add_single_v1.hpp:385-415, fp_flopoco_add_dual_v1.hpp:377-419. -/
def addFar (wF fracX yFar : ℕ) (effSub sticky : Bool) : ℕ :=
  let fracXfar := concat 2 (concat wF 0b01 fracX) 0
  let yXor := if effSub then notW (wF + 4) yFar else yFar
  addW (wF + 4) (addW (wF + 4) fracXfar yXor) (effSub && !sticky).toNat

/-! ## Single path -/

namespace AddSingle

/-- Shift distance from the exponent difference (`wE+1` bits). In the last case the argument of `checked_cast`
has `sizeRightShift+1` bits, so its assertion fails. fp_flopoco_add_single_v1.hpp:313-336. -/
def shiftVal? (wE wF expDiff : ℕ) : Option ℕ :=
  let srs := intlog2 (wF + 3)
  if wE > srs then some (if expDiff ≥ wF + 2 then wF + 3 else getBits (srs - 1) 0 expDiff)
  else if wE = srs then some (getBits (srs - 1) 0 expDiff)
  else none

/-- The first exception table, indexed by both signs and both flags.
fp_flopoco_add_single_v1.hpp:273-285. -/
def excRtLut (i : ℕ) : ℕ :=
  if i ∈ [0b000000, 0b010000, 0b100000, 0b110000] then 0b00
  else if i ∈ [0b000101, 0b010101, 0b100101, 0b110101, 0b000100, 0b010100, 0b100100, 0b110100, 0b000001, 0b010001,
    0b100001, 0b110001] then 0b01
  else if i ∈ [0b111010, 0b001010, 0b001000, 0b011000, 0b101000, 0b111000, 0b000010, 0b010010, 0b100010, 0b110010,
    0b001001, 0b011001, 0b101001, 0b111001, 0b000110, 0b010110, 0b100110, 0b110110] then 0b10
  else 0b11

/-- The second exception table, indexed by the two bits above the exponent and the first table's result.
fp_flopoco_add_single_v1.hpp:554-566. -/
def excRt2Lut (i : ℕ) : ℕ :=
  if i ∈ [0b0000, 0b0100, 0b1000, 0b1100, 0b1001, 0b1101] then 0b00
  else if i = 0b0001 then 0b01
  else if i ∈ [0b0010, 0b0110, 0b1010, 0b1110, 0b0101] then 0b10
  else 0b11

/-- `addToRoundBit`. fp_flopoco_add_single_v1.hpp:509-512. -/
def roundBit (lsb grd rnd stk : Bool) : Bool := !(!lsb && grd && !rnd && !stk)

/-- `addToRoundBit` as written in v4: 1 exactly in the case in which the other versions have 0.
fp_flopoco_add_single_v4.hpp:488. -/
def roundBitV4 (lsb grd rnd stk : Bool) : Bool := !lsb && grd && !rnd && !stk

/-- Exponent and rounded fraction, in `wE+wF+3` bits with the guard bit lowest, from the exponent of the larger
operand, the normalised sum and the leading-zero count. `zpad_hi<wE+2-lzocCountWidth>` needs
`intlog2<wF+5> <= wE+2` at compile time. fp_flopoco_add_single_v1.hpp:428,472-524. -/
def roundedExpFrac (rule : Bool → Bool → Bool → Bool → Bool) (wE wF expX shiftedFrac nZeros : ℕ) : ℕ :=
  let updatedExp := subW (wE + 2) (addW (wE + 2) expX 1) nZeros
  let expFrac := concat (wF + 1) updatedExp (getBits (wF + 3) 3 shiftedFrac)
  let stk := getBit 1 shiftedFrac || getBit 0 shiftedFrac
  let add := rule (getBit 4 shiftedFrac) (getBit 3 shiftedFrac) (getBit 2 shiftedFrac) stk
  addW (wE + wF + 3) expFrac add.toNat

/-- The result word from the rounded sum (`T`), whether the sum is zero (`isZero`, the count is all ones) and
the signs and flags of the ordered operands. fp_flopoco_add_single_v1.hpp:254,273-295,537-593. -/
def pack (wE wF signX signY excX excY T : ℕ) (isZero : Bool) : Fp wE wF :=
  let sXsYExnXY := concat 2 (concat 2 (concat 1 signX signY) excX) excY
  let excRt := excRtLut sXsYExnXY
  let signR := if sXsYExnXY = 0b100000 ∨ sXsYExnXY = 0b010000 then 0 else signX
  let effSub := signX != signY
  let upExc := getBits (wE + wF + 2) (wE + wF + 1) T
  let fracR := getBits wF 1 T
  let expR := getBits (wF + wE) (wF + 1) T
  let excRt2 := excRt2Lut (concat 2 upExc excRt)
  let excR := if isZero && effSub && excRt2 == 0b01 then 0b00 else excRt2
  let signR2 := if isZero && effSub && excR == 0b00 then 0 else signR
  Fp.mk4 wE wF excR signR2 expR fracR

/-- The adder after the operands have been ordered. `norm` is the normaliser applied to `fracGRS`.
fp_flopoco_add_single_v1.hpp:242-595. -/
def core (rule : Bool → Bool → Bool → Bool → Bool) (norm : ℕ → Option (ℕ × ℕ)) {wE wF : ℕ} (newX newY : Fp wE wF) :
    Option (Fp wE wF) :=
  let effSub := newX.sign != newY.sign
  let expDiff := subW (wE + 1) newX.exp newY.exp
  let fracY := if newY.flags = 0b00 then 0 else opadHi1 wF newY.frac
  match shiftVal? wE wF expDiff with
  | none => none
  | some shiftVal =>
    match addAlign? wF 0 fracY shiftVal with
    | none => none
    | some (yFar, sticky) =>
      let fracGRS := concat 1 (addFar wF newX.frac yFar effSub sticky) sticky.toNat
      match norm fracGRS with
      | none => none
      | some (shiftedFrac, nZeros) =>
        some (pack wE wF newX.sign newY.sign newX.flags newY.flags
          (roundedExpFrac rule wE wF newX.exp shiftedFrac nZeros) (decide (nZeros = ones (intlog2 (wF + 5)))))

/-- `add_single<wE,wF>(x,y)` of v1 for operands already in the result format. v2 is the same function (its
tables are written as selects). fp_flopoco_add_single_v1.hpp:157-596, fp_flopoco_add_single_v2.hpp:133-412. -/
def addSame {wE wF : ℕ} (x y : Fp wE wF) : Option (Fp wE wF) :=
  let swap := decide (x.flagsExpFrac < y.flagsExpFrac)
  core roundBit (lzoc? (wF + 5) (intlog2 (wF + 5))) (if swap then y else x) (if swap then x else y)

/-- `add_single` of v1 for operands of different formats: both are promoted first; the result format is the
larger one (static assertion). fp_flopoco_add_single_v1.hpp:174-185. -/
def add {wEX wFX wEY wFY : ℕ} (x : Fp wEX wFX) (y : Fp wEY wFY) : Option (Fp (max wEX wEY) (max wFX wFY)) :=
  addSame (promote (max wEX wEY) (max wFX wFY) x) (promote (max wEX wEY) (max wFX wFY) y)

/-- `add_single` of v4: the inverted rounding rule, and one more assertion (`shiftVal < wF+4`).
fp_flopoco_add_single_v4.hpp:158-570. -/
def addSameV4 {wE wF : ℕ} (x y : Fp wE wF) : Option (Fp wE wF) :=
  let swap := decide (x.flagsExpFrac < y.flagsExpFrac)
  let newX := if swap then y else x
  let newY := if swap then x else y
  match shiftVal? wE wF (subW (wE + 1) newX.exp newY.exp) with
  | none => none
  | some s => if s < wF + 4 then core roundBitV4 (lzoc? (wF + 5) (intlog2 (wF + 5))) newX newY else none

/-- The comparison of v5 uses only the fraction bits both operands have.
fp_flopoco_add_single_v5.hpp:62-86. -/
def swapV5 {wEX wFX wEY wFY : ℕ} (x : Fp wEX wFX) (y : Fp wEY wFY) : Bool :=
  let wE := max wEX wEY
  let m := min wFX wFY
  let kx := concat m (concat wE x.flags (promoteExp wE wEX x.exp)) (getBits (wFX - 1) (wFX - m) x.bits)
  let ky := concat m (concat wE y.flags (promoteExp wE wEY y.exp)) (getBits (wFY - 1) (wFY - m) y.bits)
  if wFX < wFY then decide (kx ≤ ky) else decide (kx < ky)

/-- `add_single_v5`. fp_flopoco_add_single_v5.hpp:14-312. -/
def addV5 {wEX wFX wEY wFY : ℕ} (x : Fp wEX wFX) (y : Fp wEY wFY) : Option (Fp (max wEX wEY) (max wFX wFY)) :=
  let x' := promote (max wEX wEY) (max wFX wFY) x
  let y' := promote (max wEX wEY) (max wFX wFY) y
  let swap := swapV5 x y
  core roundBit (lzoc? (max wFX wFY + 5) (intlog2 (max wFX wFY + 5))) (if swap then y' else x') (if swap then x' else y')

/-- `clz` on a byte. `u` is the value of `__builtin_clz(0)`, which is unspecified (formally undefined
behaviour; the result is not used in that case). fp_flopoco_add_single_v3.hpp:112-115. -/
def clz8 (u b : ℕ) : ℕ := if b = 0 then u % 8 else 7 - Nat.log2 b

/-- `LZOCShifterCLZ`. For a zero word `out` is an uninitialised variable in the code; its value is the
parameter `v`. fp_flopoco_add_single_v3.hpp:126-161. -/
def lzocClz (u v x0 : ℕ) : ℕ × ℕ :=
  let b0 := getBits 31 24 x0
  let b1 := getBits 23 16 x0
  let b2 := getBits 15 8 x0
  let b3 := getBits 7 0 x0
  if b0 ≠ 0 then (x0 * 2 ^ clz8 u b0 % 2 ^ 32, concat 3 0b00 (clz8 u b0))
  else if b1 ≠ 0 then (x0 * 2 ^ 8 % 2 ^ 32 * 2 ^ clz8 u b1 % 2 ^ 32, concat 3 0b01 (clz8 u b1))
  else if b2 ≠ 0 then (x0 * 2 ^ 16 % 2 ^ 32 * 2 ^ clz8 u b2 % 2 ^ 32, concat 3 0b10 (clz8 u b2))
  else if b3 ≠ 0 then (x0 * 2 ^ 24 % 2 ^ 32 * 2 ^ clz8 u b3 % 2 ^ 32, concat 3 0b11 (clz8 u b3))
  else (v % 2 ^ 32, ones 5)

/-- `add_single` of v3: the normaliser works on 32 bits, so the code compiles only for `16 <= wF+5 < 32`.
fp_flopoco_add_single_v3.hpp:165-458. -/
def addSameV3 (u v : ℕ) {wE wF : ℕ} (x y : Fp wE wF) : Option (Fp wE wF) :=
  let swap := decide (x.flagsExpFrac < y.flagsExpFrac)
  core roundBit (fun g => let r := lzocClz u v (concat (32 - wF - 5) g 0); some (getBits 31 (32 - (wF + 5)) r.1, r.2))
    (if swap then y else x) (if swap then x else y)

end AddSingle

/-! ## Dual path -/

namespace AddDual

/-- Shift distance from the exponent difference (`wE` bits). fp_flopoco_add_dual_v1.hpp:118-153. -/
def shiftVal (wE wF expDiff : ℕ) : ℕ :=
  let srs := intlog2 (wF + 3)
  if wE > srs then
    (let shiftedOut := decide (getBits (wE - 1) srs expDiff ≠ 0)
     if !shiftedOut then getBits (srs - 1) 0 expDiff else wF + 3)
  else expDiff

/-- `pad1`. fp_flopoco_add_dual_v1.hpp:350. -/
def pad1 (wF : ℕ) : ℕ := if wF = 5 ∨ wF = 13 ∨ wF = 29 then 2 else 0

/-- Close path: the sign of the difference and its magnitude in `wF+2` bits. `dLsb` is the low bit of the
exponent difference. fp_flopoco_add_dual_v1.hpp:199-236. -/
def closeDiff (wF fracX fracY : ℕ) (dLsb : Bool) : Bool × ℕ :=
  let fracXClose1 := concat 1 (concat wF 0b01 fracX) 0
  let fracYClose1 := if dLsb then concat wF 0b001 fracY else concat 1 (concat wF 0b01 fracY) 0
  let xMy := subW (wF + 3) fracXClose1 fracYClose1
  let yMx := subW (wF + 3) fracYClose1 fracXClose1
  let fracSignClose := getBit (wF + 2) xMy
  (fracSignClose, if !fracSignClose then getBits (wF + 1) 0 xMy else getBits (wF + 1) 0 yMx)

/-- Close path after normalisation: exponent and fraction before rounding, and the round-up bit.
`zpad_hi<wE-lzocCountWidth+2>` needs `intlog2<wF+2> <= wE+2` at compile time.
fp_flopoco_add_dual_v1.hpp:283-307. -/
def closeRound (wE wF expX shiftedFrac nZeros : ℕ) : ℕ × Bool :=
  (concat wF (subW (wE + 2) expX nZeros) (getBits wF 1 shiftedFrac), getBit 0 shiftedFrac && getBit 1 shiftedFrac)

/-- Far path after the addition: normalisation by at most one position either way, exponent and fraction before
rounding, and the round-up bit. fp_flopoco_add_dual_v1.hpp:435-560. -/
def farRound (wE wF expX res : ℕ) (sticky : Bool) : ℕ × Bool :=
  let lead := getBits (wF + 3) (wF + 2) res
  let frac := if lead = 0b00 then getBits wF 1 res else if lead = 0b01 then getBits (wF + 1) 2 res
    else getBits (wF + 2) 3 res
  let round := if lead = 0b00 then getBit 0 res else if lead = 0b01 then getBit 1 res else getBit 2 res
  let stk := if lead = 0b00 then sticky else if lead = 0b01 then sticky || getBit 0 res
    else sticky || getBit 0 res || getBit 1 res
  let expUpdate := if lead = 0b00 then ones (wE + 2) else if lead = 0b01 then 0 else 1
  (concat wF (addW (wE + 2) expX expUpdate) frac, round && (stk || getBit 0 frac))

/-- Rounding, range check, exceptions and packing. `pre` and `up` are the selected path's result and round-up
bit. fp_flopoco_add_dual_v1.hpp:633-783. -/
def pack (wE wF : ℕ) (newX newY : Fp wE wF) (resSign pre : ℕ) (up zeroFromClose : Bool) : Fp wE wF :=
  let resultRounded := addW (wE + wF + 2) pre up.toNat
  let uo := getBits (wE + wF + 1) (wE + wF) resultRounded
  let hi := if uo = 0b01 then concat 1 (!zeroFromClose).toNat 0
    else if uo = 0b10 ∨ uo = 0b11 then 0b00
    else (!zeroFromClose).toNat
  let exnXY := concat 2 newX.flags newY.flags
  let exnR := if exnXY = 0b0101 then hi
    else if exnXY = 0b1010 then concat 1 1 (newX.sign != newY.sign).toNat
    else if exnXY = 0b1110 then 0b11
    else newX.flags
  let sgnR := if exnXY = 0b0101 then resSign
    else if exnXY = 0b0000 then (if newX.sign = 1 ∧ newY.sign = 1 then 1 else 0)
    else newX.sign
  let expsigR := if exnXY = 0b0101 then getBits (wE + wF - 1) 0 resultRounded else newX.expFrac
  Fp.ofBits wE wF (concat (wE + wF) (concat 1 exnR sgnR) expsigR)

/-- The adder after the operands have been ordered. fp_flopoco_add_dual_v1.hpp:108-786. -/
def core {wE wF : ℕ} (newX newY : Fp wE wF) : Option (Fp wE wF) :=
  let expDiff := subW wE newX.exp newY.exp
  let effSub := newX.sign != newY.sign
  let close := if getBits (wE - 1) 1 expDiff = 0 then effSub else false
  let cd := closeDiff wF newX.frac newY.frac (getBit 0 expDiff)
  let resSign := if close && decide (cd.2 = 0) then 0 else (newX.sign + (close && cd.1).toNat) % 2
  match lzoc? (wF + 2) (intlog2 (wF + 2)) cd.2, addAlign? wF (pad1 wF) (opadHi1 wF newY.frac) (shiftVal wE wF expDiff) with
  | some (shiftedFrac, nZeros), some (yFar, sticky) =>
    let c := closeRound wE wF newX.exp shiftedFrac nZeros
    let f := farRound wE wF newX.exp (addFar wF newX.frac yFar effSub sticky) sticky
    some (pack wE wF newX newY resSign (if close then c.1 else f.1) (if close then c.2 else f.2)
      (close && decide (nZeros = ones (intlog2 (wF + 2)))))
  | _, _ => none

/-- `add_dual<wE,wF>(x,y)` for operands already in the result format; the swap compares flags and exponents
only. fp_flopoco_add_dual_v1.hpp:12-787. -/
def addSame {wE wF : ℕ} (x y : Fp wE wF) : Option (Fp wE wF) :=
  let diffXY := subW (wE + 1) x.exp y.exp
  let swap := (decide (x.flags = y.flags) && getBit wE diffXY) || !decide (x.flags ≥ y.flags)
  core (if swap then y else x) (if swap then x else y)

/-- `add_dual` (alias `add_fast`) for operands of different formats: both are promoted first; the result format
is the larger one. Static assertion `wE > 3`. fp_flopoco_add_dual_v1.hpp:17-27,789-793. -/
def add {wEX wFX wEY wFY : ℕ} (x : Fp wEX wFX) (y : Fp wEY wFY) : Option (Fp (max wEX wEY) (max wFX wFY)) :=
  addSame (promote (max wEX wEY) (max wFX wFY) x) (promote (max wEX wEY) (max wFX wFY) y)

end AddDual
end Thls
