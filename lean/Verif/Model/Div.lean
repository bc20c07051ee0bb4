import Verif.Model.Convert

/-! # Division by digit recurrence (fp_flopoco_div_v1.hpp, fp_flopoco_div_v2.hpp) -/

namespace Thls

/-- The exception table of the divider: `exnR0` from the flags of the operands.
fp_flopoco_div_v1.hpp:74,86-91; fp_flopoco_div_v2.hpp:69,79-84. -/
def divExc (fx fy : ℕ) : ℕ :=
  let exnXY := concat 2 fx fy
  if exnXY = 0b0101 then 0b01
  else if exnXY = 0b0001 ∨ exnXY = 0b0010 ∨ exnXY = 0b0110 then 0b00
  else if exnXY = 0b0100 ∨ exnXY = 0b1000 ∨ exnXY = 0b1001 then 0b10
  else 0b11

/-- The digit selection table: three-bit two's-complement quotient digit from the five selection bits.
fp_flopoco_div_v1.hpp:174-192. -/
def srtTable (sel : ℕ) : ℕ :=
  match sel with
  | 0b00010 | 0b00011 => 0b001
  | 0b00100 | 0b00101 | 0b00111 => 0b010
  | 0b00110 | 0b01000 | 0b01001 | 0b01010 | 0b01011 | 0b01101 | 0b01111 => 0b011
  | 0b11000 | 0b10110 | 0b10111 | 0b10100 | 0b10101 | 0b10011 | 0b10001 => 0b101
  | 0b11010 | 0b11011 | 0b11001 => 0b110
  | 0b11100 | 0b11101 => 0b111
  | _ => 0b000

/-- The selection bits: the four top bits of the partial remainder and the first fraction bit of the
divisor. fp_flopoco_div_v1.hpp:143; fp_flopoco_div_v2.hpp:121. -/
def srtSel (wF w fY : ℕ) : ℕ := concat 1 (getBits (wF + 2) (wF - 1) w) (getBit (wF - 1) fY).toNat

/-- `fYTimes3` in `wF+3` bits. fp_flopoco_div_v1.hpp:100. -/
def fYTimes3 (wF fY : ℕ) : ℕ := addW (wF + 3) fY (concat 1 fY 0)

/-- `qTimesD`: the multiple of the divisor for a digit. fp_flopoco_div_v1.hpp:201-206. -/
def qTimesD (wF fY q : ℕ) : ℕ :=
  if q = 0b001 ∨ q = 0b111 then fY
  else if q = 0b010 ∨ q = 0b110 then concat 1 fY 0
  else if q = 0b011 ∨ q = 0b101 then fYTimes3 wF fY
  else 0

/-- The next full partial remainder (`wF+4` bits) of version 1. fp_flopoco_div_v1.hpp:210-217. -/
def srtFull1 (wF w fY : ℕ) : ℕ :=
  let q := srtTable (srtSel wF w fY)
  let wpad := concat 1 w 0
  if getBit 2 q = false then subW (wF + 4) wpad (qTimesD wF fY q)
  else addW (wF + 4) wpad (qTimesD wF fY q)

/-- `add_sub(doSub, x, y)`. fw_uint.hpp:411-422. -/
def addSub (w : ℕ) (doSub : Bool) (x y : ℕ) : ℕ :=
  addW w (addW w x (if doSub then notW w y else y)) doSub.toNat

/-- The switch of version 2 that sets the digit, the addend `Bin` and the subtract flag `Cin` together.
fp_flopoco_div_v2.hpp:158-196. -/
def srtSwitch2 (wF fY sel : ℕ) : ℕ × ℕ × Bool :=
  match sel with
  | 0b00010 | 0b00011 => (0b001, fY, true)
  | 0b00100 | 0b00101 | 0b00111 => (0b010, concat 1 fY 0, true)
  | 0b00110 | 0b01000 | 0b01001 | 0b01010 | 0b01011 | 0b01101 | 0b01111 => (0b011, fYTimes3 wF fY, true)
  | 0b11000 | 0b10110 | 0b10111 | 0b10100 | 0b10101 | 0b10011 | 0b10001 => (0b101, fYTimes3 wF fY, false)
  | 0b11010 | 0b11011 | 0b11001 => (0b110, concat 1 fY 0, false)
  | 0b11100 | 0b11101 => (0b111, fY, false)
  | _ => (0b000, 0, false)

/-- The next full partial remainder of version 2. fp_flopoco_div_v2.hpp:121-197. -/
def srtFull2 (wF w fY : ℕ) : ℕ :=
  let s := srtSwitch2 wF fY (srtSel wF w fY)
  addSub (wF + 4) s.2.2 (concat 1 w 0) s.2.1

/-- `zpad_lo<1>(get_bits<wF+1,0>(wfull))`: the next partial remainder (`wF+3` bits).
fp_flopoco_div_v1.hpp:225; fp_flopoco_div_v2.hpp:200. -/
def srtNext (wF wfull : ℕ) : ℕ := concat 1 (getBits (wF + 1) 0 wfull) 0

/-- The partial remainder after `j` iterations of the loop: `w[nDigit-1-j]`. `full` is the full-remainder
function of the version. fp_flopoco_div_v1.hpp:127-226. -/
def srtRem (full : ℕ → ℕ → ℕ → ℕ) (wF fX fY : ℕ) : ℕ → ℕ
  | 0 => fX
  | j + 1 => srtNext wF (full wF (srtRem full wF fX fY j) fY)

/-- `q[0]`, from the last partial remainder. fp_flopoco_div_v1.hpp:230-233. -/
def srtLast (wF w0 : ℕ) : ℕ :=
  if getBits (wF + 2) 0 w0 = 0 then 0b000 else concat 2 (getBit (wF + 2) w0).toNat 0b10

/-- The digits `q[i]`, `i = nDigit-1 .. 0`. fp_flopoco_div_v1.hpp:130-233. -/
def divDigit (full : ℕ → ℕ → ℕ → ℕ) (n wF fX fY i : ℕ) : ℕ :=
  if i = 0 then srtLast wF (srtRem full wF fX fY (n - 1))
  else srtTable (srtSel wF (srtRem full wF fX fY (n - 1 - i)) fY)

/-- `concat_array<HI,0>(x)` of an array of `fw_uint<W>`. fw_uint.hpp:663-682. -/
def concatArray (W : ℕ) (x : ℕ → ℕ) : ℕ → ℕ
  | 0 => x 0
  | hi + 1 => concat ((hi + 1) * W) (x (hi + 1)) (concatArray W x hi)

/-- `qP[i]`: the two low bits of the digit. fp_flopoco_div_v1.hpp:257,263. -/
def digitP (q : ℕ) : ℕ := getBits 1 0 q

/-- `qM[i]`: the sign bit of the digit followed by a zero. fp_flopoco_div_v1.hpp:259,265. -/
def digitM (q : ℕ) : ℕ := concat 1 (getBit 2 q).toNat 0

/-- `fR0`: the quotient in ordinary binary (`2*nDigit` bits), from the digits.
fp_flopoco_div_v1.hpp:274-302. -/
def divQuot (n : ℕ) (q : ℕ → ℕ) : ℕ :=
  let qPcat := concatArray 2 (fun i => digitP (q i)) (n - 1)
  let qMcat := concat 1 (concat (2 * (n - 1)) (getBit 0 (digitM (q (n - 1)))).toNat
    (concatArray 2 (fun i => digitM (q i)) (n - 2))) 0
  subW (2 * n) qPcat qMcat

/-- `fR`: the quotient in `wF+4` bits, the last one a sticky bit. fp_flopoco_div_v1.hpp:311-316. -/
def divFR (wF n fR0 : ℕ) : ℕ :=
  if wF % 2 = 1 then getBits (2 * n - 1) 1 fR0
  else concat 1 (getBits (2 * n - 1) 3 fR0) (getBit 2 fR0 || getBit 1 fR0).toNat

/-- `fRn1`: the normalised quotient in `wF+2` bits, without its leading one. fp_flopoco_div_v1.hpp:328-331. -/
def divNorm (wF fR : ℕ) : ℕ :=
  if getBit (wF + 3) fR then concat 1 (getBits (wF + 2) 2 fR) (getBit 1 fR || getBit 0 fR).toNat
  else getBits (wF + 1) 0 fR

/-- `expR1`: the exponent difference with the bias added back. fp_flopoco_div_v1.hpp:64,340. -/
def divExp (wE ex ey : ℕ) (norm : Bool) : ℕ :=
  addW (wE + 2) (subW (wE + 2) ex ey) (concat 1 (ones (wE - 2)) norm.toNat)

/-- Range check: `exnR`. fp_flopoco_div_v1.hpp:372-376. -/
def divRange (t : ℕ) : ℕ :=
  if getBit 1 t then 0b00 else if t = 0b01 then 0b10 else 0b01

/-- Rounding and packing. fp_flopoco_div_v1.hpp:349-404. -/
def divPack (wE wF exnR0 sR expR1 fRn1 : ℕ) : Fp wE wF :=
  let round := getBit 1 fRn1 && (getBit 2 fRn1 || getBit 0 fRn1)
  let expfrac := concat wF expR1 (getBits (wF + 1) 2 fRn1)
  let expfracR := addW (wE + wF + 2) expfrac round.toNat
  let exnR := divRange (getBits (wE + wF + 1) (wE + wF) expfracR)
  let exnRfinal := if exnR0 = 0b01 then exnR else exnR0
  Fp.ofBits wE wF (concat (wE + wF) (concat 1 exnRfinal sR) (getBits (wE + wF - 1) 0 expfracR))

/-- `fR` of two significands. fp_flopoco_div_v1.hpp:127-316. -/
def divSig (full : ℕ → ℕ → ℕ → ℕ) (wF fX fY : ℕ) : ℕ :=
  divFR wF ((wF + 6) / 2) (divQuot ((wF + 6) / 2) (divDigit full ((wF + 6) / 2) wF fX fY))

/-- Division in one format. fp_flopoco_div_v1.hpp:45-404. -/
def divSame (full : ℕ → ℕ → ℕ → ℕ) {wE wF : ℕ} (x y : Fp wE wF) : Fp wE wF :=
  let fR := divSig full wF (opadHi1 wF x.frac) (opadHi1 wF y.frac)
  divPack wE wF (divExc x.flags y.flags) ((x.sign + y.sign) % 2)
    (divExp wE x.exp y.exp (getBit (wF + 3) fR)) (divNorm wF fR)

/-- `div_v1<wER,wFR>(x,y)`; static assertions require the result format to be at least as wide as both
operands (`wE==wER`, `wF==wFR` after taking maxima), which is a hypothesis of the theorems.
fp_flopoco_div_v1.hpp:28-404. -/
def divV1 (wER wFR : ℕ) {wEX wFX wEY wFY : ℕ} (x : Fp wEX wFX) (y : Fp wEY wFY) : Fp wER wFR :=
  divSame srtFull1 (promote wER wFR x) (promote wER wFR y)

/-- `div_v2<wER,wFR>(x,y)`; here the static assertions fix the result format to the maximum of the two
operand formats. fp_flopoco_div_v2.hpp:28-377. -/
def divV2 (wER wFR : ℕ) {wEX wFX wEY wFY : ℕ} (x : Fp wEX wFX) (y : Fp wEY wFY) : Fp wER wFR :=
  divSame srtFull2 (promote wER wFR x) (promote wER wFR y)

end Thls
