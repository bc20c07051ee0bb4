import Verif.Model.Flopoco

/-! # Multiplication (fp_flopoco_mul_v1.hpp) -/

namespace Thls

/-- The exception table of the multiplier: flags of the result before the range check, from the flags of
the operands. fp_flopoco_mul_v1.hpp:52-70. -/
def mulExc (fx fy : ℕ) : ℕ :=
  let excSel := concat 2 fx fy
  if excSel = 0b0000 ∨ excSel = 0b0001 ∨ excSel = 0b0100 then 0b00
  else if excSel = 0b0101 then 0b01
  else if excSel = 0b0110 ∨ excSel = 0b1001 ∨ excSel = 0b1010 then 0b10
  else 0b11

/-- Exponent after normalisation: `expX + expY - bias + norm` in `wE+2` bits (the bias is that of the
result's exponent width). fp_flopoco_mul_v1.hpp:20-33,84-86. -/
def mulExp (wER wE ex ey : ℕ) (norm : Bool) : ℕ :=
  addW (wE + 2) (subW (wE + 2) (addW (wE + 2) ex ey) (biasN wER)) norm.toNat

/-- Significand product normalised to the left, without its leading one, in `n` = `sigProdSize` bits.
fp_flopoco_mul_v1.hpp:119-121. -/
def mulSigExt (n : ℕ) (norm : Bool) (sigProd : ℕ) : ℕ :=
  if norm then concat 1 (getBits (n - 2) 0 sigProd) 0 else concat 2 (getBits (n - 3) 0 sigProd) 0

/-- The select of the final exception flags. fp_flopoco_mul_v1.hpp:115,147. -/
def mulFinalExc (exc excPostNorm : ℕ) : ℕ :=
  if exc = 0b11 ∨ exc = 0b10 ∨ exc = 0b00 then exc else excPostNorm

/-- Rounding of the normalised product (`n` = `sigProdSize` = `wFX+wFY+2`) and packing.
fp_flopoco_mul_v1.hpp:123-149. -/
def mulRound (wE wFR n exc sign expPostNorm sigProdExt : ℕ) : Fp wE wFR :=
  let expSig := concat wFR expPostNorm (getBits (n - 1) (n - wFR) sigProdExt)
  let sticky := getBit (n - 1 - wFR) sigProdExt
  let guard := !(getBits (n - 1 - wFR - 1) 0 sigProdExt == 0)
  let lsb := getBit (n - 1 - wFR + 1) sigProdExt
  let round := sticky && ((guard && !lsb) || lsb)
  let expSigPostRound := addW (2 + wE + wFR) expSig round.toNat
  let expSigPostRoundB := getBits (wE + wFR + 1) (wE + wFR) expSigPostRound
  let excPostNorm := if expSigPostRoundB = 0b00 then 0b01
    else if expSigPostRoundB = 0b01 then 0b10
    else 0b00
  Fp.ofBits wE wFR (concat (wE + wFR) (concat 1 (mulFinalExc exc excPostNorm) sign)
    (getBits (wE + wFR - 1) 0 expSigPostRound))

/-- The product padded on the right with zeros, without its leading one. `nF` = `wFX+wFY`.
fp_flopoco_mul_v1.hpp:101-104. -/
def mulExactSig (wFR nF : ℕ) (norm : Bool) (sigProd : ℕ) : ℕ :=
  if norm then concat (1 + wFR - (nF + 2)) (getBits nF 0 sigProd) 0
  else concat (1 + wFR - (nF + 2) + 1) (getBits (nF - 1) 0 sigProd) 0

/-- The exact path: no rounding. `nF` = `wFX+wFY`. fp_flopoco_mul_v1.hpp:98-117. -/
def mulExact (wER wFR nF exc sign expPostNorm : ℕ) (norm : Bool) (sigProd : ℕ) : Fp wER wFR :=
  let resSig := mulExactSig wFR nF norm sigProd
  let expPostNormB := getBits (wER + 1) wER expPostNorm
  let excPostNorm := if expPostNormB = 0b00 then 0b01
    else if expPostNormB = 0b01 then 0b10
    else 0b11
  Fp.mk4 wER wFR (mulFinalExc exc excPostNorm) sign (getBits (wER - 1) 0 expPostNorm) resSig

/-- `mul_v1<wER,wFR>(x,y)`. The two operands have the same exponent width (the addition at line 24 does not
type-check otherwise). `none` is the failing assertion of `checked_cast` at line 123 (result exponent width
different from the operands' on the rounding path), of `get_bits` at line 106 (result exponent wider than the operands' on
the exact path; fw_uint_on_masked_uint.hpp:702) or of the constant constructor at line 25.
fp_flopoco_mul_v1.hpp:9-153. -/
def mulV1 (wER wFR : ℕ) {wE wFX wFY : ℕ} (x : Fp wE wFX) (y : Fp wE wFY) : Option (Fp wER wFR) :=
  let sign := (x.sign + y.sign) % 2
  let sigProd := opadHi1 wFX x.frac * opadHi1 wFY y.frac
  let exc := mulExc x.flags y.flags
  let norm := getBit (wFX + 1 + wFY + 1 - 1) sigProd
  if 2 ^ (wE + 2) ≤ biasN wER then none
  else if 1 + wFR ≥ wFX + wFY + 2 then
    if wE < wER then none
    else some (mulExact wER wFR (wFX + wFY) exc sign (mulExp wER wE x.exp y.exp norm) norm sigProd)
  else if wER ≠ wE then none
  else some (mulRound wER wFR (wFX + 1 + wFY + 1) exc sign (mulExp wER wE x.exp y.exp norm)
    (mulSigExt (wFX + 1 + wFY + 1) norm sigProd))

end Thls
